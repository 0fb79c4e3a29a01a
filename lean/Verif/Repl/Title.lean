import Verif.Util
import Verif.Fs.Model
import Verif.Prompt.Git
/-!
What the shell tells the terminal: the title of the window, the current directory (OSC 7) and the marks of prompts
and commands (OSC 133).
-/
namespace Dsh.Ttl

abbrev Str := List Char

def esc : Char := Char.ofNat 0x1b
def bel : Char := Char.ofNat 0x07

/-! ### The title -/

/-- One stage of a pipeline (process/job_process.rs:225-230): a program or a builtin, and its name. -/
structure Stage where
  external : Bool
  name : Str
deriving DecidableEq

/-- A job: its text and its stages. -/
structure Job where
  cmd : Str
  stages : List Stage
deriving DecidableEq

/-- `last_external_process_name` (terminal/title.rs:33-45). -/
def lastExternal : List Stage → Option Str
  | [] => none
  | p :: ps =>
    match lastExternal ps with
    | some n => some n
    | none => if p.external then some p.name else none

/-- `char::is_control`: the class `Cc`. -/
def isControl (c : Char) : Bool := c.toNat < 0x20 || (0x7f ≤ c.toNat && c.toNat ≤ 0x9f)

/-- `Path::file_name`: the last component unless it is `..` or the root. -/
def fileName (raw : Str) : Option Str :=
  match ((Dsh.Fs.splitSlash raw).filter fun w => w ≠ [] && w ≠ c!".").getLast? with
  | none => none
  | some w => if w = c!".." then none else some w

/-- `basename` (terminal/title.rs:67-76). -/
def basename (raw : Str) : Str := (fileName raw).getD raw

/-- `first_token` (terminal/title.rs:47-49). -/
def firstToken (cmd : Str) : Str := (Dsh.Prm.words cmd).head?.getD c!"dsh"

/-- `sanitize_title` (terminal/title.rs:51-65). -/
def sanitize (raw : Str) : Str :=
  let t := trim ((basename raw).filter fun c => !isControl c)
  if t = [] then c!"dsh"
  else
    let u := t.take 64
    if u = [] then c!"dsh" else u

/-- `command_title` (terminal/title.rs:23-31). -/
def commandTitle (j : Job) : Str :=
  match lastExternal j.stages with
  | some n => sanitize n
  | none => sanitize (firstToken j.cmd)

/-- `write_title` (terminal/title.rs:17-21). -/
def writeTitle (t : Str) : Str :=
  [esc] ++ c!"]0;" ++ t ++ [bel] ++ [esc] ++ c!"]2;" ++ t ++ [bel]

/-- `TitleGuard` (shell/eval.rs:21-42) around the job of a list: what is written before and after. -/
def around (interactive foreground : Bool) (j : Job) (body : Str) : Str :=
  if interactive && foreground then writeTitle (commandTitle j) ++ body ++ writeTitle c!"dsh"
  else body

/-! ### The directory -/

/-- The report in `print_prompt` (repl/render.rs:98-109); the names are taken to be valid UTF-8. -/
def osc7 (host cwd : Str) : Str := [esc] ++ c!"]7;file://" ++ host ++ cwd ++ [esc, '\\']

/-! ### The marks -/

/-- What appears on the terminal: marks, the two prompts, a command that ran with its result (`none` is an error), and a
command of the AI pipe. -/
inductive Out where
  | a | b | c
  | d (code : Int)
  | main | cont
  | ran (line : Str) (res : Option Int)
  | ai (line : Str)
deriving DecidableEq

/-- The lines kept so far, the line being edited, and what appeared. -/
structure S where
  multi : Str
  input : Str
  out : List Out
deriving DecidableEq

def S.put (s : S) (l : List Out) : S := { s with out := s.out ++ l }

/-- `print_prompt` (repl/render.rs:86-143), the marks and the kind of prompt only. -/
def printPrompt (s : S) : S := if s.multi ≠ [] then s.put [.cont] else s.put [.a, .main]

/-- The terminal can be read, and what the command returns. -/
structure Res where
  ok : Bool
  code : Option Int
deriving DecidableEq

/-- The common part of both ways to run a line (key_handlers/execution.rs:92-234 and 242-304). -/
def runLine (r : Res) (s : S) : S :=
  if s.input = [] then printPrompt s
  else if !r.ok then printPrompt (s.put [.d 1])
  else printPrompt { s.put [.c, .ran s.input r.code, .d (r.code.getD 1)] with input := [] }

/-- `handle_execute` (key_handlers/execution.rs:15-235) without abbreviations and the transient prompt; `incomplete` and `isAi` say whether a
text needs more lines and whether it is a pipe into the AI, whose `run_ai_pipe` (repl/mod.rs:1253-1324) draws a prompt only when it gets an answer (`r.ok`). -/
def enter (incomplete isAi : Str → Bool) (r : Res) (s : S) : S :=
  let t := s.multi ++ s.input
  if incomplete t then printPrompt { s with multi := t ++ ['\n'], input := [] }
  else if isAi t then
    let s := { s.put [.ai t] with multi := [], input := [] }
    if r.ok then printPrompt s else s
  else runLine r { s with multi := [], input := t }

/-- `handle_execute_background` (key_handlers/execution.rs:238-305). -/
def background (r : Res) (s : S) : S := runLine r s

/-- `handle_interrupt` (key_handlers/execution.rs:308-347) in a release build. -/
def interrupt (s : S) : S := { printPrompt (s.put [.d 130]) with multi := [], input := [] }

/-- `handle_clear_screen` (key_handlers/auxiliary.rs:37-45). -/
def clearScreen (s : S) : S := { printPrompt s with input := [] }

/-- `print_input` (repl/render.rs:212-289) after an edit: the mark `B`. -/
def edit (line : Str) (s : S) : S := { s.put [.b] with input := line }

inductive Ev where
  | edit (line : Str)
  | enter (r : Res)
  | background (r : Res)
  | interrupt
  | clearScreen
deriving DecidableEq

def step (incomplete isAi : Str → Bool) (s : S) : Ev → S
  | .edit l => edit l s
  | .enter r => enter incomplete isAi r s
  | .background r => background r s
  | .interrupt => interrupt s
  | .clearScreen => clearScreen s

/-- The shell starts with a prompt (repl/mod.rs:678-685). -/
def start : S := printPrompt ⟨[], [], []⟩

def runAll (incomplete isAi : Str → Bool) (evs : List Ev) : S := evs.foldl (step incomplete isAi) start

end Dsh.Ttl
