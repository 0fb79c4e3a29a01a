import Verif.Repl.AiHelpProps
import Verif.Repl.Keys
/-!
# Questions to the AI on Tab: `|? question` and `?? question`

`dsh/src/repl/mod.rs: detect_smart_pipe, detect_generative_command, expand_smart_pipe, run_generative_command`,
`dsh/src/repl/key_handlers/completion.rs: handle_trigger_completion`,
`dsh/src/ai_features/command.rs: expand_smart_pipe, run_generative_command`,
`dsh/src/ai_features/mod.rs: sanitize_code_block`.

The line with its caret is a text and the number of characters before the caret. The service is a function from the kind of
question and the text sent to the content of the answer; the JSON library is a parameter that reads a program with its
arguments. Simplified: the texts that only go to the log are not modelled, and what the completion does when no question is
answered is C112 to C126. The calls of tools a service may make while it answers are C65.
-/
namespace Dsh.AiTab

abbrev Str := List Char

/-- The text before and behind the last `xy` (`str::rfind`). -/
def rfind2 (x y : Char) : Str → Option (Str × Str)
  | [] => none
  | c :: s =>
    match rfind2 x y s with
    | some (a, b) => some (c :: a, b)
    | none => if c = x ∧ s.head? = some y then some ([], s.tail) else none

/-- `detect_smart_pipe` (mod.rs:1205-1214). -/
def pipeQuestion (line : Str) : Option Str :=
  match rfind2 '|' '?' line with
  | some (_, b) => if (trim b).isEmpty then none else some (trim b)
  | none => none

/-- `detect_generative_command` (mod.rs:1216-1225). -/
def lineQuestion (line : Str) : Option Str :=
  match trimStart line with
  | '?' :: '?' :: b => if (trim b).isEmpty then none else some (trim b)
  | _ => none

/-- Backquotes at both ends are cut (`trim_matches`). -/
def noTicks (s : Str) : Str :=
  ((s.dropWhile (fun c => decide (c = '`'))).reverse.dropWhile (fun c => decide (c = '`'))).reverse

/-- `sanitize_code_block` (ai_features/mod.rs:42-51). -/
def unfence (content : Str) : Str :=
  match noTicks content with
  | 'b' :: 'a' :: 's' :: 'h' :: '\n' :: s => s
  | 'j' :: 's' :: 'o' :: 'n' :: '\n' :: s => s
  | s => s

/-- Kinds of questions: they have prompts of their own (command.rs:28-31, 99-103). -/
inductive Kind where
  | pipe
  | line
deriving DecidableEq, Repr

/-- Everything around the line: the service if one is configured, the JSON library, the guard. -/
structure World where
  service : Option (Kind → Str → Option Str)
  parse : Str → Option (Str × List Str)
  level : Safety.Level
  allow : List Str

inductive Answer where
  | panic
  | failed
  | cmd (text : Str)
deriving DecidableEq, Repr

/-- The longest question in bytes (command.rs:26, 97). -/
def Kind.max : Kind → Nat
  | .pipe => 2000
  | .line => 5000

/-- The answer to a message (command.rs:38-79, 110-151). -/
def reply (w : World) (answer : Option Str) : Answer :=
  match answer with
  | none => .failed
  | some content =>
    match w.parse (unfence content) with
    | none => .failed
    | some (c, args) =>
      match Safety.suggest w.level w.allow c args with
      | none => .failed
      | some t => .cmd t

/-- `expand_smart_pipe` and `run_generative_command` (command.rs:16-79, 85-151, mod.rs:1189-1203): what is sent to the service,
and the outcome. -/
def ask (w : World) (k : Kind) (q : Str) : List Str × Answer :=
  match w.service with
  | none => ([], .failed)
  | some answer =>
    match Safety.sanitize q k.max with
    | none => ([], .panic)
    | some m => ([m], reply w (answer k m))

/-- What becomes of the line. -/
inductive Fate where
  /-- another line, the caret behind that many characters -/
  | set (line : Str) (caret : Nat)
  /-- the line and the caret stay, the completion goes on -/
  | complete (line : Str) (caret : Nat)
  | panic
deriving DecidableEq, Repr

structure Out where
  sent : List Str
  fate : Fate
deriving DecidableEq, Repr

/-- A line put in place of another one: the caret is at its end (`Input::reset`). -/
def reset (line : Str) : Fate := .set line line.length

/-- The second half of the key (completion.rs:88-100). -/
def tabLine (w : World) (line : Str) (caret : Nat) : Out :=
  match lineQuestion line with
  | none => ⟨[], .complete line caret⟩
  | some q =>
    match ask w .line q with
    | (s, .panic) => ⟨s, .panic⟩
    | (s, .failed) => ⟨s, .complete line caret⟩
    | (s, .cmd t) => ⟨s, reset t⟩

/-- `handle_trigger_completion` (completion.rs:65-100). -/
def tab (w : World) (line : Str) (caret : Nat) : Out :=
  match pipeQuestion line with
  | none => tabLine w line caret
  | some q =>
    match ask w .pipe q with
    | (s, .panic) => ⟨s, .panic⟩
    | (s, .failed) => ⟨s ++ (tabLine w line caret).sent, (tabLine w line caret).fate⟩
    | (s, .cmd t) =>
      match rfind2 '|' '?' line with
      | some (a, _) => ⟨s, reset (a ++ c!"| " ++ t)⟩
      | none => ⟨s ++ (tabLine w line caret).sent, (tabLine w line caret).fate⟩

end Dsh.AiTab
