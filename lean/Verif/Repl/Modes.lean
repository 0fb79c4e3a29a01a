import Verif.Jobs.Eval
/-!
The ways the shell is run — a script on its standard input, `-c`, `-l`, at a terminal — and how it is left
(dsh/src/lib.rs, repl/mod.rs, repl/key_handlers/execution.rs, dsh-builtin/src/lib.rs).

Running a line is the loop of `Verif/Jobs/Eval.lean`; reading a line into jobs and the verdict of the guard
are parameters that may look at everything.  Lines that begin with `!` (messages to the assistant), the
history, terminal modes and what is drawn are left out.  Characters stand for the bytes of the input.
-/
namespace Dsh.Modes
open Dsh.Shell Dsh.Eval

abbrev Str := List Char

/-- What is outside the job table: everything else, the text still to be read from descriptor 0, and
`exited` (shell/mod.rs:29). -/
structure W (σ : Type) where
  rest : σ
  stdin : Str
  exited : Bool

/-- Reading a line into jobs, the verdict of the guard, and starting jobs. -/
structure Cfg (σ V : Type) where
  jobsOf : W σ → Str → Option (List Job)
  verdict : W σ → List Job → Verdict
  M : Machine (W σ) V

/-- A job that is the builtin `exit` alone, in the foreground; any arguments (dsh-builtin/src/lib.rs:749-753
does not look at them). -/
def isExit (j : Job) : Bool :=
  j.foreground && !j.capture && j.structExprs.isEmpty &&
    match j.procs with
    | [⟨true, name :: _⟩] => name == c!"exit"
    | _ => false

/-- `exit` (dsh-builtin/src/lib.rs:749-753, shell/mod.rs:155-157): note it down and report 0. -/
def exitLaunch {σ : Type} (s : St (W σ)) : St (W σ) × Option PState :=
  ({ s with world := { s.world with exited := true } }, some (builtinState (.exitedWith 0)))

/-- The machine does this for `exit`. -/
def HasExit {σ V : Type} (M : Machine (W σ) V) : Prop :=
  ∀ s j, isExit j → M.launch s j = exitLaunch s

/-- `Shell::eval_str` (shell/mod.rs:132-149, shell/eval.rs:43-413): the status (`none` is an error) and the
state afterwards. -/
def evalText {σ V : Type} (C : Cfg σ V) (bg : Bool) (s : St (W σ)) (line : Str) : Option Nat × St (W σ) :=
  match C.jobsOf s.world line with
  | none => (none, s)
  | some js =>
    match C.verdict s.world js with
    | .denied => (some 1, s)
    | .cancelled => (some 130, s)
    | .go => let o := evalJobs C.M bg js s; (o.result, o.st)

/-! ### A script on the standard input -/

/-- Capacity of `BufReader::new` (lib.rs:642). -/
def chunk : Nat := 8192

/-- The text up to the first newline, and what follows it. -/
def takeLine : Str → Option (Str × Str)
  | [] => none
  | c :: r => if c = '\n' then some ([], r) else (takeLine r).map fun p => (c :: p.1, p.2)

/-- The next of `reader.lines()` (lib.rs:644) from the buffer and the descriptor: the line, what is left in
the buffer, what is left in the descriptor.  A carriage return stays; it is trimmed away by the caller. -/
def readLineGo : Nat → Str → Str → Option (Str × Str × Str)
  | fuel, buf, fd =>
    match takeLine buf with
    | some (l, b) => some (l, b, fd)
    | none =>
      match fuel, fd with
      | _, [] => if buf = [] then none else some (buf, [], [])
      | 0, _ => none
      | fuel + 1, fd => readLineGo fuel (buf ++ fd.take chunk) (fd.drop chunk)

/-- See `readLineGo`; each step takes at least one character from the descriptor. -/
def readLine (buf fd : Str) : Option (Str × Str × Str) := readLineGo fd.length buf fd

/-- The same state with this text left in the descriptor. -/
def atStdin {σ : Type} (x : Str) (s : St (W σ)) : St (W σ) := { s with world := { s.world with stdin := x } }

/-- A line of a script that was evaluated: its text, what a program started by it would read, its status. -/
structure Entry where
  line : Str
  seen : Str
  result : Option Nat
deriving DecidableEq

/-- The loop over the lines of a script (lib.rs:644-670): from this buffer and state these lines are
evaluated and this state is reached. -/
inductive Script {σ V : Type} (C : Cfg σ V) : Str → St (W σ) → List Entry → St (W σ) → Prop where
  | eof (buf s) : readLine buf s.world.stdin = none → Script C buf s [] s
  | blank (buf s l b fd tr s') : readLine buf s.world.stdin = some (l, b, fd) → trim l = [] →
      Script C b (atStdin fd s) tr s' → Script C buf s tr s'
  | stop (buf s l b fd) : readLine buf s.world.stdin = some (l, b, fd) → trim l = c!"exit" →
      Script C buf s [] (atStdin fd s)
  | line (buf s l b fd tr s') : readLine buf s.world.stdin = some (l, b, fd) → trim l ≠ [] → trim l ≠ c!"exit" →
      Script C b (evalText C false (atStdin fd s) (trim l)).2 tr s' →
      Script C buf s (⟨trim l, fd, (evalText C false (atStdin fd s) (trim l)).1⟩ :: tr) s'

/-- `run_interactive` when the standard input is no terminal (lib.rs:612-621, 639-672): lines evaluated, state,
status of the shell. -/
inductive PipeMode {σ V : Type} (C : Cfg σ V) (s : St (W σ)) : List Entry → St (W σ) → Nat → Prop where
  | failed : (evalText C false s c!"cd .").1 = none → PipeMode C s [] (evalText C false s c!"cd .").2 1
  | ran (c tr s') : (evalText C false s c!"cd .").1 = some c →
      Script C [] (evalText C false s c!"cd .").2 tr s' → PipeMode C s tr s' 0

/-! ### `-c` and `-l` -/

/-- `execute_command` (lib.rs:530-587): status of the shell, state. -/
def commandMode {σ V : Type} (C : Cfg σ V) (s : St (W σ)) (command : Str) : Nat × St (W σ) :=
  match evalText C false s command with
  | (some code, s) => (min code 255, s)
  | (none, s) => (1, s)

/-- What an expression of a Lisp script does: its value and the state, or an error. -/
structure LispCfg (τ E V : Type) where
  /-- the expressions of a text; `none` where the text is not one -/
  parse : Str → List (Option E)
  eval : τ → E → τ × Option V
  nil : V → Bool

/-- `LispEngine::run` (lisp/mod.rs:166-183). -/
def lispRun {τ E V : Type} (L : LispCfg τ E V) (s : τ) (src : Str) : τ × Option (Option V) :=
  match L.parse src with
  | [] => (s, some none)
  | none :: _ => (s, none)
  | some e :: _ =>
    match L.eval s e with
    | (s, some v) => (s, some (some v))
    | (s, none) => (s, none)

/-- `execute_lisp` (lib.rs:589-610) with a standard output that can be written: status of the shell, the value
that is printed, state. -/
def lispMode {τ E V : Type} (L : LispCfg τ E V) (s : τ) (src : Str) : Nat × Option V × τ :=
  match lispRun L s src with
  | (s, some (some v)) => (0, if L.nil v then none else some v, s)
  | (s, some none) => (0, none, s)
  | (s, none) => (1, none, s)

/-- The options (lib.rs:77-116). -/
structure Opts where
  lisp : Option Str
  command : Option Str

/-- What is run. -/
inductive Mode where
  | lisp (src : Str)
  | command (c : Str)
  | interactive
deriving DecidableEq

/-- The last step of `run_shell` (lib.rs:250-257). -/
def modeOf (o : Opts) : Mode :=
  match o.lisp with
  | some src => .lisp src
  | none =>
    match o.command with
    | some c => .command c
    | none => .interactive

/-! ### At a terminal -/

/-- What reaches the loop at the prompt: Enter on a text, a text run in the background, Ctrl-C (`true` when it
is the second press in time), the timer after which these jobs are left in the table, any other event. -/
inductive Ev where
  | line (l : Str)
  | bgLine (l : Str)
  | interrupt (second : Bool)
  | tick (jobs : List Job)
  | other

/-- State of the loop: `stopped_jobs_warned`, `should_exit` (repl/mod.rs:94, 104), and whether the loop has
ended. -/
structure Repl (σ : Type) where
  st : St (W σ)
  warned : Bool
  leaving : Bool
  ended : Bool

/-- The end of each round (repl/mod.rs:1107-1121). -/
def check {σ : Type} (r : Repl σ) : Repl σ :=
  if r.leaving || r.st.world.exited then
    if !r.st.table.isEmpty && !r.warned then
      { r with warned := true, leaving := false, st := { r.st with world := { r.st.world with exited := false } } }
    else { r with ended := true }
  else r

/-- What the event does (repl/mod.rs:715-1093; key_handlers/execution.rs:96-218, 238-293, 307-322).  Running a
line notes the time, and with it the warning is forgotten (repl/mod.rs:1070-1072); running one in the
background does not.  `debug` is `cfg!(debug_assertions)`. -/
def handle {σ V : Type} (C : Cfg σ V) (debug : Bool) (r : Repl σ) : Ev → Repl σ
  | .line l => if l = [] then r else { r with st := (evalText C false r.st l).2, warned := false }
  | .bgLine l => if l = [] then r else { r with st := (evalText C true r.st l).2 }
  | .interrupt second => if debug && second then { r with leaving := true } else r
  | .tick jobs => { r with st := { r.st with table := jobs } }
  | .other => r

/-- One round. -/
def step {σ V : Type} (C : Cfg σ V) (debug : Bool) (r : Repl σ) (e : Ev) : Repl σ :=
  if r.ended then r else check (handle C debug r e)

/-- A session. -/
def session {σ V : Type} (C : Cfg σ V) (debug : Bool) (r : Repl σ) (es : List Ev) : Repl σ := es.foldl (step C debug) r

end Dsh.Modes
