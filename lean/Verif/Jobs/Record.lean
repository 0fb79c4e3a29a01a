import Verif.Jobs.WiringList
import Verif.Hist.Output
/-!
What is recorded of the output of a command, and how it is used again: `execute_with_capture`
(`cmd |>` and `cmd |: (f $_)`), `capture_output_and_history` (every other command), the builtin behind
a line that begins with `|`, and the builtin `out`.

On top of the descriptors of `Verif.Jobs.Wiring`: what a program writes goes to what its stream is
connected to.  The terminal made for a job is as the kernel makes it: `posix_openpt` and `open`
(pty.rs:15-54) leave the output processing on, so that `\n` is read from the master side as `\r\n`.

Left out: what is typed while the command runs (the terminal echoes it to the master side as well),
bytes that are not UTF-8, and the time at which things are read.
-/
namespace Dsh.Record
open Dsh.Wire Dsh.OutHist
open Dsh.Shell (RKind)

abbrev Str := List Char

/-- One write: the number of the program, to its standard error or not, the text. -/
structure Write where
  prog : Nat
  err : Bool
  text : Str
deriving DecidableEq, Repr

/-- The stream of a program. -/
def stream (p : Prog) (err : Bool) : Option Obj := if err then p.stderr else p.stdout

/-- What is written to `o`, in order, by programs `ps` that write `log`.  A program that was not run
writes nothing. -/
def sent (o : Obj) (ps : List (Option Prog)) (log : List Write) : Str :=
  log.flatMap fun w =>
    match ps[w.prog]? with
    | some (some p) => if stream p w.err = some o then w.text else []
    | _ => []

/-! ### `cmd |>` -/

/-- `execute_with_capture` (eval.rs:417-502): two pipes, a copy of the context, the stages without a
terminal of their own, and the write ends closed at the end.  The read ends belong to the reading
threads, which end with the data.  Results: the context is dropped; the numbers of the pipes. -/
def capture (readable : Wire.Str → Bool) (ks : List Kind) (red : Option (RKind × Wire.Str)) (c : Ctx) (w : World) :
    World × Nat × Nat :=
  let n := w.pipes
  let (r1, x1, w) := w.pipe
  let (r2, x2, w) := w.pipe
  let c := { c with outfile := 1, errfile := x2, captured := some x1, foreground := true }
  let w := (stages readable none red ks c w).2
  let w := { w.caps.foldl World.close w with caps := [] }
  ((((w.close x1).close x2).close r1).close r2, n, n + 1)

/-- The texts of `execute_with_capture` (eval.rs:482-483), when the programs write `log`. -/
def captured (readable : Wire.Str → Bool) (ks : List Kind) (red : Option (RKind × Wire.Str)) (c : Ctx) (w : World)
    (log : List Write) : Str × Str :=
  let (w', n, m) := capture readable ks red c w
  let ps := w'.progs.drop w.progs.length
  (sent (.pipeW n) ps log, sent (.pipeW m) ps log)

/-! ### Every other command -/

/-- Output processing of the terminal: a newline becomes carriage return and newline. -/
def onlcr (s : Str) : Str := s.flatMap fun c => if c = '\n' then ['\r', '\n'] else [c]

/-- `capture_output_and_history` (job_pty.rs:165-214) of an interactive shell, behind `launch`.  With a
terminal of its own everything read from its master side is the output, and there is no error output;
without, a job in the foreground has no monitors (fork.rs:80-112, job_process.rs:287-302) and nothing
is recorded.  `strip` is `console::strip_ansi_codes`. -/
def recorded (strip : Str → Str) (pty fg : Bool) (cmd : Str) (code : Int) (terminal : Str) : Option Entry :=
  let out := if pty && fg then onlcr terminal else []
  if !out.isEmpty && fg then some ⟨cmd, strip out, strip [], code⟩ else none

/-- What the programs of a job write to the terminal made for it. -/
def onTerminal (readable : Wire.Str → Bool) (pty : Bool) (j : Job) (c : Ctx) (w : World) (log : List Write) : Str :=
  let w' := (launch readable pty j c w).2
  sent (.slave w.ptys) (w'.progs.drop w.progs.length) log

/-- The history of outputs behind a command. -/
def after (share : Nat → Nat → Nat → Nat) (h : Hist) : Option Entry → Option Hist
  | none => some h
  | some e => h.push share e

/-! ### A line that begins with `|` -/

/-- `$OUT`: `get_var` (environment/variables.rs:11-13) with `get_stdout` (output_history.rs:175-177). -/
def outVar (h : Hist) (n : Nat) : Option Str := (h.get n).map (·.stdout)

/-- `$ERR` (environment/variables.rs:14-16, output_history.rs:180-182). -/
def errVar (h : Hist) (n : Nat) : Option Str := (h.get n).map (·.stderr)

/-- Where a builtin sends a text: to the stream of its context (`write_stdout`,
dsh-types/src/lib.rs:194-199) or, with `print!`, to descriptor 1 of the shell. -/
inductive Way where | ctx | print
deriving DecidableEq, Repr

/-- `print_last_stdout` (out.rs:148-164): the text, and the way it is sent. -/
def printLast (h : Hist) : Str × Way :=
  match outVar h 1 with
  | some o => (if ['\n'].isSuffixOf o then o else o ++ ['\n'], .print)
  | none => ([], .print)

/-- What the second program of a pipeline reads that begins with a builtin which says `said`; `none`:
it is not run, or reads no pipe. -/
def fed (readable : Wire.Str → Bool) (pty : Bool) (ks : List Kind) (w : World) (said : Str × Way) : Option Str :=
  match (launch readable pty (.plain (.builtin :: ks)) (.fresh true) w).2.progs.drop w.progs.length with
  | some p :: some q :: _ =>
    let p := match said.2 with | .ctx => p | .print => { p with stdout := w.tbl.get 1 }
    match q.stdin with
    | some (.pipeR n) => some (sent (.pipeW n) [some p] [⟨0, false, said.1⟩])
    | _ => none
  | _ => none

/-- What reaches the file of a redirected builtin that says `said`; `none`: nothing is copied. -/
def filed (readable : Wire.Str → Bool) (pty : Bool) (k : RKind) (path : Wire.Str) (w : World) (said : Str × Way) : Option Str :=
  let w' := (launch readable pty ⟨[.builtin], some (k, path), true⟩ (.fresh true) w).2
  match w'.progs.drop w.progs.length, w'.copiers.drop w.copiers.length with
  | [some p], [⟨_, some (.pipeR n), _, _⟩] =>
    let p := match said.2 with | .ctx => p | .print => { p with stdout := w.tbl.get 1 }
    some (sent (.pipeW n) [some p] [⟨0, false, said.1⟩])
  | _, _ => none

/-! ### `out` -/

/-- What a builtin does: its texts on the standard output and the standard error (both with `println!`
and `eprintln!`), and its status; `none`: it panics. -/
structure Shown where
  out : Str
  err : Str
  status : Nat
deriving DecidableEq, Repr

def ln (s : Str) : Str := s ++ ['\n']

/-- Decimal digits. -/
def dec (n : Nat) : Str := (toString n).toList

/-- `str::lines` (without a `\r` at the end of a line). -/
def stripCr (l : Str) : Str := if ['\r'].isSuffixOf l then l.dropLast else l

/-- Lines as of `split_inclusive('\n')`, without their newline. -/
def linesGo : Str → Str → List Str
  | [], [] => []
  | cur, [] => [cur.reverse]
  | cur, '\n' :: s => stripCr cur.reverse :: linesGo [] s
  | cur, c :: s => linesGo (c :: cur) s

def lines (s : Str) : List Str := linesGo [] s

/-- `show_output` (out.rs:53-70) over `get_var` of the name `OUT[n]`. -/
def showOutput (h : Hist) (n : Nat) : Shown :=
  match parseOutputVar (c!"OUT[" ++ dec n ++ c!"]") c!"OUT" with
  | some i =>
    match outVar h i with
    | some o => if o.isEmpty then ⟨ln c!"(empty output)", [], 0⟩ else ⟨ln o, [], 0⟩
    | none => ⟨[], ln (c!"out: no output at index " ++ dec n), 1⟩
  | none => ⟨[], ln (c!"out: no output at index " ++ dec n), 1⟩

/-- Is byte `n` of `s` the start of a character? -/
def boundary : Nat → Str → Bool
  | 0, _ => true
  | _, [] => false
  | n + 1, c :: s => if c.utf8Size ≤ n + 1 then boundary (n + 1 - c.utf8Size) s else false

/-- The first line, shortened (out.rs:84-89); `none`: the slice is not at the start of a character. -/
def preview (o : Str) : Option Str :=
  let l := (lines o).headD c!"(empty)"
  if bytes l > 60 then
    if boundary 57 l then some (floorTo 57 l ++ c!"...") else none
  else some l

/-- One line of the list (out.rs:90-92). -/
def listLine (i : Nat) (o : Str) : Option Str :=
  (preview o).map fun p =>
    ln (c!"  [" ++ dec i ++ c!"] " ++ dec (lines o).length ++ c!" lines, " ++ dec (bytes o) ++ c!" bytes: " ++ p)

/-- The loop of `list_outputs` (out.rs:79-96) over the numbers that are left. -/
def listGo (h : Hist) : List Nat → Option (List Str)
  | [] => some []
  | i :: is =>
    match outVar h i with
    | some o => (listLine i o).bind fun l => (listGo h is).map (l :: ·)
    | none => some []

/-- The heading (out.rs:74-76). -/
def heading : Str :=
  ln [] ++ ln c!"Output History:" ++ ln (List.replicate 69 '─')

/-- The text for no outputs (out.rs:98-101). -/
def nothing : Str :=
  ln c!"  No output history available." ++ ln c!"  Execute some commands to start collecting output."

/-- `list_outputs` (out.rs:72-103). -/
def listOutputs (h : Hist) : Option Shown :=
  (listGo h [1, 2, 3, 4, 5, 6, 7, 8, 9, 10]).map fun ls =>
    ⟨heading ++ (if ls.isEmpty then nothing else ls.flatten) ++ ln [], [], 0⟩

/-- `clear_outputs` (out.rs:105-111). -/
def clearOutputs : Shown := ⟨[], ln c!"out: --clear is not implemented yet", 1⟩

/-- `command` (out.rs:21-51); the help is left out.  `none`: it panics. -/
def out (help : Str) (h : Hist) : List Str → Option Shown
  | [] => some (showOutput h 1)
  | a :: _ =>
    if a = c!"--list" ∨ a = c!"-l" then listOutputs h
    else if a = c!"--clear" ∨ a = c!"-c" then some clearOutputs
    else if a = c!"--help" ∨ a = c!"-h" then some ⟨help, [], 0⟩
    else
      match parseUsize a with
      | some 0 => some ⟨[], ln c!"out: index must be 1 or greater", 1⟩
      | some n => some (showOutput h n)
      | none => some ⟨[], ln (c!"out: invalid argument '" ++ a ++ c!"'") ++
          ln c!"Usage: out [N] [--list] [--clear] [--help]", 1⟩

/-- Its output and the way it is sent: `println!` everywhere. -/
def outSays (s : Shown) : Str × Way := (s.out, .print)

end Dsh.Record
