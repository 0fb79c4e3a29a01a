import Verif.Jobs.RecordProps
/-!
The functions `sh` and `sh!` of the configuration language: run a line and answer its output
(dsh/src/lisp/builtin.rs:260-335).  On top of the descriptors of `Verif.Jobs.Wiring` and of what programs
write (`Verif.Jobs.Record`).

Left out: which jobs of a line run (all do here; see `Verif.Jobs.Eval`), bytes that are not UTF-8, errors of
`pipe(2)`, the messages.
-/
namespace Dsh.Sh
open Dsh.Wire Dsh.Record

abbrev Str := List Char

/-- What a call of `sh` gives. -/
inductive Out where
  | err
  /-- the shell waits for a program that waits for somebody to read what it writes -/
  | hang
  | text (s : Str)
deriving DecidableEq, Repr

/-- What the guard and the person say to the line (eval.rs:116-179): go on, or the line ends with status 1
or 130 and nothing is run. -/
inductive Verdict where
  | go
  | denied
  | cancelled
deriving DecidableEq, Repr

/-- The number of bytes a pipe takes before its writer has to wait (pipe(7)). -/
def capacity : Nat := 65536

/-- `trim_matches('\n')`. -/
def trimNl (s : Str) : Str := ((s.dropWhile (· == '\n')).reverse.dropWhile (· == '\n')).reverse

/-- The line of a call (builtin.rs:265, 319-322). -/
def lineOf (args : List Str) : Str := joinWith c!" " args

/-- The pipe, a new context with the write end as its captured output, the jobs, and both ends closed
(builtin.rs:280-306).  The second result is the number of the pipe. -/
def run (readable : Wire.Str → Bool) (pty : Bool) (js : List (Job × Bool)) (w : World) : World × Nat :=
  let n := w.pipes
  let (r, x, w) := w.pipe
  let (_, w) := runLine readable pty js { Ctx.fresh true with captured := some x } w
  ((w.close x).close r, n)

/-- What is in the pipe at the end, when the programs write `log`. -/
def piped (readable : Wire.Str → Bool) (pty : Bool) (js : List (Job × Bool)) (w : World) (log : List Write) : Str :=
  let (w', n) := run readable pty js w
  sent (.pipeW n) (w'.progs.drop w.progs.length) log

/-- `sh_core` (builtin.rs:261-316).  `tty`: descriptor 0 is a terminal; `jobs`: the line as parsed, `none` if
it cannot be. -/
def sh (readable : Wire.Str → Bool) (tty pty : Bool) (jobs : Option (List (Job × Bool))) (verdict : Verdict) (w : World)
    (log : List Write) : Out :=
  if !tty then .err
  else match jobs with
    | none => .err
    | some js =>
      match verdict with
      | .go =>
        if capacity < OutHist.bytes (piped readable pty js w log) then .hang
        else .text (trimNl (piped readable pty js w log))
      | _ => .text (trimNl [])

end Dsh.Sh
