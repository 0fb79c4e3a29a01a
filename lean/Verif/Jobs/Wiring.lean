import Verif.Parse.Jobs
import Verif.Util
/-!
Which file every standard stream of every program of a command line is connected to:
`Job::launch_process`, `JobProcess::launch`, `create_pipe`, `handle_output_redirect`,
`fork_process`, the descriptor part of `Process::launch_prepared`, `Redirect::process`, `setup_pty`,
and the part of the loop of `eval_str` that carries the descriptors from one job to the next.

Descriptors are numbers in a table, as in the kernel: a new descriptor takes the smallest free
number, `close` frees it, `fork` copies the table, `dup2` fails on a closed number.

Left out: process groups, sessions and signals (Dsh.Jobs), the contents that flow, running out of
descriptors, descriptors opened at the same time by other tasks of the shell.
-/
namespace Dsh.Wire
open Dsh.Shell (RKind)

abbrev Str := List Char

/-- What a descriptor can stand for. -/
inductive Obj where
  /-- what descriptor `k` of the shell is connected to -/
  | std (k : Nat)
  /-- the slave side of pseudo terminal `n` -/
  | slave (n : Nat)
  /-- the master side of pseudo terminal `n` -/
  | master (n : Nat)
  /-- the read end of pipe `n` -/
  | pipeR (n : Nat)
  /-- the write end of pipe `n` -/
  | pipeW (n : Nat)
  /-- a file opened for reading -/
  | file (path : Str)
  /-- anything else the shell has open -/
  | other (n : Nat)
deriving DecidableEq, Repr

def Obj.isPipe : Obj → Bool
  | .pipeR _ => true
  | .pipeW _ => true
  | _ => false

/-- A table of descriptors. -/
abbrev Tbl := List (Nat × Obj)

namespace Tbl

/-- What descriptor `fd` stands for; `none`: it is closed. -/
def get (t : Tbl) (fd : Nat) : Option Obj := (t.find? (fun e => e.1 == fd)).map (·.2)

/-- `close(2)`. -/
def close (t : Tbl) (fd : Nat) : Tbl := t.filter (fun e => e.1 != fd)

/-- Make `fd` stand for `o`. -/
def put (t : Tbl) (fd : Nat) (o : Obj) : Tbl := (fd, o) :: close t fd

/-- A number above every open descriptor. -/
def bound (t : Tbl) : Nat := t.foldr (fun e m => max (e.1 + 1) m) 0

/-- The smallest closed descriptor: the number the kernel gives to the next file. -/
def lowest (t : Tbl) : Nat :=
  ((List.range (bound t + 1)).find? (fun k => (get t k).isNone)).getD (bound t)

end Tbl

/-- The fields of `Context` (dsh-types/src/lib.rs:61-78) the wiring depends on. -/
structure Ctx where
  infile : Nat
  outfile : Nat
  errfile : Nat
  captured : Option Nat
  interactive : Bool
  foreground : Bool
deriving DecidableEq, Repr

/-- The descriptors of a new `Context` (dsh-types/src/lib.rs:79-106). -/
def Ctx.fresh (interactive : Bool) : Ctx := ⟨0, 1, 2, none, interactive, true⟩

/-- A program as started: what its standard streams are connected to, and the pipe ends it has open
beside them.  Pipes are made without close-on-exec (`pipe()` of nix), so the program keeps them. -/
structure Prog where
  stdin : Option Obj
  stdout : Option Obj
  stderr : Option Obj
  held : List Obj
deriving DecidableEq, Repr

/-- A task started by `Redirect::process`: it reads `fd`, which stands for `obj` when the task is
started, and writes to `path`. -/
structure Copier where
  fd : Nat
  obj : Option Obj
  path : Str
  append : Bool
deriving DecidableEq, Repr

/-- The shell's table, and what it has started so far.  `none` in `progs`: the child ended before
running the program. -/
structure World where
  tbl : Tbl
  /-- number of pipes made so far -/
  pipes : Nat
  /-- number of pseudo terminals made so far -/
  ptys : Nat
  progs : List (Option Prog)
  copiers : List Copier
  /-- descriptors read by the output monitors of the job -/
  caps : List Nat
deriving DecidableEq, Repr

/-- A stage of a pipeline. -/
inductive Kind where | command | builtin
deriving DecidableEq, Repr

/-- A new descriptor for `o`. -/
def World.alloc (w : World) (o : Obj) : Nat × World :=
  (w.tbl.lowest, { w with tbl := w.tbl.put w.tbl.lowest o })

def World.close (w : World) (fd : Nat) : World := { w with tbl := w.tbl.close fd }

/-- `pipe(2)`: read end first. -/
def World.pipe (w : World) : Nat × Nat × World :=
  let (r, w1) := w.alloc (.pipeR w.pipes)
  let (x, w2) := w1.alloc (.pipeW w.pipes)
  (r, x, { w2 with pipes := w.pipes + 1 })

/-! ### In the child -/

/-- `dup2(2)`; `none`: it failed. -/
def dup2 (t : Tbl) (a b : Nat) : Option Tbl :=
  match t.get a with
  | none => none
  | some o => some (if a = b then t else t.put b o)

/-- `close(2)` whose failure ends the child. -/
def close1 (t : Tbl) (fd : Nat) : Option Tbl :=
  match t.get fd with
  | none => none
  | some _ => some (t.close fd)

/-- Source of stdout or stderr when they are different descriptors (process.rs:357-369,
371-383). -/
def dupClose (t : Tbl) (a b : Nat) : Option Tbl :=
  if a = b then some t
  else (dup2 t a b).bind fun t => if 2 < a then close1 t a else some t

/-- Standard streams of the child before `execve` (process.rs:319-384). -/
def childIO (t : Tbl) (i o e : Nat) : Option Tbl :=
  (if i = 0 then some t else dup2 t i 0).bind fun t =>
  (if 2 < i ∧ ¬ (i = o ∨ i = e) then close1 t i else some t).bind fun t =>
  if o = e then
    (if o = 1 then some t else dup2 t o 1).bind fun t =>
    (if e = 2 then some t else dup2 t e 2).bind fun t =>
    if 2 < o then close1 t o else some t
  else
    (dupClose t o 1).bind fun t => dupClose t e 2

/-- The pipe ends among the descriptors above 2. -/
def heldOf (t : Tbl) : List Obj :=
  (List.range t.bound).filterMap fun k => if 2 < k then (t.get k).filter Obj.isPipe else none

/-- The program of a child whose table is `t`. -/
def progOf (t : Tbl) : Prog := ⟨t.get 0, t.get 1, t.get 2, heldOf t⟩

/-- A builtin writes to the descriptors of the context itself (dsh-types/src/lib.rs:193-205). -/
def builtinProg (t : Tbl) (c : Ctx) : Prog :=
  ⟨t.get c.infile, t.get c.outfile, t.get c.errfile, heldOf t⟩

/-! ### In the shell -/

/-- `handle_output_redirect` (io.rs:269-320). -/
def handleOutput (red : Option (RKind × Str)) (c : Ctx) (w : World) : Ctx × World × Option Nat :=
  match red with
  | some (.stdoutOutput, _) | some (.stdoutAppend, _) =>
    let (r, x, w) := w.pipe
    ({ c with outfile := x }, w, some r)
  | some (.stderrOutput, _) | some (.stderrAppend, _) =>
    let (r, x, w) := w.pipe
    ({ c with errfile := x }, w, some r)
  | some (.stdouterrOutput, _) | some (.stdouterrAppend, _) =>
    let (r, x, w) := w.pipe
    ({ c with outfile := x, errfile := x }, w, some r)
  | some (.input, _) => (c, w, none)
  | none =>
    match c.captured with
    | some out => ({ c with outfile := out }, w, none)
    | none => if c.infile ≠ 0 then ({ c with outfile := 1 }, w, none) else (c, w, none)

/-- The pipe in front of the next stage, or the automatic capture, or the redirect
(job_process.rs:285-310).  Results: the read end for the next stage, the read end of the capture. -/
def outSetup (slave : Option Nat) (red : Option (RKind × Str)) (next : Bool) (c : Ctx) (w : World) :
    Ctx × World × Option Nat × Option Nat :=
  if next then
    let (r, x, w) := w.pipe
    ({ c with outfile := x }, w, some r, none)
  else if !c.interactive && red.isNone && slave.isNone && c.captured.isNone then
    let (r, x, w) := w.pipe
    ({ c with outfile := x }, w, none, some r)
  else
    let (c, w, r) := handleOutput red c w
    (c, w, r, none)

/-- The terminal of the job takes the place of the streams that are still the default
(job_process.rs:312-343). -/
def applySlave (slave : Option Nat) (c : Ctx) : Ctx :=
  match slave with
  | none => c
  | some s =>
    { c with
      infile := if c.infile = 0 then s else c.infile
      outfile := if c.outfile = 1 then s else c.outfile
      errfile := if c.errfile = 2 then s else c.errfile }

/-- `fork_process` (fork.rs:57-156): a background program without a terminal gets pipes of its own
for the streams that are still the default; then the child.  Results: the stdout and stderr of
the process. -/
def forkCommand (slave : Option Nat) (c : Ctx) (w : World) : World × Nat × Nat :=
  let (w, o) :=
    if c.outfile = 1 ∧ c.foreground = false ∧ slave = none then
      let (r, x, w) := w.pipe
      ({ w with caps := w.caps ++ [r] }, x)
    else (w, c.outfile)
  let (w, e) :=
    if c.errfile = 2 ∧ c.foreground = false ∧ slave = none then
      let (r, x, w) := w.pipe
      ({ w with caps := w.caps ++ [r] }, x)
    else (w, c.errfile)
  ({ w with progs := w.progs ++ [(childIO w.tbl c.infile o e).map progOf] }, o, e)

/-- The match on the kind of process (job_process.rs:350-368).  A builtin runs in the shell, or in a
copy of it when the job is in the background. -/
def start (slave : Option Nat) (k : Kind) (c : Ctx) (w : World) : World × Nat × Nat :=
  match k with
  | .command => forkCommand slave c w
  | .builtin =>
    ({ w with progs := w.progs ++ [some (builtinProg w.tbl c)] }, c.outfile, c.errfile)

/-- The shell closes its copies of the streams of the process (job.rs:302-325). -/
def parentClose (slave input : Option Nat) (i o e : Nat) (w : World) : World :=
  let w := if i ≠ 0 ∧ (match input with | some fd => i != fd | none => slave != some i) = true
    then w.close i else w
  let w := if o ≠ 1 ∧ slave ≠ some o then w.close o else w
  if e ≠ 2 ∧ o ≠ e ∧ slave ≠ some e then w.close e else w

/-- Is the redirect one that appends? -/
def isAppend : RKind → Bool
  | .stdoutAppend | .stderrAppend | .stdouterrAppend => true
  | _ => false

/-- `Redirect::process` (redirect.rs:18-70). -/
def copier (red : Option (RKind × Str)) (c : Ctx) (w : World) : World :=
  match red with
  | none => w
  | some (.input, _) => w
  | some (k, path) =>
    { w with copiers := w.copiers ++ [⟨c.infile, w.tbl.get c.infile, path, isAppend k⟩] }

/-- The first lines of `launch_process` (job.rs:226-237): the input file, if the job has one.
`none`: it cannot be opened. -/
def openInput (readable : Str → Bool) (red : Option (RKind × Str)) (c : Ctx) (w : World) :
    Option (Ctx × World × Option Nat) :=
  match red with
  | some (.input, path) =>
    if readable path then
      let (fd, w) := w.alloc (.file path)
      some ({ c with infile := fd }, w, some fd)
    else none
  | _ => some (c, w, none)

/-- One stage: `launch_process` (job.rs:226-339) up to the recursive call, with
`JobProcess::launch` (job_process.rs:274-378).  `none`: an error.  The last result is the input file,
closed when the rest of the pipeline has been launched. -/
def stage (readable : Str → Bool) (slave : Option Nat) (red : Option (RKind × Str)) (next : Bool)
    (k : Kind) (c0 : Ctx) (w : World) : Option (Ctx × World × Option Nat) :=
  (openInput readable red c0 w).map fun (c, w, input) =>
    let (c, w, pipeOut, cap) := outSetup slave red next c w
    let c := applySlave slave c
    let (w, o, e) := start slave k c w
    let w := { w with caps := w.caps ++ cap.toList }
    let w := parentClose slave input c.infile o e w
    let c := match pipeOut with
      | some r => { c with infile := r }
      | none => c
    let w := copier red c w
    let c := if input = some c.infile then { c with infile := c0.infile } else c
    (c, w, input)

/-- The stages of a pipeline in turn (job.rs:219-351).  On an error the rest is not started. -/
def stages (readable : Str → Bool) (slave : Option Nat) (red : Option (RKind × Str)) :
    List Kind → Ctx → World → Ctx × World
  | [], c, w => (c, w)
  | k :: ks, c, w =>
    match stage readable slave red (!ks.isEmpty) k c w with
    | none => (c, w)
    | some (c, w, input) =>
      let (c, w) := stages readable slave red ks c w
      (c, match input with | some fd => w.close fd | none => w)

/-- What parsing says about a job, as far as it matters here. -/
structure Job where
  kinds : List Kind
  redirect : Option (RKind × Str)
  foreground : Bool
deriving DecidableEq, Repr

/-- `setup_pty` (job_pty.rs:64-106) with `Pty::new` and `try_clone` (pty.rs:15-65): the master, the
slave, a copy of the master for the output task, and one for the input task unless the job begins
with a builtin.  Results: the slave, and all the descriptors. -/
def setupPty (first : Option Kind) (w : World) : Nat × List Nat × World :=
  let n := w.ptys
  let (m, w) := w.alloc (.master n)
  let (s, w) := w.alloc (.slave n)
  let (m2, w) := w.alloc (.master n)
  let w := { w with ptys := n + 1 }
  if first = some .builtin then (s, [m, s, m2], w)
  else
    let (m3, w) := w.alloc (.master n)
    (s, [m, s, m2, m3], w)

/-- `Job::launch` (job.rs:143-196) from the first stage to the end of a job that is waited for.
`pty`: the environment allows terminals for jobs.  At the end the terminal and the monitors of a
foreground job are closed (job_pty.rs:173-185; the job is dropped in eval.rs:376). -/
def launch (readable : Str → Bool) (pty : Bool) (j : Job) (c : Ctx) (w : World) : Ctx × World :=
  let c := { c with foreground := j.foreground }
  let (slave, fds, w) :=
    if pty && c.foreground && c.interactive then
      let (s, fds, w) := setupPty j.kinds.head? w
      (some s, fds, w)
    else (none, [], w)
  let (c, w) := stages readable slave j.redirect j.kinds c w
  let w := fds.foldl World.close w
  (c, if c.foreground then { w.caps.foldl World.close w with caps := [] } else w)

/-- The descriptors of a copying task that has ended are closed. -/
def settle (w : World) : World :=
  { (w.copiers.map (·.fd)).foldl World.close w with copiers := [] }

/-- The jobs of a line (eval.rs:189-409), all of them run.  The context is the same for all of them
and only `pid` and `pgid` are reset in between (eval.rs:395-397).  The flag of a job says whether the
tasks copying its output have ended when the next job starts. -/
def runLine (readable : Str → Bool) (pty : Bool) :
    List (Job × Bool) → Ctx → World → Ctx × World
  | [], c, w => (c, w)
  | (j, settled) :: js, c, w =>
    let (c, w) := launch readable pty j c w
    runLine readable pty js c (if settled then settle w else w)

/-- A shell with nothing but its standard streams open. -/
def World.init : World := ⟨[(0, .std 0), (1, .std 1), (2, .std 2)], 0, 0, [], [], []⟩

/-- A job in the foreground without redirect. -/
def Job.plain (ks : List Kind) : Job := ⟨ks, none, true⟩

end Dsh.Wire
