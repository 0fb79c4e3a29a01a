import Verif.Parse.Expand
/-!
The command-list loop of `eval_str` (shell/eval.rs) and the status of builtins.

Starting a job is abstract (`Machine`): it may change the world in any way and ends in any state or
with an error.  Terminal modes, window titles, hooks and printing are left out: they do not feed
back into the loop.
-/
namespace Dsh.Eval
open Dsh.Shell

/-- `ProcessState` (state.rs:5-9).  `completed code signal`, `stopped pid signal`. -/
inductive PState where
  | running
  | completed (code : Nat) (signal : Option Nat)
  | stopped (pid signal : Nat)
deriving DecidableEq, Repr

/-- What the loop sees of the shell: the rest of the world, and the job table `wait_jobs`
(shell/mod.rs:34). -/
structure St (σ : Type) where
  world : σ
  table : List Job

/-- Behaviour of the parts called by the loop.  `none` is the `Err` case. -/
structure Machine (σ V : Type) where
  /-- `Job::launch` (job.rs:143-196) -/
  launch : St σ → Job → St σ × Option PState
  /-- `Job::launch` inside `execute_with_capture` (eval.rs:417-502), with the drained stdout -/
  capture : St σ → Job → St σ × Option (PState × List Char)
  /-- bind `$_` and run one Lisp expression (eval.rs:319-341) -/
  lisp : St σ → V → List Char → St σ × Option V
  /-- `Value::String` -/
  str : List Char → V

/-- `Shell::get_job_id` (shell/mod.rs:197-205). -/
def nextId (table : List Job) : Nat :=
  match table.getLast? with
  | none => 1
  | some j => j.jobId + 1

/-- Exit code computed by `execute_with_capture` (eval.rs:486-490). -/
def captureCode : PState → Nat
  | .completed c _ => c
  | .stopped _ _ => 130
  | .running => 0

/-- The expressions after `|:` in sequence (eval.rs:315-342); the flag is false if one failed. -/
def lispChain {σ V} (M : Machine σ V) : St σ → V → List (List Char) → St σ × Bool
  | s, _, [] => (s, true)
  | s, v, e :: es => match M.lisp s v e with
    | (s, none) => (s, false)
    | (s, some v) => lispChain M s v es

/-- What became of a job whose turn came. -/
inductive Ran where
  /-- ended with this status, or was started in the background (status 0) -/
  | status (code : Nat)
  /-- a `|:` job without a process: nothing is run -/
  | nothing
  /-- stopped: goes to the job table and ends the line -/
  | stopped
  /-- an error, which is returned -/
  | error
deriving DecidableEq, Repr

/-- Status after the Lisp expressions of a `|:` job (eval.rs:301-342). -/
def structStatus {σ V} (M : Machine σ V) (s : St σ) (j : Job) (p : PState) (out : List Char) :
    St σ × Ran :=
  if captureCode p ≠ 0 ∧ out = [] then (s, .status (captureCode p))
  else
    let r := lispChain M s (M.str out) j.structExprs
    (r.1, .status (if r.2 then captureCode p else 1))

/-- Outcome of a plain launch (eval.rs:359-394). -/
def launchRan (s : St σ) (j : Job) : Option PState → St σ × Ran
  | some .running => ({ s with table := s.table ++ [j] }, .status 0)
  | some (.stopped _ _) => ({ s with table := s.table ++ [j] }, .stopped)
  | some (.completed c _) => (s, .status c)
  | none => (s, .error)

/-- One job whose turn came (eval.rs:222-394).  The output history is not part of the state here
(see `Verif/Output`). -/
def runJob {σ V} (M : Machine σ V) (forceBg : Bool) (s : St σ) (job : Job) : St σ × Ran :=
  let j := { job with foreground := job.foreground && !forceBg, jobId := nextId s.table }
  if j.capture then
    match M.capture s j with
    | (s, none) => (s, .error)
    | (s, some (p, _)) => (s, .status (captureCode p))
  else if j.structExprs ≠ [] then
    if j.procs = [] then (s, .nothing)
    else match M.capture s j with
      | (s, none) => (s, .error)
      | (s, some (p, out)) => structStatus M s j p out
  else
    let r := M.launch s j
    launchRan r.1 j r.2

/-- One line of the record of an evaluation. -/
inductive Step where
  | skipped
  | ran (r : Ran)
deriving DecidableEq, Repr

/-- Result of the loop: final state, record, and the returned status (`none` is `Err`). -/
structure Out (σ : Type) where
  st : St σ
  trace : List Step
  result : Option Nat

/-- `should_run` (eval.rs:195-199). -/
def shouldRun (gate : ListOp) (last : Nat) : Bool :=
  match gate with
  | .none => true
  | .and => last == 0
  | .or => last != 0

/-- The loop over the jobs (eval.rs:185-409). -/
def evalLoop {σ V} (M : Machine σ V) (forceBg : Bool) : List Job → ListOp → Nat → St σ → Out σ
  | [], _, last, s => ⟨s, [], some last⟩
  | j :: js, gate, last, s =>
    if shouldRun gate last then
      match runJob M forceBg s j with
      | (s, .status c) =>
        let o := evalLoop M forceBg js j.listOp c s
        ⟨o.st, .ran (.status c) :: o.trace, o.result⟩
      | (s, .nothing) =>
        let o := evalLoop M forceBg js j.listOp last s
        ⟨o.st, .ran .nothing :: o.trace, o.result⟩
      | (s, .stopped) => ⟨s, [.ran .stopped], some last⟩
      | (s, .error) => ⟨s, [.ran .error], none⟩
    else
      let o := evalLoop M forceBg js j.listOp last s
      ⟨o.st, .skipped :: o.trace, o.result⟩

/-- The loop as `eval_str` starts it (eval.rs:185-188). -/
def evalJobs {σ V} (M : Machine σ V) (forceBg : Bool) (js : List Job) (s : St σ) : Out σ :=
  evalLoop M forceBg js .none 0 s

/-- `transform_input_for_smart_pipe` (eval.rs:583-592). -/
def smartPipe (line : List Char) : List Char :=
  match trimStart line with
  | '|' :: '>' :: _ => line
  | '|' :: '|' :: _ => line
  | '|' :: _ => c!"__dsh_print_last_stdout " ++ line
  | _ => line

/-- Verdict on the jobs of a line before any of them is started (eval.rs:117-183): go on, refused by
the guard, cancelled by the user. -/
inductive Verdict where | go | denied | cancelled
deriving DecidableEq, Repr

/-- Result of a line. -/
inductive LineOut (σ : Type) where
  | chat (message : List Char)
  | invalid
  | refused (code : Nat)
  | ran (o : Out σ)

/-- `eval_str` (eval.rs:43-413) without saving to the history: chat messages, smart pipe, reading the
line, the verdict of the safety guard, the loop. -/
def evalLine {σ V} (E : Env) (W : World) (M : Machine σ V) (verdict : List Job → Verdict) (forceBg : Bool)
    (id : Nat) (s : St σ) (line : List Char) : LineOut σ :=
  match trimStart line with
  | '!' :: rest => .chat (trimStart rest)
  | _ =>
    match lineJobs E W id (smartPipe line) with
    | none => .invalid
    | some (js, _) =>
      match verdict js with
      | .denied => .refused 1
      | .cancelled => .refused 130
      | .go => .ran (evalJobs M forceBg js s)

/-- `ExitStatus` returned by builtins (dsh-types/src/lib.rs). -/
inductive Exit where
  | exitedWith (code : Int)
  | running
  | break_ | continue_ | return_
deriving DecidableEq, Repr

/-- State of a builtin after `BuiltinProcess::launch` (builtin.rs:97-121). -/
def builtinState : Exit → PState
  | .exitedWith code => if 0 ≤ code then .completed 1 none else .completed 0 none
  | .running => .running
  | .break_ | .continue_ | .return_ => .completed 0 none

/-- Exit code of a builtin forked for the background (fork.rs:44-51): its result is not used. -/
def forkedBuiltinCode (_ : Exit) : Nat := 0

end Dsh.Eval
