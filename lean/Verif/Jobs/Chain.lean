import Verif.Jobs.Eval
/-!
Process chains of a job, the foreground wait loop, the periodic check of background jobs, job
specs, `fg` and `bg`.

A chain (`JobProcess` linked by `next`) is a list, first stage first.  The kernel is a table of
children; the results of `waitpid(None, …)` in the foreground loop are an arbitrary schedule.
Left out: terminal control (`tcsetpgrp`), output monitors, the 100 ms pauses.
-/
namespace Dsh.Jobs
open Dsh.Eval (PState)

/-- A stage: `Process` (process.rs) or `BuiltinProcess` (builtin.rs:13-25). -/
structure Proc where
  builtin : Bool
  pid : Option Nat
  state : PState
deriving DecidableEq, Repr

/-- `Process::set_state` (process.rs:75-88) and `BuiltinProcess::set_state` (builtin.rs:70-84),
joined by `set_state_pid` (job_process.rs:131-148).  The flag says whether a stage was found. -/
def setState : List Proc → Nat → PState → List Proc × Bool
  | [], _, _ => ([], false)
  | p :: rest, pid, st =>
    if p.builtin then
      if rest = [] then ([p], false)
      else
        let r := setState rest pid st
        if r.2 then (p :: r.1, true)
        else if p.pid = some pid then ({ p with state := st } :: r.1, true)
        else (p :: r.1, false)
    else if p.pid = some pid then ({ p with state := st } :: rest, true)
    else
      let r := setState rest pid st
      (p :: r.1, r.2)

/-- The state is `Completed`. -/
def _root_.Dsh.Eval.PState.done : PState → Bool
  | .completed _ _ => true
  | _ => false
/-- The state is `Stopped`. -/
def _root_.Dsh.Eval.PState.isStop : PState → Bool
  | .stopped _ _ => true
  | _ => false

/-- `JobProcess::is_stopped` (job_process.rs:157-165). -/
def isStopped : List Proc → Bool
  | [] => true
  | p :: rest => if p.state = .running then false else isStopped rest

/-- `JobProcess::is_completed` (job_process.rs:167-180). -/
def isCompleted : List Proc → Bool
  | [] => true
  | p :: rest => if p.state.done then isCompleted rest else false

/-- `JobProcess::is_pipeline_consumer_terminated` (job_process.rs:185-202). -/
def consumerDone : List Proc → Bool
  | [] => false
  | _ :: rest => match rest with
    | [] => false
    | q :: _ => consumerDone rest || q.state == .completed 0 none

/-- `JobProcess::has_stopped_process` (job_process.rs:205-216). -/
def hasStopped : List Proc → Bool
  | [] => false
  | p :: rest => if p.state.isStop then true else hasStopped rest

/-- `last_process_state` (job.rs:49-61, 134-141). -/
def lastState : List Proc → PState
  | [] => .completed 0 none
  | p :: rest => if rest = [] then p.state else lastState rest

/-- The run-time part of `Job` (job.rs:22-47). -/
structure RJob where
  id : Nat
  procs : List Proc
  pid : Option Nat := none
  pgid : Option Nat := none
  foreground : Bool := true
  state : PState := .running
deriving DecidableEq, Repr

/-- `is_job_stopped` (wait.rs:8-22). -/
def jobStopped (j : RJob) : Bool := isStopped j.procs

/-- `is_job_completed` (wait.rs:24-92). -/
def jobCompleted (j : RJob) : Bool :=
  if j.procs = [] then true
  else isCompleted j.procs || (consumerDone j.procs && !hasStopped j.procs)

/-! ### The foreground wait -/

/-- Results of `waitpid(None, WUNTRACED | WNOHANG)`. -/
inductive WaitRes where
  | exited (pid code : Nat)
  | signaled (pid sig : Nat)
  | stopped (pid sig : Nat)
  | stillAlive
  | eintr
  | echild
  | other
deriving DecidableEq, Repr

/-- The state recorded for a wait result (job_wait.rs:285-318). -/
def WaitRes.news : WaitRes → Option (Nat × PState)
  | .exited pid code => some (pid, .completed (code % 256) none)
  | .signaled pid sig => some (pid, .completed 1 (some sig))
  | .stopped pid sig => some (pid, .stopped pid sig)
  | _ => none

/-- Signals sent by the shell: to a group, or to a process. -/
inductive Sent where
  | group (pgid sig : Nat)
  | proc (pid sig : Nat)
deriving DecidableEq, Repr

/-- Signal numbers. -/
def SIGINT : Nat := 2
/-- Signal numbers. -/
def SIGKILL : Nat := 9
/-- Signal numbers. -/
def SIGTERM : Nat := 15

/-- Why the loop ended. -/
inductive Why where | completed | consumer | stopped | noChild | unexpected
deriving DecidableEq, Repr

/-- Result of the loop on a schedule: the job, the signals sent, why it returned (`none`: it is
still waiting when the schedule is used up), and the unused part of the schedule. -/
structure WaitOut where
  job : RJob
  sent : List Sent
  why : Option Why
  rest : List (Bool × WaitRes)
deriving DecidableEq, Repr

/-- Forwarding of Ctrl-C at the start of an iteration (job_wait.rs:270-279). -/
def forwardInt (j : RJob) : List Sent :=
  match j.pgid with
  | some g => [.group g SIGINT]
  | none => match j.pid with
    | some p => [.proc p SIGINT]
    | none => []

/-- Whether this news makes the loop kill the job's group (job_wait.rs:325-333). -/
def killNews (j : RJob) (sentKill : Bool) : PState → List Sent
  | .completed c _ => if c ≠ 0 ∧ sentKill = false then
      (match j.pgid with | some g => [.group g SIGKILL] | none => []) else []
  | _ => []

/-- The state of the job after a wait result about `pid` (job.rs:378-382). -/
def RJob.note (j : RJob) (pid : Nat) (st : PState) : RJob :=
  { j with procs := (setState j.procs pid st).1 }

/-- `wait_process_no_hang` (job_wait.rs:266-370); `wait_process_no_hang_sync`
(job_wait.rs:372-469) is the same loop.  Each element of the schedule is one iteration: whether a
Ctrl-C is pending, and the result of `waitpid`.  A failing `killpg` is not modelled. -/
def waitLoop : List (Bool × WaitRes) → RJob → Bool → WaitOut
  | [], j, _ => ⟨j, [], none, []⟩
  | (int, ev) :: evs, j, sk =>
    let pre := if int then forwardInt j else []
    match ev.news with
    | none =>
      if ev = .stillAlive ∨ ev = .eintr then
        let o := waitLoop evs j sk
        { o with sent := pre ++ o.sent }
      else ⟨j, pre, some (if ev = .echild then .noChild else .unexpected), evs⟩
    | some (pid, st) =>
      let j' := j.note pid st
      let k := killNews j sk st
      if jobCompleted j' then ⟨j', pre ++ k, some .completed, evs⟩
      else if consumerDone j'.procs && !isCompleted j'.procs then
        ⟨j', pre ++ k ++ (match j'.pgid with
          | some g => [.group g SIGTERM, .group g SIGKILL] | none => []), some .consumer, evs⟩
      else if jobStopped j' then ⟨j', pre ++ k, some .stopped, evs⟩
      else
        let o := waitLoop evs j' (sk || !k.isEmpty)
        { o with sent := pre ++ k ++ o.sent }

/-- Process-group number given to a job when it is launched (job.rs:247-250): none in scripts; at the
prompt the pid of the first stage, which for a builtin run inside the shell is the shell's own pid
(job_process.rs:348-356). -/
def launchPgid (interactive : Bool) (shellPid : Nat) (procs : List Proc) : Option Nat :=
  if interactive then
    match procs with
    | [] => none
    | p :: _ => if p.builtin then some shellPid else p.pid
  else none

/-! ### Children and the periodic check -/

/-- What the kernel knows about a child. -/
inductive Child where
  | alive
  /-- stopped, not yet reported -/
  | stopNews (sig : Nat)
  /-- ended and not yet waited for -/
  | ended (code : Nat) (sig : Option Nat)
deriving DecidableEq, Repr

/-- Children that have not been waited for; everything else is unknown to `waitpid`. -/
abbrev Kernel := Nat → Option Child

/-- Remove or replace the entry of one child. -/
def Kernel.set (K : Kernel) (pid : Nat) (c : Option Child) : Kernel := fun p => if p = pid then c else K p

/-- `wait_pid_job` with `no_hang` (wait.rs:94-158). -/
def waitPid (K : Kernel) (pid : Nat) : Kernel × Option PState :=
  match K pid with
  | none => (K, some (.completed 1 none))
  | some .alive => (K, none)
  | some (.stopNews s) => (K.set pid (some .alive), some (.stopped pid s))
  | some (.ended _ (some s)) => (K.set pid none, some (.completed 1 (some s)))
  | some (.ended c none) => (K.set pid none, some (.completed (c % 256) none))

/-- Poll a stage that has not ended. -/
def pollProc (K : Kernel) (p : Proc) : Kernel × PState :=
  match p.pid with
  | none => (K, p.state)
  | some pid => match waitPid K pid with
    | (K', some st) => (K', st)
    | (K', none) => (K', p.state)

/-- `Process::update_state` (process.rs:398-414), `BuiltinProcess::update_state`
(builtin.rs:123-129). -/
def update : Kernel → List Proc → Kernel × List Proc × Option PState
  | K, [] => (K, [], none)
  | K, p :: rest =>
    if p.builtin then
      let r := update K rest
      (r.1, p :: r.2.1, r.2.2)
    else if p.state.done then (K, p :: rest, some p.state)
    else
      let q := pollProc K p
      let r := update q.1 rest
      (r.1, { p with state := q.2 } :: r.2.1, some q.2)

/-- `Job::update_status` (job.rs:398-454). -/
def updateStatus (K : Kernel) (j : RJob) : Kernel × RJob × Bool :=
  let r := update K j.procs
  let j' := { j with procs := r.2.1, state := r.2.2.getD j.state }
  (r.1, j', jobCompleted j')

/-- First pass of `check_job_state` for one job (shell/job.rs:139-162). -/
def checkOne (K : Kernel) (j : RJob) : Kernel × RJob :=
  let r := updateStatus K j
  if !r.2.2 && !r.2.1.foreground then
    let r2 := updateStatus r.1 r.2.1
    (r2.1, r2.2.1)
  else (r.1, r.2.1)

/-- First pass over the table. -/
def checkAll : Kernel → List RJob → Kernel × List RJob
  | K, [] => (K, [])
  | K, j :: js =>
    let r := checkOne K j
    let rs := checkAll r.1 js
    (rs.1, r.2 :: rs.2)

/-- `check_job_state` (shell/job.rs:123-199): kernel, jobs reported as done, jobs kept. -/
def checkJobs (K : Kernel) (table : List RJob) : Kernel × List RJob × List RJob :=
  let r := checkAll K table
  (r.1, r.2.filter (·.state.done), r.2.filter (!·.state.done))

/-! ### Job numbers, `fg`, `bg` -/

/-- `Shell::get_job_id` (shell/mod.rs:197-205). -/
def nextJobId (table : List RJob) : Nat :=
  match table.getLast? with
  | none => 1
  | some j => j.id + 1

/-- `char::to_digit(10)`. -/
def digit? (c : Char) : Option Nat :=
  if '0'.toNat ≤ c.toNat ∧ c.toNat ≤ '9'.toNat then some (c.toNat - '0'.toNat) else none

/-- Decimal digits to a number below 2^64. -/
def digits : List Char → Nat → Option Nat
  | [], n => some n
  | c :: cs, n => match digit? c with
    | none => none
    | some d => if n * 10 + d < 2 ^ 64 then digits cs (n * 10 + d) else none

/-- `str::parse::<usize>` (64 bit): an optional `+`, then one or more digits. -/
def parseUsize : List Char → Option Nat
  | [] => none
  | ['+'] => none
  | '+' :: cs => digits cs 0
  | cs => digits cs 0

/-- `strip_prefix('%')` (proxy/builtin/jobs.rs:51-55). -/
def stripPct : List Char → List Char
  | '%' :: r => r
  | s => s

/-- Lookup by number (proxy/builtin/jobs.rs:57-66). -/
def selectNum (s : List Char) (table : List RJob) : Option Nat :=
  match parseUsize s with
  | none => none
  | some k => table.findIdx? (fun j => j.id == k)

/-- `parse_job_spec` (proxy/builtin/jobs.rs:22-67). -/
def parseSpec (spec : List Char) (table : List RJob) : Option Nat :=
  if spec = [] then (if table = [] then none else some (table.length - 1))
  else
    let s := trim spec
    if s = c!"%+" ∨ s = c!"+" then (if table = [] then none else some (table.length - 1))
    else if s = c!"%-" ∨ s = c!"-" then (if table.length < 2 then none else some (table.length - 2))
    else selectNum (stripPct s) table

/-- Result of `fg`: the table afterwards, signals sent, and the job as it was left (it is in no
table). -/
structure FgOut where
  table : List RJob
  sent : List Sent
  job : Option RJob
deriving DecidableEq, Repr

/-- `execute_fg` (proxy/builtin/jobs.rs:95-189) on a terminal; the wait is run on a schedule.
Printing is left out; `none` in `job` means that no job was selected. -/
def fg (spec : List Char) (table : List RJob) (evs : List (Bool × WaitRes)) : FgOut :=
  match parseSpec spec table with
  | none => ⟨table, [], none⟩
  | some i => match table[i]? with
    | none => ⟨table, [], none⟩
    | some job =>
      let cont : List Sent := if job.state.isStop then
        (match job.pgid with | some g => [.proc g 18] | none => []) else []
      let o := waitLoop evs { job with state := .running } false
      ⟨table.eraseIdx i, cont ++ o.sent, some o.job⟩

/-- Index chosen by `bg` without an argument: the last stopped job (jobs.rs:217-238). -/
def lastStopped (table : List RJob) : Option Nat :=
  (table.reverse.findIdx? (fun j => j.state.isStop)).map (fun k => table.length - 1 - k)

/-- `execute_bg` (proxy/builtin/jobs.rs:194-329).  `contOk` says whether `killpg(SIGCONT)` succeeds;
the flag in the result is false for an error. -/
def bg (spec : List Char) (table : List RJob) (contOk : Bool) : List RJob × Bool :=
  if table = [] then (table, true)
  else
    match (if spec = [] then lastStopped table else parseSpec spec table) with
    | none => (table, false)
    | some i => match table[i]? with
      | none => (table, false)
      | some job =>
        if !job.state.isStop then (table, false)
        else if job.pgid.isSome && !contOk then (table.eraseIdx i, false)
        else (table.eraseIdx i ++ [{ job with state := .running }], true)

end Dsh.Jobs
