import Verif.Util
/-!
Process groups of the foreground job (C222): `launch_prepared` (dsh/src/process/process.rs:240-301), `fork_process` (dsh/src/process/fork.rs:57-156),
`launch_process` (dsh/src/process/job.rs:220-352: `setpgid`, `pgid`), `put_in_foreground` (dsh/src/process/job_wait.rs:15-73), in an interactive
shell on a terminal.

Of the system: `setsid` makes a process leader of a session and a group of its own; `TIOCSCTTY` with 0 makes a terminal that belongs to no
session the terminal of the session, with the group of the process in the foreground, and is refused otherwise; a terminal is left by its
session when the leader ends; Ctrl-C is sent to the group in the foreground.  The processes of the job set themselves up in any
order, none of them ends before; pids are all different.  All stages are programs (built-ins in a pipeline are left out).
-/
namespace Dsh.Groups

/-- A process with its session and its group. -/
structure Proc where
  pid : Nat
  sid : Nat
  pgid : Nat
deriving DecidableEq

/-- A terminal: the session it belongs to, and the group in the foreground. -/
structure Tty where
  session : Option Nat
  fg : Option Nat
deriving DecidableEq

structure Sys where
  procs : List Proc
  /-- the terminal of the shell -/
  tty : Tty
  /-- the pseudo terminal of the job -/
  pty : Tty
deriving DecidableEq

/-- The child sets itself up (process.rs:250-301); `first` is the group of the job, the pid of its first process (fork.rs:138, job.rs:248-252).
With a pseudo terminal: `setsid`, `TIOCSCTTY`.  Without: `setpgid`, `tcsetpgrp` (also done by the shell, job.rs:258-281, job_wait.rs:33-35). -/
def setup (pty : Bool) (first : Nat) (s : Sys) (pid : Nat) : Sys :=
  if pty then
    { s with
      procs := s.procs.map fun p => if p.pid = pid then { p with sid := pid, pgid := pid } else p
      pty := match s.pty.session with
        | none => ⟨some pid, some pid⟩
        | some _ => s.pty }
  else
    { s with
      procs := s.procs.map fun p => if p.pid = pid then { p with pgid := first } else p
      tty := { s.tty with fg := some first } }

/-- The processes after `fork`: session and group of the shell. -/
def forked (shell : Nat) (pids : List Nat) : Sys :=
  ⟨pids.map fun p => ⟨p, shell, shell⟩, ⟨some shell, some shell⟩, ⟨none, none⟩⟩

/-- The job runs: all have set themselves up, in the order `ord`. -/
def running (pty : Bool) (shell first : Nat) (rest ord : List Nat) : Sys := ord.foldl (setup pty first) (forked shell (first :: rest))

/-- A signal to a group. -/
def members (s : Sys) (g : Option Nat) : List Nat := (s.procs.filter fun p => g == some p.pgid).map Proc.pid

/-- Ctrl-C: at the pseudo terminal, to which the input is copied, if there is one (job_pty.rs:108-128); else at the terminal of the shell. -/
def ctrlC (pty : Bool) (s : Sys) : List Nat := members s (if pty then s.pty.fg else s.tty.fg)

/-- What the shell sends to the job: `killpg(job.pgid, …)` (job_wait.rs:269-273, 325-333, 345-354). -/
def killJob (first : Nat) (s : Sys) : List Nat := members s (some first)

/-- A process ends. -/
def ends (pid : Nat) (s : Sys) : Sys :=
  { s with
    procs := s.procs.filter fun p => p.pid ≠ pid
    pty := if s.pty.session = some pid then ⟨none, none⟩ else s.pty }

/-! ### Lemmas -/

theorem members_mem (s : Sys) (g : Option Nat) (x : Nat) : x ∈ members s g ↔ ∃ p ∈ s.procs, g = some p.pgid ∧ p.pid = x := by
  simp [members, and_assoc]

theorem pids_setup (pty : Bool) (first : Nat) (ord : List Nat) (s : Sys) :
    (ord.foldl (setup pty first) s).procs.map Proc.pid = s.procs.map Proc.pid := by
  induction ord generalizing s with
  | nil => rfl
  | cons a l ih =>
    rw [List.foldl_cons, ih]
    unfold setup
    split <;> (simp only [List.map_map]; refine List.map_congr_left fun p _ => ?_; simp only [Function.comp]; split <;> rfl)

theorem pgid_setup (pty : Bool) (first : Nat) (ord : List Nat) (s : Sys) :
    (ord.foldl (setup pty first) s).procs.map (fun p => (p.pid, p.pgid)) =
      s.procs.map fun p => (p.pid, if p.pid ∈ ord then (if pty then p.pid else first) else p.pgid) := by
  induction ord generalizing s with
  | nil => simp
  | cons a l ih =>
    rw [List.foldl_cons, ih]
    unfold setup
    cases pty
    · simp only [Bool.false_eq_true, if_false, List.map_map]
      refine List.map_congr_left fun p _ => ?_
      simp only [Function.comp]
      by_cases h : p.pid = a <;> by_cases h' : a ∈ l <;> simp_all
    · simp only [if_true, List.map_map]
      refine List.map_congr_left fun p _ => ?_
      simp only [Function.comp]
      by_cases h : p.pid = a <;> by_cases h' : a ∈ l <;> simp_all

theorem members_eq (s : Sys) (g : Option Nat) :
    members s g = ((s.procs.map fun p => (p.pid, p.pgid)).filter fun q => g == some q.2).map Prod.fst := by
  rw [List.filter_map, List.map_map]; rfl

/-- All processes have the group they are to have. -/
theorem pairs_running (pty : Bool) (shell first : Nat) (rest ord : List Nat) (h : ord.Perm (first :: rest)) :
    (running pty shell first rest ord).procs.map (fun p => (p.pid, p.pgid)) =
      (first :: rest).map fun p => (p, if pty then p else first) := by
  rw [running, pgid_setup, forked, List.map_map]
  refine List.map_congr_left fun p hp => ?_
  have : p ∈ ord := h.mem_iff.2 hp
  simp [this]

theorem pty_setup (first : Nat) (ord : List Nat) (s : Sys) :
    (ord.foldl (setup true first) s).pty = match s.pty.session with
      | some _ => s.pty
      | none => match ord with
        | [] => s.pty
        | a :: _ => ⟨some a, some a⟩ := by
  induction ord generalizing s with
  | nil => cases s.pty.session <;> rfl
  | cons a l ih =>
    rw [List.foldl_cons, ih]
    simp only [setup, if_true]
    cases h : s.pty.session with
    | none => rfl
    | some x => simp only [h]

theorem tty_setup (first : Nat) (ord : List Nat) (s : Sys) (h : ord ≠ []) : (ord.foldl (setup false first) s).tty.fg = some first := by
  have key : ∀ (l : List Nat) (s : Sys), s.tty.fg = some first → (l.foldl (setup false first) s).tty.fg = some first := by
    intro l
    induction l with
    | nil => intro s h; exact h
    | cons a l ih => intro s _; exact ih _ (by simp [setup])
  cases ord with
  | nil => exact absurd rfl h
  | cons a l => exact key l _ (by simp [setup])

/-! ### C222 -/

/-- **C222, without a pseudo terminal.** In whatever order the processes set themselves up, Ctrl-C reaches all processes of the job and so does
what the shell sends to it. -/
theorem C222_plain_partial (shell first : Nat) (rest ord : List Nat) (h : ord.Perm (first :: rest)) :
    ctrlC false (running false shell first rest ord) = first :: rest ∧ killJob first (running false shell first rest ord) = first :: rest := by
  have hne : ord ≠ [] := by rintro rfl; have := h.length_eq; simp at this
  have hf : (running false shell first rest ord).tty.fg = some first := tty_setup first ord _ hne
  have hm : members (running false shell first rest ord) (some first) = first :: rest := by
    rw [members_eq, pairs_running false shell first rest ord h, List.filter_map, List.map_map]
    simp [Function.comp_def]
  exact ⟨by simp only [ctrlC, Bool.false_eq_true, if_false, hf, hm], hm⟩

/-- **C222, one process.** A command that is no pipeline is reached by Ctrl-C and by the shell. -/
theorem C222_single_partial (pty : Bool) (shell first : Nat) :
    ctrlC pty (running pty shell first [] [first]) = [first] ∧ killJob first (running pty shell first [] [first]) = [first] := by
  cases pty <;> simp [running, forked, setup, ctrlC, killJob, members]

/-- In a pipeline on a pseudo terminal, a group has one process. -/
theorem members_pty (shell first g : Nat) (rest ord : List Nat) (h : ord.Perm (first :: rest)) (hn : (first :: rest).Nodup) (hg : g ∈ first :: rest) :
    members (running true shell first rest ord) (some g) = [g] := by
  rw [members_eq, pairs_running true shell first rest ord h, List.filter_map, List.map_map]
  simp only [Function.comp_def, if_true, List.map_id']
  have : ∀ (l : List Nat), l.Nodup → g ∈ l → l.filter (fun x => some g == some x) = [g] := by
    intro l
    induction l with
    | nil => intro _ h; simp at h
    | cons a l ih =>
      intro hd hm
      rw [List.nodup_cons] at hd
      by_cases e : g = a
      · subst e
        rw [List.filter_cons_of_pos (by simp)]
        congr 1
        rw [List.filter_eq_nil_iff]
        intro x hx
        simp only [Option.some_beq_some, beq_iff_eq]
        rintro rfl; exact hd.1 hx
      · rw [List.filter_cons_of_neg (by simpa using e)]
        exact ih hd.2 (by rcases List.mem_cons.1 hm with h | h; exact absurd h e; exact h)
  exact this _ hn hg

/-- **C222 fails: Ctrl-C in a pipeline.** Every process makes a session of its own, and the one that comes first gets the pseudo
terminal: Ctrl-C reaches this one and no other. -/
theorem C222_one_violated (shell first a : Nat) (rest l : List Nat) (h : (a :: l).Perm (first :: rest)) (hn : (first :: rest).Nodup) :
    ctrlC true (running true shell first rest (a :: l)) = [a] ∧
      ∀ p ∈ first :: rest, p ≠ a → p ∉ ctrlC true (running true shell first rest (a :: l)) := by
  have hp : (running true shell first rest (a :: l)).pty.fg = some a := by
    rw [running, pty_setup]; rfl
  have hc : ctrlC true (running true shell first rest (a :: l)) = [a] := by
    simp only [ctrlC, if_true, hp]
    exact members_pty shell first a rest (a :: l) h hn (h.mem_iff.1 List.mem_cons_self)
  refine ⟨hc, fun p _ hpa => ?_⟩
  rw [hc, List.mem_singleton]; exact hpa

/-- **C222 fails: chance.** Each process of the pipeline is, in some order, the only one Ctrl-C reaches. -/
theorem C222_chance_violated (shell first a : Nat) (rest : List Nat) (hn : (first :: rest).Nodup) (ha : a ∈ first :: rest) :
    ∃ ord, ord.Perm (first :: rest) ∧ ctrlC true (running true shell first rest ord) = [a] := by
  have hp : (a :: (first :: rest).erase a).Perm (first :: rest) := (List.perm_cons_erase ha).symm
  exact ⟨_, hp, (C222_one_violated shell first a rest _ hp hn).1⟩

/-- **C222 fails: the shell's own signals.** What the shell sends to the job, because a stage failed, the last one has ended or Ctrl-C was
pressed, reaches the first process only. -/
theorem C222_kill_violated (shell first : Nat) (rest ord : List Nat) (h : ord.Perm (first :: rest)) (hn : (first :: rest).Nodup) :
    killJob first (running true shell first rest ord) = [first] ∧ ∀ p ∈ rest, p ∉ killJob first (running true shell first rest ord) := by
  have hc : killJob first (running true shell first rest ord) = [first] := members_pty shell first first rest ord h hn (by simp)
  refine ⟨hc, fun p hp => ?_⟩
  rw [hc, List.mem_singleton]
  rintro rfl
  exact (List.nodup_cons.1 hn).1 hp

/-- **C222 fails: once more.** After the process reached has ended, Ctrl-C reaches nobody: the others cannot be ended from the
keyboard. -/
theorem C222_again_violated (shell first a : Nat) (rest l : List Nat) :
    let s := ends a (running true shell first rest (a :: l))
    ctrlC true s = [] ∧ ∀ p ∈ first :: rest, p ≠ a → ∃ q ∈ s.procs, q.pid = p := by
  have hp : (running true shell first rest (a :: l)).pty = ⟨some a, some a⟩ := by
    rw [running, pty_setup]; rfl
  have hpids : (running true shell first rest (a :: l)).procs.map Proc.pid = first :: rest := by
    rw [running, pids_setup, forked, List.map_map]; simp [Function.comp_def]
  refine ⟨?_, ?_⟩
  · simp [ctrlC, ends, hp, members]
  · intro p hm hpa
    rw [← hpids, List.mem_map] at hm
    obtain ⟨q, hq, rfl⟩ := hm
    exact ⟨q, by simp [ends, hq, hpa], rfl⟩

/-! ### Examples -/

/-- `yes | sleep 1000`: only `yes` is reached, then nobody. -/
example : ctrlC true (running true 1 10 [11] [10, 11]) = [10] ∧ ctrlC true (ends 10 (running true 1 10 [11] [10, 11])) = [] ∧
    (ends 10 (running true 1 10 [11] [10, 11])).procs = [⟨11, 11, 11⟩] ∧ ctrlC false (running false 1 10 [11] [11, 10]) = [10, 11] := by decide

end Dsh.Groups
