import Verif.Jobs.WaitProps
/-!
C16, C17, C18, C19, C56, C57: the job table.
-/
namespace Dsh.Jobs
open Dsh.Eval (PState)

/-! ### Specification -/

/-- The process has ended: the kernel has its status, or it has already been waited for. -/
def Ended (K : Kernel) (pid : Nat) : Prop := K pid = none ∨ ∃ c s, K pid = some (.ended c s)

instance (K pid) : Decidable (Ended K pid) :=
  match h : K pid with
  | none => .isTrue (.inl h)
  | some (.ended c s) => .isTrue (.inr ⟨c, s, h⟩)
  | some .alive => .isFalse (by rintro (h' | ⟨_, _, h'⟩) <;> rw [h] at h' <;> cases h')
  | some (.stopNews _) => .isFalse (by rintro (h' | ⟨_, _, h'⟩) <;> rw [h] at h' <;> cases h')

/-- A job consisting of one external command that has not been seen to end. -/
structure Single (j : RJob) (pid : Nat) : Prop where
  procs : ∃ st, j.procs = [⟨false, some pid, st⟩] ∧ st.done = false
  state : j.state.done = false

/-! ### One job -/

theorem waitPid_done (K : Kernel) (pid : Nat) :
    (∀ st, (waitPid K pid).2 = some st → (st.done = true ↔ Ended K pid)) ∧
    ((waitPid K pid).2 = none → ¬ Ended K pid) ∧
    (∀ q, q ≠ pid → (waitPid K pid).1 q = K q) := by
  unfold waitPid Ended
  split
  · next h => exact ⟨fun st hs => by injection hs with hs; subst hs; simp [PState.done, h], by simp, fun _ _ => rfl⟩
  · next h => exact ⟨by simp, by simp [h], fun _ _ => rfl⟩
  · next h =>
    refine ⟨fun st hs => ?_, by simp, fun q hq => by simp [Kernel.set, hq]⟩
    injection hs with hs; subst hs; simp [PState.done, h]
  · next h =>
    refine ⟨fun st hs => ?_, by simp, fun q hq => by simp [Kernel.set, hq]⟩
    injection hs with hs; subst hs; simp [PState.done, h]
  · next h =>
    refine ⟨fun st hs => ?_, by simp, fun q hq => by simp [Kernel.set, hq]⟩
    injection hs with hs; subst hs; simp [PState.done, h]

/-- Polling twice is like polling once. -/
theorem pollProc_done (K : Kernel) (pid : Nat) (st : PState) (h : st.done = false) :
    let r := pollProc K ⟨false, some pid, st⟩
    (r.2.done = true ↔ Ended K pid) ∧ (∀ q, q ≠ pid → r.1 q = K q) ∧ (r.2.done = false → ¬ Ended r.1 pid) := by
  intro r
  obtain ⟨h1, h2, h3⟩ := waitPid_done K pid
  cases hw : waitPid K pid with
  | mk K' o =>
    rw [hw] at h1 h2 h3
    cases o with
    | none =>
      have hr : r = (K', st) := by simp [r, pollProc, hw]
      have hn := h2 rfl
      have hK : K' = K := by
        unfold waitPid at hw
        split at hw <;> simp at hw
        exact hw.symm
      refine ⟨?_, ?_, ?_⟩
      · rw [hr]; simp [h, hn]
      · rw [hr]; exact h3
      · rw [hr, hK]; intro _; exact hn
    | some st' =>
      have hr : r = (K', st') := by simp [r, pollProc, hw]
      refine ⟨?_, ?_, ?_⟩
      · rw [hr]; exact h1 st' rfl
      · rw [hr]; exact h3
      · rw [hr]
        intro hd
        unfold waitPid at hw
        split at hw <;> simp at hw
        · obtain ⟨_, rfl⟩ := hw; simp [PState.done] at hd
        · obtain ⟨rfl, rfl⟩ := hw
          simp [Ended, Kernel.set]
        · obtain ⟨_, rfl⟩ := hw; simp [PState.done] at hd
        · obtain ⟨_, rfl⟩ := hw; simp [PState.done] at hd

theorem updateStatus_single {K : Kernel} {j : RJob} {pid : Nat} {st : PState}
    (hp : j.procs = [⟨false, some pid, st⟩]) (hd : st.done = false) :
    updateStatus K j = ((pollProc K ⟨false, some pid, st⟩).1,
      { j with procs := [⟨false, some pid, (pollProc K ⟨false, some pid, st⟩).2⟩],
               state := (pollProc K ⟨false, some pid, st⟩).2 },
      (pollProc K ⟨false, some pid, st⟩).2.done) := by
  unfold updateStatus
  rw [hp]
  simp only [update, hd, Bool.false_eq_true, if_false, Option.getD_some]
  simp [jobCompleted, isCompleted, consumerDone]

/-- What a check does to a single-command job. -/
theorem checkOne_single {K : Kernel} {j : RJob} {pid : Nat} (h : Single j pid) :
    let r := checkOne K j
    (r.2.state.done = true ↔ Ended K pid) ∧ (∀ q, q ≠ pid → r.1 q = K q) ∧
    r.2.id = j.id ∧ (∃ st, r.2.procs = [⟨false, some pid, st⟩] ∧ st = r.2.state) := by
  obtain ⟨⟨st, hp, hd⟩, _⟩ := h
  intro r
  have hu := updateStatus_single (K := K) hp hd
  obtain ⟨h1, h2, h3⟩ := pollProc_done K pid st hd
  by_cases hfin : (pollProc K ⟨false, some pid, st⟩).2.done = true
  · have hr : r = ((pollProc K ⟨false, some pid, st⟩).1,
      { j with procs := [⟨false, some pid, (pollProc K ⟨false, some pid, st⟩).2⟩],
               state := (pollProc K ⟨false, some pid, st⟩).2 }) := by
      simp only [r]
      unfold checkOne
      rw [hu]
      simp [hfin]
    rw [hr]
    exact ⟨h1, h2, rfl, _, rfl, rfl⟩
  · have hfin : (pollProc K ⟨false, some pid, st⟩).2.done = false := by simpa using hfin
    have hne : ¬ Ended K pid := fun he => by rw [h1.2 he] at hfin; cases hfin
    by_cases hfg : j.foreground = true
    · have hr : r = ((pollProc K ⟨false, some pid, st⟩).1,
        { j with procs := [⟨false, some pid, (pollProc K ⟨false, some pid, st⟩).2⟩],
                 state := (pollProc K ⟨false, some pid, st⟩).2 }) := by
        simp only [r]
        unfold checkOne
        rw [hu]
        simp [hfg]
      rw [hr]
      exact ⟨h1, h2, rfl, _, rfl, rfl⟩
    · have hfg : j.foreground = false := by simpa using hfg
      set K1 := (pollProc K ⟨false, some pid, st⟩).1
      set st1 := (pollProc K ⟨false, some pid, st⟩).2
      have hu2 := updateStatus_single (K := K1)
        (j := { j with procs := [⟨false, some pid, st1⟩], state := st1 }) (pid := pid) (st := st1) rfl hfin
      obtain ⟨g1, g2, g3⟩ := pollProc_done K1 pid st1 hfin
      have hr : r = ((pollProc K1 ⟨false, some pid, st1⟩).1,
        { j with procs := [⟨false, some pid, (pollProc K1 ⟨false, some pid, st1⟩).2⟩],
                 state := (pollProc K1 ⟨false, some pid, st1⟩).2 }) := by
        simp only [r]
        unfold checkOne
        rw [hu]
        rw [if_pos (by simp [hfin, hfg]), hu2]
      rw [hr]
      refine ⟨?_, ?_, rfl, _, rfl, rfl⟩
      · rw [g1]
        exact ⟨fun h => absurd h (h3 hfin), fun h => absurd h hne⟩
      · intro q hq
        rw [g2 q hq, h2 q hq]

/-! ### C16 -/

/-- Jobs and the pids of their commands, all different. -/
inductive Singles : List RJob → List Nat → Prop
  | nil : Singles [] []
  | cons {j js p ps} : Single j p → p ∉ ps → Singles js ps → Singles (j :: js) (p :: ps)

theorem checkAll_singles {K : Kernel} {js : List RJob} {ps : List Nat} (h : Singles js ps) :
    (checkAll K js).2.map (fun j => (j.id, j.state.done)) =
      (js.zip ps).map (fun x => (x.1.id, decide (Ended K x.2))) := by
  induction h generalizing K with
  | nil => rfl
  | @cons j js p ps hj hp hs ih =>
    obtain ⟨h1, h2, h3, h4⟩ := checkOne_single (K := K) hj
    simp only [checkAll, List.map_cons, List.zip_cons_cons, ih]
    congr 1
    · rw [h3]
      congr 1
      rw [Bool.eq_iff_iff, h1, decide_eq_true_iff]
    · apply List.map_congr_left
      intro x hx
      have hne : x.2 ≠ p := fun e => hp (e ▸ (List.of_mem_zip hx).2)
      simp only [Prod.mk.injEq, true_and, decide_eq_decide]
      unfold Ended
      rw [h2 x.2 hne]

/-- **C16, the part that holds.** For every table of jobs each of which is a single external command:
the check reports as done exactly the jobs whose process has ended, keeps exactly the others, both in
the order of the table.  Missing: pipelines and background builtins, see `C16_pipeline_violated` and
`C16_builtin_violated`. -/
theorem C16_single_partial {K : Kernel} {js : List RJob} {ps : List Nat} (h : Singles js ps) :
    (checkJobs K js).2.1.map (·.id) = ((js.zip ps).filter (fun x => decide (Ended K x.2))).map (·.1.id) ∧
    (checkJobs K js).2.2.map (·.id) = ((js.zip ps).filter (fun x => !decide (Ended K x.2))).map (·.1.id) := by
  have hall := checkAll_singles (K := K) h
  have key : ∀ (f : Bool → Bool) (a : List RJob) (b : List (RJob × Nat)),
      a.map (fun j => (j.id, j.state.done)) = b.map (fun x => (x.1.id, decide (Ended K x.2))) →
      (a.filter (fun j => f j.state.done)).map (·.id) =
        (b.filter (fun x => f (decide (Ended K x.2)))).map (·.1.id) := by
    intro f a
    induction a with
    | nil => intro b hb; cases b with
      | nil => rfl
      | cons x b => simp at hb
    | cons j a ih =>
      intro b hb
      cases b with
      | nil => simp at hb
      | cons x b =>
        simp only [List.map_cons, List.cons.injEq, Prod.mk.injEq] at hb
        obtain ⟨⟨e1, e2⟩, e3⟩ := hb
        rw [List.filter_cons, List.filter_cons, e2]
        split
        · simp only [List.map_cons, e1, ih b e3]
        · exact ih b e3
  exact ⟨key id _ _ hall, key (!·) _ _ hall⟩

/-- Three background jobs; the second has ended. -/
def bg3 : List RJob :=
  [⟨1, [⟨false, some 21, .running⟩], some 21, some 21, false, .running⟩,
   ⟨2, [⟨false, some 22, .running⟩], some 22, some 22, false, .running⟩,
   ⟨3, [⟨false, some 23, .stopped 23 20⟩], some 23, some 23, true, .stopped 23 20⟩]
/-- Their kernel. -/
def K3 : Kernel := fun p => if p = 21 then some .alive else if p = 22 then some (.ended 3 none)
  else if p = 23 then some .alive else none

example : (checkJobs K3 bg3).2.1.map (·.id) = [2] ∧ (checkJobs K3 bg3).2.2.map (·.id) = [1, 3] :=
  C16_single_partial (ps := [21, 22, 23])
    (.cons ⟨⟨_, rfl, rfl⟩, rfl⟩ (by decide) (.cons ⟨⟨_, rfl, rfl⟩, rfl⟩ (by decide)
      (.cons ⟨⟨_, rfl, rfl⟩, rfl⟩ (by decide) .nil)))

/-- In every table, whatever the jobs, none is lost or doubled: done and kept together are the jobs
of the table. -/
theorem C16_nothing_lost_partial (K : Kernel) (js : List RJob) :
    ((checkJobs K js).2.1 ++ (checkJobs K js).2.2).map (·.id) |>.Perm (js.map (·.id)) := by
  have hids : (checkAll K js).2.map (·.id) = js.map (·.id) := by
    induction js generalizing K with
    | nil => rfl
    | cons j js ih =>
      simp only [checkAll, List.map_cons, ih, List.cons.injEq, and_true]
      unfold checkOne updateStatus
      simp only
      split <;> rfl
  rw [← hids]
  apply List.Perm.map
  exact List.filter_append_perm (fun (j : RJob) => j.state.done) (checkAll K js).2

/-- **C16 fails for pipelines.** A background job `a | b` is reported as done and removed as soon as
the first stage has ended, while the second is running. -/
theorem C16_pipeline_violated :
    let K : Kernel := fun p => if p = 31 then some (.ended 0 none) else if p = 32 then some .alive else none
    let j : RJob := ⟨1, [⟨false, some 31, .running⟩, ⟨false, some 32, .running⟩], some 31, some 31, false, .running⟩
    (checkJobs K [j]).2.1.map (·.id) = [1] ∧ (checkJobs K [j]).2.2 = [] ∧ ¬ Ended K 32 := by decide

/-- **C16 fails for builtins in the background**, whose forked process is never looked at: the job
stays in the table for ever, whatever becomes of the process. -/
theorem C16_builtin_violated (K : Kernel) (pid : Nat) :
    let j : RJob := ⟨1, [⟨true, some pid, .running⟩], some pid, some pid, false, .running⟩
    (checkJobs K [j]).2 = ([], [j]) := by
  simp [checkJobs, checkAll, checkOne, updateStatus, update, jobCompleted, isCompleted, consumerDone, PState.done]

/-! ### C17 -/

/-- What can happen between two looks at a background job with process `pid`. -/
inductive Act where
  /-- a child ends -/
  | ends (pid code : Nat) (sig : Option Nat)
  /-- a child is stopped -/
  | stops (pid sig : Nat)
  /-- the wait of a foreground job takes the end of this child -/
  | reaped (pid : Nat)
  /-- the periodic check -/
  | check
deriving DecidableEq, Repr

/-- The status as the shell records it (wait.rs:107-121). -/
def recorded (code : Nat) : Option Nat → PState
  | some s => .completed 1 (some s)
  | none => .completed (code % 256) none

/-- Shell and kernel with a background job of one command. -/
structure Sys where
  K : Kernel
  job : RJob
  /-- how the process ended, if it has -/
  truth : Option PState

/-- One step.  `reaped` happens only for a child that has ended. -/
def Sys.step (pid : Nat) (s : Sys) : Act → Sys
  | .ends p c g => match s.K p with
    | some (.ended _ _) => s
    | none => s
    | some _ => { s with K := s.K.set p (some (.ended c g)),
                         truth := if p = pid then some (recorded c g) else s.truth }
  | .stops p g => match s.K p with
    | some .alive => { s with K := s.K.set p (some (.stopNews g)) }
    | _ => s
  | .reaped p => match s.K p with
    | some (.ended _ _) => { s with K := s.K.set p none }
    | _ => s
  | .check => let r := checkOne s.K s.job
    { s with K := r.1, job := r.2 }

/-- Invariant while no foreground wait takes the status of `pid`. -/
structure Faithful (pid : Nat) (s : Sys) : Prop where
  procs : s.job.procs = [⟨false, some pid, s.job.state⟩]
  shown : s.job.state.done = true → s.truth = some s.job.state ∧ s.K pid = none
  pending : s.job.state.done = false →
    (∃ c g, s.K pid = some (.ended c g) ∧ s.truth = some (recorded c g)) ∨
    (s.truth = none ∧ (s.K pid = some .alive ∨ ∃ g, s.K pid = some (.stopNews g)))

theorem pollProc_faithful {K : Kernel} {pid : Nat} {st : PState} {truth : Option PState} (hd : st.done = false)
    (h : (∃ c g, K pid = some (.ended c g) ∧ truth = some (recorded c g)) ∨
      (truth = none ∧ (K pid = some .alive ∨ ∃ g, K pid = some (.stopNews g)))) :
    let r := pollProc K ⟨false, some pid, st⟩
    (r.2.done = true → truth = some r.2 ∧ r.1 pid = none) ∧
    (r.2.done = false → truth = none ∧ (r.1 pid = some .alive ∨ ∃ g, r.1 pid = some (.stopNews g))) := by
  rcases h with ⟨c, g, hK, ht⟩ | ⟨ht, hK | ⟨g, hK⟩⟩
  · cases g with
    | none => simp [pollProc, waitPid, hK, ht, recorded, PState.done, Kernel.set]
    | some g => simp [pollProc, waitPid, hK, ht, recorded, PState.done, Kernel.set]
  · simp [pollProc, waitPid, hK, ht, hd]
  · simp [pollProc, waitPid, hK, ht, PState.done, Kernel.set]

theorem checkOne_done {K : Kernel} {j : RJob} {pid : Nat} (hp : j.procs = [⟨false, some pid, j.state⟩])
    (hd : j.state.done = true) : checkOne K j = (K, j) := by
  obtain ⟨id, procs, p, g, f, st⟩ := j
  simp only at hp hd
  subst hp
  simp [checkOne, updateStatus, update, hd, jobCompleted, isCompleted]

theorem Faithful.step {pid : Nat} {s : Sys} (h : Faithful pid s) (a : Act) (ha : a ≠ .reaped pid) :
    Faithful pid (s.step pid a) := by
  obtain ⟨hp, hshown, hpend⟩ := h
  cases a with
  | ends p c g =>
    simp only [Sys.step]
    split
    · exact ⟨hp, hshown, hpend⟩
    · exact ⟨hp, hshown, hpend⟩
    · next c' hne hK =>
      by_cases hpp : p = pid
      · subst hpp
        refine ⟨hp, fun hd => ?_, fun _ => .inl ⟨c, g, by simp [Kernel.set], by simp⟩⟩
        have := (hshown hd).2
        rw [this] at hK; cases hK
      · have hpp' : ¬ pid = p := fun e => hpp e.symm
        refine ⟨hp, fun hd => ?_, fun hd => ?_⟩
        · simpa [Kernel.set, hpp, hpp'] using hshown hd
        · simpa [Kernel.set, hpp, hpp'] using hpend hd
  | stops p g =>
    simp only [Sys.step]
    split
    · next hK =>
      by_cases hpp : p = pid
      · subst hpp
        refine ⟨hp, fun hd => ?_, fun hd => ?_⟩
        · have := (hshown hd).2
          rw [this] at hK; cases hK
        · rcases hpend hd with ⟨c, g', hk, _⟩ | ⟨ht, _⟩
          · rw [hK] at hk; cases hk
          · exact .inr ⟨ht, .inr ⟨g, by simp [Kernel.set]⟩⟩
      · have hpp' : ¬ pid = p := fun e => hpp e.symm
        refine ⟨hp, fun hd => ?_, fun hd => ?_⟩
        · simpa [Kernel.set, hpp'] using hshown hd
        · simpa [Kernel.set, hpp'] using hpend hd
    · exact ⟨hp, hshown, hpend⟩
  | reaped p =>
    have hpp' : ¬ pid = p := fun e => ha (by rw [e])
    simp only [Sys.step]
    split
    · refine ⟨hp, fun hd => ?_, fun hd => ?_⟩
      · simpa [Kernel.set, hpp'] using hshown hd
      · simpa [Kernel.set, hpp'] using hpend hd
    · exact ⟨hp, hshown, hpend⟩
  | check =>
    by_cases hd : s.job.state.done = true
    · have hc : checkOne s.K s.job = (s.K, s.job) := by
        exact checkOne_done hp hd
      simp only [Sys.step, hc]
      exact ⟨hp, hshown, hpend⟩
    · have hd : s.job.state.done = false := by simpa using hd
      have hu := updateStatus_single (K := s.K) hp hd
      have hf := pollProc_faithful hd (hpend hd)
      simp only [Sys.step]
      unfold checkOne
      rw [hu]
      set K1 := (pollProc s.K ⟨false, some pid, s.job.state⟩).1
      set st1 := (pollProc s.K ⟨false, some pid, s.job.state⟩).2
      by_cases hcond : st1.done = false ∧ s.job.foreground = false
      · have hfin := hcond.1
        rw [if_pos (by simp [hcond.1, hcond.2])]
        have hu2 := updateStatus_single (K := K1)
          (j := { s.job with procs := [⟨false, some pid, st1⟩], state := st1 }) (pid := pid) (st := st1) rfl hfin
        rw [hu2]
        have hf2 := pollProc_faithful (K := K1) (truth := s.truth) (pid := pid) hfin (.inr (hf.2 hfin))
        exact ⟨rfl, hf2.1, fun h => .inr (hf2.2 h)⟩
      · rw [if_neg (by simpa using hcond)]
        exact ⟨rfl, hf.1, fun h => .inr (hf.2 h)⟩

/-- A background job of one command, just started. -/
def fresh (id pid : Nat) : RJob := ⟨id, [⟨false, some pid, .running⟩], some pid, some pid, false, .running⟩

/-- **C17, the part that holds.** Whatever children end, stop and are waited for, and whenever the
table is checked: as long as the wait of no foreground job takes the end of the background job's own
process, that job is shown as done only with the status its process really ended with.
Missing: see `C17_status_lost_violated`. -/
theorem C17_status_partial (id pid : Nat) (K : Kernel) (hK : K pid = some .alive) (acts : List Act)
    (hr : Act.reaped pid ∉ acts) :
    let s := acts.foldl (Sys.step pid) ⟨K, fresh id pid, none⟩
    s.job.state.done = true → s.truth = some s.job.state := by
  have key : ∀ (acts : List Act) (s : Sys), Faithful pid s → Act.reaped pid ∉ acts →
      Faithful pid (acts.foldl (Sys.step pid) s) := by
    intro acts
    induction acts with
    | nil => exact fun s h _ => h
    | cons a acts ih =>
      intro s h hr
      exact ih _ (h.step a (fun e => hr (by simp [e]))) (fun h => hr (by simp [h]))
  intro s hd
  exact ((key acts ⟨K, fresh id pid, none⟩
    ⟨rfl, fun h => by simp [fresh, PState.done] at h, fun _ => .inr ⟨rfl, .inl hK⟩⟩ hr).shown hd).1

/-- And once it has ended, the next check shows it. -/
theorem C17_shown_partial (id pid : Nat) (K : Kernel) (hK : K pid = some .alive) (acts : List Act)
    (hr : Act.reaped pid ∉ acts) :
    let s := acts.foldl (Sys.step pid) ⟨K, fresh id pid, none⟩
    s.truth.isSome = true → (s.step pid .check).job.state.done = true ∧
      (s.step pid .check).truth = some (s.step pid .check).job.state := by
  have key : ∀ (acts : List Act) (s : Sys), Faithful pid s → Act.reaped pid ∉ acts →
      Faithful pid (acts.foldl (Sys.step pid) s) := by
    intro acts
    induction acts with
    | nil => exact fun s h _ => h
    | cons a acts ih =>
      intro s h hr
      exact ih _ (h.step a (fun e => hr (by simp [e]))) (fun h => hr (by simp [h]))
  intro s ht
  have hs : Faithful pid s := key acts _
    ⟨rfl, fun h => by simp [fresh, PState.done] at h, fun _ => .inr ⟨rfl, .inl hK⟩⟩ hr
  have hs' := hs.step .check (by simp)
  have hd : (s.step pid .check).job.state.done = true := by
    by_contra hn
    have hn : (s.step pid .check).job.state.done = false := by simpa using hn
    rcases hs'.pending hn with ⟨c, g, hk, _⟩ | ⟨htn, _⟩
    · -- the check took the status
      by_cases hd : s.job.state.done = true
      · have hc : checkOne s.K s.job = (s.K, s.job) := by
          exact checkOne_done hs.procs hd
        simp only [Sys.step, hc] at hn
        rw [hn] at hd; cases hd
      · have hd : s.job.state.done = false := by simpa using hd
        have hsing : Single s.job pid := ⟨⟨_, hs.procs, hd⟩, hd⟩
        have h1 := (checkOne_single (K := s.K) hsing).1
        rcases hs.pending hd with ⟨c, g, hk', _⟩ | ⟨htn, _⟩
        · have := h1.2 (.inr ⟨c, g, hk'⟩)
          rw [show (checkOne s.K s.job).2.state.done = (s.step pid .check).job.state.done from rfl, hn] at this
          cases this
        · rw [htn] at ht; cases ht
    · rw [show (s.step pid .check).truth = s.truth from rfl] at htn
      rw [htn] at ht; cases ht
  exact ⟨hd, (hs'.shown hd).1⟩

/-- Another child is waited for, the job is stopped, checked, killed by signal 9 and checked again. -/
def story : List Act := [.ends 60 0 none, .reaped 60, .stops 50 20, .check, .ends 50 0 (some 9), .check]

example : (story.foldl (Sys.step 50) ⟨fun _ => some .alive, fresh 1 50, none⟩).job.state = .completed 1 (some 9) ∧
    Act.reaped 50 ∉ story := by decide

/-- **C17 fails.** A background job ends with status 7 (or is killed by signal 9) while a foreground
command is being waited for.  The foreground wait takes the status, and the next check shows the job
as having ended with status 1, without a signal. -/
theorem C17_status_lost_violated :
    let s := fun (c : Nat) (g : Option Nat) =>
      [Act.ends 50 c g, .reaped 50, .check].foldl (Sys.step 50) ⟨fun _ => some .alive, fresh 1 50, none⟩
    (s 7 none).truth = some (.completed 7 none) ∧ (s 7 none).job.state = .completed 1 none ∧
    (s 0 (some 9)).truth = some (.completed 1 (some 9)) ∧ (s 0 (some 9)).job.state = .completed 1 none ∧
    (s 0 none).truth = some (.completed 0 none) ∧ (s 0 none).job.state = .completed 1 none := by decide

/-! ### C18 -/

/-- Histories of the table: a new job, a check, `bg`, `fg`. -/
inductive TOp where
  | launch (procs : List Proc) (foreground : Bool)
  | check (K : Kernel)
  | bg (spec : List Char) (ok : Bool)
  | fg (spec : List Char) (evs : List (Bool × WaitRes))

/-- One operation on the table (`launch`: eval.rs:227 and the push of a job that is still there
afterwards). -/
def TOp.run (t : List RJob) : TOp → List RJob
  | .launch procs f => t ++ [{ id := nextJobId t, procs := procs, foreground := f }]
  | .check K => (checkJobs K t).2.2
  | .bg spec ok => (Jobs.bg spec t ok).1
  | .fg spec evs => (Jobs.fg spec t evs).table

/-- `bg` is used only on the job that is last in the table (the most recent one). -/
def TOp.mild (t : List RJob) : TOp → Prop
  | .bg spec _ => ∀ i, (if spec = [] then lastStopped t else parseSpec spec t) = some i → i + 1 = t.length
  | _ => True

/-- Job numbers increase along the table. -/
def Increasing (t : List RJob) : Prop := (t.map (·.id)).Pairwise (· < ·)

theorem Increasing.sublist {t u : List RJob} (h : Increasing u) (hs : (t.map (·.id)).Sublist (u.map (·.id))) :
    Increasing t := List.Pairwise.sublist hs h

theorem checkJobs_ids (K : Kernel) (js : List RJob) :
    ((checkJobs K js).2.2.map (·.id)).Sublist (js.map (·.id)) := by
  have hids : (checkAll K js).2.map (·.id) = js.map (·.id) := by
    induction js generalizing K with
    | nil => rfl
    | cons j js ih =>
      simp only [checkAll, List.map_cons, ih, List.cons.injEq, and_true]
      unfold checkOne updateStatus
      simp only
      split <;> rfl
  rw [← hids]
  exact (List.filter_sublist).map _

theorem Increasing.run {t : List RJob} (h : Increasing t) (o : TOp) (hm : o.mild t) : Increasing (o.run t) := by
  cases o with
  | launch procs f =>
    unfold Increasing TOp.run
    rw [List.map_append, List.pairwise_append]
    refine ⟨h, by simp, ?_⟩
    intro a ha b hb
    simp only [List.map_cons, List.map_nil, List.mem_singleton] at hb
    subst hb
    cases hl : t.getLast? with
    | none => rw [List.getLast?_eq_none_iff] at hl; subst hl; simp at ha
    | some l =>
      simp only [nextJobId, hl]
      obtain ⟨ys, rfl⟩ := List.getLast?_eq_some_iff.1 hl
      simp only [Increasing, List.map_append, List.pairwise_append] at h
      rw [List.map_append, List.mem_append] at ha
      rcases ha with ha | ha
      · exact Nat.lt_succ_of_lt (h.2.2 a ha l.id (by simp))
      · simp at ha; omega
  | check K => exact h.sublist (checkJobs_ids K t)
  | fg spec evs =>
    apply h.sublist
    simp only [TOp.run, Jobs.fg]
    split
    · exact List.Sublist.refl _
    · split
      · exact List.Sublist.refl _
      · exact (List.eraseIdx_sublist _ _).map _
  | bg spec ok =>
    simp only [TOp.run, Jobs.bg]
    split
    · exact h
    · split
      · exact h
      · next i hi =>
        have hlast := hm i hi
        split
        · exact h
        · next job hj =>
          split
          · exact h
          · split
            · exact h.sublist ((List.eraseIdx_sublist _ _).map _)
            · unfold Increasing at *
              have e : (t.eraseIdx i ++ [({ job with state := .running } : RJob)]).map (·.id) = t.map (·.id) := by
                have ht : t.eraseIdx i = t.dropLast := by
                  exact List.eraseIdx_eq_dropLast hlast
                have hne : t ≠ [] := by intro e; subst e; simp at hj
                have hg : t.getLast hne = job := by
                  rw [List.getLast_eq_getElem]
                  have := List.getElem?_eq_some_iff.1 hj
                  obtain ⟨hlt, hge⟩ := this
                  rw [← hge]; congr 1; omega
                rw [ht]
                conv_rhs => rw [← List.dropLast_concat_getLast hne, hg]
                simp
              rw [e]; exact h

/-- All operations of a history are mild. -/
def Mild : List RJob → List TOp → Prop
  | _, [] => True
  | t, o :: os => o.mild t ∧ Mild (o.run t) os

/-- **C18, uniqueness, the part that holds.** In every history of starting jobs, checking, `fg` and
`bg` of the most recent job, the jobs in the table have different numbers, increasing along the table.
Missing: `bg` of another job, see `C18_duplicate_violated`. -/
theorem C18_unique_partial (os : List TOp) (hm : Mild [] os) :
    ((os.foldl TOp.run []).map (·.id)).Pairwise (· < ·) := by
  have key : ∀ (os : List TOp) (t : List RJob), Increasing t → Mild t os → Increasing (os.foldl TOp.run t) := by
    intro os
    induction os with
    | nil => exact fun t h _ => h
    | cons o os ih => exact fun t h hm => ih _ (h.run o hm.1) hm.2
  exact key os [] (by simp [Increasing]) hm

/-- A stopped stage. -/
def stoppedProc (pid : Nat) : Proc := ⟨false, some pid, .stopped pid 20⟩

/-- Kernel in which the children 71, 72, 73 are alive. -/
def K7 : Kernel := fun p => if p = 71 ∨ p = 72 ∨ p = 73 then some .alive else none

/-- Start three jobs, notice that they are stopped, continue the last, start another. -/
def mildOps : List TOp := [.launch [stoppedProc 71] false, .launch [stoppedProc 72] false,
  .check K7, .bg [] true, .fg c!"%1" [], .launch [stoppedProc 73] false]

example : Mild [] mildOps ∧ (mildOps.foldl TOp.run []).map (·.id) = [2, 3] := by
  refine ⟨⟨trivial, trivial, trivial, ?_, trivial, trivial, trivial⟩, by decide⟩
  intro i hi
  have : lastStopped (TOp.run (TOp.run (TOp.run [] (.launch [stoppedProc 71] false))
    (.launch [stoppedProc 72] false)) (.check K7)) = some 1 := by decide
  simp only [if_true, this] at hi
  injection hi with hi
  subst hi
  decide

/-- **C18 fails.** Two stopped jobs; `bg 1` moves job 1 behind job 2; the next job is numbered 2,
as one that is still there. -/
theorem C18_duplicate_violated :
    (([.launch [stoppedProc 71] false, .launch [stoppedProc 72] false, .check K7, .bg c!"1" true,
      .launch [stoppedProc 73] false] : List TOp).foldl TOp.run []).map (·.id) = [2, 1, 2] := by decide

/-- Decimal digits of a number, with any number of leading zeros, up to `usize`. -/
def Denotes (s : List Char) (n : Nat) : Prop :=
  s ≠ [] ∧ (∀ c ∈ s, ∃ d, d < 10 ∧ c.toNat = 48 + d) ∧
  s.foldl (fun n c => n * 10 + (c.toNat - 48)) 0 = n ∧ n < 2 ^ 64

theorem foldl_ge (s : List Char) (n : Nat) :
    n ≤ s.foldl (fun n c => n * 10 + (c.toNat - 48)) n := by
  induction s generalizing n with
  | nil => exact Nat.le_refl _
  | cons c s ih =>
    refine Nat.le_trans ?_ (ih _)
    show n ≤ n * 10 + (c.toNat - 48)
    omega

theorem digits_of (s : List Char) (n m : Nat) (h1 : ∀ c ∈ s, ∃ d, d < 10 ∧ c.toNat = 48 + d)
    (h2 : s.foldl (fun n c => n * 10 + (c.toNat - 48)) n = m) (h3 : m < 2 ^ 64) : digits s n = some m := by
  induction s generalizing n with
  | nil => simp [digits]; exact h2
  | cons c s ih =>
    obtain ⟨d, hd, hc⟩ := h1 c (by simp)
    have h0 : ('0' : Char).toNat = 48 := rfl
    have h9 : ('9' : Char).toNat = 57 := rfl
    have hdig : digit? c = some (c.toNat - 48) := by
      unfold digit?
      rw [if_pos ⟨by omega, by omega⟩, h0]
    simp only [digits, hdig]
    have hle := foldl_ge s (n * 10 + (c.toNat - 48))
    simp only [List.foldl_cons] at h2
    rw [if_pos (by omega)]
    exact ih _ (fun c hc => h1 c (by simp [hc])) h2

theorem digits_some {s : List Char} {n m : Nat} (h : digits s n = some m) :
    (∀ c ∈ s, ∃ d, d < 10 ∧ c.toNat = 48 + d) ∧ s.foldl (fun n c => n * 10 + (c.toNat - 48)) n = m ∧
    (n < 2 ^ 64 → m < 2 ^ 64) := by
  induction s generalizing n with
  | nil => simp [digits] at h; simp [h]
  | cons c s ih =>
    have h0 : ('0' : Char).toNat = 48 := rfl
    have h9 : ('9' : Char).toNat = 57 := rfl
    simp only [digits] at h
    cases hd : digit? c with
    | none => simp [hd] at h
    | some d =>
      simp only [hd] at h
      split at h
      · next hlt =>
        obtain ⟨i1, i2, i3⟩ := ih h
        unfold digit? at hd
        split at hd
        · next hr =>
          injection hd with hd
          rw [h0] at hd hr; rw [h9] at hr
          refine ⟨?_, ?_, fun _ => i3 hlt⟩
          · intro c' hc'
            rcases List.mem_cons.1 hc' with rfl | hc'
            · exact ⟨d, by omega, by omega⟩
            · exact i1 c' hc'
          · simp only [List.foldl_cons, hd]; exact i2
        · cases hd
      · cases h

theorem parseUsize_iff (s : List Char) (n : Nat) :
    parseUsize s = some n ↔ Denotes s n ∨ ∃ r, s = '+' :: r ∧ Denotes r n := by
  have hdig : ∀ s n, s ≠ [] → (digits s 0 = some n ↔ Denotes s n) := by
    intro s n hne
    constructor
    · intro h
      obtain ⟨a, b, c⟩ := digits_some h
      exact ⟨hne, a, b, c (by decide)⟩
    · rintro ⟨_, a, b, c⟩
      exact digits_of s 0 n a b c
  have hplus : ∀ r n, ¬ Denotes ('+' :: r) n := by
    rintro r n ⟨_, h, _⟩
    obtain ⟨d, _, h⟩ := h '+' (by simp)
    have : ('+' : Char).toNat = 43 := rfl
    omega
  unfold parseUsize
  split
  · simp [Denotes]
  · simp only [reduceCtorEq, false_iff, not_or]
    refine ⟨hplus _ _, ?_⟩
    rintro ⟨r, hr, hd⟩
    simp at hr; subst hr; exact hd.1 rfl
  · next cs hne =>
    rw [hdig cs n (by simpa using hne)]
    constructor
    · exact fun h => .inr ⟨cs, rfl, h⟩
    · rintro (h | ⟨r, hr, h⟩)
      · exact absurd h (hplus _ _)
      · simp at hr; subst hr; exact h
  · next hne hp1 hp2 =>
    rw [hdig _ n hne]
    constructor
    · exact .inl
    · rintro (h | ⟨r, hr, _⟩)
      · exact h
      · exact absurd hr (hp2 r)

/-- A numeral: digits, with or without a `+` in front. -/
def Numeral (s : List Char) (n : Nat) : Prop := Denotes s n ∨ ∃ r, s = '+' :: r ∧ Denotes r n

/-- Position `i` holds the first job numbered `n`. -/
def FirstAt (t : List RJob) (n i : Nat) : Prop :=
  (∃ h : i < t.length, t[i].id = n) ∧ ∀ k (h : k < t.length), k < i → t[k].id ≠ n

/-- A job spec and the position it stands for: nothing, `+`, `%+` the newest; `-`, `%-` the second
newest; `n`, `%n` the first job with number `n` (a `+` before the digits is accepted). -/
def Selects (spec : List Char) (t : List RJob) (i : Nat) : Prop :=
  (spec ∈ [[], c!"+", c!"%+"] ∧ i + 1 = t.length) ∨
  (spec ∈ [c!"-", c!"%-"] ∧ i + 2 = t.length) ∨
  (∃ num n, (spec = num ∨ spec = '%' :: num) ∧ Numeral num n ∧ FirstAt t n i)

theorem findIdx_iff (t : List RJob) (n i : Nat) :
    t.findIdx? (fun j => j.id == n) = some i ↔ FirstAt t n i := by
  rw [List.findIdx?_eq_some_iff_getElem]
  unfold FirstAt
  constructor
  · rintro ⟨h, h1, h2⟩
    exact ⟨⟨h, by simpa using h1⟩, fun k hk hki => by simpa using h2 k hki⟩
  · rintro ⟨⟨h, h1⟩, h2⟩
    exact ⟨h, by simpa using h1, fun k hki => by simpa using h2 k (Nat.lt_trans hki h) hki⟩

theorem Denotes.chars {s : List Char} {n : Nat} (h : Denotes s n) {c : Char} (hc : c ∈ s) :
    c ≠ '%' ∧ c ≠ '+' ∧ c ≠ '-' := by
  obtain ⟨d, _, h⟩ := h.2.1 c hc
  refine ⟨?_, ?_, ?_⟩ <;> rintro rfl
  · have : ('%' : Char).toNat = 37 := rfl
    omega
  · have : ('+' : Char).toNat = 43 := rfl
    omega
  · have : ('-' : Char).toNat = 45 := rfl
    omega

/-- A numeral begins with a digit, or with a plus sign followed by a digit. -/
theorem Numeral.shape {s : List Char} {n : Nat} (h : Numeral s n) :
    s ≠ [] ∧ s ≠ c!"+" ∧ s ≠ c!"-" ∧ ∀ r, s ≠ '%' :: r := by
  rcases h with h | ⟨r, rfl, h⟩
  · refine ⟨h.1, ?_, ?_, ?_⟩
    · rintro rfl; exact (h.chars (c := '+') (by simp)).2.1 rfl
    · rintro rfl; exact (h.chars (c := '-') (by simp)).2.2 rfl
    · rintro r rfl; exact (h.chars (c := '%') (by simp)).1 rfl
  · refine ⟨by simp, ?_, by simp, by simp⟩
    intro e; simp at e; exact h.1 e

/-- **C18, job specs.** For every spec and table: the job acted on is the one the spec stands for,
and every other spec is rejected.  (An argument of blanks only is rejected as well, see
`C18_blank_spec`.) -/
theorem C18_spec (spec : List Char) (t : List RJob) (i : Nat) (hb : spec = [] ∨ trim spec ≠ []) :
    parseSpec spec t = some i ↔ Selects (trim spec) t i := by
  have hlen : ∀ m, (if t = [] then none else some (t.length - 1)) = some m ↔ m + 1 = t.length := by
    intro m
    cases t with
    | nil => simp
    | cons a t => simp; omega
  have hlen2 : ∀ m, (if t.length < 2 then none else some (t.length - 2)) = some m ↔ m + 2 = t.length := by
    intro m
    split
    · simp; omega
    · simp; omega
  have hnum : ∀ num n, Numeral num n → num ∉ [[], c!"+", c!"%+"] ∧ num ∉ [c!"-", c!"%-"] ∧
      '%' :: num ∉ [[], c!"+", c!"%+"] ∧ '%' :: num ∉ [c!"-", c!"%-"] := by
    intro num n h
    obtain ⟨h1, h2, h3, h4⟩ := h.shape
    refine ⟨?_, ?_, ?_, ?_⟩ <;> simp [h1, h2, h3, h4]
  by_cases he : spec = []
  · subst he
    have ht : trim [] = [] := rfl
    rw [ht]
    simp only [parseSpec, if_true, hlen]
    constructor
    · exact fun h => .inl ⟨by simp, h⟩
    · rintro (⟨_, h⟩ | ⟨h, _⟩ | ⟨num, n, hs, hn, _⟩)
      · exact h
      · simp at h
      · rcases hs with hs | hs
        · exact absurd hs.symm hn.shape.1
        · simp at hs
  · have hb : trim spec ≠ [] := hb.resolve_left he
    unfold parseSpec
    rw [if_neg he]
    generalize trim spec = s at hb
    simp only
    by_cases hp : s = c!"%+" ∨ s = c!"+"
    · rw [if_pos hp, hlen]
      constructor
      · exact fun h => .inl ⟨by rcases hp with rfl | rfl <;> simp, h⟩
      · rintro (⟨_, h⟩ | ⟨h, _⟩ | ⟨num, n, hs, hn, _⟩)
        · exact h
        · rcases hp with rfl | rfl <;> simp at h
        · have := hnum num n hn
          rcases hs with rfl | rfl <;> rcases hp with e | e <;> simp [e] at this
    · rw [if_neg hp]
      by_cases hm : s = c!"%-" ∨ s = c!"-"
      · rw [if_pos hm, hlen2]
        constructor
        · exact fun h => .inr (.inl ⟨by rcases hm with rfl | rfl <;> simp, h⟩)
        · rintro (⟨h, _⟩ | ⟨_, h⟩ | ⟨num, n, hs, hn, _⟩)
          · rcases hm with rfl | rfl <;> simp at h
          · exact h
          · have := hnum num n hn
            rcases hs with rfl | rfl <;> rcases hm with e | e <;> simp [e] at this
      · rw [if_neg hm]
        have hsel : Selects s t i ↔ ∃ num n, (s = num ∨ s = '%' :: num) ∧ Numeral num n ∧ FirstAt t n i := by
          constructor
          · rintro (⟨h, _⟩ | ⟨h, _⟩ | h)
            · simp at h; rcases h with h | h | h
              · exact absurd h hb
              · exact absurd (.inr h) hp
              · exact absurd (.inl h) hp
            · simp at h; rcases h with h | h
              · exact absurd (.inr h) hm
              · exact absurd (.inl h) hm
            · exact h
          · exact fun h => .inr (.inr h)
        rw [hsel]
        have hbody : ∀ num, selectNum num t = some i ↔ ∃ n, Numeral num n ∧ FirstAt t n i := by
          intro num
          unfold selectNum
          cases hk : parseUsize num with
          | none =>
            simp only [reduceCtorEq, false_iff]
            rintro ⟨n, hn, _⟩
            rw [(parseUsize_iff num n).2 hn] at hk; cases hk
          | some k =>
            simp only [findIdx_iff]
            constructor
            · exact fun h => ⟨k, (parseUsize_iff num k).1 hk, h⟩
            · rintro ⟨n, hn, h⟩
              rw [(parseUsize_iff num n).2 hn] at hk
              injection hk with hk; subst hk; exact h
        cases s with
        | nil => exact absurd rfl hb
        | cons c r =>
          by_cases hc : c = '%'
          · subst hc
            rw [show stripPct ('%' :: r) = r from rfl, hbody]
            constructor
            · rintro ⟨n, h⟩; exact ⟨r, n, .inr rfl, h⟩
            · rintro ⟨num, n, hs, hn, h⟩
              rcases hs with hs | hs
              · exact absurd hs.symm (hn.shape.2.2.2 r)
              · simp at hs; subst hs; exact ⟨n, hn, h⟩
          · have e : stripPct (c :: r) = c :: r := by
              unfold stripPct
              split
              · next h => simp at h; exact absurd h.1 hc
              · rfl
            rw [e, hbody]
            constructor
            · rintro ⟨n, h⟩; exact ⟨_, n, .inl rfl, h⟩
            · rintro ⟨num, n, hs, hn, h⟩
              rcases hs with hs | hs
              · subst hs; exact ⟨n, hn, h⟩
              · simp at hs; exact absurd hs.1 hc

theorem C18_blank_spec {spec : List Char} (h : spec ≠ []) (he : trim spec = []) (t : List RJob) :
    parseSpec spec t = none := by
  simp [parseSpec, h, he, parseUsize, selectNum, stripPct]

theorem trim_id {s : List Char} (h : ∀ c ∈ s, rustWhitespace c = false) : trim s = s := by
  have hd : ∀ l : List Char, (∀ c ∈ l, rustWhitespace c = false) → l.dropWhile rustWhitespace = l := by
    intro l hl
    cases l with
    | nil => rfl
    | cons c l => simp [List.dropWhile_cons, hl c (by simp)]
  unfold trim trimStart trimEnd
  rw [hd s h, hd s.reverse (fun c hc => h c (by simpa using hc)), List.reverse_reverse]

theorem Numeral.trim {s : List Char} {n : Nat} (h : Numeral s n) : Dsh.trim ('%' :: s) = '%' :: s := by
  apply trim_id
  intro c hc
  have hdig : ∀ d, d < 10 → c.toNat = 48 + d → rustWhitespace c = false := by
    intro d hd hc
    unfold rustWhitespace
    simp only [hc, Bool.or_eq_false_iff, decide_eq_false_iff_not, Bool.and_eq_false_iff]
    omega
  rcases List.mem_cons.1 hc with rfl | hc
  · decide
  · rcases h with h | ⟨r, rfl, h⟩
    · obtain ⟨d, h1, h2⟩ := h.2.1 c hc; exact hdig d h1 h2
    · rcases List.mem_cons.1 hc with rfl | hc
      · decide
      · obtain ⟨d, h1, h2⟩ := h.2.1 c hc; exact hdig d h1 h2

/-- In a table whose numbers differ, `%n` selects the job numbered `n` and nothing else. -/
theorem C18_number {t : List RJob} (hu : (t.map (·.id)).Nodup) {num : List Char} {n : Nat} (hn : Numeral num n) (i : Nat) :
    parseSpec ('%' :: num) t = some i ↔ ∃ h : i < t.length, t[i].id = n := by
  have ht := hn.trim
  rw [C18_spec _ _ _ (.inr (by rw [ht]; simp)), ht]
  have hs := hn.shape
  have huniq : ∀ m, Numeral num m → m = n := by
    intro m hm
    have := (parseUsize_iff num m).2 hm
    rw [(parseUsize_iff num n).2 hn] at this
    injection this with this; exact this.symm
  constructor
  · rintro (⟨h, _⟩ | ⟨h, _⟩ | ⟨num', m, h, hm, hf⟩)
    · simp at h; exact absurd h hs.2.1
    · simp at h; exact absurd h hs.2.2.1
    · rcases h with h | h
      · exact absurd h.symm (hm.shape.2.2.2 num)
      · simp at h; subst h
        rw [← huniq m hm]; exact hf.1
  · rintro ⟨h, he⟩
    refine .inr (.inr ⟨num, n, .inr rfl, hn, ⟨h, he⟩, ?_⟩)
    intro k hk hki e
    have h1 : (t.map (·.id))[k]'(by simpa using hk) = (t.map (·.id))[i]'(by simpa using h) := by
      simp [e, he]
    have := (List.getElem_inj hu).1 h1
    omega

example : Numeral c!"12" 12 ∧ Numeral c!"+3" 3 := by
  refine ⟨.inl ⟨by simp, ?_, by decide, by decide⟩, .inr ⟨_, rfl, by simp, ?_, by decide, by decide⟩⟩
  · intro c hc
    simp at hc
    rcases hc with rfl | rfl
    · exact ⟨1, by decide, by decide⟩
    · exact ⟨2, by decide, by decide⟩
  · intro c hc
    simp at hc
    subst hc
    exact ⟨3, by decide, by decide⟩

example : (bg3.map (·.id)).Nodup ∧ parseSpec c!" %3 " bg3 = some 2 ∧ parseSpec c!"%-" bg3 = some 1 ∧
    parseSpec c!"%9" bg3 = none ∧ parseSpec c!"vi" bg3 = none := by decide

/-! ### C19 -/

/-- **C19 fails for `fg`.** A stopped job is brought to the foreground and stopped again: it is in
no table any more, although its process exists. -/
theorem C19_fg_violated :
    let j : RJob := ⟨1, [stoppedProc 71], some 71, some 71, true, .stopped 71 20⟩
    let o := fg c!"%1" [j] [(false, .stillAlive), (false, .stopped 71 20)]
    o.table = [] ∧ o.job.map (·.procs) = some [stoppedProc 71] := by decide

/-- It needs no second stop: while job 1 runs again in the foreground, the end of an unrelated
background process makes `fg` return and forget job 1. -/
theorem C19_fg_foreign_violated :
    let j : RJob := ⟨1, [stoppedProc 71], some 71, some 71, true, .stopped 71 20⟩
    let k := fresh 2 80
    let o := fg c!"%1" [j, k] [(false, .exited 80 0)]
    o.table = [k] ∧ (o.job.map (fun j => jobCompleted j)) = some false := by decide

/-- **C19 fails for `bg`** when the group cannot be signalled: the job is dropped. -/
theorem C19_bg_violated :
    bg c!"%1" [⟨1, [stoppedProc 71], some 71, some 71, true, .stopped 71 20⟩] false = ([], false) := by decide

/-- **C19, the part that holds for `bg`.** If the signal can be sent, the same jobs are in the table
afterwards, and those not continued are untouched and in the same order. -/
theorem C19_bg_partial (spec : List Char) (t : List RJob) :
    (bg spec t true).1 = t ∨
    ∃ a j b, t = a ++ j :: b ∧ j.state.isStop = true ∧
      (bg spec t true).1 = a ++ b ++ [{ j with state := .running }] := by
  unfold bg
  split
  · exact .inl rfl
  · split
    · exact .inl rfl
    · next i _ =>
      split
      · exact .inl rfl
      · next job hj =>
        split
        · exact .inl rfl
        · next hs =>
          simp only [Bool.not_true, Bool.and_false, Bool.false_eq_true, if_false]
          obtain ⟨hlt, hge⟩ := List.getElem?_eq_some_iff.1 hj
          refine .inr ⟨t.take i, job, t.drop (i + 1), ?_, by simpa using hs, ?_⟩
          · rw [← hge]; simp
          · rw [List.eraseIdx_eq_take_drop_succ]

/-- **C19, the part that holds for `fg`.** The other jobs are untouched and in order; the selected
job leaves the table, and if its processes are in the state "running" when `fg` starts (a job continued
by `bg` that was never stopped) and they end one after the other, it has ended when `fg` returns.
Missing: jobs that are or get stopped, see `C19_fg_violated`. -/
theorem C19_fg_others_partial (spec : List Char) (t : List RJob) (evs : List (Bool × WaitRes)) :
    (fg spec t evs).table = t ∧ (fg spec t evs).job = none ∨
    ∃ a j b, t = a ++ j :: b ∧ (fg spec t evs).table = a ++ b ∧
      (fg spec t evs).job = some (waitLoop evs { j with state := .running } false).job := by
  unfold fg
  split
  · exact .inl ⟨rfl, rfl⟩
  · next i _ =>
    split
    · exact .inl ⟨rfl, rfl⟩
    · next job hj =>
      obtain ⟨hlt, hge⟩ := List.getElem?_eq_some_iff.1 hj
      refine .inr ⟨t.take i, job, t.drop (i + 1), ?_, ?_, rfl⟩
      · rw [← hge]; simp
      · exact List.eraseIdx_eq_take_drop_succ ..

example : (bg [] bg3 true).1.map (·.id) = [1, 2, 3] ∧ (bg [] bg3 true).1.map (·.state) = [.running, .running, .running] ∧
    (fg c!"%1" bg3 []).table.map (·.id) = [2, 3] := by decide

/-! ### C56, C57 -/

/-- **C56 fails.** `bg` of a stopped job: the next check, with the process running again, lists it as
stopped. -/
theorem C56_bg_listed_violated :
    let j : RJob := ⟨1, [stoppedProc 71], some 71, some 71, false, .stopped 71 20⟩
    let t := (bg [] [j] true).1
    t.map (·.state) = [.running] ∧ K7 71 = some .alive ∧
    (checkJobs K7 t).2.2.map (·.state) = [.stopped 71 20] := by decide

/-- In general: a job whose stage was seen stopped is shown as stopped by every check until the process
ends, whatever happens in between. -/
theorem C56_stays_stopped_violated (K : Kernel) (pid : Nat) (sig : Nat) (id : Nat) (fgd : Bool) (js : PState)
    (hK : K pid = some .alive) :
    (checkOne K ⟨id, [⟨false, some pid, .stopped pid sig⟩], some pid, some pid, fgd, js⟩).2.state =
      .stopped pid sig := by
  have hw : waitPid K pid = (K, none) := by simp [waitPid, hK]
  cases fgd <;>
    simp [checkOne, updateStatus, update, pollProc, hw, PState.done, jobCompleted, isCompleted, consumerDone]

/-- Before the first stop the listing is right: a job seen running and still running is shown as
running. -/
theorem C56_running_partial (K : Kernel) (pid : Nat) (id : Nat) (hK : K pid = some .alive) :
    (checkOne K (fresh id pid)).2 = fresh id pid := by
  have hw : waitPid K pid = (K, none) := by simp [waitPid, hK]
  simp [fresh, checkOne, updateStatus, update, pollProc, hw, PState.done, jobCompleted, isCompleted, consumerDone]

example : K7 72 = some .alive := by decide

/-- The processes that a signal reaches: all of a group, or one process. -/
def reaches (group : Nat → Option Nat) : Sent → Nat → Prop
  | .group g _, p => group p = some g
  | .proc q _, p => p = q

/-- **C57 fails.** `fg` of a stopped pipeline `a | b` continues only the process that leads the group. -/
theorem C57_fg_continue_violated :
    let j : RJob := ⟨1, [stoppedProc 71, stoppedProc 72], some 71, some 71, true, .stopped 71 20⟩
    let group : Nat → Option Nat := fun p => if p = 71 ∨ p = 72 then some 71 else none
    (fg [] [j] []).sent = [.proc 71 18] ∧ group 72 = some 71 ∧
    ∀ s ∈ (fg [] [j] []).sent, ¬ reaches group s 72 := by
  refine ⟨by decide, by decide, ?_⟩
  intro s hs
  have : s = .proc 71 18 := by
    have h : (fg [] [(⟨1, [stoppedProc 71, stoppedProc 72], some 71, some 71, true, .stopped 71 20⟩ : RJob)] []).sent =
      [.proc 71 18] := by decide
    rw [h] at hs; simpa using hs
  subst this
  simp [reaches]

/-- **C57, the part that holds.** A stopped job of one process that leads its group is continued:
the first thing `fg` sends is the signal, to that process. -/
theorem C57_single_partial (spec : List Char) (t : List RJob) (evs : List (Bool × WaitRes)) (i : Nat)
    (hi : parseSpec spec t = some i) (h : i < t.length) (pid : Nat) (hp : t[i].pgid = some pid)
    (hs : t[i].state.isStop = true) (group : Nat → Option Nat) :
    ∃ rest, (fg spec t evs).sent = .proc pid 18 :: rest ∧ reaches group (.proc pid 18) pid := by
  unfold fg
  rw [hi]
  simp only [List.getElem?_eq_getElem h, hs, if_true, hp]
  exact ⟨_, rfl, rfl⟩

example : parseSpec c!"%3" bg3 = some 2 ∧ bg3[2].pgid = some 23 ∧ bg3[2].state.isStop = true := by decide

end Dsh.Jobs
