import Verif.Jobs.Chain
/-!
C14, C15, C54, C55: pipelines and the foreground wait.
-/
namespace Dsh.Jobs
open Dsh.Eval (PState)

/-! ### Specification -/

/-- What a result of `waitpid` says, and about whom: a child has exited with a code, was killed by a
signal (such a child counts as failed with 1), or was stopped by a signal. -/
def WaitRes.told : WaitRes → Option (Nat × PState)
  | .exited pid code => some (pid, .completed (code % 256) none)
  | .signaled pid sig => some (pid, .completed 1 (some sig))
  | .stopped pid sig => some (pid, .stopped pid sig)
  | .stillAlive => none
  | .eintr => none
  | .echild => none
  | .other => none

/-- The loop records what it is told. -/
theorem news_told (e : WaitRes) : e.news = e.told := by cases e <;> rfl

/-- What a schedule says about process `pid`: the last news about it. -/
def fate (pid : Nat) (evs : List WaitRes) : Option PState :=
  (evs.filterMap (fun e => e.told.bind (fun n => if n.1 = pid then some n.2 else none))).getLast?

/-- The stages a schedule is about: commands with pairwise different process ids; builtins have run
inside the shell, whose own pid `shellPid` no child has. -/
structure Stages (shellPid : Nat) (l : List Proc) : Prop where
  cmd : ∀ p ∈ l, p.builtin = false → ∃ n, p.pid = some n ∧ n ≠ shellPid
  builtin : ∀ p ∈ l, p.builtin = true → p.pid = some shellPid ∧ p.state.done = true
  distinct : (l.filter (!·.builtin)).Pairwise (fun p q => p.pid ≠ q.pid)

/-- No news is about the shell itself: `waitpid` only reports children. -/
def Foreign (shellPid : Nat) (evs : List WaitRes) : Prop :=
  ∀ e ∈ evs, ∀ n, e.told = some n → n.1 ≠ shellPid

/-- A stage with the state the schedule gives it. -/
def Proc.after (evs : List WaitRes) (p : Proc) : Proc :=
  if p.builtin then p
  else match p.pid.bind (fate · evs) with
    | some st => { p with state := st }
    | none => p

/-! ### Chains -/

/-- Set the state of the command with this pid. -/
def mark (pid : Nat) (st : PState) (p : Proc) : Proc :=
  if p.builtin = false ∧ p.pid = some pid then { p with state := st } else p

theorem setState_eq {sp pid : Nat} (hne : pid ≠ sp) (st : PState) {l : List Proc} (h : Stages sp l) :
    (setState l pid st).1 = l.map (mark pid st) := by
  induction l with
  | nil => rfl
  | cons p rest ih =>
    have hrest : Stages sp rest := by
      refine ⟨fun q hq => h.cmd q (by simp [hq]), fun q hq => h.builtin q (by simp [hq]), ?_⟩
      have := h.distinct
      rw [List.filter_cons] at this
      split at this
      · exact (List.pairwise_cons.1 this).2
      · exact this
    have ih := ih hrest
    unfold setState
    split
    · next hb =>
      have hp := (h.builtin p (by simp) hb).1
      have hm : mark pid st p = p := by simp [mark, hb]
      split
      · next he => subst he; simp [hm]
      · simp only [List.map_cons, hm]
        split
        · simp [ih]
        · rw [if_neg (by rw [hp]; simpa using Ne.symm hne)]
          simp [ih]
    · next hb =>
      have hb : p.builtin = false := by simpa using hb
      split
      · next hpid =>
        have hm : mark pid st p = { p with state := st } := by simp [mark, hb, hpid]
        simp only [List.map_cons, hm, List.cons.injEq, true_and]
        symm
        have hd := h.distinct
        rw [List.filter_cons, if_pos (by simp [hb]), List.pairwise_cons] at hd
        conv_rhs => rw [← List.map_id rest]
        apply List.map_congr_left
        intro q hq
        unfold mark
        rw [if_neg]
        · rfl
        · rintro ⟨h1, h2⟩
          exact hd.1 q (List.mem_filter.2 ⟨hq, by simp [h1]⟩) (by rw [hpid, h2])
      · next hpid =>
        have hm : mark pid st p = p := by simp [mark, hpid]
        simp [hm, ih]

theorem mark_pid (pid st p) : (mark pid st p).pid = p.pid ∧ (mark pid st p).builtin = p.builtin := by
  unfold mark; split <;> simp

theorem Stages.mark {sp pid : Nat} {st : PState} {l : List Proc} (h : Stages sp l) :
    Stages sp (l.map (mark pid st)) := by
  refine ⟨?_, ?_, ?_⟩
  · intro p hp hb
    obtain ⟨q, hq, rfl⟩ := List.mem_map.1 hp
    rw [(mark_pid pid st q).2] at hb
    rw [(mark_pid pid st q).1]
    exact h.cmd q hq hb
  · intro p hp hb
    obtain ⟨q, hq, rfl⟩ := List.mem_map.1 hp
    rw [(mark_pid pid st q).2] at hb
    rw [(mark_pid pid st q).1]
    refine ⟨(h.builtin q hq hb).1, ?_⟩
    have : Jobs.mark pid st q = q := by simp [Jobs.mark, hb]
    rw [this]; exact (h.builtin q hq hb).2
  · rw [List.filter_map]
    rw [List.pairwise_map]
    have : (List.filter ((fun x => !x.builtin) ∘ Jobs.mark pid st) l) = l.filter (!·.builtin) := by
      apply List.filter_congr
      intro q _
      simp [(mark_pid pid st q).2]
    rw [this]
    apply h.distinct.imp
    intro a b hab
    rw [(mark_pid pid st a).1, (mark_pid pid st b).1]; exact hab

theorem fate_snoc (pid : Nat) (evs : List WaitRes) (e : WaitRes) :
    fate pid (evs ++ [e]) = match e.news with
      | some (q, st) => if q = pid then some st else fate pid evs
      | none => fate pid evs := by
  unfold fate
  rw [List.filterMap_append, news_told]
  cases hn : e.told with
  | none => simp [hn]
  | some n =>
    obtain ⟨q, st⟩ := n
    by_cases hq : q = pid
    · simp [hn, hq]
    · simp [hn, hq]

theorem after_nil (p : Proc) : p.after [] = p := by
  unfold Proc.after fate
  split
  · rfl
  · cases p.pid <;> simp

theorem map_after_nil (l : List Proc) : l.map (Proc.after []) = l := by
  conv_rhs => rw [← List.map_id l]
  exact List.map_congr_left (fun p _ => after_nil p)

theorem after_snoc_none {evs e} (h : e.news = none) (p : Proc) : p.after (evs ++ [e]) = p.after evs := by
  unfold Proc.after
  have : ∀ pid, fate pid (evs ++ [e]) = fate pid evs := by intro pid; rw [fate_snoc, h]
  simp [this]

theorem after_snoc_some {evs e pid st} (h : e.news = some (pid, st)) (p : Proc) :
    p.after (evs ++ [e]) = mark pid st (p.after evs) := by
  unfold Proc.after mark
  by_cases hb : p.builtin = true
  · simp [hb]
  · have hb : p.builtin = false := by simpa using hb
    cases hp : p.pid with
    | none => simp [hb, hp]
    | some n =>
      simp only [hb, Bool.false_eq_true, if_false, Option.bind_some, fate_snoc, h]
      by_cases hq : pid = n
      · subst hq
        cases fate pid evs <;> simp [hb, hp]
      · have hq' : ¬ n = pid := fun e => hq e.symm
        rw [if_neg hq]
        cases fate n evs <;> simp [hb, hp, hq']

theorem fate_append (pid : Nat) (a b : List WaitRes) : fate pid (a ++ b) = (fate pid b).or (fate pid a) := by
  unfold fate
  rw [List.filterMap_append, List.getLast?_append]

theorem after_append (a b : List WaitRes) (p : Proc) : (p.after a).after b = p.after (a ++ b) := by
  unfold Proc.after
  by_cases hb : p.builtin = true
  · simp [hb]
  · have hb : p.builtin = false := by simpa using hb
    cases hp : p.pid with
    | none => simp [hb, hp]
    | some n =>
      simp only [hb, Bool.false_eq_true, if_false, Option.bind_some, fate_append]
      cases h1 : fate n a <;> cases h2 : fate n b <;> simp [hb, hp, h2]

theorem after_pid (evs) (p : Proc) : (p.after evs).pid = p.pid ∧ (p.after evs).builtin = p.builtin := by
  unfold Proc.after
  split
  · simp
  · split <;> simp

theorem Stages.after {sp : Nat} {l : List Proc} (h : Stages sp l) (evs : List WaitRes) :
    Stages sp (l.map (Proc.after evs)) := by
  refine ⟨?_, ?_, ?_⟩
  · intro p hp hb
    obtain ⟨q, hq, rfl⟩ := List.mem_map.1 hp
    rw [(after_pid evs q).2] at hb
    rw [(after_pid evs q).1]
    exact h.cmd q hq hb
  · intro p hp hb
    obtain ⟨q, hq, rfl⟩ := List.mem_map.1 hp
    rw [(after_pid evs q).2] at hb
    rw [(after_pid evs q).1]
    refine ⟨(h.builtin q hq hb).1, ?_⟩
    have : Proc.after evs q = q := by simp [Proc.after, hb]
    rw [this]; exact (h.builtin q hq hb).2
  · rw [List.filter_map, List.pairwise_map]
    have : (List.filter ((fun x => !x.builtin) ∘ Proc.after evs) l) = l.filter (!·.builtin) := by
      apply List.filter_congr
      intro q _
      simp [(after_pid evs q).2]
    rw [this]
    apply h.distinct.imp
    intro a b hab
    rw [(after_pid evs a).1, (after_pid evs b).1]; exact hab

/-- Feeding a whole schedule to the chain gives every stage the last news about it. -/
theorem fold_setState {sp : Nat} {l : List Proc} (h : Stages sp l) (evs : List WaitRes) (hf : Foreign sp evs) :
    evs.foldl (fun l e => match e.news with | some n => (setState l n.1 n.2).1 | none => l) l =
      l.map (Proc.after evs) := by
  have : ∀ (post pre : List WaitRes), Foreign sp (pre ++ post) →
      post.foldl (fun l e => match e.news with | some n => (setState l n.1 n.2).1 | none => l)
        (l.map (Proc.after pre)) = l.map (Proc.after (pre ++ post)) := by
    intro post
    induction post with
    | nil => intro pre _; simp
    | cons e post ih =>
      intro pre hf
      rw [List.foldl_cons]
      have hstep : (match e.news with
          | some n => (setState (l.map (Proc.after pre)) n.1 n.2).1
          | none => l.map (Proc.after pre)) = l.map (Proc.after (pre ++ [e])) := by
        cases hn : e.news with
        | none =>
          simp only
          exact List.map_congr_left (fun p _ => (after_snoc_none hn p).symm)
        | some n =>
          obtain ⟨pid, st⟩ := n
          simp only
          rw [setState_eq (hf e (by simp) (pid, st) (news_told e ▸ hn)) st (h.after pre), List.map_map]
          exact List.map_congr_left (fun p _ => (after_snoc_some hn p).symm)
      rw [hstep]
      have := ih (pre ++ [e]) (by simpa using hf)
      simpa using this
  simpa [map_after_nil] using this evs [] (by simpa using hf)

theorem lastState_eq {l : List Proc} {p : Proc} (h : l.getLast? = some p) : lastState l = p.state := by
  induction l with
  | nil => simp at h
  | cons q rest ih =>
    unfold lastState
    split
    · next he => subst he; simp at h; rw [h]
    · next he =>
      apply ih
      cases rest with
      | nil => exact absurd rfl he
      | cons r rest => rw [List.getLast?_cons_cons] at h; exact h

/-- **C14.** For every pipeline and every schedule – in whatever order the stages end and whatever
other children do – the status reported for the job is the last news about the last stage, and that
of a last stage which is a builtin is the builtin's own. -/
theorem C14_last_stage {sp : Nat} {l : List Proc} (h : Stages sp l) (evs : List WaitRes) (hf : Foreign sp evs)
    {p : Proc} (hp : l.getLast? = some p) :
    let l' := evs.foldl (fun l e => match e.news with | some n => (setState l n.1 n.2).1 | none => l) l
    (∀ pid st, p.builtin = false → p.pid = some pid → fate pid evs = some st → lastState l' = st) ∧
    (p.builtin = true → lastState l' = p.state) := by
  intro l'
  have hl : l' = l.map (Proc.after evs) := fold_setState h evs hf
  have hlast : l'.getLast? = some (p.after evs) := by rw [hl, List.getLast?_map, hp]; rfl
  rw [lastState_eq hlast]
  constructor
  · intro pid st hb hpid hfa
    simp [Proc.after, hb, hpid, hfa]
  · intro hb
    simp [Proc.after, hb]

/-- Order does not matter: two schedules with the same news for the last stage give the same
status. -/
theorem C14_order {sp : Nat} {l : List Proc} (h : Stages sp l) (e1 e2 : List WaitRes)
    (h1 : Foreign sp e1) (h2 : Foreign sp e2)
    {p : Proc} (hp : l.getLast? = some p) (hb : p.builtin = false) {pid} (hpid : p.pid = some pid)
    (hsame : fate pid e1 = fate pid e2) (hsome : (fate pid e1).isSome) :
    lastState (e1.foldl (fun l e => match e.news with | some n => (setState l n.1 n.2).1 | none => l) l) =
    lastState (e2.foldl (fun l e => match e.news with | some n => (setState l n.1 n.2).1 | none => l) l) := by
  obtain ⟨st, hst⟩ := Option.isSome_iff_exists.1 hsome
  rw [(C14_last_stage h e1 h1 hp).1 pid st hb hpid hst,
      (C14_last_stage h e2 h2 hp).1 pid st hb hpid (hsame ▸ hst)]

/-- `a | b | c` with pids 11, 12, 13 in a shell with pid 5. -/
def abc : List Proc := [⟨false, some 11, .running⟩, ⟨false, some 12, .running⟩, ⟨false, some 13, .running⟩]

theorem abc_stages : Stages 5 abc := by
  refine ⟨?_, ?_, ?_⟩
  · intro p hp _
    simp [abc] at hp
    rcases hp with rfl | rfl | rfl
    · exact ⟨11, rfl, by decide⟩
    · exact ⟨12, rfl, by decide⟩
    · exact ⟨13, rfl, by decide⟩
  · intro p hp hb
    simp [abc] at hp
    rcases hp with rfl | rfl | rfl <;> simp at hb
  · decide

example : lastState ([WaitRes.exited 13 4, .exited 99 1, .signaled 11 13, .exited 12 0].foldl
    (fun l e => match e.news with | some n => (setState l n.1 n.2).1 | none => l) abc) = .completed 4 none :=
  (C14_last_stage abc_stages _ (by
    intro e he n hn
    simp at he
    rcases he with rfl | rfl | rfl | rfl <;> (simp [WaitRes.told] at hn; subst hn; decide)) (p := ⟨false, some 13, .running⟩)
    rfl).1 13 _ rfl rfl rfl

/-! ### The wait loop -/

theorem isCompleted_iff (l : List Proc) : isCompleted l = true ↔ ∀ p ∈ l, p.state.done = true := by
  induction l with
  | nil => simp [isCompleted]
  | cons p l ih =>
    unfold isCompleted
    split
    · next h => simp [ih, h]
    · next h => simp [h]

theorem isStopped_iff (l : List Proc) : isStopped l = true ↔ ∀ p ∈ l, p.state ≠ .running := by
  induction l with
  | nil => simp [isStopped]
  | cons p l ih =>
    unfold isStopped
    split
    · next h => simp [h]
    · next h => simp [ih, h]

theorem hasStopped_iff (l : List Proc) : hasStopped l = true ↔ ∃ p ∈ l, p.state.isStop = true := by
  induction l with
  | nil => simp [hasStopped]
  | cons p l ih =>
    unfold hasStopped
    split
    · next h => simp [h]
    · next h => simp [ih, h]

theorem consumerDone_iff (l : List Proc) :
    consumerDone l = true ↔ ∃ p ∈ l.tail, p.state = .completed 0 none := by
  induction l with
  | nil => simp [consumerDone]
  | cons p rest ih =>
    unfold consumerDone
    cases rest with
    | nil => simp
    | cons q rest =>
      simp only [Bool.or_eq_true, ih, List.tail_cons, beq_iff_eq, List.mem_cons, exists_eq_or_imp]
      exact Or.comm

/-- Everything about one run of the loop. -/
theorem waitLoop_spec {sp : Nat} (evs : List (Bool × WaitRes)) (j : RJob) (sk : Bool)
    (hs : Stages sp j.procs) (hf : Foreign sp (evs.map (·.2))) :
    let o := waitLoop evs j sk
    ∃ pre, evs = pre ++ o.rest ∧ o.job = { j with procs := j.procs.map (Proc.after (pre.map (·.2))) } ∧
      (o.why = none → o.rest = [] ∧ ((∀ e ∈ pre, e.2.news = none) ∨ jobCompleted o.job = false)) ∧
      (o.why = some .completed → jobCompleted o.job = true) ∧
      (o.why = some .consumer → consumerDone o.job.procs = true ∧ hasStopped o.job.procs = true) ∧
      (o.why = some .stopped → jobStopped o.job = true) ∧
      (o.why = some .noChild → ∃ b p', pre = p' ++ [(b, .echild)]) ∧
      (o.why = some .unexpected → ∃ b p', pre = p' ++ [(b, .other)]) := by
  induction evs generalizing j sk with
  | nil =>
    refine ⟨[], rfl, ?_, ?_⟩
    · simp [waitLoop, map_after_nil]
    · simp [waitLoop]
  | cons ie evs ih =>
    obtain ⟨int, ev⟩ := ie
    have hf' : Foreign sp (evs.map (·.2)) := fun e he => hf e (List.mem_cons_of_mem _ he)
    unfold waitLoop
    cases hn : ev.news with
    | none =>
      simp only
      split
      · next hc =>
        obtain ⟨pre, h1, h2, h3, h4, h5, h6, h7, h8⟩ := ih j sk hs hf'
        have hafter : ∀ p : Proc, p.after (ev :: pre.map (·.2)) = p.after (pre.map (·.2)) := by
          intro p
          have : ∀ pid, fate pid (ev :: pre.map (·.2)) = fate pid (pre.map (·.2)) := by
            intro pid; unfold fate; simp [← news_told, hn]
          unfold Proc.after; simp [this]
        refine ⟨(int, ev) :: pre, by simp [← h1], ?_, ?_, h4, h5, h6, ?_, ?_⟩
        · simp only [List.map_cons]
          rw [h2]
          congr 1
          exact List.map_congr_left (fun p _ => (hafter p).symm)
        · intro hw
          obtain ⟨a, b⟩ := h3 hw
          refine ⟨a, ?_⟩
          rcases b with b | b
          · left
            intro e he
            rcases List.mem_cons.1 he with rfl | he
            · exact hn
            · exact b e he
          · right; exact b
        · intro hw; obtain ⟨b, p', e⟩ := h7 hw; exact ⟨b, (int, ev) :: p', by simp [e]⟩
        · intro hw; obtain ⟨b, p', e⟩ := h8 hw; exact ⟨b, (int, ev) :: p', by simp [e]⟩
      · next hc =>
        refine ⟨[(int, ev)], by simp, ?_, ?_⟩
        · have : ∀ p : Proc, p.after [ev] = p := by
            intro p
            have := after_snoc_none (evs := []) hn p
            simpa [after_nil] using this
          simp only [List.map_cons, List.map_nil]
          have hmap : j.procs.map (Proc.after [ev]) = j.procs := by
            conv_rhs => rw [← List.map_id j.procs]
            exact List.map_congr_left (fun p _ => this p)
          rw [hmap]
        · clear ih
          cases ev <;> simp [WaitRes.news] at hn hc ⊢
          · cases int
            · exact .inl ⟨[], rfl⟩
            · exact .inr ⟨[], rfl⟩
          · cases int
            · exact .inl ⟨[], rfl⟩
            · exact .inr ⟨[], rfl⟩
    | some n =>
      obtain ⟨pid, st⟩ := n
      simp only
      have hne : pid ≠ sp := hf ev (by simp) _ (news_told ev ▸ hn)
      have hproc : (j.note pid st).procs = j.procs.map (Proc.after [ev]) := by
        unfold RJob.note
        simp only
        rw [setState_eq hne st hs]
        refine List.map_congr_left (fun p _ => ?_)
        have := after_snoc_some (evs := []) hn p
        simpa [after_nil] using this.symm
      have hjob : j.note pid st = { j with procs := j.procs.map (Proc.after [ev]) } := by
        rw [← hproc]; rfl
      have hpre : ([(int, ev)] : List (Bool × WaitRes)).map (·.2) = [ev] := rfl
      split
      · next hc =>
        refine ⟨[(int, ev)], by simp, by rw [hpre]; exact hjob, ?_⟩
        simp [hc]
      · next hc =>
        split
        · next hcons =>
          refine ⟨[(int, ev)], by simp, by rw [hpre]; exact hjob, ?_⟩
          simp only [Bool.and_eq_true, Bool.not_eq_true'] at hcons
          have hst : hasStopped (j.note pid st).procs = true := by
            by_contra hb
            have hb : hasStopped (j.note pid st).procs = false := by simpa using hb
            apply hc
            unfold jobCompleted
            split
            · rfl
            · rw [hcons.1, hb]; simp
          simp [hcons, hst]
        · split
          · next hst =>
            refine ⟨[(int, ev)], by simp, by rw [hpre]; exact hjob, ?_⟩
            simp [hst]
          · next hst =>
            have hs' : Stages sp (j.note pid st).procs := by rw [hproc]; exact hs.after _
            obtain ⟨pre, h1, h2, h3, h4, h5, h6, h7, h8⟩ :=
              ih (j.note pid st) (sk || !(killNews j sk st).isEmpty) hs' hf'
            have hafter : ∀ p : Proc, (p.after [ev]).after (pre.map (·.2)) = p.after (ev :: pre.map (·.2)) := by
              intro p
              rw [after_append]; rfl
            refine ⟨(int, ev) :: pre, by simp [← h1], ?_, ?_, h4, h5, h6, ?_, ?_⟩
            · rw [h2, hjob]
              simp only [List.map_cons, List.map_map]
              congr 1
              exact List.map_congr_left (fun p _ => hafter p)
            · intro hw
              obtain ⟨a, b⟩ := h3 hw
              refine ⟨a, .inr ?_⟩
              rcases b with b | b
              · have hnone : ∀ p : Proc, p.after (pre.map (·.2)) = p := by
                  intro p
                  have : ∀ pid, fate pid (pre.map (·.2)) = none := by
                    intro pid
                    unfold fate
                    rw [List.filterMap_eq_nil_iff.2]
                    · rfl
                    · intro e he
                      obtain ⟨x, hx, rfl⟩ := List.mem_map.1 he
                      simp [← news_told, b x hx]
                  unfold Proc.after
                  simp [this]
                have : (waitLoop evs (j.note pid st) (sk || !(killNews j sk st).isEmpty)).job = j.note pid st := by
                  rw [h2]
                  have hm : (j.note pid st).procs.map (Proc.after (pre.map (·.2))) = (j.note pid st).procs := by
                    conv_rhs => rw [← List.map_id (j.note pid st).procs]
                    exact List.map_congr_left (fun p _ => hnone p)
                  rw [hm]
                rw [this]
                simpa using hc
              · exact b
            · intro hw; obtain ⟨b, p', e⟩ := h7 hw; exact ⟨b, (int, ev) :: p', by simp [e]⟩
            · intro hw; obtain ⟨b, p', e⟩ := h8 hw; exact ⟨b, (int, ev) :: p', by simp [e]⟩

/-- **C14 for the foreground wait.** When the wait of a job returns (or is still going on), the status
reported for the job is what the results received so far say about the last stage. -/
theorem C14_wait {sp : Nat} (evs : List (Bool × WaitRes)) (j : RJob) (hs : Stages sp j.procs)
    (hf : Foreign sp (evs.map (·.2))) {p : Proc} (hp : j.procs.getLast? = some p) :
    ∃ pre, evs = pre ++ (waitLoop evs j false).rest ∧
      (p.builtin = true → lastState (waitLoop evs j false).job.procs = p.state) ∧
      (∀ pid, p.builtin = false → p.pid = some pid →
        lastState (waitLoop evs j false).job.procs = (fate pid (pre.map (·.2))).getD p.state) := by
  obtain ⟨pre, h1, h2, _⟩ := waitLoop_spec evs j false hs hf
  refine ⟨pre, h1, ?_⟩
  have hlast : (waitLoop evs j false).job.procs.getLast? = some (p.after (pre.map (·.2))) := by
    rw [h2, List.getLast?_map, hp]; rfl
  rw [lastState_eq hlast]
  constructor
  · intro hb; simp [Proc.after, hb]
  · intro pid hb hpid
    simp only [Proc.after, hb, hpid, Bool.false_eq_true, if_false, Option.bind_some]
    cases fate pid (pre.map (·.2)) <;> rfl

example : lastState (waitLoop [(false, .exited 13 4), (false, .signaled 11 9), (false, .exited 12 1)]
      ⟨1, abc, some 11, some 11, true, .running⟩ false).job.procs = .completed 4 none := by
  obtain ⟨pre, h1, _, h3⟩ := C14_wait [(false, .exited 13 4), (false, .signaled 11 9), (false, .exited 12 1)]
    ⟨1, abc, some 11, some 11, true, .running⟩ abc_stages (by
      intro e he n hn
      simp at he
      rcases he with rfl | rfl | rfl <;> (simp [WaitRes.told] at hn; subst hn; decide))
    (p := ⟨false, some 13, .running⟩) rfl
  rw [h3 13 rfl rfl]
  have : (waitLoop [(false, .exited 13 4), (false, .signaled 11 9), (false, .exited 12 1)]
    ⟨1, abc, some 11, some 11, true, .running⟩ false).rest = [] := by decide
  rw [this, List.append_nil] at h1
  rw [← h1]
  decide

/-! ### C15 -/

/-- **C15, the part that holds: no early return.** For every pipeline and every schedule: when the
wait returns, then – going by what the schedule has said so far – every stage has ended, or no stage
is running any more (each has ended or is stopped), or some stage after the first has ended with
status 0, or there is no child left to wait for, or `waitpid` failed in an unforeseen way.  Missing:
"some stage after the first" should be "the last stage", see `C15_middle_violated`. -/
theorem C15_return_partial {sp : Nat} (evs : List (Bool × WaitRes)) (j : RJob)
    (hs : Stages sp j.procs) (hf : Foreign sp (evs.map (·.2))) (h : (waitLoop evs j false).why ≠ none) :
    ∃ pre, evs = pre ++ (waitLoop evs j false).rest ∧
      ((∀ p ∈ j.procs, (p.after (pre.map (·.2))).state.done = true) ∨
       (∀ p ∈ j.procs, (p.after (pre.map (·.2))).state ≠ .running) ∨
       (∃ p ∈ j.procs.tail, (p.after (pre.map (·.2))).state = .completed 0 none) ∨
       (∃ b p', pre = p' ++ [(b, .echild)]) ∨ (∃ b p', pre = p' ++ [(b, .other)])) := by
  obtain ⟨pre, h1, h2, h3, h4, h5, h6, h7, h8⟩ := waitLoop_spec evs j false hs hf
  refine ⟨pre, h1, ?_⟩
  have hcons : consumerDone (waitLoop evs j false).job.procs = true →
      ∃ p ∈ j.procs.tail, (p.after (pre.map (·.2))).state = .completed 0 none := by
    intro hc
    rw [h2, consumerDone_iff] at hc
    obtain ⟨p, hp, hst⟩ := hc
    rw [← List.map_tail] at hp
    obtain ⟨q, hq, rfl⟩ := List.mem_map.1 hp
    exact ⟨q, hq, hst⟩
  cases hw : (waitLoop evs j false).why with
  | none => exact absurd hw h
  | some w =>
    cases w with
    | completed =>
      have hc := h4 hw
      unfold jobCompleted at hc
      split at hc
      · next he =>
        left
        rw [h2] at he
        have : j.procs = [] := by simpa using he
        rw [this]; simp
      · simp only [Bool.or_eq_true, Bool.and_eq_true] at hc
        rcases hc with hc | ⟨hc, _⟩
        · left
          rw [h2, isCompleted_iff] at hc
          intro p hp
          exact hc _ (List.mem_map_of_mem hp)
        · exact .inr (.inr (.inl (hcons hc)))
    | consumer => exact .inr (.inr (.inl (hcons (h5 hw).1)))
    | stopped =>
      have hc := h6 hw
      unfold jobStopped at hc
      rw [h2, isStopped_iff] at hc
      exact .inr (.inl (fun p hp => hc _ (List.mem_map_of_mem hp)))
    | noChild => exact .inr (.inr (.inr (.inl (h7 hw))))
    | unexpected => exact .inr (.inr (.inr (.inr (h8 hw))))

/-- **C15, no hang.** If by the end of the schedule every command of the pipeline has ended, the wait
has returned – whatever else the schedule contains and in whatever order. -/
theorem C15_no_hang {sp : Nat} (evs : List (Bool × WaitRes)) (j : RJob)
    (hs : Stages sp j.procs) (hf : Foreign sp (evs.map (·.2)))
    (hcmd : ∃ p ∈ j.procs, p.builtin = false)
    (hend : ∀ p ∈ j.procs, p.builtin = false → ∃ pid st, p.pid = some pid ∧
      fate pid (evs.map (·.2)) = some st ∧ st.done = true) :
    (waitLoop evs j false).why ≠ none := by
  intro hw
  obtain ⟨pre, h1, h2, h3, _⟩ := waitLoop_spec evs j false hs hf
  obtain ⟨hr, hor⟩ := h3 hw
  rw [hr, List.append_nil] at h1
  subst h1
  rcases hor with hor | hor
  · obtain ⟨p, hp, hb⟩ := hcmd
    obtain ⟨pid, st, _, hfate, _⟩ := hend p hp hb
    have : fate pid (evs.map (·.2)) = none := by
      unfold fate
      rw [List.filterMap_eq_nil_iff.2]
      · rfl
      · intro e he
        obtain ⟨x, hx, rfl⟩ := List.mem_map.1 he
        simp [← news_told, hor x hx]
    rw [this] at hfate
    cases hfate
  · have : jobCompleted (waitLoop evs j false).job = true := by
      rw [h2]
      unfold jobCompleted
      split
      · rfl
      · rw [Bool.or_eq_true]
        left
        rw [isCompleted_iff]
        intro p hp
        obtain ⟨q, hq, rfl⟩ := List.mem_map.1 hp
        by_cases hb : q.builtin = true
        · simp [Proc.after, hb, (hs.builtin q hq hb).2]
        · have hb : q.builtin = false := by simpa using hb
          obtain ⟨pid, st, hpid, hfate, hd⟩ := hend q hq hb
          simp [Proc.after, hb, hpid, hfate, hd]
    rw [this] at hor
    cases hor

example : (waitLoop [(false, .stillAlive), (true, .exited 99 0), (false, .exited 13 1), (false, .exited 11 0),
    (false, .eintr), (false, .signaled 12 13)] ⟨1, abc, some 11, some 11, true, .running⟩ false).why ≠ none :=
  C15_no_hang _ _ abc_stages (by
      intro e he n hn
      simp at he
      rcases he with rfl | rfl | rfl | rfl | rfl | rfl <;>
        simp [WaitRes.told] at hn <;> (subst hn; decide))
    ⟨_, List.mem_cons_self .., rfl⟩ (by
      intro p hp _
      simp [abc] at hp
      rcases hp with rfl | rfl | rfl
      · exact ⟨11, _, rfl, rfl, rfl⟩
      · exact ⟨12, _, rfl, rfl, rfl⟩
      · exact ⟨13, _, rfl, rfl, rfl⟩)

/-- **C15 fails** for three stages, e.g. `ls | sort | less`: as soon as the middle stage has ended
with status 0 the wait returns although the last stage (and the first) is running; the shell takes
the terminal back, and the job is taken for one still running in the background. -/
theorem C15_middle_violated :
    let o := waitLoop [(false, .exited 12 0)] ⟨1, abc, some 11, some 11, true, .running⟩ false
    o.why = some .completed ∧ o.job.procs.map (·.state) = [.running, .completed 0 none, .running] ∧
    lastState o.job.procs = .running := by decide

/-- A stopped stage is forgotten if the last stage has ended: in `vi | false`, `vi` being stopped, the
job counts as ended with status 1, so that the evaluation loop does not put it into the job table
(compare `C13_stopped_partial`). -/
theorem C13_pipeline_violated :
    let o := waitLoop [(false, .exited 12 1), (false, .stopped 11 20)]
      ⟨1, abc.take 2, none, none, true, .running⟩ false
    o.why = some .stopped ∧ lastState o.job.procs = .completed 1 none := by decide

/-! ### C54, C55: signals sent while waiting -/

theorem note_ids (j : RJob) (pid st) : (j.note pid st).pgid = j.pgid ∧ (j.note pid st).pid = j.pid := ⟨rfl, rfl⟩

theorem killNews_mem {j : RJob} {sk : Bool} {st : PState} {x : Sent} (h : x ∈ killNews j sk st) :
    ∃ g, j.pgid = some g ∧ x = .group g SIGKILL := by
  unfold killNews at h
  split at h
  · split at h
    · split at h
      · next g hg => exact ⟨g, hg, by simpa using h⟩
      · simp at h
    · simp at h
  · simp at h

theorem forwardInt_mem {j : RJob} {x : Sent} (h : x ∈ forwardInt j) :
    (∃ g, j.pgid = some g ∧ x = .group g SIGINT) ∨ (j.pgid = none ∧ ∃ p, j.pid = some p ∧ x = .proc p SIGINT) := by
  unfold forwardInt at h
  split at h
  · next g hg => exact .inl ⟨g, hg, by simpa using h⟩
  · next hg =>
    split at h
    · next p hp => exact .inr ⟨hg, p, hp, by simpa using h⟩
    · simp at h

/-- **C55, the part that holds.** Every signal sent while waiting goes to the job's own process group
or, if it has none, to its first process; so if the first stage is a command (a child of the shell)
the shell never signals itself.  Missing: pipelines that start with a builtin, see
`C55_self_kill_violated`. -/
theorem C55_targets_partial (evs : List (Bool × WaitRes)) (j : RJob) (sk : Bool) :
    ∀ x ∈ (waitLoop evs j sk).sent,
      (∃ g s, j.pgid = some g ∧ x = .group g s) ∨ (j.pgid = none ∧ ∃ p, j.pid = some p ∧ x = .proc p SIGINT) := by
  induction evs generalizing j sk with
  | nil => simp [waitLoop]
  | cons ie evs ih =>
    obtain ⟨int, ev⟩ := ie
    have hpre : ∀ x ∈ (if int then forwardInt j else []),
        (∃ g s, j.pgid = some g ∧ x = .group g s) ∨ (j.pgid = none ∧ ∃ p, j.pid = some p ∧ x = .proc p SIGINT) := by
      intro x hx
      cases int
      · simp at hx
      · rcases forwardInt_mem (by simpa using hx) with ⟨g, hg, e⟩ | h
        · exact .inl ⟨g, _, hg, e⟩
        · exact .inr h
    unfold waitLoop
    cases hn : ev.news with
    | none =>
      simp only
      split
      · intro x hx
        rcases List.mem_append.1 hx with hx | hx
        · exact hpre x hx
        · exact ih j sk x hx
      · exact hpre
    | some n =>
      obtain ⟨pid, st⟩ := n
      simp only
      have hk : ∀ x ∈ (if int then forwardInt j else []) ++ killNews j sk st,
          (∃ g s, j.pgid = some g ∧ x = .group g s) ∨ (j.pgid = none ∧ ∃ p, j.pid = some p ∧ x = .proc p SIGINT) := by
        intro x hx
        rcases List.mem_append.1 hx with hx | hx
        · exact hpre x hx
        · obtain ⟨g, hg, e⟩ := killNews_mem hx
          exact .inl ⟨g, _, hg, e⟩
      split
      · exact hk
      · split
        · intro x hx
          rcases List.mem_append.1 hx with hx | hx
          · exact hk x hx
          · left
            rw [(note_ids j pid st).1] at hx
            cases hg : j.pgid with
            | none => rw [hg] at hx; simp at hx
            | some g =>
              rw [hg] at hx
              simp at hx
              rcases hx with rfl | rfl <;> exact ⟨g, _, rfl, rfl⟩
        · split
          · exact hk
          · intro x hx
            rcases List.mem_append.1 hx with hx | hx
            · exact hk x hx
            · have := ih (j.note pid st) _ x hx
              rw [(note_ids j pid st).1, (note_ids j pid st).2] at this
              exact this

/-- In particular a pipeline whose first stage is a child never makes the shell signal its own
group. -/
theorem C55_not_self_partial {sp : Nat} (evs : List (Bool × WaitRes)) (j : RJob)
    (hs : Stages sp j.procs) (hpg : j.pgid = launchPgid true sp j.procs)
    (hfirst : ∀ p ∈ j.procs.head?, p.builtin = false) (hne : j.procs ≠ []) (s : Nat) :
    .group sp s ∉ (waitLoop evs j false).sent := by
  intro hx
  rcases C55_targets_partial evs j false _ hx with ⟨g, s', hg, e⟩ | ⟨_, p, _, e⟩
  · injection e with e1 _
    subst e1
    cases hp : j.procs with
    | nil => exact hne hp
    | cons p rest =>
      have hb : p.builtin = false := hfirst p (by rw [hp]; rfl)
      obtain ⟨n, hn, hnsp⟩ := hs.cmd p (by rw [hp]; simp) hb
      rw [hpg, hp] at hg
      simp [launchPgid, hb, hn] at hg
      exact hnsp hg
  · cases e

example (evs) : Sent.group 5 9 ∉ (waitLoop evs ⟨1, abc, some 11, some 11, true, .running⟩ false).sent :=
  C55_not_self_partial evs ⟨1, abc, some 11, some 11, true, .running⟩ abc_stages rfl (by simp [abc]) (by simp [abc]) 9

/-- **C55 fails** for pipelines that start with a builtin, e.g. `jobs | grep x` when `grep` finds
nothing: the shell (pid 5) sends SIGKILL to its own process group. -/
theorem C55_self_kill_violated :
    let procs : List Proc := [⟨true, some 5, .completed 1 none⟩, ⟨false, some 12, .running⟩]
    (waitLoop [(false, .exited 12 1)] ⟨1, procs, some 5, launchPgid true 5 procs, true, .running⟩ false).sent =
      [.group 5 SIGKILL] := by decide

/-- **C54, the part that holds.** If no process that ends during the wait – of this job or another –
fails or is killed, no Ctrl-C is pressed and no stage is stopped, the wait sends no signal at all.
Missing: failures of other processes, see `C54_killed_violated`. -/
theorem C54_quiet_partial (evs : List (Bool × WaitRes)) (j : RJob) (sk : Bool)
    (hint : ∀ e ∈ evs, e.1 = false)
    (hok : ∀ e ∈ evs, ∀ n, e.2.told = some n → n.2 = .completed 0 none)
    (hst : ∀ p ∈ j.procs, p.state.isStop = false) :
    (waitLoop evs j sk).sent = [] := by
  have hset : ∀ (l : List Proc) (pid : Nat), (∀ p ∈ l, p.state.isStop = false) →
      ∀ p ∈ (setState l pid (.completed 0 none)).1, p.state.isStop = false := by
    intro l pid
    induction l with
    | nil => simp [setState]
    | cons q l ih =>
      intro hl p hp
      have ih := ih (fun r hr => hl r (by simp [hr]))
      have hq := hl q (by simp)
      unfold setState at hp
      split at hp
      · split at hp
        · simp at hp; subst hp; exact hq
        · simp only at hp
          split at hp
          · rcases List.mem_cons.1 hp with rfl | hp
            · exact hq
            · exact ih p hp
          · split at hp
            · rcases List.mem_cons.1 hp with rfl | hp
              · rfl
              · exact ih p hp
            · rcases List.mem_cons.1 hp with rfl | hp
              · exact hq
              · exact ih p hp
      · split at hp
        · rcases List.mem_cons.1 hp with rfl | hp
          · rfl
          · exact hl p (by simp [hp])
        · rcases List.mem_cons.1 hp with rfl | hp
          · exact hq
          · exact ih p hp
  induction evs generalizing j sk with
  | nil => rfl
  | cons ie evs ih =>
    obtain ⟨int, ev⟩ := ie
    have hi : int = false := hint (int, ev) (by simp)
    subst hi
    have hint' : ∀ e ∈ evs, e.1 = false := fun e he => hint e (by simp [he])
    have hok' : ∀ e ∈ evs, ∀ n, e.2.told = some n → n.2 = .completed 0 none := fun e he => hok e (by simp [he])
    unfold waitLoop
    cases hn : ev.news with
    | none =>
      simp only
      split
      · simp [ih j sk hint' hok' hst]
      · simp
    | some n =>
      obtain ⟨pid, st⟩ := n
      have hst' : st = .completed 0 none := hok (false, ev) (by simp) _ (news_told ev ▸ hn)
      subst hst'
      have hns : ∀ p ∈ (j.note pid (.completed 0 none)).procs, p.state.isStop = false := hset j.procs pid hst
      simp only
      have hk : killNews j sk (.completed 0 none) = [] := by simp [killNews]
      split
      · simp [hk]
      · next hc =>
        split
        · next hcons =>
          exfalso
          apply hc
          simp only [Bool.and_eq_true] at hcons
          have : hasStopped (j.note pid (.completed 0 none)).procs = false := by
            rw [Bool.eq_false_iff, Ne, hasStopped_iff]
            rintro ⟨p, hp, h⟩
            rw [hns p hp] at h
            cases h
          unfold jobCompleted
          split
          · rfl
          · rw [hcons.1, this]; simp
        · split
          · simp [hk]
          · simp [hk, ih _ _ hint' hok' hns]

example : (waitLoop [(false, .exited 99 0), (false, .exited 11 0), (false, .exited 13 0)]
    ⟨1, abc, some 11, some 11, true, .running⟩ false).sent = [] :=
  C54_quiet_partial _ _ _ (by simp) (by
      intro e he n hn
      simp at he
      rcases he with rfl | rfl | rfl <;> (simp [WaitRes.told] at hn; subst hn; rfl)) (by simp [abc]; decide)

/-- **C54 fails.** A process of another job (pid 99) that ends with status 1 makes the shell kill the
foreground job; so does a failing first stage of the same pipeline, e.g. `grep x f | wc -l`. -/
theorem C54_killed_violated :
    (waitLoop [(false, .exited 99 1)] ⟨1, [⟨false, some 11, .running⟩], some 11, some 11, true, .running⟩ false).sent =
      [.group 11 SIGKILL] ∧
    (waitLoop [(false, .exited 11 1)] ⟨1, abc.take 2, some 11, some 11, true, .running⟩ false).sent =
      [.group 11 SIGKILL] := by decide

end Dsh.Jobs
