import Verif.Dirs.Trigger
/-!
C138: `trigger pattern command` runs the command after every change of a file that matches, and only then.
-/
namespace Dsh.Trig

theorem arrive_mem (q : List Ev) (e x : Ev) : x ∈ arrive q e ↔ x = e ∨ x ∈ q := by
  unfold arrive
  rw [(insertBy_perm _ e q).mem_iff, List.mem_cons]

theorem arrive_all (x : Ev) : ∀ (l q : List Ev), x ∈ l.foldl arrive q ↔ x ∈ l ∨ x ∈ q := by
  intro l
  induction l with
  | nil => intro q; simp
  | cons e l ih =>
    intro q
    rw [List.foldl_cons, ih, arrive_mem, List.mem_cons]
    grind

/-- Everything that holds at every moment. -/
structure Inv (W : World) (pattern cmd : Str) (es : List Ev) (st : St) : Prop where
  /-- every run has its report -/
  why : ∀ r ∈ st.runs, hit W pattern r.1 = true ∧ r.1.at_ ≤ r.2 ∧ r.2 ≤ st.now
  /-- the runs follow each other at a distance -/
  apart : ∀ (i : Nat) r r', st.runs[i]? = some r → st.runs[i + 1]? = some r' → r.2 + 500 ≤ r'.2 ∧ r.2 + W.takes i ≤ r'.2
  /-- the last run is over -/
  over : ∀ r, st.runs.getLast? = some r → r.2 + W.takes (st.runs.length - 1) ≤ st.now
  /-- no report is forgotten unless a run is recent -/
  seen : ∀ e ∈ es, hit W pattern e = true → e ∈ st.queue ∨ ∃ r ∈ st.runs, e.at_ < r.2 + 500
  /-- the runs of the command are recorded, in order -/
  kept : st.record = (List.range st.runs.length).filterMap fun n => (W.result n).map fun r => (cmd, r.1, r.2.1, r.2.2)

theorem inv_start (W : World) (pattern cmd : Str) (es : List Ev) : Inv W pattern cmd es (start es) where
  why := by intro r hr; cases hr
  apart := by intro i r r' h _; simp [start] at h
  over := by intro r h; simp [start] at h
  seen := by intro e he _; exact Or.inl he
  kept := rfl

theorem inv_step (W : World) (pattern cmd : Str) (es : List Ev) (st : St) (h : Inv W pattern cmd es st) :
    Inv W pattern cmd es (step W pattern cmd st) := by
  unfold step
  cases hq : st.queue with
  | nil => exact h
  | cons e q =>
    dsimp only
    have hle : st.now ≤ max st.now e.at_ := Nat.le_max_left ..
    have hle' : e.at_ ≤ max st.now e.at_ := Nat.le_max_right ..
    generalize max st.now e.at_ = t at hle hle'
    by_cases hh : hit W pattern e = true
    · rw [if_pos hh]
      by_cases hr : recent st.runs t = true
      · rw [if_pos hr]
        refine ⟨?_, h.apart, ?_, ?_, h.kept⟩
        · intro r hm
          obtain ⟨h1, h2, h3⟩ := h.why r hm
          exact ⟨h1, h2, by show r.2 ≤ t; omega⟩
        · intro r hl
          have := h.over r hl
          show r.2 + W.takes (st.runs.length - 1) ≤ t
          omega
        · intro x hx hxh
          rcases h.seen x hx hxh with hm | hm
          · rw [hq] at hm
            rcases List.mem_cons.1 hm with rfl | hm
            · right
              cases hl : st.runs.getLast? with
              | none => rw [recent, hl] at hr; cases hr
              | some r =>
                rw [recent, hl] at hr
                have : t < r.2 + 500 := by simpa using hr
                exact ⟨r, List.mem_of_getLast? hl, by omega⟩
            · exact Or.inl hm
          · exact Or.inr hm
      · rw [if_neg hr]
        refine ⟨?_, ?_, ?_, ?_, ?_⟩
        · intro r hm
          rcases List.mem_append.1 hm with hm | hm
          · obtain ⟨h1, h2, h3⟩ := h.why r hm
            exact ⟨h1, h2, by show r.2 ≤ t + _; omega⟩
          · rw [List.mem_singleton] at hm
            subst hm
            exact ⟨hh, hle', by show t ≤ t + _; omega⟩
        · intro i r r' h1 h2
          dsimp only at h1 h2
          have hi : i < st.runs.length := by
            have := (List.getElem?_eq_some_iff.1 h2).1
            simp only [List.length_append, List.length_singleton] at this
            omega
          rw [List.getElem?_append_left hi] at h1
          by_cases hi' : i + 1 < st.runs.length
          · rw [List.getElem?_append_left hi'] at h2
            exact h.apart i r r' h1 h2
          · have hlen : i + 1 = st.runs.length := by omega
            have hr' : r' = (e, t) := by
              rw [hlen, List.getElem?_append_right (Nat.le_refl _), Nat.sub_self] at h2
              exact (Option.some.inj h2).symm
            have hl : st.runs.getLast? = some r := by
              rw [List.getLast?_eq_getElem?, ← h1, ← hlen]
              rfl
            have ho := h.over r hl
            have hs : i = st.runs.length - 1 := by omega
            rw [recent, hl] at hr
            have hr2 : ¬ t < r.2 + 500 := by simpa using hr
            subst hr'
            rw [hs]
            exact ⟨by show r.2 + 500 ≤ t; omega, by show _ ≤ t; omega⟩
        · intro r hl
          rw [List.getLast?_append] at hl
          simp only [List.getLast?_singleton, Option.some_or, Option.some.injEq] at hl
          subst hl
          simp
        · intro x hx hxh
          rcases h.seen x hx hxh with hm | ⟨r, hm, hr'⟩
          · rw [hq] at hm
            rcases List.mem_cons.1 hm with rfl | hm
            · exact Or.inr ⟨(x, t), by simp, by show x.at_ < t + 500; omega⟩
            · exact Or.inl ((arrive_all x _ _).2 (Or.inr hm))
          · exact Or.inr ⟨r, List.mem_append_left _ hm, hr'⟩
        · dsimp only
          rw [List.length_append, List.length_singleton, List.range_succ, List.filterMap_append, ← h.kept]
          cases hres : W.result st.runs.length with
          | none => simp [hres]
          | some r => simp [hres]
    · rw [if_neg hh]
      refine ⟨?_, h.apart, ?_, ?_, h.kept⟩
      · intro r hm
        obtain ⟨h1, h2, h3⟩ := h.why r hm
        exact ⟨h1, h2, by show r.2 ≤ t; omega⟩
      · intro r hl
        have := h.over r hl
        show r.2 + W.takes (st.runs.length - 1) ≤ t
        omega
      · intro x hx hxh
        rcases h.seen x hx hxh with hm | hm
        · rw [hq] at hm
          rcases List.mem_cons.1 hm with rfl | hm
          · exact absurd hxh hh
          · exact Or.inl hm
        · exact Or.inr hm

theorem inv_loop (W : World) (pattern cmd : Str) (es : List Ev) : ∀ (n : Nat) (st : St), Inv W pattern cmd es st →
    Inv W pattern cmd es (loop W pattern cmd n st) := by
  intro n
  induction n with
  | zero => intro st h; exact h
  | succ n ih => intro st h; exact ih _ (inv_step W pattern cmd es st h)

/-- **C138, only then.** At every moment: each run of the command comes after a report about a path that matches; two runs do not
overlap and start at least half a second apart; and what the runs printed is recorded, one entry for each, in order. -/
theorem C138_only_partial (W : World) (pattern : Str) (words : List Str) (es : List Ev) (n : Nat) :
    let st := loop W pattern (cmdLine words) n (start es)
    (∀ r ∈ st.runs, (∃ p ∈ r.1.paths, W.glob pattern (strip p) = true) ∧ r.1.at_ ≤ r.2) ∧
    (∀ (i : Nat) r r', st.runs[i]? = some r → st.runs[i + 1]? = some r' → r.2 + 500 ≤ r'.2 ∧ r.2 + W.takes i ≤ r'.2) ∧
    ((∀ i, (W.result i).isSome) → st.record.length = st.runs.length) ∧
    (∀ x ∈ st.record, x.1 = cmdLine words ∧ ∃ i < st.runs.length, W.result i = some x.2) := by
  intro st
  have h : Inv W pattern (cmdLine words) es st := inv_loop _ _ _ _ _ _ (inv_start _ _ _ _)
  refine ⟨?_, h.apart, ?_, ?_⟩
  · intro r hr
    obtain ⟨h1, h2, _⟩ := h.why r hr
    exact ⟨List.any_eq_true.1 h1, h2⟩
  · intro hres
    rw [h.kept]
    have : ∀ l : List Nat, (l.filterMap fun n => (W.result n).map fun r => (cmdLine words, r.1, r.2.1, r.2.2)).length = l.length := by
      intro l
      induction l with
      | nil => rfl
      | cons a l ih =>
        obtain ⟨r, hr⟩ := Option.isSome_iff_exists.1 (hres a)
        simp [hr, ih]
    rw [this, List.length_range]
  · intro x hx
    rw [h.kept, List.mem_filterMap] at hx
    obtain ⟨i, hi, hxi⟩ := hx
    cases hr : W.result i with
    | none => rw [hr] at hxi; cases hxi
    | some r =>
      rw [hr] at hxi
      injection hxi with hxi
      subst hxi
      exact ⟨rfl, i, List.mem_range.1 hi, hr⟩

/-- **C138, a recent run.** When all reports have been handled, for each report about a matching path there is a run that
started after it or less than half a second before. -/
theorem C138_recent_partial (W : World) (pattern cmd : Str) (es : List Ev) (n : Nat) :
    let st := loop W pattern cmd n (start es)
    st.queue = [] → ∀ e ∈ es, (∃ p ∈ e.paths, W.glob pattern (strip p) = true) → ∃ r ∈ st.runs, e.at_ < r.2 + 500 := by
  intro st hq e he hp
  have h : Inv W pattern cmd es st := inv_loop _ _ _ _ _ _ (inv_start _ _ _ _)
  rcases h.seen e he (List.any_eq_true.2 hp) with hm | hm
  · rw [hq] at hm; cases hm
  · exact hm

/-- A world in which everything ends in `.rs` or not, and runs take 200 ms. -/
def exWorld : World where
  glob _ p := p.reverse.take 3 == c!"sr."
  takes _ := 200
  causes _ _ := []
  result _ := some (0, c!"ok", [])

/-- Three changes: at 0, 1000 and 1300 ms. -/
example : (loop exWorld c!"*.rs" c!"make" 4 (start [⟨0, false, [c!"./a.rs"]⟩, ⟨900, false, [c!"./a.md"]⟩, ⟨1000, false, [c!"./a.rs"]⟩,
    ⟨1300, false, [c!"./b.rs"]⟩])).runs.map (·.2) = [0, 1000] := by decide

example : (loop exWorld c!"*.rs" c!"make" 4 (start [⟨0, false, [c!"./a.rs"]⟩, ⟨900, false, [c!"./a.md"]⟩, ⟨1000, false, [c!"./a.rs"]⟩,
    ⟨1300, false, [c!"./b.rs"]⟩])).queue = [] := by decide

/-- What holds of the order. -/
structure Ord (W : World) (es : List Ev) (st : St) : Prop where
  sorted : st.queue.Pairwise fun a b => a.at_ ≤ b.at_
  later : ∀ r ∈ st.runs, ∀ e ∈ st.queue, r.1.at_ ≤ e.at_
  order : st.runs.Pairwise fun r r' => r.1.at_ ≤ r'.1.at_
  real : ∀ e, (e ∈ st.queue ∨ ∃ r ∈ st.runs, r.1 = e) → e ∈ es ∨ ∃ i < st.runs.length, ∃ t, e ∈ W.causes i t

theorem arrive_sorted (e : Ev) : ∀ q : List Ev, q.Pairwise (fun a b => a.at_ ≤ b.at_) → (arrive q e).Pairwise fun a b => a.at_ ≤ b.at_ := by
  intro q
  induction q with
  | nil => intro _; simp [arrive, insertBy]
  | cons y q ih =>
    intro h
    rw [List.pairwise_cons] at h
    unfold arrive
    rw [insertBy]
    by_cases hlt : e.at_ < y.at_
    · rw [if_pos (by simpa using hlt), List.pairwise_cons]
      refine ⟨?_, List.pairwise_cons.2 h⟩
      intro z hz
      rcases List.mem_cons.1 hz with rfl | hz
      · omega
      · have := h.1 z hz
        omega
    · rw [if_neg (by simpa using hlt), List.pairwise_cons]
      refine ⟨?_, ih h.2⟩
      intro z hz
      rcases (arrive_mem q e z).1 hz with rfl | hz
      · omega
      · exact h.1 z hz

theorem arrive_all_sorted : ∀ (l q : List Ev), q.Pairwise (fun a b => a.at_ ≤ b.at_) →
    (l.foldl arrive q).Pairwise fun a b => a.at_ ≤ b.at_ := by
  intro l
  induction l with
  | nil => intro q h; exact h
  | cons e l ih => intro q h; exact ih _ (arrive_sorted e q h)

theorem ord_step (W : World) (pattern cmd : Str) (es : List Ev) (hc : ∀ n t, ∀ e ∈ W.causes n t, t ≤ e.at_) (st : St) (h : Ord W es st) :
    Ord W es (step W pattern cmd st) := by
  unfold step
  cases hq : st.queue with
  | nil => exact h
  | cons e q =>
    dsimp only
    have hle' : e.at_ ≤ max st.now e.at_ := Nat.le_max_right ..
    generalize max st.now e.at_ = t at hle'
    have hs := h.sorted
    rw [hq, List.pairwise_cons] at hs
    have hl := h.later
    rw [hq] at hl
    have hr := h.real
    rw [hq] at hr
    have skip : ∀ now : Nat, Ord W es { st with queue := q, now := now } := by
      intro now
      refine ⟨hs.2, fun r hr e' he' => hl r hr e' (List.mem_cons_of_mem _ he'), h.order, ?_⟩
      intro x hx
      exact hr x (hx.imp (List.mem_cons_of_mem _) id)
    by_cases hh : hit W pattern e = true
    · rw [if_pos hh]
      by_cases hrec : recent st.runs t = true
      · rw [if_pos hrec]
        exact skip t
      · rw [if_neg hrec]
        refine ⟨arrive_all_sorted _ _ hs.2, ?_, ?_, ?_⟩
        · intro r hm x hx
          rcases (arrive_all x _ _).1 hx with hx | hx
          · have hx' := hc _ _ x hx
            rcases List.mem_append.1 hm with hm | hm
            · have := hl r hm e (List.mem_cons_self ..)
              omega
            · rw [List.mem_singleton] at hm
              subst hm
              show e.at_ ≤ _
              omega
          · rcases List.mem_append.1 hm with hm | hm
            · exact hl r hm x (List.mem_cons_of_mem _ hx)
            · rw [List.mem_singleton] at hm
              subst hm
              exact hs.1 x hx
        · refine List.pairwise_append.2 ⟨h.order, by simp, ?_⟩
          intro r hm r' hm'
          rw [List.mem_singleton] at hm'
          subst hm'
          exact hl r hm e (List.mem_cons_self ..)
        · intro x hx
          have hlen : (st.runs ++ [(e, t)]).length = st.runs.length + 1 := by simp
          have old : (x ∈ e :: q ∨ ∃ r ∈ st.runs, r.1 = x) → x ∈ es ∨ ∃ i < (st.runs ++ [(e, t)]).length, ∃ t, x ∈ W.causes i t := by
            intro hx
            rcases hr x hx with hx | ⟨i, hi, hx⟩
            · exact Or.inl hx
            · exact Or.inr ⟨i, by omega, hx⟩
          rcases hx with hx | ⟨r, hm, hx⟩
          · rcases (arrive_all x _ _).1 hx with hx | hx
            · exact Or.inr ⟨st.runs.length, by show _ < (st.runs ++ [(e, t)]).length; omega, t, hx⟩
            · exact old (Or.inl (List.mem_cons_of_mem _ hx))
          · rcases List.mem_append.1 hm with hm | hm
            · exact old (Or.inr ⟨r, hm, hx⟩)
            · rw [List.mem_singleton] at hm
              subst hm
              subst hx
              exact old (Or.inl (List.mem_cons_self ..))
    · rw [if_neg hh]
      exact skip t

/-- **C138, in order.** If the reports come in the order of time and what a run causes comes after its start, the runs answer reports
in that order, and only reports that came from outside or from a run of the command before. -/
theorem C138_order_partial (W : World) (pattern cmd : Str) (es : List Ev) (hs : es.Pairwise fun a b => a.at_ ≤ b.at_)
    (hc : ∀ n t, ∀ e ∈ W.causes n t, t ≤ e.at_) (n : Nat) :
    let st := loop W pattern cmd n (start es)
    (st.runs.Pairwise fun r r' => r.1.at_ ≤ r'.1.at_) ∧
    (∀ r ∈ st.runs, ∀ e ∈ st.queue, r.1.at_ ≤ e.at_) ∧
    ∀ r ∈ st.runs, r.1 ∈ es ∨ ∃ i < st.runs.length, ∃ t, r.1 ∈ W.causes i t := by
  intro st
  have h0 : Ord W es (start es) := by
    refine ⟨hs, fun r hr => (by cases hr), List.Pairwise.nil, ?_⟩
    intro e he
    rcases he with he | ⟨r, hr, _⟩
    · exact Or.inl he
    · cases hr
  have : ∀ (n : Nat) (st : St), Ord W es st → Ord W es (loop W pattern cmd n st) := by
    intro n
    induction n with
    | zero => intro st h; exact h
    | succ n ih => intro st h; exact ih _ (ord_step W pattern cmd es hc st h)
  have h := this n _ h0
  exact ⟨h.order, h.later, fun r hr => h.real r.1 (Or.inr ⟨r, hr, rfl⟩)⟩

/-- A run at 0 that writes at 600 while another change waits at 700. -/
example : (loop { exWorld with causes := fun n _ => if n = 0 then [⟨600, false, [c!"./gen.rs"]⟩] else [] } c!"*.rs" c!"make" 1
    (start [⟨0, false, [c!"./a.rs"]⟩, ⟨700, false, [c!"./b.rs"]⟩])).queue.map (·.at_) = [600, 700] := by decide

theorem loop_empty (W : World) (pattern cmd : Str) : ∀ (n : Nat) (st : St), st.queue = [] → loop W pattern cmd n st = st := by
  intro n
  induction n with
  | zero => intro st _; rfl
  | succ n ih =>
    intro st h
    have : step W pattern cmd st = st := by rw [step, h]
    rw [loop, this, ih st h]

/-- **C138 fails for a second change soon after.** A file that is changed again less than half a second after the start of a run
that is over by then is not noticed: no run ever comes after the change. -/
theorem C138_soon_violated (W : World) (pattern cmd : Str) (e e' : Ev) (hc : W.causes 0 e.at_ = [])
    (h : hit W pattern e = true) (h' : hit W pattern e' = true) (h1 : e.at_ + W.takes 0 ≤ e'.at_) (h2 : e'.at_ < e.at_ + 500) (n : Nat) :
    (loop W pattern cmd (n + 2) (start [e, e'])).runs = [(e, e.at_)] ∧ (loop W pattern cmd (n + 2) (start [e, e'])).queue = [] := by
  have hm : max (0 : Nat) e.at_ = e.at_ := Nat.max_eq_right (Nat.zero_le _)
  have hm' : max (e.at_ + W.takes 0) e'.at_ = e'.at_ := Nat.max_eq_right h1
  rw [loop, loop]
  have hs : (step W pattern cmd (step W pattern cmd (start [e, e']))).queue = [] ∧
      (step W pattern cmd (step W pattern cmd (start [e, e']))).runs = [(e, e.at_)] := by
    simp [step, start, recent, h, h', hc, hm, hm', h2]
  rw [loop_empty _ _ _ _ _ hs.1]
  exact ⟨hs.2, hs.1⟩

/-- A change at 0 and another at 300 ms; the run is over at 200 ms. -/
example (n : Nat) : (loop exWorld c!"*.rs" c!"make" (n + 2) (start [⟨0, false, [c!"./a.rs"]⟩, ⟨300, false, [c!"./a.rs"]⟩])).runs =
    [(⟨0, false, [c!"./a.rs"]⟩, 0)] :=
  (C138_soon_violated exWorld c!"*.rs" c!"make" ⟨0, false, [c!"./a.rs"]⟩ ⟨300, false, [c!"./a.rs"]⟩ rfl (by decide) (by decide) (by decide)
    (by decide) n).1

/-- **C138 fails for commands that touch such files themselves.** If every run takes half a second or more and causes reports about matching paths
(be it that it only opened them), one change is enough to run the command for ever. -/
theorem C138_forever_violated (W : World) (pattern cmd : Str) (e : Ev) (h : hit W pattern e = true) (ht : ∀ n, 500 ≤ W.takes n)
    (hc : ∀ n t, W.causes n t ≠ [] ∧ ∀ x ∈ W.causes n t, hit W pattern x = true) (n : Nat) :
    (loop W pattern cmd n (start [e])).runs.length = n := by
  have : ∀ (n : Nat) (st : St), st.queue ≠ [] → (∀ x ∈ st.queue, hit W pattern x = true) →
      (∀ r, st.runs.getLast? = some r → r.2 + 500 ≤ st.now) →
      (loop W pattern cmd n st).runs.length = st.runs.length + n := by
    intro n
    induction n with
    | zero => intro st _ _ _; rfl
    | succ n ih =>
      intro st hq hh hl
      cases hqq : st.queue with
      | nil => exact absurd hqq hq
      | cons x q =>
        have hx : hit W pattern x = true := hh x (by rw [hqq]; exact List.mem_cons_self ..)
        have hno : recent st.runs (max st.now x.at_) = false := by
          unfold recent
          cases hg : st.runs.getLast? with
          | none => rfl
          | some r =>
            have := hl r hg
            have := Nat.le_max_left st.now x.at_
            simp only [decide_eq_false_iff_not]
            omega
        have hstep : step W pattern cmd st =
            { queue := (W.causes st.runs.length (max st.now x.at_)).foldl arrive q
              now := max st.now x.at_ + W.takes st.runs.length
              runs := st.runs ++ [(x, max st.now x.at_)]
              record := match W.result st.runs.length with | some (c, o, er) => st.record ++ [(cmd, c, o, er)] | none => st.record } := by
          rw [step, hqq]
          dsimp only
          rw [if_pos hx, if_neg (by rw [hno]; simp)]
          rfl
        rw [loop, hstep, ih]
        · simp; omega
        · obtain ⟨h1, _⟩ := hc st.runs.length (max st.now x.at_)
          obtain ⟨y, hy⟩ := List.exists_mem_of_ne_nil _ h1
          have := (arrive_all y _ q).2 (Or.inl hy)
          exact List.ne_nil_of_mem this
        · intro y hy
          rcases (arrive_all y _ q).1 hy with hy | hy
          · exact (hc _ _).2 y hy
          · exact hh y (by rw [hqq]; exact List.mem_cons_of_mem _ hy)
        · intro r hr
          rw [List.getLast?_append] at hr
          simp only [List.getLast?_singleton, Option.some_or, Option.some.injEq] at hr
          subst hr
          have := ht st.runs.length
          show max st.now x.at_ + 500 ≤ max st.now x.at_ + _
          omega
  have := this n (start [e]) (by simp [start]) (by
    intro x hx
    have : x = e := by simpa [start] using hx
    rw [this]; exact h) (by intro r hr; simp [start] at hr)
  simpa [start] using this

/-- A build that takes a second and reads `a.rs`. -/
example (n : Nat) : (loop { exWorld with takes := fun _ => 1000, causes := fun _ t => [⟨t + 10, true, [c!"./a.rs"]⟩] } c!"*.rs" c!"make" n
    (start [⟨0, false, [c!"./a.rs"]⟩])).runs.length = n := by
  refine C138_forever_violated _ _ _ _ (by decide) (fun _ => Nat.le_of_ble_eq_true rfl) ?_ n
  intro k t
  refine ⟨by simp, ?_⟩
  intro x hx
  rw [List.mem_singleton] at hx
  subst hx
  rfl

/-- **C138 fails for reports that are no changes**: a report that a file was opened runs the command. -/
theorem C138_access_violated (W : World) (pattern cmd : Str) (e : Ev) (h : hit W pattern e = true) (b : Bool) :
    (loop W pattern cmd 1 (start [{ e with access := b }])).runs = [({ e with access := b }, e.at_)] := by
  have h' : hit W pattern { e with access := b } = true := h
  simp [loop, step, start, recent, h']

/-- **C138 fails for patterns with `./`.** The `./` is taken off the paths but not off the pattern: nothing ever matches. -/
theorem C138_dot_violated (W : World) (p cmd : Str) (hlit : ∀ s, W.glob ('.' :: '/' :: p) s = true → ∃ t, s = '.' :: '/' :: t)
    (es : List Ev)
    (hes : ∀ e ∈ es, ∀ x ∈ e.paths, ∃ t, x = '.' :: '/' :: t ∧ ∀ t', t ≠ '.' :: '/' :: t') (n : Nat) :
    (loop W ('.' :: '/' :: p) cmd n (start es)).runs = [] := by
  have hno : ∀ e ∈ es, hit W ('.' :: '/' :: p) e = false := by
    intro e he
    rw [hit, List.any_eq_false]
    intro x hx hm
    obtain ⟨t, rfl, ht⟩ := hes e he x hx
    obtain ⟨t', ht'⟩ := hlit _ hm
    exact ht t' ht'
  have : ∀ (n : Nat) (st : St), (∀ e ∈ st.queue, e ∈ es) → st.runs = [] → (loop W ('.' :: '/' :: p) cmd n st).runs = [] := by
    intro n
    induction n with
    | zero => intro st _ h; exact h
    | succ n ih =>
      intro st hq hr
      rw [loop]
      have hs : (∀ e ∈ (step W ('.' :: '/' :: p) cmd st).queue, e ∈ es) ∧ (step W ('.' :: '/' :: p) cmd st).runs = [] := by
        unfold step
        cases hqq : st.queue with
        | nil => exact ⟨fun e he => hq e he, hr⟩
        | cons e q =>
          have he : hit W ('.' :: '/' :: p) e = false := hno e (hq e (by rw [hqq]; exact List.mem_cons_self ..))
          simp only [he]
          exact ⟨fun x hx => hq x (by rw [hqq]; exact List.mem_cons_of_mem _ hx), hr⟩
      exact ih _ hs.1 hs.2
  exact this n _ (fun e he => he) rfl

/-- `trigger './a.rs' make`, with a pattern that is a text. -/
example (n : Nat) : (loop { exWorld with glob := fun p s => p == s } c!"./a.rs" c!"make" n (start [⟨0, false, [c!"./a.rs"]⟩])).runs = [] := by
  refine C138_dot_violated _ c!"a.rs" _ ?_ _ ?_ n
  · intro s hs
    have : c!"./a.rs" = s := by simpa using hs
    exact ⟨c!"a.rs", this.symm⟩
  · intro e he x hx
    rw [List.mem_singleton] at he
    subst he
    rw [List.mem_singleton] at hx
    subst hx
    exact ⟨c!"a.rs", rfl, fun t' h => by cases h⟩

theorem joinWith_append (sep : Str) : ∀ (l r : List Str), l ≠ [] → r ≠ [] →
    joinWith sep (l ++ r) = joinWith sep l ++ sep ++ joinWith sep r := by
  intro l
  induction l with
  | nil => intro r h; exact absurd rfl h
  | cons a l ih =>
    intro r _ hr
    cases l with
    | nil =>
      cases r with
      | nil => exact absurd rfl hr
      | cons b r => simp [joinWith]
    | cons b l =>
      have := ih r (by simp) hr
      simp only [List.cons_append, joinWith] at this ⊢
      rw [this]
      simp

/-- **C138 fails for words with blanks.** The command with a quoted word `a b` is run as the command with the two words. -/
theorem C138_quotes_violated (l r : List Str) (a b : Str) :
    cmdLine (l ++ [a ++ ' ' :: b] ++ r) = cmdLine (l ++ [a, b] ++ r) := by
  have h1 : ∀ r : List Str, joinWith [' '] ((a ++ ' ' :: b) :: r) = joinWith [' '] (a :: b :: r) := by
    intro r
    cases r <;> simp [joinWith]
  unfold cmdLine
  rw [List.append_assoc, List.append_assoc]
  cases l with
  | nil => exact h1 r
  | cons x l =>
    rw [joinWith_append _ (x :: l) ([a ++ ' ' :: b] ++ r) (by simp) (by simp), joinWith_append _ (x :: l) ([a, b] ++ r) (by simp) (by simp)]
    congr 1
    exact h1 r

/-- `trigger '*.rs' grep "a b" f`. -/
example : cmdLine [c!"grep", c!"a b", c!"f"] = c!"grep a b f" := by decide

end Dsh.Trig
