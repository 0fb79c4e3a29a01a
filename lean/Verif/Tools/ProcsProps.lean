import Verif.Tools.Procs
/-!
# `procs`: theorems

C159: signals go to the process that is highlighted.
-/
namespace Dsh.Procs

/-- The filter shown is contained in the name, without regard to case. -/
def Matches (low : Str → Str) (filter name : Str) : Prop := filter = [] ∨ ∃ a b, low name = a ++ (low filter ++ b)

theorem contains_iff (needle : Str) : ∀ s, contains needle s = true ↔ ∃ a b, s = a ++ (needle ++ b) := by
  intro s
  induction s with
  | nil =>
    simp only [contains, List.isEmpty_iff]
    constructor
    · rintro rfl; exact ⟨[], [], rfl⟩
    · rintro ⟨a, b, h⟩
      have := congrArg List.length h
      simp only [List.length_nil, List.length_append] at this
      exact List.length_eq_zero_iff.1 (by omega)
  | cons c s ih =>
    simp only [contains, Bool.or_eq_true, ih]
    constructor
    · rintro (h | ⟨a, b, rfl⟩)
      · obtain ⟨b, hb⟩ := List.isPrefixOf_iff_prefix.1 h
        exact ⟨[], b, hb.symm⟩
      · exact ⟨c :: a, b, rfl⟩
    · rintro ⟨a, b, h⟩
      cases a with
      | nil => exact .inl (List.isPrefixOf_iff_prefix.2 ⟨b, h.symm⟩)
      | cons d a => injection h with h1 h2; exact .inr ⟨a, b, h2⟩

/-- What the table must be for a report of the system: the processes that match the filter, the busiest first, one of them highlighted if there are any. -/
structure Table (low : Str → Str) (snap : List Proc) (a : App) : Prop where
  shown : ∀ p, Matches low a.filter p.name → a.procs.count p = snap.count p
  only : ∀ p ∈ a.procs, Matches low a.filter p.name
  sorted : a.procs.Pairwise fun p q => q.cpu ≤ p.cpu
  highlighted : (a.procs = [] ∧ a.sel = none) ∨ ∃ i, a.sel = some i ∧ i < a.procs.length


theorem rows_facts (low : Str → Str) (filter : Str) (snap : List Proc) :
    (∀ p, Matches low filter p.name → (rows low filter snap).count p = snap.count p) ∧ (∀ p ∈ rows low filter snap, Matches low filter p.name) ∧
    (rows low filter snap).Pairwise fun p q => q.cpu ≤ p.cpu := by
  have hperm := sortBy_perm (fun a b : Proc => decide (b.cpu ≤ a.cpu)) snap
  have hsort : (sortBy (fun a b : Proc => decide (b.cpu ≤ a.cpu)) snap).Pairwise fun p q => q.cpu ≤ p.cpu := by
    have := sortBy_sorted (fun a b : Proc => decide (b.cpu ≤ a.cpu)) (by simp only [decide_eq_true_eq]; intros; omega)
      (by intro a b; simp only [Bool.or_eq_true, decide_eq_true_eq]; omega) snap
    simpa using this
  unfold rows
  simp only
  split
  · next he =>
    have he : filter = [] := List.isEmpty_iff.1 he
    exact ⟨fun p _ => hperm.count_eq p, fun p _ => .inl he, hsort⟩
  · next he =>
    have he : filter ≠ [] := fun h => he (List.isEmpty_iff.2 h)
    refine ⟨fun p hp => ?_, fun p hp => ?_, hsort.filter _⟩
    · rw [List.count_filter, hperm.count_eq]
      rcases hp with h | h
      · exact absurd h he
      · exact (contains_iff _ _).2 h
    · exact .inr ((contains_iff _ _).1 (List.mem_filter.1 hp).2)

theorem table_refresh (low : Str → Str) (a : App) (snap : List Proc) : Table low snap (a.refresh low snap) := by
  obtain ⟨h1, h2, h3⟩ := rows_facts low a.filter snap
  refine ⟨h1, h2, h3, ?_⟩
  show ((rows low a.filter snap) = [] ∧ adjust (rows low a.filter snap).length a.sel = none) ∨
    ∃ i, adjust (rows low a.filter snap).length a.sel = some i ∧ i < (rows low a.filter snap).length
  generalize rows low a.filter snap = ps
  cases ps with
  | nil => left; cases a.sel <;> simp [adjust]
  | cons p ps =>
    right
    cases a.sel with
    | none => exact ⟨0, by simp [adjust], by simp⟩
    | some i =>
      by_cases h : i ≥ (p :: ps).length
      · refine ⟨(p :: ps).length - 1, ?_, by simp⟩
        simp only [adjust, h, if_true]
        rw [if_neg (by simp)]
      · exact ⟨i, by simp only [adjust, h, if_false], by omega⟩

theorem table_move {low : Str → Str} {snap : List Proc} {a : App} (h : Table low snap a) {i : Nat} (hi : i < a.procs.length) (t : Bool) :
    Table low snap { a with sel := some i, typing := t } := ⟨h.shown, h.only, h.sorted, .inr ⟨i, rfl, hi⟩⟩

theorem table_next {low : Str → Str} {snap : List Proc} {a : App} (h : Table low snap a) : Table low snap a.next := by
  unfold App.next
  split
  · exact h
  · next he =>
    have hl : 0 < a.procs.length := List.length_pos_iff.2 fun h0 => he (List.isEmpty_iff.2 h0)
    apply table_move h
    split
    · split <;> omega
    · exact hl

theorem table_previous {low : Str → Str} {snap : List Proc} {a : App} (h : Table low snap a) : Table low snap a.previous := by
  unfold App.previous
  split
  · exact h
  · next he =>
    have hl : 0 < a.procs.length := List.length_pos_iff.2 fun h0 => he (List.isEmpty_iff.2 h0)
    apply table_move h
    split
    · next i hi =>
      split
      · omega
      · rcases h.highlighted with ⟨h0, _⟩ | ⟨j, hj, hlt⟩
        · rw [h0] at hl; simp at hl
        · rw [hi] at hj; cases hj; omega
    · exact hl

theorem table_typing {low : Str → Str} {snap : List Proc} {a : App} (h : Table low snap a) (t : Bool) : Table low snap { a with typing := t } :=
  ⟨h.shown, h.only, h.sorted, h.highlighted⟩

theorem table_key (low : Str → Str) {snap : List Proc} {a : App} (h : Table low snap a) (new : List Proc) (k : Key) :
    Table low snap (a.key low new k).1 ∨ Table low new (a.key low new k).1 := by
  unfold App.key
  split
  · split
    · exact .inl (table_typing h _)
    · exact .inr (table_refresh ..)
    · exact .inr (table_refresh ..)
    · exact .inr (table_refresh ..)
    · exact .inl h
  · left
    split
    · exact h
    · exact table_next h
    · exact table_previous h
    · split
      · exact h
      · split
        · exact table_next h
        · split
          · exact table_previous h
          · split
            · exact table_typing h _
            · split
              · exact h
              · split
                · exact h
                · exact h
    · exact h

/-- The reports of a turn. -/
def Turn.reports (t : Turn) : List (List Proc) := t.snap :: t.tick.toList

theorem table_turn (low : Str → Str) {snap : List Proc} {a : App} (h : Table low snap a) (t : Turn) :
    ∃ s, s ∈ snap :: t.reports ∧ Table low s (a.turn low t).1 := by
  have hk : ∃ s, s ∈ [snap, t.snap] ∧ Table low s (match t.key with | some k => (a.key low t.snap k).1 | none => a) := by
    split
    · rcases table_key low h t.snap _ with h | h
      · exact ⟨snap, by simp, h⟩
      · exact ⟨t.snap, by simp, h⟩
    · exact ⟨snap, by simp, h⟩
  obtain ⟨s, hs, hk⟩ := hk
  have he : (a.turn low t).1 = (match t.key with | some k => (a.key low t.snap k).1 | none => a).tick low t.tick := by
    unfold App.turn
    cases t.key <;> rfl
  rw [he]
  cases ht : t.tick with
  | none => exact ⟨s, by simp only [Turn.reports, List.mem_cons] at hs ⊢; grind, hk⟩
  | some new => exact ⟨new, by simp [Turn.reports, ht], table_refresh ..⟩

theorem run_table (low : Str → Str) : ∀ (ts : List Turn) (a : App) (reports : List (List Proc)) (snap : List Proc), snap ∈ reports → Table low snap a →
    ∀ r ∈ run low a ts, ∃ s, s ∈ reports ++ ts.flatMap Turn.reports ∧ Table low s r.1 := by
  intro ts
  induction ts with
  | nil => intro a reports snap _ _ r hr; cases hr
  | cons t ts ih =>
    intro a reports snap hs h r hr
    rw [run] at hr
    rcases List.mem_cons.1 hr with rfl | hr
    · exact ⟨snap, by simp [hs], h⟩
    · split at hr
      · cases hr
      · obtain ⟨s, hm, ht⟩ := table_turn low h t
        obtain ⟨s', hm', h'⟩ := ih _ (reports ++ t.reports) s (by
          rcases List.mem_cons.1 hm with rfl | hm
          · simp [hs]
          · simp [hm]) ht r hr
        exact ⟨s', by simpa using hm', h'⟩

/-- **C159 (partial).** Every table drawn shows, of one report of the system, exactly the processes that match the filter, the busiest first, with one of them
highlighted. -/
theorem C159_table_partial (low : Str → Str) (snap : List Proc) (ts : List Turn) : ∀ r ∈ run low (.start low snap) ts,
    ∃ s, s ∈ snap :: ts.flatMap Turn.reports ∧ Table low s r.1 := by
  intro r hr
  obtain ⟨s, hs, h⟩ := run_table low ts (.start low snap) [snap] snap (by simp) (table_refresh ..) r hr
  exact ⟨s, by simpa using hs, h⟩

theorem run_turn (low : Str → Str) : ∀ (ts : List Turn) (a : App), ∀ r ∈ run low a ts, ∃ t ∈ ts, r.2.1 = t.key ∧ r.2.2 = (r.1.turn low t).2 := by
  intro ts
  induction ts with
  | nil => intro a r hr; cases hr
  | cons t ts ih =>
    intro a r hr
    rw [run] at hr
    rcases List.mem_cons.1 hr with rfl | hr
    · exact ⟨t, by simp, rfl, rfl⟩
    · split at hr
      · cases hr
      · obtain ⟨t', ht', h⟩ := ih _ r hr
        exact ⟨t', by simp [ht'], h⟩

/-- **C159 (partial).** A signal goes to the process highlighted on the table drawn last, and is the one of the key pressed; while a filter is typed there
are none. -/
theorem C159_signal_partial (low : Str → Str) (snap : List Proc) (ts : List Turn) (a : App) (k : Option Key) (e : Eff)
    (h : (a, k, e) ∈ run low (.start low snap) ts) (pid : Nat) (s : Signal) :
    e = .signal pid s ↔ a.typing = false ∧ (∃ i p, a.sel = some i ∧ a.procs[i]? = some p ∧ p.pid = pid) ∧
      ∃ key, k = some key ∧ key.code = .char (match s with | .term => 'x' | .kill => 'X') := by
  obtain ⟨t, -, h1, h2⟩ := run_turn low ts _ _ h
  simp only at h1 h2
  subst h1 h2
  have hk : ∀ s', a.kill s' = .signal pid s ↔ s' = s ∧ ∃ i p, a.sel = some i ∧ a.procs[i]? = some p ∧ p.pid = pid := by
    intro s'
    unfold App.kill
    cases hsel : a.sel with
    | none => simp
    | some i =>
      cases hp : a.procs[i]? with
      | none => simp [hp]
      | some p => simp [hp, and_comm]
  unfold App.turn
  cases hkey : t.key with
  | none => simp
  | some key =>
    simp only [Option.some.injEq, exists_eq_left']
    unfold App.key
    by_cases hty : a.typing = true
    · rw [if_pos hty]
      simp only [hty, Bool.true_eq_false, false_and, iff_false]
      split <;> simp
    · rw [if_neg hty]
      have hty' : a.typing = false := by simpa using hty
      simp only [hty', true_and]
      cases hc : key.code with
      | char c =>
        simp only [Code.char.injEq]
        by_cases h1 : c = 'q'
        · subst h1; cases s <;> simp
        · by_cases h2 : c = 'j'
          · subst h2; cases s <;> simp
          · by_cases h3 : c = 'k'
            · subst h3; cases s <;> simp
            · by_cases h4 : c = '/'
              · subst h4; cases s <;> simp
              · by_cases h5 : c = 'x'
                · subst h5; cases s <;> simp [hk]
                · by_cases h6 : c = 'X'
                  · subst h6; cases s <;> simp [hk]
                  · cases s <;> simp [h1, h2, h3, h4, h5, h6]
      | _ => simp

theorem next_iter (n : Nat) : ∀ (a : App) (i : Nat), a.sel = some i → i < a.procs.length →
    (Nat.repeat App.next n a).procs = a.procs ∧ (Nat.repeat App.next n a).sel = some ((i + n) % a.procs.length) := by
  induction n with
  | zero => intro a i h hi; exact ⟨rfl, by rw [Nat.repeat, h, Nat.add_zero, Nat.mod_eq_of_lt hi]⟩
  | succ n ih =>
    intro a i h hi
    obtain ⟨hp, hs⟩ := ih a i h hi
    rw [Nat.repeat]
    revert hp hs
    generalize Nat.repeat App.next n a = b
    intro hp hs
    have hne : b.procs.isEmpty = false := by
      rw [hp]
      cases hq : a.procs with
      | nil => rw [hq] at hi; simp at hi
      | cons => rfl
    refine ⟨by unfold App.next; rw [hne]; exact hp, ?_⟩
    unfold App.next
    rw [hne]
    simp only [Bool.false_eq_true, if_false, hs, hp]
    have hlt : (i + n) % a.procs.length < a.procs.length := Nat.mod_lt _ (by omega)
    congr 1
    split
    · have hm : (i + n) % a.procs.length = a.procs.length - 1 := by omega
      rw [← Nat.add_assoc, Nat.add_mod, hm]
      by_cases h1 : a.procs.length = 1
      · rw [h1]
      · rw [Nat.mod_eq_of_lt (a := 1) (by omega)]
        rw [show a.procs.length - 1 + 1 = a.procs.length by omega, Nat.mod_self]
    · rw [← Nat.add_assoc, Nat.add_mod (i + n) 1, Nat.mod_eq_of_lt (a := 1) (by omega)]
      rw [Nat.mod_eq_of_lt (a := (i + n) % a.procs.length + 1) (by omega)]

/-- **C159 (partial).** Every row can be highlighted with the key `j` alone. -/
theorem C159_reach_partial (low : Str → Str) (snap : List Proc) (a : App) (h : Table low snap a) (i : Nat) (hi : i < a.procs.length) :
    ∃ n, (Nat.repeat App.next n a).procs = a.procs ∧ (Nat.repeat App.next n a).sel = some i := by
  rcases h.highlighted with ⟨h0, -⟩ | ⟨j, hj, hlt⟩
  · rw [h0] at hi; simp at hi
  · refine ⟨a.procs.length - j + i, (next_iter _ a j hj hlt).1, ?_⟩
    rw [(next_iter _ a j hj hlt).2, show j + (a.procs.length - j + i) = a.procs.length + i by omega, Nat.add_mod_left, Nat.mod_eq_of_lt hi]

/-- **C159 (violated).** The highlight stays on its row, not on its process: `p` is highlighted, no key is pressed, `q` becomes busier than `p`, and `x` now
ends `q`. -/
theorem C159_row_violated (low : Str → Str) (p q : Nat) (pn qn : Str) (hpq : p ≠ q) :
    ∃ a b, run low (.start low [⟨p, pn, 2⟩, ⟨q, qn, 1⟩]) [⟨none, [], some [⟨p, pn, 1⟩, ⟨q, qn, 2⟩]⟩, ⟨some ⟨.char 'x', false⟩, [], none⟩] =
      [(a, none, .none), (b, some ⟨.char 'x', false⟩, .signal q .term)] ∧
    (a.sel.bind fun i => a.procs[i]?).map Proc.pid = some p ∧ (b.sel.bind fun i => b.procs[i]?).map Proc.pid = some q ∧ p ∈ b.procs.map Proc.pid ∧ p ≠ q :=
  ⟨_, _, rfl, rfl, rfl, by simp [App.turn, App.tick, App.refresh, App.start, rows, sortBy, insertBy], hpq⟩

/-- **C159 (violated).** Keys pressed with Ctrl are taken for the letters: Ctrl-X ends a process, and Ctrl-C does not leave the program. -/
theorem C159_control_violated (low : Str → Str) (a : App) (snap : List Proc) (c : Code) :
    a.key low snap ⟨c, true⟩ = a.key low snap ⟨c, false⟩ ∧ (a.key low snap ⟨.char 'c', true⟩).2 ≠ .quit := by
  refine ⟨rfl, ?_⟩
  unfold App.key
  cases a.typing <;> simp

example : run id (.start id [⟨1, c!"init", 0⟩, ⟨2, c!"sh", 5⟩]) [⟨some ⟨.char 'j', false⟩, [], none⟩, ⟨some ⟨.char 'X', false⟩, [], none⟩, ⟨some ⟨.esc, false⟩, [], none⟩] =
    [({ procs := [⟨2, c!"sh", 5⟩, ⟨1, c!"init", 0⟩], sel := some 0 }, some ⟨.char 'j', false⟩, .none),
     ({ procs := [⟨2, c!"sh", 5⟩, ⟨1, c!"init", 0⟩], sel := some 1 }, some ⟨.char 'X', false⟩, .signal 1 .kill),
     ({ procs := [⟨2, c!"sh", 5⟩, ⟨1, c!"init", 0⟩], sel := some 1 }, some ⟨.esc, false⟩, .quit)] := by decide

end Dsh.Procs
