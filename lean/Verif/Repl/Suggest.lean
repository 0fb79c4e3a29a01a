import Verif.Util

/-!
# Inline suggestions: the candidates and rotating through them

`dsh/src/repl/suggestion_manager.rs`, and how the candidates are collected
(`dsh/src/suggestion.rs: predict`, `dsh/src/repl/repl_ai.rs: refresh_inline_suggestion`).

Simplified: the sources (history, files, the AI backend, names of commands) are arbitrary answers;
the two short-lived caches in front of them are part of these answers.  Indexes are natural numbers
(no overflow of `isize`).
-/

namespace Dsh.Inline

abbrev Str := List Char

/-- `SuggestionSource` (suggestion.rs:67-71). -/
inductive Src
  | history | ai | completion
  deriving DecidableEq, Repr

/-- `SuggestionState` (suggestion.rs:74-77). -/
structure Sug where
  full : Str
  src : Src
  deriving DecidableEq, Repr

/-- `SuggestionManager` without the engine (suggestion_manager.rs:3-8). -/
structure Mgr where
  active : Option Sug := none
  cands : List Sug := []
  index : Nat := 0
  deriving DecidableEq, Repr

/-- `clear` (suggestion_manager.rs:24-28). -/
def clear (_ : Mgr) : Mgr := {}

/-- `rotate` (suggestion_manager.rs:30-47); `%` of Rust rounds towards zero. -/
def rotate (m : Mgr) (step : Int) : Mgr × Bool :=
  let len : Int := m.cands.length
  if m.cands.length ≤ 1 then (m, false)
  else
    let r := ((m.index : Int) + step).tmod len
    let next := (if r < 0 then r + len else r).toNat
    if next = m.index then (m, false)
    else ({ m with index := next, active := m.cands[next]? }, true)

/-- `dedup_by` after a kept element: only neighbours are compared. -/
def dedupGo (last : Sug) : List Sug → List Sug
  | [] => []
  | a :: l => if a.full = last.full ∧ a.src = last.src then dedupGo last l else a :: dedupGo a l

/-- `Vec::dedup_by` with the closure of suggestion_manager.rs:50. -/
def dedup : List Sug → List Sug
  | [] => []
  | a :: l => a :: dedupGo a l

/-- `update_candidates` (suggestion_manager.rs:49-65), without the answer. -/
def update (m : Mgr) (cands : List Sug) : Mgr :=
  let cs := dedup cands
  if cs = [] then clear m
  else
    let m := if cs ≠ m.cands then { m with cands := cs, index := 0 } else m
    { m with active := m.cands[m.index]? }

/-- `suffix` (suggestion_manager.rs:67-73). -/
def suffix (m : Mgr) (input : Str) : Option Str :=
  match m.active with
  | none => none
  | some s => if input.isPrefixOf s.full && decide (input.length < s.full.length) then some (s.full.drop input.length) else none

/-- The answers of the sources for one line: history, files for the last word, the AI (an answer kept
from before, a new one, and one with more context), and the completion of the word at the caret. -/
structure Answers where
  history : Option Str := none
  files : Option Str := none
  aiKept : Option Str := none
  aiNew : Option Str := none
  aiContext : Option Str := none
  word : Option Str := none
  /-- `ai_backfill` -/
  backfill : Bool := false
  /-- `in_blocklist` -/
  blocked : Bool := false

/-- `predict` for a line that is not empty (suggestion.rs:214-299). -/
def predict (a : Answers) : List Sug :=
  let s := match a.history with
    | some h => [⟨h, .history⟩]
    | none => match a.files with
      | some f => [⟨f, .completion⟩]
      | none => []
  if s ≠ [] then s
  else if a.blocked then s
  else if a.backfill then
    let s := s ++ (a.aiKept.map fun k => (⟨k, .ai⟩ : Sug)).toList
    match a.aiNew with
    | some n => if s.any (fun e => e.full = n && e.src = .ai) then s else s ++ [⟨n, .ai⟩]
    | none => s
  else s

/-- The list `refresh_inline_suggestion` collects (repl_ai.rs:83-122). -/
def collect (a : Answers) : List Sug :=
  let c := predict a
  let c := if c.isEmpty && a.backfill then c ++ (a.aiContext.map fun k => (⟨k, .ai⟩ : Sug)).toList else c
  match a.word with
  | some w => if c.any (fun e => e.full = w && e.src = .completion) then c else c ++ [⟨w, .completion⟩]
  | none => c

/-! ## Every sequence of key presses and refreshes -/

/-- What happens to the suggestions. -/
inductive Ev
  | refresh (cands : List Sug)
  | rotate (step : Int)
  | clear

def Mgr.ev (m : Mgr) : Ev → Mgr
  | .refresh c => update m c
  | .rotate s => (rotate m s).1
  | .clear => clear m

def Mgr.evs (m : Mgr) (l : List Ev) : Mgr := l.foldl Mgr.ev m

/-- The selected suggestion is one of the candidates, or there are none. -/
def Valid (m : Mgr) : Prop :=
  (m.cands = [] ∧ m.active = none ∧ m.index = 0) ∨ (m.index < m.cands.length ∧ m.active = m.cands[m.index]?)

theorem next_lt {i len : Nat} {step : Int} (h : 1 < len) :
    (if ((i : Int) + step).tmod len < 0 then ((i : Int) + step).tmod len + len else ((i : Int) + step).tmod len).toNat =
      (((i : Int) + step) % (len : Int)).toNat := by
  have hl : (0 : Int) < len := by omega
  congr 1
  rw [Int.tmod_eq_emod]
  have e1 := Int.emod_nonneg ((i : Int) + step) (show (len : Int) ≠ 0 by omega)
  have e2 := Int.emod_lt_of_pos ((i : Int) + step) hl
  split
  · rw [if_neg (by omega)]; omega
  · rename_i hn
    simp only [not_or] at hn
    have h0 : ((i : Int) + step) % (len : Int) ≠ 0 := fun h0 => hn.2 (Int.dvd_of_emod_eq_zero h0)
    rw [if_pos (by omega)]; omega

theorem next_lt' {i len : Nat} {step : Int} (h : 1 < len) : (((i : Int) + step) % (len : Int)).toNat < len := by
  have e1 := Int.emod_nonneg ((i : Int) + step) (show (len : Int) ≠ 0 by omega)
  have e2 := Int.emod_lt_of_pos ((i : Int) + step) (show (0 : Int) < len by omega)
  omega

theorem Valid.ev {m : Mgr} (h : Valid m) (e : Ev) : Valid (m.ev e) := by
  cases e with
  | clear => exact .inl ⟨rfl, rfl, rfl⟩
  | rotate s =>
    show Valid (rotate m s).1
    unfold rotate
    dsimp only
    by_cases h1 : m.cands.length ≤ 1
    · rw [if_pos h1]; exact h
    · rw [if_neg h1, next_lt (by omega)]
      split
      · exact h
      · exact .inr ⟨next_lt' (by omega), rfl⟩
  | refresh c =>
    show Valid (update m c)
    unfold update
    dsimp only
    by_cases h1 : dedup c = []
    · rw [if_pos h1]; exact .inl ⟨rfl, rfl, rfl⟩
    · rw [if_neg h1]
      by_cases h2 : dedup c = m.cands
      · rw [if_neg (by simpa using h2)]
        rcases h with h | h
        · exact absurd (h2.trans h.1) h1
        · exact .inr ⟨h.1, rfl⟩
      · rw [if_pos h2]
        exact .inr ⟨List.length_pos_iff.2 h1, rfl⟩

theorem valid_evs (l : List Ev) {m : Mgr} (h : Valid m) : Valid (m.evs l) := by
  induction l generalizing m with
  | nil => exact h
  | cons e l ih => exact ih (h.ev e)

/-- C43: after every sequence of refreshes, rotations and clearings the selected suggestion is one of
the candidates; there is none only if there are no candidates. -/
theorem C43_valid (l : List Ev) :
    (({} : Mgr).evs l).cands ≠ [] → ∃ c, (({} : Mgr).evs l).active = some c ∧ (({} : Mgr).evs l).cands[(({} : Mgr).evs l).index]? = some c := by
  intro h
  rcases valid_evs l (m := {}) (.inl ⟨rfl, rfl, rfl⟩) with h' | h'
  · exact absurd h'.1 h
  · refine ⟨_, ?_, List.getElem?_eq_getElem h'.1⟩
    exact h'.2.trans (List.getElem?_eq_getElem h'.1)

/-- Pressing a rotation key `k` times. -/
def presses (m : Mgr) (step : Int) : Nat → Mgr
  | 0 => m
  | k + 1 => (rotate (presses m step k) step).1

theorem rotate_cands (m : Mgr) (s : Int) : (rotate m s).1.cands = m.cands := by
  unfold rotate; dsimp only
  by_cases h1 : m.cands.length ≤ 1
  · rw [if_pos h1]
  · rw [if_neg h1]
    generalize Int.toNat (if ((m.index : Int) + s).tmod m.cands.length < 0 then _ else _) = n
    by_cases h2 : n = m.index
    · rw [if_pos h2]
    · rw [if_neg h2]

theorem presses_cands (m : Mgr) (s : Int) (k : Nat) : (presses m s k).cands = m.cands := by
  induction k with
  | zero => rfl
  | succ k ih => rw [presses, rotate_cands, ih]

theorem rotate_index {m : Mgr} (h : m.index < m.cands.length) (s : Int) :
    ((rotate m s).1.index : Int) = (m.index + s) % m.cands.length := by
  unfold rotate; dsimp only
  have e1 := Int.emod_nonneg ((m.index : Int) + s) (show (m.cands.length : Int) ≠ 0 by omega)
  by_cases h1 : m.cands.length ≤ 1
  · rw [if_pos h1]
    have : m.cands.length = 1 := by omega
    rw [this]; simp only [Int.natCast_one, Int.emod_one]; omega
  · rw [if_neg h1, next_lt (by omega)]
    split
    · rename_i h2; simp only; omega
    · simp only; omega

theorem presses_index {m : Mgr} (h : m.index < m.cands.length) (s : Int) (k : Nat) :
    ((presses m s k).index : Int) = (m.index + s * k) % m.cands.length := by
  induction k with
  | zero =>
    simp only [presses, Int.natCast_zero, Int.mul_zero, Int.add_zero]
    exact (Int.emod_eq_of_lt (by omega) (by omega)).symm
  | succ k ih =>
    have hlt : (presses m s k).index < (presses m s k).cands.length := by
      rw [presses_cands]
      have := Int.emod_lt_of_pos ((m.index : Int) + s * k) (show (0 : Int) < m.cands.length by omega)
      omega
    rw [presses, rotate_index hlt, presses_cands, ih, Int.emod_add_emod]
    congr 1
    rw [Int.natCast_succ, Int.mul_add]; omega

theorem presses_valid {m : Mgr} (h : Valid m) (s : Int) (k : Nat) : Valid (presses m s k) := by
  induction k with
  | zero => exact h
  | succ k ih => exact ih.ev (.rotate s)

/-- C43: as many presses as there are candidates show every position exactly once, in both
directions, and the next press starts again; a press in the other direction undoes a press. -/
theorem C43_rotation_partial (l : List Ev) (m : Mgr) (hm : m = ({} : Mgr).evs l) (s : Int) (hs : s = 1 ∨ s = -1) :
    (∀ j, j < m.cands.length → ∃ k, k < m.cands.length ∧ (presses m s k).active = m.cands[j]? ∧ (presses m s k).index = j ∧
      ∀ k', k' < m.cands.length → (presses m s k').index = j → k' = k) ∧
    presses m s m.cands.length = m ∧
    (rotate (rotate m s).1 (-s)).1 = m := by
  have hv : Valid m := hm ▸ valid_evs l (m := {}) (.inl ⟨rfl, rfl, rfl⟩)
  rcases hv with ⟨h0, ha, hi⟩ | ⟨hlt, ha⟩
  · have hm0 : m = {} := by cases m; simp_all
    subst hm0
    refine ⟨fun j hj => absurd hj (by simp), rfl, ?_⟩
    simp [rotate]
  · have hpos : (0 : Int) < m.cands.length := by omega
    have ext : ∀ m' : Mgr, Valid m' → m'.cands = m.cands → m'.index = m.index → m' = m := by
      intro m' h1 h2 h3
      rcases h1 with h1 | h1
      · rw [h2] at h1; rw [h1.1] at hlt; exact absurd hlt (by simp)
      · have : m'.active = m.active := by rw [h1.2, ha, h2, h3]
        cases m; cases m'; simp_all
    have hvm : Valid m := .inr ⟨hlt, ha⟩
    refine ⟨?_, ?_, ?_⟩
    · intro j hj
      -- the number of presses to get from the index to `j`
      have hk : ∃ k : Nat, k < m.cands.length ∧ ((m.index : Int) + s * k) % m.cands.length = j := by
        refine ⟨((s * ((j : Int) - m.index)) % m.cands.length).toNat, ?_, ?_⟩
        · have := Int.emod_lt_of_pos (s * ((j : Int) - m.index)) hpos
          have := Int.emod_nonneg (s * ((j : Int) - m.index)) (show (m.cands.length : Int) ≠ 0 by omega)
          omega
        · rw [Int.toNat_of_nonneg (Int.emod_nonneg _ (by omega))]
          rw [← Int.add_emod_emod, Int.mul_emod, Int.emod_emod, ← Int.mul_emod, Int.add_emod_emod]
          have : (m.index : Int) + s * (s * ((j : Int) - m.index)) = j := by
            rcases hs with rfl | rfl <;> omega
          rw [this]
          exact Int.emod_eq_of_lt (by omega) (by omega)
      obtain ⟨k, hk1, hk2⟩ := hk
      have hidx : (presses m s k).index = j := by
        have := presses_index hlt s k
        rw [hk2] at this
        exact_mod_cast this
      refine ⟨k, hk1, ?_, hidx, ?_⟩
      · rcases presses_valid hvm s k with h' | h'
        · rw [presses_cands] at h'; rw [h'.1] at hlt; exact absurd hlt (by simp)
        · rw [h'.2, presses_cands, hidx]
      · intro k' hk' he
        have h1 := presses_index hlt s k'
        rw [he] at h1
        rw [h1] at hk2
        -- two numbers of presses below the length with the same effect are equal
        have hd : (m.cands.length : Int) ∣ s * k - s * k' := by
          have := Int.emod_emod_of_dvd
          have h3 := Int.emod_eq_emod_iff_emod_sub_eq_zero.1 hk2
          have h4 : (m.index : Int) + s * k - (m.index + s * k') = s * k - s * k' := by omega
          rw [h4] at h3
          exact Int.dvd_of_emod_eq_zero h3
        have hd' : (m.cands.length : Int) ∣ (k : Int) - k' := by
          rcases hs with rfl | rfl
          · simpa using hd
          · have := (Int.dvd_neg).2 hd
            have h5 : -((-1 : Int) * k - -1 * k') = (k : Int) - k' := by omega
            rwa [h5] at this
        rcases Int.lt_trichotomy ((k : Int) - k') 0 with h6 | h6 | h6
        · have := Int.le_of_dvd (by omega) ((Int.dvd_neg).2 hd')
          omega
        · omega
        · have := Int.le_of_dvd h6 hd'
          omega
    · refine ext _ (presses_valid hvm s _) (presses_cands _ _ _) ?_
      have := presses_index hlt s m.cands.length
      rw [Int.add_mul_emod_self_right, Int.emod_eq_of_lt (by omega) (by omega)] at this
      exact_mod_cast this
    · have h1 : (rotate m s).1.index < (rotate m s).1.cands.length := by
        rw [rotate_cands]
        have := rotate_index hlt s
        have := Int.emod_lt_of_pos ((m.index : Int) + s) hpos
        omega
      refine ext _ (Valid.ev (Valid.ev hvm (.rotate s)) (.rotate (-s))) (by rw [rotate_cands, rotate_cands]) ?_
      have h2 := rotate_index h1 (-s)
      rw [rotate_cands, rotate_index hlt s, Int.emod_add_emod] at h2
      have h3 : (m.index : Int) + s + -s = m.index := by omega
      rw [h3, Int.emod_eq_of_lt (by omega) (by omega)] at h2
      exact_mod_cast h2

/-! ## Duplicates -/

theorem dedupGo_id {last : Sug} {l : List Sug} (h : (last :: l).Nodup) : dedupGo last l = l := by
  induction l generalizing last with
  | nil => rfl
  | cons a l ih =>
    rw [dedupGo, if_neg, ih (List.nodup_cons.1 h).2]
    rintro ⟨h1, h2⟩
    have : a = last := by cases a; cases last; simp_all
    subst this
    exact (List.nodup_cons.1 h).1 (by simp)

theorem dedup_id {l : List Sug} (h : l.Nodup) : dedup l = l := by
  cases l with
  | nil => rfl
  | cons a l => rw [dedup, dedupGo_id h]

theorem any_iff {l : List Sug} {t : Str} {s : Src} : l.any (fun e => e.full = t && e.src = s) = true ↔ (⟨t, s⟩ : Sug) ∈ l := by
  rw [List.any_eq_true]
  constructor
  · rintro ⟨x, hx, he⟩
    simp only [Bool.and_eq_true, decide_eq_true_eq] at he
    have : x = ⟨t, s⟩ := by cases x; simp_all
    exact this ▸ hx
  · intro h; exact ⟨_, h, by simp⟩

theorem nodup_snoc {l : List Sug} {x : Sug} (h : l.Nodup) (hx : x ∉ l) : (l ++ [x]).Nodup := by
  rw [List.nodup_append]
  refine ⟨h, by simp, ?_⟩
  intro a ha b hb he
  simp only [List.mem_singleton] at hb
  exact hx (hb ▸ he ▸ ha)

theorem predict_nodup (a : Answers) : (predict a).Nodup := by
  unfold predict
  cases a.history with
  | some h => simp
  | none => cases a.files with
    | some f => simp
    | none =>
      cases a.blocked <;> cases a.backfill <;> cases a.aiKept <;> cases a.aiNew <;> simp
      rename_i k n
      by_cases h : k = n
      · simp [h]
      · simp [h]

/-- C43: whatever the sources answer, a refresh offers no suggestion twice (as text with its source),
and those that were collected are all kept. -/
theorem C43_collected_partial (a : Answers) (m : Mgr) (h : collect a ≠ []) :
    (update m (collect a)).cands = collect a ∧ (collect a).Nodup := by
  have hn : (collect a).Nodup := by
    unfold collect
    dsimp only
    have h1 : (if (predict a).isEmpty && a.backfill then predict a ++ (a.aiContext.map fun k => (⟨k, .ai⟩ : Sug)).toList
        else predict a).Nodup := by
      split
      · rename_i h1
        simp only [Bool.and_eq_true, List.isEmpty_iff] at h1
        rw [h1.1]; cases a.aiContext <;> simp
      · exact predict_nodup a
    revert h1
    generalize (if (predict a).isEmpty && a.backfill then predict a ++ (a.aiContext.map fun k => (⟨k, .ai⟩ : Sug)).toList
        else predict a) = c
    intro h1
    split
    · split
      · exact h1
      · rename_i hx
        refine nodup_snoc h1 ?_
        intro hm; exact hx (any_iff.2 hm)
    · exact h1
  refine ⟨?_, hn⟩
  unfold update
  dsimp only
  rw [dedup_id hn, if_neg h]
  by_cases h2 : collect a = m.cands
  · rw [if_neg (by simpa using h2)]; exact h2.symm
  · rw [if_pos h2]

/-- C43: what the user sees are texts, and the same text can be offered twice: for every line that
the history and the completion of the last word continue in the same way, both are offered, and the
rotation key changes nothing that is visible. -/
theorem C43_violated (t : Str) (a : Answers) (hh : a.history = some t) (hw : a.word = some t) (m : Mgr) (hm : m.cands ≠ collect a) :
    (update m (collect a)).cands.map (·.full) = [t, t] ∧
    ∀ input, suffix (rotate (update m (collect a)) 1).1 input = suffix (update m (collect a)) input := by
  have hc : collect a = [⟨t, .history⟩, ⟨t, .completion⟩] := by
    unfold collect predict
    simp [hh, hw]
  have hu : update m (collect a) = ⟨some ⟨t, .history⟩, [⟨t, .history⟩, ⟨t, .completion⟩], 0⟩ := by
    rw [hc] at hm ⊢
    unfold update
    dsimp only
    have hd : dedup [⟨t, .history⟩, ⟨t, .completion⟩] = [⟨t, .history⟩, ⟨t, .completion⟩] := dedup_id (by simp)
    rw [hd, if_neg (by simp), if_pos (fun h => hm h.symm)]
    rfl
  rw [hu]
  refine ⟨rfl, fun input => ?_⟩
  rfl

/-- Three candidates: five presses, and back. -/
example :
    let m := update {} [⟨c!"a", .ai⟩, ⟨c!"b", .ai⟩, ⟨c!"b", .completion⟩]
    (presses m 1 5).index = 2 ∧ (presses m (-1) 5).index = 1 ∧ (presses m 1 3) = m ∧
    (update {} [⟨c!"a", .ai⟩, ⟨c!"b", .ai⟩, ⟨c!"a", .ai⟩]).cands.length = 3 := by
  decide

/-- `cat REA`: the history and the file name continue it in the same way. -/
example : (update {} (collect { history := some c!"cat README", word := some c!"cat README" })).cands.map (·.full) =
    [c!"cat README", c!"cat README"] := by decide

end Dsh.Inline
