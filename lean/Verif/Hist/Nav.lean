import Verif.Util
/-!
Walking through the command history with the Up and Down keys (dsh/src/history/command_history.rs,
dsh/src/repl/key_handlers/navigation.rs): C21, C69.

The completion menu is closed and the history is not locked by the writer (in both cases the keys do
not reach this code).  `none` is an arithmetic overflow: the program stops in a debug build; in a
release build the position becomes 2^64 - 1.
-/
namespace Dsh.HistNav

abbrev Str := List Char

/-- The parts of `History` (command_history.rs:62-73) used here; entries oldest first. -/
structure Nav where
  hist : List Str
  idx : Nat
  word : Option Str
deriving DecidableEq, Repr

/-- The loop of `back` (command_history.rs:142-150) at position `i`: what is found and the position. -/
def backLoop (hist : List Str) (w : Str) : Nat → Option (Option Str × Nat)
  | 0 =>
    match hist[0]? with
    | none => some (none, 0)
    | some e => if w.isPrefixOf e then some (some e, 0) else none
  | i + 1 =>
    match hist[i + 1]? with
    | none => some (none, i + 1)
    | some e =>
      if w.isPrefixOf e then some (some e, i + 1)
      else if i = 0 then some (none, 0)
      else backLoop hist w i

/-- `back` (command_history.rs:137-158). -/
def Nav.back (n : Nav) : Option (Option Str × Nav) :=
  match n.idx with
  | 0 => some (none, n)
  | i + 1 =>
    match n.word with
    | some w => (backLoop n.hist w i).map (fun r => (r.1, { n with idx := r.2 }))
    | none => some (n.hist[i]?, { n with idx := i })

/-- The loop of `forward` (command_history.rs:166-171) at position `i`; the list is the entries from
there on. -/
def forwardLoop (w : Str) : List Str → Nat → Option Str × Nat
  | [], i => (none, i)
  | e :: rest, i => if w.isPrefixOf e then (some e, i) else forwardLoop w rest (i + 1)

/-- `forward` (command_history.rs:161-179). -/
def Nav.forward (n : Nav) : Option Str × Nav :=
  if n.idx + 1 < n.hist.length then
    match n.word with
    | some w =>
      let r := forwardLoop w (n.hist.drop (n.idx + 1)) (n.idx + 1)
      (r.1, { n with idx := r.2 })
    | none => (n.hist[n.idx + 1]?, { n with idx := n.idx + 1 })
  else (none, n)

/-- `at_end` (command_history.rs:187-189). -/
def Nav.atEnd (n : Nav) : Bool := n.idx == n.hist.length

/-- `at_latest_entry` (command_history.rs:192-194). -/
def Nav.atLatest (n : Nav) : Bool := n.idx == n.hist.length - 1

/-- The line being edited and the history. -/
structure Prompt where
  nav : Nav
  input : Str
deriving DecidableEq, Repr

/-- An empty input forgets the word searched for (navigation.rs:34-36, 66-68). -/
def forget (input : Str) (word : Option Str) : Option Str := if input.isEmpty then none else word

/-- At the prompt a typed line becomes the word searched for (navigation.rs:40-42). -/
def pickWord (atEnd : Bool) (input : Str) (word : Option Str) : Option Str :=
  if atEnd && word.isNone && !input.isEmpty then some input else word

/-- `handle_history_previous` (navigation.rs:18-49). -/
def up (s : Prompt) : Option Prompt :=
  let w := pickWord s.nav.atEnd s.input (forget s.input s.nav.word)
  (Nav.back { s.nav with word := w }).map (fun r => ⟨r.2, r.1.getD s.input⟩)

/-- `handle_history_next` (navigation.rs:51-92). -/
def down (s : Prompt) : Prompt :=
  let n : Nav := { s.nav with word := forget s.input s.nav.word }
  if n.atEnd then ⟨n, s.input⟩
  else
    match n.forward with
    | (some e, n) => ⟨n, e⟩
    | (none, n) =>
      if n.atLatest then ⟨{ n with idx := n.hist.length }, n.word.getD []⟩ else ⟨n, n.word.getD []⟩

/-- What the user does: Up, Down, any change of the line, or finishing the line
(`stop_history_mode`, repl/mod.rs:603-611; called from execution.rs:67, 240, 344). -/
inductive Key where
  | up
  | down
  | edit (line : Str)
  | finish
deriving DecidableEq, Repr

def step (s : Prompt) : Key → Option Prompt
  | .up => up s
  | .down => some (down s)
  | .edit l => some { s with input := l }
  | .finish => some ⟨⟨s.nav.hist, s.nav.hist.length, none⟩, []⟩

def run (s : Prompt) : List Key → Option Prompt
  | [] => some s
  | k :: ks => (step s k).bind (fun s' => run s' ks)

/-- At the prompt with `line` typed, not navigating. -/
def start (hist : List Str) (line : Str) : Prompt := ⟨⟨hist, hist.length, none⟩, line⟩

/-! ### Specification -/

/-- Entry `i` exists and starts with `w`. -/
def Hits (hist : List Str) (w : Str) (i : Nat) : Prop := ∃ e, hist[i]? = some e ∧ w <+: e

/-- Where a key leads when there is nothing to search for: one step towards the oldest or the newest
entry; `len` is the prompt. -/
def walk (len p : Nat) : Bool → Nat
  | true => p - 1
  | false => min (p + 1) len

def keyOf (b : Bool) : Key := if b then .up else .down

/-! ### Without a word: C21 -/

theorem run_append (s : Prompt) (a b : List Key) : run s (a ++ b) = (run s a).bind (run · b) := by
  induction a generalizing s with
  | nil => rfl
  | cons k a ih =>
    simp only [List.cons_append, run]
    cases step s k with
    | none => rfl
    | some s' => simp [ih]

/-- The state of a walk at position `p`. -/
def plainAt (hist : List Str) (p : Nat) : Prompt := ⟨⟨hist, p, none⟩, (hist[p]?).getD []⟩

theorem plain_step (hist : List Str) {p : Nat} (hp : p ≤ hist.length) (b : Bool) :
    step (plainAt hist p) (keyOf b) = some (plainAt hist (walk hist.length p b)) := by
  have hf : ∀ i : Str, forget i none = none := by intro i; simp [forget]
  cases b with
  | true =>
    simp only [keyOf, if_true, step, up, plainAt, walk, hf, Nav.atEnd]
    have hw : pickWord (p == hist.length) ((hist[p]?).getD []) none = none := by
      unfold pickWord
      split_ifs with h
      · simp only [Bool.and_eq_true, beq_iff_eq] at h
        rw [h.1.1, List.getElem?_eq_none (Nat.le_refl _)] at h
        simp at h
      · rfl
    rw [hw]
    cases p with
    | zero => simp [Nav.back]
    | succ p =>
      have : p < hist.length := by omega
      simp [Nav.back, List.getElem?_eq_getElem this]
  | false =>
    simp only [keyOf, Bool.false_eq_true, if_false, step, down, plainAt, walk, hf, Nav.atEnd]
    by_cases he : p = hist.length
    · simp [he]
    · simp only [beq_iff_eq, he, if_false]
      by_cases h1 : p + 1 < hist.length
      · simp only [Nav.forward, h1, if_true, List.getElem?_eq_getElem h1]
        rw [Nat.min_eq_left (by omega)]
        simp [h1]
      · have : p = hist.length - 1 := by omega
        simp only [Nav.forward, h1, if_false]
        have h2 : min (p + 1) hist.length = hist.length := by omega
        rw [h2]
        simp [Nav.atLatest, this]

/-- **C21, nothing typed.** From an empty prompt every sequence of Up and Down keys moves one entry per
key and shows the entry at the position; past the newest entry the line is empty again; the program
never stops and the position never leaves the history. -/
theorem C21_walk (hist : List Str) (ks : List Bool) :
    run (start hist []) (ks.map keyOf) =
      some (plainAt hist (ks.foldl (walk hist.length) hist.length)) ∧
    ks.foldl (walk hist.length) hist.length ≤ hist.length := by
  suffices h : ∀ p, p ≤ hist.length → run (plainAt hist p) (ks.map keyOf) =
      some (plainAt hist (ks.foldl (walk hist.length) p)) ∧ ks.foldl (walk hist.length) p ≤ hist.length by
    have h0 : start hist [] = plainAt hist hist.length := by simp [start, plainAt]
    rw [h0]
    exact h _ (Nat.le_refl _)
  induction ks with
  | nil => intro p hp; exact ⟨rfl, hp⟩
  | cons b ks ih =>
    intro p hp
    simp only [List.map_cons, run, plain_step hist hp b, Option.bind_some, List.foldl_cons]
    apply ih
    cases b <;> simp only [walk] <;> omega

theorem foldl_ups (len p k : Nat) : (List.replicate k true).foldl (walk len) p = p - k := by
  induction k generalizing p with
  | zero => rfl
  | succ k ih => rw [List.replicate_succ, List.foldl_cons, ih]; simp only [walk]; omega

theorem foldl_downs (len p k : Nat) (hp : p ≤ len) :
    (List.replicate k false).foldl (walk len) p = min (p + k) len := by
  induction k generalizing p with
  | zero => simp; omega
  | succ k ih =>
    rw [List.replicate_succ, List.foldl_cons, ih _ (by simp only [walk]; omega)]
    simp only [walk]; omega

/-- **C21.** The k-th press of Up shows the k-th newest entry. -/
theorem C21_up_order (hist : List Str) (k : Nat) (hk : k < hist.length) :
    (run (start hist []) (List.replicate (k + 1) .up)).map Prompt.input = hist.reverse[k]? := by
  have h := (C21_walk hist (List.replicate (k + 1) true)).1
  rw [List.map_replicate] at h
  simp only [keyOf, if_true] at h
  rw [h, foldl_ups]
  simp only [plainAt, Option.map_some]
  have h1 : hist.length - (k + 1) < hist.length := by omega
  rw [List.getElem?_eq_getElem h1, List.getElem?_reverse hk]
  have h2 : hist.length - 1 - k = hist.length - (k + 1) := by omega
  rw [h2, List.getElem?_eq_getElem h1]
  rfl

/-- **C21.** After k presses of Up, j ≤ k presses of Down show what k - j presses of Up show. -/
theorem C21_down_order (hist : List Str) (k j : Nat) (hk : k ≤ hist.length) (hj : j ≤ k) :
    run (start hist []) (List.replicate k .up ++ List.replicate j .down) =
      run (start hist []) (List.replicate (k - j) .up) := by
  have h1 := (C21_walk hist (List.replicate k true ++ List.replicate j false)).1
  have h2 := (C21_walk hist (List.replicate (k - j) true)).1
  rw [List.map_append, List.map_replicate, List.map_replicate] at h1
  rw [List.map_replicate] at h2
  simp only [keyOf, if_true, Bool.false_eq_true, if_false] at h1 h2
  rw [h1, h2, List.foldl_append, foldl_ups, foldl_ups, foldl_downs _ _ _ (by omega)]
  congr 2
  omega

example : (run (start [c!"a", c!"b", c!"c"] []) [.up, .up, .down]).map Prompt.input = some c!"c" := by decide

/-! ### With a word -/

theorem hits_of {hist : List Str} {w e : Str} {i : Nat} (h : hist[i]? = some e) (hw : w.isPrefixOf e = true) :
    Hits hist w i := ⟨e, h, List.isPrefixOf_iff_prefix.1 hw⟩

theorem not_hits_of {hist : List Str} {w e : Str} {i : Nat} (h : hist[i]? = some e) (hw : ¬ w.isPrefixOf e = true) :
    ¬ Hits hist w i := by
  rintro ⟨e', h1, h2⟩
  rw [h] at h1
  cases h1
  exact hw (List.isPrefixOf_iff_prefix.2 h2)

/-- What the loop of `back` can do from a position inside the history. -/
theorem backLoop_spec (hist : List Str) (w : Str) {i : Nat} (hi : i < hist.length) :
    (∃ m e, backLoop hist w i = some (some e, m) ∧ hist[m]? = some e ∧ w <+: e ∧ m ≤ i ∧ (m = 0 → i = 0) ∧
      ∀ j, m < j → j ≤ i → ¬ Hits hist w j) ∨
    (backLoop hist w i = some (none, 0) ∧ 0 < i ∧ ∀ j, 0 < j → j ≤ i → ¬ Hits hist w j) ∨
    (backLoop hist w i = none ∧ i = 0 ∧ ¬ Hits hist w 0) := by
  induction i with
  | zero =>
    have hg := List.getElem?_eq_getElem hi
    rw [backLoop, hg]
    dsimp only
    split_ifs with h
    · exact .inl ⟨0, _, rfl, hg, List.isPrefixOf_iff_prefix.1 h, Nat.le_refl _, fun _ => rfl, fun j h1 h2 => by omega⟩
    · exact .inr (.inr ⟨rfl, rfl, not_hits_of (List.getElem?_eq_getElem hi) h⟩)
  | succ i ih =>
    have hg := List.getElem?_eq_getElem hi
    rw [backLoop, hg]
    simp only
    by_cases h : w.isPrefixOf hist[i + 1] = true
    · rw [if_pos h]
      exact .inl ⟨i + 1, _, rfl, hg, List.isPrefixOf_iff_prefix.1 h, Nat.le_refl _, fun h => by omega,
        fun j h1 h2 => by omega⟩
    · rw [if_neg h]
      have hn := not_hits_of hg h
      by_cases h0 : i = 0
      · rw [if_pos h0]
        refine .inr (.inl ⟨rfl, by omega, fun j h1 h2 => ?_⟩)
        have : j = i + 1 := by omega
        rw [this]; exact hn
      · rw [if_neg h0]
        rcases ih (by omega) with ⟨m, e, h1, h2, h3, h4, h5, h6⟩ | ⟨h1, h2, h3⟩ | ⟨h1, h2, h3⟩
        · refine .inl ⟨m, e, h1, h2, h3, by omega, fun h => absurd (h5 h) h0, fun j a b => ?_⟩
          by_cases hj : j = i + 1
          · rw [hj]; exact hn
          · exact h6 j a (by omega)
        · refine .inr (.inl ⟨h1, by omega, fun j a b => ?_⟩)
          by_cases hj : j = i + 1
          · rw [hj]; exact hn
          · exact h3 j a (by omega)
        · exact absurd h2 h0

theorem forwardLoop_spec (hist : List Str) (w : Str) {i : Nat} (hi : i ≤ hist.length) :
    (∃ m e, forwardLoop w (hist.drop i) i = (some e, m) ∧ hist[m]? = some e ∧ w <+: e ∧ i ≤ m ∧
      ∀ j, i ≤ j → j < m → ¬ Hits hist w j) ∨
    (forwardLoop w (hist.drop i) i = (none, hist.length) ∧ ∀ j, i ≤ j → ¬ Hits hist w j) := by
  generalize hd : hist.length - i = d
  induction d generalizing i with
  | zero =>
    have : i = hist.length := by omega
    rw [this, List.drop_length]
    refine .inr ⟨rfl, fun j hj => ?_⟩
    rintro ⟨e, h1, _⟩
    rw [List.getElem?_eq_none hj] at h1
    cases h1
  | succ d ih =>
    have hlt : i < hist.length := by omega
    have hg := List.getElem?_eq_getElem hlt
    rw [List.drop_eq_getElem_cons hlt, forwardLoop]
    by_cases h : w.isPrefixOf hist[i] = true
    · rw [if_pos h]
      exact .inl ⟨i, _, rfl, hg, List.isPrefixOf_iff_prefix.1 h, Nat.le_refl _, fun j a b => by omega⟩
    · rw [if_neg h]
      have hn := not_hits_of hg h
      rcases ih (i := i + 1) (by omega) (by omega) with ⟨m, e, h1, h2, h3, h4, h5⟩ | ⟨h1, h2⟩
      · refine .inl ⟨m, e, h1, h2, h3, by omega, fun j a b => ?_⟩
        by_cases hj : j = i
        · rw [hj]; exact hn
        · exact h5 j (by omega) b
      · refine .inr ⟨h1, fun j a => ?_⟩
        by_cases hj : j = i
        · rw [hj]; exact hn
        · exact h2 j (by omega)

/-- Searching for `w` at position `p` with `line` shown. -/
def searching (hist : List Str) (w : Str) (p : Nat) (line : Str) : Prompt := ⟨⟨hist, p, some w⟩, line⟩

theorem up_searching {hist : List Str} {w line : Str} {p : Nat} (hl : line ≠ []) :
    up (searching hist w p line) =
      (Nav.back ⟨hist, p, some w⟩).map (fun r => ⟨r.2, r.1.getD line⟩) := by
  have : line.isEmpty = false := by cases line <;> simp_all
  simp [up, searching, forget, pickWord, this]

theorem up_start {hist : List Str} {w : Str} (hw : w ≠ []) :
    up (start hist w) = up (searching hist w hist.length w) := by
  have : w.isEmpty = false := by cases w <;> simp_all
  simp [up, start, searching, forget, pickWord, this, Nav.atEnd]

/-- **C21, searching, Up (partial).** While a word is searched for, with the position after entry `i`:
(1) if some entry other than the oldest matches at `i` or before, the nearest one is shown;
(2) if the oldest entry is the next one and it matches, it is shown;
(3) if no entry but possibly the oldest matches, and the oldest is not the next one, nothing is shown and
the position jumps to the oldest entry — even when that entry matches;
(4) if the oldest entry is the next one and does not match, the program stops (overflow). -/
theorem C21_search_up_partial (hist : List Str) (w line : Str) (hl : line ≠ []) {i : Nat} (hi : i < hist.length) :
    (∀ m e, 0 < m → m ≤ i → hist[m]? = some e → w <+: e → (∀ j, m < j → j ≤ i → ¬ Hits hist w j) →
      up (searching hist w (i + 1) line) = some (searching hist w m e)) ∧
    (∀ e, i = 0 → hist[0]? = some e → w <+: e →
      up (searching hist w (i + 1) line) = some (searching hist w 0 e)) ∧
    (0 < i → (∀ j, 0 < j → j ≤ i → ¬ Hits hist w j) →
      up (searching hist w (i + 1) line) = some (searching hist w 0 line)) ∧
    (i = 0 → ¬ Hits hist w 0 → up (searching hist w (i + 1) line) = none) := by
  rw [up_searching hl]
  simp only [Nav.back]
  rcases backLoop_spec hist w hi with ⟨m, e, h1, h2, h3, h4, h5, h6⟩ | ⟨h1, h2, h3⟩ | ⟨h1, h2, h3⟩
  · rw [h1]
    refine ⟨fun m' e' a b c d f => ?_, fun e' a c d => ?_, fun a b => ?_, fun a b => ?_⟩
    · have : m' = m := by
        rcases Nat.lt_trichotomy m' m with h | h | h
        · exact absurd ⟨e, h2, h3⟩ (f m h h4)
        · exact h
        · exact absurd ⟨e', c, d⟩ (h6 m' h b)
      subst this
      rw [h2] at c; cases c
      rfl
    · have : m = 0 := by omega
      subst this
      rw [h2] at c; cases c
      rfl
    · have hm : m ≠ 0 := fun h => by have := h5 h; omega
      exact absurd ⟨e, h2, h3⟩ (b m (by omega) h4)
    · have : m = 0 := by omega
      subst this
      exact absurd ⟨e, h2, h3⟩ b
  · rw [h1]
    refine ⟨fun m' e' a b c d f => absurd ⟨e', c, d⟩ (h3 m' a b), fun e' a c d => by omega, fun a b => rfl,
      fun a b => by omega⟩
  · rw [h1]
    exact ⟨fun m' e' a b c d f => by omega, fun e' a c d => absurd ⟨e', c, d⟩ h3, fun a b => by omega,
      fun a b => rfl⟩

/-- **C21, searching, Down.** The nearest later matching entry is shown; if there is none, the prompt
with the typed word comes back. -/
theorem C21_search_down (hist : List Str) (w line : Str) (hl : line ≠ []) {p : Nat} (hp : p < hist.length) :
    (∀ m e, p < m → hist[m]? = some e → w <+: e → (∀ j, p < j → j < m → ¬ Hits hist w j) →
      down (searching hist w p line) = searching hist w m e) ∧
    ((∀ j, p < j → ¬ Hits hist w j) →
      down (searching hist w p line) = searching hist w hist.length w) := by
  have hne : line.isEmpty = false := by cases line <;> simp_all
  have hend : ¬ p = hist.length := by omega
  simp only [down, searching, forget, hne, Bool.false_eq_true, if_false, Nav.atEnd, beq_iff_eq, hend]
  by_cases h : p + 1 < hist.length
  · simp only [Nav.forward, h, if_true]
    rcases forwardLoop_spec hist w (i := p + 1) (by omega) with ⟨m, e, h1, h2, h3, h4, h5⟩ | ⟨h1, h2⟩
    · rw [h1]
      refine ⟨fun m' e' a c d f => ?_, fun a => absurd ⟨e, h2, h3⟩ (a m (by omega))⟩
      have : m' = m := by
        rcases Nat.lt_trichotomy m' m with h | h | h
        · exact absurd ⟨e', c, d⟩ (h5 m' (by omega) h)
        · exact h
        · exact absurd ⟨e, h2, h3⟩ (f m (by omega) h)
      subst this
      rw [h2] at c; cases c
      rfl
    · rw [h1]
      refine ⟨fun m' e' a c d f => absurd ⟨e', c, d⟩ (h2 m' (by omega)), fun a => ?_⟩
      simp
  · have hlast : p = hist.length - 1 := by omega
    simp only [Nav.forward, h, if_false]
    refine ⟨fun m' e' a c d f => ?_, fun a => ?_⟩
    · rw [List.getElem?_eq_none (by omega)] at c
      cases c
    · simp [Nav.atLatest, hlast]

/-- Entry `m` exists and starts with `w`. -/
def hitB (hist : List Str) (w : Str) (m : Nat) : Bool :=
  match hist[m]? with
  | some e => w.isPrefixOf e
  | none => false

/-- What Up should do while searching: the nearest earlier matching position, if there is one. -/
def prevHit (hist : List Str) (w : Str) (p : Nat) : Nat :=
  ((List.range p).reverse.find? (hitB hist w)).getD p

/-- What Down should do: the nearest later matching position, else the prompt. -/
def nextHit (hist : List Str) (w : Str) (p : Nat) : Nat :=
  ((List.range hist.length).find? (fun m => decide (p < m) && hitB hist w m)).getD hist.length

def hunt (hist : List Str) (w : Str) (p : Nat) : Bool → Nat
  | true => prevHit hist w p
  | false => nextHit hist w p

theorem hitB_iff {hist : List Str} {w : Str} {m : Nat} : hitB hist w m = true ↔ Hits hist w m := by
  unfold hitB Hits
  cases hist[m]? with
  | none => simp
  | some e => simp [List.isPrefixOf_iff_prefix]

theorem find_range_rev {f : Nat → Bool} {p m : Nat} (hm : m < p) (hf : f m = true)
    (hn : ∀ j, m < j → j < p → f j = false) : (List.range p).reverse.find? f = some m := by
  induction p with
  | zero => omega
  | succ p ih =>
    rw [List.range_succ, List.reverse_append]
    simp only [List.reverse_cons, List.reverse_nil, List.nil_append, List.cons_append, List.find?_cons]
    by_cases h : m = p
    · subst h; rw [hf]
    · rw [hn p (by omega) (by omega)]
      exact ih (by omega) (fun j a b => hn j a (by omega))

theorem find_range {f : Nat → Bool} {p m : Nat} (hm : m < p) (hf : f m = true)
    (hn : ∀ j, j < m → f j = false) : (List.range p).find? f = some m := by
  induction p with
  | zero => omega
  | succ p ih =>
    rw [List.range_succ, List.find?_append]
    by_cases h : m = p
    · subst h
      have : (List.range m).find? f = none := by
        rw [List.find?_eq_none]
        intro x hx
        rw [hn x (List.mem_range.1 hx)]
        simp
      rw [this]
      simp [hf]
    · rw [ih (by omega)]; rfl

theorem prevHit_eq {hist : List Str} {w : Str} {p m : Nat} (hm : m < p) (h : Hits hist w m)
    (hn : ∀ j, m < j → j < p → ¬ Hits hist w j) : prevHit hist w p = m := by
  rw [prevHit, find_range_rev hm (hitB_iff.2 h) (fun j a b => by
    rw [Bool.eq_false_iff]; exact fun hj => hn j a b (hitB_iff.1 hj))]
  rfl

theorem Hits.lt {hist : List Str} {w : Str} {m : Nat} (h : Hits hist w m) : m < hist.length := by
  obtain ⟨e, he, _⟩ := h
  exact (List.getElem?_eq_some_iff.1 he).1

theorem nextHit_eq {hist : List Str} {w : Str} {p m : Nat} (hm : p < m) (h : Hits hist w m)
    (hn : ∀ j, p < j → j < m → ¬ Hits hist w j) : nextHit hist w p = m := by
  rw [nextHit, find_range h.lt (by simp [hm, hitB_iff.2 h]) (fun j a => by
    rw [Bool.eq_false_iff]
    intro hj
    simp only [Bool.and_eq_true, decide_eq_true_eq] at hj
    exact hn j hj.1 a (hitB_iff.1 hj.2))]
  rfl

theorem nextHit_none {hist : List Str} {w : Str} {p : Nat} (hn : ∀ j, p < j → ¬ Hits hist w j) :
    nextHit hist w p = hist.length := by
  have : (List.range hist.length).find? (fun m => decide (p < m) && hitB hist w m) = none := by
    rw [List.find?_eq_none]
    intro x _ hx
    simp only [Bool.and_eq_true, decide_eq_true_eq] at hx
    exact hn x hx.1 (hitB_iff.1 hx.2)
  rw [nextHit, this]
  rfl

/-- What is seen: position and line. -/
def Prompt.view (s : Prompt) : Nat × Str := (s.nav.idx, s.input)

/-- Navigating from a prompt with `w` typed, at position `p`. -/
def HuntAt (hist : List Str) (w : Str) (p : Nat) (s : Prompt) : Prop :=
  s = searching hist w p ((hist[p]?).getD w) ∧ (p = hist.length ∨ Hits hist w p) ∨
    p = hist.length ∧ s = start hist w

theorem hits_ne {hist : List Str} {w e : Str} {p : Nat} (hw : w ≠ []) (h : Hits hist w p) (he : hist[p]? = some e) :
    e ≠ [] := by
  obtain ⟨e', h1, h2⟩ := h
  rw [he] at h1; cases h1
  rintro rfl
  exact hw (List.prefix_nil.1 h2)

theorem line_ne {hist : List Str} {w : Str} {p : Nat} (hw : w ≠ []) (hp : p = hist.length ∨ Hits hist w p) :
    (hist[p]?).getD w ≠ [] := by
  rcases hp with rfl | hp
  · rw [List.getElem?_eq_none (Nat.le_refl _)]; exact hw
  · have := List.getElem?_eq_getElem hp.lt
    rw [this]
    exact hits_ne hw hp this

theorem hunt_up {hist : List Str} {w : Str} (hw : w ≠ []) (h01 : ∀ j, j < 2 → j < hist.length → Hits hist w j)
    {p : Nat} (hp : p = hist.length ∨ Hits hist w p) :
    ∃ s', up (searching hist w p ((hist[p]?).getD w)) = some s' ∧ HuntAt hist w (prevHit hist w p) s' := by
  have hlen : p ≤ hist.length := by
    rcases hp with h | h
    · omega
    · exact Nat.le_of_lt h.lt
  rw [up_searching (line_ne hw hp)]
  cases p with
  | zero =>
    refine ⟨_, rfl, .inl ⟨?_, ?_⟩⟩
    · simp [prevHit, searching]
    · simpa [prevHit] using hp
  | succ i =>
    simp only [Nav.back]
    rcases backLoop_spec hist w (i := i) (by omega) with ⟨m, e, h1, h2, h3, h4, h5, h6⟩ | ⟨h1, h2, h3⟩ | ⟨h1, h2, h3⟩
    · rw [h1]
      have hh : Hits hist w m := ⟨e, h2, h3⟩
      have := prevHit_eq (p := i + 1) (by omega) hh (fun j a b => h6 j a (by omega))
      rw [this]
      refine ⟨_, rfl, .inl ⟨?_, .inr hh⟩⟩
      simp [searching, h2]
    · exact absurd (h01 1 (by omega) (by omega)) (h3 1 (by omega) (by omega))
    · exact absurd (h01 0 (by omega) (by omega)) h3

theorem hunt_down {hist : List Str} {w : Str} (hw : w ≠ []) {p : Nat} (hp : p = hist.length ∨ Hits hist w p) :
    HuntAt hist w (nextHit hist w p) (down (searching hist w p ((hist[p]?).getD w))) := by
  have hl := line_ne hw hp
  by_cases he : p = hist.length
  · have h1 : nextHit hist w p = hist.length := nextHit_none (fun j a b => by have := b.lt; omega)
    have hne : w.isEmpty = false := by cases w <;> simp_all
    rw [h1]
    refine .inl ⟨?_, .inl rfl⟩
    simp [he, down, searching, forget, hne, Nav.atEnd]
  · have hlt : p < hist.length := by
      rcases hp with h | h
      · exact absurd h he
      · exact h.lt
    obtain ⟨h1, h2⟩ := C21_search_down hist w _ hl hlt
    by_cases hex : ∃ j, p < j ∧ Hits hist w j
    · have hx : ∃ m, p < m ∧ Hits hist w m ∧ ∀ j, p < j → j < m → ¬ Hits hist w j := by
        rcases forwardLoop_spec hist w (i := p + 1) (by omega) with ⟨m, e, a1, a2, a3, a4, a5⟩ | ⟨_, a2⟩
        · exact ⟨m, by omega, ⟨e, a2, a3⟩, fun j a b => a5 j (by omega) b⟩
        · obtain ⟨j, a, b⟩ := hex
          exact absurd b (a2 j (by omega))
      obtain ⟨m, a, b, c⟩ := hx
      obtain ⟨e, e1, e2⟩ := id b
      rw [h1 m e a e1 e2 c, nextHit_eq a b c]
      exact .inl ⟨by simp [e1], .inr b⟩
    · have hx : ∀ j, p < j → ¬ Hits hist w j := fun j a b => hex ⟨j, a, b⟩
      rw [h2 hx, nextHit_none hx]
      exact .inl ⟨by simp, .inl rfl⟩

/-- **C21, searching (partial).** If the two oldest entries start with the typed word, every sequence of
Up and Down keys visits exactly the matching entries, in order, and comes back to the typed word.
Missing: histories whose two oldest entries do not both match, where it fails (below). -/
theorem C21_search_walk_partial (hist : List Str) (w : Str) (hw : w ≠ [])
    (h01 : ∀ j, j < 2 → j < hist.length → Hits hist w j) (ks : List Bool) :
    (run (start hist w) (ks.map keyOf)).map Prompt.view =
      some (ks.foldl (hunt hist w) hist.length, (hist[ks.foldl (hunt hist w) hist.length]?).getD w) := by
  suffices h : ∀ p s, HuntAt hist w p s → ∃ s', run s (ks.map keyOf) = some s' ∧
      HuntAt hist w (ks.foldl (hunt hist w) p) s' by
    obtain ⟨s', h1, h2⟩ := h hist.length (start hist w) (.inr ⟨rfl, rfl⟩)
    rw [h1]
    rcases h2 with ⟨rfl, _⟩ | ⟨h3, rfl⟩
    · rfl
    · rw [h3]; simp [Prompt.view, start]
  induction ks with
  | nil => intro p s h; exact ⟨s, rfl, h⟩
  | cons b ks ih =>
    intro p s h
    have hs : ∃ s', step s (keyOf b) = some s' ∧ HuntAt hist w (hunt hist w p b) s' := by
      rcases h with ⟨rfl, hp⟩ | ⟨rfl, rfl⟩
      · cases b with
        | true => exact hunt_up hw h01 hp
        | false => exact ⟨_, rfl, hunt_down hw hp⟩
      · cases b with
        | true =>
          have := hunt_up hw h01 (p := hist.length) (.inl rfl)
          rw [List.getElem?_eq_none (Nat.le_refl _)] at this
          simp only [keyOf, if_true, step]
          rw [up_start hw]
          exact this
        | false =>
          refine ⟨_, rfl, .inr ⟨nextHit_none (fun j a b => by have := b.lt; omega), ?_⟩⟩
          simp [down, start, Nav.atEnd, forget]
    obtain ⟨s', h1, h2⟩ := hs
    obtain ⟨s'', h3, h4⟩ := ih _ _ h2
    exact ⟨s'', by simp only [List.map_cons, run, h1, Option.bind_some, h3], h4⟩

example : (run (start [c!"ab", c!"ac", c!"x", c!"ad"] c!"a") [.up, .up, .up, .down, .down]).map Prompt.view =
    some (3, c!"ad") := by decide

/-- **C21 violated.** If of several entries only the oldest starts with the typed word, no sequence of Up
and Down keys ever shows it. -/
theorem C21_oldest_violated (hist : List Str) (w : Str) (hw : w ≠ []) (hlen : 2 ≤ hist.length)
    (honly : ∀ j, 0 < j → ¬ Hits hist w j) (ks : List Bool) :
    ∃ s, run (start hist w) (ks.map keyOf) = some s ∧ s.input = w := by
  have hne : w.isEmpty = false := by cases w <;> simp_all
  have hup : up (searching hist w hist.length w) = some (searching hist w 0 w) := by
    have h := (C21_search_up_partial hist w w hw (i := hist.length - 1) (by omega)).2.2.1 (by omega)
      (fun j a b => honly j a)
    rwa [show hist.length - 1 + 1 = hist.length by omega] at h
  suffices h : ∀ s, (s = start hist w ∨ s = searching hist w hist.length w ∨ s = searching hist w 0 w) →
      ∃ s', run s (ks.map keyOf) = some s' ∧ s'.input = w from h _ (.inl rfl)
  induction ks with
  | nil =>
    rintro s (rfl | rfl | rfl) <;> exact ⟨_, rfl, rfl⟩
  | cons b ks ih =>
    intro s hs
    have : ∃ s', step s (keyOf b) = some s' ∧
        (s' = start hist w ∨ s' = searching hist w hist.length w ∨ s' = searching hist w 0 w) := by
      rcases hs with rfl | rfl | rfl <;> cases b <;> simp only [keyOf, if_true, Bool.false_eq_true, if_false, step]
      · exact ⟨_, rfl, .inl (by simp [down, start, Nav.atEnd, forget])⟩
      · rw [up_start hw]; exact ⟨_, hup, .inr (.inr rfl)⟩
      · exact ⟨_, rfl, .inr (.inl (by simp [down, searching, Nav.atEnd, forget, hne]))⟩
      · exact ⟨_, hup, .inr (.inr rfl)⟩
      · exact ⟨_, rfl, .inr (.inl ((C21_search_down hist w w hw (by omega)).2 honly))⟩
      · rw [up_searching hw]; exact ⟨_, rfl, .inr (.inr rfl)⟩
    obtain ⟨s', h1, h2⟩ := this
    obtain ⟨s'', h3, h4⟩ := ih s' h2
    exact ⟨s'', by simp only [List.map_cons, run, h1, Option.bind_some, h3], h4⟩

example : Hits [c!"git", c!"ls"] c!"g" 0 ∧ ∀ j, 0 < j → ¬ Hits [c!"git", c!"ls"] c!"g" j := by
  refine ⟨⟨_, rfl, by decide⟩, ?_⟩
  rintro j hj ⟨e, h1, h2⟩
  match j, hj with
  | 1, _ => cases h1; revert h2; decide
  | j + 2, _ => simp at h1

/-- **C21 violated.** With one entry in the history, typing anything it does not start with and pressing Up
stops the program. -/
theorem C21_single_violated (e w : Str) (hw : w ≠ []) (h : ¬ w <+: e) : run (start [e] w) [.up] = none := by
  have h1 := (C21_search_up_partial [e] w w hw (i := 0) (by simp)).2.2.2 rfl (by
    rintro ⟨e', a, b⟩; cases a; exact h b)
  simp only [run, step, up_start hw]
  simpa using h1

example : run (start [c!"ls"] c!"g") [.up] = none := C21_single_violated _ _ (by decide) (by decide)

/-- **C21 violated.** If the second oldest entry starts with the typed word and the oldest does not, pressing
Up once more at the second oldest entry stops the program. -/
theorem C21_overrun_violated (e0 e1 w : Str) (rest : List Str) (hw : w ≠ []) (h0 : ¬ w <+: e0) (h1 : w <+: e1)
    (hr : ∀ e ∈ rest, ¬ w <+: e) :
    (run (start (e0 :: e1 :: rest) w) [.up]).map Prompt.input = some e1 ∧
    run (start (e0 :: e1 :: rest) w) [.up, .up] = none := by
  have hu := (C21_search_up_partial (e0 :: e1 :: rest) w w hw (i := rest.length + 1) (by simp)).1 1 e1 (by omega)
    (by omega) rfl h1 (by
      rintro j a b ⟨e, c, d⟩
      obtain ⟨k, rfl⟩ : ∃ k, j = k + 2 := ⟨j - 2, by omega⟩
      simp only [List.getElem?_cons_succ] at c
      exact hr e (List.mem_of_getElem? c) d)
  have hfirst : up (start (e0 :: e1 :: rest) w) = some (searching (e0 :: e1 :: rest) w 1 e1) := by
    rw [up_start hw]; exact hu
  have hne : e1 ≠ [] := by
    rintro rfl
    exact hw (List.prefix_nil.1 h1)
  have hsecond := (C21_search_up_partial (e0 :: e1 :: rest) w e1 hne (i := 0) (by simp)).2.2.2 rfl (by
    rintro ⟨e', a, b⟩; cases a; exact h0 b)
  refine ⟨by simp only [run, step, hfirst]; rfl, ?_⟩
  simp only [run, step, hfirst, Option.bind_some]
  rw [hsecond]
  rfl

example : run (start [c!"x", c!"ab"] c!"a") [.up, .up] = none := by decide

/-! ### All keys -/

theorem back_inside {n : Nav} {r : Option Str × Nav} (h : n.back = some r) (hn : n.idx ≤ n.hist.length) :
    r.2.hist = n.hist ∧ (r = (none, n) ∧ n.idx = 0 ∨ r.2.idx < n.hist.length) ∧ r.2.word = n.word ∧
      (∀ e, r.1 = some e → e ∈ n.hist ∧ ∀ w, n.word = some w → w <+: e) := by
  obtain ⟨hist, idx, word⟩ := n
  dsimp only at hn ⊢
  cases idx with
  | zero => simp only [Nav.back, Option.some.injEq] at h; subst h; exact ⟨rfl, .inl ⟨rfl, rfl⟩, rfl, fun e h => by cases h⟩
  | succ i =>
    cases word with
    | none =>
      simp only [Nav.back, Option.some.injEq] at h
      subst h
      exact ⟨rfl, .inr (by dsimp only; omega), rfl, fun e h => ⟨List.mem_of_getElem? h, fun w hw => by cases hw⟩⟩
    | some w =>
      simp only [Nav.back] at h
      rcases backLoop_spec hist w (i := i) (by omega) with ⟨m, e, h1, h2, h3, h4, h5, h6⟩ | ⟨h1, h2, h3⟩ | ⟨h1, h2, h3⟩
      · rw [h1] at h; cases h
        refine ⟨rfl, .inr (by dsimp only; omega), rfl, fun e' he => ?_⟩
        cases he
        exact ⟨List.mem_of_getElem? h2, fun w' hw => by cases hw; exact h3⟩
      · rw [h1] at h; cases h
        exact ⟨rfl, .inr (by dsimp only; omega), rfl, fun e' he => by cases he⟩
      · rw [h1] at h; cases h

theorem forward_inside (n : Nav) (hn : n.idx ≤ n.hist.length) :
    n.forward.2.hist = n.hist ∧ n.forward.2.idx ≤ n.hist.length ∧ n.forward.2.word = n.word ∧
      (∀ e, n.forward.1 = some e → n.forward.2.idx < n.hist.length ∧ e ∈ n.hist ∧
        ∀ w, n.word = some w → w <+: e) := by
  obtain ⟨hist, idx, word⟩ := n
  dsimp only at hn ⊢
  unfold Nav.forward
  dsimp only
  by_cases h : idx + 1 < hist.length
  · rw [if_pos h]
    cases word with
    | none =>
      exact ⟨rfl, by dsimp only; omega, rfl, fun e he => ⟨h, List.mem_of_getElem? he, fun w hw => by cases hw⟩⟩
    | some w =>
      dsimp only
      rcases forwardLoop_spec hist w (i := idx + 1) (by omega) with ⟨m, e, h1, h2, h3, h4, h5⟩ | ⟨h1, h2⟩
      · rw [h1]
        have hlt := (List.getElem?_eq_some_iff.1 h2).1
        refine ⟨rfl, Nat.le_of_lt hlt, rfl, fun e' he => ?_⟩
        cases he
        exact ⟨hlt, List.mem_of_getElem? h2, fun w' hw => by cases hw; exact h3⟩
      · rw [h1]
        exact ⟨rfl, Nat.le_refl _, rfl, fun e' he => by cases he⟩
  · rw [if_neg h]
    exact ⟨rfl, hn, rfl, fun e he => by cases he⟩

theorem step_inside {s s' : Prompt} {k : Key} (h : step s k = some s') (hn : s.nav.idx ≤ s.nav.hist.length) :
    s'.nav.hist = s.nav.hist ∧ s'.nav.idx ≤ s'.nav.hist.length := by
  cases k with
  | up =>
    simp only [step, up] at h
    cases hb : Nav.back { s.nav with word := pickWord s.nav.atEnd s.input (forget s.input s.nav.word) } with
    | none => rw [hb] at h; cases h
    | some r =>
      rw [hb] at h; cases h
      obtain ⟨a, b, _⟩ := back_inside hb hn
      refine ⟨a, ?_⟩
      dsimp only at a b ⊢
      rw [a]
      rcases b with ⟨rfl, _⟩ | b
      · exact hn
      · exact Nat.le_of_lt b
  | down =>
    simp only [step, Option.some.injEq] at h
    subst h
    simp only [down]
    split_ifs with he
    · exact ⟨rfl, hn⟩
    · have := forward_inside { s.nav with word := forget s.input s.nav.word } hn
      generalize Nav.forward { s.nav with word := forget s.input s.nav.word } = r at this
      obtain ⟨a, b, _⟩ := this
      obtain ⟨r1, r2⟩ := r
      cases r1 with
      | some e => exact ⟨a, by simp only at a b ⊢; rw [a]; exact b⟩
      | none =>
        simp only
        split_ifs
        · exact ⟨a, Nat.le_refl _⟩
        · exact ⟨a, by simp only at a b ⊢; rw [a]; exact b⟩
  | edit l => cases h; exact ⟨rfl, hn⟩
  | finish => cases h; exact ⟨rfl, Nat.le_refl _⟩

/-- **C21 (partial).** Whatever is typed in between, unless the program stops the position stays within the
history and the entries do not change. -/
theorem C21_inside_partial (hist : List Str) (line : Str) (ks : List Key) {s : Prompt}
    (h : run (start hist line) ks = some s) : s.nav.hist = hist ∧ s.nav.idx ≤ hist.length := by
  suffices H : ∀ s0 : Prompt, s0.nav.hist = hist → s0.nav.idx ≤ hist.length → run s0 ks = some s →
      s.nav.hist = hist ∧ s.nav.idx ≤ hist.length from H _ rfl (Nat.le_refl _) h
  clear h
  induction ks with
  | nil => intro s0 h1 h2 h; cases h; exact ⟨h1, h2⟩
  | cons k ks ih =>
    intro s0 h1 h2 h
    simp only [run] at h
    cases hk : step s0 k with
    | none => rw [hk] at h; cases h
    | some s1 =>
      rw [hk] at h
      obtain ⟨a, b⟩ := step_inside hk (by rw [h1]; exact h2)
      exact ih s1 (a.trans h1) (by rw [← h1, ← a]; exact b) h

/-! ### C69: what is typed is what is searched for -/

/-- **C69 (partial).** From a prompt with a line typed and no search under way, whatever Up and Down keys are
pressed: the line is always the typed one or an entry starting with it, and back at the prompt it is the
typed one.  Missing: a search under way when the line is edited (below). -/
theorem C69_typed_partial (hist : List Str) (w : Str) (hw : w ≠ []) (ks : List Bool) {s : Prompt}
    (h : run (start hist w) (ks.map keyOf) = some s) :
    (s.input = w ∨ s.input ∈ hist ∧ w <+: s.input) ∧ (s.nav.idx = hist.length → s.input = w) := by
  have hpick : ∀ (b : Bool) (l : Str), l ≠ [] → pickWord b l (forget l (some w)) = some w := by
    intro b l hl
    have : l.isEmpty = false := by cases l <;> simp_all
    simp [pickWord, forget, this]
  have hforget : ∀ l : Str, l ≠ [] → forget l (some w) = some w := by
    intro l hl
    have : l.isEmpty = false := by cases l <;> simp_all
    simp [forget, this]
  let P : Prompt → Prop := fun s => s.nav.hist = hist ∧ s.nav.idx ≤ hist.length ∧
    (s.input = w ∨ s.input ∈ hist ∧ w <+: s.input) ∧ (s.nav.idx = hist.length → s.input = w) ∧
    (s.nav.word = some w ∨ s.nav.word = none ∧ s.nav.idx = hist.length)
  have hne : ∀ s, P s → s.input ≠ [] := by
    rintro s ⟨_, _, h | ⟨_, h⟩, _⟩ h0
    · exact hw (h ▸ h0)
    · rw [h0] at h; exact hw (List.prefix_nil.1 h)
  have hup : ∀ s s', P s → up s = some s' → P s' := by
    intro s s' hP hs
    have hin := hne s hP
    obtain ⟨p1, p2, p3, p4, p5⟩ := hP
    obtain ⟨⟨hh, idx, word⟩, input⟩ := s
    dsimp only at p1 p2 p3 p4 p5 hin
    subst p1
    have hword : pickWord (idx == hh.length) input (forget input word) = some w := by
      rcases p5 with p5 | ⟨p5, p6⟩
      · rw [p5, hpick _ _ hin]
      · have h2 : input.isEmpty = false := by cases input <;> simp_all
        rw [p5, p6, p4 p6]
        rw [p4 p6] at h2
        simp [pickWord, forget, h2]
    simp only [up, Nav.atEnd, hword] at hs
    cases hb : Nav.back ⟨hh, idx, some w⟩ with
    | none => rw [hb] at hs; cases hs
    | some r =>
      rw [hb] at hs; cases hs
      obtain ⟨a, b, c, d⟩ := back_inside hb p2
      obtain ⟨r1, r2⟩ := r
      dsimp only at a b c d
      refine ⟨a, ?_, ?_, ?_, .inl c⟩
      · dsimp only
        rcases b with ⟨h, _⟩ | b
        · cases h; exact p2
        · exact Nat.le_of_lt b
      · cases r1 with
        | none => exact p3
        | some e => exact .inr ⟨(d e rfl).1, (d e rfl).2 w rfl⟩
      · intro hi
        dsimp only at hi
        rcases b with ⟨h, h0⟩ | b
        · cases h; exact p4 hi
        · omega
  have hdown : ∀ s, P s → P (down s) := by
    intro s hP
    have hin := hne s hP
    obtain ⟨p1, p2, p3, p4, p5⟩ := hP
    obtain ⟨⟨hh, idx, word⟩, input⟩ := s
    dsimp only at p1 p2 p3 p4 p5 hin
    subst p1
    simp only [down, Nav.atEnd, beq_iff_eq]
    by_cases he : idx = hh.length
    · rw [if_pos he]
      refine ⟨rfl, p2, p3, p4, ?_⟩
      rcases p5 with p5 | ⟨p5, p6⟩
      · left; dsimp only; rw [p5, hforget _ hin]
      · right; exact ⟨by simp [p5, forget], he⟩
    · rw [if_neg he]
      have hword : word = some w := by
        rcases p5 with p5 | ⟨p5, p6⟩
        · exact p5
        · exact absurd p6 he
      rw [hword, hforget _ hin]
      have := forward_inside ⟨hh, idx, some w⟩ p2
      generalize Nav.forward ⟨hh, idx, some w⟩ = r at this
      obtain ⟨a, b, c, d⟩ := this
      obtain ⟨r1, ⟨rh, ri, rw'⟩⟩ := r
      dsimp only at a b c d
      subst a c
      cases r1 with
      | some e =>
        obtain ⟨d1, d2, d3⟩ := d e rfl
        refine ⟨rfl, b, .inr ⟨d2, d3 w rfl⟩, fun hi => ?_, .inl rfl⟩
        dsimp only at hi
        omega
      | none =>
        dsimp only
        split_ifs
        · exact ⟨rfl, Nat.le_refl _, .inl rfl, fun _ => rfl, .inl rfl⟩
        · exact ⟨rfl, b, .inl rfl, fun _ => rfl, .inl rfl⟩
  suffices H : ∀ s0, P s0 → run s0 (ks.map keyOf) = some s → P s by
    obtain ⟨_, _, h3, h4, _⟩ := H _ ⟨rfl, Nat.le_refl _, .inl rfl, fun _ => rfl, .inr ⟨rfl, rfl⟩⟩ h
    exact ⟨h3, h4⟩
  clear h
  induction ks with
  | nil => intro s0 h0 h; cases h; exact h0
  | cons b ks ih =>
    intro s0 h0 h
    cases b with
    | true =>
      simp only [List.map_cons, keyOf, if_true, run, step] at h
      cases hu : up s0 with
      | none => rw [hu] at h; cases h
      | some s1 => rw [hu] at h; exact ih s1 (hup _ _ h0 hu) h
    | false =>
      simp only [List.map_cons, keyOf, Bool.false_eq_true, if_false, run, step, Option.bind_some] at h
      exact ih _ (hdown _ h0) h

example : (run (start [c!"x", c!"ab", c!"y"] c!"a") [.up, .down]).map Prompt.input = some c!"a" := by decide

/-- **C69 violated.** The word of an earlier search is kept: typing `a`, Up, Down, changing the line to `xy` and
pressing Up shows an entry that does not start with `xy`, although there is one that does. -/
theorem C69_violated :
    ∃ (hist : List Str) (ks : List Key) (s t : Prompt),
      run (start hist []) ks = some s ∧ s.nav.idx = hist.length ∧ s.input = c!"xy" ∧ Hits hist s.input 1 ∧
      up s = some t ∧ ¬ s.input <+: t.input := by
  refine ⟨[c!"q", c!"xyz", c!"ab"], [.edit c!"a", .up, .down, .edit c!"xy"],
    ⟨⟨[c!"q", c!"xyz", c!"ab"], 3, some c!"a"⟩, c!"xy"⟩,
    ⟨⟨[c!"q", c!"xyz", c!"ab"], 2, some c!"a"⟩, c!"ab"⟩, by decide, by decide, by decide,
    ⟨c!"xyz", by decide, by decide⟩, by decide, by decide⟩

end Dsh.HistNav
