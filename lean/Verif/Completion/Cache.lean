import Verif.Util
/-!
The cache of completion candidates (dsh/src/completion/cache.rs) and its use by
`IntegratedCompletionEngine::complete` (dsh/src/completion/integrated.rs): C38, C99.

Times are natural numbers of a clock that never goes back (`Instant`).  The table is a map from keys
to entries.  Candidates are of any type with a text.  Each operation reads the clock once; the code
reads it up to twice under one lock.
-/
namespace Dsh.Cache

abbrev Str := List Char

/-! ### Model of the cache -/

/-- `CacheEntry` (cache.rs:34-37). -/
structure Entry (α : Type) where
  cands : List α
  exp : Nat

/-- `is_expired` (cache.rs:47-49). -/
def Entry.expired {α} (e : Entry α) (now : Nat) : Bool := decide (e.exp ≤ now)

/-- The table (cache.rs:67). -/
abbrev Tab (α : Type) := Str → Option (Entry α)

/-- `purge_expired_locked` (cache.rs:158-161). -/
def purge {α} (m : Tab α) (now : Nat) : Tab α := fun k => (m k).filter fun e => !e.expired now

/-- `set` (cache.rs:81-86). -/
def set {α} (ttl : Nat) (m : Tab α) (now : Nat) (k : Str) (cs : List α) : Tab α :=
  fun k' => if k' = k then some ⟨cs, now + ttl⟩ else purge m now k'

/-- `extend_ttl` (cache.rs:100-109). -/
def extend {α} (ttl : Nat) (m : Tab α) (now : Nat) (k : Str) : Tab α :=
  fun k' => if k' = k then (purge m now k).map fun e => { e with exp := now + ttl } else purge m now k'

/-- An entry that has not expired. -/
def live {α} (m : Tab α) (now : Nat) (k : Str) : Bool :=
  match m k with
  | some e => !e.expired now
  | none => false

/-- The loop of `longest_live_prefix` (cache.rs:175-184), from the reversed text. -/
def shorter {α} (m : Tab α) (now : Nat) : Str → Option Str
  | [] => none
  | _ :: r => if live m now r.reverse then some r.reverse else shorter m now r

/-- `longest_live_prefix` (cache.rs:164-187). -/
def longestLivePrefix {α} (m : Tab α) (now : Nat) (input : Str) : Option (Str × Bool) :=
  if live m now input then some (input, true)
  else (shorter m now input.reverse).map fun k => (k, false)

/-- `CacheLookup` (cache.rs:58-62). -/
structure Hit (α : Type) where
  key : Str
  cands : List α
  exact : Bool

/-- `rsplit(is_whitespace).next()` (cache.rs:134-137). -/
def lastToken (s : Str) : Str := (s.reverse.takeWhile fun c => !rustWhitespace c).reverse

/-- The filter for inputs longer than the key (cache.rs:142-146). -/
def fits {α} (text : α → Str) (input : Str) (c : α) : Bool :=
  input.isPrefixOf (text c) || (!(lastToken input).isEmpty && (lastToken input).isPrefixOf (text c))

/-- `lookup` (cache.rs:123-156). -/
def lookup {α} (text : α → Str) (m : Tab α) (now : Nat) (input : Str) : Option (Hit α) :=
  match longestLivePrefix m now input with
  | none => none
  | some (key, exact) =>
    match m key with
    | none => none
    | some e => some ⟨key, if exact then e.cands else e.cands.filter (fits text input), exact⟩

/-! ### Specification of the cache -/

/-- What can happen to the cache. -/
inductive Op (α : Type) where
  | set (k : Str) (cs : List α)
  | extend (k : Str)

/-- A history: operations with their times, newest first. -/
abbrev Hist (α : Type) := List (Nat × Op α)

/-- The cache after a history. -/
def run {α} (ttl : Nat) : Hist α → Tab α
  | [] => fun _ => none
  | (t, .set k cs) :: h => set ttl (run ttl h) t k cs
  | (t, .extend k) :: h => extend ttl (run ttl h) t k

/-- The clock does not go back. -/
def Timed {α} (now : Nat) : Hist α → Prop
  | [] => True
  | (t, _) :: h => t ≤ now ∧ Timed t h

/-- What the history says about one key: the candidates stored last, and when they were stored or
last renewed in time.  Other keys and expiry do not matter. -/
def held {α} (ttl : Nat) (k : Str) : Hist α → Option (List α × Nat)
  | [] => none
  | (t, .set k' cs) :: h => if k' = k then some (cs, t) else held ttl k h
  | (t, .extend k') :: h =>
    match held ttl k h with
    | some (cs, t0) => if k' = k ∧ t < t0 + ttl then some (cs, t) else some (cs, t0)
    | none => none

/-- `cs` are the candidates of `k`, stored or renewed less than the life time ago. -/
def Live {α} (ttl : Nat) (h : Hist α) (now : Nat) (k : Str) (cs : List α) : Prop :=
  ∃ t, held ttl k h = some (cs, t) ∧ now < t + ttl

/-! ### Proofs -/

theorem held_le {α} {ttl : Nat} {k : Str} {h : Hist α} {now : Nat} (ht : Timed now h) {cs : List α} {t : Nat}
    (hh : held ttl k h = some (cs, t)) : t ≤ now := by
  induction h generalizing now t cs with
  | nil => simp [held] at hh
  | cons o h ih =>
    obtain ⟨t', o⟩ := o
    obtain ⟨h1, h2⟩ := ht
    cases o with
    | set k' cs' =>
      simp only [held] at hh
      split at hh
      · simp at hh; omega
      · have := ih h2 hh; omega
    | extend k' =>
      simp only [held] at hh
      split at hh
      · next c0 t0 h0 =>
        have := ih h2 h0
        split at hh <;> simp at hh <;> omega
      · simp at hh

theorem get_purge {α} (m : Tab α) (now : Nat) (k : Str) (e : Entry α) :
    purge m now k = some e ↔ m k = some e ∧ now < e.exp := by
  simp only [purge, Option.filter_eq_some_iff, Entry.expired]
  simp

/-- The table agrees with the history on everything that is alive. -/
theorem run_held {α} {ttl : Nat} {h : Hist α} {now : Nat} (ht : Timed now h) (k : Str) (cs : List α) (x : Nat)
    (hx : now < x) :
    run ttl h k = some ⟨cs, x⟩ ↔ ∃ t, held ttl k h = some (cs, t) ∧ x = t + ttl := by
  induction h generalizing now cs x with
  | nil => simp [run, held]
  | cons o h ih =>
    obtain ⟨t', o⟩ := o
    obtain ⟨h1, h2⟩ := ht
    cases o with
    | set k' cs' =>
      simp only [run, set, held]
      by_cases hk : k = k'
      · subst hk
        simp only [if_true, Option.some.injEq, Entry.mk.injEq, Prod.mk.injEq]
        constructor
        · rintro ⟨rfl, rfl⟩; exact ⟨t', ⟨rfl, rfl⟩, rfl⟩
        · rintro ⟨t, ⟨rfl, rfl⟩, rfl⟩; exact ⟨rfl, rfl⟩
      · rw [if_neg hk, if_neg (fun e => hk e.symm), get_purge]
        rw [ih h2 cs x (by omega)]
        constructor
        · exact And.left
        · intro h3; exact ⟨h3, by show t' < x; omega⟩
    | extend k' =>
      simp only [run, extend, held]
      by_cases hk : k = k'
      · subst hk
        simp only [if_true, true_and]
        constructor
        · intro h3
          obtain ⟨e, he, hex⟩ := Option.map_eq_some_iff.1 h3
          obtain ⟨he1, he2⟩ := (get_purge _ _ _ _).1 he
          obtain ⟨c0, x0⟩ := e
          simp only [Entry.mk.injEq] at hex
          obtain ⟨rfl, rfl⟩ := hex
          obtain ⟨t0, h4, h5⟩ := (ih h2 c0 x0 he2).1 he1
          refine ⟨t', ?_, rfl⟩
          simp only [h4]
          dsimp only at he2
          rw [if_pos (by omega)]
        · rintro ⟨t, h3, rfl⟩
          cases h4 : held ttl k h with
          | none => simp [h4] at h3
          | some p =>
            obtain ⟨c0, t0⟩ := p
            simp only [h4] at h3
            by_cases hlt : t' < t0 + ttl
            · rw [if_pos hlt] at h3
              simp only [Option.some.injEq, Prod.mk.injEq] at h3
              obtain ⟨rfl, rfl⟩ := h3
              have h5 := (ih h2 c0 (t0 + ttl) hlt).2 ⟨t0, h4, rfl⟩
              rw [(get_purge _ _ _ _).2 ⟨h5, hlt⟩]
              rfl
            · rw [if_neg hlt] at h3
              simp only [Option.some.injEq, Prod.mk.injEq] at h3
              obtain ⟨rfl, rfl⟩ := h3
              omega
      · rw [if_neg hk, get_purge, ih h2 cs x (by omega)]
        constructor
        · rintro ⟨⟨t, h3, h4⟩, _⟩
          refine ⟨t, ?_, h4⟩
          simp only [h3]
          rw [if_neg (fun e => hk e.1.symm)]
        · rintro ⟨t, h3, h4⟩
          refine ⟨⟨t, ?_, h4⟩, by show t' < x; omega⟩
          cases h5 : held ttl k h with
          | none => simp [h5] at h3
          | some p =>
            simp only [h5] at h3
            rw [if_neg (fun e => hk e.1.symm)] at h3
            exact h3

theorem live_iff {α} {ttl : Nat} {h : Hist α} {now : Nat} (ht : Timed now h) (k : Str) :
    live (run ttl h) now k = true ↔ ∃ cs, Live ttl h now k cs := by
  simp only [live, Live]
  constructor
  · intro hl
    cases hr : run ttl h k with
    | none => simp [hr] at hl
    | some e =>
      obtain ⟨cs, x⟩ := e
      simp only [hr, Entry.expired] at hl
      have hx : now < x := by simpa using hl
      obtain ⟨t, h1, h2⟩ := (run_held ht k cs x hx).1 hr
      exact ⟨cs, t, h1, by omega⟩
  · rintro ⟨cs, t, h1, h2⟩
    rw [(run_held ht k cs (t + ttl) h2).2 ⟨t, h1, rfl⟩]
    simp [Entry.expired, h2]

theorem get_of_live {α} {ttl : Nat} {h : Hist α} {now : Nat} (ht : Timed now h) {k : Str} {cs : List α}
    (hl : Live ttl h now k cs) : ∃ x, run ttl h k = some ⟨cs, x⟩ := by
  obtain ⟨t, h1, h2⟩ := hl
  exact ⟨t + ttl, (run_held ht k cs (t + ttl) h2).2 ⟨t, h1, rfl⟩⟩

theorem Live.unique {α} {ttl : Nat} {h : Hist α} {now : Nat} {k : Str} {cs cs' : List α}
    (h1 : Live ttl h now k cs) (h2 : Live ttl h now k cs') : cs = cs' := by
  obtain ⟨t, h1, _⟩ := h1
  obtain ⟨t', h2, _⟩ := h2
  rw [h1] at h2
  simp at h2
  exact h2.1

/-- The loop finds the longest proper prefix. -/
theorem shorter_spec {α} (m : Tab α) (now : Nat) (r k : Str) :
    shorter m now r = some k ↔
      (k <+: r.reverse ∧ k ≠ r.reverse ∧ live m now k = true ∧
        ∀ k', k' <+: r.reverse → k' ≠ r.reverse → live m now k' = true → k'.length ≤ k.length) := by
  have pre : ∀ (c : Char) (r k : Str), (k <+: (c :: r).reverse ∧ k ≠ (c :: r).reverse) ↔ k <+: r.reverse := by
    intro c r k
    rw [List.reverse_cons, List.prefix_concat_iff]
    constructor
    · rintro ⟨h1 | h1, h2⟩
      · exact absurd h1 h2
      · exact h1
    · intro h1
      refine ⟨.inr h1, ?_⟩
      rintro rfl
      have := h1.length_le
      simp at this
      omega
  induction r generalizing k with
  | nil =>
    simp only [shorter, List.reverse_nil, List.prefix_nil]
    constructor
    · intro h; simp at h
    · rintro ⟨h1, h2, _⟩; exact absurd h1 h2
  | cons c r ih =>
    rw [shorter, ← and_assoc, pre]
    by_cases hl : live m now r.reverse = true
    · rw [if_pos hl]
      simp only [Option.some.injEq]
      constructor
      · rintro rfl
        exact ⟨List.prefix_refl _, hl, fun k' h1 h2 _ => ((pre c r k').1 ⟨h1, h2⟩).length_le⟩
      · rintro ⟨h1, h2, h3⟩
        have h4 := (pre c r r.reverse).2 (List.prefix_refl _)
        have h5 := h3 _ h4.1 h4.2 hl
        exact (h1.eq_of_length (Nat.le_antisymm h1.length_le h5)).symm
    · rw [if_neg hl]
      refine (ih k).trans ?_
      constructor
      · rintro ⟨h1, h2, h3, h4⟩
        refine ⟨h1, h3, fun k' h5 h6 h7 => ?_⟩
        have h8 := (pre c r k').1 ⟨h5, h6⟩
        exact h4 k' h8 (fun e => hl (e ▸ h7)) h7
      · rintro ⟨h1, h2, h3⟩
        refine ⟨h1, fun e => hl (e ▸ h2), h2, fun k' h5 _ h7 => ?_⟩
        have h8 := (pre c r k').2 h5
        exact h3 k' h8.1 h8.2 h7

theorem longest_spec {α} (m : Tab α) (now : Nat) (input k : Str) (ex : Bool) :
    longestLivePrefix m now input = some (k, ex) ↔
      (k <+: input ∧ live m now k = true ∧ (∀ k', k' <+: input → live m now k' = true → k'.length ≤ k.length) ∧
        (ex = true ↔ k = input)) := by
  unfold longestLivePrefix
  by_cases hl : live m now input = true
  · rw [if_pos hl]
    simp only [Option.some.injEq, Prod.mk.injEq]
    constructor
    · rintro ⟨rfl, rfl⟩
      exact ⟨List.prefix_refl _, hl, fun k' h _ => h.length_le, by simp⟩
    · rintro ⟨h1, h2, h3, h4⟩
      have h5 := h1.eq_of_length (Nat.le_antisymm h1.length_le (h3 _ (List.prefix_refl _) hl))
      exact ⟨h5.symm, (h4.2 h5).symm⟩
  · rw [if_neg hl]
    constructor
    · intro h
      obtain ⟨k0, h1, h2⟩ := Option.map_eq_some_iff.1 h
      simp only [Prod.mk.injEq] at h2
      obtain ⟨rfl, rfl⟩ := h2
      obtain ⟨h3, h4, h5, h6⟩ := (shorter_spec m now _ _).1 h1
      rw [List.reverse_reverse] at h3 h4 h6
      exact ⟨h3, h5, fun k' h7 h8 => h6 k' h7 (fun e => hl (e ▸ h8)) h8, by simp [h4]⟩
    · rintro ⟨h1, h2, h3, h4⟩
      have hne : k ≠ input := fun e => hl (e ▸ h2)
      have hex : ex = false := by
        cases ex
        · rfl
        · exact absurd (h4.1 rfl) hne
      rw [Option.map_eq_some_iff]
      refine ⟨k, (shorter_spec m now _ _).2 ?_, by rw [hex]⟩
      rw [List.reverse_reverse]
      exact ⟨h1, hne, h2, fun k' h5 _ h7 => h3 k' h5 h7⟩

/-- A candidate fits an input: its text continues the whole input or its last word. -/
def Fits {α} (text : α → Str) (input : Str) (c : α) : Prop :=
  input <+: text c ∨ ∃ w, w ≠ [] ∧ (∀ x ∈ w, rustWhitespace x = false) ∧
    (∃ p, input = p ++ w ∧ (p = [] ∨ ∃ q x, p = q ++ [x] ∧ rustWhitespace x = true)) ∧ w <+: text c

theorem lastToken_split (s : Str) : ∃ p, s = p ++ lastToken s ∧
    (p = [] ∨ ∃ q x, p = q ++ [x] ∧ rustWhitespace x = true) ∧ ∀ x ∈ lastToken s, rustWhitespace x = false := by
  refine ⟨(s.reverse.dropWhile fun c => !rustWhitespace c).reverse, ?_, ?_, ?_⟩
  · rw [lastToken, ← List.reverse_append, List.takeWhile_append_dropWhile, List.reverse_reverse]
  · cases h : s.reverse.dropWhile fun c => !rustWhitespace c with
    | nil => exact .inl rfl
    | cons x q =>
      right
      refine ⟨q.reverse, x, by simp, ?_⟩
      have := List.head_dropWhile_not (fun c => !rustWhitespace c) (l := s.reverse) (by rw [h]; simp)
      simp only [h, List.head_cons] at this
      simpa using this
  · intro x hx
    rw [lastToken, List.mem_reverse] at hx
    have : ∀ l : Str, x ∈ l.takeWhile (fun c => !rustWhitespace c) → rustWhitespace x = false := by
      intro l
      induction l with
      | nil => simp
      | cons y l ih =>
        rw [List.takeWhile_cons]
        split
        · next hy =>
          intro hm
          rcases List.mem_cons.1 hm with rfl | hm
          · simpa using hy
          · exact ih hm
        · simp
    exact this _ hx

/-- Only one word ends an input. -/
theorem last_word_unique {p w p' w' : Str} (h : p ++ w = p' ++ w') (hw : ∀ x ∈ w, rustWhitespace x = false)
    (hw' : ∀ x ∈ w', rustWhitespace x = false) (hp : p = [] ∨ ∃ q x, p = q ++ [x] ∧ rustWhitespace x = true)
    (hp' : p' = [] ∨ ∃ q x, p' = q ++ [x] ∧ rustWhitespace x = true) : w = w' := by
  have le : ∀ (p w p' w' : Str), p ++ w = p' ++ w' → (∀ x ∈ w, rustWhitespace x = false) →
      (p' = [] ∨ ∃ q x, p' = q ++ [x] ∧ rustWhitespace x = true) → p'.length ≤ p.length := by
    intro p w p' w' h hw hp'
    rcases hp' with rfl | ⟨q, x, rfl, hx⟩
    · simp
    · by_contra hlt
      have hlt : p.length ≤ q.length := by simp at hlt; omega
      have h1 : x ∈ w := by
        have h2 : (p ++ w)[q.length]? = some x := by rw [h]; simp
        rw [List.getElem?_append_right hlt] at h2
        exact List.mem_of_getElem? h2
      rw [hw x h1] at hx
      simp at hx
  have h1 := le p w p' w' h hw hp'
  have h2 := le p' w' p w h.symm hw' hp
  exact (List.append_inj h (by omega)).2

/-- C38: the filter keeps exactly the candidates that fit. -/
theorem C38_fits {α} (text : α → Str) (input : Str) (c : α) : fits text input c = true ↔ Fits text input c := by
  obtain ⟨p, hp1, hp2, hp3⟩ := lastToken_split input
  simp only [fits, Fits, Bool.or_eq_true, Bool.and_eq_true, List.isPrefixOf_iff_prefix]
  constructor
  · rintro (h | ⟨h1, h2⟩)
    · exact .inl h
    · exact .inr ⟨lastToken input, by simpa using h1, hp3, ⟨p, hp1, hp2⟩, h2⟩
  · rintro (h | ⟨w, h1, h2, ⟨p', h3, h4⟩, h5⟩)
    · exact .inl h
    · right
      have : lastToken input = w := last_word_unique (hp1.symm.trans h3) hp3 h2 hp2 h4
      rw [this]
      exact ⟨by simpa using h1, h5⟩

/-- C38: after every history of stores and renewals, a lookup answers with exactly the longest prefix
of the input that is alive, with the candidates that were stored for it last; filtered to those that
fit, unless the prefix is the whole input. -/
theorem C38_lookup {α} (text : α → Str) (ttl : Nat) (h : Hist α) (now : Nat) (ht : Timed now h) (input : Str) (r : Hit α) :
    lookup text (run ttl h) now input = some r ↔
      (r.key <+: input ∧ (∀ k cs, k <+: input → Live ttl h now k cs → k.length ≤ r.key.length) ∧
        (r.exact = true ↔ r.key = input) ∧
        ∃ cs, Live ttl h now r.key cs ∧ r.cands = if r.exact then cs else cs.filter (fits text input)) := by
  unfold lookup
  constructor
  · intro hl
    split at hl
    · simp at hl
    · next key exact hk =>
      obtain ⟨h1, h2, h3, h4⟩ := (longest_spec _ _ _ _ _).1 hk
      obtain ⟨cs, hcs⟩ := (live_iff ht key).1 h2
      obtain ⟨x, hx⟩ := get_of_live ht hcs
      rw [hx] at hl
      simp only [Option.some.injEq] at hl
      subst hl
      exact ⟨h1, fun k cs' h5 h6 => h3 k h5 ((live_iff ht k).2 ⟨cs', h6⟩), h4, cs, hcs, rfl⟩
  · rintro ⟨h1, h2, h3, cs, hcs, h4⟩
    have hk := (longest_spec (run ttl h) now input r.key r.exact).2
      ⟨h1, (live_iff ht _).2 ⟨cs, hcs⟩, fun k' h5 h6 => by
        obtain ⟨cs', h7⟩ := (live_iff ht k').1 h6
        exact h2 k' cs' h5 h7, h3⟩
    obtain ⟨x, hx⟩ := get_of_live ht hcs
    rw [hk]
    simp only [hx]
    rw [← h4]

/-- There is no answer only if no prefix of the input is alive. -/
theorem C38_miss {α} (text : α → Str) (ttl : Nat) (h : Hist α) (now : Nat) (ht : Timed now h) (input : Str) :
    lookup text (run ttl h) now input = none ↔ ∀ k cs, k <+: input → ¬ Live ttl h now k cs := by
  constructor
  · intro hn k cs hk hl
    -- the longest live prefix exists
    have ex : ∃ k ex, longestLivePrefix (run ttl h) now input = some (k, ex) := by
      have hlive := (live_iff ht k).2 ⟨cs, hl⟩
      by_contra hno
      have hnone : longestLivePrefix (run ttl h) now input = none := by
        cases hc : longestLivePrefix (run ttl h) now input with
        | none => rfl
        | some p => exact absurd ⟨p.1, p.2, hc⟩ hno
      unfold longestLivePrefix at hnone
      split at hnone
      · simp at hnone
      · next hni =>
        rw [Option.map_eq_none_iff] at hnone
        have key : ∀ r : Str, shorter (run ttl h) now r = none → ∀ k', k' <+: r.reverse → k' ≠ r.reverse → live (run ttl h) now k' = false := by
          intro r
          induction r with
          | nil => intro _ k' h1 h2; simp at h1 h2; exact absurd h1 h2
          | cons c r ih =>
            intro hs k' h1 h2
            rw [shorter] at hs
            split at hs
            · simp at hs
            · next hr =>
              rw [List.reverse_cons, List.prefix_concat_iff] at h1
              rcases h1 with h1 | h1
              · exact absurd (by rw [h1, List.reverse_cons]) h2
              · by_cases he : k' = r.reverse
                · rw [he]; simpa using hr
                · exact ih hs k' h1 he
        have := key _ hnone k (by rw [List.reverse_reverse]; exact hk) (by
          rw [List.reverse_reverse]; rintro rfl; exact hni hlive)
        rw [this] at hlive
        simp at hlive
    obtain ⟨k0, ex0, hk0⟩ := ex
    obtain ⟨_, h2, _⟩ := (longest_spec _ _ _ _ _).1 hk0
    obtain ⟨cs0, hcs0⟩ := (live_iff ht k0).1 h2
    obtain ⟨x, hx⟩ := get_of_live ht hcs0
    unfold lookup at hn
    simp [hk0, hx] at hn
  · intro hno
    cases hc : lookup text (run ttl h) now input with
    | none => rfl
    | some r =>
      obtain ⟨h1, _, _, cs, h2, _⟩ := (C38_lookup text ttl h now ht input r).1 hc
      exact absurd h2 (hno r.key cs h1)

/-- C38: what is alive was stored for that key, nothing was stored for it since, and it was stored or
renewed less than the life time ago. -/
theorem C38_live {α} {ttl : Nat} {h : Hist α} {now : Nat} {k : Str} {cs : List α} (hl : Live ttl h now k cs) :
    ∃ h2 t h1, h = h2 ++ (t, .set k cs) :: h1 ∧ (∀ t' cs', (t', Op.set k cs') ∉ h2) ∧
      ∃ t', (t' = t ∨ (t', Op.extend k) ∈ h2) ∧ now < t' + ttl := by
  obtain ⟨t0, hh, hlt⟩ := hl
  suffices hs : ∃ h2 t h1, h = h2 ++ (t, .set k cs) :: h1 ∧ (∀ t' cs', (t', Op.set k cs') ∉ h2) ∧
      (t0 = t ∨ (t0, Op.extend k) ∈ h2) by
    obtain ⟨h2, t, h1, a, b, c⟩ := hs
    exact ⟨h2, t, h1, a, b, t0, c, hlt⟩
  clear hlt
  induction h generalizing t0 with
  | nil => simp [held] at hh
  | cons o h ih =>
    obtain ⟨t', o⟩ := o
    cases o with
    | set k' cs' =>
      simp only [held] at hh
      split at hh
      · next hk =>
        simp only [Option.some.injEq, Prod.mk.injEq] at hh
        obtain ⟨rfl, rfl⟩ := hh
        exact ⟨[], t', h, by rw [hk]; rfl, by simp, .inl rfl⟩
      · next hk =>
        obtain ⟨h2, t, h1, a, b, c⟩ := ih _ hh
        refine ⟨(t', .set k' cs') :: h2, t, h1, by rw [a]; rfl, ?_, ?_⟩
        · intro t'' cs'' hm
          rcases List.mem_cons.1 hm with e | hm
          · simp only [Prod.mk.injEq, Op.set.injEq] at e
            exact hk e.2.1.symm
          · exact b _ _ hm
        · rcases c with c | c
          · exact .inl c
          · exact .inr (List.mem_cons_of_mem _ c)
    | extend k' =>
      simp only [held] at hh
      split at hh
      · next c0 t1 h0 =>
        have hcs : c0 = cs := by split at hh <;> simp at hh <;> exact hh.1
        subst hcs
        obtain ⟨h2, t, h1, a, b, c⟩ := ih _ h0
        refine ⟨(t', .extend k') :: h2, t, h1, by rw [a]; rfl, ?_, ?_⟩
        · intro t'' cs'' hm
          rcases List.mem_cons.1 hm with e | hm
          · simp at e
          · exact b _ _ hm
        · split at hh
          · next hc =>
            simp only [Option.some.injEq, Prod.mk.injEq, true_and] at hh
            subst hh
            right
            rw [hc.1]
            simp
          · simp only [Option.some.injEq, Prod.mk.injEq, true_and] at hh
            subst hh
            rcases c with c | c
            · exact .inl c
            · exact .inr (List.mem_cons_of_mem _ c)
      · simp at hh

/-- C38: and what was stored less than the life time ago is alive, until something else is stored for
the same key. -/
theorem C38_stored {α} {ttl : Nat} {h2 h1 : Hist α} {now t : Nat} {k : Str} {cs : List α}
    (ht : Timed now (h2 ++ (t, .set k cs) :: h1)) (hno : ∀ t' cs', (t', Op.set k cs') ∉ h2) (hlt : now < t + ttl) :
    Live ttl (h2 ++ (t, .set k cs) :: h1) now k cs := by
  suffices hs : ∃ t', held ttl k (h2 ++ (t, .set k cs) :: h1) = some (cs, t') ∧ t ≤ t' by
    obtain ⟨t', a, b⟩ := hs
    exact ⟨t', a, by omega⟩
  clear hlt
  induction h2 generalizing now with
  | nil => exact ⟨t, by simp [held], Nat.le_refl _⟩
  | cons o h2 ih =>
    obtain ⟨t1, o⟩ := o
    obtain ⟨h3, h4⟩ := ht
    obtain ⟨t', a, b⟩ := ih h4 (fun t' cs' hm => hno t' cs' (List.mem_cons_of_mem _ hm))
    cases o with
    | set k' cs' =>
      have hk : k' ≠ k := by rintro rfl; exact hno t1 cs' (by simp)
      exact ⟨t', by simp only [List.cons_append, held, if_neg hk, a], b⟩
    | extend k' =>
      simp only [List.cons_append, held, a]
      split
      · refine ⟨t1, rfl, ?_⟩
        have := held_le h4 a
        omega
      · exact ⟨t', rfl, b⟩

theorem lookup_exact {α} (text : α → Str) {m : Tab α} {now : Nat} {k : Str} {cs : List α} {x : Nat} (h : m k = some ⟨cs, x⟩)
    (hx : now < x) : lookup text m now k = some ⟨k, cs, true⟩ := by
  have hl : live m now k = true := by simp [live, h, Entry.expired, hx]
  have : longestLivePrefix m now k = some (k, true) := by rw [longestLivePrefix, if_pos hl]
  simp only [lookup, this, h]
  rfl

/-- An example: two prefixes are stored, one is renewed in time, and the longer one answers. -/
def exHist : Hist Str := [(50, .extend c!"ls "), (40, .set c!"l" [c!"ls"]), (10, .set c!"ls " [c!"src", c!"doc"])]

example : Timed 100 exHist ∧ (lookup id (run 60 exHist) 100 c!"ls d").map (fun r => (r.key, r.cands, r.exact)) =
    some (c!"ls ", [c!"doc"], false) := by
  refine ⟨⟨by decide, by decide, by decide, trivial⟩, by decide +kernel⟩

/-! ### Use by the completion engine -/

/-- The answer to a request and the cache after it (integrated.rs:273-366).  `fresh` stands for
everything that is computed without the cache: it depends on the line, the cursor, the directory and
the state of the world.  `dyn` is `is_dynamic_completion_command`. -/
structure Req (D : Type) where
  input : Str
  cursor : Nat
  dir : D

/-- `complete` (integrated.rs:273-366, 679-695). -/
def complete {α D} (text : α → Str) (ttl : Nat) (dyn : Str → Nat → Bool) (fresh : Req D → List α) (m : Tab α) (now : Nat)
    (q : Req D) : List α × Tab α :=
  let hit := if !dyn q.input q.cursor && !q.input.isEmpty then lookup text m now q.input else none
  match hit.filter fun r => r.exact || !r.cands.isEmpty with
  | some r => (r.cands, extend ttl m now r.key)
  | none =>
    let cs := fresh q
    if dyn q.input q.cursor || q.input.isEmpty || cs.isEmpty then (cs, m) else (cs, set ttl m now q.input cs)

/-- A session: requests with their times and what a fresh answer was at that time, newest first. -/
def session {α D} (text : α → Str) (ttl : Nat) (dyn : Str → Nat → Bool) : List (Nat × Req D × (Req D → List α)) → Tab α
  | [] => fun _ => none
  | (t, q, fresh) :: l => (complete text ttl dyn fresh (session text ttl dyn l) t q).2

/-- The times of a session. -/
def InOrder {α D} (now : Nat) : List (Nat × Req D × (Req D → List α)) → Prop
  | [] => True
  | (t, _, _) :: l => t ≤ now ∧ InOrder t l

/-- Every session is a history of the cache in which each store is the fresh answer to a request with
that very line. -/
theorem session_hist {α D} (text : α → Str) (ttl : Nat) (dyn : Str → Nat → Bool) (l : List (Nat × Req D × (Req D → List α)))
    (now : Nat) (ho : InOrder now l) : ∃ h : Hist α, session text ttl dyn l = run ttl h ∧ Timed now h ∧
      (∀ t k cs, (t, Op.set k cs) ∈ h → ∃ q fresh, (t, q, fresh) ∈ l ∧ q.input = k ∧ cs = fresh q) ∧
      (∀ t o, (t, o) ∈ h → ∃ q fresh, (t, q, fresh) ∈ l) := by
  induction l generalizing now with
  | nil => exact ⟨[], rfl, trivial, by simp, by simp⟩
  | cons p l ih =>
    obtain ⟨t, q, fresh⟩ := p
    obtain ⟨h1, h2⟩ := ho
    obtain ⟨h, a, b, c, d⟩ := ih t h2
    have lift : ∀ t' : Nat, (∃ q fresh, (t', q, fresh) ∈ l) → ∃ q' fresh', (t', q', fresh') ∈ (t, q, fresh) :: l := by
      rintro t' ⟨q', f', hm⟩; exact ⟨q', f', List.mem_cons_of_mem _ hm⟩
    have liftS : ∀ (t' : Nat) (k : Str) (cs : List α), (∃ q fresh, (t', q, fresh) ∈ l ∧ q.input = k ∧ cs = fresh q) →
        ∃ q' fresh', (t', q', fresh') ∈ (t, q, fresh) :: l ∧ q'.input = k ∧ cs = fresh' q' := by
      rintro t' k cs ⟨q', f', hm, e⟩; exact ⟨q', f', List.mem_cons_of_mem _ hm, e⟩
    simp only [session, complete]
    split
    · next r hr =>
      refine ⟨(t, .extend r.key) :: h, by rw [a]; rfl, ⟨h1, b⟩, ?_, ?_⟩
      · intro t' k cs hm
        rcases List.mem_cons.1 hm with e | hm
        · simp at e
        · exact liftS _ _ _ (c _ _ _ hm)
      · intro t' o hm
        rcases List.mem_cons.1 hm with e | hm
        · simp only [Prod.mk.injEq] at e
          exact ⟨q, fresh, by rw [e.1]; simp⟩
        · exact lift _ (d _ _ hm)
    · split
      · have hb : Timed now h := by
          cases h with
          | nil => trivial
          | cons x y => exact ⟨Nat.le_trans b.1 h1, b.2⟩
        exact ⟨h, a, hb, fun t' k cs hm => liftS _ _ _ (c _ _ _ hm), fun t' o hm => lift _ (d _ _ hm)⟩
      · refine ⟨(t, .set q.input (fresh q)) :: h, by rw [a]; rfl, ⟨h1, b⟩, ?_, ?_⟩
        · intro t' k cs hm
          rcases List.mem_cons.1 hm with e | hm
          · simp only [Prod.mk.injEq, Op.set.injEq] at e
            exact ⟨q, fresh, by rw [e.1]; simp, e.2.1.symm, e.2.2⟩
          · exact liftS _ _ _ (c _ _ _ hm)
        · intro t' o hm
          rcases List.mem_cons.1 hm with e | hm
          · simp only [Prod.mk.injEq] at e
            exact ⟨q, fresh, by rw [e.1]; simp⟩
          · exact lift _ (d _ _ hm)

/-- C99, what holds: after every session, an answer is either fresh, or it consists of candidates of
the fresh answer to an earlier request whose line was this one or a beginning of it, and then some
request was made less than the life time ago.  For the commands with live completion, and after a
pause as long as the life time, it is fresh. -/
theorem C99_fresh_partial {α D} (text : α → Str) (ttl : Nat) (dyn : Str → Nat → Bool) (l : List (Nat × Req D × (Req D → List α)))
    (now : Nat) (ho : InOrder now l) (fresh : Req D → List α) (q : Req D) :
    ((complete text ttl dyn fresh (session text ttl dyn l) now q).1 = fresh q ∨
      ∃ t q' fresh', (t, q', fresh') ∈ l ∧ q'.input <+: q.input ∧
        (∀ c ∈ (complete text ttl dyn fresh (session text ttl dyn l) now q).1, c ∈ fresh' q') ∧
        ∃ t' q'' fresh'', (t', q'', fresh'') ∈ l ∧ now < t' + ttl) ∧
    (dyn q.input q.cursor = true → (complete text ttl dyn fresh (session text ttl dyn l) now q).1 = fresh q) ∧
    ((∀ t q' fresh', (t, q', fresh') ∈ l → t + ttl ≤ now) →
      (complete text ttl dyn fresh (session text ttl dyn l) now q).1 = fresh q) := by
  obtain ⟨h, a, b, c, d⟩ := session_hist text ttl dyn l now ho
  -- a hit comes from the history
  have hit : ∀ r, lookup text (session text ttl dyn l) now q.input = some r →
      ∃ t q' fresh', (t, q', fresh') ∈ l ∧ q'.input <+: q.input ∧ (∀ c ∈ r.cands, c ∈ fresh' q') ∧
        ∃ t' q'' fresh'', (t', q'', fresh'') ∈ l ∧ now < t' + ttl := by
    intro r hr
    rw [a] at hr
    obtain ⟨h1, _, _, cs, h2, h3⟩ := (C38_lookup text ttl h now b q.input r).1 hr
    obtain ⟨h4, t, h5, e1, _, t', e3, e4⟩ := C38_live h2
    obtain ⟨q', f', m1, m2, m3⟩ := c t r.key cs (by rw [e1]; simp)
    refine ⟨t, q', f', m1, by rw [m2]; exact h1, ?_, ?_⟩
    · intro x hx
      rw [h3] at hx
      rw [← m3]
      split at hx
      · exact hx
      · exact (List.mem_filter.1 hx).1
    · have : ∃ o, (t', o) ∈ h := by
        rcases e3 with rfl | e3
        · exact ⟨.set r.key cs, by rw [e1]; simp⟩
        · exact ⟨.extend r.key, by rw [e1]; exact List.mem_append_left _ e3⟩
      obtain ⟨o, ho'⟩ := this
      obtain ⟨q'', f'', m⟩ := d t' o ho'
      exact ⟨t', q'', f'', m, e4⟩
  have miss : ∀ x, (∀ r, (if (!dyn q.input q.cursor && !q.input.isEmpty) = true then lookup text (session text ttl dyn l) now q.input
        else none) = some r → (r.exact || !r.cands.isEmpty) = true → False) →
      x = (complete text ttl dyn fresh (session text ttl dyn l) now q).1 → x = fresh q := by
    intro x hno hx
    rw [hx]
    simp only [complete]
    split
    · next r hr =>
      obtain ⟨h1, h2⟩ := Option.filter_eq_some_iff.1 hr
      exact (hno r h1 h2).elim
    · split <;> rfl
  refine ⟨?_, ?_, ?_⟩
  · by_cases hex : ∃ r, (if (!dyn q.input q.cursor && !q.input.isEmpty) = true then lookup text (session text ttl dyn l) now q.input
        else none) = some r ∧ (r.exact || !r.cands.isEmpty) = true
    · obtain ⟨r, h1, h2⟩ := hex
      right
      have hr : (complete text ttl dyn fresh (session text ttl dyn l) now q).1 = r.cands := by
        simp only [complete]
        rw [h1, Option.filter_some, if_pos h2]
      rw [hr]
      refine hit r ?_
      split at h1
      · exact h1
      · simp at h1
    · left
      exact miss _ (fun r h1 h2 => hex ⟨r, h1, h2⟩) rfl
  · intro hd
    refine miss _ (fun r h1 _ => ?_) rfl
    rw [hd] at h1
    simp at h1
  · intro hold
    refine miss _ (fun r h1 _ => ?_) rfl
    split at h1
    · obtain ⟨_, _, _, _, _, _, t', q'', f'', m, e⟩ := hit r h1
      have := hold t' q'' f'' m
      omega
    · simp at h1

/-- The same request again and again, `n` times, with `d` between them. -/
def again {α D} (q : Req D) (fresh : Req D → List α) (d : Nat) : Nat → List (Nat × Req D × (Req D → List α))
  | 0 => [(0, q, fresh)]
  | n + 1 => ((n + 1) * d, q, fresh) :: again q fresh d n

/-- C99, what does not hold: the answer for one directory, cursor and state of the files is given for
another one, for all directories and files; it is kept for any time as long as the pauses are short;
and candidates for one word are offered for a later one. -/
theorem C99_violated :
    (∀ {α D : Type} (text : α → Str) (ttl d : Nat) (dyn : Str → Nat → Bool) (fresh fresh' : Req D → List α) (q q' : Req D) (n : Nat),
      d < ttl → q.input ≠ [] → q'.input = q.input → dyn q.input q.cursor = false → dyn q'.input q'.cursor = false →
      fresh q ≠ [] →
      (complete text ttl dyn fresh' (session text ttl dyn (again q fresh d n)) ((n + 1) * d) q').1 = fresh q) ∧
    (∀ {D : Type} (d d' : D) (fresh : Req D → List Str),
      fresh ⟨c!"make ", 5, d⟩ = [c!"all", c!"clean"] → fresh ⟨c!"make all c", 10, d'⟩ = [c!"config"] →
      (complete id 3000 (fun _ _ => false) fresh (session id 3000 (fun _ _ => false) [(0, ⟨c!"make ", 5, d⟩, fresh)]) 1000
        ⟨c!"make all c", 10, d'⟩).1 = [c!"clean"]) := by
  refine ⟨?_, ?_⟩
  · intro α D text ttl d dyn fresh fresh' q q' n hd hne hq h1 h2 hf
    have hi : q.input.isEmpty = false := by simpa using hne
    -- the entry stays alive
    have inv : ∀ n, ∃ x, session text ttl dyn (again q fresh d n) q.input = some ⟨fresh q, x⟩ ∧ n * d + ttl = x := by
      intro n
      induction n with
      | zero =>
        refine ⟨0 + ttl, ?_, by omega⟩
        have hl : lookup text (fun _ => (none : Option (Entry α))) 0 q.input = none := by
          have hs : ∀ r : Str, shorter (fun _ => (none : Option (Entry α))) 0 r = none := by
            intro r
            induction r with
            | nil => rfl
            | cons c r ih => simp [shorter, live, ih]
          simp [lookup, longestLivePrefix, live, hs]
        have hfe : (fresh q).isEmpty = false := by simpa using hf
        simp only [again, session, complete, h1, hi, hl, hfe]
        simp [set]
      | succ n ih =>
        obtain ⟨x, hx, hxe⟩ := ih
        refine ⟨(n + 1) * d + ttl, ?_, rfl⟩
        have hlt : (n + 1) * d < x := by rw [← hxe, Nat.succ_mul]; omega
        simp only [again, session, complete, h1, hi, lookup_exact text hx hlt]
        simp only [Bool.not_false, Bool.and_self, if_true, Option.filter_some, Bool.true_or, extend]
        rw [(get_purge _ _ _ _).2 ⟨hx, hlt⟩]
        rfl
    obtain ⟨x, hx, hxe⟩ := inv n
    have hlt : (n + 1) * d < x := by rw [← hxe, Nat.succ_mul]; omega
    rw [hq] at h2
    simp only [complete, hq, h2, hi, lookup_exact text hx hlt]
    rfl
  · intro D d d' fresh h1 h2
    have hs : (session id 3000 (fun _ _ => false) [(0, (⟨c!"make ", 5, d⟩ : Req D), fresh)]) =
        set 3000 (fun _ => none) 0 c!"make " [c!"all", c!"clean"] := by
      simp only [session, complete]
      rw [h1]
      rfl
    rw [hs]
    rfl

end Dsh.Cache
