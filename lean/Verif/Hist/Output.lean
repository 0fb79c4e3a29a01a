import Verif.Util
/-!
The history of captured outputs (dsh-types/src/output_history.rs) and its properties: C20, C68.

Sizes are bytes of UTF-8.  `usize` is unbounded here (the sums involved stay below the memory of
the machine).  `none` as a result of `push` is a loop that never ends.
-/
namespace Dsh.OutHist

abbrev Str := List Char

/-- Length in bytes. -/
def bytes (s : Str) : Nat := (s.map Char.utf8Size).sum

/-- `OutputEntry` (output_history.rs:20-31) without the time. -/
structure Entry where
  command : Str
  stdout : Str
  stderr : Str
  code : Int
deriving DecidableEq, Repr

/-- `size` (output_history.rs:46-48). -/
def Entry.size (e : Entry) : Nat := bytes e.command + bytes e.stdout + bytes e.stderr

/-- The characters before the last character boundary at or below byte `n` (the loops at
output_history.rs:67-69, 74-76, which stop at the end of the text at the latest, and `truncate`). -/
def floorTo : Nat → Str → Str
  | _, [] => []
  | n, c :: cs => if c.utf8Size ≤ n then c :: floorTo (n - c.utf8Size) cs else []

/-- The marker. -/
def marker : Str := c!"\n... (truncated)"

/-- Keep `k` (a prefix of `s`), and mark it if something is cut off (output_history.rs:78-85). -/
def cutTo (k s : Str) : Str := if bytes s > bytes k then k ++ marker else s

/-- `truncate` (output_history.rs:51-86).  `share max out total` is the share of stdout, computed in
floating point in the source (lines 63-64). -/
def Entry.truncate (share : Nat → Nat → Nat → Nat) (max : Nat) (e : Entry) : Entry :=
  let total := bytes e.stdout + bytes e.stderr
  if total ≤ max then e
  else if total = 0 then e
  else
    let out := floorTo (share max (bytes e.stdout) total) e.stdout
    let err := floorTo (max - bytes out) e.stderr
    { e with stdout := cutTo out e.stdout, stderr := cutTo err e.stderr }

/-- `OutputHistory` (output_history.rs:91-102): newest first. -/
structure Hist where
  entries : List Entry
  maxEntries : Nat
  maxEntry : Nat
  total : Nat
  maxTotal : Nat
deriving Repr

/-- `with_capacity` (output_history.rs:123-135). -/
def withCapacity (n per total : Nat) : Hist := ⟨[], n, per, 0, total⟩

/-- `new` (output_history.rs:112-120) with the defaults of lines 10, 13, 16. -/
def new : Hist := withCapacity 100 (1024 * 1024) (50 * 1024 * 1024)

/-- Remove the oldest entry (output_history.rs:148-150, 155-157). -/
def Hist.dropOldest (h : Hist) : Hist :=
  match h.entries.getLast? with
  | none => h
  | some old => { h with entries := h.entries.dropLast, total := h.total - old.size }

/-- The first loop of `push` (output_history.rs:147-151) from a history of at most `fuel` entries. -/
def Hist.shrinkCount : Nat → Hist → Hist
  | 0, h => h
  | fuel + 1, h => if h.entries.length ≥ h.maxEntries then shrinkCount fuel h.dropOldest else h

/-- The second loop of `push` (output_history.rs:154-158). -/
def Hist.shrinkSize (size : Nat) : Nat → Hist → Hist
  | 0, h => h
  | fuel + 1, h =>
    if h.total + size > h.maxTotal && !h.entries.isEmpty then shrinkSize size fuel h.dropOldest else h

/-- `push` (output_history.rs:141-163).  With room for no entry the first loop never ends. -/
def Hist.push (share : Nat → Nat → Nat → Nat) (h : Hist) (e : Entry) : Option Hist :=
  let e := e.truncate share h.maxEntry
  if h.maxEntries = 0 then none
  else
    let h1 := h.shrinkCount h.entries.length
    let h2 := h1.shrinkSize e.size h1.entries.length
    some { h2 with total := h2.total + e.size, entries := e :: h2.entries }

/-- `get` (output_history.rs:166-172). -/
def Hist.get (h : Hist) (i : Nat) : Option Entry :=
  if i = 0 || i > h.entries.length then none else h.entries[i - 1]?

/-- `clear` (output_history.rs:205-208). -/
def Hist.clear (h : Hist) : Hist := { h with entries := [], total := 0 }

/-- Value of a text of digits in front of which `v` has been read. -/
def digits : Nat → Str → Option Nat
  | v, [] => some v
  | v, c :: cs => if c.isDigit then digits (10 * v + (c.toNat - 48)) cs else none

/-- The optional sign. -/
def stripPlus : Str → Str
  | '+' :: t => t
  | t => t

/-- `strip_prefix('$').unwrap_or(key)` (output_history.rs:231). -/
def stripDollar : Str → Str
  | '$' :: t => t
  | t => t

/-- `str::parse::<usize>`: an optional `+`, at least one digit, no overflow of 64 bits. -/
def parseUsize (s : Str) : Option Nat :=
  let body := stripPlus s
  if body.isEmpty then none
  else match digits 0 body with
    | some v => if v < 2 ^ 64 then some v else none
    | none => none

/-- `parse_output_var` (output_history.rs:228-244). -/
def parseOutputVar (key prefix_ : Str) : Option Nat :=
  let key := stripDollar key
  if key = prefix_ then some 1
  else if (prefix_ ++ ['[']).isPrefixOf key && [']'].isSuffixOf key then
    parseUsize ((key.drop (prefix_.length + 1)).dropLast)
  else none

/-! ### Sizes -/

theorem bytes_append (a b : Str) : bytes (a ++ b) = bytes a + bytes b := by simp [bytes]

theorem floorTo_prefix (n : Nat) (s : Str) : (floorTo n s).IsPrefix s := by
  induction s generalizing n with
  | nil => cases n <;> exact List.prefix_refl _
  | cons c s ih =>
    rw [floorTo]
    split_ifs
    · obtain ⟨t, ht⟩ := ih (n - c.utf8Size)
      exact ⟨t, by rw [List.cons_append, ht]⟩
    · exact List.nil_prefix

theorem floorTo_bytes (n : Nat) (s : Str) : bytes (floorTo n s) ≤ n := by
  induction s generalizing n with
  | nil => simp [floorTo, bytes]
  | cons c s ih =>
    rw [floorTo]
    split_ifs with h
    · have := ih (n - c.utf8Size)
      simp only [bytes, List.map_cons, List.sum_cons] at this ⊢
      omega
    · simp [bytes]

/-- At most one character more would not fit. -/
theorem floorTo_max {n : Nat} {s : Str} (h : floorTo n s ≠ s) :
    ∃ c t, s = floorTo n s ++ c :: t ∧ bytes (floorTo n s) + c.utf8Size > n := by
  induction s generalizing n with
  | nil => exact absurd (by cases n <;> rfl) h
  | cons c s ih =>
    rw [floorTo] at h ⊢
    split_ifs at h ⊢ with hc
    · obtain ⟨d, t, h1, h2⟩ := ih (fun he => h (by rw [he]))
      refine ⟨d, t, by rw [List.cons_append, ← h1], ?_⟩
      simp only [bytes, List.map_cons, List.sum_cons] at h2 ⊢
      omega
    · exact ⟨c, s, rfl, by simp [bytes]; omega⟩

theorem marker_bytes : bytes marker = 16 := by decide

theorem cutTo_bytes (k s : Str) (h : bytes k ≤ bytes s) : bytes (cutTo k s) ≤ bytes k + 16 := by
  unfold cutTo
  split_ifs
  · rw [bytes_append, marker_bytes]; exact Nat.le_refl _
  · omega

theorem bytes_prefix {a b : Str} (h : a.IsPrefix b) : bytes a ≤ bytes b := by
  obtain ⟨t, rfl⟩ := h; rw [bytes_append]; omega

/-- What one capture becomes: kept whole if it fits, else both texts are cut at a character
boundary and marked. -/
theorem truncate_spec (share : Nat → Nat → Nat → Nat) (max : Nat) (e : Entry) :
    (e.truncate share max).command = e.command ∧ (e.truncate share max).code = e.code ∧
    (bytes e.stdout + bytes e.stderr ≤ max → e.truncate share max = e) ∧
    (∃ o r, o.IsPrefix e.stdout ∧ r.IsPrefix e.stderr ∧
      ((e.truncate share max).stdout = e.stdout ∨ (e.truncate share max).stdout = o ++ marker) ∧
      ((e.truncate share max).stderr = e.stderr ∨ (e.truncate share max).stderr = r ++ marker)) ∧
    ((∀ o t, share max o t ≤ max) →
      bytes (e.truncate share max).stdout + bytes (e.truncate share max).stderr ≤ max + 32) := by
  unfold Entry.truncate
  simp only
  split_ifs with h1 h2
  · exact ⟨rfl, rfl, fun _ => rfl, ⟨[], [], List.nil_prefix, List.nil_prefix, .inl rfl, .inl rfl⟩, fun _ => by omega⟩
  · exact ⟨rfl, rfl, fun _ => rfl, ⟨[], [], List.nil_prefix, List.nil_prefix, .inl rfl, .inl rfl⟩, fun _ => by omega⟩
  · refine ⟨rfl, rfl, fun h => absurd h h1, ⟨floorTo (share max (bytes e.stdout) (bytes e.stdout + bytes e.stderr))
      e.stdout, floorTo (max - bytes (floorTo (share max (bytes e.stdout) (bytes e.stdout + bytes e.stderr)) e.stdout))
      e.stderr, floorTo_prefix _ _, floorTo_prefix _ _, ?_, ?_⟩, ?_⟩
    · simp only [cutTo]; split_ifs <;> simp
    · simp only [cutTo]; split_ifs <;> simp
    · intro hs
      have h3 := floorTo_bytes (share max (bytes e.stdout) (bytes e.stdout + bytes e.stderr)) e.stdout
      have h4 := hs (bytes e.stdout) (bytes e.stdout + bytes e.stderr)
      have h5 := cutTo_bytes _ e.stdout (bytes_prefix (floorTo_prefix
        (share max (bytes e.stdout) (bytes e.stdout + bytes e.stderr)) e.stdout))
      have h6 := floorTo_bytes (max - bytes (floorTo (share max (bytes e.stdout)
        (bytes e.stdout + bytes e.stderr)) e.stdout)) e.stderr
      have h7 := cutTo_bytes _ e.stderr (bytes_prefix (floorTo_prefix (max - bytes (floorTo (share max
        (bytes e.stdout) (bytes e.stdout + bytes e.stderr)) e.stdout)) e.stderr))
      simp only
      omega

/-! ### Invariant -/

/-- Sum of the sizes. -/
def sizes (l : List Entry) : Nat := (l.map Entry.size).sum

/-- The recorded total is the true one, and there are not too many entries. -/
structure Good (h : Hist) : Prop where
  total : h.total = sizes h.entries
  count : h.entries.length ≤ h.maxEntries

/-- Same limits. -/
def Same (a b : Hist) : Prop := a.maxEntries = b.maxEntries ∧ a.maxEntry = b.maxEntry ∧ a.maxTotal = b.maxTotal

theorem dropOldest_spec {h : Hist} (ht : h.total = sizes h.entries) :
    h.dropOldest.entries = h.entries.dropLast ∧ h.dropOldest.total = sizes h.dropOldest.entries ∧
    Same h.dropOldest h := by
  unfold Hist.dropOldest
  cases hl : h.entries.getLast? with
  | none =>
    rw [List.getLast?_eq_none_iff] at hl
    exact ⟨by simp [hl], ht, rfl, rfl, rfl⟩
  | some old =>
    obtain ⟨xs, hx⟩ := List.getLast?_eq_some_iff.1 hl
    refine ⟨rfl, ?_, rfl, rfl, rfl⟩
    simp only [ht, hx, sizes, List.dropLast_concat, List.map_append, List.map_cons, List.map_nil,
      List.sum_append, List.sum_cons, List.sum_nil]
    omega

/-- The first loop keeps the newest entries, one less than there is room for. -/
theorem shrinkCount_spec {fuel : Nat} {h : Hist} (hf : h.entries.length ≤ fuel) (h0 : h.maxEntries ≠ 0)
    (ht : h.total = sizes h.entries) :
    (h.shrinkCount fuel).entries = h.entries.take (h.maxEntries - 1) ∧
    (h.shrinkCount fuel).total = sizes (h.shrinkCount fuel).entries ∧ Same (h.shrinkCount fuel) h := by
  induction fuel generalizing h with
  | zero =>
    have : h.entries = [] := List.eq_nil_of_length_eq_zero (by omega)
    simp only [Hist.shrinkCount]
    exact ⟨by simp [this], ht, rfl, rfl, rfl⟩
  | succ fuel ih =>
    simp only [Hist.shrinkCount]
    split_ifs with hc
    · obtain ⟨h1, h2, h3, h4, h5⟩ := dropOldest_spec ht
      obtain ⟨i1, i2, i3, i4, i5⟩ := ih (h := h.dropOldest) (by rw [h1, List.length_dropLast]; omega)
        (by rw [h3]; exact h0) h2
      refine ⟨?_, i2, i3.trans h3, i4.trans h4, i5.trans h5⟩
      rw [i1, h1, h3, List.dropLast_eq_take, List.take_take]
      congr 1
      omega
    · exact ⟨(List.take_of_length_le (by omega)).symm, ht, rfl, rfl, rfl⟩

/-- The second loop keeps the longest run of newest entries that leaves room. -/
theorem shrinkSize_spec {size fuel : Nat} {h : Hist} (hf : h.entries.length ≤ fuel)
    (ht : h.total = sizes h.entries) :
    ∃ k, (h.shrinkSize size fuel).entries = h.entries.take k ∧ k ≤ h.entries.length ∧
      (k = 0 ∨ sizes (h.entries.take k) + size ≤ h.maxTotal) ∧
      (∀ j, k < j → j ≤ h.entries.length → sizes (h.entries.take j) + size > h.maxTotal) ∧
      (h.shrinkSize size fuel).total = sizes (h.shrinkSize size fuel).entries ∧
      Same (h.shrinkSize size fuel) h := by
  induction fuel generalizing h with
  | zero =>
    have : h.entries = [] := List.eq_nil_of_length_eq_zero (by omega)
    simp only [Hist.shrinkSize]
    exact ⟨0, by simp [this], by omega, .inl rfl, fun j h1 h2 => by simp [this] at h2; omega, ht, rfl, rfl, rfl⟩
  | succ fuel ih =>
    simp only [Hist.shrinkSize]
    split_ifs with hc
    · simp only [Bool.and_eq_true, decide_eq_true_eq, Bool.not_eq_true', List.isEmpty_eq_false_iff] at hc
      obtain ⟨h1, h2, h3, h4, h5⟩ := dropOldest_spec ht
      have hlen : h.entries.length ≠ 0 := by
        intro he; exact hc.2 (List.eq_nil_of_length_eq_zero he)
      obtain ⟨k, i1, i2, i3, i4, i5, i6, i7, i8⟩ := ih (h := h.dropOldest) (by
        rw [h1, List.length_dropLast]; omega) h2
      have htake : ∀ j, j ≤ h.entries.length - 1 → h.dropOldest.entries.take j = h.entries.take j := by
        intro j hj
        rw [h1, List.dropLast_eq_take, List.take_take]
        congr 1; omega
      have hk : k ≤ h.entries.length - 1 := by rw [h1, List.length_dropLast] at i2; exact i2
      refine ⟨k, by rw [i1, htake k hk], by omega, ?_, ?_, i5, i6.trans h3, i7.trans h4, i8.trans h5⟩
      · rw [← htake k hk, ← h5]; exact i3
      · intro j hj1 hj2
        by_cases hj : j ≤ h.entries.length - 1
        · rw [← htake j hj, ← h5]
          exact i4 j hj1 (by rw [h1, List.length_dropLast]; exact hj)
        · have : j = h.entries.length := by omega
          rw [this, List.take_length, ← ht]
          exact hc.1
    · simp only [Bool.and_eq_true, decide_eq_true_eq, Bool.not_eq_true', List.isEmpty_eq_false_iff, not_and,
        Classical.not_not] at hc
      refine ⟨h.entries.length, (List.take_length).symm, Nat.le_refl _, ?_, fun j h1 h2 => by omega, ht, rfl, rfl, rfl⟩
      rw [List.take_length, ← ht]
      by_cases h1 : h.total + size > h.maxTotal
      · exact .inl (by simp [hc h1])
      · exact .inr (by omega)

/-! ### C20 -/

/-- **C20, one capture.** The new entry comes first; of the old entries the newest ones are kept, as many
as the limits allow, in order. -/
theorem C20_push (share : Nat → Nat → Nat → Nat) {h : Hist} (hg : Good h) (h0 : h.maxEntries ≠ 0) (e : Entry) :
    ∃ h' k, h.push share e = some h' ∧ Good h' ∧ Same h' h ∧
      h'.entries = e.truncate share h.maxEntry :: h.entries.take k ∧
      k ≤ h.entries.length ∧ k + 1 ≤ h.maxEntries ∧
      (k = 0 ∨ sizes h'.entries ≤ h.maxTotal) ∧
      (∀ j, k < j → j ≤ h.entries.length → j + 1 ≤ h.maxEntries →
        sizes (e.truncate share h.maxEntry :: h.entries.take j) > h.maxTotal) := by
  obtain ⟨a1, a2, a3, a4, a5⟩ := shrinkCount_spec (Nat.le_refl h.entries.length) h0 hg.total
  generalize hh1 : h.shrinkCount h.entries.length = h1 at a1 a2 a3 a4 a5
  obtain ⟨k, b1, b2, b3, b4, b5, b6, b7, b8⟩ := shrinkSize_spec (size := (e.truncate share h.maxEntry).size)
    (Nat.le_refl h1.entries.length) a2
  generalize hh2 : h1.shrinkSize (e.truncate share h.maxEntry).size h1.entries.length = h2 at b1 b5 b6 b7 b8
  rw [a1] at b1 b2 b3 b4
  rw [List.length_take] at b2 b4
  rw [List.take_take, Nat.min_eq_left (by omega)] at b1 b3
  have hcons : ∀ l, sizes (e.truncate share h.maxEntry :: l) = sizes l + (e.truncate share h.maxEntry).size := by
    intro l; simp only [sizes, List.map_cons, List.sum_cons]; omega
  refine ⟨⟨e.truncate share h.maxEntry :: h2.entries, h2.maxEntries, h2.maxEntry,
      h2.total + (e.truncate share h.maxEntry).size, h2.maxTotal⟩, k, ?_, ⟨?_, ?_⟩, ⟨b6.trans a3, b7.trans a4, b8.trans a5⟩,
    ?_, by omega, by omega, ?_, ?_⟩
  · simp only [Hist.push, if_neg h0, hh1, hh2]
  · simp only
    rw [b5, hcons]
  · simp only [List.length_cons]
    rw [b1, b6, a3, List.length_take]
    omega
  · simp only
    rw [b1]
  · simp only
    rcases b3 with b3 | b3
    · exact .inl b3
    · exact .inr (by rw [b1, hcons, ← a5]; exact b3)
  · intro j h1 h2 h3
    have := b4 j h1 (by omega)
    rw [List.take_take, Nat.min_eq_left (by omega), a5] at this
    rw [hcons]; exact this

/-! ### Sequences of captures -/

/-- What happens to a history: a capture, or `clear`. -/
inductive Op where
  | push (e : Entry)
  | clear
deriving Repr

/-- Perform the operations; `none` is a loop that never ends. -/
def run (share : Nat → Nat → Nat → Nat) : Hist → List Op → Option Hist
  | h, [] => some h
  | h, .push e :: ops => match h.push share e with
    | none => none
    | some h' => run share h' ops
  | h, .clear :: ops => run share h.clear ops

/-- Specification: the captures since the last `clear`, newest first, in front of those in `l`. -/
def captures (l : List Entry) : List Op → List Entry
  | [] => l
  | .push e :: ops => captures (e :: l) ops
  | .clear :: ops => captures [] ops

/-- **C20: number and order.** With room for at least one entry, every sequence of captures ends in a
history of at most `maxEntries` entries; these are the newest captures, in order and without gaps,
each shortened as `truncate_spec` says; the recorded total is the sum of the sizes. -/
theorem C20_order (share : Nat → Nat → Nat → Nat) (n per tot : Nat) (h0 : n ≠ 0) (ops : List Op) :
    ∃ h k, run share (withCapacity n per tot) ops = some h ∧
      h.entries = ((captures [] ops).map (Entry.truncate share per)).take k ∧
      h.entries.length ≤ n ∧ h.total = sizes h.entries ∧
      (captures [] ops ≠ [] → h.entries ≠ []) := by
  have key : ∀ (ops : List Op) (h : Hist) (l : List Entry), Good h → h.maxEntries = n → h.maxEntry = per →
      (∃ k, h.entries = (l.map (Entry.truncate share per)).take k) → (l ≠ [] → h.entries ≠ []) →
      ∃ h' k, run share h ops = some h' ∧
        h'.entries = ((captures l ops).map (Entry.truncate share per)).take k ∧ Good h' ∧ h'.maxEntries = n ∧
        (captures l ops ≠ [] → h'.entries ≠ []) := by
    intro ops
    induction ops with
    | nil => intro h l hg h1 h2 ⟨k, hk⟩ hne; exact ⟨h, k, rfl, hk, hg, h1, hne⟩
    | cons o ops ih =>
      intro h l hg h1 h2 ⟨k, hk⟩ hne
      cases o with
      | clear =>
        exact ih h.clear [] ⟨rfl, by simp [Hist.clear]⟩ h1 h2 ⟨0, rfl⟩ (fun hh => absurd rfl hh)
      | push e =>
        obtain ⟨h', j, p1, p2, p3, p4, p5, p6, p7, p8⟩ := C20_push share hg (by rw [h1]; exact h0) e
        simp only [run, p1, captures]
        refine ih h' (e :: l) p2 (p3.1.trans h1) (p3.2.1.trans h2) ⟨min j k + 1, ?_⟩ (fun _ => by rw [p4]; simp)
        rw [p4, hk, h2, List.take_take, List.map_cons, List.take_succ_cons]
  obtain ⟨h', k, a1, a2, a3, a4, a5⟩ := key ops (withCapacity n per tot) [] ⟨rfl, by simp [withCapacity]⟩ rfl rfl
    ⟨0, rfl⟩ (fun hh => absurd rfl hh)
  exact ⟨h', k, a1, a2, by rw [← a4]; exact a3.count, a3.total, a5⟩

/-- **C20: indices.** Entry `i` is the `i`-th most recent capture (counting from 1), if it is kept; there
is no entry 0. -/
theorem C20_get (share : Nat → Nat → Nat → Nat) (n per tot : Nat) (ops : List Op) {h : Hist}
    (hr : run share (withCapacity n per tot) ops = some h) (i : Nat) :
    (i = 0 → h.get i = none) ∧ (i > h.entries.length → h.get i = none) ∧
    (∀ j, i = j + 1 → j < h.entries.length →
      h.get i = ((captures [] ops)[j]?).map (Entry.truncate share per) ∧ ∃ e, h.get i = some e) := by
  refine ⟨fun h0 => by simp [Hist.get, h0], fun h1 => by simp [Hist.get, h1], ?_⟩
  rintro j rfl hj
  have h0 : n ≠ 0 ∨ captures [] ops = [] ∧ h.entries = [] := by
    by_cases hn : n = 0
    · right
      subst hn
      have : ∀ (ops : List Op) (h : Hist) (l : List Entry), h.maxEntries = 0 → h.entries = [] → l = [] →
          ∀ h', run share h ops = some h' → captures l ops = [] ∧ h'.entries = [] := by
        intro ops
        induction ops with
        | nil => intro h l _ h2 h3 h' hh; injection hh with hh; subst hh; exact ⟨h3, h2⟩
        | cons o ops ih =>
          intro h l h1 h2 h3 h' hh
          cases o with
          | clear => exact ih h.clear [] h1 rfl rfl h' hh
          | push e => simp [run, Hist.push, h1] at hh
      exact this ops _ [] rfl rfl rfl h hr
    · exact .inl hn
  rcases h0 with h0 | ⟨_, h0⟩
  · obtain ⟨h', k, a1, a2, -⟩ := C20_order share n per tot h0 ops
    rw [hr] at a1
    injection a1 with a1
    subst a1
    have hk : j < k := by
      rw [a2, List.length_take] at hj; omega
    have hget : h.get (j + 1) = h.entries[j]? := by
      unfold Hist.get
      rw [if_neg (by simp; omega)]
      simp
    constructor
    · rw [hget, a2, List.getElem?_take_of_lt hk, List.getElem?_map]
    · exact ⟨h.entries[j], by rw [hget]; exact List.getElem?_eq_getElem hj⟩
  · rw [h0] at hj; simp at hj

/-- **C20, the part of the size limit that holds.** If no single capture (with its command, after
shortening) exceeds the limit, the total never does. -/
theorem C20_size_partial (share : Nat → Nat → Nat → Nat) (n per tot : Nat) (ops : List Op)
    (hs : ∀ e, Op.push e ∈ ops → (e.truncate share per).size ≤ tot) {h : Hist}
    (hr : run share (withCapacity n per tot) ops = some h) : sizes h.entries ≤ tot := by
  have key : ∀ (ops : List Op) (h : Hist), (∀ e, Op.push e ∈ ops → (e.truncate share per).size ≤ tot) →
      Good h → h.maxEntry = per → h.maxTotal = tot → sizes h.entries ≤ tot →
      ∀ h', run share h ops = some h' → sizes h'.entries ≤ tot := by
    intro ops
    induction ops with
    | nil => intro h _ _ _ _ h1 h' hh; injection hh with hh; subst hh; exact h1
    | cons o ops ih =>
      intro h hs hg h1 h2 h3 h' hh
      cases o with
      | clear => exact ih h.clear (fun e he => hs e (by simp [he])) ⟨rfl, by simp [Hist.clear]⟩ h1 h2 (Nat.zero_le _) h' hh
      | push e =>
        by_cases h0 : h.maxEntries = 0
        · simp [run, Hist.push, h0] at hh
        · obtain ⟨h'', j, p1, p2, p3, p4, p5, p6, p7, p8⟩ := C20_push share hg h0 e
          simp only [run, p1] at hh
          refine ih h'' (fun e he => hs e (by simp [he])) p2 (p3.2.1.trans h1) (p3.2.2.trans h2) ?_ h' hh
          rcases p7 with p7 | p7
          · rw [p4, p7, h1]
            have := hs e (by simp)
            simpa [sizes] using this
          · rw [← h2]; exact p7
  exact key ops _ hs ⟨rfl, by simp [withCapacity]⟩ rfl rfl (by simp [withCapacity, sizes]) h hr

/-- **C20 fails for the total size**: a single capture is kept however large it is; only its output is
cut (to the limit per entry plus the markers), never the command.  In every configuration with
room for an entry, a command longer than the total limit exceeds it. -/
theorem C20_size_violated (share : Nat → Nat → Nat → Nat) (n per tot : Nat) (h0 : n ≠ 0) :
    ∃ ops h, run share (withCapacity n per tot) ops = some h ∧ sizes h.entries > tot := by
  let e : Entry := ⟨List.replicate (tot + 1) 'a', [], [], 0⟩
  obtain ⟨h', k, p1, p2, p3, p4, -⟩ := C20_push share (h := withCapacity n per tot)
    ⟨rfl, by simp [withCapacity]⟩ h0 e
  refine ⟨[.push e], h', by simp only [run, p1], ?_⟩
  have hb : bytes e.command = tot + 1 := by
    have : ∀ m : Nat, bytes (List.replicate m 'a') = m := by
      intro m
      induction m with
      | zero => rfl
      | succ m ih =>
        rw [List.replicate_succ]
        simp only [bytes, List.map_cons, List.sum_cons] at ih ⊢
        rw [ih]
        have : Char.utf8Size 'a' = 1 := by decide
        omega
    exact this _
  have hc := (truncate_spec share (withCapacity n per tot).maxEntry e).1
  rw [p4]
  simp only [sizes, List.map_cons, List.sum_cons, Entry.size, hc, hb]
  omega

/-- **C20 fails without room for entries**: the first capture never comes to an end. -/
theorem C20_capacity_violated (share : Nat → Nat → Nat → Nat) (per tot : Nat) (e : Entry) :
    run share (withCapacity 0 per tot) [.push e] = none := rfl

/-- Share of stdout in exact arithmetic. -/
def exactShare (max out total : Nat) : Nat := max * out / total

example : (run exactShare (withCapacity 2 10 12)
    [.push ⟨c!"a", c!"one", [], 0⟩, .push ⟨c!"b", c!"two", [], 0⟩, .push ⟨c!"c", c!"three", [], 0⟩]).map Hist.entries =
    some [⟨c!"c", c!"three", [], 0⟩, ⟨c!"b", c!"two", [], 0⟩] := by decide
example : (Entry.truncate exactShare 4 ⟨c!"a", c!"aéé", c!"xyz", 0⟩) =
    ⟨c!"a", c!"a\n... (truncated)", c!"xyz", 0⟩ := by decide

/-! ### C68: the names -/

theorem digits_all {v : Nat} {s : Str} (h : ∀ c ∈ s, c.isDigit = true) : ∃ w, digits v s = some w := by
  induction s generalizing v with
  | nil => exact ⟨v, rfl⟩
  | cons c s ih =>
    obtain ⟨w, hw⟩ := ih (v := 10 * v + (c.toNat - 48)) (fun d hd => h d (by simp [hd]))
    exact ⟨w, by rw [digits, if_pos (h c (by simp)), hw]⟩

/-- Specification: the number a text of decimal digits stands for, most significant digit first. -/
def value (s : Str) : Nat := s.foldl (fun v c => 10 * v + (c.toNat - 48)) 0

theorem digits_value {v : Nat} {s : Str} (h : ∀ c ∈ s, c.isDigit = true) :
    digits v s = some (s.foldl (fun v c => 10 * v + (c.toNat - 48)) v) := by
  induction s generalizing v with
  | nil => rfl
  | cons c s ih => rw [digits, if_pos (h c (by simp)), ih (fun d hd => h d (by simp [hd]))]; rfl

/-- **C68: `$OUT[n]` names entry `n`**, for every spelling of `n` in decimal digits that fits in 64 bits;
the `$` may be missing. -/
theorem C68_index {p ds : Str} (hp : '$' ∉ p) (hp' : '[' ∉ p) (hne : ds ≠ []) (hd : ∀ c ∈ ds, c.isDigit = true)
    (hv : value ds < 2 ^ 64) :
    parseOutputVar ('$' :: (p ++ '[' :: (ds ++ [']']))) p = some (value ds) ∧
    parseOutputVar (p ++ '[' :: (ds ++ [']'])) p = some (value ds) ∧
    parseOutputVar ('$' :: p) p = some 1 ∧ parseOutputVar p p = some 1 := by
  have h1 : p ++ '[' :: (ds ++ [']']) ≠ p := by
    intro h; have := congrArg List.length h; simp at this
  have h2 : (p ++ ['[']).isPrefixOf (p ++ '[' :: (ds ++ [']'])) = true := by
    rw [List.isPrefixOf_iff_prefix]; exact ⟨ds ++ [']'], by simp⟩
  have h3 : [']'].isSuffixOf (p ++ '[' :: (ds ++ [']'])) = true := by
    rw [List.isSuffixOf_iff_suffix]; exact ⟨p ++ '[' :: ds, by simp⟩
  have h4 : ((p ++ '[' :: (ds ++ [']'])).drop (p.length + 1)).dropLast = ds := by
    rw [List.drop_append, List.drop_of_length_le (by omega)]
    simp
  have h5 : parseUsize ds = some (value ds) := by
    unfold parseUsize
    have hb : stripPlus ds = ds := by
      unfold stripPlus
      split
      · exact absurd (hd '+' (by simp)) (by decide)
      · rfl
    rw [hb]
    simp only
    rw [if_neg (by simpa using hne), digits_value hd]
    exact if_pos hv
  have hstrip : ∀ q : Str, '$' ∉ q → stripDollar q = q := by
    intro q hq
    unfold stripDollar
    split
    · simp at hq
    · rfl
  have hstrip' : stripDollar (p ++ '[' :: (ds ++ [']'])) = p ++ '[' :: (ds ++ [']']) := by
    unfold stripDollar
    split
    · next t he =>
      cases p with
      | nil => simp at he
      | cons c p => simp at he; simp [he.1] at hp
    · rfl
  refine ⟨?_, ?_, ?_, ?_⟩
  · simp only [parseOutputVar, stripDollar, if_neg h1, h2, h3, Bool.and_self, if_true, h4, h5]
  · unfold parseOutputVar
    rw [hstrip']
    simp only [if_neg h1, h2, h3, Bool.and_self, if_true, h4, h5]
  · simp [parseOutputVar, stripDollar]
  · unfold parseOutputVar
    rw [hstrip p hp]
    simp

/-- **C68: nothing else is taken for an entry.** A name that is understood is the prefix itself or the
prefix with a number in brackets. -/
theorem C68_only {key p : Str} {n : Nat} (h : parseOutputVar key p = some n) :
    ∃ k, (key = k ∨ key = '$' :: k) ∧
      ((k = p ∧ n = 1) ∨ ∃ ds, k = p ++ '[' :: (ds ++ [']']) ∧ (ds = [] → False) ∧
        ∃ b, (ds = b ∨ ds = '+' :: b) ∧ b ≠ [] ∧ (∀ c ∈ b, c.isDigit = true) ∧ n = value b) := by
  have hdig : ∀ (s : Str) (v w : Nat), digits v s = some w → (∀ c ∈ s, c.isDigit = true) ∧
      w = s.foldl (fun v c => 10 * v + (c.toNat - 48)) v := by
    intro s
    induction s with
    | nil => intro v w hh; injection hh with hh; exact ⟨by simp, hh.symm⟩
    | cons c s ih =>
      intro v w hh
      rw [digits] at hh
      split_ifs at hh with hc
      obtain ⟨h1, h2⟩ := ih _ _ hh
      exact ⟨by intro d hd; rcases List.mem_cons.1 hd with rfl | hd; exacts [hc, h1 d hd], h2⟩
  obtain ⟨k, hk, hmain⟩ : ∃ k, (key = k ∨ key = '$' :: k) ∧
      (if k = p then some 1
       else if (p ++ ['[']).isPrefixOf k && [']'].isSuffixOf k then
         parseUsize ((k.drop (p.length + 1)).dropLast)
       else none) = some n := by
    unfold parseOutputVar stripDollar at h
    split at h
    · next t => exact ⟨t, .inr rfl, h⟩
    · exact ⟨key, .inl rfl, h⟩
  refine ⟨k, hk, ?_⟩
  split_ifs at hmain with h1 h2
  · injection hmain with hmain; exact .inl ⟨h1, hmain.symm⟩
  · right
    simp only [Bool.and_eq_true, List.isPrefixOf_iff_prefix, List.isSuffixOf_iff_suffix] at h2
    obtain ⟨⟨t, rfl⟩, u, hu⟩ := h2
    have hdrop : ((p ++ ['[']) ++ t).drop (p.length + 1) = t := by
      rw [List.append_assoc, List.drop_append, List.drop_of_length_le (by omega)]; simp
    rw [hdrop] at hmain
    have ht : t ≠ [] := by
      rintro rfl
      have := congrArg List.getLast? hu
      simp at this
    have hlast : t.getLast ht = ']' := by
      have := congrArg List.getLast? hu
      rw [List.getLast?_append, List.getLast?_append, List.getLast?_eq_some_getLast ht] at this
      simp at this
      exact this.symm
    have ht2 : t.dropLast ++ [']'] = t := by rw [← hlast]; exact List.dropLast_concat_getLast ht
    generalize t.dropLast = ds at hmain ht2
    subst ht2
    unfold parseUsize stripPlus at hmain
    obtain ⟨b, hb, hmain⟩ : ∃ b, (ds = b ∨ ds = '+' :: b) ∧
        (if b.isEmpty then none
         else match digits 0 b with
          | some v => if v < 2 ^ 64 then some v else none
          | none => none) = some n := by
      split at hmain
      · next t => exact ⟨t, .inr rfl, hmain⟩
      · exact ⟨ds, .inl rfl, hmain⟩
    split_ifs at hmain with h3
    split at hmain
    · next v hv =>
      split_ifs at hmain
      injection hmain with hmain
      subst hmain
      obtain ⟨h4, h5⟩ := hdig _ _ _ hv
      have hb0 : b ≠ [] := by simpa using h3
      refine ⟨ds, by simp, ?_, b, hb, hb0, h4, h5⟩
      rintro rfl
      rcases hb with hb | hb
      · exact hb0 hb.symm
      · cases hb
    · cases hmain

example : parseOutputVar c!"$OUT[12]" c!"OUT" = some 12 := by decide
example : parseOutputVar c!"$OUT[x]" c!"OUT" = none := by decide

end Dsh.OutHist
