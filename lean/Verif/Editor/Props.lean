import Verif.Editor.Model
/-!
C01, C02: the line editor is a text with a caret.
-/
namespace Dsh.Editor

/-! ### Specification: the text before and after the caret -/

/-- The text before the caret and the text after it. -/
structure Zip where
  before : List Char := []
  after : List Char := []
deriving DecidableEq, Repr

/-- The whole text. -/
def Zip.text (z : Zip) : List Char := z.before ++ z.after

/-- The caret put before the `k`-th character. -/
def caretAt (t : List Char) (k : Nat) : Zip := ⟨t.take k, t.drop k⟩

/-- Blank. -/
abbrev ws := rustWhitespace
/-- Not blank. -/
def nonWs (c : Char) : Bool := !rustWhitespace c

/-- A text without its last word and the blanks after it. -/
def dropWordEnd (t : List Char) : List Char := ((t.reverse.dropWhile ws).dropWhile nonWs).reverse

/-- The last characters of a text up to the last break character. -/
def lastPiece (t : List Char) : List Char := (t.reverse.takeWhile (fun c => !abbrBreak c)).reverse

/-- Number of characters whose centre is at or left of column `x`; `w` columns precede. -/
def centresUpTo (W : Char → Nat) (x w : Nat) : List Char → Nat
  | [] => 0
  | c :: cs => (if 2 * w + W c ≤ 2 * x then 1 else 0) + centresUpTo W x (w + W c) cs

/-- The effect of an operation. -/
def Zip.op (W : Char → Nat) (z : Zip) : Op → Zip
  | .insert c => ⟨z.before ++ [c], z.after⟩
  | .insertStr t => ⟨z.before ++ t, z.after⟩
  | .replaceRange a b t =>
    if a ≤ b ∧ b ≤ z.text.length then ⟨z.text.take a ++ t, z.text.drop b⟩ else z
  | .backspace => ⟨z.before.dropLast, z.after⟩
  | .backspacen n => ⟨z.before.take (z.before.length - n), z.after⟩
  | .deleteChar => ⟨z.before, z.after.tail⟩
  | .moveBy d => caretAt z.text (min z.text.length (z.before.length + d).toNat)
  | .deleteWordBackward => ⟨dropWordEnd z.before, z.after⟩
  | .deleteToEnd => ⟨z.before, []⟩
  | .deleteToBeginning => ⟨[], z.after⟩
  | .moveWordLeft => caretAt z.text (dropWordEnd z.before).length
  | .moveWordRight =>
    ⟨z.before ++ z.after.takeWhile nonWs ++ (z.after.dropWhile nonWs).takeWhile ws,
      (z.after.dropWhile nonWs).dropWhile ws⟩
  | .moveToBegin => ⟨[], z.text⟩
  | .moveToEnd => ⟨z.text, []⟩
  | .reset t => ⟨t, []⟩
  | .clear => ⟨[], []⟩
  | .click x => caretAt z.text (centresUpTo W x 0 z.text)
  | .replaceCurrentWord t =>
    if lastPiece z.before = [] then z
    else ⟨z.before.take (z.before.length - (lastPiece z.before).length) ++ t, z.after⟩

/-- A sequence of operations. -/
def Zip.ops (W : Char → Nat) (z : Zip) (os : List Op) : Zip := os.foldl (Zip.op W) z

/-! ### Lemmas -/

theorem blen_append (a b : List Char) : blen (a ++ b) = blen a + blen b := by simp [blen]
theorem blen_cons (c : Char) (s : List Char) : blen (c :: s) = c.utf8Size + blen s := by simp [blen]

theorem offs_append (b : Nat) (x y : List Char) : offs b (x ++ y) = offs b x ++ offs (b + blen x) y := by
  induction x generalizing b with
  | nil => simp [offs, blen]
  | cons c x ih => simp [offs, ih, blen_cons, Nat.add_assoc]

theorem offs_length (b : Nat) (x : List Char) : (offs b x).length = x.length := by
  induction x generalizing b with
  | nil => rfl
  | cons c x ih => simp [offs, ih]

theorem splitByte_append (x y : List Char) : splitByte (x ++ y) (blen x) = some (x, y) := by
  induction x with
  | nil => simp [blen, splitByte]
  | cons c x ih =>
    have hp := Char.utf8Size_pos c
    rw [blen_cons, List.cons_append]
    obtain ⟨n, hn⟩ : ∃ n, c.utf8Size + blen x = n + 1 := ⟨c.utf8Size + blen x - 1, by omega⟩
    rw [hn, splitByte, if_pos (by omega), ← hn, Nat.add_sub_cancel_left, ih]

theorem strInsert_append (x y t : List Char) : strInsert (x ++ y) (blen x) t = some (x ++ t ++ y) := by
  simp [strInsert, splitByte_append]

theorem strReplace_append (x y z t : List Char) :
    strReplace (x ++ y ++ z) (blen x) (blen x + blen y) t = some (x ++ t ++ z) := by
  rw [← blen_append]
  simp only [strReplace, splitByte_append]

theorem shiftUp_offs (x t y : List Char) :
    shiftUp (offs 0 x ++ offs (blen x) t ++ offs (blen x) y) (x.length + t.length) (blen t) =
      offs 0 (x ++ t ++ y) := by
  have hmap : ∀ (b d : Nat) (y : List Char), (offs b y).map (fun v => v + d) = offs (b + d) y := by
    intro b d y
    induction y generalizing b with
    | nil => rfl
    | cons c y ih => simp [offs, ih, Nat.add_right_comm]
  have hl : (offs 0 x ++ offs (blen x) t).length = x.length + t.length := by simp [offs_length]
  rw [offs_append, offs_append, Nat.zero_add, blen_append]
  unfold shiftUp
  rw [List.take_left' hl, List.drop_left' hl, hmap]
  split
  · next h =>
    rcases h with h | h
    · rw [h]; simp
    · simp [offs_length] at h
      have : y = [] := List.length_eq_zero_iff.1 (by omega)
      subst this
      simp [offs]
  · simp

theorem subAll_offs (b d : Nat) (y : List Char) (h : d ≤ b) : subAll d (offs b y) = some (offs (b - d) y) := by
  induction y generalizing b with
  | nil => rfl
  | cons c y ih =>
    simp only [offs, subAll, h, if_true]
    rw [ih (b + c.utf8Size) (by omega)]
    simp only [Option.map_some, Option.some.injEq, List.cons.injEq, true_and]
    congr 1; omega

/-- The concrete state represents the abstract one. -/
structure Rep (W : Char → Nat) (s : Input) (z : Zip) : Prop where
  text : s.input = z.before ++ z.after
  caret : s.cursor = z.before.length
  idx : s.indices = offs 0 s.input
  width : s.width = widthOf W s.input

variable {W : Char → Nat}

theorem Rep.len {s z} (h : Rep W s z) : s.indices.length = s.input.length := by
  rw [h.idx, offs_length]

theorem Rep.cur_le {s z} (h : Rep W s z) : s.cursor ≤ s.input.length := by
  rw [h.text, h.caret]; simp

/-- Byte offset of a position. -/
theorem Rep.byteOf {s z} (h : Rep W s z) {x y : List Char} (e : s.input = x ++ y) :
    s.byteOf x.length = some (blen x) := by
  unfold Input.byteOf
  rw [h.len, h.idx, e]
  split
  · next hl =>
    have : y = [] := List.length_eq_zero_iff.1 (by rw [List.length_append] at hl; omega)
    simp [this]
  · next hl =>
    cases y with
    | nil => simp at hl
    | cons c y =>
      rw [offs_append, List.getElem?_append_right (by simp [offs_length])]
      simp [offs_length, offs]

theorem Rep.byteIndex {s z} (h : Rep W s z) : s.byteIndex = some (blen z.before) := by
  have : s.byteIndex = s.byteOf s.cursor := rfl
  rw [this, h.caret]
  exact h.byteOf h.text

theorem widthOf_append (W : Char → Nat) (a b : List Char) : widthOf W (a ++ b) = widthOf W a + widthOf W b := by
  simp [widthOf]

/-- Putting the caret somewhere. -/
theorem Rep.moved {s z} (h : Rep W s z) {k : Nat} (hk : k ≤ s.input.length) :
    Rep W { s with cursor := k } (caretAt z.text k) := by
  refine ⟨?_, ?_, h.idx, h.width⟩
  · simp [caretAt, Zip.text, h.text]
  · have : k ≤ z.text.length := by rw [Zip.text, ← h.text]; exact hk
    simp only [caretAt, List.length_take]; omega

theorem Rep.insertStr {s z} (h : Rep W s z) (t : List Char) :
    ∃ s', s.insertStr W t = some s' ∧ Rep W s' ⟨z.before ++ t, z.after⟩ := by
  unfold Input.insertStr
  split
  · next ht =>
    have : t = [] := by simpa using ht
    subst this
    exact ⟨s, rfl, by simpa using h⟩
  · have htake : s.indices.take s.cursor = offs 0 z.before := by
      rw [h.idx, h.text, offs_append, h.caret]
      exact List.take_left' (offs_length _ _)
    have hdrop : s.indices.drop s.cursor = offs (blen z.before) z.after := by
      rw [h.idx, h.text, offs_append, h.caret, Nat.zero_add]
      exact List.drop_left' (offs_length _ _)
    rw [h.byteIndex]
    simp only
    rw [h.text, strInsert_append]
    simp only
    rw [if_pos (by rw [h.len]; exact h.cur_le), htake, hdrop]
    refine ⟨_, rfl, ⟨rfl, ?_, ?_, ?_⟩⟩
    · simp [h.caret]
    · simp only [h.caret]; exact shiftUp_offs _ _ _
    · simp only [h.width, h.text, widthOf_append]; omega

theorem Rep.insert {s z} (h : Rep W s z) (c : Char) :
    ∃ s', s.insert W c = some s' ∧ Rep W s' ⟨z.before ++ [c], z.after⟩ := by
  have e : s.insert W c = s.insertStr W [c] := by
    unfold Input.insert Input.insertStr
    simp [offs, widthOf, blen]
  rw [e]; exact h.insertStr [c]

theorem Rep.removeAt {s z} (h : Rep W s z) {x y : List Char} {c : Char} (e : s.input = x ++ c :: y) (cur : Nat) :
    s.removeAt W x.length cur =
      some { cursor := cur, input := x ++ y, indices := offs 0 (x ++ y), width := widthOf W (x ++ y) } := by
  have hix : s.indices = offs 0 x ++ blen x :: offs (blen x + c.utf8Size) y := by
    rw [h.idx, e, offs_append, Nat.zero_add, offs]
  have h1 : s.indices[x.length]? = some (blen x) := by
    rw [hix, List.getElem?_append_right (by simp [offs_length])]
    simp [offs_length]
  have h2 : s.charLenAt x.length = some c.utf8Size := by
    unfold Input.charLenAt
    have hl : s.indices.length = x.length + 1 + y.length := by rw [h.len, e]; simp; omega
    rw [if_neg (by omega)]
    split
    · next hlt =>
      have h3 : s.indices[x.length + 1]? = some (blen x + c.utf8Size) := by
        rw [hix, List.getElem?_append_right (by simp [offs_length])]
        cases y with
        | nil => simp at hl; omega
        | cons d y => simp [offs_length, offs]
      rw [h1, h3]
      simp
    · next hlt =>
      have : y = [] := List.length_eq_zero_iff.1 (by omega)
      subst this
      rw [h1, e]
      simp [blen_append, blen]
  unfold Input.removeAt
  rw [h1, h2]
  simp only
  rw [e, splitByte_append]
  simp only [List.head?_cons]
  have h4 : strReplace (x ++ c :: y) (blen x) (blen x + c.utf8Size) [] = some (x ++ y) := by
    have := strReplace_append x [c] y []
    simpa [blen] using this
  rw [h4]
  simp only
  have h5 : s.indices.eraseIdx x.length = offs 0 x ++ offs (blen x + c.utf8Size) y := by
    rw [hix, List.eraseIdx_append_of_length_le (by simp [offs_length])]
    simp [offs_length]
  have h6 : shiftDown (s.indices.eraseIdx x.length) x.length c.utf8Size = some (offs 0 (x ++ y)) := by
    rw [h5]
    unfold shiftDown
    rw [List.take_left' (offs_length _ _), List.drop_left' (offs_length _ _), subAll_offs _ _ _ (by omega),
      Nat.add_sub_cancel, offs_append, Nat.zero_add]
    split
    · next hh =>
      have hp := Char.utf8Size_pos c
      rcases hh with hh | hh
      · omega
      · simp only [List.length_append, offs_length] at hh
        have : y = [] := List.length_eq_zero_iff.1 (by omega)
        simp [this, offs]
    · rfl
  rw [h6]
  simp only [h.width, e, widthOf_append]
  congr 2
  simp [widthOf]; omega

theorem eq_dropLast {α} {l : List α} (h : l ≠ []) : ∃ c, l = l.dropLast ++ [c] :=
  ⟨l.getLast h, (List.dropLast_concat_getLast h).symm⟩

theorem Rep.backspace {s z} (h : Rep W s z) :
    ∃ s', s.backspace W = some s' ∧ Rep W s' ⟨z.before.dropLast, z.after⟩ := by
  unfold Input.backspace
  by_cases hb : z.before = []
  · rw [if_neg (by rw [h.caret, hb]; simp)]
    exact ⟨s, rfl, by rw [hb]; simpa [hb] using (show Rep W s ⟨z.before, z.after⟩ from h)⟩
  · obtain ⟨c, hc⟩ := eq_dropLast hb
    have hl : 0 < z.before.length := List.length_pos_iff.2 hb
    rw [if_pos ⟨by rw [h.caret]; exact hl, by rw [h.len]; exact h.cur_le⟩]
    have e : s.input = z.before.dropLast ++ c :: z.after := by
      rw [h.text]; conv_lhs => rw [hc]
      simp
    have hcur : s.cursor - 1 = z.before.dropLast.length := by rw [h.caret]; simp
    rw [hcur, h.removeAt e]
    exact ⟨_, rfl, rfl, rfl, rfl, rfl⟩

theorem take_dropLast {α} (l : List α) (n : Nat) :
    l.dropLast.take (l.dropLast.length - n) = l.take (l.length - (n + 1)) := by
  rw [List.dropLast_eq_take, List.take_take, List.length_take]
  congr 1; omega

theorem Rep.backspacen {s z} (h : Rep W s z) (n : Nat) :
    ∃ s', s.backspacen W n = some s' ∧ Rep W s' ⟨z.before.take (z.before.length - n), z.after⟩ := by
  induction n generalizing s z with
  | zero => exact ⟨s, rfl, by simpa using (show Rep W s ⟨z.before, z.after⟩ from h)⟩
  | succ n ih =>
    obtain ⟨s1, h1, h2⟩ := h.backspace
    unfold Input.backspacen
    rw [h1]
    obtain ⟨s2, h3, h4⟩ := ih h2
    refine ⟨s2, h3, ?_⟩
    rw [take_dropLast] at h4
    exact h4

theorem Rep.deleteChar {s z} (h : Rep W s z) :
    ∃ s', s.deleteChar W = some s' ∧ Rep W s' ⟨z.before, z.after.tail⟩ := by
  unfold Input.deleteChar
  cases ha : z.after with
  | nil =>
    rw [if_pos (by rw [h.len, h.text, h.caret, ha]; simp)]
    refine ⟨s, rfl, ?_⟩
    have : z = ⟨z.before, []⟩ := by rw [← ha]
    rw [this] at h; exact h
  | cons c y =>
    rw [if_neg (by rw [h.len, h.text, h.caret, ha]; simp)]
    rw [h.caret, h.removeAt (by rw [h.text, ha])]
    exact ⟨_, rfl, rfl, rfl, rfl, rfl⟩

theorem Rep.deleteN {s z} (h : Rep W s z) (n : Nat) :
    ∃ s', s.deleteN W n = some s' ∧ Rep W s' ⟨z.before, z.after.drop n⟩ := by
  induction n generalizing s z with
  | zero => exact ⟨s, rfl, by simpa using (show Rep W s ⟨z.before, z.after⟩ from h)⟩
  | succ n ih =>
    unfold Input.deleteN
    split
    · obtain ⟨s1, h1, h2⟩ := h.deleteChar
      rw [h1]
      obtain ⟨s2, h3, h4⟩ := ih h2
      exact ⟨s2, h3, by simpa using h4⟩
    · next hn =>
      obtain ⟨s2, h3, h4⟩ := ih h
      refine ⟨s2, h3, ?_⟩
      have ha : z.after = [] := by
        rw [h.len, h.text, h.caret] at hn
        simp at hn
        exact hn
      simpa [ha] using h4

theorem Rep.insertAll {s z} (h : Rep W s z) (t : List Char) :
    ∃ s', s.insertAll W t = some s' ∧ Rep W s' ⟨z.before ++ t, z.after⟩ := by
  induction t generalizing s z with
  | nil => exact ⟨s, rfl, by simpa using (show Rep W s ⟨z.before, z.after⟩ from h)⟩
  | cons c t ih =>
    obtain ⟨s1, h1, h2⟩ := h.insert c
    unfold Input.insertAll
    rw [h1]
    obtain ⟨s2, h3, h4⟩ := ih h2
    exact ⟨s2, h3, by simpa using h4⟩

theorem goBack_eq (p : Char → Bool) (x y : List Char) :
    goBack p (x ++ y) x.length = some (x.reverse.dropWhile p).length := by
  induction hn : x.length generalizing x y with
  | zero =>
    have : x = [] := List.length_eq_zero_iff.1 hn
    subst this; rfl
  | succ n ih =>
    have hx : x ≠ [] := by intro e; simp [e] at hn
    obtain ⟨c, hc⟩ := eq_dropLast hx
    have hl : x.dropLast.length = n := by simp [hn]
    unfold goBack
    have hget : (x ++ y)[n]? = some c := by
      rw [hc, List.append_assoc, List.getElem?_append_right (by omega)]
      simp [hl]
    rw [hget]
    simp only
    have hrev : x.reverse = c :: x.dropLast.reverse := by
      conv_lhs => rw [hc]
      simp
    rw [hrev, List.dropWhile_cons]
    split
    · next hp =>
      have := ih x.dropLast (c :: y) hl
      have e : x ++ y = x.dropLast ++ c :: y := by
        conv_lhs => rw [hc]
        simp
      rw [e, this]
    · next hp => rw [List.length_cons, List.length_reverse, hl]

theorem dropWhile_suffix {α} (p : α → Bool) (l : List α) : ∃ a, l = a ++ l.dropWhile p :=
  ⟨l.takeWhile p, List.takeWhile_append_dropWhile.symm⟩

/-- Dropping from the reversed text is a prefix of the text. -/
theorem back_prefix (p : Char → Bool) (x : List Char) :
    x = (x.reverse.dropWhile p).reverse ++ (x.reverse.takeWhile p).reverse := by
  rw [← List.reverse_append, List.takeWhile_append_dropWhile, List.reverse_reverse]

theorem Rep.wordStart {s z} (h : Rep W s z) : s.wordStart = some (dropWordEnd z.before).length := by
  unfold Input.wordStart
  rw [h.text, h.caret, goBack_eq]
  simp only
  have h1 := back_prefix ws z.before
  have e : z.before ++ z.after =
      (z.before.reverse.dropWhile ws).reverse ++ ((z.before.reverse.takeWhile ws).reverse ++ z.after) := by
    rw [← List.append_assoc, ← h1]
  rw [e]
  have hl : (z.before.reverse.dropWhile ws).length = (z.before.reverse.dropWhile ws).reverse.length := by simp
  rw [hl, goBack_eq, List.reverse_reverse]
  simp only [dropWordEnd, List.length_reverse]
  rfl

theorem dropWordEnd_prefix (t : List Char) : ∃ u, t = dropWordEnd t ++ u := by
  obtain ⟨a, ha⟩ := dropWhile_suffix ws t.reverse
  obtain ⟨b, hb⟩ := dropWhile_suffix nonWs (t.reverse.dropWhile ws)
  refine ⟨b.reverse ++ a.reverse, ?_⟩
  have : t.reverse = a ++ (b ++ (t.reverse.dropWhile ws).dropWhile nonWs) := by rw [← hb]; exact ha
  have := congrArg List.reverse this
  simpa [dropWordEnd] using this

theorem dropWordEnd_le (t : List Char) : (dropWordEnd t).length ≤ t.length := by
  obtain ⟨u, hu⟩ := dropWordEnd_prefix t
  have := congrArg List.length hu
  rw [List.length_append] at this
  omega

theorem dropWordEnd_take (t : List Char) : t.take (dropWordEnd t).length = dropWordEnd t := by
  obtain ⟨u, hu⟩ := dropWordEnd_prefix t
  conv_lhs => rw [hu]
  conv_lhs => arg 1; rw [← hu]
  exact List.take_left' rfl

theorem goOn_eq (p : Char → Bool) (y : List Char) (n : Nat) (x : List Char) (hn : y.length ≤ n) :
    goOn p (x ++ y) n x.length = x.length + (y.takeWhile p).length := by
  induction n generalizing x y with
  | zero =>
    have : y = [] := List.length_eq_zero_iff.1 (by omega)
    subst this; rfl
  | succ n ih =>
    unfold goOn
    cases y with
    | nil => simp
    | cons c y =>
      have : (x ++ c :: y)[x.length]? = some c := by simp
      rw [this]
      simp only [List.takeWhile_cons]
      split
      · have := ih y (x ++ [c]) (by simpa using hn)
        simp only [List.append_assoc, List.singleton_append, List.length_append, List.length_singleton] at this
        rw [this]; simp; omega
      · simp

theorem clickLoop_eq (x w cur : Nat) (l : List Char) :
    clickLoop W x w cur l = cur + centresUpTo W x w l := by
  have hzero : ∀ (l : List Char) (w : Nat), x < w → centresUpTo W x w l = 0 := by
    intro l
    induction l with
    | nil => intros; rfl
    | cons c l ih =>
      intro w hw
      unfold centresUpTo
      rw [if_neg (by omega), ih _ (by omega)]
  have hzero' : ∀ (l : List Char) (w : Nat) (c : Char), 2 * x < 2 * w + W c → centresUpTo W x (w + W c) l = 0 := by
    intro l w c hw
    by_cases h0 : x < w + W c
    · exact hzero l _ h0
    · omega
  induction l generalizing w cur with
  | nil => rfl
  | cons c l ih =>
    unfold clickLoop centresUpTo
    split
    · next h => rw [if_neg (by omega), hzero' _ _ _ h]; rfl
    · next h => rw [if_pos (by omega), ih]; omega

theorem centres_le (x w : Nat) (l : List Char) : centresUpTo W x w l ≤ l.length := by
  induction l generalizing w with
  | nil => exact Nat.le_refl _
  | cons c l ih =>
    unfold centresUpTo
    have := ih (w + W c)
    split <;> simp <;> omega

/-- The piece before the caret contains no break, hence no blank. -/
theorem lastPiece_trim (t : List Char) : (trim (lastPiece t)).isEmpty = (lastPiece t).isEmpty := by
  have hns : ∀ c ∈ lastPiece t, rustWhitespace c = false := by
    intro c hc
    unfold lastPiece at hc
    rw [List.mem_reverse] at hc
    have := List.all_takeWhile (p := fun c => !abbrBreak c) (l := t.reverse)
    rw [List.all_eq_true] at this
    have := this c hc
    simp only [abbrBreak, Bool.not_eq_true', Bool.or_eq_false_iff] at this
    exact this.1
  have hd : ∀ l : List Char, (∀ c ∈ l, rustWhitespace c = false) → l.dropWhile rustWhitespace = l := by
    intro l hl
    cases l with
    | nil => rfl
    | cons c l => rw [List.dropWhile_cons, if_neg (by simp [hl c (by simp)])]
  unfold trim trimStart trimEnd
  rw [hd _ hns, hd _ (by simpa using hns), List.reverse_reverse]

theorem Rep.currentWord {s z} (h : Rep W s z) :
    s.currentWord = some (if lastPiece z.before = [] then none else some (lastPiece z.before)) := by
  unfold Input.currentWord
  by_cases hb : z.before = []
  · rw [if_pos (.inr (by rw [h.caret, hb]; rfl)), if_pos (by rw [hb]; rfl)]
  · have hl : 0 < z.before.length := List.length_pos_iff.2 hb
    have hne : s.input.isEmpty = false := by
      rw [h.text]
      cases hz : z.before with
      | nil => exact absurd hz hb
      | cons _ _ => rfl
    rw [if_neg (by rw [hne, h.caret]; simp [hb])]
    have hg := goBack_eq (fun c => !abbrBreak c) z.before z.after
    rw [h.text, h.caret, hg]
    simp only
    have hsplit := back_prefix (fun c => !abbrBreak c) z.before
    have hlp : (z.before.reverse.takeWhile (fun c => !abbrBreak c)).reverse = lastPiece z.before := rfl
    rw [hlp] at hsplit
    have hlen := congrArg List.length hsplit
    rw [List.length_append, List.length_reverse] at hlen
    have htake : (z.before ++ z.after).take z.before.length = z.before := List.take_left' rfl
    rw [htake]
    have hdrop : z.before.drop (z.before.reverse.dropWhile (fun c => !abbrBreak c)).length = lastPiece z.before := by
      conv_lhs => arg 2; rw [hsplit]
      exact List.drop_left' (by simp)
    rw [hdrop, lastPiece_trim]
    by_cases he : lastPiece z.before = []
    · rw [he] at hlen
      simp only [List.length_nil] at hlen
      rw [if_neg (by omega), if_pos he]
    · have : 0 < (lastPiece z.before).length := List.length_pos_iff.2 he
      rw [if_pos (by omega), if_neg (by simp), if_neg he, if_neg (by simpa using he)]

theorem Rep.replaceCurrentWord {s z} (h : Rep W s z) (t : List Char) :
    ∃ s', (s.replaceCurrentWord W t).map (·.1) = some s' ∧ Rep W s' (z.op W (.replaceCurrentWord t)) := by
  unfold Input.replaceCurrentWord
  rw [h.currentWord]
  simp only [Zip.op]
  by_cases he : lastPiece z.before = []
  · rw [if_pos he, if_pos he]
    exact ⟨s, rfl, h⟩
  · rw [if_neg he, if_neg he]
    simp only
    have hsplit := back_prefix (fun c => !abbrBreak c) z.before
    have hlp : (z.before.reverse.takeWhile (fun c => !abbrBreak c)).reverse = lastPiece z.before := rfl
    rw [hlp] at hsplit
    generalize hp : (z.before.reverse.dropWhile (fun c => !abbrBreak c)).reverse = pre at hsplit
    have hlen := congrArg List.length hsplit
    rw [List.length_append] at hlen
    rw [if_pos (by rw [h.caret]; omega)]
    have hcur : s.cursor - (lastPiece z.before).length = pre.length := by rw [h.caret]; omega
    have hr : Rep W ({ s with cursor := s.cursor - (lastPiece z.before).length } : Input)
        ⟨pre, lastPiece z.before ++ z.after⟩ := by
      refine ⟨?_, hcur, h.idx, h.width⟩
      simp only [h.text]
      conv_lhs => rw [hsplit]
      simp
    obtain ⟨s1, h1, h2⟩ := hr.deleteN (lastPiece z.before).length
    rw [h1]
    rw [List.drop_left' rfl] at h2
    obtain ⟨s2, h3, h4⟩ := h2.insertAll t
    simp only
    rw [h3]
    refine ⟨s2, rfl, ?_⟩
    have : z.before.take (z.before.length - (lastPiece z.before).length) = pre := by
      have e : z.before.length - (lastPiece z.before).length = pre.length := by omega
      rw [e]
      conv_lhs => rw [hsplit]
      exact List.take_left' rfl
    rw [this]
    exact h4

theorem Rep.deleteToEnd {s z} (h : Rep W s z) :
    ∃ s', s.deleteToEnd W = some s' ∧ Rep W s' ⟨z.before, []⟩ := by
  unfold Input.deleteToEnd
  split
  · next hl =>
    refine ⟨s, rfl, ?_⟩
    rw [h.len, h.text, h.caret] at hl
    have : z.after = [] := List.length_eq_zero_iff.1 (by rw [List.length_append] at hl; omega)
    have e : z = ⟨z.before, []⟩ := by rw [← this]
    rw [e] at h; exact h
  · rw [h.byteIndex]
    simp only
    rw [h.text, splitByte_append]
    simp only
    refine ⟨_, rfl, ⟨by simp, h.caret, ?_, rfl⟩⟩
    simp only
    rw [h.idx, h.text, offs_append, h.caret]
    exact List.take_left' (offs_length _ _)

theorem Rep.deleteToBeginning {s z} (h : Rep W s z) :
    ∃ s', s.deleteToBeginning W = some s' ∧ Rep W s' ⟨[], z.after⟩ := by
  unfold Input.deleteToBeginning
  split
  · next hl =>
    refine ⟨s, rfl, ?_⟩
    rw [h.caret] at hl
    have : z.before = [] := List.length_eq_zero_iff.1 hl
    have e : z = ⟨[], z.after⟩ := by rw [← this]
    rw [e] at h; exact h
  · rw [h.byteIndex]
    simp only
    have h4 : strReplace s.input 0 (blen z.before) [] = some z.after := by
      have := strReplace_append [] z.before z.after []
      simpa [blen, h.text] using this
    rw [h4]
    simp only
    rw [if_neg (by rw [h.len]; have := h.cur_le; omega)]
    have hdrop : s.indices.drop s.cursor = offs (blen z.before) z.after := by
      rw [h.idx, h.text, offs_append, h.caret, Nat.zero_add]
      exact List.drop_left' (offs_length _ _)
    rw [hdrop, subAll_offs _ _ _ (Nat.le_refl _), Nat.sub_self]
    exact ⟨_, rfl, rfl, rfl, rfl, rfl⟩

theorem Rep.replaceRange {s z} (h : Rep W s z) (a b : Nat) (t : List Char) :
    ∃ s', (s.replaceRange W a b t).map (·.1) = some s' ∧ Rep W s' (z.op W (.replaceRange a b t)) := by
  unfold Input.replaceRange
  have hlen : s.indices.length = z.text.length := by rw [h.len, h.text]; rfl
  simp only [Zip.op]
  by_cases hab : a ≤ b ∧ b ≤ z.text.length
  · rw [if_neg (by rw [hlen]; omega), if_pos hab]
    have e1 : s.input = z.text.take a ++ z.text.drop a := by rw [List.take_append_drop, h.text]; rfl
    have e2 : s.input = z.text.take b ++ z.text.drop b := by rw [List.take_append_drop, h.text]; rfl
    have b1 := h.byteOf e1
    have b2 := h.byteOf e2
    rw [List.length_take, Nat.min_eq_left (by omega)] at b1 b2
    rw [b1, b2]
    simp only
    have e3 : z.text.take b = z.text.take a ++ (z.text.take b).drop a := by
      conv_lhs => rw [← List.take_append_drop a (z.text.take b)]
      rw [List.take_take, Nat.min_eq_left hab.1]
    have h4 : strReplace s.input (blen (z.text.take a)) (blen (z.text.take b)) t =
        some (z.text.take a ++ t ++ z.text.drop b) := by
      have := strReplace_append (z.text.take a) ((z.text.take b).drop a) (z.text.drop b) t
      rw [← blen_append, ← e3, ← e2] at this
      exact this
    rw [h4]
    refine ⟨_, rfl, ⟨rfl, ?_, rfl, rfl⟩⟩
    simp only [List.length_append, List.length_take]; omega
  · rw [if_pos (by rw [hlen]; omega), if_neg hab]
    exact ⟨s, rfl, h⟩

/-- Every operation succeeds and has the abstract effect. -/
theorem Rep.op {s z} (h : Rep W s z) (o : Op) : ∃ s', s.op W o = some s' ∧ Rep W s' (z.op W o) := by
  have hlen : s.indices.length = z.text.length := by rw [h.len, h.text]; rfl
  have hin : s.input.length = z.text.length := by rw [h.text]; rfl
  have hcl : s.cursor ≤ z.text.length := by rw [← hin]; exact h.cur_le
  cases o with
  | insert c => exact h.insert c
  | insertStr t => exact h.insertStr t
  | replaceRange a b t => exact h.replaceRange a b t
  | backspace => exact h.backspace
  | backspacen n => exact h.backspacen n
  | deleteChar => exact h.deleteChar
  | moveBy d =>
    refine ⟨_, rfl, ?_⟩
    simp only [Zip.op]
    have : s.moveBy d = { s with cursor := min z.text.length (z.before.length + d).toNat } := by
      unfold Input.moveBy
      rw [hlen, h.caret] at *
      split
      · congr 1; omega
      · congr 1; omega
    rw [this]
    exact h.moved (by rw [hin]; exact Nat.min_le_left _ _)
  | deleteWordBackward =>
    simp only [Input.op, Input.deleteWordBackward, Zip.op]
    split
    · next hl =>
      refine ⟨s, rfl, ?_⟩
      rw [h.caret] at hl
      have : z.before = [] := List.length_eq_zero_iff.1 hl
      have e : z = ⟨[], z.after⟩ := by rw [← this]
      rw [this]
      rw [e] at h; exact h
    · rw [h.wordStart]
      simp only
      obtain ⟨s', h1, h2⟩ := h.backspacen (s.cursor - (dropWordEnd z.before).length)
      refine ⟨s', h1, ?_⟩
      have hle := dropWordEnd_le z.before
      have : z.before.length - (s.cursor - (dropWordEnd z.before).length) = (dropWordEnd z.before).length := by
        rw [h.caret]; omega
      rw [this, dropWordEnd_take] at h2
      exact h2
  | deleteToEnd => exact h.deleteToEnd
  | deleteToBeginning => exact h.deleteToBeginning
  | moveWordLeft =>
    simp only [Input.op, Input.moveWordLeft, Zip.op]
    split
    · next hl =>
      refine ⟨s, rfl, ?_⟩
      rw [h.caret] at hl
      have : z.before = [] := List.length_eq_zero_iff.1 hl
      have e : z = ⟨[], z.after⟩ := by rw [← this]
      have e2 : caretAt z.text (dropWordEnd z.before).length = ⟨[], z.after⟩ := by
        rw [this]; simp [caretAt, Zip.text, this, dropWordEnd]
      rw [e2]; rw [e] at h; exact h
    · rw [h.wordStart]
      refine ⟨_, rfl, h.moved ?_⟩
      have := dropWordEnd_le z.before
      rw [hin, Zip.text, List.length_append]; omega
  | moveWordRight =>
    refine ⟨_, rfl, ?_⟩
    simp only [Input.moveWordRight, Zip.op]
    split
    · next hl =>
      rw [hlen, h.caret, Zip.text] at hl
      have : z.after = [] := List.length_eq_zero_iff.1 (by rw [List.length_append] at hl; omega)
      simp only [this, List.takeWhile_nil, List.dropWhile_nil, List.append_nil]
      have e : z = ⟨z.before, []⟩ := by rw [← this]
      rw [e] at h; exact h
    · have hn : ∀ y : List Char, ∀ x, s.input = x ++ y → y.length ≤ s.input.length := by
        intro y x e; rw [e]; simp
      rw [h.caret, h.text, goOn_eq _ z.after _ z.before (by simp)]
      have e : z.before ++ z.after = (z.before ++ z.after.takeWhile nonWs) ++ z.after.dropWhile nonWs := by
        rw [List.append_assoc, List.takeWhile_append_dropWhile]
      have e2 : z.before.length + (z.after.takeWhile (fun c => !rustWhitespace c)).length =
          (z.before ++ z.after.takeWhile nonWs).length := by rw [List.length_append]; rfl
      rw [e2, e, goOn_eq _ (z.after.dropWhile nonWs) _ _ (by rw [← e]; have := (List.dropWhile_suffix nonWs (l := z.after)).length_le; simp only [List.length_append]; omega)]
      refine ⟨?_, ?_, ?_, ?_⟩
      · simp only [List.append_assoc, List.takeWhile_append_dropWhile]
      · simp only [List.length_append]
      · rw [h.idx, ← e, ← h.text]
      · rw [h.width, ← e, ← h.text]
  | moveToBegin => exact ⟨_, rfl, by simpa [Zip.op, caretAt, Input.moveToBegin] using h.moved (k := 0) (Nat.zero_le _)⟩
  | moveToEnd =>
    refine ⟨_, rfl, ?_⟩
    have := h.moved (k := s.input.length) (Nat.le_refl _)
    rw [hin] at this
    simp only [caretAt, List.take_length, List.drop_length] at this
    simp only [Input.moveToEnd, Zip.op, hlen]
    exact this
  | reset t => exact ⟨_, rfl, ⟨by simp [Input.reset, Zip.op], rfl, rfl, rfl⟩⟩
  | clear => exact ⟨_, rfl, ⟨rfl, rfl, rfl, rfl⟩⟩
  | click x =>
    refine ⟨_, rfl, ?_⟩
    simp only [Input.click, Zip.op]
    have e : s.input = z.text := h.text
    rw [clickLoop_eq, Nat.zero_add, e]
    have := h.moved (k := centresUpTo W x 0 z.text) (by rw [e]; exact centres_le _ _ _)
    rw [e] at this
    exact this
  | replaceCurrentWord t => exact h.replaceCurrentWord t

theorem Rep.ops {s z} (h : Rep W s z) (os : List Op) : ∃ s', s.ops W os = some s' ∧ Rep W s' (z.ops W os) := by
  induction os generalizing s z with
  | nil => exact ⟨s, rfl, h⟩
  | cons o os ih =>
    obtain ⟨s1, h1, h2⟩ := h.op o
    unfold Input.ops
    rw [h1]
    exact ih h2

/-! ### C01 -/

/-- **C01.** After any sequence of editing operations from the empty line, with characters of any
UTF-8 length: nothing panicked, the text is the abstract text, the caret is the abstract caret
(hence between 0 and the number of characters), and the byte offsets and the cached display width
are those of the text. -/
theorem C01_editor_refines (W : Char → Nat) (os : List Op) :
    ∃ s, ({} : Input).ops W os = some s ∧
      s.input = (Zip.ops W {} os).text ∧ s.cursor = (Zip.ops W {} os).before.length ∧
      s.cursor ≤ s.input.length ∧
      s.indices = offs 0 s.input ∧ s.width = (s.input.map W).sum := by
  have h0 : Rep W {} {} := ⟨rfl, rfl, rfl, rfl⟩
  obtain ⟨s, h1, h2⟩ := h0.ops os
  exact ⟨s, h1, h2.text, h2.caret, h2.cur_le, h2.idx, h2.width⟩

/-- **C01, observers.** In every reachable state the queries do not panic either: the character at
an index is that of the text, the terminal position of the caret is that of the text before it,
and the word offered for abbreviation expansion is the piece before the caret. -/
theorem C01_queries (W : Char → Nat) (os : List Op) (s : Input) (hs : ({} : Input).ops W os = some s) :
    (∀ i, s.charAt i = some s.input[i]?) ∧
    (∀ columns prompt, s.cursorPos W columns prompt =
      some (visual W columns (prompt, 0) (s.input.take s.cursor))) ∧
    s.currentWord = some (if lastPiece (s.input.take s.cursor) = [] then none
      else some (lastPiece (s.input.take s.cursor))) := by
  have h0 : Rep W {} {} := ⟨rfl, rfl, rfl, rfl⟩
  obtain ⟨s', h1, h⟩ := h0.ops os
  rw [hs] at h1
  cases h1
  generalize Zip.ops W {} os = z at h
  have htake : s.input.take s.cursor = z.before := by
    rw [h.text, h.caret]; exact List.take_left' rfl
  refine ⟨?_, ?_, ?_⟩
  · intro i
    unfold Input.charAt
    rw [h.len]
    split
    · next hl => rw [List.getElem?_eq_none hl]
    · next hl =>
      have hi : i < s.input.length := by omega
      have e : s.input = s.input.take i ++ s.input.drop i := (List.take_append_drop _ _).symm
      have hb := h.byteOf e
      rw [List.length_take, Nat.min_eq_left (by omega)] at hb
      unfold Input.byteOf at hb
      rw [h.len, if_neg (by omega)] at hb
      rw [hb]
      have := splitByte_append (s.input.take i) (s.input.drop i)
      rw [← e] at this
      simp only [this, Option.map_some, List.head?_drop]
  · intro columns prompt
    unfold Input.cursorPos
    rw [htake]
    split
    · next hc =>
      rw [h.caret] at hc
      have : z.before = [] := List.length_eq_zero_iff.1 hc
      rw [this]; rfl
    · rw [h.byteIndex]
      simp only
      rw [h.text, splitByte_append]
      rfl
  · rw [htake]; exact h.currentWord

/-- A mixed sequence: the hypotheses are met, the result is as typed. -/
example : ∃ s, ({} : Input).ops (fun _ => 1)
    [.insertStr c!"日本 語x", .moveBy (-2), .insert 'é', .backspace, .moveWordLeft, .deleteWordBackward,
     .deleteChar, .moveToEnd, .insertStr c!" b"] = some s ∧ s.input = c!"本 語x b" := by
  refine ⟨_, rfl, ?_⟩
  decide

/-! ### C02 -/

/-- The first `n` characters are kept. -/
theorem caretAt_text (t : List Char) (k : Nat) : (caretAt t k).text = t := by simp [caretAt, Zip.text]

/-- **C02, kills.** Killing a word backwards removes a block that ends at the caret, consisting of
a non-blank run followed by blanks, maximal on both; what is before it and everything after the
caret stay.  Killing to the end (beginning) removes exactly what is after (before) the caret. -/
theorem C02_kills (s s' : Input) (z : Zip) (h : Rep W s z) :
    (s.deleteWordBackward W = some s' →
      ∃ p word blanks, z.before = p ++ word ++ blanks ∧
        (∀ c ∈ word, rustWhitespace c = false) ∧ (∀ c ∈ blanks, rustWhitespace c = true) ∧
        (word = [] → p = []) ∧ (∀ c, p.getLast? = some c → rustWhitespace c = true) ∧
        s'.input = p ++ z.after ∧ s'.cursor = p.length) ∧
    (s.deleteToEnd W = some s' → s'.input = z.before ∧ s'.cursor = z.before.length) ∧
    (s.deleteToBeginning W = some s' → s'.input = z.after ∧ s'.cursor = 0) := by
  refine ⟨?_, ?_, ?_⟩
  · intro hs
    obtain ⟨s1, h1, h2⟩ := h.op .deleteWordBackward
    simp only [Input.op] at h1
    rw [hs] at h1
    cases h1
    simp only [Zip.op] at h2
    have hw1 := back_prefix ws z.before
    have hw2 := back_prefix nonWs (z.before.reverse.dropWhile ws).reverse
    rw [List.reverse_reverse] at hw2
    refine ⟨dropWordEnd z.before, ((z.before.reverse.dropWhile ws).takeWhile nonWs).reverse,
      (z.before.reverse.takeWhile ws).reverse, ?_, ?_, ?_, ?_, ?_, h2.text, h2.caret⟩
    · have : dropWordEnd z.before ++ ((z.before.reverse.dropWhile ws).takeWhile nonWs).reverse =
          (z.before.reverse.dropWhile ws).reverse := hw2.symm
      rw [this]; exact hw1
    · intro c hc
      rw [List.mem_reverse] at hc
      have := List.all_takeWhile (p := nonWs) (l := z.before.reverse.dropWhile ws)
      rw [List.all_eq_true] at this
      have := this c hc
      simpa [nonWs] using this
    · intro c hc
      rw [List.mem_reverse] at hc
      have := List.all_takeWhile (p := ws) (l := z.before.reverse)
      rw [List.all_eq_true] at this
      exact this c hc
    · intro he
      unfold dropWordEnd
      cases hd : z.before.reverse.dropWhile ws with
      | nil => rfl
      | cons c l =>
        have hc : ws c = false := by
          have := List.head?_dropWhile_not (p := ws) z.before.reverse
          rw [hd] at this
          simpa using this
        rw [hd] at he
        simp [List.takeWhile_cons, nonWs, show rustWhitespace c = false from hc] at he
    · intro c hc
      unfold dropWordEnd at hc
      rw [List.getLast?_reverse] at hc
      have := List.head?_dropWhile_not (p := nonWs) (z.before.reverse.dropWhile ws)
      rw [hc] at this
      simpa [nonWs] using this
  · intro hs
    obtain ⟨s1, h1, h2⟩ := h.deleteToEnd
    rw [hs] at h1; cases h1
    exact ⟨by rw [h2.text]; simp, h2.caret⟩
  · intro hs
    obtain ⟨s1, h1, h2⟩ := h.deleteToBeginning
    rw [hs] at h1; cases h1
    exact ⟨by rw [h2.text]; simp, h2.caret⟩

/-- **C02, motions.** Moving by words changes no character; moving left ends at the start of a
word (the character before the new caret, if any, is blank, the one at it is not, unless only
blanks were crossed up to the beginning), moving right ends after blanks. -/
theorem C02_motions (s : Input) (z : Zip) (h : Rep W s z) :
    (∃ s', s.moveWordLeft = some s' ∧ s'.input = s.input ∧ s'.cursor ≤ s.cursor ∧
      (∀ c, (s.input.take s'.cursor).getLast? = some c → rustWhitespace c = true) ∧
      (s'.cursor = 0 ∨ ∃ c, s.input[s'.cursor]? = some c ∧ rustWhitespace c = false)) ∧
    (s.moveWordRight.input = s.input ∧ s.cursor ≤ s.moveWordRight.cursor ∧
      (∀ c, s.input[s.moveWordRight.cursor]? = some c → rustWhitespace c = false)) := by
  constructor
  · obtain ⟨s', h1, h2⟩ := h.op .moveWordLeft
    simp only [Input.op] at h1
    simp only [Zip.op] at h2
    have hle := dropWordEnd_le z.before
    have hc : s'.cursor = (dropWordEnd z.before).length := by
      rw [h2.caret]; simp only [caretAt, List.length_take, Zip.text, List.length_append]; omega
    have hin : s'.input = s.input := by
      rw [h2.text, h.text]
      exact caretAt_text z.text _
    have htake : s.input.take s'.cursor = dropWordEnd z.before := by
      rw [hc, h.text, List.take_append_of_le_length hle, dropWordEnd_take]
    refine ⟨s', h1, hin, by rw [hc, h.caret]; exact hle, ?_, ?_⟩
    · intro c hcl
      rw [htake] at hcl
      unfold dropWordEnd at hcl
      rw [List.getLast?_reverse] at hcl
      have := List.head?_dropWhile_not (p := nonWs) (z.before.reverse.dropWhile ws)
      rw [hcl] at this
      simpa [nonWs] using this
    · by_cases h0 : dropWordEnd z.before = []
      · left; rw [hc, h0]; rfl
      · right
        have hw1 := back_prefix ws z.before
        have hw2 := back_prefix nonWs (z.before.reverse.dropWhile ws).reverse
        rw [List.reverse_reverse] at hw2
        cases hw : ((z.before.reverse.dropWhile ws).takeWhile nonWs).reverse with
        | nil =>
          exfalso
          apply h0
          unfold dropWordEnd
          cases hd : z.before.reverse.dropWhile ws with
          | nil => rfl
          | cons c l =>
            have hcw : ws c = false := by
              have := List.head?_dropWhile_not (p := ws) z.before.reverse
              rw [hd] at this
              simpa using this
            rw [hd] at hw
            simp [List.takeWhile_cons, nonWs, show rustWhitespace c = false from hcw] at hw
        | cons c w =>
          refine ⟨c, ?_, ?_⟩
          · have e : z.before = dropWordEnd z.before ++ (c :: w) ++ (z.before.reverse.takeWhile ws).reverse := by
              have : dropWordEnd z.before ++ (c :: w) = (z.before.reverse.dropWhile ws).reverse := by
                rw [← hw]; exact hw2.symm
              rw [this]; exact hw1
            rw [hc, h.text]
            conv_lhs => arg 1; rw [e]
            simp [List.append_assoc]
          · have hm : c ∈ (z.before.reverse.dropWhile ws).takeWhile nonWs := by
              rw [← List.mem_reverse, hw]; simp
            have := List.all_takeWhile (p := nonWs) (l := z.before.reverse.dropWhile ws)
            rw [List.all_eq_true] at this
            have := this c hm
            simpa [nonWs] using this
  · obtain ⟨s', h1, h2⟩ := h.op .moveWordRight
    simp only [Input.op, Option.some.injEq] at h1
    subst h1
    simp only [Zip.op] at h2
    have hcur := h2.caret
    have hin : s.moveWordRight.input = s.input := by
      rw [h2.text, h.text]
      simp only [List.append_assoc, List.takeWhile_append_dropWhile]
    refine ⟨hin, ?_, ?_⟩
    · rw [hcur, h.caret]; simp only [List.length_append]; omega
    · intro c hc
      rw [← hin, hcur, h2.text, List.getElem?_append_right (Nat.le_refl _), Nat.sub_self] at hc
      have := List.head?_dropWhile_not (p := ws) (z.after.dropWhile nonWs)
      rw [← List.head?_eq_getElem?] at hc
      rw [hc] at this
      simpa using this

/-- Column distance. -/
def dist (a b : Nat) : Nat := (a - b) + (b - a)

/-- **C02, mouse.** A click puts the caret at a position whose column is nearest to the clicked
column. -/
theorem C02_click_nearest (W : Char → Nat) (s : Input) (x j : Nat) :
    dist (widthOf W (s.input.take (s.click W x).cursor)) x ≤ dist (widthOf W (s.input.take j)) x := by
  simp only [Input.click, clickLoop_eq, Nat.zero_add]
  have key : ∀ (l : List Char) (w j : Nat), w ≤ x ∨ centresUpTo W x w l = 0 →
      dist (w + widthOf W (l.take (centresUpTo W x w l))) x ≤ dist (w + widthOf W (l.take j)) x := by
    intro l
    induction l with
    | nil => intro w j _; simp [dist]
    | cons c l ih =>
      intro w j hw
      have hz : ∀ (l : List Char) (w : Nat), x < w → centresUpTo W x w l = 0 := by
        intro l
        induction l with
        | nil => intros; rfl
        | cons c l ih =>
          intro w hw
          unfold centresUpTo
          rw [if_neg (by omega), ih _ (by omega)]
      by_cases hc : 2 * w + W c ≤ 2 * x
      · have e : centresUpTo W x w (c :: l) = centresUpTo W x (w + W c) l + 1 := by
          conv_lhs => unfold centresUpTo
          rw [if_pos hc]; omega
        rw [e, List.take_succ_cons]
        have e2 : ∀ m : List Char, w + widthOf W (c :: m) = (w + W c) + widthOf W m := by
          intro m; simp [widthOf]; omega
        rw [e2]
        have hor : w + W c ≤ x ∨ centresUpTo W x (w + W c) l = 0 := by
          by_cases hx : w + W c ≤ x
          · exact .inl hx
          · exact .inr (hz _ _ (by omega))
        cases j with
        | zero =>
          refine Nat.le_trans (ih (w + W c) 0 hor) ?_
          simp only [List.take_zero, widthOf, List.map_nil, List.sum_nil, dist]
          omega
        | succ j =>
          rw [List.take_succ_cons, e2]
          exact ih (w + W c) j hor
      · have e : centresUpTo W x w (c :: l) = 0 := by
          unfold centresUpTo
          rw [if_neg hc]
          by_cases hx : x < w + W c
          · rw [hz _ _ hx]
          · omega
        rw [e, List.take_zero]
        have hwx : ∀ v, v = 0 ∨ W c ≤ v → dist (w + 0) x ≤ dist (w + v) x := by
          intro v hv
          simp only [dist]
          rcases hv with rfl | hv <;> omega
        apply hwx
        cases j with
        | zero => left; rfl
        | succ j => right; simp [widthOf]
  have := key s.input 0 j (.inl (Nat.zero_le _))
  simpa using this

/-- The premise of the C02 theorems holds in every reachable state. -/
theorem C02_reachable (W : Char → Nat) (os : List Op) (s : Input) (hs : ({} : Input).ops W os = some s) :
    Rep W s (Zip.ops W {} os) := by
  have h0 : Rep W {} {} := ⟨rfl, rfl, rfl, rfl⟩
  obtain ⟨s', h1, h⟩ := h0.ops os
  rw [hs] at h1; cases h1; exact h

example : ({} : Input).ops (fun _ => 1) [.insertStr c!"git commit  -m", .moveBy (-2), .deleteWordBackward] =
    some { cursor := 4, input := c!"git -m", indices := [0, 1, 2, 3, 4, 5], width := 6 } := by decide

end Dsh.Editor
