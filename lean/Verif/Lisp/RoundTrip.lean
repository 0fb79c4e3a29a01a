import Verif.Lisp.ReaderLemmas
/-! Reading what has been printed. -/
namespace Dsh.Lisp

/-! ### Decimal numbers -/

theorem digit_isDigit {d : Nat} (h : d < 10) : (digit d).isDigit = true := by
  have : ∀ d : Fin 10, (digit d.1).isDigit = true := by decide
  exact this ⟨d, h⟩

theorem digit_toNat {d : Nat} (h : d < 10) : (digit d).toNat = 48 + d := by
  have : ∀ d : Fin 10, (digit d.1).toNat = 48 + d.1 := by decide
  exact this ⟨d, h⟩

theorem natText_digits (f n : Nat) : (natText f n).all Char.isDigit = true := by
  induction f generalizing n with
  | zero => rfl
  | succ f ih =>
    rw [natText]
    split
    · simp [digit_isDigit (by omega : n < 10)]
    · rw [List.all_append, ih]; simp [digit_isDigit (by omega : n % 10 < 10)]

theorem natText_ne {f n : Nat} (h : 0 < f) : natText f n ≠ [] := by
  cases f with
  | zero => omega
  | succ f => rw [natText]; split <;> simp

theorem natOf_snoc (s : Str) (c : Char) : natOf (s ++ [c]) = 10 * natOf s + (c.toNat - 48) := by
  simp [natOf, List.foldl_append]

theorem natOf_natText {f n : Nat} (h : n < f) : natOf (natText f n) = n := by
  induction f generalizing n with
  | zero => omega
  | succ f ih =>
    rw [natText]
    split
    · next h1 => simp [natOf, digit_toNat h1]
    · next h1 =>
      rw [natOf_snoc, ih (by omega), digit_toNat (by omega)]
      omega

theorem isDigit_oneByte {c : Char} (h : c.isDigit = true) : oneByte c = true := by
  simp [Char.isDigit, oneByte] at h ⊢
  have := h.2
  have h2 : c.val.toNat ≤ 57 := this
  show c.val.toNat < 128
  omega

theorem isNumeric_of_digit (U : Uni) {c : Char} (h : c.isDigit = true) : isNumeric U c = true := by
  have := isDigit_oneByte h
  simp [oneByte] at this
  simp [isNumeric, this, h]

/-! ### Breaks -/

theorem special_ascii {c : Char} (h : special c = true) : oneByte c = true ∧ c.isDigit = false ∧ c ≠ '.' ∧ c ≠ '-' := by
  simp [special] at h
  rcases h with rfl | rfl | rfl | rfl | rfl <;> decide

theorem break_not_numeric (U : Uni) {c : Char} (h : (rustWhitespace c || special c) = true) :
    isNumeric U c = false := by
  rcases Bool.or_eq_true_iff.1 h with h | h
  · unfold isNumeric
    split
    · next hl =>
      have : ∀ n : Fin 128, rustWhitespace (Char.ofNat n.1) = true → (Char.ofNat n.1).isDigit = false := by
        decide +kernel
      have h2 := this ⟨c.toNat, hl⟩
      simp only [Char.ofNat_toNat] at h2
      exact h2 h
    · exact U.noSpace c h
  · obtain ⟨h1, h2, _⟩ := special_ascii h
    simp [oneByte] at h1
    simp [isNumeric, h1, h2]

theorem ws_ne {c : Char} (h : rustWhitespace c = true) (d : Char) (hd : rustWhitespace d = false) : c ≠ d := by
  rintro rfl; rw [h] at hd; simp at hd

theorem break_ne_dot {c : Char} (h : (rustWhitespace c || special c) = true) : c ≠ '.' ∧ c ≠ '-' := by
  rcases Bool.or_eq_true_iff.1 h with h | h
  · exact ⟨ws_ne h _ (by decide), ws_ne h _ (by decide)⟩
  · exact ⟨(special_ascii h).2.2.1, (special_ascii h).2.2.2⟩

theorem symbolic_not_break {c : Char} : symbolic c = !(rustWhitespace c || special c) := by
  simp [symbolic]

theorem takeWhile_break {p : Char → Bool} {a rest : Str} (ha : a.all p = true)
    (hr : ∀ c, rest.head? = some c → p c = false) : (a ++ rest).takeWhile p = a := by
  rw [List.takeWhile_append_of_pos (by simpa [List.all_eq_true] using ha)]
  cases rest with
  | nil => simp
  | cons c rest => simp [hr c rfl]

theorem dropWhile_break {p : Char → Bool} {a rest : Str} (ha : a.all p = true)
    (hr : ∀ c, rest.head? = some c → p c = false) : (a ++ rest).dropWhile p = rest := by
  rw [List.dropWhile_append_of_pos (by simpa [List.all_eq_true] using ha)]
  cases rest with
  | nil => simp
  | cons c rest => simp [hr c rfl]

theorem break_head {rest : Str} (h : isBreak rest = true) {c : Char} (hc : rest.head? = some c) :
    (rustWhitespace c || special c) = true := by
  cases rest with
  | nil => simp at hc
  | cons d rest => simp at hc; subst hc; exact h

/-! ### Integers -/

theorem back_break (U : Uni) {rest : Str} (h : isBreak rest = true) : back U rest = [] := by
  cases rest with
  | nil => rfl
  | cons c rest =>
    have hb := break_head h rfl
    simp [back, (break_ne_dot hb).1, break_not_numeric U hb]

theorem parseNumber_of_front (U : Uni) {m rest : Str} {i : Int} (hf : front U (m ++ rest) = m)
    (hl : ∃ l, m.getLast? = some l ∧ isNumeric U l = true ∧ oneByte l = true) (hr : isBreak rest = true)
    (hi : parseInt m = some i) : parseNumber U (m ++ rest) = .ok (.int i) (some rest) := by
  obtain ⟨l, h1, h2, h3⟩ := hl
  unfold parseNumber
  dsimp only
  rw [hf, h1]
  dsimp only
  rw [h2, h3]
  have hd : (m ++ rest).drop m.length = rest := by simp
  rw [hd, back_break U hr]
  simp [parseWhole, hr, hi]

theorem front_digits (U : Uni) {ds rest : Str} (hd : ds.all Char.isDigit = true) (hne : ds ≠ [])
    (hr : isBreak rest = true) : front U (ds ++ rest) = ds := by
  have hall : ds.all (isNumeric U) = true := by
    rw [List.all_eq_true] at hd ⊢
    exact fun c hc => isNumeric_of_digit U (hd c hc)
  have hb : ∀ c, rest.head? = some c → isNumeric U c = false := fun c hc =>
    break_not_numeric U (break_head hr hc)
  cases ds with
  | nil => contradiction
  | cons c ds =>
    simp only [List.all_cons, Bool.and_eq_true] at hall
    rw [List.cons_append, front, if_pos (Or.inr hall.1), takeWhile_break hall.2 hb]

theorem front_minus (U : Uni) {ds rest : Str} (hd : ds.all Char.isDigit = true)
    (hr : isBreak rest = true) : front U ('-' :: ds ++ rest) = '-' :: ds := by
  have hall : ds.all (isNumeric U) = true := by
    rw [List.all_eq_true] at hd ⊢
    exact fun c hc => isNumeric_of_digit U (hd c hc)
  have hb : ∀ c, rest.head? = some c → isNumeric U c = false := fun c hc =>
    break_not_numeric U (break_head hr hc)
  rw [List.cons_append, front, if_pos (Or.inl rfl), takeWhile_break hall hb]

theorem getLast_digit (U : Uni) {ds : Str} (hd : ds.all Char.isDigit = true) (hne : ds ≠ []) :
    ∃ l, ds.getLast? = some l ∧ isNumeric U l = true ∧ oneByte l = true := by
  refine ⟨ds.getLast hne, List.getLast?_eq_some_getLast hne, ?_⟩
  have := (List.all_eq_true.1 hd) _ (List.getLast_mem hne)
  exact ⟨isNumeric_of_digit U this, isDigit_oneByte this⟩

theorem parseInt_digits {ds : Str} (hd : ds.all Char.isDigit = true) (hne : ds ≠ [])
    (hr : inRange (natOf ds) = true) : parseInt ds = some (natOf ds : Int) := by
  unfold parseInt
  split
  · next ds' => simp [Char.isDigit] at hd
  · simp [hne, hr]
    simpa [List.all_eq_true] using hd

theorem intText_read (U : Uni) {i : Int} (hi : inRange i = true) {rest : Str} (hr : isBreak rest = true) :
    parseNumber U (intText i ++ rest) = .ok (.int i) (some rest) := by
  have hd := natText_digits (i.natAbs + 1) i.natAbs
  have hne := natText_ne (f := i.natAbs + 1) (n := i.natAbs) (by omega)
  have hv := natOf_natText (f := i.natAbs + 1) (n := i.natAbs) (by omega)
  unfold intText
  by_cases h : i < 0
  · rw [if_pos h]
    apply parseNumber_of_front U (front_minus U hd hr) _ hr
    · have hz : signed true (natOf (natText (i.natAbs + 1) i.natAbs)) = i := by
        rw [hv]; simp [signed]; omega
      unfold parseInt
      simp only []
      rw [hz, hi, hd]
      simp [hne]
    · obtain ⟨l, h1, h2⟩ := getLast_digit U hd hne
      exact ⟨l, by rw [List.getLast?_cons, h1]; rfl, h2⟩
  · rw [if_neg h]
    apply parseNumber_of_front U (front_digits U hd hne hr) (getLast_digit U hd hne) hr
    have hz : ((natOf (natText (i.natAbs + 1) i.natAbs) : Nat) : Int) = i := by rw [hv]; omega
    rw [parseInt_digits hd hne (by rw [hz]; exact hi), hz]

theorem consume_head_none {a c : Char} {w s : Str} (h : c.toLower ≠ a) : consume (a :: w) (c :: s) = none := by
  simp [consume, h]

/-- A character that starts a number: a digit or a minus sign. -/
theorem atom_number (U : Uni) {i : Int} (hi : inRange i = true) {rest : Str} (hr : isBreak rest = true) :
    parseAtom U (intText i ++ rest) = .ok (.int i) (some rest) ∧
    ∃ c s, intText i ++ rest = c :: s ∧ (c.isDigit = true ∨ c = '-') := by
  have hd := natText_digits (i.natAbs + 1) i.natAbs
  have hne := natText_ne (f := i.natAbs + 1) (n := i.natAbs) (by omega)
  have hc : ∃ c s, intText i ++ rest = c :: s ∧ (c.isDigit = true ∨ c = '-') := by
    unfold intText
    split
    · exact ⟨_, _, rfl, Or.inr rfl⟩
    · cases ht : natText (i.natAbs + 1) i.natAbs with
      | nil => exact absurd ht hne
      | cons c s =>
        rw [ht] at hd
        simp only [List.all_cons, Bool.and_eq_true] at hd
        exact ⟨c, _, rfl, Or.inl hd.1⟩
  refine ⟨?_, hc⟩
  have hread := intText_read U hi hr
  obtain ⟨c, s, e, hc⟩ := hc
  have hlow : c.toLower ≠ 'n' ∧ c.toLower ≠ 'f' ∧ c.toLower ≠ 't' := by
    rcases hc with hc | rfl
    · have hl : c.toNat < 128 := by simpa [oneByte] using isDigit_oneByte hc
      have : ∀ n : Fin 128, (Char.ofNat n.1).isDigit = true →
          (Char.ofNat n.1).toLower ≠ 'n' ∧ (Char.ofNat n.1).toLower ≠ 'f' ∧ (Char.ofNat n.1).toLower ≠ 't' := by
        decide +kernel
      have h2 := this ⟨c.toNat, hl⟩
      simp only [Char.ofNat_toNat] at h2
      exact h2 hc
    · decide
  rw [e] at hread ⊢
  simp [parseAtom, parseConst, consume_head_none hlow.1, consume_head_none hlow.2.1,
    consume_head_none hlow.2.2, Res.or, hread]

/-! ### Symbols -/

/-- A symbol that can be written: its characters are no white space and none of `( ) ' , ;`, the first is
no digit, the last is ASCII; it is no `nil`, `t` or `f` in any case, does not look like a negative number
and not like a string. -/
structure GoodSym (U : Uni) (s : Str) : Prop where
  ne : s ≠ []
  chars : s.all symbolic = true
  start : ∀ c, s.head? = some c → isNumeric U c = false
  last : ∀ c, s.getLast? = some c → oneByte c = true
  const : s.map Char.toLower ∉ [c!"nil", c!"t", c!"f"]
  minus : ∀ c t, s = '-' :: c :: t → isNumeric U c = false
  quote : ∀ t, s = '"' :: t → t.head? = some '"'

theorem toLower_break {c : Char} (h : (rustWhitespace c || special c) = true) :
    ¬ c.toLower.isAlpha = true := by
  by_cases hl : c.toNat < 128
  · have : ∀ n : Fin 128, (rustWhitespace (Char.ofNat n.1) || special (Char.ofNat n.1)) = true →
        ¬ (Char.ofNat n.1).toLower.isAlpha = true := by decide +kernel
    have h2 := this ⟨c.toNat, hl⟩
    simp only [Char.ofNat_toNat] at h2
    exact h2 h
  · have h1 : 128 ≤ c.val.toNat := by
      have : c.toNat = c.val.toNat := rfl
      omega
    have h3 : c.toLower = c := by
      unfold Char.toLower
      split
      · next hh =>
        have := hh.2
        have : c.val.toNat ≤ 90 := this
        omega
      · rfl
    rw [h3]
    simp [Char.isAlpha, Char.isUpper, Char.isLower]
    constructor
    · intro _
      show (90 : Nat) < c.val.toNat
      omega
    · intro _
      show (122 : Nat) < c.val.toNat
      omega

theorem consume_sym {w s rest r : Str} (hw : w.all Char.isAlpha = true) (hs : s.all symbolic = true)
    (hr : isBreak rest = true) (h : consume w (s ++ rest) = some r) (hb : isBreak r = true) :
    s.map Char.toLower = w := by
  induction w generalizing s with
  | nil =>
    simp only [consume, Option.some.injEq] at h
    subst h
    cases s with
    | nil => rfl
    | cons c s =>
      simp only [List.all_cons, Bool.and_eq_true, symbolic_not_break] at hs
      have hb' : (rustWhitespace c || special c) = true := hb
      rw [hb'] at hs; simp at hs
  | cons a w ih =>
    simp only [List.all_cons, Bool.and_eq_true] at hw
    cases s with
    | nil =>
      cases rest with
      | nil => simp [consume] at h
      | cons c rest =>
        simp only [List.nil_append, consume] at h
        split at h
        · next e =>
          have := toLower_break (c := c) hr
          rw [e] at this
          exact absurd hw.1 this
        · simp at h
    | cons c s =>
      simp only [List.cons_append, consume] at h
      split at h
      · next e =>
        simp only [List.all_cons, Bool.and_eq_true] at hs
        rw [List.map_cons, e, ih hw.2 hs.2 h]
      · simp at h

theorem parseConst_sym {w s rest : Str} {v : Value} (hw : w.all Char.isAlpha = true) (hs : s.all symbolic = true)
    (hr : isBreak rest = true) (h : s.map Char.toLower ≠ w) : parseConst w v (s ++ rest) = .no := by
  unfold parseConst
  split
  · next r hc =>
    split
    · next hb => exact absurd (consume_sym hw hs hr hc hb) h
    · rfl
  · rfl

theorem parseNumber_sym (U : Uni) {s rest : Str} (h : GoodSym U s) (hr : isBreak rest = true) :
    parseNumber U (s ++ rest) = .no := by
  cases s with
  | nil => exact absurd rfl h.ne
  | cons c s =>
    have hc := h.start c rfl
    by_cases hm : c = '-'
    · subst hm
      have hn : ∀ d, (s ++ rest).head? = some d → isNumeric U d = false := by
        cases s with
        | nil => intro d hd; exact break_not_numeric U (break_head hr hd)
        | cons d s => intro d' hd; simp at hd; subst hd; exact h.minus d s rfl
      have hf : front U ('-' :: s ++ rest) = ['-'] := by
        rw [List.cons_append, front, if_pos (Or.inl rfl)]
        cases hs : s ++ rest with
        | nil => rfl
        | cons d t => rw [hs] at hn; simp [hn d rfl]
      unfold parseNumber
      dsimp only
      rw [hf]
      simp [hc]
    · have hf : front U (c :: s ++ rest) = [] := by
        rw [List.cons_append, front, if_neg (by simp [hm, hc])]
      unfold parseNumber
      dsimp only
      rw [hf]
      rfl

theorem parseString_sym (U : Uni) {s rest : Str} (h : GoodSym U s) : parseString (s ++ rest) = .no := by
  cases s with
  | nil => exact absurd rfl h.ne
  | cons c s =>
    unfold parseString
    split
    · next t e =>
      simp only [List.cons_append, List.cons.injEq] at e
      obtain ⟨rfl, rfl⟩ := e
      have := h.quote s rfl
      cases s with
      | nil => simp at this
      | cons d s => simp at this; subst this; simp
    · rfl

theorem atom_symbol (U : Uni) {s : Str} (h : GoodSym U s) {rest : Str} (hr : isBreak rest = true) :
    parseAtom U (s ++ rest) = .ok (.sym s) (some rest) := by
  have hk := h.const
  simp only [List.mem_cons, List.not_mem_nil, or_false, not_or] at hk
  obtain ⟨k1, k2, k3⟩ := hk
  unfold parseAtom
  rw [parseConst_sym (by decide) h.chars hr k1, parseConst_sym (by decide) h.chars hr k3,
    parseConst_sym (by decide) h.chars hr k2, parseNumber_sym U h hr, parseString_sym U h]
  simp only [Res.or]
  cases s with
  | nil => exact absurd rfl h.ne
  | cons c s =>
    have hch := h.chars
    simp only [List.all_cons, Bool.and_eq_true] at hch
    have hb : ∀ c, rest.head? = some c → symbolic c = false := fun c hc => by
      rw [symbolic_not_break, break_head hr hc]; rfl
    rw [List.cons_append, parseSymbol, if_pos (by simp [symbolStart, h.start c rfl, hch.1])]
    dsimp only
    rw [takeWhile_break hch.2 hb, dropWhile_break hch.2 hb]
    unfold after
    rw [List.getLast?_eq_some_getLast (List.cons_ne_nil c s)]
    dsimp only
    rw [h.last _ (List.getLast?_eq_some_getLast (List.cons_ne_nil c s))]
    rfl

/-! ### Values -/

mutual
/-- Values made of `T`, `F`, integers, symbols that can be written, and lists of such values. -/
def Readable (U : Uni) : Value → Prop
  | .tt => True
  | .ff => True
  | .int i => -9223372036854775808 ≤ i ∧ i ≤ 9223372036854775807
  | .sym s => GoodSym U s
  | .list l => ReadableL U l
  | _ => False
def ReadableL (U : Uni) : List Value → Prop
  | [] => True
  | v :: l => Readable U v ∧ ReadableL U l
end

theorem const_head {c : Char} {w s rest : Str} {v : Value} (h : parseAtom U (c :: s) = .ok v rest)
    (h1 : c ≠ '(') (h2 : c ≠ '\'') (h3 : c ≠ ',') (n : Nat) :
    parseExpr U (n + 1) (some (c :: s)) = .ok v rest := by
  rw [parseExpr.eq_def]
  dsimp only
  split
  · next e => simp [Cur.text] at e; exact absurd e.1 h1
  · next e => simp [Cur.text] at e; exact absurd e.1 h2
  · next e => simp [Cur.text] at e; exact absurd e.1 h3
  · exact h

/-- A first character that is neither white space nor a semicolon. -/
def Solid (s : Str) : Prop := ∃ c t, s = c :: t ∧ rustWhitespace c = false ∧ c ≠ ';'

theorem Solid.head {s : Str} (h : Solid s) : ∀ c, s.head? = some c → rustWhitespace c = false ∧ c ≠ ';' := by
  obtain ⟨c, t, rfl, h1, h2⟩ := h
  intro d hd; simp at hd; subst hd; exact ⟨h1, h2⟩

theorem digit_solid {c : Char} (h : c.isDigit = true ∨ c = '-') :
    rustWhitespace c = false ∧ c ≠ ';' ∧ c ≠ '(' ∧ c ≠ '\'' ∧ c ≠ ',' := by
  rcases h with h | rfl
  · have hl : c.toNat < 128 := by simpa [oneByte] using isDigit_oneByte h
    have : ∀ n : Fin 128, (Char.ofNat n.1).isDigit = true →
        rustWhitespace (Char.ofNat n.1) = false ∧ (Char.ofNat n.1) ≠ ';' ∧ (Char.ofNat n.1) ≠ '(' ∧
          (Char.ofNat n.1) ≠ '\'' ∧ (Char.ofNat n.1) ≠ ',' := by decide +kernel
    have h2 := this ⟨c.toNat, hl⟩
    simp only [Char.ofNat_toNat] at h2
    exact h2 h
  · decide

theorem symbolic_solid {c : Char} (h : symbolic c = true) :
    rustWhitespace c = false ∧ c ≠ ';' ∧ c ≠ '(' ∧ c ≠ '\'' ∧ c ≠ ',' := by
  simp [symbolic, special] at h
  grind

mutual
theorem print_solid (U : Uni) : ∀ (v : Value), Readable U v → ∀ rest, isBreak rest = true → Solid (print v ++ rest)
  | .tt, _, rest, _ => ⟨'T', rest, rfl, by decide⟩
  | .ff, _, rest, _ => ⟨'F', rest, rfl, by decide⟩
  | .int i, h, rest, hr => by
    obtain ⟨_, c, s, e, hc⟩ := atom_number U (i := i) (by simp [Readable] at h; simp [inRange]; omega) hr
    exact ⟨c, s, by simpa [print] using e, (digit_solid hc).1, (digit_solid hc).2.1⟩
  | .sym s, h, rest, _ => by
    have h : GoodSym U s := by simpa [Readable] using h
    cases s with
    | nil => exact absurd rfl h.ne
    | cons c s =>
      have hch := h.chars
      simp only [List.all_cons, Bool.and_eq_true] at hch
      exact ⟨c, s ++ rest, by simp [print], (symbolic_solid hch.1).1, (symbolic_solid hch.1).2.1⟩
  | .list [], _, rest, _ => ⟨'N', 'I' :: 'L' :: rest, rfl, by decide⟩
  | .list (v :: l), _, rest, _ => ⟨'(', _, rfl, by decide⟩
  | .float _, h, _, _ => by simp [Readable] at h
  | .str _, h, _, _ => by simp [Readable] at h
  | .native _, h, _, _ => by simp [Readable] at h
  | .lam _ _ _, h, _, _ => by simp [Readable] at h
  | .mac _ _ _, h, _, _ => by simp [Readable] at h
  | .tail _ _, h, _, _ => by simp [Readable] at h
end

theorem atom_const_T (U : Uni) {rest : Str} (hr : isBreak rest = true) :
    parseAtom U ('T' :: rest) = .ok .tt (some rest) := by
  simp [parseAtom, parseConst, consume, Res.or, hr, show Char.toLower 'T' = 't' by decide]

theorem atom_const_F (U : Uni) {rest : Str} (hr : isBreak rest = true) :
    parseAtom U ('F' :: rest) = .ok .ff (some rest) := by
  simp [parseAtom, parseConst, consume, Res.or, hr, show Char.toLower 'F' = 'f' by decide]

theorem atom_const_NIL (U : Uni) {rest : Str} (hr : isBreak rest = true) :
    parseAtom U ('N' :: 'I' :: 'L' :: rest) = .ok .nil (some rest) := by
  simp [parseAtom, parseConst, consume, Res.or, hr, show Char.toLower 'N' = 'n' by decide,
    show Char.toLower 'I' = 'i' by decide, show Char.toLower 'L' = 'l' by decide]

theorem printRest_break (l : List Value) (rest : Str) : isBreak (printRest l ++ rest) = true := by
  cases l with
  | nil => simp [printRest, isBreak, special]
  | cons v l => simp [printRest, isBreak]; left; decide

mutual
/-- The printed form of a readable value, followed by a break, is read as that value. -/
theorem read_print (U : Uni) : ∀ (v : Value), Readable U v → ∀ rest, isBreak rest = true →
    ∃ n, parseExpr U n (some (print v ++ rest)) = .ok v (some rest)
  | .tt, _, rest, hr => ⟨1, const_head (w := []) (atom_const_T U hr) (by decide) (by decide) (by decide) 0⟩
  | .ff, _, rest, hr => ⟨1, const_head (w := []) (atom_const_F U hr) (by decide) (by decide) (by decide) 0⟩
  | .int i, h, rest, hr => by
    obtain ⟨ha, c, s, e, hc⟩ := atom_number U (i := i) (by simp [Readable] at h; simp [inRange]; omega) hr
    refine ⟨1, ?_⟩
    obtain ⟨_, _, h1, h2, h3⟩ := digit_solid hc
    rw [print, e]; rw [e] at ha
    exact const_head (w := []) ha h1 h2 h3 0
  | .sym s, h, rest, hr => by
    have h : GoodSym U s := by simpa [Readable] using h
    have ha := atom_symbol U h hr
    cases s with
    | nil => exact absurd rfl h.ne
    | cons c s =>
      have hch := h.chars
      simp only [List.all_cons, Bool.and_eq_true] at hch
      obtain ⟨_, _, h1, h2, h3⟩ := symbolic_solid hch.1
      exact ⟨1, const_head (w := []) ha h1 h2 h3 0⟩
  | .list [], _, rest, hr =>
    ⟨1, const_head (w := []) (atom_const_NIL U hr) (by decide) (by decide) (by decide) 0⟩
  | .list (v :: l), h, rest, hr => by
    have h : Readable U v ∧ ReadableL U l := by simpa [Readable, ReadableL] using h
    obtain ⟨n1, h1⟩ := read_print U v h.1 (printRest l ++ rest) (printRest_break l rest)
    obtain ⟨n2, h2⟩ := read_printRest U l h.2 rest hr [v]
    refine ⟨n1 + n2 + 2, ?_⟩
    rw [print]
    rw [show '(' :: print v ++ printRest l ++ rest = '(' :: (print v ++ (printRest l ++ rest)) by simp]
    rw [parseExpr.eq_def]
    simp only [Cur.text, Option.getD_some]
    rw [skip_some_of_not _ (print_solid U v h.1 _ (printRest_break l rest)).head, parseMembers]
    rw [parseExpr_mono U (by omega : n1 ≤ n1 + n2) (by rw [h1]; simp), h1]
    dsimp only
    rw [List.nil_append, parseMembers_mono U (by omega : n2 ≤ n1 + n2) (by rw [h2]; simp), h2]
    rfl
  | .float _, h, _, _ => by simp [Readable] at h
  | .str _, h, _, _ => by simp [Readable] at h
  | .native _, h, _, _ => by simp [Readable] at h
  | .lam _ _ _, h, _, _ => by simp [Readable] at h
  | .mac _ _ _, h, _, _ => by simp [Readable] at h
  | .tail _ _, h, _, _ => by simp [Readable] at h

theorem read_printRest (U : Uni) : ∀ (l : List Value), ReadableL U l → ∀ rest, isBreak rest = true → ∀ vs,
    ∃ n, parseMembers U n (skip (some (printRest l ++ rest))) vs = .ok (.list (vs ++ l)) (some rest)
  | [], _, rest, _, vs => by
    refine ⟨2, ?_⟩
    rw [printRest, List.singleton_append, skip_some_of_not _ (by intro c hc; simp at hc; subst hc; decide)]
    rw [parseMembers, parseExpr.eq_def]
    simp [Cur.text, parseAtom, parseConst, consume, Res.or, parseNumber, front, isNumeric, parseString,
      parseSymbol, symbolStart, symbolic, special, close, show Char.toLower ')' = ')' by decide,
      show Char.isDigit ')' = false by decide]
  | v :: l, h, rest, hr, vs => by
    have h : Readable U v ∧ ReadableL U l := by simpa [ReadableL] using h
    obtain ⟨n1, h1⟩ := read_print U v h.1 (printRest l ++ rest) (printRest_break l rest)
    obtain ⟨n2, h2⟩ := read_printRest U l h.2 rest hr (vs ++ [v])
    refine ⟨n1 + n2 + 1, ?_⟩
    rw [printRest]
    rw [show ' ' :: print v ++ printRest l ++ rest = ' ' :: (print v ++ (printRest l ++ rest)) by simp]
    rw [skip_space _ (print_solid U v h.1 _ (printRest_break l rest)).head, parseMembers]
    rw [parseExpr_mono U (by omega : n1 ≤ n1 + n2) (by rw [h1]; simp), h1]
    dsimp only
    rw [parseMembers_mono U (by omega : n2 ≤ n1 + n2) (by rw [h2]; simp), h2]
    simp
end

/-! ### Recorded macros -/

theorem skipGo_blank (pre : Str) (hp : ∀ c ∈ pre, rustWhitespace c = true) (s : Str)
    (hs : ∀ c, s.head? = some c → rustWhitespace c = false ∧ c ≠ ';') :
    ∀ last, skipGo 0 last (pre ++ s) = ((pre.getLast?).or last, s) := by
  induction pre with
  | nil =>
    intro last
    cases s with
    | nil => simp [skipGo]
    | cons c s => obtain ⟨h1, h2⟩ := hs c rfl; simp [skipGo, h1, h2]
  | cons c pre ih =>
    intro last
    have hc := hp c (by simp)
    have hne : c ≠ ';' := ws_ne hc _ (by decide)
    simp only [List.cons_append, skipGo]
    simp only [if_neg hne, hc]
    simp
    rw [ih (fun d hd => hp d (by simp [hd]))]
    cases pre with
    | nil => simp
    | cons d pre => simp [List.getLast?_cons]

theorem skip_blank {pre s : Str} (hp : ∀ c ∈ pre, rustWhitespace c = true ∧ oneByte c = true)
    (hs : ∀ c, s.head? = some c → rustWhitespace c = false ∧ c ≠ ';') :
    skip (some (pre ++ s)) = some s := by
  unfold skip
  simp only [Cur.text, Option.getD_some]
  rw [skipGo_blank pre (fun c hc => (hp c hc).1) s hs]
  cases hl : pre.getLast? with
  | none => simp at hl; subst hl; simp
  | some l =>
    have := (hp l (List.mem_of_getLast? hl)).2
    simp [this]

theorem parseString_plain {x rest : Str} (h : Plain x) :
    parseString ('"' :: x ++ '"' :: rest) = .ok (.str x) (some rest) := by
  obtain ⟨h1, h2, h3⟩ := h
  have hall : x.all (· != '"') = true := by
    rw [List.all_eq_true]; intro c hc; simp; rintro rfl; exact h2 hc
  simp only [List.cons_append, parseString]
  rw [takeWhile_break hall (by simp), dropWhile_break hall (by simp),
    List.getLast?_eq_some_getLast h1]
  dsimp only
  rw [h3 _ (List.getLast?_eq_some_getLast h1)]
  rfl

theorem parseExpr_plain (U : Uni) {x rest : Str} (h : Plain x) (n : Nat) :
    parseExpr U (n + 1) (some ('"' :: x ++ '"' :: rest)) = .ok (.str x) (some rest) := by
  have h1 := parseString_plain (rest := rest) h
  refine const_head (w := []) ?_ (by decide) (by decide) (by decide) n
  rw [List.cons_append] at h1
  simp [parseAtom, parseConst, consume, Res.or, parseNumber, front, isNumeric, h1,
    show Char.toLower '"' = '"' by decide, show Char.isDigit '"' = false by decide]

/-- What is behind the last element of a list. -/
theorem members_close (U : Uni) (vs : List Value) (rest : Str) (n : Nat) :
    parseMembers U (n + 2) (some (')' :: rest)) vs = .ok (.list vs) (some rest) := by
  rw [parseMembers, parseExpr.eq_def]
  simp [Cur.text, parseAtom, parseConst, consume, Res.or, parseNumber, front, isNumeric, parseString,
    parseSymbol, symbolStart, symbolic, special, close, show Char.toLower ')' = ')' by decide,
    show Char.isDigit ')' = false by decide]

theorem members_step (U : Uni) {n : Nat} {c c' : Cur} {v : Value} {vs : List Value}
    (h : parseExpr U n c = .ok v c') : parseMembers U (n + 1) c vs = parseMembers U n (skip c') (vs ++ [v]) := by
  rw [parseMembers, h]

theorem goodSym_sh (U : Uni) : GoodSym U c!"sh" where
  ne := by decide
  chars := by decide
  start := by intro c hc; simp at hc; subst hc; simp [isNumeric]
  last := by intro c hc; simp at hc; subst hc; decide
  const := by decide
  minus := by intro c t h; simp at h
  quote := by intro t h; simp at h

theorem goodSym_defun (U : Uni) : GoodSym U c!"defun" where
  ne := by decide
  chars := by decide
  start := by intro c hc; simp at hc; subst hc; simp [isNumeric]
  last := by intro c hc; simp at hc; subst hc; decide
  const := by decide
  minus := by intro c t h; simp at h
  quote := by intro t h; simp at h

theorem break_space (s : Str) : isBreak (' ' :: s) = true := by
  simp [isBreak, show rustWhitespace ' ' = true by decide]

theorem parseExpr_sym (U : Uni) {s : Str} (h : GoodSym U s) {rest : Str} (hr : isBreak rest = true) (n : Nat) :
    parseExpr U (n + 1) (some (s ++ rest)) = .ok (.sym s) (some rest) := by
  have ha := atom_symbol U h hr
  cases s with
  | nil => exact absurd rfl h.ne
  | cons c s =>
    have hch := h.chars
    simp only [List.all_cons, Bool.and_eq_true] at hch
    obtain ⟨_, _, h1, h2, h3⟩ := symbolic_solid hch.1
    exact const_head (w := []) ha h1 h2 h3 n

theorem head_solid {c : Char} {s : Str} (h : rustWhitespace c = false ∧ c ≠ ';') :
    ∀ d, (c :: s).head? = some d → rustWhitespace d = false ∧ d ≠ ';' := by
  intro d hd; simp at hd; subst hd; exact h

/-- `(sh "x")`. -/
theorem parseExpr_sh (U : Uni) {x rest : Str} (h : Plain x) {n : Nat} (hn : 6 ≤ n) :
    parseExpr U n (some (c!"(sh \"" ++ x ++ c!"\")" ++ rest)) =
      .ok (.list [.sym c!"sh", .str x]) (some rest) := by
  have h6 : parseExpr U 6 (some (c!"(sh \"" ++ x ++ c!"\")" ++ rest)) =
      .ok (.list [.sym c!"sh", .str x]) (some rest) := by
    rw [show c!"(sh \"" ++ x ++ c!"\")" ++ rest =
      '(' :: (c!"sh" ++ ' ' :: ('"' :: x ++ '"' :: ')' :: rest)) by simp]
    rw [parseExpr.eq_def]
    simp only [Cur.text, Option.getD_some]
    rw [skip_some_of_not _ (by
      intro d hd; simp at hd; subst hd; decide)]
    rw [members_step U (parseExpr_sym U (goodSym_sh U) (break_space _) 3)]
    rw [skip_space _ (by intro d hd; simp at hd; subst hd; decide)]
    rw [members_step U (parseExpr_plain U h 2)]
    rw [skip_some_of_not _ (head_solid (by decide)), members_close U _ _ 1]
    rfl
  rw [parseExpr_mono U hn (by rw [h6]; simp), h6]

/-- The calls of a recorded macro, the commands read as they stand. -/
def shForm (x : Str) : Value := .list [.sym c!"sh", .str x]

theorem parse_body (U : Uni) (xs : List Str) (hx : ∀ x ∈ xs, Plain x) (rest : Str) : ∀ (vs : List Value) (n : Nat),
    xs.length + 7 ≤ n →
    parseMembers U n (skip (some ('\n' :: (xs.flatMap (fun x => c!"  (sh \"" ++ x ++ c!"\")\n") ++ '\n' :: ')' :: rest)))) vs
      = .ok (.list (vs ++ xs.map shForm)) (some rest) := by
  induction xs with
  | nil =>
    intro vs n hn
    obtain ⟨m, rfl⟩ : ∃ m, n = m + 2 := ⟨n - 2, by simp at hn; omega⟩
    rw [show ('\n' :: (List.flatMap (fun x => c!"  (sh \"" ++ x ++ c!"\")\n") [] ++ '\n' :: ')' :: rest)) =
      c!"\n\n" ++ (')' :: rest) by simp]
    rw [skip_blank (by decide) (head_solid (by decide)), members_close]
    simp
  | cons x xs ih =>
    intro vs n hn
    obtain ⟨m, rfl⟩ : ∃ m, n = m + 1 := ⟨n - 1, by simp at hn; omega⟩
    rw [show ('\n' :: (List.flatMap (fun x => c!"  (sh \"" ++ x ++ c!"\")\n") (x :: xs) ++ '\n' :: ')' :: rest)) =
      c!"\n  " ++ (c!"(sh \"" ++ x ++ c!"\")" ++ ('\n' :: (xs.flatMap (fun x => c!"  (sh \"" ++ x ++ c!"\")\n") ++ '\n' :: ')' :: rest))) by
        simp]
    rw [skip_blank (by decide) (by intro d hd; simp at hd; subst hd; decide)]
    simp at hn
    rw [members_step U (parseExpr_sh U (hx x (by simp)) (by omega)),
      ih (fun y hy => hx y (by simp [hy])) _ _ (by omega)]
    simp [shForm]

/-- `()`. -/
theorem parseExpr_unit (U : Uni) (rest : Str) (n : Nat) :
    parseExpr U (n + 3) (some ('(' :: ')' :: rest)) = .ok .nil (some rest) := by
  rw [parseExpr.eq_def]
  simp only [Cur.text, Option.getD_some]
  rw [skip_some_of_not _ (head_solid (by decide)), members_close]
  rfl

end Dsh.Lisp
