import Verif.Lisp.Reader
/-! Lemmas on the reader. -/
namespace Dsh.Lisp

/-! ### More recursion never changes an answer -/

theorem parse_mono (U : Uni) : ∀ n,
    (∀ c, parseExpr U n c ≠ .out → parseExpr U (n + 1) c = parseExpr U n c) ∧
    (∀ c vs, parseMembers U n c vs ≠ .out → parseMembers U (n + 1) c vs = parseMembers U n c vs) := by
  intro n
  induction n with
  | zero => constructor <;> intros <;> simp_all [parseExpr, parseMembers]
  | succ n ih =>
    obtain ⟨ihE, ihM⟩ := ih
    constructor
    · intro c h
      rw [parseExpr.eq_def] at h ⊢
      rw [parseExpr.eq_def U (n + 1)]
      dsimp only at h ⊢
      split at h
      · exact ihM _ _ h
      · next s _ =>
        have : parseExpr U n (some s) ≠ .out := by intro h'; rw [h'] at h; exact h rfl
        rw [ihE _ this]
      · next s _ =>
        have : parseExpr U n (some s) ≠ .out := by intro h'; rw [h'] at h; exact h rfl
        rw [ihE _ this]
      · rfl
    · intro c vs h
      rw [parseMembers.eq_def] at h ⊢
      rw [parseMembers.eq_def U (n + 1)]
      dsimp only at h ⊢
      have hE : parseExpr U n c ≠ .out := by intro h'; rw [h'] at h; exact h rfl
      rw [ihE _ hE]
      cases hp : parseExpr U n c with
      | ok v c' => rw [hp] at h; exact ihM _ _ h
      | out => exact absurd hp hE
      | err => rfl
      | no => rfl

theorem parseExpr_mono (U : Uni) {n m : Nat} (h : n ≤ m) {c : Cur} (hn : parseExpr U n c ≠ .out) :
    parseExpr U m c = parseExpr U n c := by
  induction h with
  | refl => rfl
  | step _ ih => rw [(parse_mono U _).1 _ (by rw [ih]; exact hn), ih]

theorem parseMembers_mono (U : Uni) {n m : Nat} (h : n ≤ m) {c : Cur} {vs : List Value}
    (hn : parseMembers U n c vs ≠ .out) : parseMembers U m c vs = parseMembers U n c vs := by
  induction h with
  | refl => rfl
  | step _ ih => rw [(parse_mono U _).2 _ _ (by rw [ih]; exact hn), ih]

theorem readFirst_mono (U : Uni) {n m : Nat} (h : n ≤ m) {code : Str} (hn : readFirst U n code ≠ .out) :
    readFirst U m code = readFirst U n code := by
  have : parseExpr U n (skip (some code)) ≠ .out := by
    intro h'; apply hn; unfold readFirst; rw [h']
  unfold readFirst; rw [parseExpr_mono U h this]

/-! ### Skipping -/

theorem skipGo_le (s : Str) : ∀ k last, (skipGo k last s).2.length ≤ s.length := by
  induction s with
  | nil => intro k last; simp [skipGo]
  | cons c s ih =>
    intro k last
    simp only [skipGo]
    by_cases h : (rustWhitespace c || c == ';' || decide (2 ≤ (if c = ';' then k + 1 else if k < 2 ∨ c = '\n' then 0 else k))) = true
    · rw [if_pos h]; exact Nat.le_succ_of_le (ih _ _)
    · rw [if_neg h]; exact Nat.le_refl _

theorem skip_le (c : Cur) : (skip c).text.length ≤ c.text.length := by
  unfold skip
  have := skipGo_le c.text 0 none
  split
  · next l rest h =>
    rw [h] at this
    split
    · exact this
    · simp [Cur.text]
  · exact Nat.le_refl _

theorem skip_some_of_not (s : Str) (h : ∀ c, s.head? = some c → rustWhitespace c = false ∧ c ≠ ';') :
    skip (some s) = some s := by
  cases s with
  | nil => simp [skip, skipGo, Cur.text]
  | cons c s =>
    obtain ⟨h1, h2⟩ := h c rfl
    simp [skip, skipGo, Cur.text, h1, h2]

theorem skip_space (s : Str) (h : ∀ c, s.head? = some c → rustWhitespace c = false ∧ c ≠ ';') :
    skip (some (' ' :: s)) = some s := by
  cases s with
  | nil => decide
  | cons c s =>
    obtain ⟨h1, h2⟩ := h c rfl
    have hw : rustWhitespace ' ' = true := by decide
    simp [skip, skipGo, Cur.text, h1, h2, hw, oneByte]

/-! ### Every result takes something -/

theorem consume_lt {w s rest : Str} (h : consume w s = some rest) : rest.length + w.length = s.length := by
  induction w generalizing s with
  | nil => simp only [consume, Option.some.injEq] at h; simp [h]
  | cons a w ih =>
    cases s with
    | nil => simp [consume] at h
    | cons c s =>
      simp only [consume] at h
      split at h
      · simp [← ih h]; omega
      · simp at h

/-- Results: never `out`; what is left is shorter. -/
def Short (s : Str) (r : Res) : Prop := r ≠ .out ∧ ∀ v c, r = .ok v c → c.text.length < s.length

theorem Short.or {s : Str} {a b : Res} (ha : Short s a) (hb : Short s b) : Short s (a.or b) := by
  cases a <;> simp_all [Res.or]

theorem short_no (s : Str) : Short s .no := ⟨by simp, by simp⟩
theorem short_err (s : Str) : Short s .err := ⟨by simp, by simp⟩
theorem short_ok {s : Str} {v : Value} {c : Cur} (h : c.text.length < s.length) : Short s (.ok v c) :=
  ⟨by simp, by intro v' c' h'; injection h' with _ h'; rw [← h']; exact h⟩

theorem parseConst_short {w : Str} (hw : w ≠ []) (v : Value) (s : Str) : Short s (parseConst w v s) := by
  unfold parseConst
  split
  · next rest h =>
    have := consume_lt h
    have : 0 < w.length := List.length_pos_iff.2 hw
    split
    · apply short_ok; simp [Cur.text]; omega
    · exact short_no _
  · exact short_no _

theorem parseWhole_short {m rest s : Str} (h : rest.length < s.length) : Short s (parseWhole m rest) := by
  unfold parseWhole
  split
  · split
    · apply short_ok; simpa [Cur.text]
    · exact short_no _
  · exact short_no _

theorem front_length (U : Uni) (s : Str) (h : front U s ≠ []) : 0 < s.length := by
  cases s with
  | nil => simp [front] at h
  | cons c s => simp

theorem parseNumber_short (U : Uni) (s : Str) : Short s (parseNumber U s) := by
  unfold parseNumber
  dsimp only
  split
  · exact short_no _
  · next l hl =>
    have hm : front U s ≠ [] := by intro h; rw [h] at hl; simp at hl
    have h0 := front_length U s hm
    have h1 : 0 < (front U s).length := List.length_pos_iff.2 hm
    have h2 : (s.drop (front U s).length).length < s.length := by simp; omega
    split
    · split
      · split
        · apply short_ok; simp [Cur.text]; omega
        · exact parseWhole_short h2
      · split
        · exact short_err _
        · exact parseWhole_short h2
    · exact short_no _

theorem dropWhile_length_le {α} (p : α → Bool) (l : List α) : (l.dropWhile p).length ≤ l.length :=
  (List.dropWhile_suffix p).length_le

theorem parseString_short (s : Str) : Short s (parseString s) := by
  unfold parseString
  split
  · next s =>
    dsimp only
    split
    · exact short_no _
    · split
      · split
        · exact short_err _
        · next rest h =>
          apply short_ok
          have := dropWhile_length_le (· != '"') s
          rw [h] at this
          simp at this ⊢
          simp [Cur.text]; omega
      · exact short_err _
  · exact short_no _

theorem parseSymbol_short (U : Uni) (s : Str) : Short s (parseSymbol U s) := by
  unfold parseSymbol
  split
  · exact short_no _
  · next c s =>
    split
    · dsimp only
      split
      · next rest h =>
        apply short_ok
        unfold after at h
        have := dropWhile_length_le symbolic s
        split at h
        · split at h
          · injection h with h; subst h; simp [Cur.text]; omega
          · simp at h
        · injection h with h; subst h; simp [Cur.text]; omega
      · apply short_ok; simp [Cur.text]
    · exact short_no _

theorem parseAtom_short (U : Uni) (s : Str) : Short s (parseAtom U s) :=
  (parseConst_short (by simp) _ _).or <| (parseConst_short (by simp) _ _).or <|
    (parseConst_short (by simp) _ _).or <| (parseNumber_short U s).or <| (parseString_short s).or <|
    parseSymbol_short U s

theorem close_short (vs : List Value) (s : Str) : Short s (close vs s) := by
  unfold close
  split
  · apply short_ok; simp [Cur.text]
  · exact short_err _

theorem wrap_short {name : Str} {a : Char} {s : Str} {r : Res} (h : Short s r) :
    Short (a :: s) (wrap name r) := by
  cases r with
  | ok v c =>
    have := h.2 _ _ rfl
    simp only [wrap]; apply short_ok; simp; omega
  | out => exact absurd rfl h.1
  | no => exact short_no _
  | err => exact short_err _

theorem Short.mono {s s' : Str} {r : Res} (h : Short s r) (hl : s.length ≤ s'.length) : Short s' r :=
  ⟨h.1, fun v c e => Nat.lt_of_lt_of_le (h.2 v c e) hl⟩

/-- A recursion as deep as twice the text is long is always enough, and every result takes something. -/
theorem parse_short (U : Uni) : ∀ n,
    (∀ c : Cur, 2 * c.text.length + 1 ≤ n → Short c.text (parseExpr U n c)) ∧
    (∀ (c : Cur) vs, 2 * c.text.length + 2 ≤ n → Short c.text (parseMembers U n c vs)) := by
  intro n
  induction n with
  | zero => constructor <;> intros <;> omega
  | succ n ih =>
    obtain ⟨ihE, ihM⟩ := ih
    constructor
    · intro c h
      rw [parseExpr.eq_def]
      dsimp only
      split
      · next s hs =>
        rw [hs] at h ⊢
        have := skip_le (some s)
        simp [Cur.text] at h this
        apply (ihM (skip (some s)) [] (by simp [Cur.text]; omega)).mono
        simp [Cur.text]; omega
      · next s hs =>
        rw [hs] at h ⊢
        simp at h
        exact wrap_short (ihE (some s) (by simp [Cur.text]; omega))
      · next s hs =>
        rw [hs] at h ⊢
        simp at h
        exact wrap_short (ihE (some s) (by simp [Cur.text]; omega))
      · exact parseAtom_short U _
    · intro c vs h
      rw [parseMembers.eq_def]
      dsimp only
      have hE := ihE c (by omega)
      cases hp : parseExpr U n c with
      | ok v c' =>
        dsimp only
        have h1 := hE.2 v c' hp
        have h2 := skip_le c'
        exact (ihM (skip c') _ (by omega)).mono (by omega)
      | out => exact absurd hp hE.1
      | err => exact short_err _
      | no => exact close_short _ _

/-- The reader ends on every text. -/
theorem parse_total (U : Uni) (code : Str) {n : Nat} (h : 2 * code.length + 1 ≤ n) :
    readFirst U n code ≠ .out := by
  unfold readFirst
  have h1 := skip_le (some code)
  simp [Cur.text] at h1
  have := ((parse_short U n).1 (skip (some code)) (by simp [Cur.text]; omega)).1
  split <;> (try simp)
  · contradiction
  · split <;> simp

/-! ### Strings that can be read -/

mutual
/-- All strings in a value that can be read. -/
def strings : Value → List Str
  | .str s => [s]
  | .list l => stringsL l
  | _ => []
def stringsL : List Value → List Str
  | [] => []
  | v :: l => strings v ++ stringsL l
end

theorem stringsL_append (a b : List Value) : stringsL (a ++ b) = stringsL a ++ stringsL b := by
  induction a with
  | nil => simp [stringsL]
  | cons v a ih => simp [stringsL, ih]

/-- A string the reader can deliver: not empty, without double quote, ending in an ASCII character. -/
def Plain (s : Str) : Prop := s ≠ [] ∧ '"' ∉ s ∧ ∀ c, s.getLast? = some c → oneByte c = true

def StrOK (r : Res) : Prop := ∀ v c, r = .ok v c → ∀ s ∈ strings v, Plain s

theorem strOK_no : StrOK .no := by simp [StrOK]
theorem strOK_err : StrOK .err := by simp [StrOK]
theorem strOK_out : StrOK .out := by simp [StrOK]
theorem strOK_ok {v : Value} {c : Cur} (h : ∀ s ∈ strings v, Plain s) : StrOK (.ok v c) := by
  intro v' c' e; injection e with e _; rw [← e]; exact h
theorem StrOK.or {a b : Res} (ha : StrOK a) (hb : StrOK b) : StrOK (a.or b) := by
  cases a <;> simp_all [Res.or]

theorem parseConst_strOK {w s : Str} {v : Value} (hv : strings v = []) : StrOK (parseConst w v s) := by
  unfold parseConst
  split
  · split
    · exact strOK_ok (by simp [hv])
    · exact strOK_no
  · exact strOK_no

theorem parseWhole_strOK (m rest : Str) : StrOK (parseWhole m rest) := by
  unfold parseWhole
  split
  · split
    · exact strOK_ok (by simp [strings])
    · exact strOK_no
  · exact strOK_no

theorem parseNumber_strOK (U : Uni) (s : Str) : StrOK (parseNumber U s) := by
  unfold parseNumber
  dsimp only
  split
  · exact strOK_no
  · split
    · split
      · split
        · exact strOK_ok (by simp [strings])
        · exact parseWhole_strOK _ _
      · split
        · exact strOK_err
        · exact parseWhole_strOK _ _
    · exact strOK_no

theorem parseString_strOK (s : Str) : StrOK (parseString s) := by
  unfold parseString
  split
  · next s =>
    dsimp only
    split
    · exact strOK_no
    · next l hl =>
      split
      · next h1 =>
        split
        · exact strOK_err
        · apply strOK_ok
          intro t ht
          simp only [strings, List.mem_singleton] at ht
          subst ht
          refine ⟨?_, ?_, ?_⟩
          · intro h; rw [h] at hl; simp at hl
          · intro h
            have := List.all_takeWhile (p := (· != '"')) (l := s)
            rw [List.all_eq_true] at this
            simpa using this _ h
          · intro c hc; rw [hl] at hc; injection hc with hc; rw [← hc]; exact h1
      · exact strOK_err
  · exact strOK_no

theorem parseSymbol_strOK (U : Uni) (s : Str) : StrOK (parseSymbol U s) := by
  unfold parseSymbol
  split
  · exact strOK_no
  · split
    · dsimp only
      split
      · exact strOK_ok (by simp [strings])
      · exact strOK_ok (by simp [strings])
    · exact strOK_no

theorem parseAtom_strOK (U : Uni) (s : Str) : StrOK (parseAtom U s) :=
  (parseConst_strOK (by simp [Value.nil, strings, stringsL])).or <| (parseConst_strOK (by simp [strings])).or <|
    (parseConst_strOK (by simp [strings])).or <| (parseNumber_strOK U s).or <| (parseString_strOK s).or <|
    parseSymbol_strOK U s

theorem wrap_strOK {name : Str} {r : Res} (h : StrOK r) : StrOK (wrap name r) := by
  cases r with
  | ok v c => exact strOK_ok (by simpa [strings, stringsL] using h v c rfl)
  | out => exact strOK_out
  | no => exact strOK_no
  | err => exact strOK_err

theorem close_strOK {vs : List Value} (h : ∀ s ∈ stringsL vs, Plain s) (s : Str) : StrOK (close vs s) := by
  unfold close
  split
  · exact strOK_ok (by simpa [strings] using h)
  · exact strOK_err

theorem parse_strOK (U : Uni) : ∀ n,
    (∀ c : Cur, StrOK (parseExpr U n c)) ∧
    (∀ (c : Cur) vs, (∀ s ∈ stringsL vs, Plain s) → StrOK (parseMembers U n c vs)) := by
  intro n
  induction n with
  | zero => constructor <;> intros <;> simp [parseExpr, parseMembers, strOK_out]
  | succ n ih =>
    obtain ⟨ihE, ihM⟩ := ih
    constructor
    · intro c
      rw [parseExpr.eq_def]
      dsimp only
      split
      · exact ihM _ _ (by simp [stringsL])
      · exact wrap_strOK (ihE _)
      · exact wrap_strOK (ihE _)
      · exact parseAtom_strOK U _
    · intro c vs h
      rw [parseMembers.eq_def]
      dsimp only
      cases hp : parseExpr U n c with
      | ok v c' =>
        dsimp only
        apply ihM
        intro s hs
        rw [stringsL_append, List.mem_append] at hs
        rcases hs with hs | hs
        · exact h s hs
        · simp only [stringsL, List.append_nil] at hs
          exact ihE c v c' hp s hs
      | out => exact strOK_out
      | err => exact strOK_err
      | no => exact close_strOK h _

theorem readFirst_strings (U : Uni) {n : Nat} {code : Str} {v : Value} (h : readFirst U n code = .val v) :
    ∀ s ∈ strings v, Plain s := by
  unfold readFirst at h
  split at h
  · next v' c' hp =>
    injection h with h; subst h
    exact (parse_strOK U n).1 _ _ _ hp
  · simp at h
  · simp at h
  · split at h <;> simp at h

end Dsh.Lisp
