import Verif.Completion.ShellPath
/-!
C06: decoding a token written by completion gives back the path.
-/
namespace Dsh.ShellPath

theorem decode_escapeWith {p : Char → Bool} (hp : p '\\' = true) (s : List Char) :
    decode (escapeWith p s) = s := by
  unfold escapeWith
  induction s with
  | nil => rfl
  | cons c s ih =>
    rw [List.flatMap_cons]
    by_cases h : p c = true
    · simp [h, decode, ih]
    · have hc : c ≠ '\\' := by rintro rfl; exact h hp
      have : ∀ l, decode (c :: l) = c :: decode l := by
        intro l
        cases l <;> simp [decode, hc]
      simp [h, this, ih]

theorem escapeWith_head {p : Char → Bool} {s : List Char} {c : Char} (hc : p c = true) (hb : c ≠ '\\') :
    (escapeWith p s).head? ≠ some c := by
  cases s with
  | nil => simp [escapeWith]
  | cons d s =>
    unfold escapeWith
    rw [List.flatMap_cons]
    by_cases h : p d = true
    · simp only [h, if_true]; simp; exact fun h => hb h.symm
    · simp only [h]; simp; rintro rfl; exact h hc

theorem escapeWith_last (p : Char → Bool) (s : List Char) :
    (escapeWith p s).getLast? = s.getLast? := by
  unfold escapeWith
  induction s with
  | nil => rfl
  | cons c s ih =>
    rw [List.flatMap_cons, List.getLast?_append, ih]
    cases s with
    | nil => cases h : p c <;> simp
    | cons d s =>
      rw [List.getLast?_cons_cons]
      cases h : (d :: s).getLast? with
      | none => simp at h
      | some x => rfl

theorem detect_single {raw : List Char} (h : raw.head? = some '\'') :
    detectStyle raw = .single (closedBy '\'' raw) := by
  unfold detectStyle
  rw [h]
  simp

theorem detect_double {raw : List Char} (h : raw.head? = some '"') :
    detectStyle raw = .double (closedBy '"' raw) := by
  unfold detectStyle
  rw [h]
  simp

theorem normalize_quoted {q : Char} {p : Char → Bool} {s : List Char} {closed : Bool} (hp : p '\\' = true)
    (hlast : closed = false → s.getLast? ≠ some q) :
    closedBy q (q :: escapeWith p s ++ (if closed then [q] else [])) = closed ∧
    decode (stripQuote (q :: escapeWith p s ++ (if closed then [q] else [])) q closed) = s := by
  cases closed with
  | true =>
    refine ⟨?_, ?_⟩
    · have : (q :: escapeWith p s ++ [q]).getLast? = some q := by rw [List.getLast?_append]; rfl
      simp only [if_true, closedBy, this]
      simp
    · simp [stripQuote, decode_escapeWith hp]
  | false =>
    have h := hlast rfl
    simp only [Bool.false_eq_true, if_false, List.append_nil]
    refine ⟨?_, ?_⟩
    · cases s with
      | nil => simp [closedBy, escapeWith]
      | cons c s =>
        have h1 := escapeWith_last p (c :: s)
        have h2 : escapeWith p (c :: s) ≠ [] := by
          simp only [escapeWith, List.flatMap_cons]
          split <;> simp
        obtain ⟨d, ds, hd⟩ := List.exists_cons_of_ne_nil h2
        rw [hd] at h1 ⊢
        simp only [closedBy, List.getLast?_cons_cons, h1]
        simp [h]
    · simp [stripQuote, decode_escapeWith hp]

/-- **C06.** What completion writes for a path – unquoted with backslashes, or inside closed
quotes, or inside quotes still open when the path does not end in that quote character – is
decoded to the same path.  Missing from the full property: open quotes and a path ending in the
quote character, see `C06_open_quote_violated`. -/
theorem C06_roundtrip_partial (st : Style) (path : List Char)
    (h1 : st = .single false → path.getLast? ≠ some '\'')
    (h2 : st = .double false → path.getLast? ≠ some '"') :
    normalize (encode st path) = path := by
  have hunq : normalize (escapeUnquoted path) = path := by
    have hh1 : (escapeUnquoted path).head? ≠ some '"' := escapeWith_head (by decide) (by decide)
    have hh2 : (escapeUnquoted path).head? ≠ some '\'' := escapeWith_head (by decide) (by decide)
    have hd : decode (escapeUnquoted path) = path := decode_escapeWith (by decide) path
    unfold normalize detectStyle
    rw [if_neg hh1, if_neg hh2]
    split_ifs <;> exact hd
  cases st with
  | plain => exact hunq
  | escaped => exact hunq
  | single closed =>
    obtain ⟨ha, hb⟩ := normalize_quoted (q := '\'') (p := fun c => c = '\\' || c = '\'') (s := path)
      (closed := closed) rfl (fun hc => h1 (by rw [hc]))
    have hd : detectStyle (encode (.single closed) path) = .single closed := by
      rw [detect_single (by simp [encode])]
      exact congrArg _ ha
    unfold normalize
    rw [hd]
    exact hb
  | double closed =>
    obtain ⟨ha, hb⟩ := normalize_quoted (q := '"') (p := fun c => c = '\\' || c = '"' || c = '$' || c = '`')
      (s := path) (closed := closed) rfl (fun hc => h2 (by rw [hc]))
    have hd : detectStyle (encode (.double closed) path) = .double closed := by
      rw [detect_double (by simp [encode])]
      exact congrArg _ ha
    unfold normalize
    rw [hd]
    exact hb

/-- A case meeting the hypotheses: a path with blanks, quotes, a dollar and a backslash. -/
example : normalize (encode (.double false) c!"/tmp/a b'$x\"\\c") = c!"/tmp/a b'$x\"\\c" :=
  C06_roundtrip_partial _ _ (by simp) (by simp)

/-- **C06, repeated completion.** Completing the same token again with the path it denotes changes
nothing. -/
theorem C06_stable_partial (st : Style) (path : List Char)
    (h1 : st = .single false → path.getLast? ≠ some '\'')
    (h2 : st = .double false → path.getLast? ≠ some '"') :
    formatForToken (normalize (encode st path)) (encode st path) = encode st path := by
  rw [C06_roundtrip_partial st path h1 h2]
  unfold formatForToken
  cases st with
  | plain =>
    have hh1 : (encode .plain path).head? ≠ some '"' := escapeWith_head (by decide) (by decide)
    have hh2 : (encode .plain path).head? ≠ some '\'' := escapeWith_head (by decide) (by decide)
    unfold detectStyle
    rw [if_neg hh1, if_neg hh2]
    split_ifs <;> rfl
  | escaped =>
    have hh1 : (encode .escaped path).head? ≠ some '"' := escapeWith_head (by decide) (by decide)
    have hh2 : (encode .escaped path).head? ≠ some '\'' := escapeWith_head (by decide) (by decide)
    unfold detectStyle
    rw [if_neg hh1, if_neg hh2]
    split_ifs <;> rfl
  | single closed =>
    obtain ⟨ha, _⟩ := normalize_quoted (q := '\'') (p := fun c => c = '\\' || c = '\'') (s := path)
      (closed := closed) rfl (fun hc => h1 (by rw [hc]))
    have hd : detectStyle (encode (.single closed) path) = .single closed := by
      rw [detect_single (by simp [encode])]
      exact congrArg _ ha
    rw [hd]
  | double closed =>
    obtain ⟨ha, _⟩ := normalize_quoted (q := '"') (p := fun c => c = '\\' || c = '"' || c = '$' || c = '`')
      (s := path) (closed := closed) rfl (fun hc => h2 (by rw [hc]))
    have hd : detectStyle (encode (.double closed) path) = .double closed := by
      rw [detect_double (by simp [encode])]
      exact congrArg _ ha
    rw [hd]

/-- **C06, half an escape.** A token cut off in the middle of an escape denotes the path so far and
a backslash. -/
theorem C06_cut (path : List Char) : normalize (escapeUnquoted path ++ ['\\']) = path ++ ['\\'] := by
  have key : ∀ s : List Char, decode (escapeUnquoted s ++ ['\\']) = s ++ ['\\'] := by
    intro s
    unfold escapeUnquoted escapeWith
    induction s with
    | nil => rfl
    | cons c s ih =>
      rw [List.flatMap_cons, List.append_assoc]
      by_cases h : unquotedSpecial c = true
      · simp [h, decode, ih]
      · have hc : c ≠ '\\' := by rintro rfl; exact h (by decide)
        have : ∀ l, decode (c :: l) = c :: decode l := by
          intro l
          cases l <;> simp [decode, hc]
        simp [h, this, ih]
  have hh : ∀ q, unquotedSpecial q = true → q ≠ '\\' → (escapeUnquoted path ++ ['\\']).head? ≠ some q := by
    intro q hq hb
    rw [List.head?_append]
    cases he : (escapeUnquoted path).head? with
    | none => simp; exact fun h => hb h.symm
    | some d =>
      have := escapeWith_head (s := path) hq hb
      unfold escapeUnquoted at he
      rw [he] at this
      simpa using this
  unfold normalize detectStyle
  rw [if_neg (hh '"' (by decide) (by decide)), if_neg (hh '\'' (by decide) (by decide))]
  split_ifs <;> exact key path

example : normalize c!"/tmp/my\\ fi\\" = c!"/tmp/my fi\\" := C06_cut c!"/tmp/my fi"

/-- **C06 fails** for a quote still open and a path ending in the quote character: the file `it'`
completed after `'i` is written `'it\'` and understood as `it\`. -/
theorem C06_open_quote_violated :
    ¬ ∀ (st : Style) (path : List Char), normalize (encode st path) = path := by
  intro h
  exact absurd (h (.single false) c!"it'") (by decide)

end Dsh.ShellPath
