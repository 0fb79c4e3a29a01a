import Verif.Lisp.Config
/-!
C25 (values print and read back), C26 (recorded macros, the reading half), C82 (a comment is not code) and
C83 (recording a macro keeps the configuration readable).
-/
namespace Dsh.Lisp

/-- Which character outside ASCII is numeric does not matter for the examples. -/
def U0 : Uni := ⟨fun _ => false, fun _ _ => rfl⟩

/-! ### What "reads as" means -/

/-- The text is read as exactly this value, and nothing but white space is left. -/
def ReadsAs (U : Uni) (code : Str) (v : Value) : Prop :=
  ∃ n, ∀ m, n ≤ m → readFirst U m code = .val v

/-- The text cannot be read. -/
def Unreadable (U : Uni) (code : Str) : Prop := ∃ n, ∀ m, n ≤ m → readFirst U m code = .err

theorem readsAs_of (U : Uni) {code : Str} {v : Value} {n : Nat} (h : readFirst U n code = .val v) :
    ReadsAs U code v :=
  ⟨n, fun m hm => by rw [readFirst_mono U hm (by rw [h]; simp), h]⟩

theorem unreadable_of (U : Uni) {code : Str} {n : Nat} (h : readFirst U n code = .err) :
    Unreadable U code :=
  ⟨n, fun m hm => by rw [readFirst_mono U hm (by rw [h]; simp), h]⟩

theorem ReadsAs.unique {U : Uni} {code : Str} {v w : Value} (h : ReadsAs U code v) (h' : ReadsAs U code w) :
    v = w := by
  obtain ⟨n, hn⟩ := h
  obtain ⟨m, hm⟩ := h'
  have h1 := hn (max n m) (by omega)
  have h2 := hm (max n m) (by omega)
  rw [h1] at h2
  injection h2

/-- Every text has exactly one outcome, reached with a recursion as deep as twice its length: the reader
always ends. -/
theorem C25_reading_ends (U : Uni) (code : Str) :
    ∃ r, r ≠ .out ∧ ∀ m, 2 * code.length + 1 ≤ m → readFirst U m code = r :=
  ⟨_, parse_total U code (Nat.le_refl _), fun _ hm => readFirst_mono U hm (parse_total U code (Nat.le_refl _))⟩

/-! ### C25 -/

/-- **C25 (partial)**: a value made of `T`, `F`, `NIL`, 64-bit integers, symbols that can be written and
lists of such values is read back from its printed form.  Missing: strings and floats, for which it is
false (below). -/
theorem C25_print_read_partial (U : Uni) (v : Value) (h : Readable U v) : ReadsAs U (print v) v := by
  obtain ⟨n, hn⟩ := read_print U v h [] (by decide)
  rw [List.append_nil] at hn
  have hs := print_solid U v h [] (by decide)
  rw [List.append_nil] at hs
  apply readsAs_of U (n := n)
  unfold readFirst
  rw [skip_some_of_not _ hs.head, hn]

/-- Two such values that print alike are the same. -/
theorem C25_print_injective_partial (U : Uni) {v w : Value} (hv : Readable U v) (hw : Readable U w)
    (h : print v = print w) : v = w :=
  (C25_print_read_partial U v hv).unique (h ▸ C25_print_read_partial U w hw)

/-- A nested value: `(defun f2 (x -7) (- x T) NIL)`. -/
example : ReadsAs U0 c!"(defun f2 (x -7) (- x T) NIL)"
    (.list [.sym c!"defun", .sym c!"f2", .list [.sym c!"x", .int (-7)],
      .list [.sym c!"-", .sym c!"x", .tt], .list []]) :=
  readsAs_of U0 (n := 40) (by decide +kernel)

theorem goodSym_ex : GoodSym U0 c!"set-car!" where
  ne := by decide
  chars := by decide
  start := by intro c hc; simp at hc; subst hc; decide
  last := by intro c hc; simp at hc; subst hc; decide
  const := by decide
  minus := by intro c t h; simp at h
  quote := by intro t h; simp at h

/-- The hypotheses are met by a nested list. -/
example : Readable U0 (.list [.sym c!"set-car!", .list [.int (-9223372036854775808), .tt], .list []]) := by
  simp [Readable, ReadableL, goodSym_ex]

theorem str_len (U : Uni) {n : Nat} {c c' : Cur} {s : Str} (h : parseExpr U n c = .ok (.str s) c') :
    s.length < c.text.length := by
  cases n with
  | zero => simp [parseExpr] at h
  | succ n =>
    have key : ∀ t : Str, parseAtom U t = .ok (.str s) c' → s.length < t.length := by
      intro t ht
      have hconst : ∀ (w : Str) (v : Value) (r : Res), parseConst w v t = r → r ≠ .no →
          ∃ c, r = .ok v c := by
        intro w v r hr hno
        unfold parseConst at hr
        split at hr
        · split at hr
          · exact ⟨_, hr.symm⟩
          · exact absurd hr.symm hno
        · exact absurd hr.symm hno
      have or_cases : ∀ a b : Res, a.or b = .ok (.str s) c' → a = .ok (.str s) c' ∨ b = .ok (.str s) c' := by
        intro a b hab
        cases a <;> simp_all [Res.or]
      unfold parseAtom at ht
      rcases or_cases _ _ ht with ht | ht
      · obtain ⟨_, hc⟩ := hconst _ _ _ ht (by simp); simp [Value.nil] at hc
      rcases or_cases _ _ ht with ht | ht
      · obtain ⟨_, hc⟩ := hconst _ _ _ ht (by simp); simp at hc
      rcases or_cases _ _ ht with ht | ht
      · obtain ⟨_, hc⟩ := hconst _ _ _ ht (by simp); simp at hc
      rcases or_cases _ _ ht with ht | ht
      · exfalso
        unfold parseNumber at ht
        dsimp only at ht
        have hw : ∀ m r, parseWhole m r ≠ .ok (.str s) c' := by
          intro m r hr
          unfold parseWhole at hr
          split at hr
          · split at hr <;> simp at hr
          · simp at hr
        split at ht
        · simp at ht
        · split at ht
          · split at ht
            · split at ht
              · simp at ht
              · exact hw _ _ ht
            · split at ht
              · simp at ht
              · exact hw _ _ ht
          · simp at ht
      rcases or_cases _ _ ht with ht | ht
      · unfold parseString at ht
        split at ht
        · dsimp only at ht
          split at ht
          · simp at ht
          · split at ht
            · split at ht
              · simp at ht
              · simp only [Res.ok.injEq, Value.str.injEq] at ht
                rw [← ht.1]
                exact Nat.lt_of_le_of_lt (List.takeWhile_prefix _).length_le (by simp)
            · simp at ht
        · simp at ht
      · exfalso
        unfold parseSymbol at ht
        split at ht
        · simp at ht
        · split at ht
          · dsimp only at ht
            split at ht <;> simp at ht
          · simp at ht
    rw [parseExpr.eq_def] at h
    dsimp only at h
    have hwrap : ∀ name r, wrap name r ≠ .ok (.str s) c' := by
      intro name r
      cases r <;> simp [wrap]
    split at h
    · exfalso
      have hm : ∀ n c vs, parseMembers U n c vs ≠ .ok (.str s) c' := by
        intro n
        induction n with
        | zero => intro c vs; simp [parseMembers]
        | succ n ih =>
          intro c vs
          rw [parseMembers]
          split
          · exact ih _ _
          · simp
          · simp
          · unfold close; split <;> simp
      exact hm _ _ _ h
    · exact absurd h (hwrap _ _)
    · exact absurd h (hwrap _ _)
    · exact key _ h

/-- **C25 violated** by every string: no string at all is read back from its printed form (it is printed
without quotes). -/
theorem C25_string_violated (U : Uni) (s : Str) : ¬ ReadsAs U (print (.str s)) (.str s) := by
  rintro ⟨n, hn⟩
  have h := hn n (Nat.le_refl _)
  unfold readFirst at h
  split at h
  · next v c hp =>
    injection h with h; subst h
    have h1 := str_len U hp
    have h2 := skip_le (some (print (.str s)))
    simp [Cur.text, print] at h1 h2
    omega
  · simp at h
  · simp at h
  · split at h <;> simp at h

/-- A string may even come back as code: the string `(rm)` prints as a call. -/
theorem C25_string_as_code_violated : print (.str c!"(rm)") = print (.list [.sym c!"rm"]) := by decide

/-- **C25 violated** by the float `1.0`: it is printed as `1` and read back as an integer. -/
theorem C25_float_violated (U : Uni) :
    ReadsAs U c!"1.0" (.float c!"1.0") ∧ print (.float c!"1.0") = c!"1" ∧
      ReadsAs U (print (.float c!"1.0")) (.int 1) := by
  refine ⟨readsAs_of U (n := 9) ?_, by decide, ?_⟩
  · simp [readFirst, skip, skipGo, Cur.text, parseExpr, parseAtom, parseConst, consume, Res.or, parseNumber,
      front, back, isNumeric, isBreak, oneByte, rustWhitespace]
  · have := C25_print_read_partial U (.int 1) (by simp [Readable])
    exact this

/-- Strings that cannot be written at all: the empty one, one with a double quote, and one whose last
character is not ASCII — whatever the text, the reader never delivers them. -/
theorem C25_unwritable_strings_violated (U : Uni) (code : Str) (v : Value) (h : ReadsAs U code v) (s : Str)
    (hs : s = [] ∨ '"' ∈ s ∨ ∃ c, s.getLast? = some c ∧ 128 ≤ c.toNat) : s ∉ strings v := by
  obtain ⟨n, hn⟩ := h
  intro hm
  obtain ⟨h1, h2, h3⟩ := readFirst_strings U (hn n (Nat.le_refl _)) s hm
  rcases hs with hs | hs | ⟨c, hc, hge⟩
  · exact h1 hs
  · exact h2 hs
  · have := h3 c hc
    simp [oneByte] at this
    omega

/-- `"é"` in quotes is an error, `""` a symbol. -/
theorem C25_accent_violated (U : Uni) : Unreadable U ['"', 'é', '"'] ∧ ReadsAs U c!"\"\"" (.sym c!"\"\"") := by
  constructor
  · apply unreadable_of U (n := 5)
    simp [readFirst, skip, skipGo, Cur.text, parseExpr, parseAtom, parseConst, consume, Res.or, parseNumber,
      front, isNumeric, oneByte, parseString, rustWhitespace]
  · apply readsAs_of U (n := 5)
    simp [readFirst, skip, skipGo, Cur.text, parseExpr, parseAtom, parseConst, consume, Res.or, parseNumber,
      front, isNumeric, oneByte, parseString, rustWhitespace, parseSymbol, symbolStart, symbolic,
      special, after]

/-! ### C26: what a recorded macro is read as -/

/-- The definition a recorded macro should be: a function without parameters that runs the commands in
order. -/
def wanted (name : Str) (cmds : List Str) : Value :=
  .list (.sym c!"defun" :: .sym name :: .list [] :: cmds.map (fun c => .list [.sym c!"sh", .str c]))

theorem escape_eq_of {c : Str} (h : '"' ∉ c) (hb : '\\' ∉ c) : escape c = c := by
  have : ∀ (a : Char) (w s : Str), a ∉ s → replaceChar a w s = s := by
    intro a w s hs
    induction s with
    | nil => rfl
    | cons d s ih =>
      simp only [List.mem_cons, not_or] at hs
      simp only [replaceChar, List.flatMap_cons] at ih ⊢
      rw [if_neg (Ne.symm hs.1), ih hs.2]
      rfl
  rw [escape, this _ _ _ hb, this _ _ _ h]

theorem escape_noquote {c : Str} (h : '"' ∉ c) : escape c = replaceChar '\\' c!"\\\\" c := by
  have : ∀ (a : Char) (w s : Str), a ∉ s → replaceChar a w s = s := by
    intro a w s hs
    induction s with
    | nil => rfl
    | cons d s ih =>
      simp only [List.mem_cons, not_or] at hs
      simp only [replaceChar, List.flatMap_cons] at ih ⊢
      rw [if_neg (Ne.symm hs.1), ih hs.2]
      rfl
  rw [escape, this]
  simp only [replaceChar, List.mem_flatMap, not_exists, not_and]
  intro d hd
  split
  · decide
  · simp; rintro rfl; exact h hd

theorem replace_length (c : Str) : (replaceChar '\\' c!"\\\\" c).length = c.length + c.count '\\' := by
  induction c with
  | nil => rfl
  | cons d c ih =>
    simp only [replaceChar, List.flatMap_cons, List.length_append] at ih ⊢
    by_cases hd : d = '\\'
    · subst hd; simp [ih]; omega
    · simp [hd, ih, List.count_cons_of_ne hd]; omega

theorem replace_last (c : Str) : (replaceChar '\\' c!"\\\\" c).getLast? = c.getLast? := by
  rcases List.eq_nil_or_concat c with rfl | ⟨u, d, rfl⟩
  · rfl
  · simp only [replaceChar, List.flatMap_append, List.flatMap_cons, List.flatMap_nil, List.append_nil]
    by_cases hd : d = '\\'
    · subst hd; simp
    · simp [hd]

theorem plain_escape {c : Str} (h : Plain c) : Plain (escape c) := by
  obtain ⟨h1, h2, h3⟩ := h
  rw [escape_noquote h2]
  refine ⟨?_, ?_, ?_⟩
  · intro h
    have := replace_length c
    rw [h] at this
    have : 0 < c.length := List.length_pos_iff.2 h1
    simp at *
    omega
  · simp only [replaceChar, List.mem_flatMap, not_exists, not_and]
    intro d hd
    split
    · decide
    · simp; rintro rfl; exact h2 hd
  · rw [replace_last]; exact h3

/-- **C26 (reading)**: the code recorded for a macro is read as the definition that runs the commands in
order **exactly when** every command is non-empty, contains neither a double quote nor a backslash, and ends
in an ASCII character. -/
theorem C26_macro_read (U : Uni) {name : Str} (hname : GoodSym U name) (cmds : List Str) :
    ReadsAs U (macroText name cmds) (wanted name cmds) ↔
      ∀ c ∈ cmds, c ≠ [] ∧ '"' ∉ c ∧ '\\' ∉ c ∧ ∀ l, c.getLast? = some l → l.toNat < 128 := by
  have hw : ∀ l : List Str, wanted name l = macroForm name l := fun l => rfl
  constructor
  · intro h c hc
    obtain ⟨n, hn⟩ := h
    have hstr : ∀ c ∈ cmds, c ∈ strings (wanted name cmds) := by
      intro c hc
      simp only [wanted, strings, stringsL, List.nil_append]
      have : ∀ (ds : List Str), c ∈ ds →
          c ∈ stringsL (ds.map (fun c => Value.list [Value.sym c!"sh", Value.str c])) := by
        intro ds
        induction ds with
        | nil => simp
        | cons d ds ih =>
          intro hc
          simp only [List.map_cons, stringsL, strings, List.mem_append]
          rcases List.mem_cons.1 hc with rfl | hc
          · simp
          · exact Or.inr (ih hc)
      exact this cmds hc
    have hpl : ∀ c ∈ cmds, Plain c := fun c hc => readFirst_strings U (hn n (Nat.le_refl _)) c (hstr c hc)
    obtain ⟨h1, h2, h3⟩ := hpl c hc
    refine ⟨h1, h2, ?_, fun l hl => by simpa [oneByte] using h3 l hl⟩
    have hread := read_macro U hname (cmds := cmds) (fun c hc => plain_escape (hpl c hc)) (Nat.le_refl _)
    have heq : macroForm name (cmds.map escape) = wanted name cmds :=
      (readsAs_of U hread).unique ⟨n, hn⟩
    rw [hw] at heq
    simp only [macroForm, Value.list.injEq, List.cons.injEq, true_and] at heq
    have hmap : ∀ (as bs : List Str), as.map shForm = bs.map shForm → as = bs := by
      intro as
      induction as with
      | nil => intro bs h; cases bs <;> simp_all
      | cons a as ih =>
        intro bs h
        cases bs with
        | nil => simp at h
        | cons b bs =>
          simp only [List.map_cons, List.cons.injEq, shForm, Value.list.injEq, Value.str.injEq,
            true_and, and_true] at h
          rw [h.1, ih bs h.2]
    have hesc := hmap _ _ heq
    have hce : escape c = c := by
      have : ∀ ds : List Str, ds.map escape = ds → ∀ c ∈ ds, escape c = c := by
        intro ds
        induction ds with
        | nil => simp
        | cons d ds ih =>
          intro h c hc
          simp only [List.map_cons, List.cons.injEq] at h
          rcases List.mem_cons.1 hc with rfl | hc
          · exact h.1
          · exact ih h.2 c hc
      exact this cmds hesc c hc
    rw [escape_noquote h2] at hce
    have hl := replace_length c
    rw [hce] at hl
    exact fun hm => by
      have := List.count_pos_iff.2 hm
      omega
  · intro h
    have hpl : ∀ c ∈ cmds, Plain c := fun c hc =>
      ⟨(h c hc).1, (h c hc).2.1, fun l hl => by simpa [oneByte] using (h c hc).2.2.2 l hl⟩
    have hread := read_macro U hname (cmds := cmds) (fun c hc => plain_escape (hpl c hc)) (Nat.le_refl _)
    have hesc : cmds.map escape = cmds := by
      have := List.map_congr_left (f := escape) (g := id) (l := cmds)
        (fun c hc => escape_eq_of (h c hc).2.1 (h c hc).2.2.1)
      rw [this]; simp
    rw [hesc] at hread
    exact readsAs_of U hread

theorem goodSym_m (U : Uni) : GoodSym U c!"my-macro" where
  ne := by decide
  chars := by decide
  start := by intro c hc; simp at hc; subst hc; simp [isNumeric]
  last := by intro c hc; simp at hc; subst hc; decide
  const := by decide
  minus := by intro c t h; simp at h
  quote := by intro t h; simp at h

/-- Two ordinary commands are recorded faithfully. -/
example (U : Uni) : ReadsAs U (macroText c!"my-macro" [c!"cd src", c!"ls -l"])
    (wanted c!"my-macro" [c!"cd src", c!"ls -l"]) :=
  (C26_macro_read U (goodSym_m U) _).2 (by decide)

/-- **C26 violated**: a command with a quoted argument is not recorded. -/
theorem C26_macro_quote_violated (U : Uni) :
    ¬ ReadsAs U (macroText c!"my-macro" [c!"echo \"a b\""]) (wanted c!"my-macro" [c!"echo \"a b\""]) := by
  rw [C26_macro_read U (goodSym_m U)]
  decide

/-- **C26 violated**: a backslash comes back doubled. -/
theorem C26_macro_backslash_violated (U : Uni) :
    ReadsAs U (macroText c!"my-macro" [c!"ls a\\ b"]) (wanted c!"my-macro" [c!"ls a\\\\ b"]) :=
  readsAs_of U (read_macro U (goodSym_m U) (cmds := [c!"ls a\\ b"]) (by
    intro x hx; simp at hx; subst hx
    exact ⟨by decide, by decide, by intro l hl; simp [escape, replaceChar] at hl; subst hl; decide⟩) (Nat.le_refl _))

/-! ### C82: comments -/

/-- **C82 (partial)**: a comment that starts with two semicolons is skipped up to the end of its line,
whatever is in it, wherever white space may be.  Missing: comments with one semicolon, for which it is
false (below). -/
theorem C82_two_semicolons_partial (c s : Str) (hc : '\n' ∉ c) :
    skip (some (c!";;" ++ c ++ '\n' :: s)) = skip (some ('\n' :: s)) := by
  have h2 : ∀ (c : Str) (k : Nat) (last : Option Char), 2 ≤ k → '\n' ∉ c →
      skipGo k last (c ++ '\n' :: s) = skipGo 0 (some '\n') s := by
    intro c
    induction c with
    | nil => intro k last hk _; simp [skipGo, show rustWhitespace '\n' = true by decide]
    | cons d c ih =>
      intro k last hk hd
      simp only [List.mem_cons, not_or] at hd
      have hdn : d ≠ '\n' := Ne.symm hd.1
      simp only [List.cons_append, skipGo]
      have hk' : 2 ≤ (if d = ';' then k + 1 else if k < 2 ∨ d = '\n' then 0 else k) := by
        split
        · omega
        · rw [if_neg (by simp [hdn]; omega)]; exact hk
      rw [if_pos (by simp [hk'])]
      exact ih _ _ hk' hd.2
  have e : skipGo 0 none (c!";;" ++ c ++ '\n' :: s) = skipGo 0 none ('\n' :: s) := by
    rw [show c!";;" ++ c ++ '\n' :: s = ';' :: ';' :: (c ++ '\n' :: s) by simp]
    simp only [skipGo]
    simp
    rw [h2 c 2 _ (by omega) hc]
    simp [show rustWhitespace '\n' = true by decide]
  have hne : (skipGo 0 none ('\n' :: s)).1 ≠ none := by
    simp only [skipGo]
    simp [show rustWhitespace '\n' = true by decide]
    exact skipGo_last s 0 '\n'
  unfold skip
  simp only [Cur.text, Option.getD_some]
  rw [e]
  split
  · rfl
  · next h => rw [h] at hne; simp at hne

/-- What is read does not depend on such a comment. -/
theorem C82_two_semicolons_read_partial (U : Uni) (n : Nat) (c s : Str) (hc : '\n' ∉ c) :
    readFirst U n (c!";;" ++ c ++ '\n' :: s) = readFirst U n ('\n' :: s) := by
  unfold readFirst
  rw [C82_two_semicolons_partial c s hc]

/-- Such a comment between two expressions of a configuration. -/
example : ReadsAs U0 c!"(begin (a) ;; (b)\n(c))"
    (.list [.sym c!"begin", .list [.sym c!"a"], .list [.sym c!"c"]]) :=
  readsAs_of U0 (n := 40) (by decide +kernel)

/-- **C82 violated**, whatever follows: one semicolon is skipped and what stands behind it is read as if
the semicolon were not there. -/
theorem C82_one_semicolon_violated (s : Str) (h : ∀ c, s.head? = some c → rustWhitespace c = false ∧ c ≠ ';') :
    skip (some (';' :: s)) = some s := by
  cases s with
  | nil => decide
  | cons c s =>
    obtain ⟨h1, h2⟩ := h c rfl
    simp [skip, skipGo, Cur.text, h1, h2, oneByte]

/-- So the expression behind the semicolon is read, with or without it. -/
theorem C82_one_semicolon_read_violated (U : Uni) (n : Nat) (s : Str)
    (h : ∀ c, s.head? = some c → rustWhitespace c = false ∧ c ≠ ';') :
    readFirst U n (';' :: s) = readFirst U n s := by
  unfold readFirst
  rw [C82_one_semicolon_violated s h, skip_some_of_not s h]

/-- The configuration shown in the README: the entry that is commented out is evaluated. -/
theorem C82_readme_violated :
    ReadsAs U0 (wrapConfig c!"(chat-execute-clear)\n;(chat-execute-add \"ls\")")
      (.list [.sym c!"begin", .list [.sym c!"chat-execute-clear"],
        .list [.sym c!"chat-execute-add", .str c!"ls"]]) :=
  readsAs_of U0 (n := 80) (by decide +kernel)

/-- And `(safety-level "normal") ; Default safety` evaluates the two words as variables. -/
theorem C82_readme_words_violated :
    ReadsAs U0 (wrapConfig c!"(safety-level \"normal\") ; Default safety")
      (.list [.sym c!"begin", .list [.sym c!"safety-level", .str c!"normal"], .sym c!"Default", .sym c!"safety"]) :=
  readsAs_of U0 (n := 80) (by decide +kernel)

/-! ### C83: recording a macro keeps the configuration readable -/

/-- The configuration is read as a whole: all its text belongs to these expressions. -/
def ConfigReads (U : Uni) (config : Str) (forms : List Value) : Prop :=
  ∃ n, parseExpr U n (some (wrapConfig config)) = .ok (.list (.sym c!"begin" :: forms)) (some [])

theorem ConfigReads.reads {U : Uni} {config : Str} {forms : List Value} (h : ConfigReads U config forms) :
    ReadsAs U (wrapConfig config) (.list (.sym c!"begin" :: forms)) := by
  obtain ⟨n, hn⟩ := h
  apply readsAs_of U (n := n)
  unfold readFirst
  rw [wrapConfig] at hn ⊢
  rw [skip_some_of_not _ (by intro d hd; simp at hd; subst hd; decide), hn]

/-- **C83 (partial)**: a configuration that can be read, with something in it and only newlines at its end,
is still read the same after recording a macro, followed by the definition of the macro — when no command
has a double quote, is empty or ends in a character outside ASCII.  Missing: other commands, for which it
is false (below); configurations that are empty or end in other white space. -/
theorem C83_config_partial (U : Uni) {config : Str} {forms : List Value} (h : ConfigReads U config forms)
    (hne : trim config ≠ []) (hend : ∃ k, trimStart config = trim config ++ List.replicate k '\n')
    {name : Str} (hname : GoodSym U name) {cmds : List Str}
    (hx : ∀ c ∈ cmds, c ≠ [] ∧ '"' ∉ c ∧ ∀ l, c.getLast? = some l → l.toNat < 128) :
    ConfigReads U (config ++ macroText name cmds ++ c!"\n")
      (forms ++ [wanted name (cmds.map (replaceChar '\\' c!"\\\\"))]) := by
  obtain ⟨n, hn⟩ := h
  obtain ⟨k, hk⟩ := hend
  have hp : ∀ c ∈ cmds, Plain c := fun c hc =>
    ⟨(hx c hc).1, (hx c hc).2.1, fun l hl => by simpa [oneByte] using (hx c hc).2.2 l hl⟩
  obtain ⟨n', hn'⟩ := config_append U hn hne hk hname (fun c hc => plain_escape (hp c hc))
  refine ⟨n', ?_⟩
  rw [hn', List.map_congr_left (fun c hc => escape_noquote (hx c hc).2.1)]
  rfl

/-- A configuration with a comment at its end meets the hypotheses. -/
example (U : Uni) : ConfigReads U0 c!"(alias \"g\" \"git\")\n;; end\n" [.list [.sym c!"alias", .str c!"g", .str c!"git"]] ∧
    trim c!"(alias \"g\" \"git\")\n;; end\n" ≠ [] ∧
    trimStart c!"(alias \"g\" \"git\")\n;; end\n" = trim c!"(alias \"g\" \"git\")\n;; end\n" ++ List.replicate 1 '\n' := by
  refine ⟨⟨60, by decide +kernel⟩, by decide +kernel, by decide +kernel⟩

/-- **C83 violated**: recording `git commit -m "fix (a"` makes a configuration unreadable that was fine
before; from then on nothing in it takes effect. -/
theorem C83_config_violated :
    ConfigReads U0 c!"(alias \"g\" \"git\")\n" [.list [.sym c!"alias", .str c!"g", .str c!"git"]] ∧
    Unreadable U0 (wrapConfig (c!"(alias \"g\" \"git\")\n" ++
      macroText c!"my-macro" [c!"git commit -m \"fix (a\""] ++ c!"\n")) :=
  ⟨⟨60, by decide +kernel⟩, unreadable_of U0 (n := 300) (by decide +kernel)⟩

/-- **C83 violated**: a closing parenthesis in a quoted text ends the configuration early: what was
recorded becomes `(defun my-macro () (sh "echo \") \") …)`, and later text is never read. -/
theorem C83_config_cut_violated :
    ∃ forms rest, c!"(alias \"h\" \"hg\")\n)" <:+ rest ∧
      parseExpr U0 300 (some (wrapConfig (c!"(alias \"g\" \"git\")\n" ++
        macroText c!"my-macro" [c!"echo \")) \""] ++ c!"\n(alias \"h\" \"hg\")"))) = .ok forms (some rest) := by
  refine ⟨_, _, ?_, rfl⟩
  decide +kernel

end Dsh.Lisp
