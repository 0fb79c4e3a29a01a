import Verif.Parse.PegFirst
import Verif.Parse.Jobs
import Verif.Parse.Syntax
/-!
How the grammar reads well-spelled words, redirects and simple commands.
-/
namespace Dsh.Shell
open Dsh.Peg PExp Dsh.Syn

/-- Expression `e` reads exactly `t` from `t ++ rest`, producing pairs `ps`. -/
def PE (e : PExp R) (t : List Char) (ps : List (Pair R)) (rest : List Char) : Prop :=
  Parses G e (t ++ rest) (.ok ps t rest)

theorem PE.seq {a b : PExp R} {t1 t2 rest p1 p2} (h1 : PE a t1 p1 (t2 ++ rest)) (h2 : PE b t2 p2 rest) :
    PE (.seq a b) (t1 ++ t2) (p1 ++ p2) rest := by
  unfold PE at *
  rw [List.append_assoc]
  exact .seq_ok h1 h2

theorem PE.starNil {a : PExp R} {rest} (h : Parses G a rest .fail) : PE (.star a) [] [] rest :=
  .star_nil h

theorem PE.starCons {a : PExp R} {t1 t2 rest p1 p2} (h1 : PE a t1 p1 (t2 ++ rest))
    (h2 : PE (.star a) t2 p2 rest) : PE (.star a) (t1 ++ t2) (p1 ++ p2) rest := by
  unfold PE at *
  rw [List.append_assoc]
  exact .star_cons h1 h2

theorem PE.rule {r : R} {t ps rest} (h : PE (body r) t ps rest) (hs : silent r = false) :
    PE (.rule r) t [.mk r t ps] rest := by
  have := Parses.rule_ok (G := G) (r := r) h
  simpa [PE, Grammar.wrap, G, hs] using this

theorem PE.ruleSilent {r : R} {t ps rest} (h : PE (body r) t ps rest) (hs : silent r = true) :
    PE (.rule r) t ps rest := by
  have := Parses.rule_ok (G := G) (r := r) h
  simpa [PE, Grammar.wrap, G, hs] using this

theorem PE.lit (s rest : List Char) : PE (.str s) s [] rest := .str_ok (stripPre_append s rest)

theorem PE.altL {a b : PExp R} {t ps rest} (h : PE a t ps rest) : PE (.alt a b) t ps rest := .alt_l h
theorem PE.altR {a b : PExp R} {t ps rest} (h0 : Parses G a (t ++ rest) .fail) (h : PE b t ps rest) :
    PE (.alt a b) t ps rest := .alt_r h0 h

theorem plus_of_star {a : PExp R} {t ps rest} (h : PE (.star a) t ps rest) (ht : t ≠ []) :
    PE (plus a) t ps rest := by
  unfold PE at h ⊢
  generalize ho : Out.ok ps t rest = o at h
  cases h with
  | star_nil h => injection ho with _ h1 _; exact absurd h1 ht
  | star_cons h1 h2 => exact .seq_ok h1 h2

theorem ruleFail {r : R} {i} (h : Parses G (body r) i .fail) : Parses G (.rule r) i .fail :=
  .rule_fail h

theorem litFail {c : Char} {i : List Char} (h : ∀ r, i ≠ c :: r) : Parses G (ch c) i .fail := by
  apply Parses.str_fail
  cases i with
  | nil => rfl
  | cons d i =>
    have : c ≠ d := by rintro rfl; exact h i rfl
    simp [stripPre, this]

theorem lit2Fail {c d : Char} {i : List Char} (s : List Char) (h : ∀ r, i ≠ c :: d :: r) :
    Parses G (.str (c :: d :: s)) i .fail := by
  apply Parses.str_fail
  match i with
  | [] => rfl
  | [a] =>
    by_cases hc : c = a
    · simp [stripPre, hc]
    · simp [stripPre, hc]
  | a :: b :: i =>
    by_cases hc : c = a
    · have : d ≠ b := by rintro rfl; exact h i (by rw [hc])
      simp [stripPre, hc, this]
    · simp [stripPre, hc]

/-! ### Blanks -/

/-- `rest` does not start with a blank. -/
def NoBlank (rest : List Char) : Prop := ∀ c r, rest = c :: r → isBlank c = false

theorem sp_ok {c : Char} (h : isBlank c = true) (rest) : PE (.rule .sp) [c] [] rest := by
  apply PE.ruleSilent _ rfl
  simp only [isBlank, Bool.or_eq_true, beq_iff_eq] at h
  rcases h with (rfl | rfl) | rfl
  · exact .altL (.lit _ _)
  · exact .altR (litFail (by simp)) (.altL (.lit _ _))
  · exact .altR (litFail (by simp)) (.altR (litFail (by simp)) (.lit _ _))

theorem sp_fail {rest} (h : NoBlank rest) : Parses G (.rule .sp) rest .fail := by
  apply ruleFail
  have aux : ∀ c, isBlank c = true → ∀ r, rest ≠ c :: r := by
    intro c hc r he
    have := h c r he
    rw [hc] at this; cases this
  exact .alt_r (litFail (aux _ rfl)) (.alt_r (litFail (aux _ rfl)) (litFail (aux _ rfl)))

theorem gap_ok {g rest : List Char} (h : g.all isBlank = true) (hr : NoBlank rest) :
    PE (.star (.rule .sp)) g [] rest := by
  induction g with
  | nil => exact .starNil (sp_fail hr)
  | cons c g ih =>
    simp only [List.all_cons, Bool.and_eq_true] at h
    exact PE.starCons (t1 := [c]) (p1 := []) (sp_ok h.1 _) (ih h.2)

/-! ### Words -/

/-- Characters that end an unquoted word. -/
def wordEnd : List Char := ['|', '&', ';', ' ', '\t', '\r', '\n', '<', '>', ')']

/-- `rest` cannot continue an unquoted word. -/
def Stop (rest : List Char) : Prop := ∀ c r, rest = c :: r → c ∈ wordEnd

/-- The element of `word`. -/
abbrev wordElt : PExp R := .alt (.rule .escape_sequence) (.rule .word_char)

theorem fail_stop {e : PExp R} (n : Nat) (hs : starOk null e = true) (hn : nullable null e = false)
    (hd : ∀ c ∈ wordEnd, (verdict G n e c).dead = true) {rest} (h : Stop rest) :
    Parses G e rest .fail := by
  cases rest with
  | nil => exact fail_nil hs hn
  | cons c r => exact fail_of_dead n hs (hd c (h c r rfl)) r

theorem meta_fail {c : Char} (h : c ∉ metaChars) (r : List Char) :
    Parses G (alts (metaChars.map ch)) (c :: r) .fail := by
  have aux : ∀ d ∈ metaChars, Parses G (ch d) (c :: r) .fail := by
    intro d hd
    apply litFail
    intro r' he
    injection he with h1 h2
    subst h1
    exact h hd
  simp only [metaChars, List.map, alts]
  repeat (first
    | exact aux _ (by simp [metaChars])
    | refine .alt_r (aux _ (by simp [metaChars])) ?_)

theorem word_char_ok {c : Char} (h : c ∉ metaChars) (rest) :
    PE (.rule .word_char) [c] [] rest := by
  apply PE.ruleSilent _ rfl
  exact PE.seq (t1 := []) (p1 := []) (.neg_ok (meta_fail h rest)) (.any_ok c rest)

theorem escape_ok (c : Char) (rest) :
    PE (.rule .escape_sequence) ['\\', c] [.mk .escape_sequence ['\\', c] []] rest := by
  apply PE.rule _ rfl
  exact PE.seq (t1 := ['\\']) (p1 := []) (.lit _ _) (.any_ok c rest)

theorem special_meta : special = metaChars := rfl

theorem ok_plain {c : Char} (h : (Piece.plain c).ok = true) : c ∉ metaChars := by
  rw [← special_meta]
  simpa [Piece.ok] using h

theorem plain_ne_bs {c : Char} (h : c ∉ metaChars) : c ≠ '\\' := by
  rintro rfl; exact h (by simp [metaChars])

theorem escape_fail_plain {c : Char} (h : c ∉ metaChars) (r) :
    Parses G (.rule .escape_sequence) (c :: r) .fail :=
  ruleFail (.seq_fail1 (litFail (by intro r' he; injection he with h1 _; exact plain_ne_bs h h1)))

theorem word_char_fail_bs (r) : Parses G (.rule .word_char) ('\\' :: r) .fail :=
  fail_of_dead 2 rfl (by decide) r

/-- Pairs produced by a piece. -/
def piecePairs : Piece → List (Pair R)
  | .plain _ => []
  | .esc c => [.mk .escape_sequence ['\\', c] []]

theorem piece_elt {p : Piece} (h : p.ok = true) (rest) : PE wordElt p.text (piecePairs p) rest := by
  cases p with
  | plain c => exact .altR (escape_fail_plain (ok_plain h) _) (word_char_ok (ok_plain h) _)
  | esc c => exact .altL (escape_ok c rest)

/-- The same for the element of `glob_word`/`brace_word`, tried in the other order. -/
theorem piece_elt' {p : Piece} (h : p.ok = true) (x : PExp R) (rest) :
    PE (.alt (.rule .word_char) (.alt (.rule .escape_sequence) x)) p.text (piecePairs p) rest := by
  cases p with
  | plain c => exact .altL (word_char_ok (ok_plain h) _)
  | esc c => exact .altR (word_char_fail_bs _) (.altL (escape_ok c rest))

theorem piece_elt'' {p : Piece} (h : p.ok = true) (rest) :
    PE (.alt (.rule .word_char) (.rule .escape_sequence)) p.text (piecePairs p) rest := by
  cases p with
  | plain c => exact .altL (word_char_ok (ok_plain h) _)
  | esc c => exact .altR (word_char_fail_bs _) (escape_ok c rest)

theorem pieces_star {e : PExp R} (he : ∀ p rest, Piece.ok p = true → PE e p.text (piecePairs p) rest)
    {ps : List Piece} (h : ps.all Piece.ok = true) {rest} (hf : Parses G e rest .fail) :
    PE (.star e) (ps.map Piece.text).flatten (ps.map piecePairs).flatten rest := by
  induction ps with
  | nil => exact .starNil hf
  | cons p ps ih =>
    simp only [List.all_cons, Bool.and_eq_true] at h
    exact PE.starCons (he p _ h.1) (ih h.2)

theorem word_ok {ps : List Piece} (h : ps.all Piece.ok = true) (hne : ps ≠ []) {rest}
    (hs : Stop rest) :
    PE (.rule .word) (ps.map Piece.text).flatten
      [.mk .word (ps.map Piece.text).flatten (ps.map piecePairs).flatten] rest := by
  apply PE.rule _ rfl
  obtain ⟨p, qs, rfl⟩ := List.exists_cons_of_ne_nil hne
  simp only [List.all_cons, Bool.and_eq_true] at h
  exact PE.seq (piece_elt h.1 _)
    (pieces_star (fun p rest h => piece_elt h rest) h.2 (fail_stop 3 rfl rfl (by decide) hs))

theorem bareHead {p : Piece} {qs : List Piece} {rest : List Char} {c r}
    (h : (p :: qs).all Piece.ok = true)
    (he : ((p :: qs).map Piece.text).flatten ++ rest = c :: r) : c = '\\' ∨ c ∉ metaChars := by
  simp only [List.all_cons, Bool.and_eq_true] at h
  cases p with
  | plain d =>
    right
    simp [Piece.text] at he
    rw [← he.1]; exact ok_plain h.1
  | esc d =>
    left
    simp [Piece.text] at he
    exact he.1.symm

theorem glob_fail {ps : List Piece} (h : ps.all Piece.ok = true) {rest} (hs : Stop rest) :
    Parses G (.rule .glob_word) ((ps.map Piece.text).flatten ++ rest) .fail := by
  apply ruleFail
  refine .seq_fail2 (pieces_star (fun p rest h => piece_elt'' h rest) h
    (fail_stop 3 rfl rfl (by decide) hs)) (.seq_fail1 ?_)
  exact fail_stop 3 rfl rfl (by decide) hs

theorem brace_fail {ps : List Piece} (h : ps.all Piece.ok = true) {rest} (hs : Stop rest) :
    Parses G (.rule .brace_word) ((ps.map Piece.text).flatten ++ rest) .fail := by
  apply ruleFail
  refine .seq_fail2 (pieces_star (fun p rest h => piece_elt' h _ rest) h
    (fail_stop 3 rfl rfl (by decide) hs)) (.seq_fail1 ?_)
  exact fail_stop 3 rfl rfl (by decide) hs

theorem quoted_fail_bare {i : List Char} (h1 : ∀ r, i ≠ '"' :: r) (h2 : ∀ r, i ≠ '\'' :: r) :
    Parses G (.rule .quoted) i .fail :=
  ruleFail (.alt_r (ruleFail (.seq_fail1 (litFail h1))) (ruleFail (.seq_fail1 (litFail h2))))

/-! ### Quoted words -/

theorem sq_body {s : List Char} (h1 : '\'' ∉ s) (h2 : s.getLast? ≠ some '\\') (rest) :
    PE (.star (alts [.str ['\\', '\''], .seq (.neg (ch '\'')) .any, .rule .sp])) s [] ('\'' :: rest) := by
  induction s with
  | nil =>
    refine .starNil (.alt_r (lit2Fail [] (by simp)) (.alt_r (.seq_fail1 ?_) ?_))
    · exact .neg_fail (PE.lit ['\''] rest)
    · exact sp_fail (by intro c r he; injection he with h _; subst h; rfl)
  | cons c s ih =>
    have hc : c ≠ '\'' := by intro h; exact h1 (by simp [h])
    have hs : '\'' ∉ s := fun h => h1 (List.mem_cons_of_mem _ h)
    have hl : s.getLast? ≠ some '\\' := by
      intro h
      apply h2
      cases s with
      | nil => simp at h
      | cons d s => simpa [List.getLast?_cons_cons] using h
    refine PE.starCons (t1 := [c]) (p1 := []) ?_ (ih hs hl)
    refine .altR (lit2Fail [] ?_) (.altL ?_)
    · intro r he
      cases s with
      | nil =>
        simp at he
        exact h2 (by simp [he.1])
      | cons d s =>
        simp at he
        exact hs (by simp [he.2.1])
    · exact PE.seq (t1 := []) (p1 := []) (.neg_ok (litFail (by simp [hc]))) (.any_ok c _)

theorem sq_ok {s : List Char} (h1 : '\'' ∉ s) (h2 : s.getLast? ≠ some '\\') (rest) :
    ∃ ps, PE (.rule .s_quoted) (Word.sq s).text [.mk .s_quoted (Word.sq s).text ps] rest ∧
      getStringAtom (.mk .s_quoted (Word.sq s).text ps) = s := by
  have hend : Parses G (.rule .s_quoted_inner) ('\'' :: rest) .fail := fail_of_dead 4 rfl (by decide) _
  have hsp := sq_body h1 h2 rest
  cases s with
  | nil =>
    refine ⟨[], PE.rule ?_ rfl, rfl⟩
    exact PE.seq (t1 := ['\'']) (p1 := []) (.lit _ _)
      (PE.seq (t1 := []) (t2 := ['\'']) (p1 := []) (.starNil hend) (.lit _ _))
  | cons c s =>
    refine ⟨[.mk .literal_s_quoted (c :: s) []], PE.rule ?_ rfl, rfl⟩
    refine PE.seq (t1 := ['\'']) (t2 := c :: s ++ ['\'']) (p1 := []) (.lit _ _) ?_
    refine PE.seq (t1 := c :: s) (t2 := ['\'']) (p1 := [.mk .literal_s_quoted (c :: s) []]) (p2 := []) ?_ (.lit _ _)
    have : PE (.rule .s_quoted_inner) (c :: s) [.mk .literal_s_quoted (c :: s) []] ('\'' :: rest) := by
      refine PE.ruleSilent (PE.rule ?_ rfl) rfl
      exact plus_of_star hsp (by simp)
    have := PE.starCons (t2 := []) (p2 := []) this (.starNil hend)
    simpa using this

theorem dq_elt {c : Char} (h : (c != '"' && c != '\\' && c != '`' && c != '$') = true) (rest) :
    PE (.seq (.neg (alts [ch '"', ch '\\', ch '`', ch '$'])) .any) [c] [] rest := by
  simp only [Bool.and_eq_true, bne_iff_ne] at h
  refine PE.seq (t1 := []) (p1 := []) (.neg_ok ?_) (.any_ok c _)
  refine .alt_r (litFail ?_) (.alt_r (litFail ?_) (.alt_r (litFail ?_) (litFail ?_))) <;>
    intro r he <;> simp at he <;> simp_all

theorem dq_body {s : List Char} (h : s.all (fun c => c != '"' && c != '\\' && c != '`' && c != '$') = true)
    (rest) :
    PE (.star (alts [.seq (.neg (alts [ch '"', ch '\\', ch '`', ch '$'])) .any,
      .seq (ch '\\') .any, .rule .sp])) s [] ('"' :: rest) := by
  induction s with
  | nil => exact .starNil (fail_of_dead 3 rfl (by decide) _)
  | cons c s ih =>
    rw [List.all_cons, Bool.and_eq_true] at h
    exact PE.starCons (t1 := [c]) (p1 := []) (.altL (dq_elt h.1 _)) (ih h.2)

theorem dq_ok {s : List Char} (h : s.all (fun c => c != '"' && c != '\\' && c != '`' && c != '$') = true)
    (rest) :
    ∃ ps, PE (.rule .d_quoted) (Word.dq s).text [.mk .d_quoted (Word.dq s).text ps] rest ∧
      getStringAtom (.mk .d_quoted (Word.dq s).text ps) = s := by
  have hend : Parses G (.rule .d_quoted_inner) ('"' :: rest) .fail := fail_of_dead 4 rfl (by decide) _
  have hsp := dq_body h rest
  cases s with
  | nil =>
    refine ⟨[], PE.rule ?_ rfl, rfl⟩
    exact PE.seq (t1 := ['"']) (p1 := []) (.lit _ _)
      (PE.seq (t1 := []) (t2 := ['"']) (p1 := []) (.starNil hend) (.lit _ _))
  | cons c s =>
    refine ⟨[.mk .literal_d_quoted (c :: s) []], PE.rule ?_ rfl, rfl⟩
    refine PE.seq (t1 := ['"']) (t2 := c :: s ++ ['"']) (p1 := []) (.lit _ _) ?_
    refine PE.seq (t1 := c :: s) (t2 := ['"']) (p1 := [.mk .literal_d_quoted (c :: s) []]) (p2 := []) ?_ (.lit _ _)
    have : PE (.rule .d_quoted_inner) (c :: s) [.mk .literal_d_quoted (c :: s) []] ('"' :: rest) := by
      refine PE.ruleSilent (PE.rule ?_ rfl) rfl
      exact plus_of_star hsp (by simp)
    have := PE.starCons (t2 := []) (p2 := []) this (.starNil hend)
    simpa using this

/-! ### Spans -/

theorem unescape_pieces {ps : List Piece} (h : ps.all Piece.ok = true) :
    unescape (ps.map Piece.text).flatten = ps.map Piece.value := by
  induction ps with
  | nil => rfl
  | cons p ps ih =>
    simp only [List.all_cons, Bool.and_eq_true] at h
    cases p with
    | plain c =>
      have hc := plain_ne_bs (ok_plain h.1)
      have : ∀ l, unescape (c :: l) = c :: unescape l := by
        intro l
        cases l <;> simp [unescape, hc]
      simp [Piece.text, Piece.value, this, ih h.2]
    | esc c => simp [Piece.text, Piece.value, unescape, ih h.2]

/-- A well-spelled word is read as one span whose string is its value. -/
theorem span_ok {w : Word} (h : w.ok = true) {rest} (hs : Stop rest) :
    ∃ q, PE (.rule .span) w.text [.mk .span w.text [q]] rest ∧ getStringAtom q = w.value ∧
      q.text = w.text ∧
      (q.rule = .word ∨ q.rule = .s_quoted ∨ q.rule = .d_quoted ∨ q.rule = .variable) := by
  cases w with
  | bare ps =>
    simp only [Word.ok, Bool.and_eq_true, decide_eq_true_eq] at h
    have hne : ps ≠ [] := by simpa using h.1
    refine ⟨.mk .word (ps.map Piece.text).flatten (ps.map piecePairs).flatten, PE.rule ?_ rfl, ?_, rfl, ?_⟩
    · have hq : Parses G (.rule .quoted) ((ps.map Piece.text).flatten ++ rest) .fail := by
        obtain ⟨p, qs, rfl⟩ := List.exists_cons_of_ne_nil hne
        apply quoted_fail_bare
        · intro r he
          rcases bareHead h.2 he with hc | hc
          · cases hc
          · exact hc (by simp [metaChars])
        · intro r he
          rcases bareHead h.2 he with hc | hc
          · cases hc
          · exact hc (by simp [metaChars])
      exact .altR hq (.altR (glob_fail h.2 hs) (.altR (brace_fail h.2 hs) (.altL (word_ok h.2 hne hs))))
    · exact unescape_pieces h.2
    · simp [Pair.rule]
  | sq s =>
    simp only [Word.ok, Bool.and_eq_true, bne_iff_ne, Bool.not_eq_true', List.contains_eq_mem,
      decide_eq_false_iff_not] at h
    obtain ⟨ps, h1, h2⟩ := sq_ok h.1 h.2 rest
    refine ⟨_, PE.rule (.altL (PE.ruleSilent (.altR (ruleFail (.seq_fail1 (litFail ?_))) h1) rfl)) rfl, h2, rfl, ?_⟩
    · simp [Word.text]
    · simp [Pair.rule]
  | dq s =>
    obtain ⟨ps, h1, h2⟩ := dq_ok h rest
    refine ⟨_, PE.rule (.altL (PE.ruleSilent (.altL h1) rfl)) rfl, h2, rfl, ?_⟩
    simp [Pair.rule]
  | var name =>
    simp only [Word.ok, Bool.and_eq_true, decide_eq_true_eq] at h
    have hne : name ≠ [] := by simpa using h.1
    have hps : (name.map Piece.plain).all Piece.ok = true := by
      rw [List.all_map]
      simpa [Function.comp_def, Piece.ok] using h.2
    have htx : ((name.map Piece.plain).map Piece.text).flatten = name := by
      clear h hne hps
      induction name with
      | nil => rfl
      | cons c l ih => simpa [Piece.text] using ih
    have hw := word_ok hps (by simpa using hne) hs
    rw [htx] at hw
    refine ⟨.mk .variable ('$' :: name)
      [.mk .word name ((name.map Piece.plain).map piecePairs).flatten], PE.rule ?_ rfl, rfl, rfl,
      by simp [Pair.rule]⟩
    refine PE.altR ?_ (PE.altR ?_ (PE.altR ?_ (PE.altR ?_ (PE.altL (PE.rule
      (PE.seq (t1 := ['$']) (p1 := []) (PE.lit _ _) hw) rfl)))))
    all_goals exact fail_of_dead 5 rfl (by decide) _

end Dsh.Shell
