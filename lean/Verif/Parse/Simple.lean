import Verif.Parse.Spans
/-!
How the grammar reads arguments, redirects and simple commands, and what `parse_argv` makes of
them.
-/
namespace Dsh.Shell
open Dsh.Peg PExp Dsh.Syn

/-- What may follow the blanks after a simple command. -/
def End (r : List Char) : Prop := ∀ c r', r = c :: r' →
  c ∈ ['|', ';', ')'] ∨ (c = '&' ∧ ∀ r'', r' ≠ '>' :: r'')

/-- What may follow a simple command. -/
def SEnd (rest : List Char) : Prop := ∃ g r, rest = g ++ r ∧ g.all isBlank = true ∧ End r

theorem blank_mem {c : Char} (h : isBlank c = true) : c = ' ' ∨ c = '\t' ∨ c = '\r' := by
  simp only [isBlank, Bool.or_eq_true, beq_iff_eq] at h
  rcases h with (h | h) | h <;> simp [h]

theorem End.noBlank {r} (h : End r) : NoBlank r := by
  intro c r' he
  rcases h c r' he with hc | ⟨rfl, _⟩
  · simp at hc
    rcases hc with rfl | rfl | rfl <;> rfl
  · rfl

theorem Stop.blank {g r : List Char} (hg : g.all isBlank = true) (hne : g ≠ []) : Stop (g ++ r) := by
  obtain ⟨b, g, rfl⟩ := List.exists_cons_of_ne_nil hne
  intro c r' he
  simp only [List.all_cons, Bool.and_eq_true] at hg
  simp at he
  rw [← he.1]
  rcases blank_mem hg.1 with h | h | h <;> simp [h, wordEnd]

theorem SEnd.stop {rest} (h : SEnd rest) : Stop rest := by
  obtain ⟨g, r, rfl, hg, hr⟩ := h
  cases g with
  | cons b g => exact Stop.blank hg (by simp)
  | nil =>
    intro c r' he
    rcases hr c r' he with hc | ⟨rfl, _⟩
    · simp at hc
      rcases hc with rfl | rfl | rfl <;> simp [wordEnd]
    · simp [wordEnd]

/-! ### Redirects -/

theorem redirect_fail {i : List Char} (h1 : ∀ r, i ≠ '&' :: '>' :: r) (h2 : ∀ r, i ≠ '2' :: '>' :: r)
    (h3 : ∀ r, i ≠ '>' :: r) (h4 : ∀ r, i ≠ '<' :: r) : Parses G (.rule .redirect) i .fail := by
  apply ruleFail
  refine .seq_fail1 ?_
  refine .alt_r (ruleFail (.alt_r (ruleFail (lit2Fail _ h1)) (ruleFail (lit2Fail _ h1)))) ?_
  refine .alt_r (ruleFail (.alt_r (ruleFail (lit2Fail _ h2)) (ruleFail (lit2Fail _ h2)))) ?_
  refine .alt_r (ruleFail (.alt_r (ruleFail (lit2Fail _ ?_)) (ruleFail (litFail h3)))) ?_
  · intro r; exact h3 _
  · exact ruleFail (ruleFail (litFail h4))

theorem word_head {w : Word} (h : w.ok = true) {rest c r} (he : w.text ++ rest = c :: r) :
    c = '\\' ∨ c = '"' ∨ c = '\'' ∨ c = '$' ∨ c ∉ metaChars := by
  cases w with
  | bare ps =>
    simp only [Word.ok, Bool.and_eq_true, decide_eq_true_eq] at h
    have hne : ps ≠ [] := by simpa using h.1
    obtain ⟨p, qs, rfl⟩ := List.exists_cons_of_ne_nil hne
    rcases bareHead h.2 he with hc | hc
    · exact .inl hc
    · exact .inr (.inr (.inr (.inr hc)))
  | sq s => simp [Word.text] at he; simp [← he.1]
  | dq s => simp [Word.text] at he; simp [← he.1]
  | var n => simp [Word.text] at he; simp [← he.1]

theorem word_second {w : Word} (h : w.ok = true) {rest} (hs : ∀ r, rest ≠ '>' :: r) :
    ∀ r, w.text ++ rest ≠ '2' :: '>' :: r := by
  intro r he
  cases w with
  | bare ps =>
    simp only [Word.ok, Bool.and_eq_true, decide_eq_true_eq] at h
    have hne : ps ≠ [] := by simpa using h.1
    obtain ⟨p, qs, rfl⟩ := List.exists_cons_of_ne_nil hne
    have h2 := h.2
    simp only [List.all_cons, Bool.and_eq_true] at h2
    cases p with
    | esc c => simp [Word.text, Piece.text] at he
    | plain c =>
      have he2 : (qs.map Piece.text).flatten ++ rest = '>' :: r := by
        simp [Word.text, Piece.text] at he
        exact he.2
      cases qs with
      | nil => exact hs r (by simpa using he2)
      | cons q qs =>
        rcases bareHead h2.2 he2 with hc | hc
        · cases hc
        · exact hc (by simp [metaChars])
  | sq s => simp [Word.text] at he
  | dq s => simp [Word.text] at he
  | var n => simp [Word.text] at he

theorem Stop.noGt_of_blank_or_end {rest} (h : SEnd rest ∨ ∃ g r, rest = g ++ r ∧ g ≠ [] ∧ g.all isBlank = true) :
    ∀ r, rest ≠ '>' :: r := by
  intro r he
  rcases h with ⟨g, r', h, hg, hr⟩ | ⟨g, r', h, hne, hg⟩
  · cases g with
    | nil =>
      rw [h] at he
      rcases hr '>' r (by simpa using he) with h | ⟨h, _⟩
      · simp at h
      · simp at h
    | cons b g =>
      rw [h] at he
      simp at he
      simp only [List.all_cons, Bool.and_eq_true] at hg
      rw [he.1] at hg
      exact absurd hg.1 (by decide)
  · obtain ⟨b, g, rfl⟩ := List.exists_cons_of_ne_nil hne
    rw [h] at he
    simp at he
    simp only [List.all_cons, Bool.and_eq_true] at hg
    rw [he.1] at hg
    exact absurd hg.1 (by decide)

/-- What may follow an argument: blanks and more, or the end of the command. -/
def ArgEnd (rest : List Char) : Prop :=
  SEnd rest ∨ ∃ g r, rest = g ++ r ∧ g ≠ [] ∧ g.all isBlank = true

theorem ArgEnd.stop {rest} (h : ArgEnd rest) : Stop rest := by
  rcases h with h | ⟨g, r, rfl, hne, hg⟩
  · exact h.stop
  · exact Stop.blank hg hne

theorem redirect_fail_word {w : Word} (h : w.ok = true) {rest} (hs : ArgEnd rest) :
    Parses G (.rule .redirect) (w.text ++ rest) .fail := by
  apply redirect_fail
  · intro r he
    rcases word_head h he with hc | hc | hc | hc | hc <;> simp [metaChars] at hc
  · exact word_second h (Stop.noGt_of_blank_or_end hs)
  · intro r he
    rcases word_head h he with hc | hc | hc | hc | hc <;> simp [metaChars] at hc
  · intro r he
    rcases word_head h he with hc | hc | hc | hc | hc <;> simp [metaChars] at hc

theorem word_noBlank {w : Word} (h : w.ok = true) (rest) : NoBlank (w.text ++ rest) := by
  intro c r he
  cases hb : isBlank c with
  | false => rfl
  | true =>
    rcases blank_mem hb with rfl | rfl | rfl <;>
    rcases word_head h he with hc | hc | hc | hc | hc <;> simp [metaChars] at hc

theorem word_noGt {w : Word} (h : w.ok = true) (rest) : ∀ r, w.text ++ rest ≠ '>' :: r := by
  intro r he
  rcases word_head h he with hc | hc | hc | hc | hc <;> simp [metaChars] at hc

/-- The `Redirect` constructor of an operator. -/
def kindOf : Redir → RKind
  | .out => .stdoutOutput
  | .append => .stdoutAppend
  | .err => .stderrOutput
  | .errAppend => .stderrAppend
  | .both => .stdouterrOutput
  | .bothAppend => .stdouterrAppend
  | .input => .input

theorem PE.ruleX {r : R} {t ps rest} (h : PE (body r) t ps rest) (hs : silent r = false) :
    ∃ q : Pair R, PE (.rule r) t [q] rest ∧ q.rule = r ∧ q.text = t ∧ q.inner = ps :=
  ⟨_, PE.rule h hs, rfl, rfl, rfl⟩

/-- The direction part of a redirect. -/
theorem direction_ok (k : Redir) {rest : List Char} (hr : ∀ r, rest ≠ '>' :: r) :
    ∃ q d : Pair R, PE (alts [.rule .stdouterr_redirect_direction, .rule .stderr_redirect_direction,
      .rule .stdout_redirect_direction, .rule .stdin_redirect_direction]) k.text [q] rest ∧
      q.inner = [d] ∧ q.text = k.text ∧ redirKind d.rule = some (kindOf k) ∧
      (q.rule = .stdout_redirect_direction ∨ q.rule = .stderr_redirect_direction ∨
        q.rule = .stdouterr_redirect_direction ∨ q.rule = .stdin_redirect_direction) := by
  have f3 : ∀ (a b : Char), Parses G (.str [a, b, '>']) (a :: b :: rest) .fail := by
    intro a b
    apply Parses.str_fail
    cases rest with
    | nil => simp [stripPre]
    | cons c r =>
      have : '>' ≠ c := by rintro rfl; exact hr r rfl
      simp [stripPre, this]
  have f2 : ∀ (a : Char), Parses G (.str [a, '>']) (a :: rest) .fail := by
    intro a
    apply lit2Fail
    intro r he
    injection he with _ h
    exact hr r h
  have n1 : ∀ {i : List Char}, (∀ r, i ≠ '&' :: r) → Parses G (.rule .stdouterr_redirect_direction) i .fail := by
    intro i h
    exact ruleFail (.alt_r (ruleFail (lit2Fail _ (fun r => h _))) (ruleFail (lit2Fail _ (fun r => h _))))
  have n2 : ∀ {i : List Char}, (∀ r, i ≠ '2' :: r) → Parses G (.rule .stderr_redirect_direction) i .fail := by
    intro i h
    exact ruleFail (.alt_r (ruleFail (lit2Fail _ (fun r => h _))) (ruleFail (lit2Fail _ (fun r => h _))))
  have n3 : ∀ {i : List Char}, (∀ r, i ≠ '>' :: r) → Parses G (.rule .stdout_redirect_direction) i .fail := by
    intro i h
    exact ruleFail (.alt_r (ruleFail (lit2Fail _ (fun r => h _))) (ruleFail (litFail h)))
  cases k with
  | out =>
    refine ⟨.mk .stdout_redirect_direction c!">" [.mk .stdout_redirect_direction_out c!">" []],
      _, ?_, rfl, rfl, rfl, by simp [Pair.rule]⟩
    exact .altR (n1 (by simp [Redir.text])) (.altR (n2 (by simp [Redir.text])) (.altL
      (PE.rule (.altR (ruleFail (f2 _)) (PE.rule (.lit _ _) rfl)) rfl)))
  | append =>
    refine ⟨.mk .stdout_redirect_direction c!">>" [.mk .stdout_redirect_direction_append c!">>" []],
      _, ?_, rfl, rfl, rfl, by simp [Pair.rule]⟩
    exact .altR (n1 (by simp [Redir.text])) (.altR (n2 (by simp [Redir.text])) (.altL
      (PE.rule (.altL (PE.rule (.lit _ _) rfl)) rfl)))
  | err =>
    refine ⟨.mk .stderr_redirect_direction c!"2>" [.mk .stderr_redirect_direction_out c!"2>" []],
      _, ?_, rfl, rfl, rfl, by simp [Pair.rule]⟩
    exact .altR (n1 (by simp [Redir.text])) (.altL
      (PE.rule (.altR (ruleFail (f3 _ _)) (PE.rule (.lit _ _) rfl)) rfl))
  | errAppend =>
    refine ⟨.mk .stderr_redirect_direction c!"2>>" [.mk .stderr_redirect_direction_append c!"2>>" []],
      _, ?_, rfl, rfl, rfl, by simp [Pair.rule]⟩
    exact .altR (n1 (by simp [Redir.text])) (.altL
      (PE.rule (.altL (PE.rule (.lit _ _) rfl)) rfl))
  | both =>
    refine ⟨.mk .stdouterr_redirect_direction c!"&>" [.mk .stdouterr_redirect_direction_out c!"&>" []],
      _, ?_, rfl, rfl, rfl, by simp [Pair.rule]⟩
    exact .altL (PE.rule (.altR (ruleFail (f3 _ _)) (PE.rule (.lit _ _) rfl)) rfl)
  | bothAppend =>
    refine ⟨.mk .stdouterr_redirect_direction c!"&>>" [.mk .stdouterr_redirect_direction_append c!"&>>" []],
      _, ?_, rfl, rfl, rfl, by simp [Pair.rule]⟩
    exact .altL (PE.rule (.altL (PE.rule (.lit _ _) rfl)) rfl)
  | input =>
    refine ⟨.mk .stdin_redirect_direction c!"<" [.mk .stdin_redirect_direction_in c!"<" []],
      _, ?_, rfl, rfl, rfl, by simp [Pair.rule]⟩
    exact .altR (n1 (by simp [Redir.text])) (.altR (n2 (by simp [Redir.text])) (.altR
      (n3 (by simp [Redir.text])) (PE.rule (PE.rule (.lit _ _) rfl) rfl)))

/-! ### Arguments -/

theorem rule_mk' (r : R) (t ps) : (Pair.mk r t ps).rule = r := rfl
theorem text_mk' (r : R) (t ps) : (Pair.mk r t ps).text = t := rfl
theorem inner_mk' (r : R) (t ps) : (Pair.mk r t ps).inner = ps := rfl


/-- The element of `args`. -/
abbrev argElt : PExp R := .seq (.star (.rule .sp)) (.alt (.rule .redirect) (.rule .span))

/-- What `parse_argv` makes of the pair read for an argument. -/
def ArgDen (a : Arg) (q : Pair R) : Prop :=
  match a with
  | .word _ w => ∃ x, q = .mk .span w.text [x] ∧ getStringAtom x = w.value ∧ x.text = w.text ∧
      (x.rule = .word ∨ x.rule = .s_quoted ∨ x.rule = .d_quoted ∨ x.rule = .variable)
  | .redir _ k _ w => q.rule = .redirect ∧
      (∀ cur, parseRedirect none cur q.inner = some (kindOf k, w.value)) ∧
      ∃ dr d x, q.inner = [.mk dr k.text [d], .mk .span w.text [x]] ∧ x.text = w.text ∧
        (x.rule = .word ∨ x.rule = .s_quoted ∨ x.rule = .d_quoted ∨ x.rule = .variable) ∧
        (dr = .stdout_redirect_direction ∨ dr = .stderr_redirect_direction ∨
          dr = .stdouterr_redirect_direction ∨ dr = .stdin_redirect_direction)

theorem plain_value {ps : List Piece}
    (h : ps.all (fun p => match p with | .plain _ => true | .esc _ => false) = true) :
    (Word.bare ps).text = (Word.bare ps).value := by
  induction ps with
  | nil => rfl
  | cons p ps ih =>
    simp only [List.all_cons, Bool.and_eq_true] at h
    cases p with
    | esc c => simp at h
    | plain c =>
      have := ih h.2
      simp [Word.text, Word.value, Piece.text, Piece.value] at this ⊢
      exact this

theorem redir_noBlank (k : Redir) (rest) : NoBlank (k.text ++ rest) := by
  intro c r he
  cases k <;> simp [Redir.text] at he <;> rw [← he.1] <;> rfl

theorem arg_ok {a : Arg} (h : a.ok = true) {rest} (hr : ArgEnd rest) :
    ∃ q, PE argElt a.text [q] rest ∧ ArgDen a q := by
  cases a with
  | word sep w =>
    simp only [Arg.ok, Bool.and_eq_true] at h
    obtain ⟨x, hx, hv, hxt, hn⟩ := span_ok h.2 hr.stop
    refine ⟨_, PE.seq (p1 := []) (gap_ok h.1.2 (word_noBlank h.2 _)) (.altR ?_ hx), ?_⟩
    · exact redirect_fail_word h.2 hr
    · exact ⟨x, rfl, hv, hxt, hn⟩
  | redir sep k gap w =>
    simp only [Arg.ok, Bool.and_eq_true] at h
    obtain ⟨⟨⟨⟨hne, hsep⟩, hgap⟩, hw⟩, hplain⟩ := h
    obtain ⟨x, hx, hv, hxt, hn⟩ := span_ok hw hr.stop
    have hgt : ∀ r, (gap ++ w.text) ++ rest ≠ '>' :: r := by
      cases gap with
      | nil => exact word_noGt hw rest
      | cons b gap =>
        intro r he
        simp at he
        simp only [List.all_cons, Bool.and_eq_true] at hgap
        rw [he.1] at hgap
        exact absurd hgap.1 (by decide)
    obtain ⟨⟨qr, qt, qi⟩, ⟨dr, dt, di⟩, hq, hqi, hqt, hk, hqr⟩ := direction_ok k hgt
    have hbody : PE (body .redirect) (k.text ++ (gap ++ w.text)) ([.mk qr qt qi] ++ ([] ++ [.mk .span w.text [x]])) rest :=
      PE.seq hq (PE.seq (gap_ok hgap (word_noBlank hw _)) hx)
    refine ⟨_, PE.seq (p1 := []) (gap_ok hsep (by
      intro c r he
      rw [List.append_assoc] at he
      exact redir_noBlank k _ c r he)) (.altL (PE.rule hbody rfl)), ?_⟩
    simp only [text_mk', inner_mk', rule_mk'] at hqt hqi hqr hk
    subst hqt hqi
    refine ⟨rfl, ?_, qr, _, x, rfl, hxt, hn, hqr⟩
    intro cur
    have hvt : w.text = w.value := by
      cases w with
      | bare ps => exact plain_value hplain
      | sq s => simp at hplain
      | dq s => simp at hplain
      | var n => simp at hplain
    rw [← hvt]
    simp only [Pair.inner, List.nil_append, List.singleton_append]
    rcases hqr with rfl | rfl | rfl | rfl <;>
      simp [parseRedirect, Pair.rule, Pair.text, Pair.inner, hk]

theorem args_cons_ArgEnd {a : Arg} (h : a.ok = true) (l : List Char) : ArgEnd (a.text ++ l) := by
  cases a with
  | word sep w =>
    simp only [Arg.ok, Bool.and_eq_true] at h
    exact .inr ⟨sep, w.text ++ l, by simp [Arg.text], by simpa using h.1.1, h.1.2⟩
  | redir sep k gap w =>
    simp only [Arg.ok, Bool.and_eq_true] at h
    exact .inr ⟨sep, _, by simp only [Arg.text, List.append_assoc]; rfl, by simpa using h.1.1.1.1, h.1.1.1.2⟩

/-- Pointwise relation between arguments and pairs. -/
inductive ArgsDen : List Arg → List (Pair R) → Prop
  | nil : ArgsDen [] []
  | cons {a q as qs} : ArgDen a q → ArgsDen as qs → ArgsDen (a :: as) (q :: qs)

theorem span_fail_end {r} (h : End r) : Parses G (.rule .span) r .fail := by
  cases r with
  | nil => exact fail_nil rfl rfl
  | cons c r =>
    apply fail_of_dead 6 rfl
    rcases h c r rfl with hc | ⟨rfl, _⟩
    · simp at hc
      rcases hc with rfl | rfl | rfl <;> decide
    · decide

theorem redirect_fail_end {r} (h : End r) : Parses G (.rule .redirect) r .fail := by
  apply redirect_fail
  · intro r' he
    rcases h _ _ he with hc | ⟨_, hc⟩
    · simp at hc
    · exact hc _ rfl
  all_goals
    intro r' he
    rcases h _ _ he with hc | ⟨hc, _⟩ <;> simp at hc

theorem argElt_fail {rest} (h : SEnd rest) : Parses G argElt rest .fail := by
  obtain ⟨g, r, rfl, hg, hr⟩ := h
  exact .seq_fail2 (gap_ok hg hr.noBlank) (.alt_r (redirect_fail_end hr) (span_fail_end hr))

theorem args_star {as : List Arg} (h : as.all Arg.ok = true) {rest} (hr : SEnd rest) :
    ∃ qs, PE (.star argElt) (as.map Arg.text).flatten qs rest ∧ ArgsDen as qs := by
  induction as with
  | nil => exact ⟨[], .starNil (argElt_fail hr), .nil⟩
  | cons a as ih =>
    simp only [List.all_cons, Bool.and_eq_true] at h
    obtain ⟨qs, h1, h2⟩ := ih h.2
    have hend : ArgEnd ((as.map Arg.text).flatten ++ rest) := by
      cases as with
      | nil => exact .inl hr
      | cons b as =>
        simp only [List.all_cons, Bool.and_eq_true] at h
        have := args_cons_ArgEnd h.2.1 ((as.map Arg.text).flatten ++ rest)
        simpa using this
    obtain ⟨q, hq, hd⟩ := arg_ok h.1 hend
    exact ⟨q :: qs, PE.starCons (p1 := [q]) hq h1, .cons hd h2⟩

theorem args_text_ne {as : List Arg} (h : as.all Arg.ok = true) (hne : as ≠ []) :
    (as.map Arg.text).flatten ≠ [] := by
  obtain ⟨a, as, rfl⟩ := List.exists_cons_of_ne_nil hne
  simp only [List.all_cons, Bool.and_eq_true] at h
  have := h.1
  cases a with
  | word sep w =>
    simp only [Arg.ok, Bool.and_eq_true] at this
    have : sep ≠ [] := by simpa using this.1.1
    simp [Arg.text, this]
  | redir sep k gap w =>
    simp only [Arg.ok, Bool.and_eq_true] at this
    have : sep ≠ [] := by simpa using this.1.1.1.1
    simp [Arg.text, this]

theorem args_ok {as : List Arg} (h : as.all Arg.ok = true) {rest} (hr : SEnd rest) :
    ∃ ps qs, PE (.star (.rule .args)) (as.map Arg.text).flatten ps rest ∧ ArgsDen as qs ∧
      ((as = [] ∧ ps = []) ∨ ∃ t, ps = [.mk .args t qs]) := by
  obtain ⟨qs, h1, h2⟩ := args_star h hr
  have hf : Parses G (.rule .args) rest .fail := ruleFail (.seq_fail1 (argElt_fail hr))
  by_cases hne : as = []
  · subst hne
    exact ⟨[], [], .starNil hf, .nil, .inl ⟨rfl, rfl⟩⟩
  · have hp := PE.rule (r := .args) (plus_of_star h1 (args_text_ne h hne)) rfl
    refine ⟨[.mk .args (as.map Arg.text).flatten qs], qs, ?_, h2, .inr ⟨_, rfl⟩⟩
    have := PE.starCons (t2 := []) (p2 := []) (rest := rest) (by simpa using hp) (.starNil hf)
    simpa using this

/-! ### Simple commands -/

/-- The pair read for a simple command. -/
structure SimpleDen (s : Simple) (p : Pair R) : Prop where
  rule : p.rule = .simple_command
  inner : ∃ t x rest, p.inner = .mk .argv0 t [.mk .span t [x]] :: rest ∧
    getStringAtom x = s.name.value ∧ t = s.name.text ∧ x.text = s.name.text ∧
    (x.rule = .word ∨ x.rule = .s_quoted ∨ x.rule = .d_quoted ∨ x.rule = .variable) ∧
    ∃ qs, ArgsDen s.args qs ∧ ((s.args = [] ∧ rest = []) ∨ ∃ t', rest = [.mk .args t' qs])

theorem simple_ok {s : Simple} (h : s.ok = true) {g rest} (hg : g.all isBlank = true)
    (hr : SEnd rest) :
    ∃ p, PE (.rule .simple_command) (g ++ s.text) [p] rest ∧ SimpleDen s p := by
  simp only [Simple.ok, Bool.and_eq_true] at h
  obtain ⟨ps, qs, h1, h2, h3⟩ := args_ok h.2 hr
  have hend : ArgEnd ((s.args.map Arg.text).flatten ++ rest) := by
    cases has : s.args with
    | nil => exact .inl hr
    | cons b as =>
      rw [has] at h
      simp only [List.all_cons, Bool.and_eq_true] at h
      have := args_cons_ArgEnd h.2.1 ((as.map Arg.text).flatten ++ rest)
      simpa using this
  obtain ⟨x, hx, hv, hxt, hn⟩ := span_ok h.1 hend.stop
  have ha := PE.rule (r := .argv0) hx rfl
  have hb : PE (body .simple_command) (g ++ s.text) ([] ++ ([.mk .argv0 s.name.text [.mk .span s.name.text [x]]] ++ ps)) rest := by
    refine PE.seq (gap_ok hg ?_) (PE.seq ha h1)
    intro c r he
    rw [Simple.text, List.append_assoc] at he
    exact word_noBlank h.1 _ c r he
  refine ⟨_, PE.rule hb rfl, ⟨rfl, s.name.text, x, ps, rfl, hv, rfl, hxt, hn, qs, h2, h3⟩⟩

theorem simple_fail_end {g r} (hg : g.all isBlank = true) (hr : End r) :
    Parses G (.rule .simple_command) (g ++ r) .fail :=
  ruleFail (.seq_fail2 (gap_ok hg hr.noBlank) (.seq_fail1 (ruleFail (span_fail_end hr))))

/-! ### `parse_argv` on a simple command -/

theorem mapSt_pure {α β : Type} {f : α → Nat → Option (List β × Nat)} {g : α → List β}
    {l : List α} (h : ∀ a ∈ l, ∀ id, f a id = some (g a, id)) (id : Nat) :
    mapSt f l id = some ((l.map g).flatten, id) := by
  induction l with
  | nil => rfl
  | cons a l ih =>
    have h1 := h a (by simp) id
    have h2 := ih (fun b hb => h b (List.mem_cons_of_mem _ hb))
    simp [mapSt, h1, h2]

theorem parseSpanItem_plain (rec b ctx) {x : Pair R} (id : Nat)
    (h : x.rule = .word ∨ x.rule = .s_quoted ∨ x.rule = .d_quoted ∨ x.rule = .variable) :
    parseSpanItem rec b ctx x id = some ([(getStringAtom x, none)], id) := by
  unfold parseSpanItem getString
  rcases h with h | h | h | h <;> simp [h]

end Dsh.Shell
