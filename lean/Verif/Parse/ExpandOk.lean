import Verif.Parse.Expand
import Verif.Parse.Build
/-!
What expansion makes of a well-formed line: the same line with single blanks, in which every
variable reference is replaced by a spelling of its value (for tame values).
-/
namespace Dsh.Shell
open Dsh.Peg PExp Dsh.Syn

variable {E : Env}

/-! ### Values that are spliced in faithfully -/

/-- A value the splice of `expand_var_args` spells correctly: empty; or containing a blank, tab or
newline and none of `"`, backslash, backquote, `$`; or only ordinary characters, without white
space at its ends. -/
def Tame (v : List Char) : Prop :=
  v = [] ∨
  ((' ' ∈ v ∨ '\t' ∈ v ∨ '\n' ∈ v) ∧ ∀ c ∈ v, c ≠ '"' ∧ c ≠ '\\' ∧ c ≠ '`' ∧ c ≠ '$') ∨
  ((∀ c ∈ v, c ∉ special) ∧ trim v = v)

/-- A word that expansion treats as meant: an ordinary word that is not the name of a variable and
does not start with `~`, or a variable with a tame value. -/
def Fit (E : Env) : Word → Prop
  | .var n => ∀ v, E.getVar ('$' :: n) = some v → Tame v
  | w => tilde E w.text = w.text ∧ E.getVar w.text = none

/-- A simple command that expansion treats as meant: its words fit, its name is not an alias and
does not end in white space. -/
structure FitSimple (E : Env) (s : Simple) : Prop where
  name : Fit E s.name
  noAlias : E.aliasOf s.name.text = none
  trimmed : trim s.name.text = s.name.text
  words : ∀ sep w, Arg.word sep w ∈ s.args → Fit E w
  targets : ∀ sep k gap w, Arg.redir sep k gap w ∈ s.args → Fit E w

/-- A line that expansion treats as meant; background commands must have no redirect. -/
structure FitLine (E : Env) (l : Line) : Prop where
  simples : ∀ s ∈ l.simples, FitSimple E s
  ops : ∀ k : Redir, E.getVar k.text = none
  bg : ∀ c ∈ l.cmds, ∀ b ∈ c.bgs, b.1.redirect = none

/-- The spelling of a value. -/
def renderVal (n : List Char) : Option (List Char) → Word
  | none => .var n
  | some [] => .dq []
  | some v => if v.contains '\n' || v.contains ' ' || v.contains '\t' then .dq v
        else .bare (v.map .plain)
/-- The spelling expansion gives a word. -/
def render (E : Env) : Word → Word
  | .var n => renderVal n (E.getVar ('$' :: n))
  | w => w

theorem escapeDq_id {v : List Char} (h : '"' ∉ v) : escapeDq v = v := by
  unfold escapeDq
  induction v with
  | nil => rfl
  | cons c v ih =>
    simp at h
    have hc : ¬ c = '"' := fun hh => h.1 hh.symm
    simp [hc, ih h.2]

theorem plain_text (v : List Char) : (Word.bare (v.map .plain)).text = v := by
  induction v with
  | nil => rfl
  | cons c v ih => simpa [Word.text, Piece.text] using ih

theorem splice_text {n : List Char} {o : Option (List Char)} (h : ∀ v, o = some v → Tame v) :
    splice ('$' :: n) o = (renderVal n o).text := by
  match o with
  | none => rfl
  | some [] => rfl
  | some (c :: v) =>
    simp only [splice, renderVal]
    rcases h _ rfl with h | h | h
    · cases h
    · have hn : ((c :: v).contains '\n' || (c :: v).contains ' ' || (c :: v).contains '\t') = true := by
        simp only [Bool.or_eq_true, List.contains_eq_mem, decide_eq_true_eq]
        rcases h.1 with h1 | h1 | h1 <;> simp only [h1, true_or, or_true]
      rw [if_pos hn, if_pos hn, escapeDq_id (fun hq => (h.2 _ hq).1 rfl)]
      rfl
    · have hn : ¬ ((c :: v).contains '\n' || (c :: v).contains ' ' || (c :: v).contains '\t') = true := by
        simp only [Bool.or_eq_true, List.contains_eq_mem, decide_eq_true_eq]
        rintro ((hn | hn) | hn) <;> exact h.1 _ hn (by decide)
      rw [if_neg hn, if_neg hn, h.2, plain_text]

theorem render_text {w : Word} (h : Fit E w) :
    expandVarArg E (tilde E w.text) = (render E w).text := by
  cases w with
  | var n => exact splice_text h
  | bare ps => rw [h.1]; unfold expandVarArg; rw [h.2]; rfl
  | sq s => rw [h.1]; unfold expandVarArg; rw [h.2]; rfl
  | dq s => rw [h.1]; unfold expandVarArg; rw [h.2]; rfl

theorem renderVal_ok {n : List Char} (hw : (Word.var n).ok = true) {o : Option (List Char)}
    (h : ∀ v, o = some v → Tame v) : (renderVal n o).ok = true := by
  match o with
  | none => exact hw
  | some [] => rfl
  | some (c :: v) =>
    simp only [renderVal]
    rcases h _ rfl with h | h | h
    · cases h
    · have hn : ((c :: v).contains '\n' || (c :: v).contains ' ' || (c :: v).contains '\t') = true := by
        simp only [Bool.or_eq_true, List.contains_eq_mem, decide_eq_true_eq]
        rcases h.1 with h1 | h1 | h1 <;> simp only [h1, true_or, or_true]
      rw [if_pos hn]
      simp only [Word.ok, List.all_eq_true]
      intro d hd
      have := h.2 d hd
      simp [this]
    · have hn : ¬ ((c :: v).contains '\n' || (c :: v).contains ' ' || (c :: v).contains '\t') = true := by
        simp only [Bool.or_eq_true, List.contains_eq_mem, decide_eq_true_eq]
        rintro ((hn | hn) | hn) <;> exact h.1 _ hn (by decide)
      rw [if_neg hn]
      simp only [Word.ok, Bool.and_eq_true, List.all_eq_true]
      refine ⟨by simp, ?_⟩
      intro p hp
      obtain ⟨d, hd, rfl⟩ := List.mem_map.1 hp
      simpa [Piece.ok] using h.1 d hd

theorem render_ok {w : Word} (h : Fit E w) (hw : w.ok = true) : (render E w).ok = true := by
  cases w with
  | var n => exact renderVal_ok hw h
  | bare ps => exact hw
  | sq s => exact hw
  | dq s => exact hw

/-- The valuation of the environment. -/
def valOf (E : Env) (n : List Char) : Option (List Char) := E.getVar ('$' :: n)

theorem render_value (w : Word) : (render E w).value = (w.fill (valOf E)).value := by
  cases w with
  | var n =>
    simp only [render, Word.fill, valOf]
    generalize E.getVar ('$' :: n) = o
    match o with
    | none => rfl
    | some [] => rfl
    | some (c :: v) =>
      simp only [renderVal]
      split
      · rfl
      · simp [Word.value, Function.comp_def, Piece.value]
  | bare ps => rfl
  | sq s => rfl
  | dq s => rfl

/-! ### The normal form -/

/-- Arguments with single blanks. -/
def normArg (E : Env) : Arg → Arg
  | .word _ w => .word [' '] (render E w)
  | .redir _ k _ w => .redir [' '] k [' '] w
/-- A simple command with single blanks. -/
def normSimple (E : Env) (s : Simple) : Simple := ⟨render E s.name, s.args.map (normArg E)⟩
/-- Background part; `more` says whether a pipeline follows. -/
def normBgs (E : Env) (more : Bool) :
    List (Simple × List Char × List Char) → List (Simple × List Char × List Char)
  | [] => []
  | [b] => [(normSimple E b.1, [' '], if more then [' '] else [])]
  | b :: bs => (normSimple E b.1, [' '], [' ']) :: normBgs E more bs
/-- Further stages. -/
def normStages (E : Env) (st : List (List Char × List Char × Simple)) :
    List (List Char × List Char × Simple) :=
  st.map (fun b => ([' '], [' '], normSimple E b.2.2))
/-- A command with single blanks. -/
def normCmd (E : Env) (c : Cmd) : Cmd :=
  ⟨normBgs E c.main.isSome c.bgs, c.main.map (fun m => (normSimple E m.1, normStages E m.2))⟩
/-- The rest of a line with single blanks. -/
def normRest (E : Env) (l : List (List Char × Sep × List Char × Cmd)) :
    List (List Char × Sep × List Char × Cmd) :=
  l.map (fun r => ([' '], r.2.1, [' '], normCmd E r.2.2.2))
/-- A line with single blanks. -/
def normLine (E : Env) (l : Line) : Line := ⟨[], normCmd E l.first, normRest E l.rest, []⟩

/-- Each token behind a blank. -/
def glue (ts : List (List Char)) : List Char := ts.flatMap (fun t => ' ' :: t)

theorem glue_append (a b) : glue (a ++ b) = glue a ++ glue b := by simp [glue]
theorem glue_cons (a b) : glue (a :: b) = ' ' :: (a ++ glue b) := by simp [glue]

theorem join_glue (t : List Char) (ts) : joinWith c!" " (t :: ts) = t ++ glue ts := by
  induction ts generalizing t with
  | nil => simp [joinWith, glue]
  | cons a ts ih =>
    rw [joinWith, ih a]
    · simp [glue]
    · simp

theorem join_glue' {ts : List (List Char)} {x} (h : glue ts = ' ' :: x) : joinWith c!" " ts = x := by
  cases ts with
  | nil => simp [glue] at h
  | cons t ts =>
    rw [join_glue]
    rw [glue_cons] at h
    injection h

/-! ### Tokens of pairs -/

/-- Tokens of an argument before variables. -/
def argToks (E : Env) : Arg → List (List Char)
  | .word _ w => [tilde E w.text]
  | .redir _ k _ w => [k.text, tilde E w.text]

theorem atom_expand {x : Pair R} {w : List Char} (ht : x.text = w)
    (h : x.rule = .word ∨ x.rule = .s_quoted ∨ x.rule = .d_quoted ∨ x.rule = .variable) :
    expandT E x = [tilde E w] := by
  obtain ⟨r, t, ps⟩ := x
  simp only [rule_mk, text_mk] at h ht
  subst ht
  rcases h with rfl | rfl | rfl | rfl <;> simp [expandT]

theorem span_inner {x : Pair R}
    (h : x.rule = .word ∨ x.rule = .s_quoted ∨ x.rule = .d_quoted ∨ x.rule = .variable) :
    expandInner E [x] = expandT E x := by
  obtain ⟨r, t, ps⟩ := x
  simp only [rule_mk] at h
  rcases h with rfl | rfl | rfl | rfl <;> simp [expandT, expandInner]

theorem span_expand {x : Pair R} {w t : List Char} (ht : x.text = w)
    (h : x.rule = .word ∨ x.rule = .s_quoted ∨ x.rule = .d_quoted ∨ x.rule = .variable) :
    expandT E (.mk .span t [x]) = [tilde E w] := by
  rw [← atom_expand ht h, ← span_inner h]
  simp [expandT]

theorem tilde_op (k : Redir) : tilde E k.text = k.text := by cases k <;> rfl

theorem arg_expand {a : Arg} {q : Pair R} (h : ArgDen a q) : expandT E q = argToks E a := by
  cases a with
  | word sep w =>
    obtain ⟨x, rfl, -, hxt, hr⟩ := h
    exact span_expand hxt hr
  | redir sep k gap w =>
    obtain ⟨hr, -, dr, d, x, hi, hxt, hx, hd⟩ := h
    obtain ⟨r, t, ps⟩ := q
    simp only [rule_mk, inner_mk] at hr hi
    subst hr hi
    have h1 : expandT E (.mk dr k.text [d]) = [k.text] := by
      rcases hd with rfl | rfl | rfl | rfl <;> simp [expandT, tilde_op]
    have h2 : expandT E (.mk .redirect t [.mk dr k.text [d], .mk .span w.text [x]]) =
        expandT E (.mk dr k.text [d]) ++ (expandT E (.mk .span w.text [x]) ++ []) := by
      conv_lhs => rw [expandT]
      simp only [expandAll]
    rw [h2, h1, span_expand hxt hx]
    rfl

theorem args_expand {as : List Arg} {qs : List (Pair R)} (h : ArgsDen as qs) :
    expandAll E qs = as.flatMap (argToks E) := by
  induction h with
  | nil => simp [expandAll]
  | cons h _ ih => simp [expandAll, arg_expand h, ih]

/-- Tokens of a simple command before variables. -/
def simpleToks (E : Env) (s : Simple) : List (List Char) :=
  aliasFirst E [tilde E s.name.text] ++ s.args.flatMap (argToks E)

theorem simple_expand {s : Simple} {p : Pair R} (h : SimpleDen s p) :
    expandT E p = simpleToks E s := by
  obtain ⟨r, t0, inner⟩ := p
  have hr := h.rule
  obtain ⟨t, x, rest, hi, -, -, hxt, hx, qs, hqs, hrest⟩ := h.inner
  simp only [rule_mk, inner_mk] at hr hi
  subst hr hi
  have h0 : expandArgv0 E [.mk .span t [x]] = aliasFirst E [tilde E s.name.text] := by
    simp [expandArgv0, span_expand hxt hx]
  rcases hrest with ⟨ha, rfl⟩ | ⟨t', rfl⟩
  · simp only [expandT, expandInner, h0]
    simp [simpleToks, ha]
  · simp only [expandT, expandInner, h0, args_expand hqs]
    simp [simpleToks]

/-- Redirects of a background command are forgotten. -/
theorem args_inner {as : List Arg} {qs : List (Pair R)} (h : ArgsDen as qs) :
    expandInner E qs = (as.filterMap (fun a => match a with
      | .word _ w => some (tilde E w.text)
      | .redir .. => none)) := by
  induction h with
  | nil => simp [expandInner]
  | @cons a q as qs h _ ih =>
    cases a with
    | word sep w =>
      obtain ⟨x, rfl, -, hxt, hr⟩ := h
      simp only [expandInner, expandAll, atom_expand hxt hr, ih]
      simp
    | redir sep k gap w =>
      obtain ⟨hr, -⟩ := h
      obtain ⟨r, t, ps⟩ := q
      simp only [rule_mk] at hr
      subst hr
      simp only [expandInner, ih]
      simp

theorem bg_args {as : List Arg} (h : as.filterMap Arg.redirVal = []) :
    as.filterMap (fun a => match a with
      | .word _ w => some (tilde E w.text)
      | .redir .. => none) = as.flatMap (argToks E) := by
  induction as with
  | nil => rfl
  | cons a as ih =>
    cases a with
    | word sep w =>
      rw [List.filterMap_cons_none rfl] at h
      simp [ih h, argToks]
    | redir sep k gap w => simp [Arg.redirVal] at h

theorem bg_expand {s : Simple} {p : Pair R} (h : SimpleDen s p) (hb : s.redirect = none) {t o} :
    expandT E (.mk .simple_command_bg t [p, .mk .background_op o []]) = simpleToks E s := by
  obtain ⟨r, t0, inner⟩ := p
  have hr := h.rule
  obtain ⟨t1, x, rest, hi, -, -, hxt, hx, qs, hqs, hrest⟩ := h.inner
  simp only [rule_mk, inner_mk] at hr hi
  subst hr hi
  have h0 : expandArgv0 E [.mk .span t1 [x]] = aliasFirst E [tilde E s.name.text] := by
    simp [expandArgv0, span_expand hxt hx]
  have hb' : s.args.filterMap Arg.redirVal = [] := by
    simpa [Simple.redirect] using hb
  rcases hrest with ⟨ha, rfl⟩ | ⟨t', rfl⟩
  · simp only [expandT, expandInner, expandAll, h0]
    simp [simpleToks, ha]
  · simp only [expandT, expandInner, expandAll, h0]
    rw [args_inner hqs, bg_args hb']
    simp [simpleToks]

/-! ### Tokens of commands -/

/-- Tokens of a simple command. -/
def stoks (E : Env) (s : Simple) : List (List Char) := (simpleToks E s).map (expandVarArg E)

theorem argToks_glue {as : List Arg} (hw : ∀ sep w, Arg.word sep w ∈ as → Fit E w)
    (ht : ∀ sep k gap w, Arg.redir sep k gap w ∈ as → Fit E w)
    (hops : ∀ k : Redir, E.getVar k.text = none) (hok : as.all Arg.ok = true) :
    glue ((as.flatMap (argToks E)).map (expandVarArg E)) =
      ((as.map (normArg E)).map Arg.text).flatten := by
  induction as with
  | nil => rfl
  | cons a as ih =>
    simp only [List.all_cons, Bool.and_eq_true] at hok
    have ih := ih (fun sep w h => hw sep w (List.mem_cons_of_mem _ h))
      (fun sep k gap w h => ht sep k gap w (List.mem_cons_of_mem _ h)) hok.2
    rw [List.flatMap_cons, List.map_append, glue_append, ih, List.map_cons, List.map_cons, List.flatten_cons]
    congr 1
    cases a with
    | word sep w =>
      have := hw sep w (by simp)
      simp [argToks, render_text this, normArg, Arg.text, glue]
    | redir sep k gap w =>
      have h1 := ht sep k gap w (by simp)
      have h2 : expandVarArg E k.text = k.text := by unfold expandVarArg; rw [hops k]; rfl
      have h3 : (render E w) = w := by
        cases w with
        | var n => simp [Arg.ok] at hok
        | bare ps => rfl
        | sq s => rfl
        | dq s => rfl
      simp [argToks, render_text h1, h2, h3, normArg, Arg.text, glue]

theorem simple_glue {s : Simple} (h : FitSimple E s) (hops : ∀ k : Redir, E.getVar k.text = none)
    (hok : s.ok = true) : glue (stoks E s) = ' ' :: (normSimple E s).text := by
  have h0 : (aliasFirst E [tilde E s.name.text]).map (expandVarArg E) = [(render E s.name).text] := by
    have ht : tilde E s.name.text = s.name.text := by
      have := h.name
      cases hn : s.name with
      | var n => rfl
      | bare ps => rw [hn] at this; exact this.1
      | sq s => rw [hn] at this; exact this.1
      | dq s => rw [hn] at this; exact this.1
    have := render_text h.name
    rw [ht] at this ⊢
    simp [aliasFirst, h.noAlias, h.trimmed, this]
  simp only [Simple.ok, Bool.and_eq_true] at hok
  unfold stoks simpleToks
  rw [List.map_append, h0, glue_append, argToks_glue h.words h.targets hops hok.2]
  simp [glue, normSimple, Simple.text]

theorem arg_norm_ok {a : Arg} (h : a.ok = true) (hw : ∀ sep w, a = Arg.word sep w → Fit E w) :
    (normArg E a).ok = true := by
  cases a with
  | word sep w =>
    simp only [Arg.ok, Bool.and_eq_true] at h
    have := render_ok (hw sep w rfl) h.2
    simp [normArg, Arg.ok, this, isBlank]
  | redir sep k gap w =>
    simp only [Arg.ok, Bool.and_eq_true] at h
    obtain ⟨⟨⟨⟨hne, hsep⟩, hgap⟩, hw⟩, hplain⟩ := h
    simp only [normArg, Arg.ok, Bool.and_eq_true]
    exact ⟨⟨⟨⟨by simp, by decide⟩, by decide⟩, hw⟩, hplain⟩

theorem simple_norm_ok {s : Simple} (h : FitSimple E s) (hok : s.ok = true) :
    (normSimple E s).ok = true := by
  simp only [Simple.ok, Bool.and_eq_true] at hok
  simp only [Simple.ok, normSimple, Bool.and_eq_true, List.all_map]
  refine ⟨render_ok h.name hok.1, ?_⟩
  rw [List.all_eq_true] at hok ⊢
  intro a ha
  exact arg_norm_ok (hok.2 a ha) (fun sep w he => h.words sep w (he ▸ ha))

theorem bgs_glue {bs : List (Simple × List Char × List Char)} (hf : ∀ b ∈ bs, FitSimple E b.1)
    (hops : ∀ k : Redir, E.getVar k.text = none) (hok : ∀ b ∈ bs, b.1.ok = true)
    (more : Bool) (rest : List Char) (hne : bs ≠ []) :
    glue (bs.flatMap (fun b => stoks E b.1 ++ [c!"&"])) ++ (if more then ' ' :: rest else rest) =
      ' ' :: (bgsText (normBgs E more bs) ++ rest) := by
  induction bs with
  | nil => exact absurd rfl hne
  | cons b bs ih =>
    have hb := simple_glue (hf b (by simp)) hops (hok b (by simp))
    cases bs with
    | nil =>
      simp only [List.flatMap_cons, List.flatMap_nil, List.append_nil, glue_append, hb, normBgs, bgsText]
      cases more <;> simp [glue]
    | cons b' bs =>
      have ih := ih (fun b hb => hf b (List.mem_cons_of_mem _ hb))
        (fun b hb => hok b (List.mem_cons_of_mem _ hb)) (by simp)
      rw [List.flatMap_cons, glue_append, List.append_assoc, ih, glue_append, hb]
      simp [normBgs, bgsText, glue]

theorem stages_glue {st : List (List Char × List Char × Simple)} (hf : ∀ b ∈ st, FitSimple E b.2.2)
    (hops : ∀ k : Redir, E.getVar k.text = none) (hok : ∀ b ∈ st, b.2.2.ok = true) :
    glue (st.flatMap (fun b => c!"|" :: stoks E b.2.2)) = stagesText (normStages E st) := by
  induction st with
  | nil => rfl
  | cons b st ih =>
    have hb := simple_glue (hf b (by simp)) hops (hok b (by simp))
    have ih := ih (fun b hb => hf b (List.mem_cons_of_mem _ hb))
        (fun b hb => hok b (List.mem_cons_of_mem _ hb))
    rw [List.flatMap_cons, glue_append, ih, glue_cons, hb]
    simp [stagesText, normStages]

/-- Tokens of a command. -/
def ctoks (E : Env) (c : Cmd) : List (List Char) :=
  c.bgs.flatMap (fun b => stoks E b.1 ++ [c!"&"]) ++
  (match c.main with
   | none => []
   | some (s, st) => stoks E s ++ st.flatMap (fun b => c!"|" :: stoks E b.2.2))

/-- One step of `expand_command_alias`. -/
def cmdStep (E : Env) (q : Pair R) : List (List Char) :=
  match q.rule with
    | .simple_command => (expandT E q).map (expandVarArg E)
    | .simple_command_bg => (expandT E q).map (expandVarArg E) ++ [c!"&"]
    | .pipe_command => c!"|" :: (expandT E q).map (expandVarArg E)
    | .struct_pipe_command => [q.text]
    | .capture_suffix => [q.text]
    | _ => []

theorem bgs_toks {bs : List (Simple × List Char × List Char)} {ps : List (Pair R)} (h : BgsDen bs ps)
    (hb : ∀ b ∈ bs, b.1.redirect = none) :
    ps.flatMap (cmdStep E) = bs.flatMap (fun b => stoks E b.1 ++ [c!"&"]) := by
  induction h with
  | nil => rfl
  | @cons b p t o bs ps hp _ _ ih =>
    rw [List.flatMap_cons, List.flatMap_cons, ih (fun b h => hb b (List.mem_cons_of_mem _ h))]
    congr 1
    simp only [cmdStep, rule_mk]
    rw [bg_expand hp (hb b (by simp))]
    rfl

theorem pipes_toks {st : List (List Char × List Char × Simple)} {ps : List (Pair R)}
    (h : PipesDen st ps) :
    ps.flatMap (cmdStep E) = st.flatMap (fun b => c!"|" :: stoks E b.2.2) := by
  induction h with
  | nil => rfl
  | @cons b p t o st ps hp _ ih =>
    rw [List.flatMap_cons, List.flatMap_cons, ih]
    congr 1
    simp only [cmdStep, rule_mk]
    congr 1
    simp [expandT, expandAll, expandInner, simple_expand hp, stoks]

theorem cmd_toks {c : Cmd} {ps : List (Pair R)} (h : CmdDen c ps)
    (hb : ∀ b ∈ c.bgs, b.1.redirect = none) {t} :
    expandCommand E (.mk .command t ps) = ctoks E c := by
  have h0 : expandCommand E (.mk .command t ps) = ps.flatMap (cmdStep E) := rfl
  rw [h0]
  cases h with
  | bgOnly h => simp [ctoks, bgs_toks h hb]
  | @main bs ps s p st qs h1 h2 h3 =>
    rw [List.flatMap_append, List.flatMap_cons, bgs_toks h1 hb, pipes_toks h3]
    have : cmdStep E p = stoks E s := by
      unfold cmdStep
      rw [h2.rule]
      simp [simple_expand h2, stoks]
    rw [this]
    rfl

theorem cmd_glue {c : Cmd} (hf : ∀ s ∈ c.simples, FitSimple E s)
    (hops : ∀ k : Redir, E.getVar k.text = none) (hok : c.ok = true) :
    glue (ctoks E c) = ' ' :: (normCmd E c).text := by
  obtain ⟨bs, m⟩ := c
  simp only [Cmd.ok, Bool.and_eq_true, List.all_eq_true] at hok
  obtain ⟨⟨hne, hbs⟩, hm⟩ := hok
  have hfb : ∀ b ∈ bs, FitSimple E b.1 := fun b hb => hf _ (by
    simp only [Cmd.simples, List.mem_append, List.mem_map]; exact .inl ⟨b, hb, rfl⟩)
  have hob : ∀ b ∈ bs, b.1.ok = true := fun b hb => by
    exact (hbs b hb).1.1
  unfold ctoks
  rw [glue_append]
  cases m with
  | none =>
    have hne : bs ≠ [] := by simpa using hne
    have := bgs_glue hfb hops hob false [] hne
    simpa [normCmd, Cmd.text, mainText, glue] using this
  | some m =>
    obtain ⟨s, st⟩ := m
    simp only [Bool.and_eq_true, List.all_eq_true] at hm
    have hs := simple_glue (hf s (by simp [Cmd.simples])) hops hm.1
    have hst := stages_glue (st := st) (fun b hb => hf _ (by
        simp only [Cmd.simples, List.mem_append, List.mem_cons, List.mem_map]
        exact .inr (.inr ⟨b, hb, rfl⟩))) hops (fun b hb => by
        have := hm.2 b hb; exact this.1.2)
    simp only [glue_append, hs, hst]
    cases bs with
    | nil => simp [glue, normCmd, normBgs, Cmd.text, bgsText, mainText]
    | cons b bs =>
      have := bgs_glue hfb hops hob true ((normSimple E s).text ++ stagesText (normStages E st)) (by simp)
      simp only [if_true] at this
      rw [show (' ' :: (normSimple E s).text ++ stagesText (normStages E st)) =
        ' ' :: ((normSimple E s).text ++ stagesText (normStages E st)) from rfl, this]
      simp [normCmd, Cmd.text, mainText]

/-- Tokens of the rest of a line. -/
def rtoks (E : Env) (l : List (List Char × Sep × List Char × Cmd)) : List (List Char) :=
  l.flatMap (fun r => r.2.1.text :: ctoks E r.2.2.2)

theorem rest_toks {l : List (List Char × Sep × List Char × Cmd)} {ps : List (Pair R)} (h : RestDen l ps)
    (hb : ∀ r ∈ l, ∀ b ∈ r.2.2.2.bgs, b.1.redirect = none) :
    ps.flatMap (expandCommand E) = rtoks E l := by
  induction h with
  | nil => rfl
  | @cons g s g' c t t' ps rest qs h _ _ ih =>
    have h1 : expandCommand E (.mk .command_list_sep s.text [.mk (sepRule s) t []]) = [s.text] := rfl
    rw [List.flatMap_cons, List.flatMap_cons, h1, cmd_toks h (hb (g, s, g', c) (by simp)),
      ih (fun r hr => hb r (List.mem_cons_of_mem _ hr))]
    simp [rtoks]

theorem rest_glue {l : List (List Char × Sep × List Char × Cmd)}
    (hf : ∀ r ∈ l, ∀ s ∈ r.2.2.2.simples, FitSimple E s)
    (hops : ∀ k : Redir, E.getVar k.text = none) (hok : ∀ r ∈ l, r.2.2.2.ok = true) :
    glue (rtoks E l) = restText (normRest E l) [] := by
  induction l with
  | nil => rfl
  | cons r l ih =>
    have ih := ih (fun r hr => hf r (List.mem_cons_of_mem _ hr))
      (fun r hr => hok r (List.mem_cons_of_mem _ hr))
    have hc := cmd_glue (hf r (by simp)) hops (hok r (by simp))
    have : rtoks E (r :: l) = (r.2.1.text :: ctoks E r.2.2.2) ++ rtoks E l := by simp [rtoks]
    rw [this, glue_append, ih, glue_cons, hc]
    simp [normRest, restText]

theorem restOk_cmds {prev : Cmd} {l : List (List Char × Sep × List Char × Cmd)} (h : restOk prev l = true) :
    ∀ r ∈ l, r.2.2.2.ok = true := by
  induction l generalizing prev with
  | nil => simp
  | cons r l ih =>
    obtain ⟨g, s, g', c⟩ := r
    simp only [restOk, Bool.and_eq_true] at h
    intro r hr
    rcases List.mem_cons.1 hr with rfl | hr
    · exact h.1.2
    · exact ih h.2 r hr

/-- The expanded text is the normal form. -/
theorem expand_text {l : Line} (h : l.ok = true) (hf : FitLine E l) {t ps qs}
    (h2 : CmdDen l.first ps) (h3 : RestDen l.rest qs) :
    expandPairs E [.mk .commands l.text (.mk .command t ps :: qs)] = (normLine E l).text := by
  simp only [Line.ok, Bool.and_eq_true] at h
  unfold expandPairs
  apply join_glue'
  simp only [List.flatMap_cons, List.flatMap_nil, List.append_nil, inner_mk]
  rw [cmd_toks h2 (fun b hb => hf.bg l.first (by simp [Line.cmds]) b hb),
    rest_toks h3 (fun r hr => hf.bg _ (by
      simp only [Line.cmds, List.mem_cons, List.mem_map]; exact .inr ⟨r, hr, rfl⟩)),
    glue_append, cmd_glue (fun s hs => hf.simples s (by
      simp only [Line.simples, Line.cmds, List.flatMap_cons, List.mem_append]; exact .inl hs)) hf.ops h.1.1.2,
    rest_glue (fun r hr s hs => hf.simples s (by
      simp only [Line.simples, Line.cmds, List.flatMap_cons, List.mem_append, List.mem_flatMap, List.mem_map]
      exact .inr ⟨_, ⟨r, hr, rfl⟩, hs⟩)) hf.ops (restOk_cmds h.1.2)]
  simp [normLine, Line.text]

/-! ### The normal form is well-formed and means the same -/

theorem normBgs_ok {bs : List (Simple × List Char × List Char)} (hf : ∀ b ∈ bs, FitSimple E b.1)
    (hok : ∀ b ∈ bs, b.1.ok = true) (more : Bool) :
    (normBgs E more bs).all (fun b => b.1.ok && b.2.1.all isBlank && b.2.2.all isBlank) = true := by
  induction bs with
  | nil => rfl
  | cons b bs ih =>
    have hb := simple_norm_ok (hf b (by simp)) (hok b (by simp))
    have ih := ih (fun b hb => hf b (List.mem_cons_of_mem _ hb)) (fun b hb => hok b (List.mem_cons_of_mem _ hb))
    cases bs with
    | nil => cases more <;> simp [normBgs, hb, isBlank]
    | cons b' bs => simp [normBgs] at ih ⊢; simp [hb, isBlank]; simpa [isBlank] using ih

theorem normBgs_ne {bs : List (Simple × List Char × List Char)} (h : bs ≠ []) (more) :
    normBgs E more bs ≠ [] := by
  cases bs with
  | nil => exact absurd rfl h
  | cons b bs => cases bs <;> simp [normBgs]

theorem normCmd_ok {c : Cmd} (hf : ∀ s ∈ c.simples, FitSimple E s) (hok : c.ok = true) :
    (normCmd E c).ok = true := by
  obtain ⟨bs, m⟩ := c
  simp only [Cmd.ok, Bool.and_eq_true, List.all_eq_true] at hok
  obtain ⟨⟨hne, hbs⟩, hm⟩ := hok
  have hfb : ∀ b ∈ bs, FitSimple E b.1 := fun b hb => hf _ (by
    simp only [Cmd.simples, List.mem_append, List.mem_map]; exact .inl ⟨b, hb, rfl⟩)
  have hob : ∀ b ∈ bs, b.1.ok = true := fun b hb => by
    exact (hbs b hb).1.1
  simp only [Cmd.ok, normCmd, Bool.and_eq_true]
  refine ⟨⟨?_, normBgs_ok hfb hob _⟩, ?_⟩
  · cases m with
    | some m => simp
    | none =>
      have hne : bs ≠ [] := by simpa using hne
      simp only [Option.map_none, Option.isSome_none, Bool.or_false]
      exact decide_eq_true (normBgs_ne (E := E) hne false)
  · cases m with
    | none => rfl
    | some m =>
      obtain ⟨s, st⟩ := m
      simp only [Bool.and_eq_true, List.all_eq_true] at hm
      simp only [Option.map_some, Bool.and_eq_true, normStages, List.all_map, List.all_eq_true]
      refine ⟨simple_norm_ok (hf s (by simp [Cmd.simples])) hm.1, ?_⟩
      intro b hb
      have := simple_norm_ok (hf b.2.2 (by
        simp only [Cmd.simples, List.mem_append, List.mem_cons, List.mem_map]
        exact .inr (.inr ⟨b, hb, rfl⟩))) (hm.2 b hb).1.2
      simp [this, isBlank]

theorem normRest_ok {prev prev' : Cmd} {l : List (List Char × Sep × List Char × Cmd)}
    (hf : ∀ r ∈ l, ∀ s ∈ r.2.2.2.simples, FitSimple E s) (h : restOk prev l = true) :
    restOk prev' (normRest E l) = true := by
  induction l generalizing prev prev' with
  | nil => rfl
  | cons r l ih =>
    obtain ⟨g, s, g', c⟩ := r
    simp only [restOk, Bool.and_eq_true] at h
    have hc := normCmd_ok (hf (g, s, g', c) (by simp)) h.1.2
    have ih := ih (prev' := normCmd E c) (fun r hr => hf r (List.mem_cons_of_mem _ hr)) h.2
    simp only [normRest, List.map_cons, restOk, Bool.and_eq_true] at ih ⊢
    exact ⟨⟨⟨by simp [sepOk, isBlank], by simp [isBlank]⟩, hc⟩, ih⟩

theorem normLine_ok {l : Line} (hf : FitLine E l) (h : l.ok = true) : (normLine E l).ok = true := by
  simp only [Line.ok, Bool.and_eq_true] at h
  simp only [Line.ok, normLine, Bool.and_eq_true]
  refine ⟨⟨⟨by simp, normCmd_ok (fun s hs => hf.simples s (by
      simp only [Line.simples, Line.cmds, List.flatMap_cons, List.mem_append]; exact .inl hs)) h.1.1.2⟩,
    normRest_ok (fun r hr s hs => hf.simples s (by
      simp only [Line.simples, Line.cmds, List.flatMap_cons, List.mem_append, List.mem_flatMap, List.mem_map]
      exact .inr ⟨_, ⟨r, hr, rfl⟩, hs⟩)) h.1.2⟩, by simp⟩

/-- Two simple commands that mean the same. -/
def SameS (a b : Simple) : Prop := a.argv = b.argv ∧ a.redirect = b.redirect ∧ a.name.value = b.name.value

theorem norm_same (s : Simple) : SameS (normSimple E s) (s.mapW (Word.fill (valOf E))) := by
  obtain ⟨n, as⟩ := s
  have h1 : (as.map (normArg E)).filterMap Arg.wordVal =
      (as.map (Arg.mapW (Word.fill (valOf E)))).filterMap Arg.wordVal := by
    induction as with
    | nil => rfl
    | cons a as ih =>
      simp only [List.map_cons, List.filterMap_cons, ih]
      cases a <;> simp only [normArg, Arg.mapW, Arg.wordVal, render_value]
  have h2 : (as.map (normArg E)).filterMap Arg.redirVal =
      (as.map (Arg.mapW (Word.fill (valOf E)))).filterMap Arg.redirVal := by
    clear h1
    induction as with
    | nil => rfl
    | cons a as ih =>
      simp only [List.map_cons, List.filterMap_cons, ih]
      cases a <;> simp only [normArg, Arg.mapW, Arg.redirVal]
  refine ⟨?_, ?_, ?_⟩
  · simp only [Simple.argv, normSimple, Simple.mapW, h1, render_value]
  · simp only [Simple.redirect, normSimple, Simple.mapW, h2]
  · simp only [normSimple, Simple.mapW, render_value]

theorem normBgs_want (bs : List (Simple × List Char × List Char)) (more) :
    (normBgs E more bs).map (fun b => (⟨[b.1.argv], true, b.1.redirect, .seq⟩ : Want)) =
    bs.map (fun b => ⟨[(b.1.mapW (Word.fill (valOf E))).argv], true,
      (b.1.mapW (Word.fill (valOf E))).redirect, .seq⟩) := by
  induction bs with
  | nil => rfl
  | cons b bs ih =>
    have hb := norm_same (E := E) b.1
    cases bs with
    | nil => simp [normBgs, hb.1, hb.2.1]
    | cons b' bs => simp only [normBgs, List.map_cons, hb.1, hb.2.1]; congr 1

theorem lastRedir_congr {α} (l : List α) (f g : α → Simple) (h : ∀ a ∈ l, (f a).redirect = (g a).redirect) :
    lastRedir (l.map f) = lastRedir (l.map g) := by
  unfold lastRedir
  congr 1
  induction l with
  | nil => rfl
  | cons a l ih =>
    have h1 := h a (by simp)
    have h2 := ih (fun b hb => h b (List.mem_cons_of_mem _ hb))
    simp only [List.map_cons, List.filterMap_cons, h1, h2]

theorem normCmd_want (c : Cmd) : (normCmd E c).want = (c.mapW (Word.fill (valOf E))).want := by
  obtain ⟨bs, m⟩ := c
  unfold Cmd.want
  simp only [normCmd, Cmd.mapW, normBgs_want, List.map_map, Function.comp_def]
  congr 1
  cases m with
  | none => rfl
  | some m =>
    obtain ⟨s, st⟩ := m
    have hs := norm_same (E := E) s
    simp only [Option.map_some, normStages, List.map_map, Function.comp_def]
    congr 2
    · rw [hs.1]
      congr 1
      apply List.map_congr_left
      intro b _
      exact (norm_same b.2.2).1
    · rw [lastRedir_cons, lastRedir_cons, hs.2.1]
      congr 1
      exact lastRedir_congr st _ _ (fun b _ => (norm_same b.2.2).2.1)

theorem normRest_want (c : Cmd) (l : List (List Char × Sep × List Char × Cmd)) :
    restWant (normCmd E c) (normRest E l) = restWant (c.mapW (Word.fill (valOf E)))
      (l.map (fun r => (r.1, r.2.1, r.2.2.1, r.2.2.2.mapW (Word.fill (valOf E))))) := by
  induction l generalizing c with
  | nil => simp only [normRest, List.map_nil, restWant]; exact normCmd_want c
  | cons r l ih =>
    simp only [normRest, List.map_cons, restWant, normCmd_want]
    congr 1
    exact ih _

theorem normLine_want (l : Line) : (normLine E l).want = (l.mapW (Word.fill (valOf E))).want :=
  normRest_want _ _

theorem normBgs_simples (bs : List (Simple × List Char × List Char)) (more) :
    (normBgs E more bs).map (·.1) = bs.map (fun b => normSimple E b.1) := by
  induction bs with
  | nil => rfl
  | cons b bs ih => cases bs with
    | nil => rfl
    | cons b' bs => simp only [normBgs, List.map_cons] at ih ⊢; rw [ih]

theorem normCmd_simples (c : Cmd) : (normCmd E c).simples = c.simples.map (normSimple E) := by
  obtain ⟨bs, m⟩ := c
  simp only [Cmd.simples, normCmd, normBgs_simples, List.map_append, List.map_map, Function.comp_def]
  congr 1
  cases m with
  | none => rfl
  | some m => simp [normStages, Function.comp_def]

theorem normLine_simples (l : Line) : (normLine E l).simples = l.simples.map (normSimple E) := by
  simp only [Line.simples, Line.cmds, normLine, normRest, List.map_map, List.map_cons, List.flatMap_cons,
    List.map_append, normCmd_simples, Function.comp_def]
  congr 1
  simp [List.flatMap, Function.comp_def, normCmd_simples, List.map_flatten]

theorem mapW_cmd_simples (f) (c : Cmd) : (c.mapW f).simples = c.simples.map (Simple.mapW f) := by
  obtain ⟨bs, m⟩ := c
  simp only [Cmd.simples, Cmd.mapW, List.map_map, List.map_append, Function.comp_def]
  congr 1
  cases m with
  | none => rfl
  | some m => simp [Function.comp_def]

theorem mapW_simples (f) (l : Line) : (l.mapW f).simples = l.simples.map (Simple.mapW f) := by
  simp only [Line.simples, Line.cmds, Line.mapW, List.map_map, List.map_cons, List.flatMap_cons,
    List.map_append, mapW_cmd_simples, Function.comp_def]
  congr 1
  simp [List.flatMap, Function.comp_def, mapW_cmd_simples, List.map_flatten]

/-! ### When expansion is skipped -/

/-- A word that is a variable reference. -/
def IsVar : Word → Prop
  | .var _ => True
  | _ => False

/-- The simple command contains a variable reference. -/
def HasVar (s : Simple) : Prop := IsVar s.name ∨ ∃ sep w, Arg.word sep w ∈ s.args ∧ IsVar w

theorem IsVar.dollar {w : Word} (h : IsVar w) : '$' ∈ w.text := by
  cases w <;> simp_all [IsVar, Word.text]

theorem fill_of_not {w : Word} (h : ¬ IsVar w) (σ) : w.fill σ = w := by
  cases w <;> simp_all [IsVar, Word.fill]

theorem mapW_of_not {s : Simple} (h : ¬ HasVar s) (σ) : s.mapW (Word.fill σ) = s := by
  obtain ⟨n, as⟩ := s
  simp only [HasVar, not_or] at h
  simp only [Simple.mapW, fill_of_not h.1]
  congr 1
  have h2 := h.2
  clear h
  induction as with
  | nil => rfl
  | cons a as ih =>
    rw [List.map_cons, ih]
    · congr 1
      cases a with
      | word sep w =>
        simp only [Arg.mapW]
        rw [fill_of_not]
        exact fun hv => h2 ⟨sep, w, by simp, hv⟩
      | redir => rfl
    · rintro ⟨sep, w, hm, hv⟩
      exact h2 ⟨sep, w, List.mem_cons_of_mem _ hm, hv⟩

theorem atom_needs {x : Pair R} {w : List Char} (ht : x.text = w) (hd : '$' ∈ w)
    (h : x.rule = .word ∨ x.rule = .s_quoted ∨ x.rule = .d_quoted ∨ x.rule = .variable) :
    needsExpansion E x = true := by
  obtain ⟨r, t, ps⟩ := x
  simp only [rule_mk, text_mk] at h ht
  subst ht
  rcases h with rfl | rfl | rfl | rfl <;> simp [needsExpansion, hd]

theorem args_needs {as : List Arg} {qs : List (Pair R)} (h : ArgsDen as qs) {sep w}
    (hm : Arg.word sep w ∈ as) (hv : IsVar w) : needsAny E qs = true := by
  induction h with
  | nil => simp at hm
  | @cons a q as qs h _ ih =>
    rcases List.mem_cons.1 hm with rfl | hm
    · obtain ⟨x, rfl, -, hxt, hr⟩ := h
      simp [needsAny, needsExpansion, atom_needs hxt hv.dollar hr]
    · simp [needsAny, ih hm]

theorem simple_needs {s : Simple} {p : Pair R} (h : SimpleDen s p) (hv : HasVar s) :
    needsExpansion E p = true := by
  obtain ⟨r, t0, inner⟩ := p
  have hr := h.rule
  obtain ⟨t, x, rest, hi, -, -, hxt, hx, qs, hqs, hrest⟩ := h.inner
  simp only [rule_mk, inner_mk] at hr hi
  subst hr hi
  rcases hv with hv | ⟨sep, w, hm, hv⟩
  · simp [needsExpansion, needsAny, atom_needs hxt hv.dollar hx]
  · rcases hrest with ⟨ha, rfl⟩ | ⟨t', rfl⟩
    · simp [ha] at hm
    · simp [needsExpansion, needsAny, args_needs hqs hm hv]

theorem needsAny_of_mem {ps : List (Pair R)} {p : Pair R} (hm : p ∈ ps) (h : needsExpansion E p = true) :
    needsAny E ps = true := by
  induction ps with
  | nil => simp at hm
  | cons q ps ih =>
    rcases List.mem_cons.1 hm with rfl | hm
    · simp [needsAny, h]
    · simp [needsAny, ih hm]

theorem bgs_needs {bs : List (Simple × List Char × List Char)} {ps : List (Pair R)} (h : BgsDen bs ps)
    {b} (hm : b ∈ bs) (hv : HasVar b.1) : needsAny E ps = true := by
  induction h with
  | nil => simp at hm
  | @cons b' p t o bs ps hp _ _ ih =>
    rcases List.mem_cons.1 hm with rfl | hm
    · simp [needsAny, needsExpansion, simple_needs hp hv]
    · simp [needsAny, ih hm]

theorem pipes_needs {st : List (List Char × List Char × Simple)} {ps : List (Pair R)} (h : PipesDen st ps)
    {b} (hm : b ∈ st) (hv : HasVar b.2.2) : needsAny E ps = true := by
  induction h with
  | nil => simp at hm
  | @cons b' p t o bs ps hp _ ih =>
    rcases List.mem_cons.1 hm with rfl | hm
    · simp [needsAny, needsExpansion, simple_needs hp hv]
    · simp [needsAny, ih hm]

theorem needsAny_append (a b : List (Pair R)) : needsAny E (a ++ b) = (needsAny E a || needsAny E b) := by
  induction a with
  | nil => simp [needsAny]
  | cons x a ih => simp [needsAny, ih, Bool.or_assoc]

theorem cmd_needs {c : Cmd} {ps : List (Pair R)} (h : CmdDen c ps) {s} (hm : s ∈ c.simples)
    (hv : HasVar s) : needsAny E ps = true := by
  cases h with
  | bgOnly h =>
    simp only [Cmd.simples, List.append_nil, List.mem_map] at hm
    obtain ⟨b, hb, rfl⟩ := hm
    exact bgs_needs h hb hv
  | main h1 h2 h3 =>
    simp only [Cmd.simples, List.mem_append, List.mem_cons, List.mem_map] at hm
    rw [needsAny_append]
    rcases hm with ⟨b, hb, rfl⟩ | rfl | ⟨b, hb, rfl⟩
    · rw [bgs_needs h1 hb hv]; rfl
    · simp [needsAny, simple_needs h2 hv]
    · simp [needsAny, pipes_needs h3 hb hv]

theorem rest_needs {l : List (List Char × Sep × List Char × Cmd)} {ps : List (Pair R)} (h : RestDen l ps)
    {r} (hr : r ∈ l) {s} (hm : s ∈ r.2.2.2.simples) (hv : HasVar s) : needsAny E ps = true := by
  induction h with
  | nil => simp at hr
  | cons h _ _ ih =>
    rcases List.mem_cons.1 hr with rfl | hr
    · simp [needsAny, needsExpansion, cmd_needs h hm hv]
    · simp [needsAny, ih hr]

theorem simple_dollar {s : Simple} (hv : HasVar s) : '$' ∈ s.text := by
  unfold Simple.text
  rcases hv with hv | ⟨sep, w, hm, hv⟩
  · exact List.mem_append_left _ hv.dollar
  · apply List.mem_append_right
    exact List.mem_flatten_of_mem (List.mem_map_of_mem hm) (by simp [Arg.text, hv.dollar])

theorem cmd_dollar {c : Cmd} {s} (hm : s ∈ c.simples) {x : Char} (hx : x ∈ s.text) : x ∈ c.text := by
  obtain ⟨bs, m⟩ := c
  simp only [Cmd.simples, List.mem_append, List.mem_map] at hm
  unfold Cmd.text
  rcases hm with ⟨b, hb, rfl⟩ | hm
  · apply List.mem_append_left
    exact List.mem_flatten_of_mem (List.mem_map_of_mem hb) (List.mem_append_left _ hx)
  · apply List.mem_append_right
    cases m with
    | none => simp at hm
    | some m =>
      obtain ⟨s0, st⟩ := m
      simp only [List.mem_cons, List.mem_map] at hm
      rcases hm with rfl | ⟨b, hb, rfl⟩
      · exact List.mem_append_left _ hx
      · apply List.mem_append_right
        exact List.mem_flatten_of_mem (List.mem_map_of_mem hb) (by simp [hx])

theorem rest_dollar {l : List (List Char × Sep × List Char × Cmd)} {r} (hr : r ∈ l) {x : Char}
    (hx : x ∈ r.2.2.2.text) (trail) : x ∈ restText l trail := by
  induction l with
  | nil => simp at hr
  | cons r' l ih =>
    obtain ⟨g, s, g', c⟩ := r'
    rcases List.mem_cons.1 hr with rfl | hr
    · simp only [restText, List.mem_append]; exact .inr (.inr (.inr (.inl hx)))
    · simp [restText, ih hr]

theorem line_dollar {l : Line} {s} (hm : s ∈ l.simples) (hv : HasVar s) : '$' ∈ l.text := by
  simp only [Line.simples, Line.cmds, List.flatMap_cons, List.mem_append, List.mem_flatMap, List.mem_map] at hm
  unfold Line.text
  apply List.mem_append_right
  rcases hm with hm | ⟨c, ⟨r, hr, rfl⟩, hm⟩
  · exact List.mem_append_left _ (cmd_dollar hm (simple_dollar hv))
  · exact List.mem_append_right _ (rest_dollar hr (cmd_dollar hm (simple_dollar hv)) _)

theorem mapW_cmd_of_not {c : Cmd} {f} (h : ∀ s ∈ c.simples, s.mapW f = s) : c.mapW f = c := by
  obtain ⟨bs, m⟩ := c
  simp only [Cmd.simples, List.mem_append, List.mem_map] at h
  have h1 : bs.map (fun b => (b.1.mapW f, b.2)) = bs := by
    conv_rhs => rw [← List.map_id bs]
    apply List.map_congr_left
    intro b hb
    rw [h b.1 (.inl ⟨b, hb, rfl⟩)]; rfl
  simp only [Cmd.mapW, h1]
  congr 1
  cases m with
  | none => rfl
  | some m =>
    obtain ⟨s, st⟩ := m
    simp only [List.mem_cons, List.mem_map] at h
    have h2 : st.map (fun b => (b.1, b.2.1, b.2.2.mapW f)) = st := by
      conv_rhs => rw [← List.map_id st]
      apply List.map_congr_left
      intro b hb
      rw [h b.2.2 (.inr (.inr ⟨b, hb, rfl⟩))]; rfl
    simp only [Option.map_some, h2, h s (.inr (.inl rfl))]

theorem mapW_line_of_not {l : Line} {f} (h : ∀ s ∈ l.simples, s.mapW f = s) : l.mapW f = l := by
  obtain ⟨lead, first, rest, trail⟩ := l
  simp only [Line.simples, Line.cmds, List.flatMap_cons, List.mem_append, List.mem_flatMap, List.mem_map] at h
  have h1 : rest.map (fun r => (r.1, r.2.1, r.2.2.1, r.2.2.2.mapW f)) = rest := by
    conv_rhs => rw [← List.map_id rest]
    apply List.map_congr_left
    intro r hr
    rw [mapW_cmd_of_not (fun s hs => h s (.inr ⟨_, ⟨r, hr, rfl⟩, hs⟩))]; rfl
  simp only [Line.mapW, h1, mapW_cmd_of_not (fun s hs => h s (.inl hs))]

/-- The jobs of a line, with expansion: those of the line with its variables filled in.  The jobs
are labelled with the texts of the line as typed (if nothing was expanded) or of its expansion. -/
theorem line_jobs_labels {W : World} {l : Line} (h : l.ok = true) (hf : FitLine E l)
    (hr : ∀ s ∈ (l.mapW (Word.fill (valOf E))).simples, Runs W s) (id : Nat) :
    ∃ js id', lineJobs E W id l.text = some (js, id') ∧
      RealizesAll js (l.mapW (Word.fill (valOf E))).want ∧
      (LabelsAll l.cmds (js.map Job.cmd) ∨ LabelsAll (normLine E l).cmds (js.map Job.cmd)) := by
  obtain ⟨t, ps, qs, h1, h2, h3, htx⟩ := line_ok h (fin := []) (.inl rfl)
  unfold PE at h1
  rw [List.append_nil] at h1
  have hp : parseCommands l.text = .ok [.mk .commands l.text (.mk .command t ps :: qs)] l.text [] :=
    parse_eq wf h1
  have hplain : (∀ s ∈ l.simples, ¬ HasVar s) →
      ∃ js id', getJobs W { foreground := true } id l.text = some (js, id') ∧
        RealizesAll js (l.mapW (Word.fill (valOf E))).want ∧
        (LabelsAll l.cmds (js.map Job.cmd) ∨ LabelsAll (normLine E l).cmds (js.map Job.cmd)) := by
    intro hno
    have hid : l.mapW (Word.fill (valOf E)) = l := mapW_line_of_not (fun s hs => mapW_of_not (hno s hs) _)
    rw [hid] at hr ⊢
    obtain ⟨js, id', h4, h5, h6⟩ := line_jobs (ctx := { foreground := true }) h hr ⟨rfl, rfl, rfl⟩ id
    exact ⟨js, id', h4, h5, .inl h6⟩
  unfold lineJobs expandLine
  rw [hp]
  simp only
  by_cases hc : (!hasMeta l.text && E.noAlias) = true
  · rw [if_pos hc]
    apply hplain
    intro s hs hv
    have hd := line_dollar hs hv
    simp [hasMeta, hd] at hc
  · rw [if_neg hc]
    by_cases hn : needsAny E [.mk .commands l.text (.mk .command t ps :: qs)] = true
    · rw [if_pos hn, expand_text h hf h2 h3]
      simp only
      rw [← normLine_want]
      suffices hrn : ∀ s ∈ (normLine E l).simples, Runs W s by
        obtain ⟨js, id', h4, h5, h6⟩ :=
          line_jobs (ctx := { foreground := true }) (normLine_ok hf h) hrn ⟨rfl, rfl, rfl⟩ id
        exact ⟨js, id', h4, h5, .inr h6⟩
      intro s hs
      rw [normLine_simples] at hs
      obtain ⟨s0, hs0, rfl⟩ := List.mem_map.1 hs
      have h9 := hr (s0.mapW (Word.fill (valOf E))) (by rw [mapW_simples]; exact List.mem_map_of_mem hs0)
      have h10 := norm_same (E := E) s0
      unfold Runs at h9 ⊢
      rw [h10.2.2]
      exact h9
    · rw [if_neg hn]
      apply hplain
      intro s hs hv
      apply hn
      simp only [Line.simples, Line.cmds, List.flatMap_cons, List.mem_append, List.mem_flatMap, List.mem_map] at hs
      rcases hs with hs | ⟨c, ⟨r, hr', rfl⟩, hs⟩
      · simp [needsAny, needsExpansion, cmd_needs h2 hs hv]
      · simp [needsAny, needsExpansion, rest_needs h3 hr' hs hv]

/-- The jobs of a line, with expansion: those of the line with its variables filled in. -/
theorem line_jobs_expanded {W : World} {l : Line} (h : l.ok = true) (hf : FitLine E l)
    (hr : ∀ s ∈ (l.mapW (Word.fill (valOf E))).simples, Runs W s) (id : Nat) :
    ∃ js id', lineJobs E W id l.text = some (js, id') ∧
      RealizesAll js (l.mapW (Word.fill (valOf E))).want :=
  let ⟨js, id', h1, h2, _⟩ := line_jobs_labels h hf hr id
  ⟨js, id', h1, h2⟩

end Dsh.Shell
