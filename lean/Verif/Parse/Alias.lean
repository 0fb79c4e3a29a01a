import Verif.Parse.Props
/-!
Aliases: what expansion makes of a well-formed line in which names of commands are aliases
(`dsh/src/parser/expansion.rs`, modelled in `Expand.lean`), and the built-in `alias`
(`dsh-builtin/src/alias.rs`).

The first part repeats the argument of `ExpandOk.lean` for any way `N` of spelling a simple command
that agrees with the tokens of expansion.
-/
namespace Dsh.Shell
open Dsh.Peg PExp Dsh.Syn

variable {E : Env} {N : Simple → Simple}

/-- `N` spells the tokens of the simple command, and well. -/
structure Good (E : Env) (N : Simple → Simple) (s : Simple) : Prop where
  glue : glue (stoks E s) = ' ' :: (N s).text
  ok : (N s).ok = true

/-- Background part; `more` says whether a pipeline follows. -/
def nBgs (N : Simple → Simple) (more : Bool) :
    List (Simple × List Char × List Char) → List (Simple × List Char × List Char)
  | [] => []
  | [b] => [(N b.1, [' '], if more then [' '] else [])]
  | b :: bs => (N b.1, [' '], [' ']) :: nBgs N more bs
/-- Further stages. -/
def nStages (N : Simple → Simple) (st : List (List Char × List Char × Simple)) :
    List (List Char × List Char × Simple) :=
  st.map (fun b => ([' '], [' '], N b.2.2))
/-- A command with single blanks. -/
def nCmd (N : Simple → Simple) (c : Cmd) : Cmd :=
  ⟨nBgs N c.main.isSome c.bgs, c.main.map (fun m => (N m.1, nStages N m.2))⟩
/-- The rest of a line with single blanks. -/
def nRest (N : Simple → Simple) (l : List (List Char × Sep × List Char × Cmd)) :
    List (List Char × Sep × List Char × Cmd) :=
  l.map (fun r => ([' '], r.2.1, [' '], nCmd N r.2.2.2))
/-- A line with single blanks. -/
def nLine (N : Simple → Simple) (l : Line) : Line := ⟨[], nCmd N l.first, nRest N l.rest, []⟩

/-- Every simple command of the line is spelled well; background commands have no redirect. -/
structure GoodLine (E : Env) (N : Simple → Simple) (l : Line) : Prop where
  simples : ∀ s ∈ l.simples, Good E N s
  bg : ∀ c ∈ l.cmds, ∀ b ∈ c.bgs, b.1.redirect = none

theorem n_bgs_glue {bs : List (Simple × List Char × List Char)} (hf : ∀ b ∈ bs, Good E N b.1)
    (hok : ∀ b ∈ bs, b.1.ok = true)
    (more : Bool) (rest : List Char) (hne : bs ≠ []) :
    glue (bs.flatMap (fun b => stoks E b.1 ++ [c!"&"])) ++ (if more then ' ' :: rest else rest) =
      ' ' :: (bgsText (nBgs N more bs) ++ rest) := by
  induction bs with
  | nil => exact absurd rfl hne
  | cons b bs ih =>
    have hb := (hf b (by simp)).glue
    cases bs with
    | nil =>
      simp only [List.flatMap_cons, List.flatMap_nil, List.append_nil, glue_append, hb, nBgs, bgsText]
      cases more <;> simp [glue]
    | cons b' bs =>
      have ih := ih (fun b hb => hf b (List.mem_cons_of_mem _ hb))
        (fun b hb => hok b (List.mem_cons_of_mem _ hb)) (by simp)
      rw [List.flatMap_cons, glue_append, List.append_assoc, ih, glue_append, hb]
      simp [nBgs, bgsText, glue]

theorem n_stages_glue {st : List (List Char × List Char × Simple)} (hf : ∀ b ∈ st, Good E N b.2.2)
    (hok : ∀ b ∈ st, b.2.2.ok = true) :
    glue (st.flatMap (fun b => c!"|" :: stoks E b.2.2)) = stagesText (nStages N st) := by
  induction st with
  | nil => rfl
  | cons b st ih =>
    have hb := (hf b (by simp)).glue
    have ih := ih (fun b hb => hf b (List.mem_cons_of_mem _ hb))
        (fun b hb => hok b (List.mem_cons_of_mem _ hb))
    rw [List.flatMap_cons, glue_append, ih, glue_cons, hb]
    simp [stagesText, nStages]

theorem n_cmd_glue {c : Cmd} (hf : ∀ s ∈ c.simples, Good E N s)
    (hok : c.ok = true) :
    glue (ctoks E c) = ' ' :: (nCmd N c).text := by
  obtain ⟨bs, m⟩ := c
  simp only [Cmd.ok, Bool.and_eq_true, List.all_eq_true] at hok
  obtain ⟨⟨hne, hbs⟩, hm⟩ := hok
  have hfb : ∀ b ∈ bs, Good E N b.1 := fun b hb => hf _ (by
    simp only [Cmd.simples, List.mem_append, List.mem_map]; exact .inl ⟨b, hb, rfl⟩)
  have hob : ∀ b ∈ bs, b.1.ok = true := fun b hb => by
    exact (hbs b hb).1.1
  unfold ctoks
  rw [glue_append]
  cases m with
  | none =>
    have hne : bs ≠ [] := by simpa using hne
    have := n_bgs_glue hfb hob false [] hne
    simpa [nCmd, Cmd.text, mainText, glue] using this
  | some m =>
    obtain ⟨s, st⟩ := m
    simp only [Bool.and_eq_true, List.all_eq_true] at hm
    have hs := (hf s (by simp [Cmd.simples])).glue
    have hst := n_stages_glue (st := st) (fun b hb => hf _ (by
        simp only [Cmd.simples, List.mem_append, List.mem_cons, List.mem_map]
        exact .inr (.inr ⟨b, hb, rfl⟩))) (fun b hb => by
        have := hm.2 b hb; exact this.1.2)
    simp only [glue_append, hs, hst]
    cases bs with
    | nil => simp [glue, nCmd, nBgs, Cmd.text, bgsText, mainText]
    | cons b bs =>
      have := n_bgs_glue hfb hob true ((N s).text ++ stagesText (nStages N st)) (by simp)
      simp only [if_true] at this
      rw [show (' ' :: (N s).text ++ stagesText (nStages N st)) =
        ' ' :: ((N s).text ++ stagesText (nStages N st)) from rfl, this]
      simp [nCmd, Cmd.text, mainText]

theorem n_rest_glue {l : List (List Char × Sep × List Char × Cmd)}
    (hf : ∀ r ∈ l, ∀ s ∈ r.2.2.2.simples, Good E N s)
    (hok : ∀ r ∈ l, r.2.2.2.ok = true) :
    glue (rtoks E l) = restText (nRest N l) [] := by
  induction l with
  | nil => rfl
  | cons r l ih =>
    have ih := ih (fun r hr => hf r (List.mem_cons_of_mem _ hr))
      (fun r hr => hok r (List.mem_cons_of_mem _ hr))
    have hc := n_cmd_glue (hf r (by simp)) (hok r (by simp))
    have : rtoks E (r :: l) = (r.2.1.text :: ctoks E r.2.2.2) ++ rtoks E l := by simp [rtoks]
    rw [this, glue_append, ih, glue_cons, hc]
    simp [nRest, restText]

/-- The expanded text is the normal form. -/
theorem n_expand_text {l : Line} (h : l.ok = true) (hf : GoodLine E N l) {t ps qs}
    (h2 : CmdDen l.first ps) (h3 : RestDen l.rest qs) :
    expandPairs E [.mk .commands l.text (.mk .command t ps :: qs)] = (nLine N l).text := by
  simp only [Line.ok, Bool.and_eq_true] at h
  unfold expandPairs
  apply join_glue'
  simp only [List.flatMap_cons, List.flatMap_nil, List.append_nil, inner_mk]
  rw [cmd_toks h2 (fun b hb => hf.bg l.first (by simp [Line.cmds]) b hb),
    rest_toks h3 (fun r hr => hf.bg _ (by
      simp only [Line.cmds, List.mem_cons, List.mem_map]; exact .inr ⟨r, hr, rfl⟩)),
    glue_append, n_cmd_glue (fun s hs => hf.simples s (by
      simp only [Line.simples, Line.cmds, List.flatMap_cons, List.mem_append]; exact .inl hs)) h.1.1.2,
    n_rest_glue (fun r hr s hs => hf.simples s (by
      simp only [Line.simples, Line.cmds, List.flatMap_cons, List.mem_append, List.mem_flatMap, List.mem_map]
      exact .inr ⟨_, ⟨r, hr, rfl⟩, hs⟩)) (restOk_cmds h.1.2)]
  simp [nLine, Line.text]

theorem nBgs_ok {bs : List (Simple × List Char × List Char)} (hf : ∀ b ∈ bs, Good E N b.1)
    (hok : ∀ b ∈ bs, b.1.ok = true) (more : Bool) :
    (nBgs N more bs).all (fun b => b.1.ok && b.2.1.all isBlank && b.2.2.all isBlank) = true := by
  induction bs with
  | nil => rfl
  | cons b bs ih =>
    have hb := (hf b (by simp)).ok
    have ih := ih (fun b hb => hf b (List.mem_cons_of_mem _ hb)) (fun b hb => hok b (List.mem_cons_of_mem _ hb))
    cases bs with
    | nil => cases more <;> simp [nBgs, hb, isBlank]
    | cons b' bs => simp [nBgs] at ih ⊢; simp [hb, isBlank]; simpa [isBlank] using ih

theorem nBgs_ne {bs : List (Simple × List Char × List Char)} (h : bs ≠ []) (more) :
    nBgs N more bs ≠ [] := by
  cases bs with
  | nil => exact absurd rfl h
  | cons b bs => cases bs <;> simp [nBgs]

theorem nCmd_ok {c : Cmd} (hf : ∀ s ∈ c.simples, Good E N s) (hok : c.ok = true) :
    (nCmd N c).ok = true := by
  obtain ⟨bs, m⟩ := c
  simp only [Cmd.ok, Bool.and_eq_true, List.all_eq_true] at hok
  obtain ⟨⟨hne, hbs⟩, hm⟩ := hok
  have hfb : ∀ b ∈ bs, Good E N b.1 := fun b hb => hf _ (by
    simp only [Cmd.simples, List.mem_append, List.mem_map]; exact .inl ⟨b, hb, rfl⟩)
  have hob : ∀ b ∈ bs, b.1.ok = true := fun b hb => by
    exact (hbs b hb).1.1
  simp only [Cmd.ok, nCmd, Bool.and_eq_true]
  refine ⟨⟨?_, nBgs_ok hfb hob _⟩, ?_⟩
  · cases m with
    | some m => simp
    | none =>
      have hne : bs ≠ [] := by simpa using hne
      simp only [Option.map_none, Option.isSome_none, Bool.or_false]
      exact decide_eq_true (nBgs_ne hne false)
  · cases m with
    | none => rfl
    | some m =>
      obtain ⟨s, st⟩ := m
      simp only [Bool.and_eq_true, List.all_eq_true] at hm
      simp only [Option.map_some, Bool.and_eq_true, nStages, List.all_map, List.all_eq_true]
      refine ⟨(hf s (by simp [Cmd.simples])).ok, ?_⟩
      intro b hb
      have := (hf b.2.2 (by
        simp only [Cmd.simples, List.mem_append, List.mem_cons, List.mem_map]
        exact .inr (.inr ⟨b, hb, rfl⟩))).ok
      simp [this, isBlank]

theorem nRest_ok {prev prev' : Cmd} {l : List (List Char × Sep × List Char × Cmd)}
    (hf : ∀ r ∈ l, ∀ s ∈ r.2.2.2.simples, Good E N s) (h : restOk prev l = true) :
    restOk prev' (nRest N l) = true := by
  induction l generalizing prev prev' with
  | nil => rfl
  | cons r l ih =>
    obtain ⟨g, s, g', c⟩ := r
    simp only [restOk, Bool.and_eq_true] at h
    have hc := nCmd_ok (hf (g, s, g', c) (by simp)) h.1.2
    have ih := ih (prev' := nCmd N c) (fun r hr => hf r (List.mem_cons_of_mem _ hr)) h.2
    simp only [nRest, List.map_cons, restOk, Bool.and_eq_true] at ih ⊢
    exact ⟨⟨⟨by simp [sepOk, isBlank], by simp [isBlank]⟩, hc⟩, ih⟩

theorem nLine_ok {l : Line} (hf : GoodLine E N l) (h : l.ok = true) : (nLine N l).ok = true := by
  simp only [Line.ok, Bool.and_eq_true] at h
  simp only [Line.ok, nLine, Bool.and_eq_true]
  refine ⟨⟨⟨by simp, nCmd_ok (fun s hs => hf.simples s (by
      simp only [Line.simples, Line.cmds, List.flatMap_cons, List.mem_append]; exact .inl hs)) h.1.1.2⟩,
    nRest_ok (fun r hr s hs => hf.simples s (by
      simp only [Line.simples, Line.cmds, List.flatMap_cons, List.mem_append, List.mem_flatMap, List.mem_map]
      exact .inr ⟨_, ⟨r, hr, rfl⟩, hs⟩)) h.1.2⟩, by simp⟩

theorem nBgs_simples (bs : List (Simple × List Char × List Char)) (more) :
    (nBgs N more bs).map (·.1) = bs.map (fun b => N b.1) := by
  induction bs with
  | nil => rfl
  | cons b bs ih => cases bs with
    | nil => rfl
    | cons b' bs => simp only [nBgs, List.map_cons] at ih ⊢; rw [ih]

theorem nCmd_simples (c : Cmd) : (nCmd N c).simples = c.simples.map (N) := by
  obtain ⟨bs, m⟩ := c
  simp only [Cmd.simples, nCmd, nBgs_simples, List.map_append, List.map_map, Function.comp_def]
  congr 1
  cases m with
  | none => rfl
  | some m => simp [nStages, Function.comp_def]

theorem nLine_simples (l : Line) : (nLine N l).simples = l.simples.map (N) := by
  simp only [Line.simples, Line.cmds, nLine, nRest, List.map_map, List.flatMap_cons,
    List.map_append, nCmd_simples, Function.comp_def]
  congr 1
  simp [List.flatMap, Function.comp_def, nCmd_simples, List.map_flatten]



/-- Replace every simple command of a command. -/
def _root_.Dsh.Syn.Cmd.mapS (g : Simple → Simple) (c : Cmd) : Cmd :=
  ⟨c.bgs.map (fun b => (g b.1, b.2)),
   c.main.map (fun m => (g m.1, m.2.map (fun b => (b.1, b.2.1, g b.2.2))))⟩
/-- Replace every simple command of a line. -/
def _root_.Dsh.Syn.Line.mapS (g : Simple → Simple) (l : Line) : Line :=
  { l with first := l.first.mapS g, rest := l.rest.map (fun r => (r.1, r.2.1, r.2.2.1, r.2.2.2.mapS g)) }

variable {M : Simple → Simple}

theorem nBgs_want (h : ∀ s, SameS (N s) (M s)) (bs : List (Simple × List Char × List Char)) (more) :
    (nBgs N more bs).map (fun b => (⟨[b.1.argv], true, b.1.redirect, .seq⟩ : Want)) =
    bs.map (fun b => ⟨[(M b.1).argv], true, (M b.1).redirect, .seq⟩) := by
  induction bs with
  | nil => rfl
  | cons b bs ih =>
    have hb := h b.1
    cases bs with
    | nil => simp [nBgs, hb.1, hb.2.1]
    | cons b' bs => simp only [nBgs, List.map_cons, hb.1, hb.2.1]; congr 1

theorem nCmd_want (h : ∀ s, SameS (N s) (M s)) (c : Cmd) : (nCmd N c).want = (c.mapS M).want := by
  obtain ⟨bs, m⟩ := c
  unfold Cmd.want
  simp only [nCmd, Cmd.mapS, nBgs_want h, List.map_map, Function.comp_def]
  congr 1
  cases m with
  | none => rfl
  | some m =>
    obtain ⟨s, st⟩ := m
    have hs := h s
    simp only [Option.map_some, nStages, List.map_map, Function.comp_def]
    congr 2
    · rw [hs.1]
      congr 1
      apply List.map_congr_left
      intro b _
      exact (h b.2.2).1
    · rw [lastRedir_cons, lastRedir_cons, hs.2.1]
      congr 1
      exact lastRedir_congr st _ _ (fun b _ => (h b.2.2).2.1)

theorem nRest_want (h : ∀ s, SameS (N s) (M s)) (c : Cmd) (l : List (List Char × Sep × List Char × Cmd)) :
    restWant (nCmd N c) (nRest N l) = restWant (c.mapS M)
      (l.map (fun r => (r.1, r.2.1, r.2.2.1, r.2.2.2.mapS M))) := by
  induction l generalizing c with
  | nil => simp only [nRest, List.map_nil, restWant]; exact nCmd_want h c
  | cons r l ih =>
    simp only [nRest, List.map_cons, restWant, nCmd_want h]
    congr 1
    exact ih _

theorem nLine_want (h : ∀ s, SameS (N s) (M s)) (l : Line) : (nLine N l).want = (l.mapS M).want :=
  nRest_want h _ _

theorem mapS_cmd_simples (g) (c : Cmd) : (c.mapS g).simples = c.simples.map g := by
  obtain ⟨bs, m⟩ := c
  simp only [Cmd.simples, Cmd.mapS, List.map_map, List.map_append, Function.comp_def]
  congr 1
  cases m with
  | none => rfl
  | some m => simp [Function.comp_def]

theorem mapS_simples (g) (l : Line) : (l.mapS g).simples = l.simples.map g := by
  simp only [Line.simples, Line.cmds, Line.mapS, List.map_map, List.flatMap_cons,
    List.map_append, mapS_cmd_simples, Function.comp_def]
  congr 1
  simp [List.flatMap, Function.comp_def, mapS_cmd_simples, List.map_flatten]

theorem mapS_mapW (g : Simple → Simple) (f : Word → Word) (l : Line) :
    (l.mapS g).mapW f = l.mapS (fun s => (g s).mapW f) := by
  have hc : ∀ c : Cmd, (c.mapS g).mapW f = c.mapS (fun s => (g s).mapW f) := by
    rintro ⟨bs, m⟩
    simp only [Cmd.mapS, Cmd.mapW, List.map_map, Function.comp_def]
    cases m <;> simp [Function.comp_def]
  simp only [Line.mapS, Line.mapW, hc, List.map_map, Function.comp_def]

theorem mapS_of_same {g : Simple → Simple} {l : Line} (h : ∀ s ∈ l.simples, g s = s) : l.mapS g = l := by
  have hc : ∀ c : Cmd, (∀ s ∈ c.simples, g s = s) → c.mapS g = c := by
    rintro ⟨bs, m⟩ h
    simp only [Cmd.simples, List.mem_append, List.mem_map] at h
    have h1 : bs.map (fun b => (g b.1, b.2)) = bs := by
      conv_rhs => rw [← List.map_id bs]
      apply List.map_congr_left
      intro b hb
      rw [h b.1 (.inl ⟨b, hb, rfl⟩)]; rfl
    simp only [Cmd.mapS, h1]
    congr 1
    cases m with
    | none => rfl
    | some m =>
      obtain ⟨s, st⟩ := m
      simp only [List.mem_cons, List.mem_map] at h
      have h2 : st.map (fun b => (b.1, b.2.1, g b.2.2)) = st := by
        conv_rhs => rw [← List.map_id st]
        apply List.map_congr_left
        intro b hb
        rw [h b.2.2 (.inr (.inr ⟨b, hb, rfl⟩))]; rfl
      simp only [Option.map_some, h2, h s (.inr (.inl rfl))]
  obtain ⟨lead, first, rest, trail⟩ := l
  simp only [Line.simples, Line.cmds, List.flatMap_cons, List.mem_append, List.mem_flatMap, List.mem_map] at h
  have h1 : rest.map (fun r => (r.1, r.2.1, r.2.2.1, r.2.2.2.mapS g)) = rest := by
    conv_rhs => rw [← List.map_id rest]
    apply List.map_congr_left
    intro r hr
    rw [hc _ (fun s hs => h s (.inr ⟨_, ⟨r, hr, rfl⟩, hs⟩))]; rfl
  simp only [Line.mapS, h1, hc _ (fun s hs => h s (.inl hs))]

/-! ### Aliases -/

/-- What a line with aliases means: the name of the command is replaced by the words of the alias. -/
def useAlias (A : List Char → Option Simple) (s : Simple) : Simple :=
  match A s.name.text with
  | some a => ⟨a.name, a.args ++ s.args⟩
  | none => s

/-- The table of aliases, each read as a simple command without variables. -/
structure ReadAs (E : Env) (A : List Char → Option Simple) : Prop where
  ok : ∀ n a, A n = some a → a.ok = true ∧ ¬ HasVar a
  /-- the text of an alias is not the name of a variable -/
  text : ∀ n a, A n = some a → ∃ v, E.aliasOf n = some v ∧ trim v = a.text ∧ E.getVar a.text = none
  /-- the flag tells whether the table is empty -/
  flag : E.noAlias = true → ∀ n, E.aliasOf n = none

/-- A simple command that expansion treats as meant: its words fit; its name, if an alias, is written
plainly, and the alias is read as a simple command. -/
structure FitAlias (E : Env) (A : List Char → Option Simple) (s : Simple) : Prop where
  name : Fit E s.name
  trimmed : trim s.name.text = s.name.text
  aliased : ∀ v, E.aliasOf s.name.text = some v → s.name.value = s.name.text ∧ (A s.name.text).isSome = true
  words : ∀ sep w, Arg.word sep w ∈ s.args → Fit E w
  targets : ∀ sep k gap w, Arg.redir sep k gap w ∈ s.args → Fit E w

/-- A line that expansion treats as meant; background commands must have no redirect. -/
structure FitAliasLine (E : Env) (A : List Char → Option Simple) (l : Line) : Prop where
  simples : ∀ s ∈ l.simples, FitAlias E A s
  ops : ∀ k : Redir, E.getVar k.text = none
  bg : ∀ c ∈ l.cmds, ∀ b ∈ c.bgs, b.1.redirect = none

/-- The spelling of a simple command. -/
def aliasNorm (E : Env) (A : List Char → Option Simple) (s : Simple) : Simple :=
  match A s.name.text with
  | some a => ⟨a.name, a.args ++ s.args.map (normArg E)⟩
  | none => normSimple E s

variable {A : List Char → Option Simple}

theorem alias_good {s : Simple} (hA : ReadAs E A) (h : FitAlias E A s)
    (hops : ∀ k : Redir, E.getVar k.text = none) (hok : s.ok = true) : Good E (aliasNorm E A) s := by
  cases ha : A s.name.text with
  | none =>
    have hn : E.aliasOf s.name.text = none := by
      cases hv : E.aliasOf s.name.text with
      | none => rfl
      | some v => have := (h.aliased v hv).2; rw [ha] at this; cases this
    have hf : FitSimple E s := ⟨h.name, hn, h.trimmed, h.words, h.targets⟩
    have he : aliasNorm E A s = normSimple E s := by unfold aliasNorm; rw [ha]
    exact ⟨by rw [he]; exact simple_glue hf hops hok, by rw [he]; exact simple_norm_ok hf hok⟩
  | some a =>
    obtain ⟨v, hv, ht, hg⟩ := hA.text _ _ ha
    have he : aliasNorm E A s = ⟨a.name, a.args ++ s.args.map (normArg E)⟩ := by unfold aliasNorm; rw [ha]
    have htl : tilde E s.name.text = s.name.text := by
      have := h.name
      cases hn : s.name with
      | var n => rfl
      | bare ps => rw [hn] at this; exact this.1
      | sq s => rw [hn] at this; exact this.1
      | dq s => rw [hn] at this; exact this.1
    have h0 : (aliasFirst E [tilde E s.name.text]).map (expandVarArg E) = [a.text] := by
      rw [htl]
      simp only [aliasFirst, hv, ht, List.map_nil, List.map_cons, expandVarArg, hg, splice]
    simp only [Simple.ok, Bool.and_eq_true] at hok
    constructor
    · unfold stoks simpleToks
      rw [List.map_append, h0, glue_append, argToks_glue h.words h.targets hops hok.2, he]
      simp [_root_.Dsh.Shell.glue, Simple.text]
    · rw [he]
      have hao := (hA.ok _ _ ha).1
      simp only [Simple.ok, Bool.and_eq_true, List.all_append] at hao ⊢
      refine ⟨hao.1, hao.2, ?_⟩
      rw [List.all_map, List.all_eq_true]
      intro x hx
      exact arg_norm_ok (List.all_eq_true.1 hok.2 x hx) (fun sep w he => h.words sep w (he ▸ hx))

theorem alias_same (hA : ReadAs E A) (s : Simple) :
    SameS (aliasNorm E A s) ((useAlias A s).mapW (Word.fill (valOf E))) := by
  cases ha : A s.name.text with
  | none =>
    have h1 : aliasNorm E A s = normSimple E s := by unfold aliasNorm; rw [ha]
    have h2 : useAlias A s = s := by unfold useAlias; rw [ha]
    rw [h1, h2]
    exact norm_same s
  | some a =>
    have h1 : aliasNorm E A s = ⟨a.name, a.args ++ s.args.map (normArg E)⟩ := by unfold aliasNorm; rw [ha]
    have h2 : useAlias A s = ⟨a.name, a.args ++ s.args⟩ := by unfold useAlias; rw [ha]
    have h3 := mapW_of_not (hA.ok _ _ ha).2 (valOf E)
    have h4 : Word.fill (valOf E) a.name = a.name := congrArg Simple.name h3
    have h5 : a.args.map (Arg.mapW (Word.fill (valOf E))) = a.args := congrArg Simple.args h3
    obtain ⟨e1, e2, -⟩ := norm_same (E := E) ⟨a.name, s.args⟩
    simp only [Simple.argv, normSimple, Simple.mapW, List.cons.injEq] at e1
    simp only [Simple.redirect, normSimple, Simple.mapW] at e2
    have e3 : (s.args.map (normArg E)).filterMap Arg.redirVal =
        (s.args.map (Arg.mapW (Word.fill (valOf E)))).filterMap Arg.redirVal := by
      clear e1 e2
      generalize s.args = as
      induction as with
      | nil => rfl
      | cons a as ih =>
        simp only [List.map_cons, List.filterMap_cons, ih]
        cases a <;> simp only [normArg, Arg.mapW, Arg.redirVal]
    rw [h1, h2]
    refine ⟨?_, ?_, ?_⟩
    · simp only [Simple.argv, Simple.mapW, List.map_append, List.filterMap_append, h4, h5, e1.2]
    · simp only [Simple.redirect, Simple.mapW, List.map_append, List.filterMap_append, h5, e3]
    · simp only [Simple.mapW, h4]

/-- The simple command is changed by expansion. -/
def Touched (E : Env) (s : Simple) : Prop :=
  HasVar s ∨ (s.name.value = s.name.text ∧ (E.aliasOf s.name.text).isSome = true)

theorem touched_simple {s : Simple} {p : Pair R} (h : SimpleDen s p) (hv : Touched E s) :
    needsExpansion E p = true := by
  rcases hv with hv | ⟨hn, ha⟩
  · exact simple_needs h hv
  · obtain ⟨r, t0, inner⟩ := p
    have hr := h.rule
    obtain ⟨t, x, rest, hi, hxv, -, hxt, hx, qs, hqs, hrest⟩ := h.inner
    simp only [rule_mk, inner_mk] at hr hi
    subst hr hi
    have hg : getString (.mk .span t [x]) = s.name.text := by
      rw [← hn, ← hxv]; rfl
    simp [needsExpansion, needsAny, hg, ha]

theorem touched_bgs {bs : List (Simple × List Char × List Char)} {ps : List (Pair R)} (h : BgsDen bs ps)
    {b} (hm : b ∈ bs) (hv : Touched E b.1) : needsAny E ps = true := by
  induction h with
  | nil => simp at hm
  | @cons b' p t o bs ps hp _ _ ih =>
    rcases List.mem_cons.1 hm with rfl | hm
    · simp [needsAny, needsExpansion, touched_simple hp hv]
    · simp [needsAny, ih hm]

theorem touched_pipes {st : List (List Char × List Char × Simple)} {ps : List (Pair R)} (h : PipesDen st ps)
    {b} (hm : b ∈ st) (hv : Touched E b.2.2) : needsAny E ps = true := by
  induction h with
  | nil => simp at hm
  | @cons b' p t o bs ps hp _ ih =>
    rcases List.mem_cons.1 hm with rfl | hm
    · simp [needsAny, needsExpansion, touched_simple hp hv]
    · simp [needsAny, ih hm]

theorem touched_cmd {c : Cmd} {ps : List (Pair R)} (h : CmdDen c ps) {s} (hm : s ∈ c.simples)
    (hv : Touched E s) : needsAny E ps = true := by
  cases h with
  | bgOnly h =>
    simp only [Cmd.simples, List.append_nil, List.mem_map] at hm
    obtain ⟨b, hb, rfl⟩ := hm
    exact touched_bgs h hb hv
  | main h1 h2 h3 =>
    simp only [Cmd.simples, List.mem_append, List.mem_cons, List.mem_map] at hm
    rw [needsAny_append]
    rcases hm with ⟨b, hb, rfl⟩ | rfl | ⟨b, hb, rfl⟩
    · rw [touched_bgs h1 hb hv]; rfl
    · simp [needsAny, touched_simple h2 hv]
    · simp [needsAny, touched_pipes h3 hb hv]

theorem touched_rest {l : List (List Char × Sep × List Char × Cmd)} {ps : List (Pair R)} (h : RestDen l ps)
    {r} (hr : r ∈ l) {s} (hm : s ∈ r.2.2.2.simples) (hv : Touched E s) : needsAny E ps = true := by
  induction h with
  | nil => simp at hr
  | cons h _ _ ih =>
    rcases List.mem_cons.1 hr with rfl | hr
    · simp [needsAny, needsExpansion, touched_cmd h hm hv]
    · simp [needsAny, ih hr]

theorem cmd_simples_ok {c : Cmd} (h : c.ok = true) : ∀ s ∈ c.simples, s.ok = true := by
  obtain ⟨bs, m⟩ := c
  intro s hs
  simp only [Cmd.simples, List.mem_append, List.mem_map] at hs
  cases m with
  | none =>
    simp only [Cmd.ok, Bool.and_eq_true, List.all_eq_true] at h
    rcases hs with ⟨b, hb, rfl⟩ | hs
    · grind
    · simp at hs
  | some m =>
    obtain ⟨s0, st⟩ := m
    simp only [Cmd.ok, Bool.and_eq_true, List.all_eq_true] at h
    rcases hs with ⟨b, hb, rfl⟩ | hs
    · grind
    · simp only [List.mem_cons, List.mem_map] at hs
      grind

theorem line_simples_ok {l : Line} (h : l.ok = true) : ∀ s ∈ l.simples, s.ok = true := by
  intro s hs
  simp only [Line.ok, Bool.and_eq_true, List.all_eq_true] at h
  simp only [Line.simples, Line.cmds, List.flatMap_cons, List.mem_append, List.mem_flatMap, List.mem_map] at hs
  rcases hs with hs | ⟨c, ⟨r, hr, rfl⟩, hs⟩
  · exact cmd_simples_ok h.1.1.2 s hs
  · exact cmd_simples_ok (restOk_cmds h.1.2 r hr) s hs

/-- **C124 (partial)**: a line in which names of commands are aliases runs what the line would run in which
each of these names is replaced by the words of its alias, in pipelines, lists and behind `&` alike, and the
variables are filled in; aliases are read once. (`ReadAs`, `FitAliasLine`: the alias is one simple command
without variables; no plain word is the name of a variable or begins with `~`.) -/
theorem C124_line_partial {W : World} {l : Line} (h : l.ok = true) (hA : ReadAs E A) (hf : FitAliasLine E A l)
    (hr : ∀ s ∈ ((l.mapS (useAlias A)).mapW (Word.fill (valOf E))).simples, Runs W s) (id : Nat) :
    ∃ js id', lineJobs E W id l.text = some (js, id') ∧
      RealizesAll js ((l.mapS (useAlias A)).mapW (Word.fill (valOf E))).want := by
  have hok : ∀ s ∈ l.simples, s.ok = true := line_simples_ok h
  have hg : GoodLine E (aliasNorm E A) l :=
    ⟨fun s hs => alias_good hA (hf.simples s hs) hf.ops (hok s hs), hf.bg⟩
  obtain ⟨t, ps, qs, h1, h2, h3, htx⟩ := line_ok h (fin := []) (.inl rfl)
  unfold PE at h1
  rw [List.append_nil] at h1
  have hp : parseCommands l.text = .ok [.mk .commands l.text (.mk .command t ps :: qs)] l.text [] :=
    parse_eq wf h1
  have hplain : (∀ s ∈ l.simples, ¬ Touched E s) →
      ∃ js id', getJobs W { foreground := true } id l.text = some (js, id') ∧
        RealizesAll js ((l.mapS (useAlias A)).mapW (Word.fill (valOf E))).want := by
    intro hno
    have h1 : l.mapS (useAlias A) = l := by
      apply mapS_of_same
      intro s hs
      unfold useAlias
      cases ha : A s.name.text with
      | none => rfl
      | some a =>
        obtain ⟨v, hv, -⟩ := hA.text _ _ ha
        exact (hno s hs (.inr ⟨((hf.simples s hs).aliased v hv).1, by rw [hv]; rfl⟩)).elim
    have hid : l.mapW (Word.fill (valOf E)) = l :=
      mapW_line_of_not (fun s hs => mapW_of_not (fun hv => hno s hs (.inl hv)) _)
    rw [h1, hid] at hr ⊢
    obtain ⟨js, id', h4, h5, h6⟩ := line_jobs (ctx := { foreground := true }) h hr ⟨rfl, rfl, rfl⟩ id
    exact ⟨js, id', h4, h5⟩
  unfold lineJobs expandLine
  rw [hp]
  simp only
  by_cases hc : (!hasMeta l.text && E.noAlias) = true
  · rw [if_pos hc]
    apply hplain
    simp only [Bool.and_eq_true, Bool.not_eq_true'] at hc
    rintro s hs (hv | ⟨-, hv⟩)
    · have hd := line_dollar hs hv
      simp [hasMeta, hd] at hc
    · rw [hA.flag hc.2] at hv; cases hv
  · rw [if_neg hc]
    by_cases hn : needsAny E [.mk .commands l.text (.mk .command t ps :: qs)] = true
    · rw [if_pos hn, n_expand_text h hg h2 h3]
      simp only
      rw [mapS_mapW, ← nLine_want (alias_same hA)]
      suffices hrn : ∀ s ∈ (nLine (aliasNorm E A) l).simples, Runs W s by
        obtain ⟨js, id', h4, h5, h6⟩ :=
          line_jobs (ctx := { foreground := true }) (nLine_ok hg h) hrn ⟨rfl, rfl, rfl⟩ id
        exact ⟨js, id', h4, h5⟩
      intro s hs
      rw [nLine_simples] at hs
      obtain ⟨s0, hs0, rfl⟩ := List.mem_map.1 hs
      have h9 := hr ((useAlias A s0).mapW (Word.fill (valOf E))) (by
        rw [mapS_mapW, mapS_simples]
        exact List.mem_map_of_mem (f := fun s => (useAlias A s).mapW (Word.fill (valOf E))) hs0)
      have h10 := alias_same hA s0
      unfold Runs at h9 ⊢
      rw [h10.2.2]
      exact h9
    · rw [if_neg hn]
      apply hplain
      intro s hs hv
      apply hn
      simp only [Line.simples, Line.cmds, List.flatMap_cons, List.mem_append, List.mem_flatMap, List.mem_map] at hs
      rcases hs with hs | ⟨c, ⟨r, hr', rfl⟩, hs⟩
      · simp [needsAny, needsExpansion, touched_cmd h2 hs hv]
      · simp [needsAny, needsExpansion, touched_rest h3 hr' hs hv]

end Dsh.Shell
