import Verif.Parse.Simple
/-!
How the grammar reads commands (background parts and pipelines) and command lists.
-/
namespace Dsh.Shell
open Dsh.Peg PExp Dsh.Syn

/-- The element of the first repetition of `command`. -/
abbrev cmdElt : PExp R :=
  .alt (.seq (.star (.rule .sp)) (.rule .simple_command_bg)) (.rule .simple_command)

/-- What may follow a whole command: the end, `;`, `&&`, `||` or `)`. -/
def CEnd (r : List Char) : Prop :=
  r = [] ∨ (∃ l, r = ';' :: l) ∨ (∃ l, r = ')' :: l) ∨ (∃ l, r = '&' :: '&' :: l) ∨
  (∃ l, r = '|' :: '|' :: l)

theorem CEnd.end {r} (h : CEnd r) : End r := by
  intro c r' he
  rcases h with rfl | ⟨l, rfl⟩ | ⟨l, rfl⟩ | ⟨l, rfl⟩ | ⟨l, rfl⟩ <;> simp at he <;>
    obtain ⟨rfl, rfl⟩ := he <;> simp

/-- Does not start with `&` or `>`. -/
def AmpOk (l : List Char) : Prop := ∀ c r, l = c :: r → c ≠ '&' ∧ c ≠ '>'

/-- What may follow a foreground simple command. -/
def FEnd (r : List Char) : Prop := CEnd r ∨ ∃ l, r = '|' :: l

theorem FEnd.end {r} (h : FEnd r) : End r := by
  rcases h with h | ⟨l, rfl⟩
  · exact h.end
  · intro c r' he
    simp at he
    obtain ⟨rfl, rfl⟩ := he
    simp

theorem background_fail {r} (h : FEnd r) : Parses G (.rule .background_op) r .fail := by
  apply ruleFail
  rcases h with (rfl | ⟨l, rfl⟩ | ⟨l, rfl⟩ | ⟨l, rfl⟩ | ⟨l, rfl⟩) | ⟨l, rfl⟩
  · exact fail_nil rfl rfl
  · exact fail_of_dead 1 rfl (by decide) _
  · exact fail_of_dead 1 rfl (by decide) _
  · exact .seq_fail1 (.neg_fail (PE.lit c!"&&" l))
  · exact fail_of_dead 1 rfl (by decide) _
  · exact fail_of_dead 1 rfl (by decide) _

theorem background_ok {l} (h : AmpOk l) :
    PE (.rule .background_op) ['&'] [.mk .background_op ['&'] []] l := by
  apply PE.rule _ rfl
  refine PE.seq (t1 := []) (p1 := []) (.neg_ok (lit2Fail _ ?_)) (.lit _ _)
  intro r he
  simp at he
  exact (h _ _ he).1 rfl

theorem simple_bg_fail {s : Simple} (h : s.ok = true) {g r} (hg : g.all isBlank = true)
    (hr : FEnd r) : Parses G (.rule .simple_command_bg) (s.text ++ (g ++ r)) .fail := by
  apply ruleFail
  obtain ⟨p, hp, _⟩ := simple_ok (g := []) (rest := g ++ r) h rfl ⟨g, r, rfl, hg, hr.end⟩
  exact .seq_fail2 hp (.seq_fail2 (gap_ok hg hr.end.noBlank) (background_fail hr))

theorem simple_bg_fail_end {r} (hr : End r) : Parses G (.rule .simple_command_bg) r .fail :=
  ruleFail (.seq_fail1 (simple_fail_end (g := []) rfl hr))

theorem cmdElt_fail {g r} (hg : g.all isBlank = true) (hr : End r) : Parses G cmdElt (g ++ r) .fail :=
  .alt_r (.seq_fail2 (gap_ok hg hr.noBlank) (simple_bg_fail_end hr)) (simple_fail_end hg hr)

theorem simple_noBlank {s : Simple} (h : s.ok = true) (rest) : NoBlank (s.text ++ rest) := by
  simp only [Simple.ok, Bool.and_eq_true] at h
  intro c r he
  rw [Simple.text, List.append_assoc] at he
  exact word_noBlank h.1 _ c r he

theorem simple_head {s : Simple} (h : s.ok = true) {rest c r} (he : s.text ++ rest = c :: r) :
    c = '\\' ∨ c = '"' ∨ c = '\'' ∨ c = '$' ∨ c ∉ metaChars := by
  simp only [Simple.ok, Bool.and_eq_true] at h
  rw [Simple.text, List.append_assoc] at he
  exact word_head h.1 he

theorem ampOk_simple {s : Simple} (h : s.ok = true) {g} (hg : g.all isBlank = true) (rest) :
    AmpOk (g ++ (s.text ++ rest)) := by
  intro c r he
  cases g with
  | nil =>
    rcases simple_head h he with hc | hc | hc | hc | hc
    · simp [hc]
    · simp [hc]
    · simp [hc]
    · simp [hc]
    · constructor <;> rintro rfl <;> simp [metaChars] at hc
  | cons b g =>
    simp at he
    simp only [List.all_cons, Bool.and_eq_true] at hg
    rw [← he.1]
    rcases blank_mem hg.1 with h | h | h <;> simp [h]

/-! ### Background part -/

/-- Text of the background part without the last blanks, starting with blanks `g`. -/
def bgsBody : List Char → List (Simple × List Char × List Char) → List Char
  | _, [] => []
  | g, b :: bs => (g ++ (b.1.text ++ (b.2.1 ++ ['&']))) ++ bgsBody b.2.2 bs

/-- Blanks after the background part. -/
def lastGap : List Char → List (Simple × List Char × List Char) → List Char
  | g, [] => g
  | _, b :: bs => lastGap b.2.2 bs

theorem bgs_text (g bs) : g ++ bgsText bs = bgsBody g bs ++ lastGap g bs := by
  induction bs generalizing g with
  | nil => simp [bgsText, bgsBody, lastGap]
  | cons b bs ih =>
    have := ih b.2.2
    simp [bgsText, bgsBody, lastGap] at this ⊢
    rw [← this]

/-- Pairs read for the background part. -/
inductive BgsDen : List (Simple × List Char × List Char) → List (Pair R) → Prop
  | nil : BgsDen [] []
  | cons {b p t o bs ps} : SimpleDen b.1 p → BgsDen bs ps → t = b.1.text ++ (b.2.1 ++ ['&']) →
      BgsDen (b :: bs) (.mk .simple_command_bg t [p, .mk .background_op o []] :: ps)

/-- Well-formed background part. -/
def bgOk (b : Simple × List Char × List Char) : Bool :=
  b.1.ok && b.2.1.all isBlank && b.2.2.all isBlank

theorem bg_loop {bs : List (Simple × List Char × List Char)} (h : bs.all bgOk = true)
    {g t2 p2 rest} (hg : g.all isBlank = true) (h2 : PE (.star cmdElt) t2 p2 rest)
    (ha : bs ≠ [] → AmpOk (t2 ++ rest)) :
    ∃ ps, PE (.star cmdElt) (bgsBody g bs ++ t2) (ps ++ p2) rest ∧ BgsDen bs ps := by
  induction bs generalizing g with
  | nil => exact ⟨[], by simpa [bgsBody] using h2, .nil⟩
  | cons b bs ih =>
    simp only [List.all_cons, Bool.and_eq_true] at h
    have hb := h.1
    simp only [bgOk, Bool.and_eq_true] at hb
    obtain ⟨ps, h3, h4⟩ := ih h.2 hb.2 (fun _ => ha (by simp))
    have hamp : AmpOk ((bgsBody b.2.2 bs ++ t2) ++ rest) := by
      cases bs with
      | nil => simpa [bgsBody] using ha (by simp)
      | cons b' bs =>
        simp only [List.all_cons, Bool.and_eq_true, bgOk] at h
        have := ampOk_simple (s := b'.1) h.2.1.1.1 hb.2 (b'.2.1 ++ (['&'] ++ (bgsBody b'.2.2 bs ++ (t2 ++ rest))))
        simpa [bgsBody] using this
    have hend : End ('&' :: ((bgsBody b.2.2 bs ++ t2) ++ rest)) := by
      intro c r he
      injection he with h1 h2
      right
      refine ⟨h1.symm, ?_⟩
      intro r'' hr
      rw [← h2] at hr
      exact (hamp _ _ hr).2 rfl
    obtain ⟨p, hp, hpd⟩ := simple_ok (g := []) (rest := b.2.1 ++ ('&' :: ((bgsBody b.2.2 bs ++ t2) ++ rest)))
      hb.1.1 rfl ⟨b.2.1, _, rfl, hb.1.2, hend⟩
    have h5 : PE (.rule .simple_command_bg) (b.1.text ++ (b.2.1 ++ ['&']))
        [.mk .simple_command_bg (b.1.text ++ (b.2.1 ++ ['&'])) ([p] ++ ([] ++ [.mk .background_op ['&'] []]))]
        ((bgsBody b.2.2 bs ++ t2) ++ rest) := by
      refine PE.rule (PE.seq ?_ (PE.seq (gap_ok hb.1.2 ?_) (background_ok hamp))) rfl
      · simpa using hp
      · exact hend.noBlank
    have h6 : PE cmdElt (g ++ (b.1.text ++ (b.2.1 ++ ['&']))) ([] ++ [.mk .simple_command_bg (b.1.text ++ (b.2.1 ++ ['&'])) ([p] ++ ([] ++ [.mk .background_op ['&'] []]))])
        ((bgsBody b.2.2 bs ++ t2) ++ rest) := by
      refine .altL (PE.seq (gap_ok hg ?_) h5)
      rw [List.append_assoc]
      exact simple_noBlank hb.1.1 _
    refine ⟨.mk .simple_command_bg (b.1.text ++ (b.2.1 ++ ['&'])) [p, .mk .background_op ['&'] []] :: ps, ?_,
      .cons hpd h4 rfl⟩
    have := PE.starCons h6 h3
    simpa [bgsBody] using this

/-! ### Pipelines -/

/-- The element of the second repetition of `command`. -/
abbrev pipeElt : PExp R := .alt (.rule .struct_pipe_command) (.rule .pipe_command)

theorem simple_alt_fail_end {r} (h : End r) :
    Parses G (.alt (.rule .simple_command_bg) (.rule .simple_command)) r .fail :=
  .alt_r (simple_bg_fail_end h) (simple_fail_end (g := []) rfl h)

theorem pipeElt_fail {r} (h : CEnd r) : Parses G pipeElt r .fail := by
  rcases h with rfl | ⟨l, rfl⟩ | ⟨l, rfl⟩ | ⟨l, rfl⟩ | ⟨l, rfl⟩
  · exact fail_nil rfl rfl
  · exact fail_of_dead 3 rfl (by decide) _
  · exact fail_of_dead 3 rfl (by decide) _
  · exact fail_of_dead 3 rfl (by decide) _
  · refine .alt_r (ruleFail (.seq_fail1 (ruleFail (lit2Fail _ (by simp))))) (ruleFail ?_)
    have hE : End ('|' :: l) := by
      intro c r he
      simp at he
      simp [← he.1]
    refine .seq_fail2 (p1 := [.mk .pipeline_op ['|'] []]) (c1 := ['|']) (r1 := '|' :: l) ?_
      (.seq_fail2 (gap_ok (g := []) rfl hE.noBlank) (.seq_fail1 (simple_alt_fail_end hE)))
    refine PE.rule (t := ['|']) (PE.seq (t1 := []) (t2 := ['|']) (p1 := []) (.neg_ok ?_) (.lit _ _)) rfl
    exact .alt_r (lit2Fail _ (by simp)) (lit2Fail _ (by simp))

theorem capture_fail {r} (h : CEnd r) : Parses G (.rule .capture_suffix) r .fail := by
  apply ruleFail
  refine .seq_fail2 (gap_ok (g := []) (rest := r) rfl h.end.noBlank) (ruleFail (lit2Fail _ ?_))
  intro l he
  rcases h with rfl | ⟨l, rfl⟩ | ⟨l, rfl⟩ | ⟨l, rfl⟩ | ⟨l, rfl⟩ <;> simp at he

/-- Blanks before the next stage, or `g` after the last. -/
def nextGap : List (List Char × List Char × Simple) → List Char → List Char
  | [], g => g
  | b :: _, _ => b.1

/-- Text of the further stages without the blanks before the first `|`, ending with blanks `g`. -/
def pipesBody : List (List Char × List Char × Simple) → List Char → List Char
  | [], _ => []
  | b :: bs, g => ('|' :: (b.2.1 ++ (b.2.2.text ++ nextGap bs g))) ++ pipesBody bs g

theorem stages_text (st g) : stagesText st ++ g = nextGap st g ++ pipesBody st g := by
  induction st with
  | nil => simp [stagesText, nextGap, pipesBody]
  | cons b bs ih =>
    simp [stagesText, nextGap, pipesBody] at ih ⊢
    rw [← ih]

/-- Pairs read for the further stages. -/
inductive PipesDen : List (List Char × List Char × Simple) → List (Pair R) → Prop
  | nil : PipesDen [] []
  | cons {b p t o st ps} : SimpleDen b.2.2 p → PipesDen st ps →
      PipesDen (b :: st) (.mk .pipe_command t [.mk .pipeline_op o [], p] :: ps)

/-- Well-formed stage. -/
def stOk (b : List Char × List Char × Simple) : Bool :=
  b.1.all isBlank && b.2.1.all isBlank && b.2.2.ok &&
    (b.2.1 ≠ [] || b.2.2.text.head? != some ':')

theorem nextGap_blank {st : List (List Char × List Char × Simple)} (h : st.all stOk = true) {g}
    (hg : g.all isBlank = true) : (nextGap st g).all isBlank = true := by
  cases st with
  | nil => exact hg
  | cons b st =>
    simp only [List.all_cons, Bool.and_eq_true, stOk] at h
    exact h.1.1.1.1

theorem pipes_FEnd {st g r} (hr : CEnd r) : FEnd (pipesBody st g ++ r) := by
  cases st with
  | nil => exact .inl (by simpa [pipesBody] using hr)
  | cons b st => exact .inr ⟨_, rfl⟩

theorem simple_text_ne {s : Simple} (h : s.ok = true) : s.text ≠ [] := by
  intro he
  simp only [Simple.ok, Bool.and_eq_true] at h
  have : s.name.text = [] := by
    rw [Simple.text] at he
    exact (List.append_eq_nil_iff.1 he).1
  cases hn : s.name with
  | bare ps =>
    rw [hn] at h this
    simp only [Word.ok, Bool.and_eq_true] at h
    have hne : ps ≠ [] := by simpa using h.1.1
    obtain ⟨p, qs, rfl⟩ := List.exists_cons_of_ne_nil hne
    cases p <;> simp [Word.text, Piece.text] at this
  | sq s => rw [hn] at this; simp [Word.text] at this
  | dq s => rw [hn] at this; simp [Word.text] at this
  | var n => rw [hn] at this; simp [Word.text] at this

theorem pipeline_op_ok {g : List Char} {s : Simple} (hg : g.all isBlank = true) (hs : s.ok = true)
    (hc : g ≠ [] ∨ s.text.head? ≠ some ':') (rest) :
    PE (.rule .pipeline_op) ['|'] [.mk .pipeline_op ['|'] []] (g ++ (s.text ++ rest)) := by
  refine PE.rule (PE.seq (t1 := []) (p1 := []) (.neg_ok ?_) (.lit _ _)) rfl
  have h1 := ampOk_simple hs hg rest
  refine .alt_r (lit2Fail _ ?_) (lit2Fail _ ?_)
  · intro r he
    simp at he
    exact (h1 _ _ he).2 rfl
  · intro r he
    simp at he
    cases g with
    | cons b g =>
      simp at he
      simp only [List.all_cons, Bool.and_eq_true] at hg
      rw [he.1] at hg
      exact absurd hg.1 (by decide)
    | nil =>
      rcases hc with hc | hc
      · exact hc rfl
      · apply hc
        obtain ⟨c, l, hcl⟩ := List.exists_cons_of_ne_nil (simple_text_ne hs)
        rw [hcl] at he ⊢
        simp at he
        simp [he.1]

theorem struct_fail_pipe {l : List Char} (h : ∀ r, l ≠ ':' :: r) :
    Parses G (.rule .struct_pipe_command) ('|' :: l) .fail := by
  refine ruleFail (.seq_fail1 (ruleFail (lit2Fail _ ?_)))
  intro r he
  simp at he
  exact h r he

theorem pipes_loop {st : List (List Char × List Char × Simple)} (h : st.all stOk = true) {g r}
    (hg : g.all isBlank = true) (hr : CEnd r) :
    ∃ ps, PE (.star pipeElt) (pipesBody st g) ps r ∧ PipesDen st ps := by
  induction st with
  | nil => exact ⟨[], .starNil (pipeElt_fail hr), .nil⟩
  | cons b st ih =>
    simp only [List.all_cons, Bool.and_eq_true] at h
    obtain ⟨ps, h1, h2⟩ := ih h.2
    have hb := h.1
    simp only [stOk, Bool.and_eq_true] at hb
    have hng := nextGap_blank h.2 hg
    have hF : FEnd (pipesBody st g ++ r) := pipes_FEnd hr
    obtain ⟨p, hp, hpd⟩ := simple_ok (g := []) (rest := nextGap st g ++ (pipesBody st g ++ r))
      hb.1.2 rfl ⟨_, _, rfl, hng, hF.end⟩
    have hc : b.2.1 ≠ [] ∨ b.2.2.text.head? ≠ some ':' := by
      have := hb.2
      simp only [Bool.or_eq_true, decide_eq_true_eq, bne_iff_ne] at this
      exact this
    have h3 : PE (.rule .pipe_command) (['|'] ++ (b.2.1 ++ (b.2.2.text ++ nextGap st g)))
        [.mk .pipe_command (['|'] ++ (b.2.1 ++ (b.2.2.text ++ nextGap st g)))
          ([.mk .pipeline_op ['|'] []] ++ ([] ++ ([p] ++ [])))] (pipesBody st g ++ r) := by
      refine PE.rule (PE.seq ?_ (PE.seq (gap_ok hb.1.1.2 ?_) (PE.seq (.altR ?_ ?_) (gap_ok hng hF.end.noBlank)))) rfl
      · have := pipeline_op_ok hb.1.1.2 hb.1.2 hc (nextGap st g ++ (pipesBody st g ++ r))
        simpa using this
      · rw [List.append_assoc]
        exact simple_noBlank hb.1.2 _
      · exact simple_bg_fail hb.1.2 hng hF
      · simpa using hp
    have h4 : PE pipeElt (['|'] ++ (b.2.1 ++ (b.2.2.text ++ nextGap st g)))
        [.mk .pipe_command (['|'] ++ (b.2.1 ++ (b.2.2.text ++ nextGap st g)))
          ([.mk .pipeline_op ['|'] []] ++ ([] ++ ([p] ++ [])))] (pipesBody st g ++ r) := by
      refine .altR ?_ h3
      apply struct_fail_pipe
      intro r' he
      have := pipeline_op_ok hb.1.1.2 hb.1.2 hc (nextGap st g ++ (pipesBody st g ++ r))
      simp at he
      rw [he] at this
      have h9 : Parses G (.rule .pipeline_op) (['|'] ++ ':' :: r') .fail :=
        ruleFail (.seq_fail1 (.neg_fail (.alt_r (lit2Fail _ (by simp)) (PE.lit c!"|:" r'))))
      have := Parses.det this h9
      cases this
    refine ⟨_, PE.starCons h4 h1, ?_⟩
    exact PipesDen.cons hpd h2

/-! ### Commands -/

/-- Pairs read for a command. -/
inductive CmdDen : Cmd → List (Pair R) → Prop
  | bgOnly {bs ps} : BgsDen bs ps → CmdDen ⟨bs, none⟩ ps
  | main {bs ps s p st qs} : BgsDen bs ps → SimpleDen s p → PipesDen st qs →
      CmdDen ⟨bs, some (s, st)⟩ (ps ++ (p :: qs))

theorem ampOk_gap {g r : List Char} (hg : g.all isBlank = true) (h : g ≠ [] ∨ AmpOk r) : AmpOk (g ++ r) := by
  cases g with
  | nil =>
    rcases h with h | h
    · exact absurd rfl h
    · exact h
  | cons b g =>
    intro c r' he
    simp at he
    simp only [List.all_cons, Bool.and_eq_true] at hg
    rw [← he.1]
    rcases blank_mem hg.1 with h | h | h <;> simp [h]

theorem lastGap_blank {bs : List (Simple × List Char × List Char)} (h : bs.all bgOk = true) {g}
    (hg : g.all isBlank = true) : (lastGap g bs).all isBlank = true := by
  induction bs generalizing g with
  | nil => exact hg
  | cons b bs ih =>
    simp only [List.all_cons, Bool.and_eq_true, bgOk] at h
    exact ih h.2 h.1.2

/-- Condition on what follows a command consisting of background parts only. -/
def AfterOk (c : Cmd) (g r : List Char) : Prop :=
  c.main = none → AmpOk (lastGap [] c.bgs ++ (g ++ r))

theorem command_ok {c : Cmd} (h : c.ok = true) {g r} (hg : g.all isBlank = true) (hr : CEnd r)
    (ha : AfterOk c g r) :
    ∃ ps, PE (.rule .command) (c.text ++ g) [.mk .command (c.text ++ g) ps] r ∧ CmdDen c ps := by
  obtain ⟨bs, m⟩ := c
  simp only [Cmd.ok, Bool.and_eq_true] at h
  have hbs : bs.all bgOk = true := h.1.2
  have hlg := lastGap_blank hbs (g := []) rfl
  have htext : bgsText bs = bgsBody [] bs ++ lastGap [] bs := by simpa using bgs_text [] bs
  cases m with
  | none =>
    have hgg : (lastGap [] bs ++ g).all isBlank = true := by
      rw [List.all_append, hlg, hg]; rfl
    obtain ⟨ps, h1, h2⟩ := bg_loop (g := []) (t2 := []) (p2 := []) (rest := lastGap [] bs ++ (g ++ r)) hbs rfl
      (.starNil (by
        have := cmdElt_fail hgg hr.end
        simpa using this))
      (fun _ => ha rfl)
    refine ⟨ps, PE.rule ?_ rfl, .bgOnly h2⟩
    have h3 : PE (body .command) (bgsBody [] bs ++ ((lastGap [] bs ++ g) ++ ([] ++ []))) (ps ++ ([] ++ ([] ++ []))) r := by
      refine PE.seq ?_ (PE.seq (gap_ok hgg hr.end.noBlank) (PE.seq (.starNil (pipeElt_fail hr)) ?_))
      · simpa using h1
      · exact Parses.opt_none (capture_fail hr)
    simpa [Cmd.text, mainText, htext] using h3
  | some m =>
    obtain ⟨s, st⟩ := m
    simp only [Bool.and_eq_true] at h
    have hs := h.2.1
    have hst : st.all stOk = true := h.2.2
    have hng := nextGap_blank hst hg
    have hF : FEnd (pipesBody st g ++ r) := pipes_FEnd hr
    obtain ⟨p, hp, hpd⟩ := simple_ok (g := lastGap [] bs) (rest := nextGap st g ++ (pipesBody st g ++ r))
      hs hlg ⟨_, _, rfl, hng, hF.end⟩
    have helt : PE cmdElt (lastGap [] bs ++ s.text) [p] (nextGap st g ++ (pipesBody st g ++ r)) := by
      refine .altR (.seq_fail2 (p1 := []) (c1 := lastGap [] bs) ?_ (simple_bg_fail hs hng hF)) hp
      rw [List.append_assoc]
      exact gap_ok hlg (simple_noBlank hs _)
    have hstar : PE (.star cmdElt) (lastGap [] bs ++ s.text) [p] (nextGap st g ++ (pipesBody st g ++ r)) := by
      have := PE.starCons (t2 := []) (p2 := []) (rest := nextGap st g ++ (pipesBody st g ++ r)) helt
        (.starNil (cmdElt_fail hng hF.end))
      simpa using this
    obtain ⟨ps, h1, h2⟩ := bg_loop (g := []) hbs rfl hstar (fun _ => by
      have := ampOk_simple hs hlg (nextGap st g ++ (pipesBody st g ++ r))
      simpa using this)
    obtain ⟨qs, h3, h4⟩ := pipes_loop hst hg hr
    refine ⟨ps ++ (p :: qs), PE.rule ?_ rfl, .main h2 hpd h4⟩
    have h5 : PE (body .command) ((bgsBody [] bs ++ (lastGap [] bs ++ s.text)) ++ (nextGap st g ++ (pipesBody st g ++ [])))
        ((ps ++ [p]) ++ ([] ++ (qs ++ []))) r := by
      refine PE.seq ?_ (PE.seq (gap_ok hng ?_) (PE.seq ?_ ?_))
      · simpa using h1
      · simpa using hF.end.noBlank
      · simpa using h3
      · exact Parses.opt_none (capture_fail hr)
    have h6 := stages_text st g
    have h7 : bgsText bs ++ (s.text ++ stagesText st) ++ g =
        (bgsBody [] bs ++ (lastGap [] bs ++ s.text)) ++ (nextGap st g ++ (pipesBody st g ++ [])) := by
      rw [htext]
      simp only [List.append_assoc, List.append_nil]
      rw [← h6]
    simp only [Cmd.text, mainText]
    rw [h7]
    simpa using h5

/-! ### Lists -/

/-- Rule of an operator. -/
def sepRule : Sep → R
  | .seq => .sequential_op
  | .and => .and_op
  | .or => .or_op

theorem sep_ok (s : Sep) (rest) :
    PE (.rule .command_list_sep) s.text [.mk .command_list_sep s.text [.mk (sepRule s) s.text []]] rest := by
  apply PE.rule _ rfl
  cases s with
  | seq => exact .altL (PE.rule (.lit _ _) rfl)
  | and => exact .altR (ruleFail (litFail (by simp [Sep.text]))) (.altL (PE.rule (.lit _ _) rfl))
  | or => exact .altR (ruleFail (litFail (by simp [Sep.text]))) (.altR (ruleFail (lit2Fail _ (by simp [Sep.text]))) (PE.rule (.lit _ _) rfl))

theorem sep_fail {r} (h : r = [] ∨ ∃ l, r = ')' :: l) : Parses G (.rule .command_list_sep) r .fail := by
  rcases h with rfl | ⟨l, rfl⟩
  · exact fail_nil rfl rfl
  · exact fail_of_dead 3 rfl (by decide) _

/-- The text of a command as the grammar reads it: with the blanks behind it. -/
def CmdText (c : Cmd) (t : List Char) : Prop := ∃ g, g.all isBlank = true ∧ t = c.text ++ g

/-- Pairs read for the rest of a line. -/
inductive RestDen : List (List Char × Sep × List Char × Cmd) → List (Pair R) → Prop
  | nil : RestDen [] []
  | cons {g s g' c t t' ps rest qs} : CmdDen c ps → RestDen rest qs → CmdText c t' →
      RestDen ((g, s, g', c) :: rest)
        (.mk .command_list_sep s.text [.mk (sepRule s) t []] :: .mk .command t' ps :: qs)

/-- First character of a command. -/
theorem cmd_noBlank {c : Cmd} (h : c.ok = true) (rest) : NoBlank (c.text ++ rest) := by
  obtain ⟨bs, m⟩ := c
  simp only [Cmd.ok, Bool.and_eq_true] at h
  cases bs with
  | cons b bs =>
    have hb := h.1.2
    simp only [List.all_cons, Bool.and_eq_true] at hb
    have := simple_noBlank hb.1.1.1 ((b.2.1 ++ ('&' :: b.2.2)) ++ (bgsText bs ++ (mainText m ++ rest)))
    simpa [Cmd.text, bgsText] using this
  | nil =>
    cases m with
    | none => simp at h
    | some m =>
      obtain ⟨s, st⟩ := m
      simp only [Bool.and_eq_true] at h
      have := simple_noBlank h.2.1 (stagesText st ++ rest)
      simpa [Cmd.text, bgsText, mainText] using this

/-- The blanks before the next operator, or at the end. -/
def gapAfter : List (List Char × Sep × List Char × Cmd) → List Char → List Char
  | [], trail => trail
  | (g, _) :: _, _ => g
/-- The text from the next operator on. -/
def fromSep : List (List Char × Sep × List Char × Cmd) → List Char → List Char
  | [], _ => []
  | (_, s, g', c) :: r, trail => s.text ++ (g' ++ (c.text ++ restText r trail))

theorem rest_text (l trail) : restText l trail = gapAfter l trail ++ fromSep l trail := by
  cases l with
  | nil => simp [restText, gapAfter, fromSep]
  | cons a l => obtain ⟨g, s, g', c⟩ := a; simp [restText, gapAfter, fromSep]

theorem fromSep_CEnd (l trail) {fin : List Char} (hf : fin = [] ∨ ∃ x, fin = ')' :: x) :
    CEnd (fromSep l trail ++ fin) := by
  cases l with
  | nil =>
    rcases hf with rfl | ⟨x, rfl⟩
    · exact .inl rfl
    · exact .inr (.inr (.inl ⟨x, rfl⟩))
  | cons a l =>
    obtain ⟨g, s, g', c⟩ := a
    cases s with
    | seq => exact .inr (.inl ⟨_, rfl⟩)
    | and => exact .inr (.inr (.inr (.inl ⟨_, rfl⟩)))
    | or => exact .inr (.inr (.inr (.inr ⟨_, rfl⟩)))

theorem gapAfter_blank {prev : Cmd} {l trail} (h : restOk prev l = true) (ht : trail.all isBlank = true) :
    (gapAfter l trail).all isBlank = true := by
  cases l with
  | nil => exact ht
  | cons a l =>
    obtain ⟨g, s, g', c⟩ := a
    simp only [restOk, sepOk, Bool.and_eq_true] at h
    exact h.1.1.1.1

theorem lastGap_getLast (g : List Char) (bs : List (Simple × List Char × List Char)) :
    lastGap g bs = (match bs.getLast? with | some b => b.2.2 | none => g) := by
  induction bs generalizing g with
  | nil => rfl
  | cons b bs ih =>
    cases bs with
    | nil => rfl
    | cons b' bs =>
      have := ih b.2.2
      simp only [lastGap, List.getLast?_cons_cons] at this ⊢
      exact this.trans rfl

theorem after_ok {prev : Cmd} (hp : prev.ok = true) {l trail} (h : restOk prev l = true)
    (ht : trail.all isBlank = true) {fin : List Char} (hf : fin = [] ∨ ∃ x, fin = ')' :: x) :
    AfterOk prev (gapAfter l trail) (fromSep l trail ++ fin) := by
  intro hm
  have hbs : prev.bgs.all bgOk = true := by
    simp only [Cmd.ok, Bool.and_eq_true] at hp
    exact hp.1.2
  have hlg := lastGap_blank hbs (g := []) rfl
  have hga := gapAfter_blank h ht
  rw [← List.append_assoc]
  apply ampOk_gap
  · rw [List.all_append, hlg, hga]; rfl
  cases l with
  | nil =>
    right
    intro c r he
    rcases hf with rfl | ⟨x, rfl⟩
    · simp [fromSep] at he
    · simp [fromSep] at he; simp [← he.1]
  | cons a l =>
    obtain ⟨g, s, g', c⟩ := a
    cases s with
    | seq => right; intro c r he; simp [fromSep, Sep.text] at he; simp [← he.1]
    | or => right; intro c r he; simp [fromSep, Sep.text] at he; simp [← he.1]
    | and =>
      left
      simp only [restOk, sepOk, Bool.and_eq_true, hm] at h
      have h' := h.1.1.1.2
      simp only [gapAfter]
      rw [lastGap_getLast]
      intro he
      rw [List.append_eq_nil_iff] at he
      cases hl : prev.bgs.getLast? with
      | none => simp [hl, he.2] at h'
      | some b =>
        rw [hl] at he
        simp only at he
        simp [hl, he.1, he.2] at h'

theorem rest_ok {prev : Cmd} {l trail} (h : restOk prev l = true) (ht : trail.all isBlank = true)
    {fin : List Char} (hf : fin = [] ∨ ∃ x, fin = ')' :: x) :
    ∃ ps, PE (.star (seqs [.rule .command_list_sep, .star (.rule .sp), .rule .command]))
      (fromSep l trail) ps fin ∧ RestDen l ps := by
  induction l generalizing prev with
  | nil => exact ⟨[], .starNil (.seq_fail1 (sep_fail hf)), .nil⟩
  | cons a l ih =>
    obtain ⟨g, s, g', c⟩ := a
    simp only [restOk, Bool.and_eq_true] at h
    obtain ⟨⟨⟨_, hg'⟩, hc⟩, hl⟩ := h
    obtain ⟨qs, h1, h2⟩ := ih hl
    obtain ⟨ps, h3, h4⟩ := command_ok hc (gapAfter_blank hl ht) (fromSep_CEnd l trail hf)
      (after_ok hc hl ht hf)
    have h5 : PE (seqs [.rule .command_list_sep, .star (.rule .sp), .rule .command])
        (s.text ++ (g' ++ (c.text ++ gapAfter l trail)))
        ([.mk .command_list_sep s.text [.mk (sepRule s) s.text []]] ++ ([] ++
          [.mk .command (c.text ++ gapAfter l trail) ps])) (fromSep l trail ++ fin) := by
      refine PE.seq (sep_ok s _) (PE.seq (gap_ok hg' ?_) h3)
      rw [List.append_assoc]
      exact cmd_noBlank hc _
    refine ⟨.mk .command_list_sep s.text [.mk (sepRule s) s.text []] ::
      .mk .command (c.text ++ gapAfter l trail) ps :: qs, ?_, RestDen.cons h4 h2 ⟨_, gapAfter_blank hl ht, rfl⟩⟩
    have h7 : fromSep ((g, s, g', c) :: l) trail =
        (s.text ++ (g' ++ (c.text ++ gapAfter l trail))) ++ fromSep l trail := by
      rw [fromSep, rest_text]
      simp only [List.append_assoc]
    rw [h7]
    exact PE.starCons h5 h1

/-- Reading a whole line. -/
theorem line_ok {l : Line} (h : l.ok = true) {fin : List Char} (hf : fin = [] ∨ ∃ x, fin = ')' :: x) :
    ∃ t ps qs, PE (.rule .commands) l.text [.mk .commands l.text (.mk .command t ps :: qs)] fin ∧
      CmdDen l.first ps ∧ RestDen l.rest qs ∧ CmdText l.first t := by
  obtain ⟨lead, first, rest, trail⟩ := l
  simp only [Line.ok, Bool.and_eq_true] at h
  obtain ⟨⟨⟨h1, h2⟩, h3⟩, h4⟩ := h
  obtain ⟨qs, h5, h6⟩ := rest_ok h3 h4 hf
  obtain ⟨ps, h7, h8⟩ := command_ok h2 (gapAfter_blank h3 h4) (fromSep_CEnd rest trail hf)
    (after_ok h2 h3 h4 hf)
  refine ⟨first.text ++ gapAfter rest trail, ps, qs, ?_, h8, h6, _, gapAfter_blank h3 h4, rfl⟩
  have h9 : PE (body .commands) ((lead ++ (first.text ++ gapAfter rest trail)) ++ fromSep rest trail)
      (([] ++ [.mk .command (first.text ++ gapAfter rest trail) ps]) ++ qs) fin := by
    refine PE.seq (PE.seq (gap_ok h1 ?_) h7) h5
    rw [List.append_assoc]
    exact cmd_noBlank h2 _
  have h10 := PE.rule h9 rfl
  have h11 : Line.text ⟨lead, first, rest, trail⟩ =
      (lead ++ (first.text ++ gapAfter rest trail)) ++ fromSep rest trail := by
    simp [Line.text, rest_text]
  rw [h11]
  simpa using h10

end Dsh.Shell
