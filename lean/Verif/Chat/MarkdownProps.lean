import Verif.Chat.Markdown
/-!
# C172–C174: an answer of the AI on the terminal
-/
namespace Dsh.Md

/-! ## C172: all that was answered is shown -/

/-- Without the ends of lines. -/
def letters (t : Str) : Str := t.filter (· ≠ '\n')

/-- What an answer says: its texts in their order, and the address of a link behind its text; `ls` are the
addresses of the links not yet ended. -/
def spoken : List Str → List Ev → Str
  | ls, .start (.link d) :: es => spoken (d :: ls) es
  | d :: ls, .stop .link :: es => d ++ spoken ls es
  | ls, .text t :: es => t ++ spoken ls es
  | ls, .code t :: es => t ++ spoken ls es
  | ls, .math t :: es => t ++ spoken ls es
  | ls, .reference n :: es => c!"[" ++ n ++ c!"]" ++ spoken ls es
  | ls, _ :: es => spoken ls es
  | _, [] => []

/-- What was written from the answer. -/
def own (b : List (Char × Bool)) : Str := letters ((b.filter (·.2)).map (·.1))

/-- The addresses of the links begun. -/
def Style.dest : Style → Option Str
  | .link d => some d
  | _ => none

def St.links (s : St) : List Str := s.styles.filterMap Style.dest

theorem own_append (a b : List (Char × Bool)) : own (a ++ b) = own a ++ own b := by simp [own, letters]
theorem own_put (t : Str) : own (t.map (·, false)) = [] := by
  induction t with
  | nil => rfl
  | cons c t ih => exact ih
theorem own_say (t : Str) : own (t.map (·, true)) = letters t := by
  have : (t.map (fun c => (c, true))).filter (·.2) = t.map (fun c => (c, true)) := by
    rw [List.filter_eq_self]
    intro a ha
    obtain ⟨c, -, rfl⟩ := List.mem_map.1 ha
    rfl
  unfold own
  rw [this, List.map_map]
  congr 1
  exact List.map_id t
theorem own_newlines (n : Nat) : own (List.replicate n ('\n', false)) = [] := by
  induction n with
  | zero => rfl
  | succ n ih => exact ih

/-- The same styles, and this more from the answer. -/
structure Adds (s s' : St) (t : Str) : Prop where
  styles : s'.styles = s.styles
  own : own s'.buf = own s.buf ++ letters t

theorem letters_append (a b : Str) : letters (a ++ b) = letters a ++ letters b := by simp [letters]

theorem Adds.refl (s : St) : Adds s s [] := ⟨rfl, by simp [letters]⟩
theorem Adds.trans {a b c : St} {t u : Str} (h : Adds a b t) (k : Adds b c u) : Adds a c (t ++ u) :=
  ⟨k.styles.trans h.styles, by rw [k.own, h.own, letters_append, List.append_assoc]⟩
theorem Adds.flags {a b : St} {t : Str} (h : Adds a b t) (p : Nat) (l : List (Option Nat)) (x y : Bool) :
    Adds a { b with pending := p, lists := l, sol := x, wrote := y } t := ⟨h.styles, h.own⟩

theorem adds_put (s : St) (t : Str) : Adds s (s.put t) [] := ⟨rfl, by simp [St.put, own_append, own_put, letters]⟩
theorem adds_say (s : St) (t : Str) : Adds s (s.say t) t := ⟨rfl, by simp [St.say, own_append, own_say]⟩
theorem adds_flush (s : St) : Adds s s.flush [] := by
  unfold St.flush
  split
  · exact .refl s
  · refine ⟨rfl, ?_⟩
    dsimp only
    split
    · simp [letters]
    · rw [own_append, own_newlines]; rfl
theorem adds_newline (s : St) : Adds s s.newline [] := by
  unfold St.newline; split <;> exact ⟨rfl, by simp [letters]⟩
theorem adds_blank (s : St) : Adds s s.blank [] := by
  unfold St.blank; split <;> exact ⟨rfl, by simp [letters]⟩
theorem adds_prepare (s : St) : Adds s s.prepare [] := by
  unfold St.prepare
  dsimp only
  split
  · exact (adds_flush s).trans ((adds_put _ _).flags _ _ _ _)
  · exact adds_flush s
theorem adds_write (s : St) (t : Str) (i : Bool) : Adds s (s.write t i) t := by
  unfold St.write
  split
  · rename_i h
    rw [List.isEmpty_iff] at h
    subst h; exact .refl s
  · have := ((adds_put s (stylePrefix s.styles i)).trans (adds_say _ t)).trans (adds_put _ (if (stylePrefix s.styles i).isEmpty then [] else reset))
    rw [List.append_nil, List.nil_append] at this
    exact this.flags _ _ _ _
theorem adds_break (s : St) : Adds s s.break [] := by
  unfold St.break
  exact ((adds_put s ['\n']).flags _ _ true _).trans (adds_prepare _)
theorem adds_writeLines (ls : List Str) (s : St) : Adds s (s.writeLines ls) ls.flatten := by
  induction ls generalizing s with
  | nil => exact .refl s
  | cons l ls ih =>
    cases ls with
    | nil => rw [List.flatten_singleton]; exact adds_write s l false
    | cons l' ls =>
      have := ((adds_write s l false).trans (adds_break _)).trans (ih _)
      rw [List.append_nil] at this
      exact this
theorem splitNl_flatten (t : Str) : (splitNl t).flatten = letters t := by
  induction t with
  | nil => rfl
  | cons c t ih =>
    rw [splitNl]
    split
    · rename_i h
      subst h
      rw [List.flatten_cons, ih]
      rfl
    · rename_i h
      have : letters (c :: t) = c :: letters t := by simp [letters, h]
      rw [this, ← ih]
      split
      · rename_i hs; rw [hs]; rfl
      · rename_i hs; rw [hs]; rfl
theorem letters_letters (t : Str) : letters (letters t) = letters t := by simp [letters]
theorem Adds.letters {s s' : St} {t u : Str} (h : Adds s s' t) (e : letters t = letters u) : Adds s s' u := ⟨h.styles, by rw [h.own, e]⟩
theorem adds_codeLine (s : St) (l : Str) : Adds s (s.codeLine l) l := by
  unfold St.codeLine
  have := ((adds_put s (s.bars ++ (List.replicate s.lists.length c!"  ").flatten ++ blockBg ++ blockFg ++ [' '])).trans (adds_say _ l)).trans
    (adds_put _ ([' '] ++ reset))
  rw [List.append_nil, List.nil_append] at this
  exact this.flags _ _ _ _
theorem adds_codeMore (ls : List Str) (s : St) : Adds s (s.codeMore ls) ls.flatten := by
  induction ls generalizing s with
  | nil => exact .refl s
  | cons l ls ih => exact ((adds_put s ['\n']).trans (adds_codeLine _ l)).trans (ih _)
theorem adds_codeBlock (s : St) (t : Str) : Adds s (s.codeBlock t) t := by
  unfold St.codeBlock
  split
  · rename_i h
    have := splitNl_flatten t
    rw [h] at this
    exact ((adds_flush s).trans (adds_newline _)).letters (by rw [← letters_letters t, ← this]; rfl)
  · rename_i l ls h
    have hf := splitNl_flatten t
    rw [h] at hf
    refine ((((adds_flush s).trans (adds_codeLine _ l)).trans (adds_codeMore ls _)).trans (adds_newline _)).letters ?_
    rw [← letters_letters t, ← hf]
    simp
theorem adds_text (s : St) (t : Str) : Adds s (s.text t) t := by
  unfold St.text
  split
  · rename_i h; rw [List.isEmpty_iff] at h; subst h; exact .refl s
  · split
    · exact adds_codeBlock s t
    · refine ((adds_prepare s).trans (adds_writeLines (splitNl t) _)).letters ?_
      rw [splitNl_flatten, List.nil_append, letters_letters]
theorem adds_inline (s : St) (t : Str) : Adds s (s.inline t) t := (adds_prepare s).trans (adds_write _ t true)
theorem adds_rule (s : St) : Adds s s.rule [] :=
  (((adds_blank s).trans (adds_flush _)).trans (adds_put _ _)).flags _ _ _ _
theorem adds_task (s : St) (c : Bool) : Adds s (s.task c) [] := (adds_put s _).flags _ _ _ _
theorem adds_item (s : St) : Adds s s.item [] := by
  unfold St.item
  dsimp only
  have h := (adds_flush s).trans (adds_put s.flush ((if s.flush.sol then [] else ['\n']) ++ s.flush.bars ++ (List.replicate (s.flush.lists.length - 1) c!"  ").flatten))
  generalize s.flush.put _ = s1 at h
  split
  · exact h.flags _ _ _ _
  · rename_i i ls hl
    exact (h.trans (adds_put s1 (mark i))).flags _ _ _ _
theorem adds_suffix (s : St) (d : Str) : Adds s (s.suffix d) d := by
  unfold St.suffix
  split
  · rename_i h; rw [List.isEmpty_iff] at h; subst h; exact .refl s
  · have := ((adds_put s c!" (").trans (adds_say _ d)).trans (adds_put _ c!")")
    rw [List.append_nil, List.nil_append] at this
    exact this.flags _ _ _ _

theorem links_erase (l : List Style) (p : Style → Bool) (h : ∀ d, p (.link d) = false) : (l.eraseP p).filterMap Style.dest = l.filterMap Style.dest := by
  induction l with
  | nil => rfl
  | cons x l ih =>
    rw [List.eraseP_cons]
    cases hp : p x with
    | true =>
      cases x with
      | link d => rw [h d] at hp; cases hp
      | _ => rfl
    | false =>
      cases x <;> simp [List.filterMap_cons, Style.dest, ih]

theorem links_find (l : List Style) : match l.find? Style.isLink with
    | some (.link d) => l.filterMap Style.dest = d :: (l.eraseP Style.isLink).filterMap Style.dest
    | some _ => False
    | none => l.filterMap Style.dest = [] := by
  induction l with
  | nil => rfl
  | cons x l ih =>
    cases x with
    | link d => rfl
    | _ => exact ih

/-- What an event says with these links begun, and the links after it. -/
def says (ls : List Str) : Ev → Str × List Str
  | .start t => match t with
    | .link d => ([], d :: ls)
    | _ => ([], ls)
  | .stop k => match k with
    | .link => (ls.head?.getD [], ls.tail)
    | _ => ([], ls)
  | .text t => (t, ls)
  | .code t => (t, ls)
  | .math t => (t, ls)
  | .reference n => (c!"[" ++ n ++ c!"]", ls)
  | _ => ([], ls)

theorem spoken_cons (ls : List Str) (e : Ev) (es : List Ev) : spoken ls (e :: es) = (says ls e).1 ++ spoken (says ls e).2 es := by
  cases e with
  | start t => cases t <;> cases ls <;> rfl
  | stop k => cases k <;> cases ls <;> rfl
  | _ => cases ls <;> simp [spoken, says]

theorem Adds.links {s s' : St} {t : Str} (h : Adds s s' t) : s'.links = s.links := by unfold St.links; rw [h.styles]

theorem event_says (s : St) (e : Ev) : own (s.event e).buf = own s.buf ++ letters (says s.links e).1 ∧ (s.event e).links = (says s.links e).2 := by
  have ok : ∀ {s' : St} {t : Str}, Adds s s' t → own s'.buf = own s.buf ++ letters t ∧ s'.links = s.links := fun h => ⟨h.own, h.links⟩
  cases e with
  | text t => exact ok (adds_text s t)
  | code t => exact ok (adds_inline s t)
  | math t =>
    exact ok ((adds_blank s).trans (adds_codeBlock _ t))
  | soft => exact ok (adds_break s)
  | hard => exact ok (adds_break s)
  | rule => exact ok (adds_rule s)
  | task c => exact ok (adds_task s c)
  | reference n => exact ok (adds_text s (c!"[" ++ n ++ c!"]"))
  | start t =>
    have same : ∀ {s' : St}, Adds s s' [] → own s'.buf = own s.buf ++ letters [] ∧ s'.links = s.links := fun h => ok h
    have pushed : ∀ (s' : St) (x : Style), Adds s s' [] → x.dest = none → own (s'.push x).buf = own s.buf ++ letters [] ∧ (s'.push x).links = s.links := by
      intro s' x h hx
      refine ⟨h.own, ?_⟩
      rw [← h.links]
      unfold St.links St.push
      rw [List.filterMap_cons, hx]
    cases t with
    | link d => exact ⟨by simp [St.event, St.begin, St.push, says, Md.letters], rfl⟩
    | paragraph =>
      show own (if _ then _ else _ : St).buf = _ ∧ (if _ then _ else _ : St).links = _
      split
      · exact same (adds_blank s)
      · exact same (adds_newline s)
    | heading l => exact pushed _ _ (adds_blank s) rfl
    | quote => exact pushed _ _ (adds_blank s) rfl
    | code => exact pushed _ _ (adds_blank s) rfl
    | emphasis => exact pushed _ _ (.refl s) rfl
    | strong => exact pushed _ _ (.refl s) rfl
    | strike => exact pushed _ _ (.refl s) rfl
    | list n => exact same ((adds_blank s).flags _ _ _ _)
    | item => exact same (adds_item s)
    | image d => exact same (.refl s)
    | table => exact same (adds_blank s)
    | footnote d => exact same (adds_blank s)
    | other => exact same (.refl s)
  | stop k =>
    have same : ∀ {s' : St}, Adds s s' [] → own s'.buf = own s.buf ++ letters [] ∧ s'.links = s.links := fun h => ok h
    have popped : ∀ (p : Style → Bool), (∀ d, p (.link d) = false) → ∀ s' : St, Adds (s.pop p) s' [] → own s'.buf = own s.buf ++ letters [] ∧ s'.links = s.links := by
      intro p hp s' h
      refine ⟨h.own, ?_⟩
      rw [h.links]
      exact links_erase s.styles p hp
    cases k with
    | paragraph => exact same (adds_newline s)
    | heading => exact popped _ (fun _ => rfl) _ (adds_blank _)
    | quote => exact popped _ (fun _ => by simp) _ (adds_blank _)
    | code => exact popped _ (fun _ => by simp) _ (adds_blank _)
    | emphasis => exact popped _ (fun _ => by simp) _ (.refl _)
    | strong => exact popped _ (fun _ => by simp) _ (.refl _)
    | strike => exact popped _ (fun _ => by simp) _ (.refl _)
    | list => exact same (((Adds.refl s).flags _ s.lists.tail _ _).trans (adds_newline _))
    | item =>
      refine same (Adds.trans (t := []) (b := if s.sol then s else { s.put ['\n'] with sol := true }) ?_ (adds_newline _))
      split
      · exact .refl s
      · exact (adds_put s _).flags _ _ _ _
    | image => exact same (.refl s)
    | table => exact same (adds_blank s)
    | footnote => exact same (adds_blank s)
    | other => exact same (.refl s)
    | link =>
      have hf := links_find s.styles
      show own (match s.styles.find? Style.isLink with | some (.link d) => _ | _ => _ : St).buf = _ ∧ (match s.styles.find? Style.isLink with | some (.link d) => _ | _ => _ : St).links = _
      cases hx : s.styles.find? Style.isLink with
      | none =>
        rw [hx] at hf
        have : s.links = [] := hf
        rw [this]
        exact ⟨by simp [says, Md.letters], rfl⟩
      | some x =>
        rw [hx] at hf
        cases x with
        | link d =>
          have : s.links = d :: (s.pop Style.isLink).links := hf
          rw [this]
          have h := adds_suffix (s.pop Style.isLink) d
          exact ⟨h.own, h.links⟩
        | _ => exact hf.elim

theorem run_says (es : List Ev) (s : St) : own (s.run es).buf = own s.buf ++ letters (spoken s.links es) := by
  induction es generalizing s with
  | nil => cases h : s.links <;> simp [St.run, spoken, letters]
  | cons e es ih =>
    obtain ⟨h1, h2⟩ := event_says s e
    show own ((s.event e).run es).buf = _
    rw [ih, h1, h2, spoken_cons, letters_append, List.append_assoc]

theorem own_drop (b : List (Char × Bool)) : own (b.reverse.dropWhile (fun c => decide (c.1 = '\n'))).reverse = own b := by
  have : ∀ r : List (Char × Bool), own (r.dropWhile (fun c => decide (c.1 = '\n'))).reverse = own r.reverse := by
    intro r
    induction r with
    | nil => rfl
    | cons c r ih =>
      rw [List.dropWhile_cons]
      split
      · rename_i h
        rw [ih, List.reverse_cons, own_append]
        obtain ⟨c, f⟩ := c
        have h : c = '\n' := by simpa using h
        subst h
        cases f <;> simp [own, letters]
      · rfl
  rw [this, List.reverse_reverse]

/-- **C172, every text is shown.** Whatever the parts of the answer are and however they are nested: what is
written from the answer is all its texts in their order, with the addresses of links; ends of lines aside. -/
theorem C172_text_partial (es : List Ev) : own (render es) = letters (spoken [] es) := by
  unfold render St.finish
  rw [own_drop, (adds_flush _).own, run_says]
  simp [letters, own, St.links]

/-- **C172 fails: addresses of images.** They are not shown: the output is the same for every address. -/
theorem C172_image_violated (a b : List Ev) (d d' : Str) : shown (a ++ .start (.image d) :: b) = shown (a ++ .start (.image d') :: b) := by
  simp [shown, render, St.run, St.event, St.begin]

/-- **C172 fails: labels of footnotes.** The text says `[1]`, but at the footnote its label is not shown. -/
theorem C172_footnote_violated (a b : List Ev) (d d' : Str) :
    shown (a ++ .start (.footnote d) :: b) = shown (a ++ .start (.footnote d') :: b) := by
  simp [shown, render, St.run, St.event, St.begin]

/-- **C172, texts the renderer refuses or makes nothing of are shown as they are.** -/
theorem C172_fallback_partial (parse : Str → List Ev) (t : Str) (h : '\x00' ∈ t ∨ shown (parse t) = []) : answer parse t = t := by
  unfold answer
  rw [if_pos]
  rcases h with h | h
  · simp [h]
  · simp [h]

/-! ## C174: colours end where they should -/

/-- A terminal: text, plain or not; behind an ESC; in a sequence with these parameters. -/
inductive Term where
  | text (styled : Bool)
  | esc (styled : Bool)
  | csi (styled : Bool) (params : Str)
deriving DecidableEq

/-- A character arrives. An end of line must come while the text is plain. -/
def Term.step : Term → Char → Option Term
  | .text b, c => if c = '\x1b' then some (.esc b) else if c = '\n' ∧ b = true then none else some (.text b)
  | .esc b, c => if c = '[' then some (.csi b []) else none
  | .csi b ps, c => if c = 'm' then some (.text (decide (ps ≠ ['0']))) else if c.isDigit || c = ';' then some (.csi b (ps ++ [c])) else none

def Term.walk (t : Term) : Str → Option Term
  | [] => some t
  | c :: s => (t.step c).bind (Term.walk · s)

theorem walk_append (a b : Str) (t : Term) : t.walk (a ++ b) = (t.walk a).bind (·.walk b) := by
  induction a generalizing t with
  | nil => rfl
  | cons c a ih =>
    rw [List.cons_append, Term.walk, Term.walk]
    cases t.step c with
    | none => rfl
    | some t' => exact ih t'

/-- Text without sequences. -/
theorem walk_plain (s : Str) (h : '\x1b' ∉ s) : (Term.text false).walk s = some (.text false) := by
  induction s with
  | nil => rfl
  | cons c s ih =>
    simp only [List.mem_cons, not_or] at h
    rw [Term.walk, Term.step, if_neg (fun e => h.1 e.symm), if_neg (by simp)]
    exact ih h.2

theorem walk_line (s : Str) (b : Bool) (h : '\x1b' ∉ s) (hn : '\n' ∉ s) : (Term.text b).walk s = some (.text b) := by
  induction s with
  | nil => rfl
  | cons c s ih =>
    simp only [List.mem_cons, not_or] at h hn
    rw [Term.walk, Term.step, if_neg (fun e => h.1 e.symm), if_neg (fun e => hn.1 e.1.symm)]
    exact ih h.2 hn.2

/-- A colour or a style. -/
abbrev Paints (s : Str) : Prop := ∀ b, (Term.text b).walk s = some (.text true)

theorem Paints.append {a b : Str} (h : Paints a) (k : Paints b) : Paints (a ++ b) := by
  intro x; rw [walk_append, h x, Option.bind_some, k true]

/-- Nothing or a colour. -/
def MayPaint (s : Str) : Prop := s = [] ∨ Paints s

theorem MayPaint.append {a b : Str} (h : MayPaint a) (k : MayPaint b) : MayPaint (a ++ b) := by
  rcases h with rfl | h
  · exact k
  · rcases k with rfl | k
    · rw [List.append_nil]; exact .inr h
    · exact .inr (h.append k)

theorem MayPaint.ite {a : Str} (p : Prop) [Decidable p] (h : Paints a) : MayPaint (if p then a else []) := by
  split
  · exact .inr h
  · exact .inl rfl

theorem paints_bold : Paints boldCode := by decide
theorem paints_under : Paints underline := by decide
theorem paints_heading (l : Nat) : Paints (headingColor l) := by
  unfold headingColor
  split <;> decide

theorem prefix_paints (styles : List Style) (i : Bool) : MayPaint (stylePrefix styles i) := by
  unfold stylePrefix
  refine .append (.append (.append (.append ?_ (.ite _ (by decide))) (.ite _ (by decide))) (.ite _ (by decide))) (.ite _ (by decide))
  split
  · exact .append (.append (.inr (paints_heading _)) (.inr paints_bold)) (.ite _ paints_under)
  · exact .append (.ite _ (by decide)) (.ite _ (by decide))

/-- So far plain at each end of line, and plain now. -/
def Clean (s : St) : Prop := (Term.text false).walk (s.buf.map (·.1)) = some (.text false)

theorem Clean.add {s s' : St} {t : Str} (h : Clean s) (hb : s'.buf.map (·.1) = s.buf.map (·.1) ++ t)
    (ht : (Term.text false).walk t = some (.text false)) : Clean s' := by
  unfold Clean
  rw [hb, walk_append, show (Term.text false).walk (s.buf.map (·.1)) = _ from h]
  exact ht

theorem Clean.same {s s' : St} (h : Clean s) (hb : s'.buf = s.buf) : Clean s' := by
  unfold Clean; rw [hb]; exact h

theorem map_put (s : St) (t : Str) : (s.put t).buf.map (·.1) = s.buf.map (·.1) ++ t := by
  simp [St.put, Function.comp_def]

theorem map_say (s : St) (t : Str) : (s.say t).buf.map (·.1) = s.buf.map (·.1) ++ t := by
  simp [St.say, Function.comp_def]

theorem Clean.put {s : St} (h : Clean s) (t : Str) (ht : (Term.text false).walk t = some (.text false)) : Clean (s.put t) := h.add (map_put s t) ht

theorem Clean.flush {s : St} (h : Clean s) : Clean s.flush := by
  unfold St.flush
  split
  · exact h
  · by_cases he : s.buf.isEmpty
    · exact h.same (by simp [he])
    · refine h.add (t := List.replicate s.pending '\n') (by simp [he]) (walk_plain _ ?_)
      intro hm
      exact absurd (List.eq_of_mem_replicate hm) (by decide)

theorem Clean.newline {s : St} (h : Clean s) : Clean s.newline := by unfold St.newline; split <;> exact h
theorem Clean.blank {s : St} (h : Clean s) : Clean s.blank := by unfold St.blank; split <;> exact h

theorem bars_plain (s : St) : '\x1b' ∉ s.bars := by
  unfold St.bars
  rw [List.mem_flatten]
  rintro ⟨l, hl, hc⟩
  rw [List.eq_of_mem_replicate hl] at hc
  exact absurd hc (by decide)

theorem indent_plain (n : Nat) : '\x1b' ∉ (List.replicate n c!"  ").flatten := by
  rw [List.mem_flatten]
  rintro ⟨l, hl, hc⟩
  rw [List.eq_of_mem_replicate hl] at hc
  exact absurd hc (by decide)

theorem Clean.prepare {s : St} (h : Clean s) : Clean s.prepare := by
  unfold St.prepare
  dsimp only
  split
  · exact h.flush.put _ (walk_plain _ (bars_plain _))
  · exact h.flush

theorem Clean.write {s : St} (h : Clean s) (t : Str) (i : Bool) (h1 : '\x1b' ∉ t) (h2 : '\n' ∉ t) : Clean (s.write t i) := by
  unfold St.write
  split
  · exact h
  · dsimp only
    refine h.add (t := stylePrefix s.styles i ++ t ++ (if (stylePrefix s.styles i).isEmpty then [] else reset)) ?_ ?_
    · show (((s.put _).say t).put _).buf.map (·.1) = _
      rw [map_put, map_say, map_put]
      simp
    · rcases prefix_paints s.styles i with hp | hp
      · rw [hp, List.isEmpty_nil, if_pos rfl, List.append_nil]; exact walk_plain t h1
      · have hne : (stylePrefix s.styles i).isEmpty = false := by
          rw [Bool.eq_false_iff]
          intro he
          rw [List.isEmpty_iff] at he
          rw [he] at hp
          exact absurd (hp false) (by decide)
        rw [hne, if_neg (by simp), walk_append, walk_append, hp false, Option.bind_some, walk_line t true h1 h2]
        rfl

theorem Clean.break {s : St} (h : Clean s) : Clean s.break := by
  unfold St.break
  exact Clean.prepare (h.put ['\n'] rfl)

theorem splitNl_line (t : Str) (h : '\x1b' ∉ t) : ∀ l ∈ splitNl t, '\x1b' ∉ l ∧ '\n' ∉ l := by
  induction t with
  | nil => intro l hl; rw [splitNl, List.mem_singleton] at hl; subst hl; simp
  | cons c t ih =>
    simp only [List.mem_cons, not_or] at h
    have ih := ih h.2
    rw [splitNl]
    split
    · intro l hl
      rcases List.mem_cons.1 hl with rfl | hl
      · simp
      · exact ih l hl
    · rename_i hc
      split
      · intro l hl
        rw [List.mem_singleton] at hl; subst hl
        simp only [List.mem_singleton]
        exact ⟨h.1, fun e => hc e.symm⟩
      · rename_i l0 ls hs
        intro l hl
        rw [hs] at ih
        rcases List.mem_cons.1 hl with rfl | hl
        · have := ih l0 (List.mem_cons_self ..)
          simp only [List.mem_cons, not_or]
          exact ⟨⟨h.1, this.1⟩, fun e => hc e.symm, this.2⟩
        · exact ih l (List.mem_cons_of_mem _ hl)

theorem Clean.writeLines {s : St} (h : Clean s) (ls : List Str) (hl : ∀ l ∈ ls, '\x1b' ∉ l ∧ '\n' ∉ l) : Clean (s.writeLines ls) := by
  induction ls generalizing s with
  | nil => exact h
  | cons l ls ih =>
    have h1 := hl l (List.mem_cons_self ..)
    cases ls with
    | nil => exact h.write l false h1.1 h1.2
    | cons l' ls => exact ih (h.write l false h1.1 h1.2).break (fun x hx => hl x (List.mem_cons_of_mem _ hx))

theorem Clean.codeLine {s : St} (h : Clean s) (l : Str) (h1 : '\x1b' ∉ l) (h2 : '\n' ∉ l) : Clean (s.codeLine l) := by
  unfold St.codeLine
  dsimp only
  refine h.add (t := (s.bars ++ (List.replicate s.lists.length c!"  ").flatten) ++ (blockBg ++ blockFg ++ [' ']) ++ l ++ ([' '] ++ reset)) ?_ ?_
  · show (((s.put _).say l).put _).buf.map (·.1) = _
    rw [map_put, map_say, map_put]
    simp only [List.append_assoc]
  · have hp : (Term.text false).walk (blockBg ++ blockFg ++ [' ']) = some (.text true) := by decide
    have he : (Term.text true).walk ([' '] ++ reset) = some (.text false) := by decide
    rw [walk_append, walk_append, walk_append, walk_plain _ (by
      intro hm
      rcases List.mem_append.1 hm with hm | hm
      · exact bars_plain s hm
      · exact indent_plain _ hm), Option.bind_some, hp, Option.bind_some, walk_line l true h1 h2, Option.bind_some, he]

theorem Clean.codeMore {s : St} (h : Clean s) (ls : List Str) (hl : ∀ l ∈ ls, '\x1b' ∉ l ∧ '\n' ∉ l) : Clean (s.codeMore ls) := by
  induction ls generalizing s with
  | nil => exact h
  | cons l ls ih =>
    have h1 := hl l (List.mem_cons_self ..)
    exact ih (Clean.codeLine (h.put ['\n'] rfl) l h1.1 h1.2) (fun x hx => hl x (List.mem_cons_of_mem _ hx))

theorem Clean.codeBlock {s : St} (h : Clean s) (t : Str) (ht : '\x1b' ∉ t) : Clean (s.codeBlock t) := by
  have hl := splitNl_line t ht
  unfold St.codeBlock
  split
  · exact h.flush.newline
  · rename_i l ls hs
    rw [hs] at hl
    have h1 := hl l (List.mem_cons_self ..)
    exact ((h.flush.codeLine l h1.1 h1.2).codeMore ls (fun x hx => hl x (List.mem_cons_of_mem _ hx))).newline

theorem Clean.text {s : St} (h : Clean s) (t : Str) (ht : '\x1b' ∉ t) : Clean (s.text t) := by
  unfold St.text
  split
  · exact h
  · split
    · exact h.codeBlock t ht
    · exact h.prepare.writeLines _ (splitNl_line t ht)

theorem digits_plain (n : Nat) : '\x1b' ∉ Record.dec n := by
  unfold Record.dec
  intro hm
  have : (toString n).toList = Nat.toDigits 10 n := by simp
  rw [this] at hm
  exact absurd (Nat.isDigit_of_mem_toDigits (by decide) (by decide) hm) (by decide)

theorem mark_walk (i : Option Nat) : (Term.text false).walk (mark i) = some (.text false) := by
  cases i with
  | none => decide
  | some n =>
    have h1 : (Term.text false).walk markColor = some (.text true) := by decide
    have h2 : (Term.text true).walk (['.'] ++ reset ++ [' ']) = some (.text false) := by decide
    have : mark (some n) = markColor ++ (Record.dec n ++ (['.'] ++ reset ++ [' '])) := by simp [mark]
    rw [this, walk_append, h1, Option.bind_some, walk_append, walk_line _ true (digits_plain n), Option.bind_some, h2]
    unfold Record.dec
    intro hm
    have : (toString n).toList = Nat.toDigits 10 n := by simp
    rw [this] at hm
    exact absurd (Nat.isDigit_of_mem_toDigits (by decide) (by decide) hm) (by decide)

theorem Clean.item {s : St} (h : Clean s) : Clean s.item := by
  unfold St.item
  dsimp only
  have h1 : Clean (s.flush.put ((if s.flush.sol then [] else ['\n']) ++ s.flush.bars ++ (List.replicate (s.flush.lists.length - 1) c!"  ").flatten)) := by
    refine h.flush.put _ (walk_plain _ ?_)
    intro hm
    rcases List.mem_append.1 hm with hm | hm
    · rcases List.mem_append.1 hm with hm | hm
      · split at hm
        · cases hm
        · exact absurd hm (by decide)
      · exact bars_plain _ hm
    · exact indent_plain _ hm
  generalize s.flush.put _ = s1 at h1
  split
  · exact h1
  · rename_i i ls hl
    exact h1.put (mark i) (mark_walk i)

theorem Clean.suffix {s : St} (h : Clean s) (d : Str) (hd : '\x1b' ∉ d) : Clean (s.suffix d) := by
  unfold St.suffix
  split
  · exact h
  · refine h.add (t := c!" (" ++ d ++ c!")") ?_ ?_
    · show (((s.put _).say d).put _).buf.map (·.1) = _
      rw [map_put, map_say, map_put]
      simp
    · apply walk_plain
      simp [hd]

/-- Texts and addresses without ESC; code in a line has no ends of lines. -/
def Ev.safe : Ev → Prop
  | .text t => '\x1b' ∉ t
  | .code t => '\x1b' ∉ t ∧ '\n' ∉ t
  | .math t => '\x1b' ∉ t
  | .reference n => '\x1b' ∉ n
  | .start (.link d) => '\x1b' ∉ d
  | _ => True

/-- The addresses of links begun have none. -/
def SafeLinks (s : St) : Prop := ∀ d, Style.link d ∈ s.styles → '\x1b' ∉ d

theorem SafeLinks.of {s s' : St} (h : SafeLinks s) (hs : s'.styles = s.styles) : SafeLinks s' := by
  intro d hd; rw [hs] at hd; exact h d hd

theorem event_clean (s : St) (e : Ev) (he : e.safe) (h : Clean s) (hl : SafeLinks s) : Clean (s.event e) ∧ SafeLinks (s.event e) := by
  have push : ∀ (s' : St) (x : Style), Clean s' → s'.styles = s.styles → (∀ d, x = .link d → '\x1b' ∉ d) → Clean (s'.push x) ∧ SafeLinks (s'.push x) := by
    intro s' x hc hs hx
    refine ⟨hc, ?_⟩
    intro d hd
    rcases List.mem_cons.1 hd with hd | hd
    · exact hx d hd.symm
    · rw [hs] at hd; exact hl d hd
  have pop : ∀ p, Clean (s.pop p) ∧ SafeLinks (s.pop p) := fun p => ⟨h, fun d hd => hl d (List.mem_of_mem_eraseP hd)⟩
  have blank : ∀ s' : St, Clean s' ∧ SafeLinks s' → Clean s'.blank ∧ SafeLinks s'.blank := fun s' k => ⟨k.1.blank, k.2.of (adds_blank s').styles⟩
  cases e with
  | text t => exact ⟨h.text t he, hl.of (adds_text s t).styles⟩
  | code t => exact ⟨h.prepare.write t true he.1 he.2, hl.of (adds_inline s t).styles⟩
  | math t => exact ⟨h.blank.codeBlock t he, hl.of ((adds_blank s).trans (adds_codeBlock _ t)).styles⟩
  | soft => exact ⟨h.break, hl.of (adds_break s).styles⟩
  | hard => exact ⟨h.break, hl.of (adds_break s).styles⟩
  | rule => exact ⟨Clean.put h.blank.flush _ (by decide), hl.of (adds_rule s).styles⟩
  | task c => exact ⟨Clean.put h _ (by cases c <;> decide), hl.of (adds_task s c).styles⟩
  | reference n =>
    refine ⟨h.text _ ?_, hl.of (adds_text s _).styles⟩
    have he : '\x1b' ∉ n := he
    simp [he]
  | start t =>
    cases t with
    | paragraph =>
      show Clean (if _ then _ else _ : St) ∧ SafeLinks (if _ then _ else _ : St)
      split
      · exact blank s ⟨h, hl⟩
      · exact ⟨h.newline, hl.of (adds_newline s).styles⟩
    | heading l => exact push _ _ h.blank (adds_blank s).styles nofun
    | quote => exact push _ _ h.blank (adds_blank s).styles nofun
    | code => exact push _ _ h.blank (adds_blank s).styles nofun
    | emphasis => exact push _ _ h rfl nofun
    | strong => exact push _ _ h rfl nofun
    | strike => exact push _ _ h rfl nofun
    | list n => exact ⟨h.blank, hl.of (adds_blank s).styles⟩
    | item => exact ⟨h.item, hl.of (adds_item s).styles⟩
    | link d => exact push _ _ h rfl (fun d' hd => by cases hd; exact he)
    | image d => exact ⟨h, hl⟩
    | table => exact blank s ⟨h, hl⟩
    | footnote d => exact blank s ⟨h, hl⟩
    | other => exact ⟨h, hl⟩
  | stop k =>
    cases k with
    | paragraph => exact ⟨h.newline, hl.of (adds_newline s).styles⟩
    | heading => exact blank _ (pop _)
    | quote => exact blank _ (pop _)
    | code => exact blank _ (pop _)
    | emphasis => exact pop _
    | strong => exact pop _
    | strike => exact pop _
    | list => exact ⟨Clean.newline h, hl.of (adds_newline _).styles⟩
    | item =>
      refine ⟨Clean.newline (s := if s.sol then s else { s.put ['\n'] with sol := true }) ?_, hl.of ((adds_newline _).styles.trans ?_)⟩
      · split
        · exact h
        · exact h.put ['\n'] rfl
      · split <;> rfl
    | link =>
      show Clean (match s.styles.find? Style.isLink with | some (.link d) => _ | _ => _ : St) ∧ SafeLinks (match s.styles.find? Style.isLink with | some (.link d) => _ | _ => _ : St)
      split
      · rename_i d hd
        have hs := hl d (List.mem_of_find?_eq_some hd)
        have k := pop Style.isLink
        exact ⟨k.1.suffix d hs, k.2.of (adds_suffix _ d).styles⟩
      · exact ⟨h, hl⟩
    | image => exact ⟨h, hl⟩
    | table => exact blank s ⟨h, hl⟩
    | footnote => exact blank s ⟨h, hl⟩
    | other => exact ⟨h, hl⟩

theorem run_clean (es : List Ev) (he : ∀ e ∈ es, e.safe) (s : St) (h : Clean s) (hl : SafeLinks s) : Clean (s.run es) := by
  induction es generalizing s with
  | nil => exact h
  | cons e es ih =>
    obtain ⟨h1, h2⟩ := event_clean s e (he e (List.mem_cons_self ..)) h hl
    exact ih (fun x hx => he x (List.mem_cons_of_mem _ hx)) _ h1 h2

/-- **C174, colours end.** An answer whose texts have no ESC leaves the terminal plain at the end of each line
and at its own end, whatever its parts are and however they are nested; every sequence written is complete. -/
theorem C174_plain_partial (es : List Ev) (he : ∀ e ∈ es, e.safe) : (Term.text false).walk (shown es) = some (.text false) := by
  have h : Clean (({} : St).run es).flush := (run_clean es he {} rfl (by intro d hd; cases hd)).flush
  unfold Clean at h
  unfold shown render St.finish
  generalize (({} : St).run es).flush.buf = b at h
  have key : ∀ r : List (Char × Bool), (Term.text false).walk (r.reverse.map (·.1)) = some (.text false) →
      (Term.text false).walk ((r.dropWhile (fun c => decide (c.1 = '\n'))).reverse.map (·.1)) = some (.text false) := by
    intro r
    induction r with
    | nil => intro h; exact h
    | cons c r ih =>
      intro h
      rw [List.dropWhile_cons]
      split
      · rename_i hc
        apply ih
        have hc : c.1 = '\n' := by simpa using hc
        rw [List.reverse_cons, List.map_append, walk_append] at h
        cases hw : (Term.text false).walk (r.reverse.map (·.1)) with
        | none => rw [hw] at h; cases h
        | some t =>
          rw [hw, Option.bind_some] at h
          simp only [List.map_cons, List.map_nil, hc, Term.walk] at h
          cases t with
          | text b =>
            cases b with
            | false => rfl
            | true => simp [Term.step] at h
          | esc b => simp [Term.step] at h
          | csi b ps => simp [Term.step] at h
      · exact h
  exact key b.reverse (by rw [List.reverse_reverse]; exact h)

/-! ## Simple answers -/

/-- A text of one line. -/
def Line (t : Str) : Prop := t ≠ [] ∧ '\n' ∉ t

theorem Line.split {t : Str} (h : Line t) : splitNl t = [t] := by
  have := h.2
  clear h
  induction t with
  | nil => rfl
  | cons c t ih =>
    simp only [List.mem_cons, not_or] at this
    rw [splitNl, if_neg (fun e => this.1 e.symm), ih this.2]

/-- Characters of the answer, and others. -/
def from' (t : Str) : List (Char × Bool) := t.map (·, true)
def deco (t : Str) : List (Char × Bool) := t.map (·, false)

theorem finish_eq (s : St) (hne : s.buf ≠ []) (h : ∀ x ∈ s.buf.getLast?, x.1 ≠ '\n') : s.finish = s.buf := by
  have key : ∀ n, ((s.buf ++ List.replicate n ('\n', false)).reverse.dropWhile (fun c => decide (c.1 = '\n'))).reverse = s.buf := by
    intro n
    rw [List.reverse_append, List.reverse_replicate]
    induction n with
    | zero =>
      rw [List.replicate_zero, List.nil_append]
      cases hr : s.buf.reverse with
      | nil => exact absurd (List.reverse_eq_nil_iff.1 hr) hne
      | cons x r =>
        have hx : x ∈ s.buf.getLast? := by rw [List.getLast?_eq_head?_reverse, hr]; rfl
        rw [List.dropWhile_cons, if_neg (by simpa using h x hx), ← hr, List.reverse_reverse]
    | succ n ih =>
      rw [List.replicate_succ, List.cons_append, List.dropWhile_cons, if_pos (by simp)]
      exact ih
  unfold St.finish St.flush
  split
  · have := key 0
    rw [List.replicate_zero, List.append_nil] at this
    exact this
  · dsimp only
    rw [if_neg (by simp [hne])]
    exact key s.pending

/-- A text of one line where no style is. -/
theorem text_line (s : St) (t : Str) (h : Line t) (hs : s.styles = []) : s.text t = { s.flush with buf := s.flush.buf ++ from' t, sol := false, wrote := true } := by
  have hf : s.flush.styles = [] := by rw [(adds_flush s).styles, hs]
  have hp : s.prepare = s.flush := by
    unfold St.prepare
    have : s.flush.bars = [] := by unfold St.bars St.depth; rw [hf]; rfl
    simp [this]
  unfold St.text
  rw [if_neg (by simp [h.1]), if_neg (by simp [hs]), hp, h.split]
  show s.flush.write t false = _
  unfold St.write
  rw [if_neg (by simp [h.1]), hf]
  simp [stylePrefix, St.put, St.say, from']

/-- The state after a paragraph. -/
def afterPar (b : List (Char × Bool)) : St := { buf := b, pending := 1, wrote := true }

def paragraph (t : Str) : List Ev := [.start .paragraph, .text t, .stop .paragraph]

theorem par_first (t : Str) (h : Line t) : ({} : St).run (paragraph t) = afterPar (from' t) := by
  show St.newline (St.text {} t) = _
  rw [text_line {} t h rfl]
  rfl

theorem par_next (b : List (Char × Bool)) (hb : b ≠ []) (t : Str) (h : Line t) : (afterPar b).run (paragraph t) = afterPar (b ++ deco c!"\n\n" ++ from' t) := by
  show St.newline (St.text { buf := b, pending := 2, wrote := true } t) = _
  rw [text_line _ t h rfl]
  simp [St.flush, hb, St.newline, afterPar, deco, List.replicate]

theorem run_append (s : St) (a b : List Ev) : s.run (a ++ b) = (s.run a).run b := List.foldl_append ..

theorem pars_next (b : List (Char × Bool)) (hb : b ≠ []) (ts : List Str) (h : ∀ t ∈ ts, Line t) :
    (afterPar b).run (ts.flatMap paragraph) = afterPar (b ++ ts.flatMap (fun t => deco c!"\n\n" ++ from' t)) := by
  induction ts generalizing b with
  | nil => simp [St.run]
  | cons t ts ih =>
    rw [List.flatMap_cons, run_append, par_next b hb t (h t (List.mem_cons_self ..)), ih _ (by simp [hb]) (fun x hx => h x (List.mem_cons_of_mem _ hx))]
    simp

theorem last_from (a : List (Char × Bool)) (t : Str) (h : Line t) : ∀ x ∈ (a ++ from' t).getLast?, x.1 ≠ '\n' := by
  intro x hx
  rw [List.getLast?_append] at hx
  have hne : from' t ≠ [] := by simp [from', h.1]
  cases hl : (from' t).getLast? with
  | none => exact absurd (List.getLast?_eq_none_iff.1 hl) hne
  | some y =>
    rw [hl] at hx
    have hx : y = x := by simpa using hx
    subst hx
    have := List.mem_of_getLast? hl
    obtain ⟨c, hc, rfl⟩ := List.mem_map.1 this
    rintro rfl
    exact h.2 hc

theorem from_ne {t : Str} (h : Line t) : from' t ≠ [] := by simp [from', h.1]

/-- Put between the lines. -/
def joined (sep : Str) : List Str → Str
  | [] => []
  | [t] => t
  | t :: ts => t ++ sep ++ joined sep ts

theorem joined_cons (sep t : Str) (ts : List Str) : joined sep (t :: ts) = t ++ ts.flatMap (sep ++ ·) := by
  induction ts generalizing t with
  | nil => simp [joined]
  | cons u ts ih => rw [joined, ih u]; simp; nofun

/-- **C173, paragraphs** are written as they are, with an empty line between them. -/
theorem C173_paragraphs_partial (ts : List Str) (h : ∀ t ∈ ts, Line t) : shown (ts.flatMap paragraph) = joined c!"\n\n" ts := by
  cases ts with
  | nil => rfl
  | cons t ts =>
    have ht := h t (List.mem_cons_self ..)
    have hr : ({} : St).run ((t :: ts).flatMap paragraph) = afterPar (from' t ++ ts.flatMap (fun t => deco c!"\n\n" ++ from' t)) := by
      rw [List.flatMap_cons, run_append, par_first t ht, pars_next _ (from_ne ht) ts (fun x hx => h x (List.mem_cons_of_mem _ hx))]
    unfold shown render
    rw [hr, finish_eq]
    · rw [joined_cons]
      simp [afterPar, from', deco, List.map_flatMap, Function.comp_def]
    · simp [afterPar, from', ht.1]
    · show ∀ x ∈ (from' t ++ ts.flatMap (fun t => deco c!"\n\n" ++ from' t)).getLast?, _
      rcases List.eq_nil_or_concat ts with rfl | ⟨ts', u, rfl⟩
      · rw [List.flatMap_nil, List.append_nil]; exact last_from [] t ht
      · rw [List.concat_eq_append, List.flatMap_append, List.flatMap_singleton, ← List.append_assoc, ← List.append_assoc]
        exact last_from _ u (h u (by simp))

/-- **C174 fails: sequences of the answer.** A paragraph is written as it is, with all sequences in it: the
service, or a file it has read, can change colours, titles and more of the terminal. -/
theorem C174_raw_violated (t : Str) (h : t ≠ []) (hn : '\n' ∉ t) : shown (paragraph t) = t := by
  have := C173_paragraphs_partial [t] (by intro x hx; rw [List.mem_singleton] at hx; subst hx; exact ⟨h, hn⟩)
  rw [List.flatMap_singleton] at this
  exact this

/-! ### Lists -/

def tightItem (t : Str) : List Ev := [.start .item, .text t, .stop .item]

/-- The state after an item of a list with bullets. -/
def afterItem (b : List (Char × Bool)) : St := { buf := b, lists := [none], pending := 1, sol := true, wrote := true }

theorem item_first (t : Str) (h : Line t) : ({} : St).run (.start (.list none) :: tightItem t) =
    afterItem (deco (['\n'] ++ mark none) ++ from' t ++ deco ['\n']) := by
  show ({ lists := [none] } : St).run (tightItem t) = _
  have hi : ({ lists := [none] } : St).item = { buf := deco (['\n'] ++ mark none), lists := [none], wrote := true } := by rfl
  show (St.text ({ lists := [none] } : St).item t).stop .item = _
  rw [hi, text_line _ t h rfl]
  simp [St.flush, St.stop, St.newline, afterItem, St.put, deco]

theorem item_next (b : List (Char × Bool)) (hb : b ≠ []) (t : Str) (h : Line t) : (afterItem b).run (tightItem t) =
    afterItem (b ++ deco (['\n'] ++ mark none) ++ from' t ++ deco ['\n']) := by
  have hi : (afterItem b).item = { buf := b ++ deco (['\n'] ++ mark none), lists := [none], wrote := true } := by
    simp [afterItem, St.item, St.flush, hb, St.put, St.bars, St.depth, deco]
  show (St.text (afterItem b).item t).stop .item = _
  rw [hi, text_line _ t h rfl]
  simp [St.flush, St.stop, St.newline, afterItem, St.put, deco]

theorem items_next (b : List (Char × Bool)) (hb : b ≠ []) (ts : List Str) (h : ∀ t ∈ ts, Line t) :
    (afterItem b).run (ts.flatMap tightItem) = afterItem (b ++ ts.flatMap (fun t => deco (['\n'] ++ mark none) ++ from' t ++ deco ['\n'])) := by
  induction ts generalizing b with
  | nil => simp [St.run]
  | cons t ts ih =>
    rw [List.flatMap_cons, run_append, item_next b hb t (h t (List.mem_cons_self ..)), ih _ (by simp [hb]) (fun x hx => h x (List.mem_cons_of_mem _ hx))]
    simp

theorem finish_more (s : St) (b : List (Char × Bool)) (n : Nat) (hs : s.buf = b ++ deco (List.replicate n '\n')) (hne : b ≠ [])
    (h : ∀ x ∈ b.getLast?, x.1 ≠ '\n') : s.finish = b := by
  have h1 := finish_eq { s with buf := b, pending := n + s.pending } hne h
  refine Eq.trans ?_ h1
  unfold St.finish St.flush
  have hd : deco (List.replicate n '\n') = List.replicate n ('\n', false) := by simp [deco]
  by_cases hp : s.pending = 0
  · rw [if_pos hp]
    by_cases hn : n + s.pending = 0
    · rw [if_pos hn, hs]
      have : n = 0 := by omega
      subst this
      simp [deco]
    · rw [if_neg hn]
      dsimp only
      rw [if_neg (by simp [hne]), hs, hd, hp, Nat.add_zero]
  · have hq : ¬ n + s.pending = 0 := by omega
    have e1 : s.buf.isEmpty = false := by rw [hs]; simp [hne]
    have e2 : b.isEmpty = false := by simp [hne]
    rw [if_neg hp]
    dsimp only
    rw [e1, if_neg hq]
    dsimp only
    rw [e2, hs, hd]
    simp only [Bool.false_eq_true, if_false]
    rw [List.append_assoc, List.replicate_append_replicate]

/-- A bullet in green and a blank. -/
def bullet : Str := esc :: c!"[38;5;150m•" ++ [esc] ++ c!"[0m "

/-- **C173 fails: short lists.** A list of single lines begins with an empty line, and between its items there
are empty lines. -/
theorem C173_apart_violated (t : Str) (ts : List Str) (h : ∀ x ∈ t :: ts, Line x) :
    shown (.start (.list none) :: (t :: ts).flatMap tightItem ++ [.stop .list]) = ['\n'] ++ joined c!"\n\n" ((t :: ts).map (bullet ++ ·)) := by
  rw [show bullet = mark none from rfl]
  have ht := h t (List.mem_cons_self ..)
  have hr : ({} : St).run (.start (.list none) :: (t :: ts).flatMap tightItem ++ [.stop .list]) =
      { afterItem (deco (['\n'] ++ mark none) ++ from' t ++ deco ['\n'] ++ ts.flatMap (fun t => deco (['\n'] ++ mark none) ++ from' t ++ deco ['\n'])) with lists := [] } := by
    rw [run_append, List.flatMap_cons, ← List.cons_append, run_append, item_first t ht, items_next _ (by simp [deco]) ts (fun x hx => h x (List.mem_cons_of_mem _ hx))]
    simp [St.run, St.event, St.stop, St.newline, afterItem]
  have hb : ∀ (t : Str) (ts : List Str), deco (['\n'] ++ mark none) ++ from' t ++ deco ['\n'] ++ ts.flatMap (fun t => deco (['\n'] ++ mark none) ++ from' t ++ deco ['\n']) =
      deco (['\n'] ++ mark none) ++ from' t ++ ts.flatMap (fun t => deco (c!"\n\n" ++ mark none) ++ from' t) ++ deco ['\n'] := by
    intro t ts
    induction ts generalizing t with
    | nil => simp
    | cons u ts ih =>
      have := ih u
      rw [List.flatMap_cons, List.flatMap_cons]
      simp only [List.append_assoc] at this ⊢
      rw [this]
      simp [deco]
  unfold shown render
  rw [hr, finish_more _ (deco (['\n'] ++ mark none) ++ from' t ++ ts.flatMap (fun t => deco (c!"\n\n" ++ mark none) ++ from' t)) 1 (hb t ts)]
  · rw [List.map_cons, joined_cons]
    simp [from', deco, List.map_flatMap, List.flatMap_map, Function.comp_def]
  · simp [deco]
  · rcases List.eq_nil_or_concat ts with rfl | ⟨ts', u, rfl⟩
    · rw [List.flatMap_nil, List.append_nil]; exact last_from _ t ht
    · rw [List.concat_eq_append, List.flatMap_append, List.flatMap_singleton, ← List.append_assoc, ← List.append_assoc]
      exact last_from _ u (h u (by simp))

/-- **C173 fails: longer lists.** If the items are paragraphs, as they are when there are empty lines between
them, the bullet is on a line of its own and the text on the next. -/
theorem C173_bullet_violated (t : Str) (h : Line t) :
    shown ([.start (.list none), .start .item] ++ paragraph t ++ [.stop .item, .stop .list]) = ['\n'] ++ bullet ++ ['\n'] ++ t := by
  rw [show bullet = mark none from rfl]
  have hr : ({} : St).run ([.start (.list none), .start .item] ++ paragraph t ++ [.stop .item, .stop .list]) =
      { buf := deco (['\n'] ++ mark none ++ ['\n']) ++ from' t ++ deco ['\n'], pending := 1, sol := true, wrote := true } := by
    rw [run_append, run_append]
    have h1 : ({} : St).run [.start (.list none), .start .item] = { buf := deco (['\n'] ++ mark none), lists := [none], wrote := true } := rfl
    rw [h1]
    have h2 : ({ buf := deco (['\n'] ++ mark none), lists := [none], wrote := true } : St).run (paragraph t) =
        St.newline (St.text { buf := deco (['\n'] ++ mark none), lists := [none], wrote := true, pending := 1 } t) := rfl
    rw [h2, text_line _ t h rfl]
    simp [St.flush, St.newline, St.run, St.event, St.stop, St.put, deco]
  unfold shown render
  rw [hr, finish_more _ (deco (['\n'] ++ mark none ++ ['\n']) ++ from' t) 1 rfl (by simp [deco]) (last_from _ t h)]
  simp [from', deco, Function.comp_def]

/-! ### Quotes, code and tables -/

/-- **C173 fails: a quote at the beginning.** An answer that begins with a quote has no bar in front of it. -/
theorem C173_quote_violated (t : Str) (h : Line t) :
    shown ([.start .quote] ++ paragraph t ++ [.stop .quote]) = quoteColor ++ t ++ reset := by
  have h1 : ({} : St).run ([.start .quote] ++ paragraph t ++ [.stop .quote]) = (St.newline (St.text { styles := [.quote] } t)).stop .quote := rfl
  have h2 : St.text { styles := [.quote] } t = { buf := deco quoteColor ++ from' t ++ deco reset, styles := [.quote], wrote := true } := by
    unfold St.text
    rw [if_neg (by simp [h.1]), if_neg (by simp), h.split]
    show St.write { styles := [.quote] } t false = _
    unfold St.write
    rw [if_neg (by simp [h.1])]
    simp [stylePrefix, Style.isHeading, Style.isLink, quoteColor, St.put, St.say, from', deco]
  unfold shown render
  rw [h1, h2, finish_eq]
  · simp [St.newline, St.stop, St.pop, St.blank, from', deco, Function.comp_def]
  · simp [St.newline, St.stop, St.pop, St.blank, deco, quoteColor]
  · intro x hx
    have : x = ('m', false) := by
      simp [St.newline, St.stop, St.pop, St.blank, deco, reset, List.getLast?_append] at hx
      exact hx.symm
    subst this
    decide

/-- A line of code on the terminal. -/
def painted (l : Str) : Str := blockBg ++ blockFg ++ [' '] ++ l ++ [' '] ++ reset

/-- **C173 fails: code.** Every line of a block has a blank more on both sides, so what is copied is not the
code; and the end of the last line makes a line more. -/
theorem C173_code_violated (l : Str) (h : '\n' ∉ l) : shown [.start .code, .text (l ++ ['\n']), .stop .code] = painted l ++ ['\n'] ++ painted [] := by
  have hs : splitNl (l ++ ['\n']) = [l, []] := by
    induction l with
    | nil => rfl
    | cons c l ih =>
      simp only [List.mem_cons, not_or] at h
      rw [List.cons_append, splitNl, if_neg (fun e => h.1 e.symm), ih h.2]
  have h1 : ({} : St).run [.start .code, .text (l ++ ['\n']), .stop .code] = (St.text { styles := [.code] } (l ++ ['\n'])).stop .code := rfl
  have h2 : St.text { styles := [.code] } (l ++ ['\n']) =
      { buf := deco (blockBg ++ blockFg ++ [' ']) ++ from' l ++ deco ([' '] ++ reset ++ ['\n'] ++ painted []), styles := [.code], pending := 1, wrote := true } := by
    unfold St.text
    rw [if_neg (by simp), if_pos (by simp)]
    unfold St.codeBlock
    rw [hs]
    simp [St.flush, St.codeMore, St.codeLine, St.newline, St.put, St.say, St.bars, St.depth, from', deco, painted]
  unfold shown render
  rw [h1, h2, finish_eq]
  · simp [St.stop, St.pop, St.blank, from', deco, painted, Function.comp_def]
  · simp [St.stop, St.pop, St.blank, deco, blockBg]
  · intro x hx
    have : x = ('m', false) := by
      simp only [St.stop, St.pop, St.blank, if_true, List.getLast?_append] at hx
      exact (Option.some.inj hx).symm
    subst this
    decide

/-- A cell of a table. -/
def cell (t : Str) : List Ev := [.start .table, .text t, .stop .table]

/-- **C173 fails: tables.** The cells of a row are written one below the other with empty lines between them. -/
theorem C173_table_violated (a b : Str) (ha : Line a) (hb : Line b) :
    shown ([.start .table, .start .table] ++ cell a ++ cell b ++ [.stop .table, .stop .table]) = a ++ c!"\n\n" ++ b := by
  have h1 : ({} : St).run ([.start .table, .start .table] ++ cell a ++ cell b ++ [.stop .table, .stop .table]) =
      ((((St.text (((St.text {} a).stop .table).begin .table) b).stop .table).stop .table).stop .table) := rfl
  have h2 : (St.text {} a).stop .table = { buf := from' a, pending := 2, wrote := true } := by
    rw [text_line {} a ha rfl]; rfl
  have h3 : St.text (({ buf := from' a, pending := 2, wrote := true } : St).begin .table) b = { buf := from' a ++ deco c!"\n\n" ++ from' b, wrote := true } := by
    show St.text { buf := from' a, pending := 2, wrote := true } b = _
    rw [text_line _ b hb rfl]
    have := from_ne ha
    simp [St.flush, this, deco, List.replicate]
  unfold shown render
  rw [h1, h2, h3, finish_eq]
  · simp [St.stop, St.blank, from', deco, Function.comp_def]
  · simp [St.stop, St.blank, deco]
  · exact last_from (from' a ++ deco c!"\n\n") b hb

/-! ### Numbers -/

/-- Neither a beginning nor an end. -/
def Ev.inner : Ev → Bool
  | .start _ => false
  | .stop _ => false
  | _ => true

/-- Parts of an answer, properly nested. -/
inductive Doc where
  | leaf (e : Ev) (h : e.inner = true)
  | node (t : Tag) (cs : List Doc)

def Tag.kind : Tag → Kind
  | .paragraph => .paragraph | .heading _ => .heading | .quote => .quote | .code => .code | .emphasis => .emphasis
  | .strong => .strong | .strike => .strike | .list _ => .list | .item => .item | .link _ => .link | .image _ => .image
  | .table => .table | .footnote _ => .footnote | .other => .other

mutual
/-- The events of a part. -/
def Doc.events : Doc → List Ev
  | .leaf e _ => [e]
  | .node t cs => .start t :: (eventsOf cs ++ [.stop t.kind])
def eventsOf : List Doc → List Ev
  | [] => []
  | d :: ds => d.events ++ eventsOf ds
end

mutual
/-- The items of a part that are not in a list of this part. -/
def Doc.items : Doc → Nat
  | .leaf _ _ => 0
  | .node (.list _) _ => 0
  | .node .item cs => 1 + itemsOf cs
  | .node _ cs => itemsOf cs
def itemsOf : List Doc → Nat
  | [] => 0
  | d :: ds => d.items + itemsOf ds
end

def bump (k : Nat) : List (Option Nat) → List (Option Nat)
  | [] => []
  | i :: ls => i.map (· + k) :: ls

theorem bump_zero (l : List (Option Nat)) : bump 0 l = l := by
  cases l with
  | nil => rfl
  | cons i l => cases i <;> rfl

theorem bump_bump (a b : Nat) (l : List (Option Nat)) : bump b (bump a l) = bump (a + b) l := by
  cases l with
  | nil => rfl
  | cons i l => cases i with
    | none => rfl
    | some n => simp [bump, Nat.add_assoc]

theorem flush_lists (s : St) : s.flush.lists = s.lists := by unfold St.flush; split <;> rfl
theorem newline_lists (s : St) : s.newline.lists = s.lists := by unfold St.newline; split <;> rfl
theorem blank_lists (s : St) : s.blank.lists = s.lists := by unfold St.blank; split <;> rfl
theorem prepare_lists (s : St) : s.prepare.lists = s.lists := by
  unfold St.prepare; dsimp only; split <;> exact flush_lists s
theorem write_lists (s : St) (t : Str) (i : Bool) : (s.write t i).lists = s.lists := by unfold St.write; split <;> rfl
theorem break_lists (s : St) : s.break.lists = s.lists := prepare_lists _
theorem writeLines_lists (ls : List Str) (s : St) : (s.writeLines ls).lists = s.lists := by
  induction ls generalizing s with
  | nil => rfl
  | cons l ls ih =>
    cases ls with
    | nil => exact write_lists s l false
    | cons l' ls => exact (ih _).trans ((break_lists _).trans (write_lists _ _ _))
theorem codeMore_lists (ls : List Str) (s : St) : (s.codeMore ls).lists = s.lists := by
  induction ls generalizing s with
  | nil => rfl
  | cons l ls ih => exact ih _
theorem codeBlock_lists (s : St) (t : Str) : (s.codeBlock t).lists = s.lists := by
  unfold St.codeBlock
  rw [newline_lists]
  split
  · exact flush_lists s
  · rw [codeMore_lists]; exact flush_lists s
theorem text_lists (s : St) (t : Str) : (s.text t).lists = s.lists := by
  unfold St.text
  split
  · rfl
  · split
    · exact codeBlock_lists s t
    · rw [writeLines_lists, prepare_lists]

theorem inner_lists (s : St) (e : Ev) (h : e.inner = true) : (s.event e).lists = s.lists := by
  cases e with
  | start t => cases h
  | stop k => cases h
  | text t => exact text_lists s t
  | code t => exact (write_lists _ _ _).trans (prepare_lists s)
  | math t => exact (codeBlock_lists _ _).trans (blank_lists s)
  | soft => exact break_lists s
  | hard => exact break_lists s
  | rule => exact (flush_lists _).trans (blank_lists s)
  | task c => rfl
  | reference n => exact text_lists s _

theorem item_lists (s : St) : s.item.lists = bump 1 s.lists := by
  unfold St.item
  dsimp only
  have : (s.flush.put ((if s.flush.sol then [] else ['\n']) ++ s.flush.bars ++ (List.replicate (s.flush.lists.length - 1) c!"  ").flatten)).lists = s.lists :=
    flush_lists s
  generalize s.flush.put _ = s1 at this
  rw [← this]
  split
  · rename_i h; rw [h]; rfl
  · rename_i h; rw [h]; rfl

theorem begin_lists (s : St) (t : Tag) : (s.begin t).lists = match t with
    | .list n => n :: s.lists
    | .item => bump 1 s.lists
    | _ => s.lists := by
  cases t with
  | paragraph =>
    show (if _ then _ else _ : St).lists = _
    split
    · exact blank_lists s
    · exact newline_lists s
  | list n => exact congrArg _ (blank_lists s)
  | item => exact item_lists s
  | heading _ => exact blank_lists s
  | quote => exact blank_lists s
  | code => exact blank_lists s
  | table => exact blank_lists s
  | footnote _ => exact blank_lists s
  | _ => rfl

theorem suffix_lists (s : St) (d : Str) : (s.suffix d).lists = s.lists := by unfold St.suffix; split <;> rfl

theorem stop_lists (s : St) (k : Kind) : (s.stop k).lists = match k with
    | .list => s.lists.tail
    | _ => s.lists := by
  cases k with
  | paragraph => exact newline_lists s
  | heading => exact blank_lists _
  | quote => exact blank_lists _
  | code => exact blank_lists _
  | list => exact newline_lists _
  | item =>
    refine (newline_lists _).trans ?_
    split <;> rfl
  | link =>
    show (match s.styles.find? Style.isLink with | some (.link d) => _ | _ => _ : St).lists = _
    split
    · exact suffix_lists _ _
    · rfl
  | table => exact blank_lists s
  | footnote => exact blank_lists s
  | _ => rfl

mutual
theorem doc_lists (d : Doc) (s : St) : (s.run d.events).lists = bump d.items s.lists := by
  cases d with
  | leaf e h => rw [Doc.events, Doc.items, bump_zero]; exact inner_lists s e h
  | node t cs =>
    have h : ∀ s : St, (s.run (eventsOf cs)).lists = bump (itemsOf cs) s.lists := docs_lists cs
    rw [Doc.events]
    show ((s.begin t).run (eventsOf cs ++ [.stop t.kind])).lists = _
    rw [run_append]
    show (((s.begin t).run (eventsOf cs)).stop t.kind).lists = _
    rw [stop_lists, h, begin_lists]
    cases t with
    | list n => rw [Doc.items, bump_zero]; rfl
    | item => rw [Doc.items]; exact bump_bump 1 _ _
    | _ => rw [Doc.items] <;> first | rfl | (intros; contradiction)
theorem docs_lists (ds : List Doc) (s : St) : (s.run (eventsOf ds)).lists = bump (itemsOf ds) s.lists := by
  cases ds with
  | nil => rw [itemsOf, bump_zero]; rfl
  | cons d ds => rw [eventsOf, run_append, docs_lists ds, doc_lists d, itemsOf, bump_bump]
end

/-- A number in green with a point and a blank. -/
def numbered (n : Nat) : Str := esc :: c!"[38;5;150m" ++ (toString n).toList ++ ['.', esc] ++ c!"[0m "

/-- **C173, numbers.** Whatever the items of a numbered list contain, other lists included, the next item has the
number of the first one more for each item before it. -/
theorem C173_numbers_partial (s : St) (n : Nat) (its : List (List Doc)) (h : ∀ cs ∈ its, itemsOf cs = 0) :
    ∃ b, (s.run (.start (.list (some n)) :: (its.flatMap (fun cs => (Doc.node .item cs).events) ++ [.start .item]))).buf =
      b ++ deco (numbered (n + its.length)) := by
  have hl : ((s.begin (.list (some n))).run (its.flatMap (fun cs => (Doc.node .item cs).events))).lists = some (n + its.length) :: s.lists := by
    have hb : (s.begin (.list (some n))).lists = some n :: s.lists := begin_lists s _
    generalize s.begin (.list (some n)) = s1 at hb
    induction its generalizing n s1 with
    | nil => exact hb
    | cons cs its ih =>
      rw [List.flatMap_cons, run_append]
      have h1 := doc_lists (.node .item cs) s1
      rw [Doc.items, h cs (List.mem_cons_self ..), hb] at h1
      have := ih (n + 1) (fun x hx => h x (List.mem_cons_of_mem _ hx)) _ h1
      rw [this, List.length_cons, show n + 1 + its.length = n + (its.length + 1) by omega]
  show ∃ b, ((s.begin (.list (some n))).run (its.flatMap (fun cs => (Doc.node .item cs).events) ++ [.start .item])).buf = _
  rw [run_append]
  generalize (s.begin (.list (some n))).run _ = s2 at hl
  show ∃ b, s2.item.buf = _
  unfold St.item
  dsimp only
  have hf : (s2.flush.put ((if s2.flush.sol then [] else ['\n']) ++ s2.flush.bars ++ (List.replicate (s2.flush.lists.length - 1) c!"  ").flatten)).lists =
      some (n + its.length) :: s.lists := (flush_lists s2).trans hl
  generalize s2.flush.put _ = s3 at hf
  split
  · rename_i hn; rw [hn] at hf; cases hf
  · rename_i i ls hn
    rw [hn] at hf
    cases hf
    refine ⟨s3.buf, ?_⟩
    show s3.buf ++ deco (mark _) = _
    simp [mark, numbered, markColor, reset, Record.dec]

/-! ### Quotes further down -/

def quoted (l : Str) : Str := c!"│ " ++ quoteColor ++ l ++ reset

/-- Lines with soft ends between them. -/
def softLines : List Str → List Ev
  | [] => []
  | [l] => [.text l]
  | l :: ls => .text l :: .soft :: softLines ls

def inQuote (b : List (Char × Bool)) (bar : Bool) : St := { buf := b, styles := [.quote], sol := !bar, wrote := true }

theorem quote_text (b : List (Char × Bool)) (bar : Bool) (l : Str) (h : Line l) :
    (inQuote b bar).text l = inQuote (b ++ deco ((if bar then [] else c!"│ ") ++ quoteColor) ++ from' l ++ deco reset) true := by
  unfold St.text
  rw [if_neg (by simp [h.1]), if_neg (by simp [inQuote]), h.split]
  show (inQuote b bar).prepare.write l false = _
  have hp : (inQuote b bar).prepare = inQuote (b ++ deco (if bar then [] else c!"│ ")) true := by
    cases bar <;> simp [inQuote, St.prepare, St.flush, St.bars, St.depth, St.put, deco]
  rw [hp]
  unfold St.write
  rw [if_neg (by simp [h.1])]
  simp [inQuote, stylePrefix, Style.isHeading, Style.isLink, quoteColor, St.put, St.say, from', deco]

theorem quote_lines (b : List (Char × Bool)) (bar : Bool) (l : Str) (ls : List Str) (h : ∀ x ∈ l :: ls, Line x) :
    (inQuote b bar).run (softLines (l :: ls)) = inQuote (b ++ deco ((if bar then [] else c!"│ ") ++ quoteColor) ++ from' l ++ deco reset ++
      ls.flatMap (fun l => deco (c!"\n│ " ++ quoteColor) ++ from' l ++ deco reset)) true := by
  induction ls generalizing b bar l with
  | nil =>
    show (inQuote b bar).text l = _
    rw [quote_text b bar l (h l (by simp)), List.flatMap_nil, List.append_nil]
  | cons l' ls ih =>
    show St.run (((inQuote b bar).text l).break) (softLines (l' :: ls)) = _
    rw [quote_text b bar l (h l (by simp))]
    have hb : ∀ b, (inQuote b true).break = inQuote (b ++ deco c!"\n│ ") true := by
      intro b
      simp [inQuote, St.break, St.prepare, St.flush, St.bars, St.depth, St.put, deco]
    rw [hb, ih _ true l' (fun x hx => h x (List.mem_cons_of_mem _ hx))]
    simp [deco]

/-- **C173, quotes.** Behind a paragraph every line of a quote has its bar. -/
theorem C173_quote_partial (t l : Str) (ls : List Str) (ht : Line t) (h : ∀ x ∈ l :: ls, Line x) :
    shown (paragraph t ++ ([.start .quote, .start .paragraph] ++ softLines (l :: ls) ++ [.stop .paragraph, .stop .quote])) =
      t ++ c!"\n\n" ++ joined c!"\n" ((l :: ls).map quoted) := by
  have hne := from_ne ht
  have hq : (afterPar (from' t)).run [.start .quote, .start .paragraph] = { buf := from' t, styles := [.quote], pending := 2, wrote := true } := rfl
  have hflush : ∀ es : List Ev, es ≠ [] → ∀ l', es.head? = some (.text l') → Line l' →
      ({ buf := from' t, styles := [.quote], pending := 2, wrote := true } : St).run es = (inQuote (from' t ++ deco c!"\n\n") false).run es := by
    intro es _ l' hl hline
    cases es with
    | nil => cases hl
    | cons e es =>
      cases hl
      show St.run (St.text _ l') es = St.run (St.text _ l') es
      congr 1
      unfold St.text
      rw [if_neg (by simp [hline.1]), if_neg (by simp), if_neg (by simp [hline.1]), if_neg (by simp [inQuote])]
      congr 1
      simp [St.prepare, St.flush, inQuote, hne, St.bars, St.depth, St.put, deco, List.replicate]
  have hrun : ({} : St).run (paragraph t ++ ([.start .quote, .start .paragraph] ++ softLines (l :: ls) ++ [.stop .paragraph, .stop .quote])) =
      { buf := from' t ++ deco c!"\n\n" ++ deco (c!"│ " ++ quoteColor) ++ from' l ++ deco reset ++
          ls.flatMap (fun l => deco (c!"\n│ " ++ quoteColor) ++ from' l ++ deco reset), pending := 2, wrote := true } := by
    rw [run_append, par_first t ht, run_append, run_append, hq, hflush _ (by cases ls <;> simp [softLines]) l (by cases ls <;> rfl) (h l (by simp)),
      quote_lines _ _ l ls h]
    simp [inQuote, St.run, St.event, St.stop, St.newline, St.pop, St.blank]
  unfold shown render
  rw [hrun, finish_eq]
  · rw [List.map_cons, joined_cons]
    simp [quoted, from', deco, List.map_flatMap, List.flatMap_map, Function.comp_def]
  · simp [hne]
  · intro x hx
    have : x = ('m', false) := by
      rcases List.eq_nil_or_concat ls with rfl | ⟨ls', u, rfl⟩
      · rw [List.flatMap_nil, List.append_nil, List.getLast?_append] at hx
        exact (Option.some.inj hx).symm
      · rw [List.concat_eq_append, List.flatMap_append, List.flatMap_singleton, ← List.append_assoc, ← List.append_assoc, List.getLast?_append] at hx
        exact (Option.some.inj hx).symm
    subst this
    decide

/-! ### Behind a part -/

theorem inner_styles (s : St) (e : Ev) (h : e.inner = true) : (s.event e).styles = s.styles := by
  cases e with
  | start t => cases h
  | stop k => cases h
  | text t => exact (adds_text s t).styles
  | code t => exact (adds_write _ _ _).styles.trans (adds_prepare s).styles
  | math t => exact (adds_codeBlock _ _).styles.trans (adds_blank s).styles
  | soft => exact (adds_break s).styles
  | hard => exact (adds_break s).styles
  | rule => exact (adds_flush _).styles.trans (adds_blank s).styles
  | task c => rfl
  | reference n => exact (adds_text s _).styles

/-- The style a part has. -/
def Tag.style : Tag → List Style
  | .heading l => [.heading l] | .quote => [.quote] | .code => [.code] | .emphasis => [.italic] | .strong => [.bold]
  | .strike => [.strike] | .link d => [.link d] | _ => []

theorem begin_styles (s : St) (t : Tag) : (s.begin t).styles = t.style ++ s.styles := by
  cases t with
  | paragraph =>
    show (if _ then _ else _ : St).styles = _
    split
    · exact (adds_blank s).styles
    · exact (adds_newline s).styles
  | list n => exact (adds_blank s).styles
  | item => exact (adds_item s).styles
  | heading _ => exact congrArg _ (adds_blank s).styles
  | quote => exact congrArg _ (adds_blank s).styles
  | code => exact congrArg _ (adds_blank s).styles
  | table => exact (adds_blank s).styles
  | footnote _ => exact (adds_blank s).styles
  | _ => rfl

theorem stop_styles (s : St) (t : Tag) (ss : List Style) (h : s.styles = t.style ++ ss) : (s.stop t.kind).styles = ss := by
  cases t with
  | paragraph => exact (adds_newline s).styles.trans h
  | heading l => refine (adds_blank _).styles.trans ?_; show s.styles.eraseP _ = _; rw [h]; rfl
  | quote => refine (adds_blank _).styles.trans ?_; show s.styles.eraseP _ = _; rw [h]; rfl
  | code => refine (adds_blank _).styles.trans ?_; show s.styles.eraseP _ = _; rw [h]; rfl
  | emphasis => show s.styles.eraseP _ = _; rw [h]; rfl
  | strong => show s.styles.eraseP _ = _; rw [h]; rfl
  | strike => show s.styles.eraseP _ = _; rw [h]; rfl
  | list n => exact (adds_newline _).styles.trans h
  | item =>
    refine (adds_newline _).styles.trans ?_
    split <;> exact h
  | link d =>
    show (match s.styles.find? Style.isLink with | some (.link d) => _ | _ => _ : St).styles = _
    have : s.styles.find? Style.isLink = some (.link d) := by rw [h]; rfl
    rw [this]
    refine (adds_suffix _ _).styles.trans ?_
    show s.styles.eraseP _ = _
    rw [h]
    rfl
  | table => exact (adds_blank s).styles.trans h
  | footnote _ => exact (adds_blank s).styles.trans h
  | _ => exact h

mutual
theorem doc_styles (d : Doc) (s : St) : (s.run d.events).styles = s.styles := by
  cases d with
  | leaf e h => rw [Doc.events]; exact inner_styles s e h
  | node t cs =>
    have h : ∀ s : St, (s.run (eventsOf cs)).styles = s.styles := docs_styles cs
    rw [Doc.events]
    show ((s.begin t).run (eventsOf cs ++ [.stop t.kind])).styles = _
    rw [run_append]
    exact stop_styles _ t _ ((h _).trans (begin_styles s t))
theorem docs_styles (ds : List Doc) (s : St) : (s.run (eventsOf ds)).styles = s.styles := by
  cases ds with
  | nil => rfl
  | cons d ds => rw [eventsOf, run_append, docs_styles ds, doc_styles d]
end

/-- **C173, behind a part.** A paragraph is written as it is and in no colour, whatever is in front of it: headings,
code, quotes, lists and links end where they end in the answer. -/
theorem C173_behind_partial (ds : List Doc) (hs : ∀ e ∈ eventsOf ds, e.safe) (t : Str) (h : Line t) :
    ∃ b, shown (eventsOf ds ++ paragraph t) = b ++ t ∧ (Term.text false).walk b = some (.text false) := by
  have hst : (({} : St).run (eventsOf ds)).styles = [] := docs_styles ds {}
  have hcl : Clean (({} : St).run (eventsOf ds)) := run_clean _ hs {} rfl (by intro d hd; cases hd)
  unfold shown render
  rw [run_append]
  generalize ({} : St).run (eventsOf ds) = s at hst hcl
  have hb : (s.begin .paragraph).styles = [] := (begin_styles s .paragraph).trans hst
  have hc : Clean (s.begin .paragraph) := by
    show Clean (if _ then _ else _)
    split
    · exact hcl.blank
    · exact hcl.newline
  show ∃ b, ((St.text (s.begin .paragraph) t).newline).finish.map (·.1) = _ ∧ _
  generalize s.begin .paragraph = s1 at hb hc
  rw [text_line s1 t h hb]
  refine ⟨s1.flush.buf.map Prod.fst, ?_, hc.flush⟩
  rw [show (∀ s : St, s.wrote = true → s.newline = { s with pending := max s.pending 1 }) from fun s hw => by unfold St.newline; rw [if_pos hw]]
  · rw [finish_eq]
    · simp [from', Function.comp_def]
    · simp [from_ne h]
    · exact last_from _ t h
  · rfl

/-! ## Cases -/

example : shown [.start (.heading 2), .text c!"A", .stop .heading, .start .paragraph, .text c!"see ", .start (.link c!"u"), .text c!"b", .stop .link, .stop .paragraph] =
    headingColor 2 ++ boldCode ++ c!"A" ++ reset ++ c!"\n\nsee " ++ linkColor ++ underline ++ c!"b" ++ reset ++ c!" (u)" := by decide +kernel

example : spoken [] [.start .paragraph, .text c!"see ", .start (.link c!"u"), .text c!"b", .stop .link, .stop .paragraph] = c!"see bu" := by decide

/-- A numbered list with another in its first item. -/
def nested : List Ev := eventsOf [.node (.list (some 3)) [.node .item [.leaf (.text c!"a") rfl, .node (.list (some 1)) [.node .item [.leaf (.text c!"x") rfl]]],
  .node .item [.leaf (.text c!"b") rfl]]]

example : shown nested = ['\n'] ++ mark (some 3) ++ c!"a\n\n  " ++ mark (some 1) ++ c!"x\n\n" ++ mark (some 4) ++ c!"b" := by decide +kernel

end Dsh.Md
