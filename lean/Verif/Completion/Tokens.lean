import Verif.Parse.Incomplete
/-!
C07: the token finder used by completion: `dsh/src/completion/shell_token.rs`.
-/
namespace Dsh.Tokens
open Dsh.Incomplete (DqBody)

/-! ### Model -/

/-- `SeparatorMode` (shell_token.rs:2-5). -/
inductive Mode where | parser | completionRange
deriving DecidableEq, Repr

/-- `is_separator` (shell_token.rs:138-145). -/
def isSep : Mode → Char → Bool
  | .parser, c => c = ' ' || c = '\t'
  | .completionRange, c => rustWhitespace c || [ '|', '&', ';', '(', ')', '<', '>' ].contains c

/-- A position: bytes and characters before it. -/
structure Pos where
  byte : Nat
  char : Nat
deriving DecidableEq, Repr

/-- Advance over a character (`char_indices().enumerate()`). -/
def Pos.next (p : Pos) (c : Char) : Pos := ⟨p.byte + c.utf8Size, p.char + 1⟩

/-- `ShellTokenSpan` (shell_token.rs:8-14). -/
structure Span where
  raw : List Char
  start : Pos
  stop : Pos
deriving DecidableEq, Repr

/-- `QuoteState` (shell_token.rs:17-21). -/
inductive Quote where | unquoted | single | double
deriving DecidableEq, Repr

/-- The loop variables (shell_token.rs:24-29). -/
structure St where
  spans : List Span := []
  current : List Char := []
  start : Option Pos := none
  quote : Quote := .unquoted
  escaped : Bool := false
  pos : Pos := ⟨0, 0⟩
deriving DecidableEq, Repr

/-- `ensure_token_start` and `current.push(ch)` (shell_token.rs:33-34, 97-105). -/
def St.push (s : St) (c : Char) : St :=
  { s with start := some (s.start.getD s.pos), current := s.current ++ [c] }

/-- `push_current_span` (shell_token.rs:114-136). -/
def St.flush (s : St) : St :=
  match s.start with
  | none => s
  | some p =>
    if s.current.isEmpty then { s with start := none }
    else { s with spans := s.spans ++ [⟨s.current, p, s.pos⟩], current := [], start := none }

/-- The state change for one character, before the position is advanced (shell_token.rs:31-73). -/
def act (m : Mode) (s : St) (c : Char) : St :=
  if s.escaped then { s.push c with escaped := false }
  else match s.quote with
    | .unquoted =>
      if isSep m c then s.flush
      else if c = '\\' then { s.push c with escaped := true }
      else if c = '\'' then { s.push c with quote := .single }
      else if c = '"' then { s.push c with quote := .double }
      else s.push c
    | .single => if c = '\'' then { s.push c with quote := .unquoted } else s.push c
    | .double =>
      if c = '\\' then { s.push c with escaped := true }
      else if c = '"' then { s.push c with quote := .unquoted }
      else s.push c

/-- One iteration. -/
def step (m : Mode) (s : St) (c : Char) : St := { act m s c with pos := s.pos.next c }

/-- The loop and the final flush. -/
def finish (m : Mode) (s : St) (l : List Char) : List Span := (l.foldl (step m) s).flush.spans

/-- `tokenize` (shell_token.rs:23-89). -/
def tokenize (input : List Char) (m : Mode) : List Span := finish m {} input

/-- `token_at_char_cursor` (shell_token.rs:91-102). -/
def tokenAt (input : List Char) (cursor : Nat) (m : Mode) : Option Span :=
  let cur := min cursor input.length
  (tokenize input m).find? (fun s => decide (s.start.char ≤ cur) && decide (cur ≤ s.stop.char))

/-! ### Specification -/

/-- What separates tokens: blanks and tabs; for completion ranges all white space and the characters
of the operators. -/
def Separates : Mode → Char → Prop
  | .parser, c => c = ' ' ∨ c = '\t'
  | .completionRange, c => rustWhitespace c = true ∨ c ∈ c!"|&;()<>"

/-- The separators meant below by `isSep` are these. -/
theorem C07_separators (m : Mode) (c : Char) : isSep m c = true ↔ Separates m c := by
  cases m <;> simp [isSep, Separates]

/-- Position after a text. -/
def Pos.after (p : Pos) (l : List Char) : Pos := ⟨p.byte + (l.map Char.utf8Size).sum, p.char + l.length⟩

/-- The text of a token whose quotes and escapes are closed. -/
inductive Tok (m : Mode) : List Char → Prop where
  | nil : Tok m []
  | plain {c l} : isSep m c = false → c ≠ '\\' → c ≠ '\'' → c ≠ '"' → Tok m l → Tok m (l ++ [c])
  | esc {c l} : Tok m l → Tok m (l ++ ['\\', c])
  | single {q l} : '\'' ∉ q → Tok m l → Tok m (l ++ '\'' :: (q ++ ['\'']))
  | double {q l} : DqBody q → Tok m l → Tok m (l ++ '"' :: (q ++ ['"']))

/-- The text of a token that ends in the middle of an escape or of a quotation. -/
inductive OpenTok (m : Mode) : List Char → Prop where
  | esc {l} : Tok m l → OpenTok m (l ++ ['\\'])
  | single {q l} : '\'' ∉ q → Tok m l → OpenTok m (l ++ '\'' :: q)
  | double {q l} : DqBody q → Tok m l → OpenTok m (l ++ '"' :: q)
  | doubleEsc {q l} : DqBody q → Tok m l → OpenTok m (l ++ '"' :: (q ++ ['\\']))

/-- `Tiles m p spans l`: the text `l`, starting at position `p`, is a sequence of separators and
tokens; the tokens are `spans`, two tokens have a separator between them. -/
inductive Tiles (m : Mode) : Pos → List Span → List Char → Prop where
  | done {p gap} : (∀ c ∈ gap, isSep m c = true) → Tiles m p [] gap
  | last {p gap raw} : (∀ c ∈ gap, isSep m c = true) → raw ≠ [] → (Tok m raw ∨ OpenTok m raw) →
      Tiles m p [⟨raw, p.after gap, p.after (gap ++ raw)⟩] (gap ++ raw)
  | cons {p gap raw s rest spans} : (∀ c ∈ gap, isSep m c = true) → raw ≠ [] → Tok m raw →
      isSep m s = true → Tiles m (p.after (gap ++ raw)) spans (s :: rest) →
      Tiles m p (⟨raw, p.after gap, p.after (gap ++ raw)⟩ :: spans) (gap ++ raw ++ s :: rest)

/-! ### Proof -/

theorem after_nil (p : Pos) : p.after [] = p := by simp [Pos.after]
theorem after_append (p : Pos) (a b : List Char) : p.after (a ++ b) = (p.after a).after b := by
  simp [Pos.after, Nat.add_assoc]
theorem after_one (p : Pos) (c : Char) : p.after [c] = p.next c := by simp [Pos.after, Pos.next]
theorem after_cons (p : Pos) (c : Char) (l : List Char) : p.after (c :: l) = (p.next c).after l := by
  rw [← after_one, ← after_append]; rfl

theorem Tiles.gap {m p spans l s} (h : Tiles m (p.next s) spans l) (hs : isSep m s = true) :
    Tiles m p spans (s :: l) := by
  have hg : ∀ gap : List Char, (∀ c ∈ gap, isSep m c = true) → ∀ c ∈ s :: gap, isSep m c = true := by
    intro gap hg c hc
    rcases List.mem_cons.1 hc with rfl | hc
    · exact hs
    · exact hg c hc
  cases h with
  | done h => exact .done (hg _ h)
  | @last _ gap raw h1 h2 h3 =>
    have := Tiles.last (m := m) (p := p) (gap := s :: gap) (hg _ h1) h2 h3
    rw [List.cons_append, after_cons, after_cons] at this
    exact this
  | @cons _ gap raw s' rest spans h1 h2 h3 h4 h5 =>
    have := Tiles.cons (m := m) (p := p) (gap := s :: gap) (rest := rest) (spans := spans) (s := s')
      (hg _ h1) h2 h3 h4 (by rw [List.cons_append, after_cons]; exact h5)
    rw [List.cons_append, after_cons, after_cons] at this
    exact this

/-- What the loop variables say about the token being read. -/
def InTok (m : Mode) (q : Quote) (e : Bool) (cur : List Char) : Prop :=
  match q, e with
  | .unquoted, false => cur ≠ [] ∧ Tok m cur
  | .unquoted, true => ∃ l, cur = l ++ ['\\'] ∧ Tok m l
  | .single, false => ∃ l b, cur = l ++ '\'' :: b ∧ '\'' ∉ b ∧ Tok m l
  | .single, true => False
  | .double, false => ∃ l b, cur = l ++ '"' :: b ∧ DqBody b ∧ Tok m l
  | .double, true => ∃ l b, cur = l ++ '"' :: (b ++ ['\\']) ∧ DqBody b ∧ Tok m l

theorem dq_snoc {l c} (h : DqBody l) (h1 : c ≠ '"') (h2 : c ≠ '\\') : DqBody (l ++ [c]) := by
  induction h with
  | nil => exact .plain h1 h2 .nil
  | plain a b _ ih => exact .plain a b ih
  | esc _ ih => exact .esc ih

theorem dq_snocEsc {l c} (h : DqBody l) : DqBody (l ++ ['\\', c]) := by
  induction h with
  | nil => exact .esc .nil
  | plain a b _ ih => exact .plain a b ih
  | esc _ ih => exact .esc ih

theorem InTok.ne {m q e cur} (h : InTok m q e cur) : cur ≠ [] := by
  unfold InTok at h
  split at h
  · exact h.1
  · obtain ⟨l, rfl, -⟩ := h; simp
  · obtain ⟨l, b, rfl, -⟩ := h; simp
  · exact h.elim
  · obtain ⟨l, b, rfl, -⟩ := h; simp
  · obtain ⟨l, b, rfl, -⟩ := h; simp

theorem InTok.text {m q e cur} (h : InTok m q e cur) : Tok m cur ∨ OpenTok m cur := by
  unfold InTok at h
  split at h
  · exact .inl h.2
  · obtain ⟨l, rfl, h⟩ := h; exact .inr (.esc h)
  · obtain ⟨l, b, rfl, h1, h⟩ := h; exact .inr (.single h1 h)
  · exact h.elim
  · obtain ⟨l, b, rfl, h1, h⟩ := h; exact .inr (.double h1 h)
  · obtain ⟨l, b, rfl, h1, h⟩ := h; exact .inr (.doubleEsc h1 h)

/-- Starting or continuing an unquoted token with a character that is no separator. -/
theorem InTok.start {m cur c} (h : Tok m cur) (hc : isSep m c = false) :
    InTok m (if c = '\\' then .unquoted else if c = '\'' then .single else if c = '"' then .double else .unquoted)
      (decide (c = '\\')) (cur ++ [c]) := by
  by_cases h1 : c = '\\'
  · subst h1; exact ⟨cur, rfl, h⟩
  by_cases h2 : c = '\''
  · subst h2; exact ⟨cur, [], rfl, by simp, h⟩
  by_cases h3 : c = '"'
  · subst h3; exact ⟨cur, [], rfl, .nil, h⟩
  · simp only [h1, h2, h3, if_false, decide_false]
    exact ⟨by simp, .plain hc h1 h2 h3 h⟩

/-- A token being read, in one record. -/
def tokSt (spans : List Span) (p : Pos) (q : Quote) (e : Bool) (cur : List Char) : St :=
  { spans := spans, current := cur, start := some p, quote := q, escaped := e, pos := p.after cur }

/-- Between tokens. -/
def gapSt (spans : List Span) (p : Pos) : St := { spans := spans, pos := p }

theorem step_tok (m : Mode) (spans p q e cur c) (h : InTok m q e cur)
    (hs : ¬ (q = .unquoted ∧ e = false ∧ isSep m c = true)) :
    ∃ q' e', step m (tokSt spans p q e cur) c = tokSt spans p q' e' (cur ++ [c]) ∧ InTok m q' e' (cur ++ [c]) := by
  have hpos : (p.after cur).next c = p.after (cur ++ [c]) := by rw [after_append, after_one]
  cases e with
  | true =>
    refine ⟨q, false, ?_, ?_⟩
    · simp only [step, act, tokSt, St.push, if_true, hpos, Option.getD_some]
    · cases q with
      | unquoted =>
        obtain ⟨l, rfl, h⟩ := h
        refine ⟨by simp, ?_⟩
        rw [List.append_assoc]
        exact .esc h
      | single => exact h.elim
      | double =>
        obtain ⟨l, b, rfl, h1, h⟩ := h
        exact ⟨l, b ++ ['\\', c], by simp, dq_snocEsc h1, h⟩
  | false =>
    cases q with
    | unquoted =>
      have hc : isSep m c = false := by
        cases hx : isSep m c with
        | false => rfl
        | true => exact absurd ⟨rfl, rfl, hx⟩ hs
      refine ⟨_, _, ?_, InTok.start h.2 hc⟩
      simp only [step, act, tokSt, St.push, Bool.false_eq_true, if_false, hpos, hc, Option.getD_some]
      split
      · next h1 => subst h1; rfl
      · next h1 =>
        simp only [h1, decide_false]
        split
        · next h2 => subst h2; rfl
        · next h2 =>
          split
          · next h3 => subst h3; rfl
          · rfl
    | single =>
      obtain ⟨l, b, rfl, h1, h⟩ := h
      by_cases hc : c = '\''
      · subst hc
        refine ⟨.unquoted, false, ?_, by simp, ?_⟩
        · simp only [step, act, tokSt, St.push, Bool.false_eq_true, if_false, if_true, hpos, Option.getD_some]
        · rw [List.append_assoc]; exact .single h1 h
      · refine ⟨.single, false, ?_, l, b ++ [c], by simp, by simp [h1, Ne.symm hc], h⟩
        simp only [step, act, tokSt, St.push, Bool.false_eq_true, if_false, hc, hpos, Option.getD_some]
    | double =>
      obtain ⟨l, b, rfl, h1, h⟩ := h
      by_cases hb : c = '\\'
      · subst hb
        refine ⟨.double, true, ?_, l, b, by simp, h1, h⟩
        simp only [step, act, tokSt, St.push, Bool.false_eq_true, if_false, if_true, hpos, Option.getD_some]
      by_cases hc : c = '"'
      · subst hc
        refine ⟨.unquoted, false, ?_, by simp, ?_⟩
        · simp only [step, act, tokSt, St.push, Bool.false_eq_true, if_false, if_true, hpos, Option.getD_some, hb]
        · rw [List.append_assoc]; exact .double h1 h
      · refine ⟨.double, false, ?_, l, b ++ [c], by simp, dq_snoc h1 hc hb, h⟩
        simp only [step, act, tokSt, St.push, Bool.false_eq_true, if_false, hc, hb, hpos, Option.getD_some]

theorem finish_cons (m s c l) : finish m s (c :: l) = finish m (step m s c) l := rfl

theorem finish_spec (m : Mode) : ∀ (l : List Char),
    (∀ spans p, ∃ T, finish m (gapSt spans p) l = spans ++ T ∧ Tiles m p T l) ∧
    (∀ spans p q e cur, InTok m q e cur →
      ∃ T, finish m (tokSt spans p q e cur) l = spans ++ T ∧ Tiles m p T (cur ++ l)) := by
  intro l
  induction l with
  | nil =>
    constructor
    · intro spans p
      exact ⟨[], by simp [finish, gapSt, St.flush], .done (by simp)⟩
    · intro spans p q e cur h
      refine ⟨[⟨cur, p, p.after cur⟩], ?_, ?_⟩
      · have : cur.isEmpty = false := by cases cur with
          | nil => exact absurd rfl h.ne
          | cons _ _ => rfl
        simp [finish, tokSt, St.flush, this]
      · have := Tiles.last (m := m) (p := p) (gap := []) (by simp) h.ne h.text
        simpa [after_nil] using this
  | cons c l ih =>
    constructor
    · intro spans p
      rw [finish_cons]
      cases hc : isSep m c with
      | true =>
        have e : step m (gapSt spans p) c = gapSt spans (p.next c) := by
          simp [step, act, gapSt, St.flush, hc]
        rw [e]
        obtain ⟨T, h1, h2⟩ := ih.1 spans (p.next c)
        exact ⟨T, h1, h2.gap hc⟩
      | false =>
        have hin := InTok.start (cur := []) Tok.nil hc
        have e : step m (gapSt spans p) c = tokSt spans p
            (if c = '\\' then .unquoted else if c = '\'' then .single else if c = '"' then .double else .unquoted)
            (decide (c = '\\')) ([] ++ [c]) := by
          simp only [step, act, gapSt, tokSt, St.push, Bool.false_eq_true, if_false, hc, Option.getD_none,
            List.nil_append, after_one]
          split
          · next h1 => subst h1; rfl
          · next h1 =>
            simp only [h1, decide_false]
            split
            · next h2 => subst h2; rfl
            · split
              · next h3 => subst h3; rfl
              · rfl
        rw [e]
        exact ih.2 spans p _ _ _ hin
    · intro spans p q e cur h
      rw [finish_cons]
      by_cases hs : q = .unquoted ∧ e = false ∧ isSep m c = true
      · obtain ⟨rfl, rfl, hc⟩ := hs
        have hne : cur.isEmpty = false := by cases cur with
          | nil => exact absurd rfl h.ne
          | cons _ _ => rfl
        have e1 : step m (tokSt spans p .unquoted false cur) c =
            gapSt (spans ++ [⟨cur, p, p.after cur⟩]) ((p.after cur).next c) := by
          simp [step, act, tokSt, gapSt, St.flush, hc, hne]
        rw [e1]
        obtain ⟨T, h1, h2⟩ := ih.1 (spans ++ [⟨cur, p, p.after cur⟩]) ((p.after cur).next c)
        refine ⟨⟨cur, p, p.after cur⟩ :: T, by rw [h1]; simp, ?_⟩
        have := Tiles.cons (m := m) (p := p) (gap := []) (by simp) h.ne h.2 hc (h2.gap hc)
        simpa [after_nil] using this
      · obtain ⟨q', e', h1, h2⟩ := step_tok m spans p q e cur c h hs
        rw [h1]
        obtain ⟨T, h3, h4⟩ := ih.2 spans p q' e' (cur ++ [c]) h2
        exact ⟨T, h3, by simpa using h4⟩

/-- **C07, tiling.** For every line and both separator sets, the tokens found tile the line: in
order, non-empty, each is exactly the text at its place, byte and character offsets are those of
its place, everything else is separators, two tokens are never adjacent; inside a token a
separator occurs only quoted or escaped, and quotations and escapes are complete except possibly
at the end of the line. -/
theorem C07_tiling (input : List Char) (m : Mode) : Tiles m ⟨0, 0⟩ (tokenize input m) input := by
  obtain ⟨T, h1, h2⟩ := (finish_spec m input).1 [] ⟨0, 0⟩
  have : tokenize input m = T := h1
  rw [this]; exact h2

/-- A span cut out of a text that starts at `p`. -/
def CutFrom (p : Pos) (l : List Char) (s : Span) : Prop :=
  ∃ a b, l = a ++ s.raw ++ b ∧ s.start = p.after a ∧ s.stop = p.after (a ++ s.raw) ∧ s.raw ≠ []

theorem Tiles.cut {m p spans l} (h : Tiles m p spans l) : ∀ s ∈ spans, CutFrom p l s := by
  induction h with
  | done _ => simp
  | @last p gap raw _ hne _ =>
    intro s hs
    simp only [List.mem_singleton] at hs
    subst hs
    exact ⟨gap, [], by simp, rfl, rfl, hne⟩
  | @cons p gap raw c rest spans _ hne _ _ _ ih =>
    intro s hs
    rcases List.mem_cons.1 hs with rfl | hs
    · exact ⟨gap, c :: rest, rfl, rfl, rfl, hne⟩
    · obtain ⟨a, b, h1, h2, h3, h4⟩ := ih s hs
      refine ⟨gap ++ raw ++ a, b, ?_, ?_, ?_, h4⟩
      · rw [h1]; simp
      · rw [h2, ← after_append]
      · rw [h3, ← after_append, List.append_assoc _ a]

theorem Tiles.lower {m p spans l} (h : Tiles m p spans l) : ∀ s ∈ spans, p.char ≤ s.start.char := by
  intro s hs
  obtain ⟨a, b, -, h2, -⟩ := h.cut s hs
  rw [h2]; simp [Pos.after]

/-- After a leading separator, the tokens start strictly later. -/
theorem Tiles.lower' {m p spans c l} (h : Tiles m p spans (c :: l)) (hc : isSep m c = true) :
    ∀ s ∈ spans, p.char < s.start.char := by
  have key : ∀ gap raw rest : List Char, gap ++ raw ++ rest = c :: l → raw ≠ [] →
      (Tok m raw ∨ OpenTok m raw) → gap ≠ [] := by
    intro gap raw rest he hne ht hg
    subst hg
    cases raw with
    | nil => exact hne rfl
    | cons d raw =>
      simp only [List.nil_append, List.cons_append, List.cons.injEq] at he
      obtain ⟨rfl, -⟩ := he
      have hsep : ∀ (x : List Char), Tok m x → ∀ y, x.head? = some y → isSep m y = false := by
        intro x hx
        have nosep : ∀ z, z = '\\' ∨ z = '\'' ∨ z = '"' → isSep m z = false := by
          intro z hz
          rcases hz with rfl | rfl | rfl <;> cases m <;> decide
        induction hx with
        | nil => simp
        | @plain c l h1 h2 h3 h4 hl ih =>
          intro y hy
          cases l with
          | nil => simp at hy; rw [← hy]; exact h1
          | cons u l => exact ih y (by simpa using hy)
        | @esc c l hl ih =>
          intro y hy
          cases l with
          | nil => simp at hy; exact nosep y (.inl hy.symm)
          | cons u l => exact ih y (by simpa using hy)
        | @single q l hq hl ih =>
          intro y hy
          cases l with
          | nil => simp at hy; exact nosep y (.inr (.inl hy.symm))
          | cons u l => exact ih y (by simpa using hy)
        | @double q l hq hl ih =>
          intro y hy
          cases l with
          | nil => simp at hy; exact nosep y (.inr (.inr hy.symm))
          | cons u l => exact ih y (by simpa using hy)
      have nosep : ∀ z, z = '\\' ∨ z = '\'' ∨ z = '"' → isSep m z = false := by
        intro z hz
        rcases hz with rfl | rfl | rfl <;> cases m <;> decide
      have hd : isSep m d = false := by
        rcases ht with ht | ht
        · exact hsep _ ht d rfl
        · have : ∀ (x y : List Char) (z : Char), Tok m x → d :: raw = x ++ z :: y →
              (z = '\\' ∨ z = '\'' ∨ z = '"') → isSep m d = false := by
            intro x y z hx he hz
            cases x with
            | nil =>
              simp only [List.nil_append, List.cons.injEq] at he
              rw [he.1]; exact nosep z hz
            | cons u x =>
              simp only [List.cons_append, List.cons.injEq] at he
              rw [he.1]; exact hsep _ hx u rfl
          generalize hr : d :: raw = r at ht
          cases ht with
          | esc h => exact this _ _ _ h hr (.inl rfl)
          | single _ h => exact this _ _ _ h hr (.inr (.inl rfl))
          | double _ h => exact this _ _ _ h hr (.inr (.inr rfl))
          | doubleEsc _ h => exact this _ _ _ h hr (.inr (.inr rfl))
      rw [hd] at hc; cases hc
  generalize hl : c :: l = l' at h
  cases h with
  | done _ => simp
  | @last p gap raw h1 h2 h3 =>
    intro s hs
    simp only [List.mem_singleton] at hs
    subst hs
    have := key gap raw [] (by rw [hl]; simp) h2 h3
    have : 0 < gap.length := List.length_pos_iff.2 this
    simp [Pos.after]; omega
  | @cons p gap raw s rest spans h1 h2 h3 h4 h5 =>
    intro t ht
    rcases List.mem_cons.1 ht with rfl | ht
    · have := key gap raw (s :: rest) hl.symm h2 (.inl h3)
      have : 0 < gap.length := List.length_pos_iff.2 this
      simp [Pos.after]; omega
    · have := h5.lower t ht
      have h0 : 0 < raw.length := List.length_pos_iff.2 h2
      simp [Pos.after] at this; omega

theorem Tiles.ordered {m p spans l} (h : Tiles m p spans l) :
    spans.Pairwise (fun a b => a.stop.char < b.start.char) := by
  induction h with
  | done _ => exact .nil
  | last _ _ _ => simp
  | cons _ _ _ hs ht ih =>
    refine List.Pairwise.cons ?_ ih
    intro b hb
    exact ht.lower' hs b hb

/-- **C07, offsets.** Every token is the text between its offsets, in both units. -/
theorem C07_slice (input : List Char) (m : Mode) : ∀ s ∈ tokenize input m,
    ∃ a b, input = a ++ s.raw ++ b ∧ s.raw ≠ [] ∧
      s.start.char = a.length ∧ s.stop.char = (a ++ s.raw).length ∧
      s.start.byte = (a.map Char.utf8Size).sum ∧ s.stop.byte = ((a ++ s.raw).map Char.utf8Size).sum := by
  intro s hs
  obtain ⟨a, b, h1, h2, h3, h4⟩ := (C07_tiling input m).cut s hs
  refine ⟨a, b, h1, h4, ?_, ?_, ?_, ?_⟩
  · rw [h2]; simp [Pos.after]
  · rw [h3]; simp [Pos.after]
  · rw [h2]; simp [Pos.after]
  · rw [h3]; simp [Pos.after]

/-- **C07, caret.** The token reported for a caret contains it (both ends included), no other
token does, and `none` means that no token does. -/
theorem C07_caret (input : List Char) (m : Mode) (cursor : Nat) :
    (∀ s, tokenAt input cursor m = some s →
      s ∈ tokenize input m ∧ s.start.char ≤ min cursor input.length ∧ min cursor input.length ≤ s.stop.char ∧
      ∀ t ∈ tokenize input m, t.start.char ≤ min cursor input.length →
        min cursor input.length ≤ t.stop.char → t = s) ∧
    (tokenAt input cursor m = none → ∀ t ∈ tokenize input m,
      min cursor input.length < t.start.char ∨ t.stop.char < min cursor input.length) := by
  have hpw := (C07_tiling input m).ordered
  constructor
  · intro s hs
    have h1 := List.mem_of_find?_eq_some hs
    have h2 := List.find?_some hs
    simp only [Bool.and_eq_true, decide_eq_true_eq] at h2
    refine ⟨h1, h2.1, h2.2, ?_⟩
    intro t ht h3 h4
    clear hs
    revert h1 ht
    generalize tokenize input m = T at hpw
    induction hpw with
    | nil => intro h; simp at h
    | @cons a T ha _ ih =>
      intro hs ht
      rcases List.mem_cons.1 hs with rfl | hs'
      · rcases List.mem_cons.1 ht with rfl | ht
        · rfl
        · have := ha t ht; omega
      · rcases List.mem_cons.1 ht with rfl | ht
        · have := ha s hs'; omega
        · exact ih hs' ht
  · intro hn t ht
    have := (List.find?_eq_none.1 hn) t ht
    simp only [Bool.and_eq_true, decide_eq_true_eq, not_and, Nat.not_le] at this
    by_cases h : t.start.char ≤ min cursor input.length
    · exact .inr (this h)
    · exact .inl (by omega)

example : tokenize c!"é 'a b'|c\\ d" .completionRange =
    [⟨c!"é", ⟨0, 0⟩, ⟨2, 1⟩⟩, ⟨c!"'a b'", ⟨3, 2⟩, ⟨8, 7⟩⟩, ⟨c!"c\\ d", ⟨9, 8⟩, ⟨13, 12⟩⟩] := by decide
example : tokenAt c!"ab  cd" 5 .parser = some ⟨c!"cd", ⟨4, 4⟩, ⟨6, 6⟩⟩ := by decide

end Dsh.Tokens
