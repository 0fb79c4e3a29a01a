import Verif.Editor.Props

/-!
# Keys: automatic pairs, two presses, the AI pipe, the notification

`dsh/src/repl/key_action.rs: determine_key_action`, `dsh/src/repl/key_handlers/editing.rs`,
`dsh/src/repl/state.rs: DoublePressState`, `dsh/src/repl/input_analysis.rs: toggle_sudo`,
`dsh/src/repl/mod.rs: detect_ai_pipe`, `dsh/src/repl/key_handlers/execution.rs: handle_execute`.

The text with its caret is the specification `Zip` of the editor, which `C01_editor_refines` proves of
`Input`.  Simplified: abbreviations are none; drawing is not modelled.
-/

namespace Dsh.Keys
open Editor (Zip splitByte blen)

abbrev Str := List Char

/-- Widths matter only to clicks, which are not modelled here. -/
def W : Char → Nat := fun _ => 1

/-! ## C105: automatic pairs -/

/-- The pairs (key_action.rs:164-177, editing.rs:24). -/
def closing : Char → Option Char
  | '(' => some ')'
  | '{' => some '}'
  | '[' => some ']'
  | '\'' => some '\''
  | '"' => some '"'
  | _ => none

def isCloser (c : Char) : Bool := c = ')' || c = '}' || c = ']'

/-- A printable key with `auto_pair` (key_action.rs:163-194 and the handlers editing.rs:10-15, 53-60, 62-80).
The arm for quotes at 189-191 is behind the one for opening brackets, which takes the quotes. -/
def pairKey (z : Zip) (c : Char) : Zip :=
  match closing c with
  | some d => ((z.op W (.insert c)).op W (.insert d)).op W (.moveBy (-1))
  | none =>
    if isCloser c then
      if z.after.head? = some c then z.op W (.moveBy 1) else z.op W (.insert c)
    else z.op W (.insert c)

/-- `handle_backspace` with `auto_pair` (editing.rs:18-36). -/
def pairBackspace (z : Zip) : Zip :=
  let z :=
    if 0 < z.before.length && decide (z.before.length < z.text.length) then
      match z.before.getLast?, z.after.head? with
      | some p, some n => if closing p = some n then z.op W .deleteChar else z
      | _, _ => z
    else z
  z.op W .backspace

def typeText (z : Zip) (t : Str) : Zip := t.foldl pairKey z

/-- The brackets and quotes of a user. -/
def brackets : List (Char × Char) := [('(', ')'), ('[', ']'), ('{', '}')]
def quotes : List (Char × Char) := [('"', '"'), ('\'', '\'')]

/-- A text whose brackets are balanced and that has no quotes. -/
inductive Balanced : Str → Prop
  | nil : Balanced []
  | plain (c : Char) (t : Str) : (∀ p ∈ brackets ++ quotes, c ≠ p.1 ∧ c ≠ p.2) → Balanced t → Balanced (c :: t)
  | pair (c d : Char) (s t : Str) : (c, d) ∈ brackets → Balanced s → Balanced t → Balanced (c :: s ++ d :: t)

def isQuote (c : Char) : Bool := c = '\'' || c = '"'

theorem moveBack (a b : Str) (c d : Char) :
    (Zip.mk (a ++ [c] ++ [d]) b).op W (.moveBy (-1)) = ⟨a ++ [c], d :: b⟩ := by
  have h : (min (a ++ [c] ++ [d] ++ b).length ((((a ++ [c] ++ [d]).length : Nat) : Int) + (-1)).toNat) = (a ++ [c]).length := by
    simp; omega
  simp only [Zip.op, Zip.text, Editor.caretAt]
  rw [h, List.append_assoc (a ++ [c]), List.take_left, List.drop_left]
  rfl

theorem moveOn (a b : Str) (c : Char) : (Zip.mk a (c :: b)).op W (.moveBy 1) = ⟨a ++ [c], b⟩ := by
  have h : (min (a ++ c :: b).length ((((a).length : Nat) : Int) + 1).toNat) = (a ++ [c]).length := by
    simp only [List.length_append, List.length_cons, List.length_nil]; omega
  have h2 : a ++ c :: b = (a ++ [c]) ++ b := by simp
  simp only [Zip.op, Zip.text, Editor.caretAt]
  rw [h, h2, List.take_left, List.drop_left]

/-- What a key does, without the operations of the editor. -/
theorem pairKey_eq (a b : Str) (c : Char) : pairKey ⟨a, b⟩ c =
    match closing c with
    | some d => ⟨a ++ [c], d :: b⟩
    | none => if isCloser c = true ∧ b.head? = some c then ⟨a ++ [c], b.tail⟩ else ⟨a ++ [c], b⟩ := by
  unfold pairKey
  cases hc : closing c with
  | some d => exact moveBack a b c d
  | none =>
    dsimp only
    by_cases h1 : isCloser c = true
    · by_cases h2 : b.head? = some c
      · rw [if_pos h1, if_pos h2, if_pos ⟨h1, h2⟩]
        cases b with
        | nil => cases h2
        | cons x b =>
          simp only [List.head?_cons, Option.some.injEq] at h2
          subst h2
          exact moveOn a b x
      · rw [if_pos h1, if_neg h2, if_neg (fun h => h2 h.2)]; rfl
    · rw [if_neg h1, if_neg (fun h => h1 h.1)]; rfl

theorem pairKey_before (z : Zip) (c : Char) : (pairKey z c).before = z.before ++ [c] := by
  obtain ⟨a, b⟩ := z
  rw [pairKey_eq]
  split
  · rfl
  · split <;> rfl

/-- C105 (partial): what stands before the caret is what was typed. -/
theorem C105_before_partial (z : Zip) (t : Str) : (typeText z t).before = z.before ++ t := by
  induction t generalizing z with
  | nil => simp [typeText]
  | cons c t ih =>
    have := ih (pairKey z c)
    rw [pairKey_before, List.append_assoc] at this
    exact this

theorem closing_iff (c d : Char) : closing c = some d ↔ (c, d) ∈ brackets ++ quotes := by
  constructor
  · intro h
    unfold closing at h
    split at h <;> first | (cases h; done) | (simp only [Option.some.injEq] at h; subst h; decide)
  · intro h
    simp only [brackets, quotes, List.cons_append, List.nil_append, List.mem_cons, Prod.mk.injEq, List.not_mem_nil, or_false] at h
    rcases h with ⟨rfl, rfl⟩ | ⟨rfl, rfl⟩ | ⟨rfl, rfl⟩ | ⟨rfl, rfl⟩ | ⟨rfl, rfl⟩ <;> rfl

theorem closer_of_pair {c d : Char} (h : (c, d) ∈ brackets) : closing c = some d ∧ isCloser d = true ∧ closing d = none := by
  simp only [brackets, List.mem_cons, Prod.mk.injEq, List.not_mem_nil, or_false] at h
  rcases h with ⟨rfl, rfl⟩ | ⟨rfl, rfl⟩ | ⟨rfl, rfl⟩ <;> decide

theorem plain_key {c : Char} (h : ∀ p ∈ brackets ++ quotes, c ≠ p.1 ∧ c ≠ p.2) : closing c = none ∧ isCloser c = false := by
  constructor
  · cases hc : closing c with
    | none => rfl
    | some d => exact absurd rfl (h _ ((closing_iff c d).1 hc)).1
  · cases hc : isCloser c with
    | false => rfl
    | true =>
      simp only [isCloser, Bool.or_eq_true, decide_eq_true_eq] at hc
      rcases hc with (rfl | rfl) | rfl
      · exact absurd rfl (h ('(', ')') (by decide)).2
      · exact absurd rfl (h ('{', '}') (by decide)).2
      · exact absurd rfl (h ('[', ']') (by decide)).2

/-- C105 (partial): typing a text with balanced brackets and without quotes, anywhere, puts exactly that
text there. -/
theorem C105_balanced_partial (z : Zip) (t : Str) (h : Balanced t) : typeText z t = ⟨z.before ++ t, z.after⟩ := by
  induction h generalizing z with
  | nil => simp [typeText]
  | plain c t h h3 ih =>
    obtain ⟨h1, h2⟩ := plain_key h
    obtain ⟨a, b⟩ := z
    show typeText (pairKey ⟨a, b⟩ c) t = _
    rw [pairKey_eq, h1]
    dsimp only
    rw [if_neg (by simp [h2]), ih]
    simp
  | pair c d s t h h3 h4 ih1 ih2 =>
    obtain ⟨a, b⟩ := z
    obtain ⟨h1, hd1, hd2⟩ := closer_of_pair h
    have e : typeText ⟨a, b⟩ (c :: s ++ d :: t) = typeText (pairKey (typeText (pairKey ⟨a, b⟩ c) s) d) t := by
      simp [typeText, List.foldl_append]
    rw [e, pairKey_eq a b c, h1, ih1]
    dsimp only
    rw [pairKey_eq, hd2]
    dsimp only
    rw [if_pos ⟨hd1, rfl⟩, ih2]
    simp

theorem quote_closing {c : Char} (h : isQuote c = true) : closing c = some c := by
  simp only [isQuote, Bool.or_eq_true, decide_eq_true_eq] at h
  rcases h with h | h <;> subst h <;> rfl

theorem closing_quote {c d : Char} (h : closing c = some d) (hc : isQuote c = false) : isQuote d = false := by
  unfold closing at h
  split at h <;> first | (cases h; done) | (simp only [Option.some.injEq] at h; subst h; first | rfl | exact absurd hc (by decide))

theorem closer_quote {c : Char} (h : isCloser c = true) : isQuote c = false := by
  simp only [isCloser, Bool.or_eq_true, decide_eq_true_eq] at h
  rcases h with (h | h) | h <;> subst h <;> rfl

/-- As many quotes are behind the caret as were typed. -/
theorem quotes_after (z : Zip) (t : Str) :
    ((typeText z t).after.filter isQuote).length = (z.after.filter isQuote).length + (t.filter isQuote).length := by
  induction t generalizing z with
  | nil => simp [typeText]
  | cons c t ih =>
    have := ih (pairKey z c)
    show ((typeText (pairKey z c) t).after.filter isQuote).length = _
    rw [this]
    obtain ⟨a, b⟩ := z
    rw [pairKey_eq]
    by_cases hq : isQuote c = true
    · rw [quote_closing hq]
      simp [hq]; omega
    · simp only [Bool.not_eq_true] at hq
      cases hc : closing c with
      | some d => simp [hq, closing_quote hc hq]
      | none =>
        dsimp only
        split
        · rename_i h
          cases b with
          | nil => cases h.2
          | cons x b =>
            have h2 := h.2
            simp only [List.head?_cons, Option.some.injEq] at h2
            subst h2
            simp [hq]
        · simp [hq]

/-- C105 is violated for every text with a quote: typing it into an empty line does not give the text. -/
theorem C105_violated (t : Str) (h : ∃ c ∈ t, isQuote c = true) : (typeText {} t).text ≠ t := by
  intro he
  have h1 := C105_before_partial {} t
  have h2 := quotes_after {} t
  have ha : (typeText {} t).after = [] := by
    have h3 : (typeText {} t).before ++ (typeText {} t).after = t := he
    rw [h1] at h3
    simpa using h3
  rw [ha] at h2
  obtain ⟨c, hc, hq⟩ := h
  have : 0 < (t.filter isQuote).length := List.length_pos_of_mem (List.mem_filter.2 ⟨hc, hq⟩)
  simp at h2
  omega

/-- C105 (partial): Backspace deletes the character before the caret, and the one behind it only if the two
are a pair. -/
theorem C105_backspace_partial (z : Zip) : (pairBackspace z).before = z.before.dropLast ∧
    ((∃ p ∈ brackets ++ quotes, ∃ a b, z = ⟨a ++ [p.1], p.2 :: b⟩ ∧ (pairBackspace z).after = b) ∨
     (¬ (∃ p ∈ brackets ++ quotes, ∃ a b, z = ⟨a ++ [p.1], p.2 :: b⟩) ∧ (pairBackspace z).after = z.after)) := by
  obtain ⟨u, v⟩ := z
  by_cases hp : ∃ p ∈ brackets ++ quotes, ∃ a b, (⟨u, v⟩ : Zip) = ⟨a ++ [p.1], p.2 :: b⟩
  · obtain ⟨⟨c, d⟩, hm, a, b, e⟩ := hp
    have hc := (closing_iff c d).2 hm
    rw [e]
    have : pairBackspace ⟨a ++ [c], d :: b⟩ = ⟨a, b⟩ := by simp [pairBackspace, Zip.op, Zip.text, hc]
    rw [this]
    exact ⟨by simp, .inl ⟨_, hm, a, b, rfl, rfl⟩⟩
  · have : pairBackspace ⟨u, v⟩ = ⟨u.dropLast, v⟩ := by
      unfold pairBackspace
      dsimp only
      split
      · split
        · rename_i p n h1 h2
          rw [if_neg]
          · rfl
          · intro h3
            refine hp ⟨(p, n), (closing_iff p n).1 h3, u.dropLast, v.tail, ?_⟩
            cases v with
            | nil => cases h2
            | cons x v =>
              simp only [List.head?_cons, Option.some.injEq] at h2
              subst h2
              rw [List.tail_cons]
              congr 1
              have hne : u ≠ [] := by intro h0; rw [h0] at h1; cases h1
              rw [List.getLast?_eq_some_getLast hne, Option.some.injEq] at h1
              rw [← h1]
              exact (List.dropLast_concat_getLast hne).symm
        · rfl
      · rfl
    rw [this]
    exact ⟨rfl, .inr ⟨hp, rfl⟩⟩

/-- C105 (partial): Backspace takes back any key that is not a closing bracket. -/
theorem C105_undo_partial (z : Zip) (c : Char) (hc : isCloser c = false) : pairBackspace (pairKey z c) = z := by
  obtain ⟨a, b⟩ := z
  rw [pairKey_eq]
  cases h : closing c with
  | some d =>
    simp [pairBackspace, Zip.op, Zip.text, h]
  | none =>
    simp only [hc, Bool.false_eq_true, false_and, ↓reduceIte]
    unfold pairBackspace
    cases b with
    | nil => simp [Zip.op, Zip.text]
    | cons x b => simp [Zip.op, Zip.text, h]

/-- `echo "hi"` and `f(x, [y])`. -/
example : (typeText {} c!"echo \"hi\"").text = c!"echo \"hi\"\"\"" ∧ (typeText {} c!"f(x, [y])").text = c!"f(x, [y])" ∧
    Balanced c!"(x[y])" ∧ pairBackspace (typeText {} c!"f(") = ⟨c!"f", []⟩ := by
  refine ⟨by decide, by decide, ?_, by decide⟩
  exact .pair '(' ')' c!"x[y]" [] (by decide) (.plain 'x' _ (by decide) (.pair '[' ']' c!"y" [] (by decide)
    (.plain 'y' _ (by decide) .nil) .nil)) .nil

/-! ## C106: the AI pipe -/

/-- `rfind("|!")`: the text before and behind the last one. -/
def rfindPipe : Str → Option (Str × Str)
  | [] => none
  | c :: s =>
    match rfindPipe s with
    | some (a, b) => some (c :: a, b)
    | none => if c = '|' ∧ s.head? = some '!' then some ([], s.tail) else none

/-- The quotes around the query (mod.rs:1237-1244). -/
def unquote (q : Str) : Str :=
  if (q.head? = some '"' ∧ q.getLast? = some '"' ∨ q.head? = some '\'' ∧ q.getLast? = some '\'') ∧ 1 < q.length then
    (q.drop 1).dropLast
  else q

/-- `detect_ai_pipe` (mod.rs:1229-1250). -/
def detectAiPipe (line : Str) : Option (Str × Str) :=
  match rfindPipe line with
  | none => none
  | some (a, b) =>
    let command := trim a
    let query := unquote (trim b)
    if command ≠ [] ∧ query ≠ [] then some (command, query) else none

/-- What Enter does with a line that is complete. -/
inductive Run
  /-- `sh -c command`, the output goes to the AI with the query (mod.rs:1252-1320); no alias, function or
  built-in of the shell, no question of the safety guard, no entry in the history -/
  | sh (command query : Str)
  /-- the shell evaluates the line (execution.rs:108) -/
  | eval (line : Str)
  deriving DecidableEq, Repr

/-- `handle_execute` (execution.rs:50-56), for a line that is complete and ends in no abbreviation. -/
def enter (line : Str) : Run :=
  match detectAiPipe line with
  | some (c, q) => .sh c q
  | none => .eval line

/-- The last `|!`: behind it is none. -/
theorem rfindPipe_some {s a b : Str} (h : rfindPipe s = some (a, b)) :
    s = a ++ c!"|!" ++ b ∧ ¬ c!"|!" <:+: b := by
  induction s generalizing a b with
  | nil => cases h
  | cons c s ih =>
    rw [rfindPipe] at h
    cases hs : rfindPipe s with
    | some p =>
      rw [hs] at h
      obtain ⟨a', b'⟩ := p
      simp only [Option.some.injEq, Prod.mk.injEq] at h
      obtain ⟨rfl, rfl⟩ := h
      obtain ⟨h1, h2⟩ := ih hs
      exact ⟨by rw [h1]; rfl, h2⟩
    | none =>
      rw [hs] at h
      dsimp only at h
      split at h
      · rename_i hc
        simp only [Option.some.injEq, Prod.mk.injEq] at h
        obtain ⟨rfl, rfl⟩ := h
        obtain ⟨rfl, h2⟩ := hc
        cases s with
        | nil => cases h2
        | cons x s =>
          simp only [List.head?_cons, Option.some.injEq] at h2
          subst h2
          refine ⟨rfl, ?_⟩
          rintro ⟨u, v, hv⟩
          have : ∀ u : Str, rfindPipe (u ++ c!"|!" ++ v) ≠ none := by
            intro u
            induction u with
            | nil =>
              show rfindPipe ('|' :: '!' :: v) ≠ none
              rw [rfindPipe]
              split
              · simp
              · simp
            | cons y u ih =>
              show rfindPipe (y :: (u ++ c!"|!" ++ v)) ≠ none
              rw [rfindPipe]
              cases hh : rfindPipe (u ++ c!"|!" ++ v) with
              | none => exact absurd hh ih
              | some p => simp
          refine this ('!' :: u) ?_
          rw [show '!' :: u ++ c!"|!" ++ v = '!' :: s by have hv : u ++ c!"|!" ++ v = s := hv; rw [← hv]; simp]
          exact hs
      · cases h

theorem rfindPipe_none {s : Str} (h : rfindPipe s = none) : ¬ c!"|!" <:+: s := by
  rintro ⟨u, v, rfl⟩
  induction u with
  | nil =>
    simp only [List.nil_append, List.cons_append] at h
    rw [rfindPipe] at h
    split at h
    · cases h
    · simp at h
  | cons y u ih =>
    rw [show y :: u ++ c!"|!" ++ v = y :: (u ++ c!"|!" ++ v) from rfl, rfindPipe] at h
    cases hh : rfindPipe (u ++ c!"|!" ++ v) with
    | none => exact ih hh
    | some p => rw [hh] at h; cases h

theorem rfindPipe_append (a b : Str) (hb : ¬ c!"|!" <:+: b) :
    rfindPipe (a ++ c!"|!" ++ b) = some (a, b) := by
  cases h : rfindPipe (a ++ c!"|!" ++ b) with
  | none => exact absurd ⟨a, b, rfl⟩ (rfindPipe_none h)
  | some p =>
    obtain ⟨x, y⟩ := p
    obtain ⟨h1, h2⟩ := rfindPipe_some h
    have key : ∀ (a b x y : Str), a ++ c!"|!" ++ b = x ++ c!"|!" ++ y → ¬ c!"|!" <:+: b → ¬ c!"|!" <:+: y → a = x ∧ b = y := by
      intro a
      induction a with
      | nil =>
        intro b x y e h1 h2
        cases x with
        | nil => simpa using e
        | cons p x =>
          cases x with
          | nil => simp at e
          | cons q x =>
            simp only [List.nil_append, List.cons_append, List.cons.injEq] at e
            exact absurd ⟨x, y, by rw [e.2.2]⟩ h1
      | cons c a ih =>
        intro b x y e h1 h2
        cases x with
        | nil =>
          cases a with
          | nil => simp at e
          | cons q a =>
            simp only [List.nil_append, List.cons_append, List.cons.injEq] at e
            exact absurd ⟨a, b, by rw [← e.2.2]⟩ h2
        | cons p x =>
          simp only [List.cons_append, List.cons.injEq] at e
          have := ih b x y (by simpa using e.2) h1 h2
          exact ⟨by rw [e.1, this.1], this.2⟩
    obtain ⟨rfl, rfl⟩ := key _ _ _ _ h1 hb h2
    rfl

/-- C106 (partial): a line without `|!` is evaluated as typed. -/
theorem C106_plain_partial (line : Str) (h : ¬ c!"|!" <:+: line) : enter line = .eval line := by
  unfold enter detectAiPipe
  cases h1 : rfindPipe line with
  | none => rfl
  | some p => exact absurd ⟨p.1, p.2, by rw [(rfindPipe_some (a := p.1) (b := p.2) h1).1]⟩ h

theorem trim_quoted (q : Str) (c : Char) (hc : rustWhitespace c = false) : trim (c :: q ++ [c]) = c :: q ++ [c] := by
  simp [trim, trimStart, trimEnd, hc]

/-- C106 (partial): `command |! "query"` runs the command and asks the query. -/
theorem C106_query_partial (cmd q : Str) (hcmd : trim cmd ≠ []) (hq : q ≠ []) (hn : ¬ c!"|!" <:+: '"' :: q ++ ['"']) :
    enter (cmd ++ c!"|!" ++ '"' :: q ++ ['"']) = .sh (trim cmd) q := by
  unfold enter detectAiPipe
  rw [List.append_assoc, rfindPipe_append _ _ hn]
  dsimp only
  rw [trim_quoted q '"' (by decide)]
  have : unquote ('"' :: q ++ ['"']) = q := by
    unfold unquote
    rw [if_pos ⟨.inl ⟨rfl, List.getLast?_concat⟩, by simp⟩]
    simp
  rw [this, if_pos ⟨hcmd, hq⟩]

/-- The quotes that are open at the end of a text. -/
def openQuote : Option Char → Str → Option Char
  | q, [] => q
  | none, '\\' :: _ :: s => openQuote none s
  | none, c :: s => if c = '\'' ∨ c = '"' then openQuote (some c) s else openQuote none s
  | some q, c :: s => if c = q then openQuote none s else openQuote (some q) s

/-- C106 is violated: `|!` in quotes is taken too, and the beginning of the line is run by `sh`. -/
theorem C106_violated : ¬ ∀ line c q, enter line = .sh c q → ∃ a b, line = a ++ c!"|!" ++ b ∧ openQuote none a = none := by
  intro h
  obtain ⟨a, b, e, ho⟩ := h c!"grep \"a|!b\" f" c!"grep \"a" c!"b\" f" (by decide)
  have hk : ∀ n, n < 14 → (c!"grep \"a|!b\" f".drop n).take 2 = c!"|!" → openQuote none (c!"grep \"a|!b\" f".take n) ≠ none := by
    decide
  have hlen := congrArg List.length e
  simp only [List.length_append, List.length_cons, List.length_nil] at hlen
  refine hk a.length (by omega) ?_ ?_
  · rw [e, List.append_assoc, List.drop_left]; rfl
  · rw [e, List.append_assoc, List.take_left]; exact ho

/-- C106 is violated for every line with `|!` in its middle, quoted or not: whatever the command is, it
never reaches the shell's own evaluation. -/
theorem C106_bypass (cmd q : Str) (hcmd : trim cmd ≠ []) (hq : unquote (trim q) ≠ []) (hn : ¬ c!"|!" <:+: q) :
    enter (cmd ++ c!"|!" ++ q) = .sh (trim cmd) (unquote (trim q)) := by
  unfold enter detectAiPipe
  rw [rfindPipe_append _ _ hn]
  dsimp only
  rw [if_pos ⟨hcmd, hq⟩]

example : enter c!"rm -rf ~ |! \"what happened\"" = .sh c!"rm -rf ~" c!"what happened" ∧
    enter c!"grep \"a|!b\" f" = .sh c!"grep \"a" c!"b\" f" ∧ enter c!"a |! " = .eval c!"a |! " := by decide

/-! ## C107: the notification -/

/-- The command in the notification (execution.rs:180-184); `none` is a panic, which ends the shell.
Only for commands that took long enough, with notifications enabled. -/
def preview (line : Str) : Option Str :=
  if 50 < blen line then (splitByte line 47).map (fun x => x.1 ++ c!"...") else some line

theorem splitByte_some {s x y : Str} {b : Nat} (h : splitByte s b = some (x, y)) : s = x ++ y ∧ blen x = b := by
  induction s generalizing b x y with
  | nil =>
    cases b with
    | zero => simp only [splitByte, Option.some.injEq, Prod.mk.injEq] at h; obtain ⟨rfl, rfl⟩ := h; exact ⟨rfl, rfl⟩
    | succ b => simp [splitByte] at h
  | cons c s ih =>
    cases b with
    | zero => simp only [splitByte, Option.some.injEq, Prod.mk.injEq] at h; obtain ⟨rfl, rfl⟩ := h; exact ⟨rfl, rfl⟩
    | succ b =>
      rw [splitByte] at h
      split at h
      · rename_i hle
        cases hs : splitByte s (b + 1 - c.utf8Size) with
        | none => rw [hs] at h; cases h
        | some p =>
          obtain ⟨u, v⟩ := p
          rw [hs] at h
          simp only [Option.some.injEq, Prod.mk.injEq] at h
          obtain ⟨rfl, rfl⟩ := h
          obtain ⟨h1, h2⟩ := ih hs
          exact ⟨by rw [h1]; rfl, by rw [Editor.blen_cons, h2]; omega⟩
      · cases h

/-- C107 (partial): the preview exists exactly if the line is short or byte 47 begins a character. -/
theorem C107_exact_partial (line : Str) : preview line ≠ none ↔ blen line ≤ 50 ∨ ∃ x y, line = x ++ y ∧ blen x = 47 := by
  unfold preview
  by_cases h : 50 < blen line
  · rw [if_pos h]
    constructor
    · intro hn
      cases hs : splitByte line 47 with
      | none => rw [hs] at hn; exact absurd rfl hn
      | some p => exact .inr ⟨p.1, p.2, splitByte_some hs⟩
    · rintro (h1 | ⟨x, y, rfl, h2⟩)
      · omega
      · rw [← h2, Editor.splitByte_append]; simp
  · rw [if_neg h]
    exact ⟨fun _ => .inl (by omega), fun _ => by simp⟩

theorem blen_ascii {s : Str} (h : ∀ c ∈ s, c.utf8Size = 1) : blen s = s.length := by
  induction s with
  | nil => rfl
  | cons c s ih => rw [Editor.blen_cons, h c (by simp), ih (fun x hx => h x (by simp [hx])), List.length_cons]; omega

/-- C107 (partial): for ASCII the preview is the line, or its first 47 characters and dots. -/
theorem C107_ascii_partial (line : Str) (h : ∀ c ∈ line, c.utf8Size = 1) :
    preview line = some (if line.length ≤ 50 then line else line.take 47 ++ c!"...") := by
  unfold preview
  rw [blen_ascii h]
  by_cases hl : 50 < line.length
  · rw [if_pos hl, if_neg (by omega)]
    have h1 : blen (line.take 47) = 47 := by
      rw [blen_ascii (fun c hc => h c (List.mem_of_mem_take hc)), List.length_take]; omega
    have := Editor.splitByte_append (line.take 47) (line.drop 47)
    rw [List.take_append_drop, h1] at this
    rw [this]; rfl
  · rw [if_neg hl, if_pos (by omega)]

/-- C107 is violated: a long command with a character of two bytes at byte 46 ends the shell. -/
theorem C107_violated : ¬ ∀ line, preview line ≠ none := by
  intro h
  exact h (List.replicate 46 'a' ++ 'é' :: List.replicate 10 'a') (by decide +kernel)

/-- C107 is violated for every text of characters of two bytes that is longer than 50 bytes. -/
theorem C107_two_bytes (line : Str) (h : ∀ c ∈ line, c.utf8Size = 2) (hl : 25 < line.length) : preview line = none := by
  have hb : ∀ s : Str, (∀ c ∈ s, c.utf8Size = 2) → blen s = 2 * s.length := by
    intro s
    induction s with
    | nil => intro _; rfl
    | cons c s ih => intro h; rw [Editor.blen_cons, h c (by simp), ih (fun x hx => h x (by simp [hx])), List.length_cons]; omega
  apply Classical.byContradiction
  intro hn
  rcases (C107_exact_partial line).1 hn with h1 | ⟨x, y, rfl, h2⟩
  · rw [hb _ h] at h1; omega
  · rw [hb x (fun c hc => h c (by simp [hc]))] at h2; omega

example : preview (List.replicate 60 'x') = some (List.replicate 47 'x' ++ c!"...") ∧ preview (List.replicate 30 'я') = none := by
  decide +kernel

/-! ## C108: two presses -/

/-- `on_pressed` (state.rs:53-78) at time `now`; the count is not read. -/
def onPressed (timeout : Nat) (first : Option Nat) (now : Nat) : Option Nat × Bool :=
  match first with
  | none => (some now, false)
  | some t => if now - t ≤ timeout then (none, true) else (some now, false)

/-- A key that counts or another one, with its time in milliseconds. -/
inductive Press
  | it (now : Nat)
  | other
  deriving DecidableEq, Repr

/-- Keys one after the other; `reset` says whether other keys forget the first press (Ctrl-C: handler.rs:80-82;
Esc: never).  The answers say which keys acted as the second press. -/
def presses (timeout : Nat) (reset : Bool) : Option Nat → List Press → List Bool
  | _, [] => []
  | st, .it now :: l => (onPressed timeout st now).2 :: presses timeout reset (onPressed timeout st now).1 l
  | st, .other :: l => false :: presses timeout reset (if reset then none else st) l

/-- Ctrl-C ends the shell (execution.rs:312-322; debug builds): 3 seconds. -/
def ctrlC : List Press → List Bool := presses 3000 true none

/-- Esc toggles `sudo` (handler.rs:275-280): 400 milliseconds.  An Esc that cancels a completion is another key. -/
def escSudo : List Press → List Bool := presses 400 false none

/-- What should act: the key before was the same key, within the time, and did not act itself. -/
def Acts (timeout : Nat) (l : List Press) (acts : List Bool) : Prop :=
  acts.length = l.length ∧ ∀ i, acts[i]? = some true ↔
    ∃ j a b, i = j + 1 ∧ l[j]? = some (.it a) ∧ l[i]? = some (.it b) ∧ b - a ≤ timeout ∧ acts[j]? = some false

theorem presses_length (t : Nat) (r : Bool) (st : Option Nat) (l : List Press) : (presses t r st l).length = l.length := by
  induction l generalizing st with
  | nil => rfl
  | cons p l ih => cases p <;> simp [presses, ih]

/-- The answers from a state: the first press counts as pressed before. -/
theorem presses_spec (t : Nat) (r : Bool) (l : List Press) (hr : r = true ∨ Press.other ∉ l) (st : Option Nat) (i : Nat) :
    (presses t r st l)[i]? = some true ↔
      (i = 0 ∧ ∃ a b, st = some a ∧ l[0]? = some (.it b) ∧ b - a ≤ t) ∨
      ∃ j a b, i = j + 1 ∧ l[j]? = some (.it a) ∧ l[i]? = some (.it b) ∧ b - a ≤ t ∧ (presses t r st l)[j]? = some false := by
  induction l generalizing st i with
  | nil => simp [presses]
  | cons p l ih =>
    have ih := ih (by rcases hr with h | h; exact .inl h; exact .inr (fun hx => h (by simp [hx])))
    have hsome : ∀ (acts : List Bool) (i : Nat) (e : acts.length = l.length) (b : Nat), l[i]? = some (.it b) → acts[i]? ≠ none := by
      intro acts i e b h hn
      have := (List.getElem?_eq_none_iff).1 hn
      rw [e] at this
      rw [(List.getElem?_eq_none_iff).2 this] at h
      cases h
    cases p with
    | other =>
      have hrt : r = true := by
        rcases hr with h | h
        · exact h
        · exact absurd (by simp) h
      rw [presses, if_pos hrt]
      cases i with
      | zero => simp
      | succ i =>
        simp only [List.getElem?_cons_succ]
        rw [ih none i]
        constructor
        · rintro (⟨_, a, b, h, _⟩ | ⟨j, a, b, rfl, h1, h2, h3, h4⟩)
          · cases h
          · exact .inr ⟨j + 1, a, b, rfl, by simpa using h1, by simpa using h2, h3, by simpa using h4⟩
        · rintro (⟨h, _⟩ | ⟨j, a, b, h, h1, h2, h3, h4⟩)
          · cases h
          · cases j with
            | zero => simp at h1
            | succ j => exact .inr ⟨j, a, b, by omega, by simpa using h1, by simpa using h2, h3, by simpa using h4⟩
    | it now =>
      rw [presses]
      cases i with
      | zero =>
        simp only [List.getElem?_cons_zero, Option.some.injEq, Press.it.injEq, true_and]
        constructor
        · intro h
          cases st with
          | none => simp [onPressed] at h
          | some a =>
            simp only [onPressed] at h
            split at h
            · rename_i h1; exact .inl ⟨a, now, rfl, rfl, h1⟩
            · cases h
        · rintro (⟨a, b, rfl, rfl, h⟩ | ⟨j, a, b, h, _⟩)
          · simp [onPressed, h]
          · omega
      | succ i =>
        simp only [List.getElem?_cons_succ]
        rw [ih _ i]
        have hst : ∀ a, (onPressed t st now).1 = some a ↔ a = now ∧ (onPressed t st now).2 = false := by
          intro a
          unfold onPressed
          split
          · simp [eq_comm]
          · split <;> simp [eq_comm]
        constructor
        · rintro (⟨rfl, a, b, h1, h2, h3⟩ | ⟨j, a, b, rfl, h1, h2, h3, h4⟩)
          · obtain ⟨rfl, h4⟩ := (hst a).1 h1
            exact .inr ⟨0, a, b, rfl, rfl, by simpa using h2, h3, by simp [h4]⟩
          · exact .inr ⟨j + 1, a, b, rfl, by simpa using h1, by simpa using h2, h3, by simpa using h4⟩
        · rintro (⟨h, _⟩ | ⟨j, a, b, h, h1, h2, h3, h4⟩)
          · cases h
          · cases j with
            | zero =>
              simp only [List.getElem?_cons_zero, Option.some.injEq, Press.it.injEq] at h1 h4
              subst h1
              obtain rfl : i = 0 := by omega
              exact .inl ⟨rfl, now, b, (hst now).2 ⟨rfl, h4⟩, by simpa using h2, h3⟩
            | succ j => exact .inr ⟨j, a, b, by omega, by simpa using h1, by simpa using h2, h3, by simpa using h4⟩

/-- C108 for Ctrl-C: for all sequences of keys. -/
theorem C108_ctrlC_partial (l : List Press) : Acts 3000 l (ctrlC l) := by
  refine ⟨presses_length _ _ _ _, fun i => ?_⟩
  unfold ctrlC
  rw [presses_spec 3000 true l (.inl rfl) none i]
  constructor
  · rintro (⟨_, _, _, h, _⟩ | h)
    · cases h
    · exact h
  · exact fun h => .inr h

/-- C108 for Esc, as long as no other key is pressed. -/
theorem C108_esc_partial (l : List Press) (h : Press.other ∉ l) : Acts 400 l (escSudo l) := by
  refine ⟨presses_length _ _ _ _, fun i => ?_⟩
  unfold escSudo
  rw [presses_spec 400 false l (.inr h) none i]
  constructor
  · rintro (⟨_, _, _, h, _⟩ | h)
    · cases h
    · exact h
  · exact fun h => .inr h

/-- C108 is violated: Esc, another key, Esc toggles `sudo`. -/
theorem C108_violated : ¬ ∀ l, Acts 400 l (escSudo l) := by
  intro h
  obtain ⟨j, a, b, hj, h1, -⟩ := ((h [.it 0, .other, .it 300]).2 2).1 (by decide)
  obtain rfl : j = 1 := by omega
  simp at h1

/-- `toggle_sudo` (input_analysis.rs:250-262): the caret goes to the end. -/
def toggleSudo (z : Zip) : Zip :=
  let text := if c!"sudo ".isPrefixOf z.text then z.text.drop 5 else c!"sudo " ++ z.text
  z.op W (.reset text)

/-- Toggling twice gives the line back, except for lines that begin with `sudo sudo`. -/
theorem C108_toggle_partial (z : Zip) (h : ¬ c!"sudo sudo " <+: z.text) : (toggleSudo (toggleSudo z)).text = z.text := by
  have key : ∀ t : Str, ¬ c!"sudo sudo " <+: t →
      (let u := if c!"sudo ".isPrefixOf t then t.drop 5 else c!"sudo " ++ t
       if c!"sudo ".isPrefixOf u then u.drop 5 else c!"sudo " ++ u) = t := by
    intro t ht
    dsimp only
    by_cases h1 : c!"sudo ".isPrefixOf t = true
    · obtain ⟨r, rfl⟩ := List.isPrefixOf_iff_prefix.1 h1
      rw [if_pos h1]
      have e : (c!"sudo " ++ r).drop 5 = r := rfl
      rw [e, if_neg]
      intro h2
      obtain ⟨r2, rfl⟩ := List.isPrefixOf_iff_prefix.1 h2
      exact ht ⟨r2, rfl⟩
    · rw [if_neg h1, if_pos (List.isPrefixOf_iff_prefix.2 (List.prefix_append _ _))]
      rfl
  have := key z.text h
  simp only [toggleSudo, Zip.op, Zip.text, List.append_nil] at this ⊢
  exact this

example : escSudo [.it 0, .it 300, .it 500, .it 1000, .it 1100] = [false, true, false, false, true] ∧
    ctrlC [.it 0, .other, .it 300, .it 3000] = [false, false, false, true] ∧
    (toggleSudo ⟨c!"ls", c!" x"⟩) = ⟨c!"sudo ls x", []⟩ := by decide

/-! ## C109: pasting -/

/-- `replace("\r\n", "\n")` -/
def crlf : Str → Str
  | '\r' :: '\n' :: s => '\n' :: crlf s
  | c :: s => c :: crlf s
  | [] => []

/-- `handle_paste_event` (editing.rs:82-96). -/
def paste (z : Zip) (t : Str) : Zip :=
  z.op W (.insertStr ((crlf t).map fun c => if c = '\r' then '\n' else c))

/-- The lines of a text, whichever of the three line ends each has. -/
inductive Lines : Str → List Str → Prop
  | last (l : Str) : (∀ c ∈ l, c ≠ '\r' ∧ c ≠ '\n') → Lines l [l]
  | lf (l t : Str) (ls : List Str) : (∀ c ∈ l, c ≠ '\r' ∧ c ≠ '\n') → Lines t ls → Lines (l ++ '\n' :: t) (l :: ls)
  | crlf (l t : Str) (ls : List Str) : (∀ c ∈ l, c ≠ '\r' ∧ c ≠ '\n') → Lines t ls → Lines (l ++ '\r' :: '\n' :: t) (l :: ls)
  | cr (l t : Str) (ls : List Str) : (∀ c ∈ l, c ≠ '\r' ∧ c ≠ '\n') → t.head? ≠ some '\n' → Lines t ls →
      Lines (l ++ '\r' :: t) (l :: ls)

theorem crlf_plain (l t : Str) (h : ∀ c ∈ l, c ≠ '\r' ∧ c ≠ '\n') : crlf (l ++ t) = l ++ crlf t := by
  induction l with
  | nil => rfl
  | cons c l ih =>
    have hc := (h c (by simp)).1
    rw [List.cons_append, crlf.eq_2 _ _ (by rintro s rfl; exact absurd rfl hc), ih (fun x hx => h x (by simp [hx]))]
    rfl

theorem map_plain (l : Str) (h : ∀ c ∈ l, c ≠ '\r' ∧ c ≠ '\n') : l.map (fun c => if c = '\r' then '\n' else c) = l := by
  rw [List.map_congr_left (g := id) (fun c hc => by simp [(h c hc).1]), List.map_id]

/-- C109: pasting puts the lines of the text before the caret, with `\n` between them, and leaves the rest. -/
theorem C109_paste (z : Zip) (t : Str) (ls : List Str) (h : Lines t ls) :
    paste z t = ⟨z.before ++ joinWith ['\n'] ls, z.after⟩ := by
  have key : (crlf t).map (fun c => if c = '\r' then '\n' else c) = joinWith ['\n'] ls := by
    have hj : ∀ (l : Str) (ls : List Str), ls ≠ [] → joinWith ['\n'] (l :: ls) = l ++ '\n' :: joinWith ['\n'] ls := by
      intro l ls h
      cases ls with
      | nil => exact absurd rfl h
      | cons x ls => simp [joinWith]
    have hne : ∀ t ls, Lines t ls → ls ≠ [] := by intro t ls h; cases h <;> simp
    induction h with
    | last l hl =>
      have := crlf_plain l [] hl
      rw [List.append_nil] at this
      rw [this, crlf, List.append_nil, map_plain l hl]
      simp [joinWith]
    | lf l t ls hl ht ih =>
      rw [crlf_plain _ _ hl, crlf.eq_2 _ _ (by rintro s h; cases h), List.map_append, map_plain l hl, hj _ _ (hne _ _ ht), ← ih]
      rfl
    | crlf l t ls hl ht ih =>
      rw [crlf_plain _ _ hl, crlf, List.map_append, map_plain l hl, hj _ _ (hne _ _ ht), ← ih]
      rfl
    | cr l t ls hl hh ht ih =>
      rw [crlf_plain _ _ hl, crlf.eq_2 _ _ (by rintro s - rfl; exact absurd rfl hh), List.map_append, map_plain l hl,
        hj _ _ (hne _ _ ht), ← ih]
      rfl
  simp only [paste, Zip.op, key]

/-- Every text has lines. -/
theorem lines_exist (t : Str) : ∃ ls, Lines t ls := by
  generalize hn : t.length = n
  induction n using Nat.strongRecOn generalizing t with
  | _ n ih =>
    have hspan : ∀ t : Str, ∃ l r, t = l ++ r ∧ (∀ c ∈ l, c ≠ '\r' ∧ c ≠ '\n') ∧ (r = [] ∨ ∃ c s, r = c :: s ∧ (c = '\r' ∨ c = '\n')) := by
      intro t
      induction t with
      | nil => exact ⟨[], [], rfl, by simp, .inl rfl⟩
      | cons c t ih =>
        by_cases hc : c = '\r' ∨ c = '\n'
        · exact ⟨[], c :: t, rfl, by simp, .inr ⟨c, t, rfl, hc⟩⟩
        · obtain ⟨l, r, rfl, h1, h2⟩ := ih
          refine ⟨c :: l, r, rfl, ?_, h2⟩
          intro x hx
          rcases List.mem_cons.1 hx with rfl | hx
          · exact ⟨fun h => hc (.inl h), fun h => hc (.inr h)⟩
          · exact h1 x hx
    obtain ⟨l, r, rfl, h1, h2⟩ := hspan t
    rcases h2 with rfl | ⟨c, s, rfl, hc⟩
    · exact ⟨[l], by rw [List.append_nil]; exact .last l h1⟩
    · rcases hc with rfl | rfl
      · by_cases hh : s.head? = some '\n'
        · cases s with
          | nil => cases hh
          | cons x s =>
            simp only [List.head?_cons, Option.some.injEq] at hh
            subst hh
            obtain ⟨ls, hls⟩ := ih s.length (by rw [← hn]; simp; omega) s rfl
            exact ⟨l :: ls, .crlf l s ls h1 hls⟩
        · obtain ⟨ls, hls⟩ := ih s.length (by rw [← hn]; simp; omega) s rfl
          exact ⟨l :: ls, .cr l s ls h1 hh hls⟩
      · obtain ⟨ls, hls⟩ := ih s.length (by rw [← hn]; simp; omega) s rfl
        exact ⟨l :: ls, .lf l s ls h1 hls⟩

example : paste ⟨c!"x", c!"y"⟩ c!"a\r\nb\rc\n" = ⟨c!"xa\nb\nc\n", c!"y"⟩ := by decide

end Dsh.Keys
