import Verif.Editor.Props
import Verif.Repl.Suggest

/-!
# The command line with its grey texts: redrawing, moving, accepting

`dsh/src/repl/render.rs: print_input`, `dsh/src/repl/input_analysis.rs: analyze_input`,
`dsh/src/repl/handler.rs: handle_key_event`, `dsh/src/repl/key_action.rs: determine_key_action`,
`dsh/src/repl/mod.rs: accept_suggestion, get_completion_from_history` and the handlers.

The text with its caret is the specification `Zip` of the editor, which `C01_editor_refines` proves of
`Input`.  Simplified: lines of ASCII characters (the parser counts bytes, the caret characters); automatic
pairs, abbreviations and corrections by the AI are off; history, parser, command names, file names and
other sources are arbitrary functions; colours and terminal output are not modelled except which
grey text is shown.
-/

namespace Dsh.Line
open Editor (Zip)
open Inline (Mgr Sug Answers)

abbrev Str := List Char

/-- A word of the line as the parser reports it (ast.rs:191-262, get_span 264-311). -/
structure Word where
  /-- `Rule::argv0`, otherwise `Rule::args` -/
  argv0 : Bool
  start : Nat
  stop : Nat
  /-- the caret is in the word or right behind it -/
  current : Bool
  deriving DecidableEq, Repr

/-- Everything the line depends on. -/
structure Env where
  /-- the entry of the history for a line (mod.rs:613-642) -/
  hist : Str → Option Str
  /-- the words of a line with the caret at a position; `none` if it does not parse -/
  words : Str → Nat → Option (List Word)
  /-- `search_prefix` -/
  cmd : Str → Option Str
  /-- `complete_path_for_span` (repl/completion.rs:99-118): the whole line and what is added -/
  path : Str → Nat → Nat → Bool → Option (Str × Str)
  /-- what the sources of suggestions answer -/
  answers : Zip → Answers

/-- What the analysis finds: `completion_full` and `completion`. -/
abbrev Found := Option Str × Option Str

def slice (s : Str) (a b : Nat) : Str := (s.take b).drop a

/-- The loop over the words (input_analysis.rs:53-102). -/
def analyzeWords (env : Env) (line : Str) (completion : Option Str) : List Word → Found
  | [] => (none, completion)
  | w :: ws =>
    let word := slice line w.start w.stop
    if word = [] then analyzeWords env line completion ws
    else if w.current && completion.isNone then
      match (if w.argv0 then env.cmd word else none) with
      | some file => (some file, if line.isPrefixOf file then some (file.drop line.length) else none)
      | none =>
        match env.path line w.start w.stop w.argv0 with
        | some (full, suffix) => (some full, some suffix)
        | none => analyzeWords env line completion ws
    else analyzeWords env line completion ws

/-- `analyze_input` (input_analysis.rs:31-134), without colours. -/
def analyze (env : Env) (line : Str) (caret : Nat) (completion : Option Str) : Found :=
  if line.head? = some '!' then (none, none)
  else
    match env.words line caret with
    | some ws => analyzeWords env line completion ws
    | none => (none, none)

/-- The line being edited. -/
structure St where
  z : Zip := {}
  /-- `input.completion` -/
  comp : Option Str := none
  sug : Mgr := {}
  /-- the grey text on the screen behind the line -/
  ghost : Option Str := none
  /-- `last_analyzed_input` with `last_analysis_result` -/
  last : Option (Str × Found) := none
  /-- commands written to the history -/
  history : List Str := []
  /-- commands that were run -/
  ran : List Str := []

/-- `get_completion_from_history` (mod.rs:614-642): the stored completion and the rest of the entry. -/
def fromHistory (env : Env) (s : St) : Option Str × Option Str :=
  match env.hist s.z.text with
  | some e => (some e, if s.z.text.isPrefixOf e then some (e.drop s.z.text.length) else none)
  | none => (s.comp, none)

/-- `apply_cached_analysis` and `apply_fresh_analysis` (render.rs:350-375). -/
def applyFound (c : Option Str × Option Str) (f : Found) : Option Str × Option Str :=
  (f.1.or c.1, f.2.or c.2)

/-- `print_input` (render.rs:212-334) with `refresh_inline_suggestion` (repl_ai.rs:70-128). -/
def printInput (env : Env) (reset : Bool) (s : St) : St :=
  let text := s.z.text
  let (comp, completion, last) :=
    if text.isEmpty || reset then (none, none, none)
    else
      let c := fromHistory env s
      let f := match s.last with
        | some (l, f) => if l = text then f else analyze env text s.z.before.length c.2
        | none => analyze env text s.z.before.length c.2
      let r := applyFound c f
      (r.1, r.2, some (text, f))
  let sug : Mgr :=
    if completion.isNone then
      if comp.isSome then Inline.clear s.sug else Inline.update s.sug (Inline.collect (env.answers s.z))
    else Inline.clear s.sug
  let ghost := match completion with
    | some c => some c
    | none => Inline.suffix sug text
  { s with comp, sug, ghost, last }

/-- `next_word_chunk` (repl/completion.rs:169-192): blanks, one word and one blank. -/
def chunkGo (inWord : Bool) : Str → Str
  | [] => []
  | c :: s =>
    if rustWhitespace c then (if inWord then [c] else c :: chunkGo inWord s)
    else c :: chunkGo true s

def nextWordChunk (s : Str) : Option Str := if s = [] then none else some (chunkGo false s)

/-- `accept_suggestion` with `learn_suggestion` (mod.rs:594-601); the answer is whether text was added. -/
def acceptSuggestion (full : Bool) (s : St) : St × Bool :=
  match s.sug.active with
  | none => (s, false)
  | some sg =>
    let cur := s.z.text
    if !(cur.isPrefixOf sg.full && decide (cur.length < sg.full.length)) then (s, false)
    else
      let suffix := sg.full.drop cur.length
      match (if full then some suffix else nextWordChunk suffix) with
      | none => (s, false)
      | some chunk =>
        let z : Zip := ⟨s.z.before ++ chunk, s.z.after⟩
        if full then ({ s with z, history := s.history ++ [sg.full], sug := Inline.clear s.sug }, true)
        else ({ s with z }, true)

/-- `handle_accept_completion` (key_handlers/completion.rs:46-51). -/
def acceptCompletion (s : St) : St :=
  match s.comp with
  | some c => { s with z := ⟨c, []⟩, comp := none }
  | none => s

/-- The keys. -/
inductive Key
  | char (c : Char)
  | left | right | ctrlRight
  /-- Ctrl-A, Ctrl-E -/
  | home | toEnd
  | backspace
  /-- Ctrl-W, Ctrl-K, Ctrl-U -/
  | killWord | killEnd | killBegin
  /-- Ctrl-C -/
  | interrupt
  /-- Alt-] and Alt-[ -/
  | rotate (forward : Bool)
  | enter
  deriving DecidableEq, Repr

/-- Widths matter only to clicks, which are not modelled here. -/
def W : Char → Nat := fun _ => 1

def atEnd (s : St) : Bool := s.z.after.isEmpty

/-- One key (key_action.rs:100-257, handler.rs:63-333, key_handlers/*.rs).  Moving does not redraw. -/
def key (env : Env) (s : St) : Key → St
  | .char c => printInput env false { s with z := s.z.op W (.insert c) }
  | .left => if s.z.before.isEmpty then s else { s with z := s.z.op W (.moveBy (-1)), comp := none }
  | .right =>
    if s.sug.active.isSome && s.comp.isNone && atEnd s then
      let (s, ok) := acceptSuggestion true s
      printInput env ok s
    else if s.comp.isSome && atEnd s then printInput env false (acceptCompletion s)
    else { s with z := s.z.op W (.moveBy 1) }
  | .ctrlRight =>
    if s.sug.active.isSome && s.comp.isNone && atEnd s then
      let (s, ok) := acceptSuggestion false s
      printInput env ok s
    else { s with z := s.z.op W .moveWordRight }
  | .home => { s with z := s.z.op W .moveToBegin }
  | .toEnd =>
    if s.comp.isSome then printInput env false (acceptCompletion s)
    else { s with z := s.z.op W .moveToEnd }
  | .backspace => printInput env true { s with z := s.z.op W .backspace }
  | .killWord => printInput env true { s with z := s.z.op W .deleteWordBackward }
  | .killEnd => printInput env true { s with z := s.z.op W .deleteToEnd }
  | .killBegin => printInput env true { s with z := s.z.op W .deleteToBeginning }
  | .interrupt => { s with z := {}, sug := Inline.clear s.sug, ghost := none }
  | .rotate f => printInput env false { s with sug := (Inline.rotate s.sug (if f then 1 else -1)).1 }
  | .enter =>
    -- execution.rs:15-228: the line is run and eval_str writes it to the history
    if s.z.text.isEmpty then { s with comp := none, ghost := none }
    else { s with z := {}, comp := none, sug := Inline.clear s.sug, ghost := none
                  history := s.history ++ [s.z.text], ran := s.ran ++ [s.z.text] }

def keys (env : Env) (s : St) (l : List Key) : St := l.foldl (key env) s

/-! ## C102: moving the caret changes nothing but accepts the grey text -/

/-- The keys that move the caret, and accept what is shown. -/
def Key.motion : Key → Bool
  | .left | .right | .ctrlRight | .home | .toEnd => true
  | _ => false

/-- The text is the same, or some or all of the grey text was added to its end. -/
def Fair (s s' : St) : Prop :=
  s'.z.text = s.z.text ∨ ∃ g a, s.ghost = some g ∧ a <+: g ∧ s'.z.text = s.z.text ++ a

/-- What is stored agrees with what is shown. -/
def Agrees (s : St) : Prop :=
  (∀ c, s.comp = some c → ∃ g, s.ghost = some g ∧ c = s.z.text ++ g) ∧
  (s.comp = none → s.sug.active ≠ none → s.ghost = Inline.suffix s.sug s.z.text) ∧
  (s.comp ≠ none → s.sug.active = none)

theorem printInput_z (env : Env) (r : Bool) (s : St) : (printInput env r s).z = s.z := by
  unfold printInput; rfl

theorem printInput_history (env : Env) (r : Bool) (s : St) :
    (printInput env r s).history = s.history ∧ (printInput env r s).ran = s.ran := ⟨rfl, rfl⟩

theorem caret_text (z : Zip) (k : Nat) : (Editor.caretAt z.text k).text = z.text := Editor.caretAt_text _ _

theorem moveWordRight_text (z : Zip) : (z.op W .moveWordRight).text = z.text := by
  simp only [Zip.op, Zip.text, List.append_assoc]
  rw [List.takeWhile_append_dropWhile, List.takeWhile_append_dropWhile]

theorem text_of_atEnd {s : St} (h : atEnd s = true) : s.z.text = s.z.before ∧ s.z.after = [] := by
  have : s.z.after = [] := by simpa [atEnd] using h
  simp [Zip.text, this]

theorem isPrefixOf_iff {a b : Str} : a.isPrefixOf b = true ↔ a <+: b := List.isPrefixOf_iff_prefix

theorem prefix_drop {a b : Str} (h : a <+: b) : a ++ b.drop a.length = b := by
  obtain ⟨t, rfl⟩ := h; simp

theorem chunkGo_prefix (b : Bool) (s : Str) : chunkGo b s <+: s := by
  induction s generalizing b with
  | nil => exact List.prefix_rfl
  | cons c s ih =>
    rw [chunkGo]
    split
    · split
      · exact ⟨s, rfl⟩
      · exact (List.cons_prefix_cons).2 ⟨rfl, ih _⟩
    · exact (List.cons_prefix_cons).2 ⟨rfl, ih _⟩

/-- Accepting a suggestion at the end of the line adds all, or the beginning, of its rest. -/
theorem accept_text {s : St} (full : Bool) (he : atEnd s = true) :
    (acceptSuggestion full s).1.z.text = s.z.text ∨
    ∃ g a, Inline.suffix s.sug s.z.text = some g ∧ a <+: g ∧ (acceptSuggestion full s).1.z.text = s.z.text ++ a ∧
      (full = true → a = g) := by
  obtain ⟨ht, ha⟩ := text_of_atEnd he
  unfold acceptSuggestion Inline.suffix
  cases hs : s.sug.active with
  | none => exact .inl rfl
  | some sg =>
    dsimp only
    by_cases hp : (s.z.text.isPrefixOf sg.full && decide (s.z.text.length < sg.full.length)) = true
    · rw [hp]
      simp only [Bool.not_true, Bool.false_eq_true, ↓reduceIte]
      cases full with
      | true =>
        refine .inr ⟨_, _, rfl, List.prefix_rfl, ?_, fun _ => rfl⟩
        simp only [↓reduceIte, Zip.text, ha, List.append_nil]
      | false =>
        simp only [Bool.false_eq_true, ↓reduceIte]
        unfold nextWordChunk
        split
        · exact .inl rfl
        · rename_i chunk hc
          split at hc
          · cases hc
          · simp only [Option.some.injEq] at hc
            subst hc
            refine .inr ⟨_, _, rfl, chunkGo_prefix false _, ?_, fun h => absurd h (by simp)⟩
            simp only [Zip.text, ha, List.append_nil]
    · simp only [Bool.not_eq_true] at hp
      rw [hp]
      exact .inl rfl

/-- Where the stored completion agrees with the screen, every motion is fair. -/
theorem Agrees.fair {env : Env} {s : St} (h : Agrees s) (k : Key) (hk : k.motion = true) : Fair s (key env s k) := by
  have hacc : ∀ f, atEnd s = true → s.comp = none → s.sug.active ≠ none → ∀ b,
      Fair s (printInput env b (acceptSuggestion f s).1) := by
    intro f he hc hsug b
    rcases accept_text f he with h1 | ⟨g, a, h1, h2, h3, _⟩
    · exact .inl (by rw [printInput_z]; exact h1)
    · exact .inr ⟨g, a, by rw [h.2.1 hc hsug, h1], h2, by rw [printInput_z]; exact h3⟩
  have hcomp : s.comp.isSome = true → Fair s (printInput env false (acceptCompletion s)) := by
    intro hc
    obtain ⟨c, hc⟩ := Option.isSome_iff_exists.1 hc
    obtain ⟨g, hg, e⟩ := h.1 c hc
    refine .inr ⟨g, g, hg, List.prefix_rfl, ?_⟩
    rw [printInput_z]
    simp only [acceptCompletion, hc, Zip.text, List.append_nil]
    exact e
  cases k with
  | left =>
    left
    simp only [key]
    split
    · rfl
    · exact caret_text _ _
  | right =>
    simp only [key]
    split
    · rename_i h1
      simp only [Bool.and_eq_true, Option.isSome_iff_ne_none, Option.isNone_iff_eq_none] at h1
      exact hacc true h1.2 h1.1.2 h1.1.1 _
    · split
      · rename_i h1
        simp only [Bool.and_eq_true] at h1
        exact hcomp h1.1
      · exact .inl (caret_text _ _)
  | ctrlRight =>
    simp only [key]
    split
    · rename_i h1
      simp only [Bool.and_eq_true, Option.isSome_iff_ne_none, Option.isNone_iff_eq_none] at h1
      exact hacc false h1.2 h1.1.2 h1.1.1 _
    · exact .inl (moveWordRight_text _)
  | home => exact .inl (by simp [key, Zip.op, Zip.text])
  | toEnd =>
    simp only [key]
    split
    · rename_i h1; exact hcomp h1
    · exact .inl (by simp [Zip.op, Zip.text])
  | _ => cases hk

/-- Moving to the left or to the beginning keeps the agreement. -/
theorem Agrees.back {env : Env} {s : St} (h : Agrees s) (k : Key) (hk : k = .left ∨ k = .home) :
    Agrees (key env s k) ∧ (key env s k).z.text = s.z.text ∧ (key env s k).ghost = s.ghost := by
  rcases hk with rfl | rfl
  · simp only [key]
    split
    · exact ⟨h, rfl, rfl⟩
    · refine ⟨⟨fun c hc => (by cases hc), fun _ hs => ?_, fun hc => absurd rfl hc⟩, caret_text _ _, rfl⟩
      show s.ghost = Inline.suffix s.sug (Editor.caretAt _ _).text
      rw [caret_text]
      by_cases hc : s.comp = none
      · exact h.2.1 hc hs
      · exact absurd (h.2.2 hc) hs
  · have ht : (s.z.op W .moveToBegin).text = s.z.text := by simp [Zip.op, Zip.text]
    refine ⟨⟨fun c hc => ?_, fun hc hs => ?_, h.2.2⟩, ht, rfl⟩
    · obtain ⟨g, h1, h2⟩ := h.1 c hc
      exact ⟨g, h1, by simp only [key]; rw [ht]; exact h2⟩
    · have := h.2.1 hc hs
      simp only [key] at this ⊢
      rw [ht]; exact this

theorem Agrees.backs {env : Env} {s : St} (h : Agrees s) (ms : List Key) (hms : ∀ m ∈ ms, m = .left ∨ m = .home) :
    Agrees (keys env s ms) ∧ (keys env s ms).z.text = s.z.text ∧ (keys env s ms).ghost = s.ghost := by
  induction ms generalizing s with
  | nil => exact ⟨h, rfl, rfl⟩
  | cons m ms ih =>
    obtain ⟨h1, h2, h3⟩ := h.back (env := env) m (hms m (by simp))
    obtain ⟨h4, h5, h6⟩ := ih h1 (fun x hx => hms x (by simp [hx]))
    exact ⟨h4, h5.trans h2, h6.trans h3⟩

/-- After a key that deletes, nothing is stored and the suggestion is what is shown. -/
theorem agrees_reset (env : Env) (s : St) : Agrees (printInput env true s) := by
  refine ⟨fun c hc => ?_, fun _ _ => ?_, fun hc => ?_⟩
  · simp [printInput] at hc
  · simp [printInput]
  · simp [printInput] at hc

/-- The rest of the entry of the history. -/
def histRest (env : Env) (l : Str) : Option Str :=
  match env.hist l with
  | some e => if l.isPrefixOf e then some (e.drop l.length) else none
  | none => none

theorem fromHistory_snd (env : Env) (s : St) : (fromHistory env s).2 = histRest env s.z.text := by
  unfold fromHistory histRest; cases env.hist s.z.text <;> rfl

/-- The analysis that is kept was made for that text, with the caret somewhere. -/
def Inv (env : Env) (s : St) : Prop :=
  ∀ l f, s.last = some (l, f) → ∃ caret, f = analyze env l caret (histRest env l)

theorem inv_print {env : Env} {s : St} (h : Inv env s) (r : Bool) : Inv env (printInput env r s) := by
  intro l f hl
  by_cases h0 : (s.z.text.isEmpty || r) = true
  · simp [printInput, h0] at hl
  · simp only [printInput, h0, Bool.false_eq_true, ↓reduceIte, Option.some.injEq, Prod.mk.injEq] at hl
    obtain ⟨rfl, hf⟩ := hl
    rw [fromHistory_snd] at hf
    split at hf
    · rename_i l' f' hlast
      split at hf
      · rename_i he; subst he; subst hf; exact h _ _ hlast
      · exact ⟨_, hf.symm⟩
    · exact ⟨_, hf.symm⟩

theorem inv_of_last {env : Env} {s s' : St} (h : Inv env s) (e : s'.last = s.last) : Inv env s' := by
  intro l f hl; exact h l f (e ▸ hl)

theorem inv_print_of_last {env : Env} {s s' : St} (h : Inv env s) (e : s'.last = s.last) (r : Bool) :
    Inv env (printInput env r s') := inv_print (inv_of_last h e) r

theorem accept_last (full : Bool) (s : St) : (acceptSuggestion full s).1.last = s.last := by
  unfold acceptSuggestion
  split
  · rfl
  · rename_i sg _
    dsimp only
    by_cases h1 : (s.z.text.isPrefixOf sg.full && decide (s.z.text.length < sg.full.length)) = true
    · rw [h1]
      simp only [Bool.not_true, Bool.false_eq_true, ↓reduceIte]
      split
      · rfl
      · cases full <;> rfl
    · simp only [Bool.not_eq_true] at h1
      rw [h1]; rfl

theorem inv_key {env : Env} {s : St} (h : Inv env s) (k : Key) : Inv env (key env s k) := by
  have hcl : (acceptCompletion s).last = s.last := by unfold acceptCompletion; split <;> rfl
  cases k with
  | char c => simp only [key]; exact inv_print_of_last h (by rfl) _
  | left => simp only [key]; split <;> exact inv_of_last h rfl
  | right =>
    simp only [key]; split
    · exact inv_print_of_last h (accept_last _ _) _
    · split
      · exact inv_print_of_last h hcl _
      · exact inv_of_last h rfl
  | ctrlRight =>
    simp only [key]; split
    · exact inv_print_of_last h (accept_last _ _) _
    · exact inv_of_last h rfl
  | home => exact inv_of_last h rfl
  | toEnd =>
    simp only [key]; split
    · exact inv_print_of_last h hcl _
    · exact inv_of_last h rfl
  | backspace => simp only [key]; exact inv_print_of_last h (by rfl) _
  | killWord => simp only [key]; exact inv_print_of_last h (by rfl) _
  | killEnd => simp only [key]; exact inv_print_of_last h (by rfl) _
  | killBegin => simp only [key]; exact inv_print_of_last h (by rfl) _
  | interrupt => exact inv_of_last h rfl
  | rotate f => simp only [key]; exact inv_print_of_last h (by rfl) _
  | enter => simp only [key]; split <;> exact inv_of_last h rfl

theorem inv_keys {env : Env} (l : List Key) {s : St} (h : Inv env s) : Inv env (keys env s l) := by
  induction l generalizing s with
  | nil => exact h
  | cons k l ih => exact ih (inv_key h k)

theorem analyzeWords_some (env : Env) (line c : Str) (ws : List Word) : analyzeWords env line (some c) ws = (none, some c) := by
  induction ws with
  | nil => rfl
  | cons w ws ih => rw [analyzeWords]; simp [ih]

/-- With an entry of the history that continues the line, the stored completion is the entry and the
grey text its rest. -/
theorem print_history {env : Env} {s : St} (hi : Inv env s) {e : Str} (hne : s.z.text ≠ [])
    (he : env.hist s.z.text = some e) (hp : s.z.text <+: e) :
    (printInput env false s).comp = some e ∧ (printInput env false s).ghost = some (e.drop s.z.text.length) ∧
    (printInput env false s).sug = {} := by
  have hr : histRest env s.z.text = some (e.drop s.z.text.length) := by
    simp [histRest, he, isPrefixOf_iff.2 hp]
  have ha : ∀ caret, ∃ x, analyze env s.z.text caret (histRest env s.z.text) = (none, x) ∧
      (x = none ∨ x = some (e.drop s.z.text.length)) := by
    intro caret
    rw [hr]
    unfold analyze
    split
    · exact ⟨none, rfl, .inl rfl⟩
    · split
      · exact ⟨_, analyzeWords_some _ _ _ _, .inr rfl⟩
      · exact ⟨none, rfl, .inl rfl⟩
  have hf : ∃ x, (match s.last with
        | some (l, f) => if l = s.z.text then f else analyze env s.z.text s.z.before.length (fromHistory env s).2
        | none => analyze env s.z.text s.z.before.length (fromHistory env s).2) = (none, x) ∧
      (x = none ∨ x = some (e.drop s.z.text.length)) := by
    rw [fromHistory_snd]
    split
    · rename_i l f hl
      split
      · rename_i h1; subst h1
        obtain ⟨caret, hc⟩ := hi _ _ hl
        rw [hc]; exact ha caret
      · exact ha _
    · exact ha _
  obtain ⟨x, hx, hx'⟩ := hf
  have hh : fromHistory env s = (some e, some (e.drop s.z.text.length)) := by
    simp [fromHistory, he, isPrefixOf_iff.2 hp]
  have h0 : (s.z.text.isEmpty || false) = false := by simpa using hne
  have hap : applyFound (fromHistory env s) (none, x) = (some e, some (e.drop s.z.text.length)) := by
    rw [hh]; rcases hx' with rfl | rfl <;> rfl
  unfold printInput
  dsimp only
  rw [h0]
  simp only [Bool.false_eq_true, ↓reduceIte]
  rw [hx, hap]
  simp [Inline.clear]

/-- The keys that delete. -/
def Key.deletes : Key → Bool
  | .backspace | .killWord | .killEnd | .killBegin => true
  | _ => false

/-- C102 (partial): after any keys, if the last key that changed the text deleted something, or was a
character after which the history has an entry that continues the line, then after any number of
steps to the left and to the beginning, every moving key leaves the text alone or adds grey text
that is shown.  Missing: see `C102_violated`. -/
theorem C102_moves_partial (env : Env) (l : List Key) (e : Key) (ms : List Key) (hms : ∀ m ∈ ms, m = .left ∨ m = .home)
    (k : Key) (hk : k.motion = true)
    (he : e.deletes = true ∨ ∃ c x, e = .char c ∧
      env.hist (keys env {} (l ++ [e])).z.text = some x ∧ (keys env {} (l ++ [e])).z.text <+: x) :
    Fair (keys env {} (l ++ e :: ms)) (keys env {} (l ++ e :: ms ++ [k])) := by
  have e1 : keys env {} (l ++ e :: ms) = keys env (key env (keys env {} l) e) ms := by
    simp [keys, List.foldl_append]
  have e2 : keys env {} (l ++ e :: ms ++ [k]) = key env (keys env {} (l ++ e :: ms)) k := by
    simp [keys, List.foldl_append]
  have e3 : keys env {} (l ++ [e]) = key env (keys env {} l) e := by
    simp [keys, List.foldl_append]
  rw [e2]
  refine Agrees.fair ?_ k hk
  rw [e1]
  refine (Agrees.backs ?_ ms hms).1
  rcases he with he | ⟨c, x, rfl, hx, hp⟩
  · cases e <;> first | exact agrees_reset _ _ | cases he
  · rw [e3] at hx hp
    have hinv : Inv env { keys env {} l with z := (keys env {} l).z.op W (.insert c) } :=
      inv_of_last (inv_keys l (s := {}) (fun _ _ h => by cases h)) rfl
    simp only [key, printInput_z] at hx hp
    obtain ⟨h1, h2, h3⟩ := print_history hinv (by simp [Zip.op, Zip.text]) hx hp
    simp only [key]
    refine ⟨fun d hd => ?_, fun hn => ?_, fun _ => by rw [h3]⟩
    · rw [h1] at hd
      simp only [Option.some.injEq] at hd
      subst hd
      refine ⟨_, h2, ?_⟩
      rw [printInput_z]
      exact (prefix_drop hp).symm
    · rw [h1] at hn; cases hn

/-- C102 (partial): typing the last character of a line that the history continues shows the rest of
the entry, and Right and Ctrl-E then put the entry into the line. -/
theorem C102_accept_partial (env : Env) (l : List Key) (c : Char) (x : Str)
    (hend : (keys env {} l).z.after = [])
    (hx : env.hist (keys env {} (l ++ [.char c])).z.text = some x) (hp : (keys env {} (l ++ [.char c])).z.text <+: x) :
    (∃ g, (keys env {} (l ++ [.char c])).ghost = some g ∧ (keys env {} (l ++ [.char c])).z.text ++ g = x) ∧
    (keys env {} (l ++ [.char c, .right])).z.text = x ∧ (keys env {} (l ++ [.char c, .toEnd])).z.text = x := by
  have e3 : keys env {} (l ++ [.char c]) = key env (keys env {} l) (.char c) := by
    simp [keys, List.foldl_append]
  have e4 : ∀ k, keys env {} (l ++ [.char c, k]) = key env (keys env {} (l ++ [.char c])) k := by
    intro k; simp [keys, List.foldl_append]
  rw [e4, e4]
  rw [e3] at hx hp ⊢
  have hinv : Inv env { keys env {} l with z := (keys env {} l).z.op W (.insert c) } :=
    inv_of_last (inv_keys l (s := {}) (fun _ _ h => by cases h)) rfl
  have hz : (key env (keys env {} l) (.char c)).z = (keys env {} l).z.op W (.insert c) := rfl
  rw [hz] at hx hp ⊢
  obtain ⟨h1, h2, h3⟩ := print_history hinv (by simp [Zip.op, Zip.text]) hx hp
  have hcomp : (key env (keys env {} l) (.char c)).comp = some x := h1
  have hsug : (key env (keys env {} l) (.char c)).sug = {} := h3
  have hat : atEnd (key env (keys env {} l) (.char c)) = true := by
    simp [atEnd, hz, Zip.op, hend]
  refine ⟨⟨_, h2, prefix_drop hp⟩, ?_, ?_⟩
  · generalize key env (keys env {} l) (.char c) = s at hcomp hsug hat
    simp [key, hsug, hcomp, hat, printInput_z, acceptCompletion, Zip.text]
  · generalize key env (keys env {} l) (.char c) = s at hcomp hsug hat
    simp [key, hcomp, printInput_z, acceptCompletion, Zip.text]

/-! ### Where it fails -/

/-- The words before the caret's word do not matter. -/
theorem analyzeWords_skip (env : Env) (line : Str) (pre : List Word) (hpre : ∀ w ∈ pre, w.current = false) (ws : List Word) :
    analyzeWords env line none (pre ++ ws) = analyzeWords env line none ws := by
  induction pre with
  | nil => rfl
  | cons w pre ih =>
    rw [List.cons_append, analyzeWords]
    simp only [hpre w (by simp), Bool.false_and, Bool.false_eq_true, ↓reduceIte]
    rw [ih (fun x hx => hpre x (by simp [hx]))]
    split <;> rfl

/-- C102 (partial): at the end of a line that the history does not continue, the beginning of the only
word, a command, shows the rest of the command found, and the beginning of a file name the rest of the
file name; Right and Ctrl-E then put what is shown into the line. -/
theorem C102_word_partial (env : Env) (s : St) (c : Char) (line f g : Str) (pre post : List Word) (w : Word)
    (hline : line = (s.z.op W (.insert c)).text) (hend : s.z.after = []) (hb : line.head? ≠ some '!')
    (hh : env.hist line = none) (hlast : ∀ l g, s.last = some (l, g) → l ≠ line)
    (hw : env.words line line.length = some (pre ++ w :: post))
    (hpre : ∀ x ∈ pre, x.current = false) (hcur : w.current = true) (hne : slice line w.start w.stop ≠ [])
    (hfound : w.argv0 = true ∧ env.cmd (slice line w.start w.stop) = some f ∨
      (w.argv0 = true → env.cmd (slice line w.start w.stop) = none) ∧
        env.path line w.start w.stop w.argv0 = some (f, g))
    (hf : f = line ++ g) :
    (key env s (.char c)).ghost = some g ∧ (key env s (.char c)).z.text = line ∧
    (key env (key env s (.char c)) .right).z.text = line ++ g ∧
    (key env (key env s (.char c)) .toEnd).z.text = line ++ g := by
  have hlen' : line.length = s.z.before.length + 1 := by rw [hline]; simp [Zip.op, Zip.text, hend]
  rw [hlen'] at hw
  have ha : analyze env line (s.z.before.length + 1) none = (some f, some g) := by
    unfold analyze
    rw [if_neg hb, hw]
    dsimp only
    rw [analyzeWords_skip env line pre hpre, analyzeWords]
    simp only [hne, hcur, Bool.true_and, Option.isNone_none, ↓reduceIte]
    rcases hfound with ⟨h1, h2⟩ | ⟨h1, h2⟩
    · simp only [h1, ↓reduceIte, h2]
      rw [if_pos (by rw [isPrefixOf_iff, hf]; exact List.prefix_append _ _), hf, List.drop_left]
    · have : (if w.argv0 = true then env.cmd (slice line w.start w.stop) else none) = none := by
        split
        · rename_i h; exact h1 h
        · rfl
      rw [this]
      simp only [h2]
  have hz : (s.z.op W (.insert c)).text = line := hline.symm
  have hlen : (s.z.op W (.insert c)).before.length = s.z.before.length + 1 := by simp [Zip.op]
  have hemp : line.isEmpty = false := by
    rw [hline]; simp [Zip.op, Zip.text]
  have hk : (key env s (.char c)).comp = some f ∧ (key env s (.char c)).ghost = some g ∧
      (key env s (.char c)).sug = {} := by
    have hl : (match s.last with
        | some (l, f) => if l = line then f else analyze env line (s.z.before.length + 1) none
        | none => analyze env line (s.z.before.length + 1) none) = (some f, some g) := by
      split
      · rename_i l g hlg; rw [if_neg (hlast l g hlg)]; exact ha
      · exact ha
    simp only [key, printInput, fromHistory, hz, hh, hlen, hemp, hl]
    simp [applyFound, Inline.clear]
  have hat : atEnd (key env s (.char c)) = true := by
    show ((s.z.op W (.insert c)).after).isEmpty = true
    simp [Zip.op, hend]
  refine ⟨hk.2.1, hz, ?_⟩
  generalize key env s (.char c) = s1 at hk hat
  simp [key, hk.1, hk.2.2, hat, printInput_z, acceptCompletion, Zip.text, hf]

/-- C102 is violated, for all environments: if the caret is in a command word that is not the whole
line (`ls | gre`), a command starts with it and the history does not continue the line, then nothing
grey is shown, and Ctrl-E, the key that goes to the end of the line, replaces the whole line by the
name of the command. -/
theorem C102_second_command (env : Env) (s : St) (c : Char) (line w f : Str) (pre post : List Word) (a b : Nat)
    (hline : line = (s.z.op W (.insert c)).text) (hb : line.head? ≠ some '!')
    (hh : env.hist line = none) (hlast : ∀ l g, s.last = some (l, g) → l ≠ line)
    (hw : env.words line (s.z.before.length + 1) = some (pre ++ ⟨true, a, b, true⟩ :: post))
    (hpre : ∀ x ∈ pre, x.current = false) (hword : slice line a b = w) (hne : w ≠ [])
    (hcmd : env.cmd w = some f) (hnot : ¬ line <+: f) :
    (key env s (.char c)).ghost = none ∧ (key env s (.char c)).z.text = line ∧
    (key env (key env s (.char c)) .toEnd).z.text = f := by
  have ha : analyze env line (s.z.before.length + 1) none = (some f, none) := by
    unfold analyze
    rw [if_neg hb, hw]
    dsimp only
    rw [analyzeWords_skip env line pre hpre, analyzeWords]
    simp only [hword, hne, Bool.true_and, Option.isNone_none, ↓reduceIte, hcmd]
    rw [if_neg (by rw [isPrefixOf_iff]; exact hnot)]
  have hz : (s.z.op W (.insert c)).text = line := hline.symm
  have hlen : (s.z.op W (.insert c)).before.length = s.z.before.length + 1 := by simp [Zip.op]
  have hemp : line.isEmpty = false := by
    rw [hline]; simp [Zip.op, Zip.text]
  have hk : (key env s (.char c)).comp = some f ∧ (key env s (.char c)).ghost = none := by
    have hl : (match s.last with
        | some (l, f) => if l = line then f else analyze env line (s.z.before.length + 1) none
        | none => analyze env line (s.z.before.length + 1) none) = (some f, none) := by
      split
      · rename_i l g hlg; rw [if_neg (hlast l g hlg)]; exact ha
      · exact ha
    simp only [key, printInput, fromHistory, hz, hh, hlen, hemp, hl]
    simp [applyFound, Inline.clear, Inline.suffix]
  refine ⟨hk.2, hz, ?_⟩
  generalize key env s (.char c) = s1 at hk
  simp [key, hk.1, printInput_z, acceptCompletion, Zip.text]

/-- C102 is violated, for all environments: what was stored for an earlier text stays when nothing
is found for the text that is typed on, and Ctrl-E replaces the line by it. -/
theorem C102_stale (env : Env) (s : St) (c : Char) (line d : Str)
    (hline : line = (s.z.op W (.insert c)).text) (hh : env.hist line = none)
    (hlast : ∀ l g, s.last = some (l, g) → l ≠ line)
    (ha : analyze env line (s.z.before.length + 1) none = (none, none)) (hd : s.comp = some d) :
    (key env s (.char c)).ghost = none ∧ (key env s (.char c)).z.text = line ∧
    (key env (key env s (.char c)) .toEnd).z.text = d := by
  have hz : (s.z.op W (.insert c)).text = line := hline.symm
  have hlen : (s.z.op W (.insert c)).before.length = s.z.before.length + 1 := by simp [Zip.op]
  have hemp : line.isEmpty = false := by
    rw [hline]; simp [Zip.op, Zip.text]
  have hk : (key env s (.char c)).comp = some d ∧ (key env s (.char c)).ghost = none := by
    have hl : (match s.last with
        | some (l, f) => if l = line then f else analyze env line (s.z.before.length + 1) none
        | none => analyze env line (s.z.before.length + 1) none) = (none, none) := by
      split
      · rename_i l g hlg; rw [if_neg (hlast l g hlg)]; exact ha
      · exact ha
    simp only [key, printInput, fromHistory, hz, hh, hlen, hemp, hl, hd]
    simp [applyFound, Inline.clear, Inline.suffix]
  refine ⟨hk.2, hz, ?_⟩
  generalize key env s (.char c) = s1 at hk
  simp [key, hk.1, printInput_z, acceptCompletion, Zip.text]

/-- The words the parser finds in a line of plain words, blanks, `|` and `;`. -/
def plainGo (caret : Nat) (first : Bool) (start : Option Nat) (i : Nat) : Str → List Word
  | [] => match start with
    | some a => [⟨first, a, i, decide (a < caret ∧ caret ≤ i)⟩]
    | none => []
  | c :: s =>
    let done := match start with
      | some a => [(⟨first, a, i, decide (a < caret ∧ caret ≤ i)⟩ : Word)]
      | none => []
    if c = '|' ∨ c = ';' then done ++ plainGo caret true none (i + 1) s
    else if c = ' ' then done ++ plainGo caret (first && start.isNone) none (i + 1) s
    else plainGo caret first (some (start.getD i)) (i + 1) s

def plainWords (line : Str) (caret : Nat) : Option (List Word) := some (plainGo caret true none 0 line)

/-- A world with two commands and an empty history. -/
def world : Env where
  hist := fun _ => none
  words := plainWords
  cmd := fun w => [c!"git", c!"grep"].find? (w.isPrefixOf ·)
  path := fun _ _ _ _ => none
  answers := fun _ => {}

def typed (s : String) : List Key := s.toList.map .char

/-- C102 is violated: `ls | gre`, Ctrl-E gives `grep`; `gt status`, corrected to `git status` by going
back, then Ctrl-E gives `git`; `gi`, then `x`, then Right gives `git`. -/
theorem C102_violated : ¬ ∀ (env : Env) (l : List Key) (k : Key), k.motion = true →
    Fair (keys env {} l) (keys env {} (l ++ [k])) := by
  intro h
  have := h world (typed "ls | gre") .toEnd rfl
  rcases this with h1 | ⟨g, a, h1, -, -⟩
  · exact absurd h1 (by decide +kernel)
  · exact absurd h1 (by
      have : (keys world {} (typed "ls | gre")).ghost = none := by decide +kernel
      rw [this]; simp)

/-- The three cases. -/
example :
    (keys world {} (typed "ls | gre" ++ [.toEnd])).z.text = c!"grep" ∧
    (keys world {} (typed "gt status" ++ [.home, .right, .char 'i'])).z.text = c!"git status" ∧
    (keys world {} (typed "gt status" ++ [.home, .right, .char 'i', .toEnd])).z.text = c!"git" ∧
    (keys world {} (typed "gix" ++ [.right])).z.text = c!"git" := by decide +kernel

/-- A command is shown and accepted. -/
example :
    (keys world {} (typed "gr")).ghost = some c!"ep" ∧
    (keys world {} (typed "gr" ++ [.right])).z.text = c!"grep" ∧
    (key world (keys world {} (typed "g")) (.char 'r')).ghost = some c!"ep" := by
  refine ⟨by decide +kernel, by decide +kernel, ?_⟩
  exact (C102_word_partial world (keys world {} (typed "g")) 'r' c!"gr" c!"grep" c!"ep" [] [] ⟨true, 0, 2, true⟩
    (by decide +kernel) (by decide +kernel) (by decide) rfl
    (by intro l g h; rw [show (keys world {} (typed "g")).last = some (c!"g", some c!"git", some c!"it") by decide +kernel] at h
        simp only [Option.some.injEq, Prod.mk.injEq] at h; rw [← h.1]; decide)
    (by decide +kernel) (by simp) rfl (by decide) (.inl ⟨rfl, by decide +kernel⟩) (by decide)).1

/-- What is shown and accepted with a history. -/
example :
    let env : Env := { world with hist := fun l => if l.isPrefixOf c!"git push" then some c!"git push" else none }
    (keys env {} (typed "git p")).ghost = some c!"ush" ∧
    (keys env {} (typed "git p" ++ [.right])).z.text = c!"git push" ∧
    (keys env {} (typed "git px" ++ [.backspace, .toEnd])).z.text = c!"git p" := by decide +kernel

/-! ## C103: the history -/

theorem accept_history (full : Bool) (s : St) : (acceptSuggestion full s).1.ran = s.ran ∧
    ((acceptSuggestion full s).1.history = s.history ∨ full = true ∧ ∃ sg, s.sug.active = some sg ∧
      (acceptSuggestion full s).1.history = s.history ++ [sg.full]) := by
  unfold acceptSuggestion
  cases hs : s.sug.active with
  | none => exact ⟨rfl, .inl rfl⟩
  | some sg =>
    dsimp only
    by_cases h1 : (s.z.text.isPrefixOf sg.full && decide (s.z.text.length < sg.full.length)) = true
    · rw [h1]
      simp only [Bool.not_true, Bool.false_eq_true, ↓reduceIte]
      split
      · exact ⟨rfl, .inl rfl⟩
      · cases full
        · exact ⟨rfl, .inl rfl⟩
        · exact ⟨rfl, .inr ⟨rfl, sg, rfl, rfl⟩⟩
    · simp only [Bool.not_eq_true] at h1
      rw [h1]; exact ⟨rfl, .inl rfl⟩

/-- C103 (partial): without the Right key, the history is the list of the commands that were run.
Missing: see `C103_violated`. -/
theorem C103_history_partial (env : Env) (l : List Key) (hl : Key.right ∉ l) :
    (keys env {} l).history = (keys env {} l).ran := by
  suffices ∀ s : St, s.history = s.ran → (keys env s l).history = (keys env s l).ran from this {} rfl
  induction l with
  | nil => intro s h; exact h
  | cons k l ih =>
    intro s h
    refine ih (fun hx => hl (by simp [hx])) _ ?_
    have hk : k ≠ .right := fun he => hl (by simp [he])
    have hc : (acceptCompletion s).history = s.history ∧ (acceptCompletion s).ran = s.ran := by
      unfold acceptCompletion; split <;> exact ⟨rfl, rfl⟩
    cases k with
    | right => exact absurd rfl hk
    | left => simp only [key]; split <;> exact h
    | ctrlRight =>
      simp only [key]; split
      · obtain ⟨h1, h2 | h2⟩ := accept_history false s
        · show (acceptSuggestion false s).1.history = (acceptSuggestion false s).1.ran
          rw [h1, h2, h]
        · exact absurd h2.1 (by simp)
      · exact h
    | toEnd =>
      simp only [key]; split
      · show (acceptCompletion s).history = (acceptCompletion s).ran
        rw [hc.1, hc.2, h]
      · exact h
    | enter => simp only [key]; split
               · exact h
               · simp only [h]
    | _ => exact h

/-- C103 is violated, in every state: accepting the whole suggestion with the Right key writes it to
the history although it was never run. -/
theorem C103_learned (env : Env) (s : St) (sg : Sug) (hs : s.sug.active = some sg) (hc : s.comp = none)
    (ha : s.z.after = []) (hp : s.z.text <+: sg.full) (hl : s.z.text.length < sg.full.length) :
    (key env s .right).z.text = sg.full ∧
    (key env s .right).history = s.history ++ [sg.full] ∧ (key env s .right).ran = s.ran := by
  have hacc : acceptSuggestion true s = ({ s with
      z := ⟨s.z.before ++ sg.full.drop s.z.text.length, s.z.after⟩
      history := s.history ++ [sg.full], sug := Inline.clear s.sug }, true) := by
    unfold acceptSuggestion
    rw [hs]
    simp [isPrefixOf_iff.2 hp, hl]
  have hk : key env s .right = printInput env true (acceptSuggestion true s).1 := by
    simp [key, hs, hc, atEnd, ha, hacc]
  rw [hk, hacc]
  refine ⟨?_, rfl, rfl⟩
  rw [printInput_z]
  simp only [Zip.text, ha, List.append_nil]
  exact prefix_drop (by simpa [Zip.text, ha] using hp)

/-- A world where the files continue `cat REA`. -/
def worldFiles : Env :=
  { world with
    answers := fun z => { files := if z.text.isPrefixOf c!"cat README" && decide (4 < z.text.length) then some c!"cat README" else none }
    cmd := fun _ => none }

/-- C103 is violated: `cat REA`, Right, Ctrl-C leaves `cat README` in the history. -/
theorem C103_violated : ¬ ∀ (env : Env) (l : List Key), ∀ x ∈ (keys env {} l).history, x ∈ (keys env {} l).ran := by
  intro h
  have := h worldFiles (typed "cat REA" ++ [.right, .interrupt]) c!"cat README" (by decide +kernel)
  exact absurd this (by
    have : (keys worldFiles {} (typed "cat REA" ++ [.right, .interrupt])).ran = [] := by decide +kernel
    rw [this]; simp)

/-! ## C104: accepting a suggestion word by word -/

theorem chunkGo_true (s : Str) : ∃ w r t, s = w ++ r ++ t ∧ chunkGo true s = w ++ r ∧
    (∀ c ∈ w, rustWhitespace c = false) ∧ (∀ c ∈ r, rustWhitespace c = true) ∧ r.length ≤ 1 ∧ (r = [] → t = []) := by
  induction s with
  | nil => exact ⟨[], [], [], rfl, rfl, by simp, by simp, by simp, fun _ => rfl⟩
  | cons c s ih =>
    rw [chunkGo]
    by_cases hc : rustWhitespace c = true
    · refine ⟨[], [c], s, rfl, by simp [hc], by simp, by simpa using hc, by simp, by simp⟩
    · obtain ⟨w, r, t, h1, h2, h3, h4, h5, h6⟩ := ih
      simp only [Bool.not_eq_true] at hc
      refine ⟨c :: w, r, t, by rw [h1]; rfl, by simp [hc, h2], ?_, h4, h5, h6⟩
      intro x hx
      rcases List.mem_cons.1 hx with rfl | hx
      · exact hc
      · exact h3 x hx

/-- C104: what Ctrl-Right takes of a suggestion are blanks, one word and at most one blank behind it;
the blank is missing only at the end of the suggestion; the word only if there is none. -/
theorem C104_chunk (s : Str) (hs : s ≠ []) : ∃ b w r t, s = b ++ w ++ r ++ t ∧ nextWordChunk s = some (b ++ w ++ r) ∧
    (∀ c ∈ b, rustWhitespace c = true) ∧ (∀ c ∈ w, rustWhitespace c = false) ∧ (∀ c ∈ r, rustWhitespace c = true) ∧
    r.length ≤ 1 ∧ (r = [] → t = []) ∧ (w = [] → b = s) := by
  have : ∀ s, ∃ b w r t, s = b ++ w ++ r ++ t ∧ chunkGo false s = b ++ w ++ r ∧
    (∀ c ∈ b, rustWhitespace c = true) ∧ (∀ c ∈ w, rustWhitespace c = false) ∧ (∀ c ∈ r, rustWhitespace c = true) ∧
    r.length ≤ 1 ∧ (r = [] → t = []) ∧ (w = [] → b = s) := by
    intro s
    induction s with
    | nil => exact ⟨[], [], [], [], rfl, rfl, by simp, by simp, by simp, by simp, fun _ => rfl, fun _ => rfl⟩
    | cons c s ih =>
      rw [chunkGo]
      by_cases hc : rustWhitespace c = true
      · obtain ⟨b, w, r, t, h1, h2, h3, h4, h5, h6, h7, h8⟩ := ih
        refine ⟨c :: b, w, r, t, by rw [h1]; rfl, by simp [hc, h2], ?_, h4, h5, h6, h7, fun h => by rw [h8 h]⟩
        intro x hx
        rcases List.mem_cons.1 hx with rfl | hx
        · exact hc
        · exact h3 x hx
      · simp only [Bool.not_eq_true] at hc
        obtain ⟨w, r, t, h1, h2, h3, h4, h5, h6⟩ := chunkGo_true s
        refine ⟨[], c :: w, r, t, by rw [h1]; rfl, by simp [hc, h2], by simp, ?_, h4, h5, h6, by simp⟩
        intro x hx
        rcases List.mem_cons.1 hx with rfl | hx
        · exact hc
        · exact h3 x hx
  obtain ⟨b, w, r, t, h1, h2, h⟩ := this s
  exact ⟨b, w, r, t, h1, by rw [nextWordChunk, if_neg hs, h2], h⟩

/-- C104: as long as the sources go on offering a suggestion, pressing Ctrl-Right often enough puts it
into the line. -/
theorem C104_words (env : Env) (sg : Sug)
    (hoff : ∀ z : Zip, z.after = [] → z.before ≠ [] → z.before <+: sg.full → Inline.collect (env.answers z) = [sg])
    (s : St) (hc : s.comp = none) (hsug : s.sug = ⟨some sg, [sg], 0⟩) (ha : s.z.after = []) (hne : s.z.before ≠ [])
    (hp : s.z.before <+: sg.full) :
    ∃ n, n ≤ sg.full.length - s.z.before.length ∧ (keys env s (List.replicate n .ctrlRight)).z = ⟨sg.full, []⟩ := by
  generalize hm : sg.full.length - s.z.before.length = m
  induction m using Nat.strongRecOn generalizing s with
  | _ m ih =>
    by_cases hlt : s.z.before.length < sg.full.length
    · have ht : s.z.text = s.z.before := by simp [Zip.text, ha]
      have hdrop : sg.full.drop s.z.before.length ≠ [] := by simp; omega
      obtain ⟨b, w, r, t, h1, h2, h3, h4, h5, h6, h7, h8⟩ := C104_chunk _ hdrop
      have hpos : b ++ w ++ r ≠ [] := by
        intro h0
        simp only [List.append_eq_nil_iff] at h0
        have := h8 h0.1.2
        rw [h0.1.1] at this
        exact hdrop this.symm
      have hacc : acceptSuggestion false s = ({ s with z := ⟨s.z.before ++ (b ++ w ++ r), s.z.after⟩ }, true) := by
        unfold acceptSuggestion
        rw [hsug]
        have hpre : s.z.before.isPrefixOf sg.full = true := isPrefixOf_iff.2 hp
        simp only [ht, hpre, hlt, decide_true, Bool.and_self, Bool.not_true, Bool.false_eq_true, ↓reduceIte, h2]
      have hk : key env s .ctrlRight = printInput env true { s with z := ⟨s.z.before ++ (b ++ w ++ r), s.z.after⟩ } := by
        simp [key, hsug, hc, atEnd, ha, hacc]
      have hp' : s.z.before ++ (b ++ w ++ r) <+: sg.full := by
        refine ⟨t, ?_⟩
        rw [List.append_assoc, ← h1]
        exact prefix_drop hp
      have hz : (key env s .ctrlRight).z = ⟨s.z.before ++ (b ++ w ++ r), []⟩ := by
        rw [hk, printInput_z]; simp [ha]
      have hl0 : 0 < (b ++ w ++ r).length := List.length_pos_iff.2 hpos
      have hle := hp'.length_le
      rw [List.length_append] at hle
      obtain ⟨n, hn, hn'⟩ := ih (sg.full.length - (s.z.before ++ (b ++ w ++ r)).length)
        (by rw [List.length_append]; omega) (key env s .ctrlRight)
        (by rw [hk]; simp [printInput])
        (by
          rw [hk]
          have ho := hoff ⟨s.z.before ++ (b ++ w ++ r), s.z.after⟩ ha (by simp [hne]) hp'
          simp only [printInput, Bool.or_true, ↓reduceIte, Option.isNone_none, Option.isSome_none, Bool.false_eq_true, ho, hsug]
          simp [Inline.update, Inline.dedup, Inline.dedupGo])
        (by rw [hz]) (by rw [hz]; simp [hne]) (by rw [hz]; exact hp') (by rw [hz])
      refine ⟨n + 1, ?_, ?_⟩
      · rw [List.length_append] at hn; omega
      · rw [List.replicate_succ]
        simpa [keys] using hn'
    · refine ⟨0, by omega, ?_⟩
      have : s.z.before = sg.full := hp.eq_of_length_le (by omega)
      simp only [List.replicate_zero, keys, List.foldl_nil]
      cases hz : s.z
      simp_all

/-- Two words: the first press takes `README ` with its blank, the second the rest. -/
example :
    let env : Env := { world with
      answers := fun z => { files := if z.text.isPrefixOf c!"cat README x y" && decide (4 < z.text.length) then some c!"cat README x y" else none }
      cmd := fun _ => none }
    (keys env {} (typed "cat REA")).ghost = some c!"DME x y" ∧
    (keys env {} (typed "cat REA" ++ [.ctrlRight])).z.text = c!"cat README " ∧
    (keys env {} (typed "cat REA" ++ [.ctrlRight, .ctrlRight, .ctrlRight])).z.text = c!"cat README x y" := by decide +kernel

end Dsh.Line
