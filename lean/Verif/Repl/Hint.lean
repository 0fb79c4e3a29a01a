import Verif.Repl.AiTabProps
import Verif.Parse.Incomplete
/-!
# C228: the hint beside the line and the keys it speaks of

`dsh/src/repl/render.rs: input_hint, has_smart_pipe_query, has_generative_query, has_ai_pipe_query, render_hint_if_room`
against Tab (`Verif/Repl/AiTab.lean`) and Enter (`key_handlers/execution.rs: handle_execute`).

Simplified: a row of the screen is a list of cells and every character takes one; the abbreviation at the
end of a line that is run is C125; colours are left out.
-/
namespace Dsh.Hint
open Dsh.AiTab

abbrev Str := List Char

/-! ### Model -/

/-- `InputHint` (render.rs:378-381). -/
inductive Kind where
  | expand
  | analyze
deriving DecidableEq, Repr

/-- `InputHint::text` (render.rs:384-389). -/
def Kind.text : Dsh.Hint.Kind → Str
  | .expand => c!" ↹ Tab to expand"
  | .analyze => c!" ↵ Enter to analyze"

/-- `has_smart_pipe_query` (render.rs:402-406). -/
def hasPipe (line : Str) : Bool :=
  match rfind2 '|' '?' line with
  | some (_, b) => !(trim b).isEmpty
  | none => false

/-- `has_generative_query` (render.rs:408-413). -/
def hasLine (line : Str) : Bool :=
  match trimStart line with
  | '?' :: '?' :: b => !(trim b).isEmpty
  | _ => false

/-- `has_ai_pipe_query` (render.rs:415-435). -/
def hasAi (line : Str) : Bool :=
  match rfind2 '|' '!' line with
  | none => false
  | some (a, b) =>
    if (trim a).isEmpty then false
    else
      let q := trim b
      let q := if (q.head? = some '"' ∧ q.getLast? = some '"' ∨ q.head? = some '\'' ∧ q.getLast? = some '\'') ∧ 1 < q.length
        then (q.drop 1).dropLast else q
      !q.isEmpty

/-- `input_hint` (render.rs:392-400). -/
def hint (line : Str) : Option Dsh.Hint.Kind :=
  if hasPipe line || hasLine line then some .expand
  else if hasAi line then some .analyze
  else none

/-- What Enter does. -/
inductive Enter where
  /-- the shell waits for another line -/
  | more
  /-- the command is run and its output handed to the service with the question -/
  | ai (command question : Str)
  /-- the line is evaluated -/
  | eval (line : Str)
deriving DecidableEq, Repr

/-- The beginning of `handle_execute` (key_handlers/execution.rs:21-55); `buffer`: the lines before, each with
its newline. -/
def enter (buffer line : Str) : Enter :=
  if Incomplete.isIncomplete (buffer ++ line) then .more
  else match Keys.detectAiPipe (buffer ++ line) with
    | some (c, q) => .ai c q
    | none => .eval (buffer ++ line)

/-- Where the hint is put (render.rs:437-445): the column, if there is room. -/
def place (cols used width : Nat) : Option Nat :=
  if width < cols ∧ used + 2 < cols - width then some (cols - width) else none

/-- A row after `text` was put at a column. -/
def over (row : Str) (col : Nat) (text : Str) : Str :=
  row.take col ++ List.replicate (col - row.length) ' ' ++ text ++ row.drop (col + text.length)

/-- The row of the prompt (render.rs:281-302): mark, line, the grey continuation, then the hint. The room is that
behind mark and line. -/
def row (cols : Nat) (mark line ghost : Str) : Str :=
  match hint line with
  | none => mark ++ line ++ ghost
  | some h =>
    match place cols (mark.length + line.length) h.text.length with
    | none => mark ++ line ++ ghost
    | some col => over (mark ++ line ++ ghost) col h.text

/-! ### Proof -/

theorem rfind_same (s : Str) : Keys.rfindPipe s = rfind2 '|' '!' s := by
  induction s with
  | nil => rfl
  | cons c s ih =>
    unfold Keys.rfindPipe rfind2
    rw [ih]
    cases rfind2 '|' '!' s <;> rfl

theorem hasAi_iff (line : Str) : hasAi line = (Keys.detectAiPipe line).isSome := by
  unfold hasAi Keys.detectAiPipe
  rw [rfind_same]
  cases rfind2 '|' '!' line with
  | none => rfl
  | some p =>
    obtain ⟨a, b⟩ := p
    show (if (trim a).isEmpty = true then false else !(Keys.unquote (trim b)).isEmpty) =
      (if trim a ≠ [] ∧ Keys.unquote (trim b) ≠ [] then some (trim a, Keys.unquote (trim b)) else none).isSome
    generalize Keys.unquote (trim b) = q
    generalize trim a = t
    cases q <;> cases t <;> rfl

theorem hasPipe_iff (line : Str) : hasPipe line = (pipeQuestion line).isSome := by
  unfold hasPipe pipeQuestion
  cases rfind2 '|' '?' line with
  | none => rfl
  | some p => cases h : (trim p.2).isEmpty <;> simp [h]

theorem hasLine_iff (line : Str) : hasLine line = (lineQuestion line).isSome := by
  unfold hasLine lineQuestion
  split
  · rename_i b h0
    simp only [h0]
    cases h : (trim b).isEmpty <;> rfl
  · split
    · rename_i h0 _ b h1
      exact absurd h1 (h0 b)
    · rfl

theorem expand_iff (line : Str) :
    hint line = some .expand ↔ (pipeQuestion line).isSome = true ∨ (lineQuestion line).isSome = true := by
  unfold hint
  rw [hasPipe_iff, hasLine_iff]
  cases (pipeQuestion line).isSome <;> cases (lineQuestion line).isSome <;> cases hasAi line <;> simp

/-- C228: the hint of Tab is there just for lines with a question behind the last `|?` or behind `??` at the
beginning. `_partial`: what the key then does is below. -/
theorem C228_tab_partial (line : Str) :
    hint line = some .expand ↔ (∃ a q, PipeAt line a q) ∨ ∃ q, LineAt line q := by
  rw [expand_iff, Option.isSome_iff_exists, Option.isSome_iff_exists]
  constructor
  · rintro (⟨q, h⟩ | ⟨q, h⟩)
    · obtain ⟨a, h⟩ := pipe_some.1 h
      exact .inl ⟨a, q, h⟩
    · exact .inr ⟨q, line_some.1 h⟩
  · rintro (⟨a, q, h⟩ | ⟨q, h⟩)
    · exact .inl ⟨q, pipe_some.2 ⟨a, h⟩⟩
    · exact .inr ⟨q, line_some.2 h⟩

theorem ask_sent {w : World} (hw : w.service.isSome) (k : AiTab.Kind) {q : Str} (hq : Safety.sanitize q k.max ≠ none) :
    ∃ m r, ask w k q = ([m], r) := by
  unfold ask
  cases hs : w.service with
  | none => rw [hs] at hw; cases hw
  | some f =>
    cases h : Safety.sanitize q k.max with
    | none => exact absurd h hq
    | some m => exact ⟨m, _, rfl⟩

/-- C228: if a service is configured, Tab asks it just where the hint says so, for lines of up to 2000 bytes.
`_partial`: longer ones may end the shell (C192). -/
theorem C228_asks_partial (w : World) (hw : w.service.isSome) {line : Str} (hl : Safety.bytes line ≤ 2000) (caret : Nat) :
    (tab w line caret).sent ≠ [] ↔ hint line = some .expand := by
  rw [expand_iff]
  have hline : (tabLine w line caret).sent ≠ [] ↔ (lineQuestion line).isSome = true := by
    unfold tabLine
    cases h : lineQuestion line with
    | none => simp
    | some q =>
      have hb := bytes_infix (line_infix (line_some.1 h))
      obtain ⟨m, r, hr⟩ := ask_sent hw .line (sanitize_short (q := q) (max := AiTab.Kind.max .line)
        (by have : AiTab.Kind.max .line = 5000 := rfl
            omega))
      simp only [hr]
      cases r <;> simp
  unfold tab
  cases h : pipeQuestion line with
  | none => simpa using hline
  | some q =>
    obtain ⟨a, ha⟩ := pipe_some.1 h
    have hb := bytes_infix (pipe_infix ha)
    obtain ⟨m, r, hr⟩ := ask_sent hw .pipe (sanitize_short (q := q) (max := AiTab.Kind.max .pipe)
      (by have : AiTab.Kind.max .pipe = 2000 := rfl
          omega))
    simp only [hr]
    cases r with
    | panic => simp
    | failed => simp
    | cmd t =>
      obtain ⟨b, hb⟩ := pipe_rfind ha
      simp [hb]

/-- A service that knows one answer. -/
def oneAnswer : World := ⟨some fun _ _ => some c!"", fun _ => none, .strict, []⟩

example : (tab oneAnswer c!"ls |? only names" 3).sent = [c!"only names"] ∧
    hint c!"ls |? only names" = some .expand ∧ (tab oneAnswer c!"ls | wc" 3).sent = [] ∧ hint c!"ls | wc" = none := by
  decide +kernel

/-- C228: for a first line that is complete and has no hint of Tab, the hint of Enter is there just if Enter
hands the output of the command to the service. -/
theorem C228_enter_partial (line : Str) (hc : Incomplete.isIncomplete line = false) (he : hint line ≠ some .expand) :
    hint line = some .analyze ↔ ∃ c q, enter [] line = .ai c q := by
  have hx : (hasPipe line || hasLine line) = false := by
    unfold hint at he
    cases h : (hasPipe line || hasLine line) with
    | false => rfl
    | true => rw [h] at he; simp at he
  unfold hint enter
  rw [hx, List.nil_append, hc, hasAi_iff]
  cases h : Keys.detectAiPipe line with
  | none => simp
  | some p => simp

example : Incomplete.isIncomplete c!"ls |! why so many" = false ∧ hint c!"ls |! why so many" = some .analyze ∧
    enter [] c!"ls |! why so many" = .ai c!"ls" c!"why so many" ∧ hint c!"ls | why" = none ∧
    enter [] c!"ls | why" = .eval c!"ls | why" := by decide +kernel

/-- C228: mark and line are never covered by the hint, two cells behind them stay free, and the row is not
longer than the screen. `_partial`: without a grey continuation. -/
theorem C228_room_partial (cols : Nat) (mark line : Str) (hfit : mark.length + line.length ≤ cols) :
    (mark ++ line) <+: row cols mark line [] ∧ (row cols mark line []).length ≤ cols ∧
      (row cols mark line [] ≠ mark ++ line → (mark ++ line ++ c!"  ") <+: row cols mark line [] ∧
        ∃ h, hint line = some h ∧ h.text <:+ row cols mark line []) := by
  unfold row
  rw [List.append_nil]
  cases hh : hint line with
  | none => simpa using hfit
  | some h =>
    simp only
    unfold place
    by_cases hp : h.text.length < cols ∧ mark.length + line.length + 2 < cols - h.text.length
    · rw [if_pos hp]
      have hlen : (mark ++ line).length = mark.length + line.length := List.length_append
      have ho : over (mark ++ line) (cols - h.text.length) h.text =
          mark ++ line ++ List.replicate (cols - h.text.length - (mark.length + line.length)) ' ' ++ h.text := by
        unfold over
        rw [List.take_of_length_le (by omega), List.drop_eq_nil_of_le (by omega), List.append_nil, hlen]
      simp only [ho]
      refine ⟨⟨_, (List.append_assoc ..).symm⟩, ?_, fun _ => ⟨?_, h, rfl, ⟨_, rfl⟩⟩⟩
      · simp only [List.length_append, List.length_replicate]
        omega
      · obtain ⟨n, hn⟩ : ∃ n, cols - h.text.length - (mark.length + line.length) = n + 2 :=
          ⟨cols - h.text.length - (mark.length + line.length) - 2, by omega⟩
        rw [hn]
        exact ⟨List.replicate n ' ' ++ h.text, by simp [List.replicate_succ]⟩
    · rw [if_neg hp]
      simpa using hfit

example : row 40 c!"> " c!"ls |? names" [] = c!"> ls |? names            ↹ Tab to expand" := by decide +kernel

/-! ### Refuted -/

/-- C228 refuted: without a service the hint is shown all the same, and Tab completes words. -/
theorem C228_service_violated (w : World) (hw : w.service = none) :
    (∀ line caret, tab w line caret = ⟨[], .complete line caret⟩) ∧ ∀ a q : Str, ¬ c!"|?" <:+: q → trim q ≠ [] →
      hint (a ++ c!"|?" ++ q) = some .expand := by
  constructor
  · intro line caret
    have hl : tabLine w line caret = ⟨[], .complete line caret⟩ := by
      unfold tabLine ask
      rw [hw]
      cases lineQuestion line <;> rfl
    unfold tab
    rw [hl]
    unfold ask
    rw [hw]
    cases pipeQuestion line <;> rfl
  · intro a q hn hq
    have := rfind2_append (x := '|') (y := '?') (by decide) a q hn
    have hp : hasPipe (a ++ c!"|?" ++ q) = true := by
      unfold hasPipe
      have e : a ++ c!"|?" ++ q = a ++ '|' :: '?' :: q := by simp
      rw [e, this]
      simp [hq]
    unfold hint
    rw [hp]
    rfl

theorem dropWhile_mem {c : Char} (hc : rustWhitespace c = false) : ∀ {s : Str}, c ∈ s → c ∈ s.dropWhile rustWhitespace
  | [], h => h
  | d :: s, h => by
    rw [List.dropWhile_cons]
    split
    · rename_i hd
      rcases List.mem_cons.1 h with rfl | h
      · rw [hc] at hd; cases hd
      · exact dropWhile_mem hc h
    · exact h

theorem trim_ne {c : Char} {s : Str} (h : c ∈ s) (hc : rustWhitespace c = false) : trim s ≠ [] := by
  have h1 : c ∈ trim s := by
    unfold trim trimEnd trimStart
    exact List.mem_reverse.2 (dropWhile_mem hc (List.mem_reverse.2 (dropWhile_mem hc h)))
  exact List.ne_nil_of_mem h1

/-- C228 refuted: the hint of Tab hides that Enter hands the line to the service: whatever stands before,
`|? x |! y` shows the one and does the other. -/
theorem C228_both_violated (cmd : Str) (hc : Incomplete.isIncomplete (cmd ++ c!"|? x |! y") = false)  :
    hint (cmd ++ c!"|? x |! y") = some .expand ∧ ∃ c, enter [] (cmd ++ c!"|? x |! y") = .ai c c!"y" := by
  constructor
  · have := (C228_service_violated ⟨none, fun _ => none, .strict, []⟩ rfl).2 cmd c!" x |! y" (by decide) (by decide)
    have e : cmd ++ c!"|? x |! y" = cmd ++ c!"|?" ++ c!" x |! y" := by simp
    rw [e]
    exact this
  · have e : cmd ++ c!"|? x |! y" = (cmd ++ c!"|? x ") ++ '|' :: '!' :: c!" y" := by simp
    have h := rfind2_append (x := '|') (y := '!') (by decide) (cmd ++ c!"|? x ") c!" y" (by decide)
    have hne : trim (cmd ++ c!"|? x ") ≠ [] := trim_ne (c := '?') (by simp) (by decide)
    refine ⟨trim (cmd ++ c!"|? x "), ?_⟩
    unfold enter
    rw [List.nil_append, hc, e]
    unfold Keys.detectAiPipe
    rw [rfind_same, h]
    have hy : Keys.unquote (trim c!" y") = c!"y" := by decide
    simp [hne, hy]

example : Incomplete.isIncomplete (c!"ls " ++ c!"|? x |! y") = false := by decide +kernel

/-- C228 refuted: with a quote or bracket left open, as by an apostrophe in the question, Enter waits for
another line although the hint speaks of the answer. -/
theorem C228_open_violated (cmd q : Str) (hcmd : trim cmd ≠ []) (hq : Keys.unquote (trim q) ≠ []) (hn : ¬ c!"|!" <:+: q)
    (hx : hint (cmd ++ c!"|!" ++ q) ≠ some .expand) (ho : Incomplete.isIncomplete (cmd ++ c!"|!" ++ q) = true) :
    hint (cmd ++ c!"|!" ++ q) = some .analyze ∧ enter [] (cmd ++ c!"|!" ++ q) = .more := by
  constructor
  · have h := rfind2_append (x := '|') (y := '!') (by decide) cmd q hn
    have ha : hasAi (cmd ++ c!"|!" ++ q) = true := by
      rw [hasAi_iff]
      have e : cmd ++ c!"|!" ++ q = cmd ++ '|' :: '!' :: q := by simp
      unfold Keys.detectAiPipe
      rw [rfind_same, e, h]
      simp [hcmd, hq]
    unfold hint at hx ⊢
    rw [ha]
    split
    · rename_i h1
      rw [if_pos h1] at hx
      exact absurd rfl hx
    · rfl
  · unfold enter
    rw [List.nil_append, ho]
    rfl

example : hint (c!"ls " ++ c!"|!" ++ c!" what's new") ≠ some .expand ∧
    Incomplete.isIncomplete (c!"ls " ++ c!"|!" ++ c!" what's new") = true := by decide +kernel

/-- C228 refuted: the hint reads the last line only.  `|! question` in a line after a backslash shows no hint
and is handed to the service with the command before. -/
theorem C228_lines_violated (cmd q : Str) (hn : ¬ c!"|!" <:+: q)
    (hx : hint (c!"|!" ++ q) ≠ some .expand) (hq : Keys.unquote (trim q) ≠ [])
    (hc : Incomplete.isIncomplete (cmd ++ c!"\\\n" ++ (c!"|!" ++ q)) = false) :
    hint (c!"|!" ++ q) = none ∧
      enter (cmd ++ c!"\\\n") (c!"|!" ++ q) = .ai (trim (cmd ++ c!"\\\n")) (Keys.unquote (trim q)) := by
  constructor
  · have h := rfind2_append (x := '|') (y := '!') (by decide) [] q hn
    have ha : hasAi (c!"|!" ++ q) = false := by
      unfold hasAi
      have e : c!"|!" ++ q = [] ++ '|' :: '!' :: q := by simp
      rw [e, h]
      rfl
    unfold hint at hx ⊢
    rw [ha]
    split
    · rename_i h1
      rw [if_pos h1] at hx
      exact absurd rfl hx
    · rfl
  · have h := rfind2_append (x := '|') (y := '!') (by decide) (cmd ++ c!"\\\n") q hn
    unfold enter
    rw [hc]
    have e : cmd ++ c!"\\\n" ++ (c!"|!" ++ q) = (cmd ++ c!"\\\n") ++ '|' :: '!' :: q := by simp
    unfold Keys.detectAiPipe
    rw [rfind_same, e, h]
    simp only [Bool.false_eq_true, if_false]
    rw [if_pos ⟨trim_ne (c := '\\') (by simp) (by decide), hq⟩]

example : hint (c!"|!" ++ c!" why") ≠ some .expand ∧
    Incomplete.isIncomplete (c!"ls -l " ++ c!"\\\n" ++ (c!"|!" ++ c!" why")) = false := by decide +kernel

/-- C228 refuted: on a narrow screen no hint is shown. -/
theorem C228_narrow_violated (cols : Nat) (mark line ghost : Str) (h : cols ≤ mark.length + line.length + 18) :
    row cols mark line ghost = mark ++ line ++ ghost := by
  unfold row
  cases hh : hint line with
  | none => rfl
  | some x =>
    have hx : 16 ≤ x.text.length := by cases x <;> decide
    simp only
    unfold place
    rw [if_neg (by omega)]

/-- C228 refuted: the grey continuation is not counted: the hint is written over it. -/
theorem C228_ghost_violated (cols : Nat) (mark line ghost : Str) (h : Dsh.Hint.Kind) (hh : hint line = some h)
    (hroom : mark.length + line.length + 2 + h.text.length < cols)
    (hg : cols ≤ mark.length + line.length + ghost.length) :
    row cols mark line ghost =
      mark ++ line ++ ghost.take (cols - h.text.length - (mark.length + line.length)) ++ h.text ++
        ghost.drop (cols - (mark.length + line.length)) := by
  unfold row
  rw [hh]
  simp only
  unfold place
  rw [if_pos (by omega)]
  simp only
  unfold over
  have hl : (mark ++ line).length = mark.length + line.length := List.length_append
  have h0 : cols - h.text.length - (mark ++ line ++ ghost).length = 0 := by
    rw [List.length_append, hl]; omega
  rw [h0, List.replicate_zero, List.append_nil, List.take_append, List.take_of_length_le (by omega),
    List.drop_append, List.drop_eq_nil_of_le (as := mark ++ line) (by omega), List.nil_append, hl]
  have e : cols - h.text.length + h.text.length - (mark.length + line.length) = cols - (mark.length + line.length) := by omega
  rw [e]

example : row 30 c!"> " c!"?? a" c!" list of all the files here" =
    c!"> ?? a list of ↹ Tab to expandere" := by decide +kernel

end Dsh.Hint
