import Verif.Completion.CmdLineProps
import Verif.Repl.Line
/-!
# The menu of candidates, and what becomes of the chosen one

`dsh/src/completion/ui.rs` (the keys), `dsh/src/completion/display.rs` (the marked candidate),
`dsh/src/completion/framework.rs`, `dsh/src/completion/selection.rs`,
`dsh/src/repl/key_handlers/completion.rs: handle_trigger_completion`.

Simplified: the candidates of the engine and those of the three older sources are given; a source that
answers with a single text is a list of one. The fuzzy finder (`skim`) is a separate program: a menu of
that kind ends the model with `skim`. Errors of the terminal are left out. How many candidates fit in a
row is a number that may change with every redrawing.
-/
namespace Dsh.Pick
open Dsh.Tokens Dsh.Editor Dsh.CmdLine

abbrev Str := List Char

/-! ## Model -/

/-- A candidate: all kinds write their display name into the line (`output`, skim_adapter.rs:7-19;
`get_display_name`, display.rs:787-799). -/
abbrev Cand := Str

/-- The keys that matter (crossterm `KeyCode`). -/
inductive Code where
  | up | down | left | right | tab | pageUp | pageDown | home | last | enter | esc | backspace
  | char (c : Char) | other
deriving DecidableEq, Repr

/-- Modifiers. -/
inductive Mods where
  | none | control | others
deriving DecidableEq, Repr

/-- `Event`. -/
inductive Event where
  | press (k : Code) (m : Mods)
  | other
deriving DecidableEq, Repr

/-- `InteractionCommand` (ui.rs:128-142). -/
inductive Command where
  | up | down | left | right | pageUp | pageDown | home | last | submit | input (c : Char) | cancel | noop
deriving DecidableEq, Repr

/-- `interpret_event` (ui.rs:144-174). -/
def interpret : Event → Command
  | .other => .noop
  | .press .up _ => .up
  | .press .down _ => .down
  | .press .left _ => .left
  | .press .right _ => .right
  | .press .tab .none => .right
  | .press .tab _ => .noop
  | .press .pageUp _ => .pageUp
  | .press .pageDown _ => .pageDown
  | .press .home _ => .home
  | .press .last _ => .last
  | .press .enter _ => .submit
  | .press .esc _ => .cancel
  | .press .backspace _ => .cancel
  | .press (.char c) m =>
    if m = .control ∧ (c = 'c' ∨ c = 'g') then .cancel
    else if m = .none ∧ c = 'q' then .cancel
    else .input c
  | .press .other _ => .noop

/-- `CompletionDisplay` (display.rs:90-103), without the screen. -/
structure Menu where
  cands : List Cand
  sel : Nat := 0
  perRow : Nat
  more : Bool
deriving DecidableEq, Repr

/-- `format_more_items_message` with the default text (display.rs:73, 80-87, 261-262). -/
def message (n : Nat) : Cand := c!"📋 ...and " ++ (Nat.repr n).toList ++ c!" more items available"

/-- `new_with_config` (display.rs:245-279), shown for the first time. -/
def Menu.new (max : Nat) (items : List Cand) (perRow : Nat) : Menu :=
  if max < items.length then ⟨items.take max ++ [message (items.length - max)], 0, perRow, true⟩
  else ⟨items, 0, perRow, false⟩

/-- `move_up`, `move_down`, `move_left`, `move_right` (display.rs:341-367); the display does not
implement the other motions (ui.rs:14-17, display.rs:668-701). -/
def Menu.move (m : Menu) : Command → Menu
  | .up => if m.perRow ≤ m.sel then { m with sel := m.sel - m.perRow } else m
  | .down => if m.sel + m.perRow < m.cands.length then { m with sel := m.sel + m.perRow } else m
  | .left => if 0 < m.sel then { m with sel := m.sel - 1 } else m
  | .right => if m.sel + 1 < m.cands.length then { m with sel := m.sel + 1 } else m
  | _ => m

/-- `get_selected` (display.rs:369-382) with `selected_output` (697-700). -/
def Menu.selected (m : Menu) : Option Cand :=
  match m.cands[m.sel]? with
  | some c => if m.more ∧ m.sel = m.cands.length - 1 ∧ ['📋'].isPrefixOf c then none else some c
  | none => none

/-- `CompletionOutcome` (ui.rs:37-43). -/
inductive Outcome where
  | submitted (c : Cand) | input (c : Char) | cancelled | noSelection
deriving DecidableEq, Repr

/-- `CompletionInteraction::run` (ui.rs:60-125): the outcome and the events left; `none` while the
menu is open. With every event comes the number of candidates per row at the redrawing. -/
def run (m : Menu) : List (Event × Nat) → Option (Outcome × List (Event × Nat))
  | [] => none
  | (e, p) :: es =>
    match interpret e with
    | .submit => some ((match m.selected with | some c => .submitted c | none => .noSelection), es)
    | .input c => some (.input c, es)
    | .cancel => some (.cancelled, es)
    | .noop => run m es
    | c => run { m.move c with perRow := p } es

/-- `continue_inline_input` (framework.rs:96-108). -/
def continueInline (text value : Str) : Str :=
  match tokenAt text text.length .completionRange with
  | none => value
  | some s => if text.length ≤ s.start.char then value else s.raw ++ value

/-- `CompletionSelection` (framework.rs:49-53), and a menu that is still open. -/
inductive Selection where
  | selected (v : Str) | none | skim (items : List Cand) | waiting
deriving DecidableEq, Repr

/-- Parameters of the menus: `max_items`, the kind and the first layout. -/
structure Config where
  max : Nat := 30
  perRow : Nat := 1

/-- `select_completion_items_with_framework` (selection.rs:68-98), `select_with_framework_kind` and
`InlineCompletionFramework::select` (framework.rs:64-94, 178-186). -/
def select (cfg : Config) (inline : Bool) (items : List Cand) (text : Str) (es : List (Event × Nat)) :
    Selection × List (Event × Nat) :=
  match items with
  | [] => (.none, es)
  | [c] => (.selected c, es)
  | _ =>
    if inline then
      match run (Menu.new cfg.max items cfg.perRow) es with
      | some (.submitted v, r) => (.selected v, r)
      | some (.input c, r) => (.selected (continueInline text [c]), r)
      | some (_, r) => (.none, r)
      | none => (.waiting, [])
    else (.skim items, es)

/-- `&val[n..]`: a panic inside a character. -/
def dropBytes : Nat → Str → Option Str
  | 0, s => some s
  | _ + 1, [] => none
  | n + 1, c :: s => if c.utf8Size ≤ n + 1 then dropBytes (n + 1 - c.utf8Size) s else none

/-- The chosen text goes into the line (key_handlers/completion.rs:174-195, 226-241); `none` is a panic.
The older sources come without a range. -/
def accept (range : Option Range) (removal : Option Nat) (val : Str) (z : Zip) : Option Zip :=
  if c!"🕒 ".isPrefixOf val then
    match dropBytes 3 val with
    | some cmd => some (z.op Line.W (.reset (trim cmd)))
    | none => none
  else match range with
    | some r => some (z.op Line.W (.replaceRange r.start r.stop val))
    | none =>
      let z := match removal with
        | some n => z.op Line.W (.backspacen n)
        | none => z
      some (z.op Line.W (.insertStr val))

/-- `input_completion` (selection.rs:147-193): the first source with an answer. -/
def firstOf (cfg : Config) (inline : Bool) (text : Str) : List (List Cand) → List (Event × Nat) →
    Selection × List (Event × Nat)
  | [], es => (.none, es)
  | items :: l, es =>
    match select cfg inline items text es with
    | (.none, r) => firstOf cfg inline text l r
    | a => a

/-- How Tab ends. -/
inductive Done where
  | line (s : Line.St) | panic | skim (items : List Cand) | waiting

/-- Everything Tab depends on. -/
structure Tab where
  cfg : Config := {}
  /-- the candidates of the engine, formatted; its kind of menu and range -/
  engine : List Cand := []
  inline : Bool := true
  range : Option Range := none
  /-- `completion_query_for_input` (key_handlers/completion.rs:294-299) -/
  query : Option Str := none
  /-- the older sources: Lisp, `z`, files and commands -/
  older : List (List Cand) := []
  /-- `default_completion_framework` (selection.rs:34-40) -/
  olderInline : Bool := true

/-- The second half of `handle_trigger_completion` (key_handlers/completion.rs:212-272). -/
def Tab.goOn (t : Tab) (s : Line.St) (es : List (Event × Nat)) : Done × List (Event × Nat) :=
  match firstOf t.cfg t.olderInline s.z.text t.older es with
  | (.selected v, r) => ((match accept none (t.query.map List.length) v s.z with
      | some z => .line { s with z }
      | none => .panic), r)
  | (.skim items, r) => (.skim items, r)
  | (.waiting, r) => (.waiting, r)
  | (.none, r) => (.line (Line.acceptSuggestion false s).1, r)

/-- `handle_trigger_completion` (key_handlers/completion.rs:99-273), without the AI. -/
def Tab.press (t : Tab) (s : Line.St) (es : List (Event × Nat)) : Done × List (Event × Nat) :=
  match select t.cfg t.inline t.engine s.z.text es with
  | (.selected v, r) => ((match accept t.range (t.query.map List.length) v s.z with
      | some z => .line { s with z }
      | none => .panic), r)
  | (.skim items, r) => (.skim items, r)
  | (.waiting, r) => (.waiting, r)
  | (.none, r) => t.goOn s r

/-! ## C116: the older sources -/

/-- **C116, older sources.** With the caret at the end of the word, the word is replaced and the rest
of the line stays. -/
theorem C116_older_partial (pre w post val : Str) (hv : c!"🕒 ".isPrefixOf val = false) :
    accept none (some w.length) val ⟨pre ++ w, post⟩ = some ⟨pre ++ val, post⟩ := by
  simp [accept, hv, Zip.op]

example : accept none (some 2) c!"notes" ⟨c!"cat no", c!" | wc"⟩ = some ⟨c!"cat notes", c!" | wc"⟩ := by decide

/-- With the caret inside the word `a ++ b`, as many characters are deleted before the caret as the
word has: what stands before the word loses as many characters as the word has behind the caret, and
these stay. -/
theorem C116_older_middle (pre a b post val : Str) (hv : c!"🕒 ".isPrefixOf val = false) :
    accept none (some (a ++ b).length) val ⟨pre ++ a, b ++ post⟩ =
      some ⟨pre.take (pre.length - b.length) ++ val, b ++ post⟩ := by
  simp only [accept, hv, Zip.op, List.length_append]
  rw [show pre.length + a.length - (a.length + b.length) = pre.length - b.length by omega,
    List.take_append_of_le_length (by omega)]
  simp

/-- **C116 fails: older sources, the caret inside the word.** `cat no|tes`: the word `notes` was to be
replaced, the line becomes `cnotes.txttes`. -/
theorem C116_older_violated :
    ∃ pre a b post val, accept none (some (a ++ b).length) val ⟨pre ++ a, b ++ post⟩ ≠ some ⟨pre ++ val, post⟩ ∧
      accept none (some (a ++ b).length) val ⟨pre ++ a, b ++ post⟩ = some ⟨c!"cnotes.txt", c!"tes"⟩ :=
  ⟨c!"cat ", c!"no", c!"tes", [], c!"notes.txt", by decide, by decide⟩

/-- **C116 fails: the clock.** A candidate that begins with the clock and a blank ends the shell, from
whatever source; the mark was meant for commands of the history. -/
theorem C116_clock_violated (range : Option Range) (removal : Option Nat) (z : Zip) (name : Str) :
    accept range removal (c!"🕒 " ++ name) z = none := by
  have h : c!"🕒 ".isPrefixOf (c!"🕒 " ++ name) = true := by
    rw [List.isPrefixOf_iff_prefix]; exact List.prefix_append _ _
  simp only [accept, h, if_true]
  have : dropBytes 3 (c!"🕒 " ++ name) = none := by
    show dropBytes 3 ('🕒' :: ' ' :: name) = none
    simp only [dropBytes]
    rw [if_neg (by decide)]
  rw [this]

/-- Without the clock there is no panic. -/
theorem C116_calm_partial (range : Option Range) (removal : Option Nat) (z : Zip) (val : Str)
    (hv : c!"🕒 ".isPrefixOf val = false) : ∃ z', accept range removal val z = some z' := by
  unfold accept; rw [hv]; cases range <;> exact ⟨_, rfl⟩

/-- **C116 fails: a name with a blank from the older sources.** It is put into the line as it is, and is
then two words. -/
theorem C116_blank_violated (pre a b : Str) (ha : PlainWord .parser a) (hb : PlainWord .parser b)
    (hp : PlainWord .parser pre) (hv : c!"🕒 ".isPrefixOf (a ++ ' ' :: b) = false) :
    ∃ z, accept none none (a ++ ' ' :: b) ⟨pre ++ [' '], []⟩ = some z ∧
      (tokenize z.text .parser).map (·.raw) = [pre, a, b] := by
  refine ⟨⟨pre ++ [' '] ++ (a ++ ' ' :: b), []⟩, by simp [accept, hv, Zip.op], ?_⟩
  have : (⟨pre ++ [' '] ++ (a ++ ' ' :: b), []⟩ : Zip).text = line [pre, a, b] := by
    simp [Zip.text, line]
  rw [this]
  rw [tokenize_line, spansOf_raw]
  · intro w hw
    simp at hw
    rcases hw with rfl | rfl | rfl <;> assumption

/-! ## C118: the menu -/

/-- The marked candidate is one of those shown. -/
theorem move_sel {m : Menu} (h : m.sel < m.cands.length) (c : Command) :
    (m.move c).sel < (m.move c).cands.length ∧ (m.move c).cands = m.cands ∧ (m.move c).more = m.more := by
  have key : ∃ k, k < m.cands.length ∧ m.move c = { m with sel := k } := by
    cases c
    case up =>
      by_cases hh : m.perRow ≤ m.sel
      · exact ⟨_, by omega, if_pos hh⟩
      · exact ⟨_, h, if_neg hh⟩
    case down =>
      by_cases hh : m.sel + m.perRow < m.cands.length
      · exact ⟨_, hh, if_pos hh⟩
      · exact ⟨_, h, if_neg hh⟩
    case left =>
      by_cases hh : 0 < m.sel
      · exact ⟨_, by omega, if_pos hh⟩
      · exact ⟨_, h, if_neg hh⟩
    case right =>
      by_cases hh : m.sel + 1 < m.cands.length
      · exact ⟨_, hh, if_pos hh⟩
      · exact ⟨_, h, if_neg hh⟩
    all_goals exact ⟨_, h, rfl⟩
  obtain ⟨k, hk, e⟩ := key
  rw [e]
  exact ⟨hk, rfl, rfl⟩

/-- **C118, arrows.** Think of the candidates in rows of `m.perRow`. Up and Down go to the same column of
the row above or below if there is a candidate, Left and Right to the candidate before or behind;
otherwise the mark stays. -/
theorem C118_arrows_partial (m : Menu) (h : m.sel < m.cands.length) (hp : 0 < m.perRow) :
    let row := m.sel / m.perRow
    let col := m.sel % m.perRow
    (m.move .down).sel = (if (row + 1) * m.perRow + col < m.cands.length then (row + 1) * m.perRow + col else m.sel) ∧
    (m.move .up).sel = (if 0 < row then (row - 1) * m.perRow + col else m.sel) ∧
    (m.move .right).sel = min (m.sel + 1) (m.cands.length - 1) ∧ (m.move .left).sel = m.sel - 1 := by
  have hd := Nat.div_add_mod m.sel m.perRow
  have e1 : (m.sel / m.perRow + 1) * m.perRow + m.sel % m.perRow = m.sel + m.perRow := by
    rw [Nat.add_mul, Nat.mul_comm (m.sel / m.perRow)]; omega
  refine ⟨?_, ?_, ?_, ?_⟩
  · rw [e1]; simp only [Menu.move]; split <;> rfl
  · simp only [Menu.move]
    by_cases hle : m.perRow ≤ m.sel
    · have hpos : 0 < m.sel / m.perRow := Nat.div_pos hle hp
      rw [if_pos hle, if_pos hpos]
      have : (m.sel / m.perRow - 1) * m.perRow = m.sel / m.perRow * m.perRow - m.perRow := by
        rw [Nat.sub_mul, Nat.one_mul]
      have : m.perRow ≤ m.sel / m.perRow * m.perRow := Nat.le_mul_of_pos_left _ hpos
      have := Nat.mul_comm (m.sel / m.perRow) m.perRow
      simp only; omega
    · have : m.sel / m.perRow = 0 := Nat.div_eq_of_lt (by omega)
      rw [if_neg hle, if_neg (by omega)]
  · simp only [Menu.move]; split <;> (try dsimp only) <;> omega
  · simp only [Menu.move]; split <;> (try dsimp only) <;> omega

example : (⟨[c!"a", c!"b", c!"c", c!"d", c!"e"], 1, 2, false⟩ : Menu).move .down =
    ⟨[c!"a", c!"b", c!"c", c!"d", c!"e"], 3, 2, false⟩ := by decide

/-- What the menu shows of the candidates. -/
def shown (max : Nat) (items : List Cand) : List Cand := items.take max

theorem selected_shown {max : Nat} {items : List Cand} {m : Menu} {p : Nat} (hc : m.cands = (Menu.new max items p).cands)
    (hm : m.more = (Menu.new max items p).more) {c : Cand} (h : m.selected = some c) :
    (shown max items)[m.sel]? = some c := by
  unfold Menu.selected at h
  unfold Menu.new at hc hm
  unfold shown
  split at hc
  · rename_i hlt
    rw [if_pos hlt] at hm
    simp only at hc hm
    rw [hc] at h
    have hl : (items.take max).length = max := by simp; omega
    by_cases hs : m.sel < max
    · rw [List.getElem?_append_left (by omega)] at h
      split at h
      · rename_i d hd
        split at h
        · cases h
        · rw [hd]; exact h
      · cases h
    · by_cases hs2 : m.sel = max
      · rw [hs2, List.getElem?_append_right (by omega), hl] at h
        simp only [Nat.sub_self, List.getElem?_cons_zero] at h
        rw [if_pos ⟨hm, by simp; omega, by simp [message, List.isPrefixOf]⟩] at h
        cases h
      · rw [List.getElem?_eq_none (by simp; omega)] at h; cases h
  · rename_i hlt
    rw [if_neg hlt] at hm
    simp only at hc hm
    rw [hc, hm] at h
    rw [List.take_of_length_le (by omega)]
    split at h
    · rename_i d hd; simp at h; rw [hd, h]
    · cases h

theorem run_shown {max : Nat} {items : List Cand} {p : Nat} (es : List (Event × Nat)) :
    ∀ (m : Menu), m.cands = (Menu.new max items p).cands → m.more = (Menu.new max items p).more →
      m.sel < m.cands.length → ∀ c r, run m es = some (.submitted c, r) → c ∈ shown max items := by
  induction es with
  | nil => intro m _ _ _ c r h; simp [run] at h
  | cons e es ih =>
    obtain ⟨e, q⟩ := e
    intro m hc hm hs c r h
    have mv : ∀ k, run { m.move k with perRow := q } es = some (.submitted c, r) → c ∈ shown max items := by
      intro k hk
      obtain ⟨m1, m2, m3⟩ := move_sel hs k
      exact ih _ (by simp only; rw [m2, hc]) (by simp only; rw [m3, hm]) (by simpa using m1) c r hk
    unfold run at h
    split at h
    · cases hsel : m.selected with
      | some d =>
        rw [hsel] at h
        simp only [Option.some.injEq, Prod.mk.injEq, Outcome.submitted.injEq] at h
        have := selected_shown hc hm hsel
        rw [h.1] at this
        exact List.mem_of_getElem? this
      | none => rw [hsel] at h; simp at h
    · simp at h
    · simp at h
    · exact ih m hc hm hs c r h
    · exact mv _ h

/-- **C118, Enter.** Whatever keys are pressed: a candidate that is chosen is one of those shown, never
the line about the candidates that are not. -/
theorem C118_chosen_partial (max : Nat) (items : List Cand) (p : Nat) (hne : items ≠ [])
    (es : List (Event × Nat)) (c : Cand) (r : List (Event × Nat))
    (h : run (Menu.new max items p) es = some (.submitted c, r)) : c ∈ items.take max := by
  refine run_shown es (Menu.new max items p) rfl rfl ?_ c r h
  have := List.length_pos_iff.2 hne
  unfold Menu.new; split <;> simp <;> omega

/-- **C118, all candidates shown can be chosen**: press Right as often as needed, and Enter. -/
theorem C118_reach_partial (max : Nat) (items : List Cand) (p q : Nat) (m : Mods) (k : Nat) (c : Cand)
    (hk : (items.take max)[k]? = some c) (r : List (Event × Nat)) :
    run (Menu.new max items p) (List.replicate k (.press .right m, q) ++ (.press .enter m, q) :: r) =
      some (.submitted c, r) := by
  have hlt : k < (items.take max).length := by
    rcases Nat.lt_or_ge k (items.take max).length with h | h
    · exact h
    · rw [List.getElem?_eq_none h] at hk; cases hk
  have hnew : ∀ j, j < (items.take max).length → (Menu.new max items p).cands[j]? = (items.take max)[j]? := by
    intro j hj
    unfold Menu.new
    split
    · simp only; rw [List.getElem?_append_left hj]
    · rw [List.take_of_length_le (by omega)]
  have hlen : (items.take max).length ≤ (Menu.new max items p).cands.length := by
    unfold Menu.new; split <;> simp; omega
  have hlast : (Menu.new max items p).more = true → (items.take max).length + 1 = (Menu.new max items p).cands.length := by
    unfold Menu.new; split <;> simp
  have walk : ∀ n (mn : Menu), mn.cands = (Menu.new max items p).cands → mn.more = (Menu.new max items p).more →
      mn.sel + n = k → run mn (List.replicate n (.press .right m, q) ++ (.press .enter m, q) :: r) = some (.submitted c, r) := by
    intro n
    induction n with
    | zero =>
      intro mn hc hm hs
      simp only [List.replicate_zero, List.nil_append, run, interpret]
      have : mn.selected = some c := by
        unfold Menu.selected
        rw [hc, show mn.sel = k by omega, hnew k hlt, hk]
        simp only
        rw [if_neg]
        rintro ⟨h1, h2, -⟩
        rw [hm] at h1
        have := hlast h1
        omega
      rw [this]
    | succ n ih =>
      intro mn hc hm hs
      simp only [List.replicate_succ, List.cons_append, run, interpret]
      refine ih _ ?_ ?_ ?_
      · simp only [Menu.move]; split <;> exact hc
      · simp only [Menu.move]; split <;> exact hm
      · simp only [Menu.move]
        rw [if_pos (by rw [hc]; omega)]
        simp only; omega
  exact walk k (Menu.new max items p) rfl rfl (by unfold Menu.new; split <;> simp)

example : (items : List Cand) → items = [c!"a", c!"b", c!"c"] → (items.take 2)[1]? = some c!"b" := by
  rintro _ rfl; rfl

/-- **C118 fails: a candidate the menu does not show cannot be chosen**, whatever keys are pressed. -/
theorem C118_hidden_violated (max : Nat) (items : List Cand) (p : Nat) (hn : items.Nodup) (k : Nat)
    (c : Cand) (hk : items[k]? = some c) (hge : max ≤ k) (es : List (Event × Nat)) (r : List (Event × Nat)) :
    run (Menu.new max items p) es ≠ some (.submitted c, r) := by
  intro h
  have hm := C118_chosen_partial max items p (by rintro rfl; simp at hk) es c r h
  obtain ⟨j, hj, he⟩ := List.mem_iff_getElem.1 hm
  simp only [List.getElem_take] at he
  obtain ⟨hk1, hk2⟩ := List.getElem?_eq_some_iff.1 hk
  have hjm : j < max := by simp at hj; omega
  exact List.pairwise_iff_getElem.1 hn j k (by omega) hk1 (by omega) (by rw [he, hk2])

example : (⟨[c!"a", c!"b"] ++ [message 1], 0, 1, true⟩ : Menu) = Menu.new 2 [c!"a", c!"b", c!"c"] 1 := by decide

/-- Keys that only move the mark, or do nothing. -/
def moves (e : Event) : Bool :=
  match interpret e with
  | .submit | .input _ | .cancel => false
  | _ => true

/-- The menu after keys that move the mark. -/
def after (m : Menu) : List (Event × Nat) → Menu
  | [] => m
  | (e, p) :: es => after (if interpret e = .noop then m else { m.move (interpret e) with perRow := p }) es

theorem run_moves {m : Menu} {ms es : List (Event × Nat)} (h : ∀ e ∈ ms, moves e.1 = true) :
    run m (ms ++ es) = run (after m ms) es := by
  induction ms generalizing m with
  | nil => rfl
  | cons e ms ih =>
    obtain ⟨e, p⟩ := e
    have he := h _ List.mem_cons_self
    have ih' := fun m => @ih m (fun x hx => h x (List.mem_cons_of_mem _ hx))
    simp only [List.cons_append, run, after]
    simp only [moves] at he
    cases hi : interpret e <;> rw [hi] at he <;> first | (simp at he; done) | (simp [ih'])

/-- A menu is opened for the engine's candidates. -/
structure Opens (t : Tab) : Prop where
  many : 2 ≤ t.engine.length
  inline : t.inline = true
  max : 0 < t.cfg.max

theorem select_run {cfg : Config} {items : List Cand} {text : Str} {es : List (Event × Nat)} (h : 2 ≤ items.length) :
    select cfg true items text es = match run (Menu.new cfg.max items cfg.perRow) es with
      | some (.submitted v, r) => (.selected v, r)
      | some (.input c, r) => (.selected (continueInline text [c]), r)
      | some (_, r) => (.none, r)
      | none => (.waiting, []) := by
  unfold select
  split
  · simp at h
  · simp at h
  · rfl

/-- **C118, choosing.** After any keys that move the mark, Enter puts the marked candidate in the place of
the word. -/
theorem C118_enter_partial (t : Tab) (ho : Opens t) (s : Line.St) (rg : Range) (hr : t.range = some rg) (ms : List (Event × Nat))
    (hms : ∀ e ∈ ms, moves e.1 = true) (m : Mods) (p : Nat) (c : Cand)
    (hc : (after (Menu.new t.cfg.max t.engine t.cfg.perRow) ms).selected = some c) (hclock : c!"🕒 ".isPrefixOf c = false)
    (r : List (Event × Nat)) :
    t.press s (ms ++ (.press .enter m, p) :: r) =
      (.line { s with z := s.z.op Line.W (.replaceRange rg.start rg.stop c) }, r) := by
  have hrun : run (Menu.new t.cfg.max t.engine t.cfg.perRow) (ms ++ (.press .enter m, p) :: r) = some (.submitted c, r) := by
    rw [run_moves hms]; simp only [run, interpret, hc]
  unfold Tab.press
  rw [ho.inline, select_run ho.many, hrun]
  simp [accept, hclock, hr]

/-- **C118, typing on.** With the caret at the end of the line, in a word, a character typed into the
menu is appended to the line, except `q`. -/
theorem C118_typed_partial (t : Tab) (ho : Opens t) (s : Line.St) (w : Span) (ctx : Ctx) (hend : s.z.after = [])
    (c : Char)
    (hw : tokenAt s.z.text s.z.before.length .completionRange = some w) (hin : w.start.char < s.z.before.length)
    (hctx : ∀ n, ctx ≠ .value n) (hr : t.range = replacement s.z.text s.z.before.length ctx)
    (hclock : c!"🕒 ".isPrefixOf (w.raw ++ [c]) = false) (hq : c ≠ 'q') (p : Nat) (r : List (Event × Nat)) :
    t.press s ((.press (.char c) .none, p) :: r) = (.line { s with z := ⟨s.z.text ++ [c], []⟩ }, r) := by
  have hlen : s.z.text.length = s.z.before.length := by simp [Zip.text, hend]
  have hrange : replacement s.z.text s.z.before.length ctx = some ⟨w.start.char, w.stop.char⟩ := by
    unfold replacement; rw [hw]
    cases ctx <;> first | rfl | exact absurd rfl (hctx _)
  have hcont : continueInline s.z.text [c] = w.raw ++ [c] := by
    unfold continueInline; rw [hlen, hw]; simp only; rw [if_neg (by omega)]
  have hrun : run (Menu.new t.cfg.max t.engine t.cfg.perRow) ((.press (.char c) .none, p) :: r) = some (.input c, r) := by
    simp [run, interpret, hq]
  obtain ⟨h1, h2, h3, -⟩ := (C07_caret s.z.text .completionRange s.z.before.length).1 w hw
  obtain ⟨a, b, e1, -, e3, e4, -, -⟩ := C07_slice s.z.text .completionRange w h1
  have hb : b = [] := by
    rw [hlen] at h3
    have : s.z.text.length = (a ++ w.raw).length + b.length := by rw [e1]; simp; omega
    have : b.length = 0 := by omega
    exact List.length_eq_zero_iff.1 this
  unfold Tab.press
  rw [ho.inline, select_run ho.many, hrun]
  simp only [hr, hrange, hcont, accept, hclock, Bool.false_eq_true, if_false, Zip.op]
  subst hb
  simp only [List.append_nil] at e1
  have hle : w.start.char ≤ w.stop.char ∧ w.stop.char ≤ s.z.text.length := by
    rw [e3, e4, e1]; simp
  rw [if_pos hle]
  rw [e3, e4, e1]
  simp

/-- **C118 fails: `q`.** Typed into the menu it is not part of the line: it is the same as Escape. -/
theorem C118_q_violated (t : Tab) (ho : Opens t) (s : Line.St) (p : Nat) (r : List (Event × Nat)) :
    t.press s ((.press (.char 'q') .none, p) :: r) = t.press s ((.press .esc .none, p) :: r) := by
  unfold Tab.press
  rw [ho.inline, select_run ho.many, select_run ho.many]
  simp [run, interpret]

/-- **C118 fails: keys held with Control.** They type their letter: Control-A in the menu is the same as
`a` (all but `c` and `g`; `q` is typed only with Control). -/
theorem C118_control_violated (t : Tab) (ho : Opens t) (s : Line.St) (c : Char) (hc : c ≠ 'c' ∧ c ≠ 'g' ∧ c ≠ 'q')
    (p : Nat) (r : List (Event × Nat)) :
    t.press s ((.press (.char c) .control, p) :: r) = t.press s ((.press (.char c) .none, p) :: r) := by
  unfold Tab.press
  rw [ho.inline, select_run ho.many, select_run ho.many]
  simp [run, interpret, hc]

/-- Cancelling the menu goes on with the older sources, with the keys that follow. -/
theorem cancel_goes_on (t : Tab) (ho : Opens t) (s : Line.St) (e : Event) (he : interpret e = .cancel) (p : Nat)
    (r : List (Event × Nat)) : t.press s ((e, p) :: r) = t.goOn s r := by
  unfold Tab.press
  rw [ho.inline, select_run ho.many]
  simp [run, he]

/-- **C118 fails: cancelling opens a second menu.** If an older source has candidates too, the next Enter
chooses the first of these. -/
theorem C118_second_violated (t : Tab) (ho : Opens t) (s : Line.St) (e : Event) (he : interpret e = .cancel) (p q : Nat)
    (c d : Cand) (l : List Cand) (rest : List (List Cand)) (hol : t.older = (c :: d :: l) :: rest) (hi : t.olderInline = true)
    (hmax : 1 < t.cfg.max) (hclock : c!"🕒 ".isPrefixOf c = false) (m : Mods) (r : List (Event × Nat)) (hq : t.query = none) :
    t.press s ((e, p) :: (.press .enter m, q) :: r) =
      (.line { s with z := ⟨s.z.before ++ c, s.z.after⟩ }, r) := by
  rw [cancel_goes_on t ho s e he]
  unfold Tab.goOn
  rw [hol, hi]
  have hrun : run (Menu.new t.cfg.max (c :: d :: l) t.cfg.perRow) ((.press .enter m, q) :: r) = some (.submitted c, r) := by
    have := C118_reach_partial t.cfg.max (c :: d :: l) t.cfg.perRow q m 0 c
      (by rw [List.getElem?_take]; simp; omega) r
    simpa using this
  simp only [firstOf]
  rw [select_run (by simp), hrun]
  simp [accept, hclock, hq, Zip.op]

/-- **C118 fails: cancelling accepts a suggestion.** If no older source has a candidate, the first word of
the grey suggestion is put into the line. -/
theorem C118_cancel_violated (t : Tab) (ho : Opens t) (s : Line.St) (e : Event) (he : interpret e = .cancel) (p : Nat)
    (hol : ∀ l ∈ t.older, l = []) (sg : Inline.Sug) (hs : s.sug.active = some sg) (x : Str) (hx : x ≠ [])
    (hsg : sg.full = s.z.text ++ x) (r : List (Event × Nat)) :
    ∃ s', t.press s ((e, p) :: r) = (.line s', r) ∧ s'.z.text ≠ s.z.text := by
  have hold : ∀ (l : List (List Cand)), (∀ x ∈ l, x = []) → firstOf t.cfg t.olderInline s.z.text l r = (.none, r) := by
    intro l hl
    induction l with
    | nil => rfl
    | cons a l ih =>
      have : a = [] := hl a List.mem_cons_self
      subst this
      simp only [firstOf, select]
      exact ih (fun y hy => hl y (List.mem_cons_of_mem _ hy))
  refine ⟨(Line.acceptSuggestion false s).1, ?_, ?_⟩
  · rw [cancel_goes_on t ho s e he]
    unfold Tab.goOn
    rw [hold _ hol]
  · have hpre : s.z.text.isPrefixOf sg.full = true := by
      rw [hsg, List.isPrefixOf_iff_prefix]; exact List.prefix_append _ _
    have hlt : s.z.text.length < sg.full.length := by
      rw [hsg]; simp; exact List.length_pos_iff.2 hx
    have hchunk : Line.nextWordChunk x = some (Line.chunkGo false x) := by
      unfold Line.nextWordChunk; rw [if_neg hx]
    have hne : Line.chunkGo false x ≠ [] := by
      cases x with
      | nil => exact absurd rfl hx
      | cons a x => unfold Line.chunkGo; split <;> simp
    unfold Line.acceptSuggestion
    rw [hs]
    simp only [hpre, hlt, decide_true, Bool.and_self, Bool.not_true, Bool.false_eq_true, if_false]
    rw [show sg.full.drop s.z.text.length = x by rw [hsg]; simp, hchunk]
    simp only
    intro h
    have := congrArg List.length h
    simp [Zip.text] at this
    exact hne this

/-- A line with a grey suggestion. -/
def grey : Line.St := { z := ⟨c!"ls s", []⟩, sug := { active := some ⟨c!"ls src -la", .history⟩ } }

/-- Two files of the engine. -/
def twoFiles : Tab := { engine := [c!"src", c!"spec"], range := some ⟨3, 4⟩, query := some c!"s" }

/-- The line after Tab and keys. -/
def textOf (d : Done × List (Event × Nat)) : Option (Str × Str) :=
  match d.1 with
  | .line s => some (s.z.before, s.z.after)
  | _ => none

example : Opens twoFiles := ⟨by decide, rfl, by decide⟩
example : textOf (twoFiles.press grey [(.press .right .none, 1), (.press .enter .none, 1)]) = some (c!"ls spec", []) := by decide
example : textOf (twoFiles.press grey [(.press (.char 'r') .none, 1)]) = some (c!"ls sr", []) := by decide
example : textOf (twoFiles.press grey [(.press (.char 'q') .none, 1)]) = some (c!"ls src ", []) := by decide
example : textOf (twoFiles.press grey [(.press .esc .none, 1)]) = some (c!"ls src ", []) := by decide

/-- **C118 fails: typing with the caret in the middle.** In `cat fo| bar`, `x` typed into the menu makes
`cat barx bar` of the line; it was to become `cat fox bar`. -/
theorem C118_middle_violated :
    textOf (Tab.press { engine := [c!"foo", c!"fob"], range := replacement c!"cat fo bar" 6 (.arg 0), query := some c!"fo" }
      { z := ⟨c!"cat fo", c!" bar"⟩ } [(.press (.char 'x') .none, 1)]) = some (c!"cat barx", c!" bar") := by decide

/-- **C118 fails: typing the value of an option.** In `cc --out=sr`, `c` typed into the menu makes
`cc --out=--out=src` of the line. -/
theorem C118_value_violated :
    textOf (Tab.press { engine := [c!"src", c!"srv"], range := replacement c!"cc --out=sr" 11 (.value c!"--out"), query := some c!"--out=sr" }
      { z := ⟨c!"cc --out=sr", []⟩ } [(.press (.char 'c') .none, 1)]) = some (c!"cc --out=--out=src", []) := by decide

end Dsh.Pick
