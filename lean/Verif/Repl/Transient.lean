import Verif.Editor.Layout
/-!
# The prompt that shrinks on Enter (C227)

`render_transient_prompt_to` (dsh/src/repl/render.rs:454-488), called by `handle_execute`
(dsh/src/repl/key_handlers/execution.rs:66-94); it is on unless switched off (suggestion.rs:54).  On
Enter the two lines of the prompt and the rows of the typed line are to be replaced by a short prompt
and the line.  The code goes up a number of rows from the row of the caret and clears everything from
there on.

The rows are those of `Verif/Editor/Layout.lean` (C58), where the caret is drawn is proved there.
Simplified: the screen is a list of rows from its top to the row of the caret, rows below the caret
are cleared in any case; the line above the mark is one row (render.rs:118-130); the width of a text is
the sum of the widths of its characters (input/utils.rs:2-26, without escape sequences).
-/
namespace Dsh.Transient
open Dsh.Editor

abbrev Str := List Char

/-- How many rows the code goes up (render.rs:462-471); `none` is the division by zero. -/
def moveUp (cols prompt width : Nat) : Option Nat :=
  if cols = 0 then none else some (1 + (prompt + width) / cols)

/-- `cursor::MoveUp` and `Clear(FromCursorDown)` (render.rs:466-472) from the row with this number: what
is left of the screen.  `MoveUp` stops at the top. -/
def cleared (screen : List Str) (row m : Nat) : List Str := screen.take (row - m)

/-- The screen before Enter: what was there, the line above the mark, the rows of the typed text before
the caret; and the number of the row of the caret. -/
def drawn (above : List Str) (pre : Str) (rows : List Str) : List Str × Nat :=
  (above ++ pre :: rows, above.length + 1 + (rows.length - 1))

/-- What is left above the new prompt when Enter is pressed with a text of this width. -/
def onEnter (cols prompt width : Nat) (above : List Str) (pre : Str) (rows : List Str) :
    Option (List Str) :=
  (moveUp cols prompt width).map fun m => cleared (drawn above pre rows).1 (drawn above pre rows).2 m

/-- The screen while a command of several lines is typed (render.rs:86-93): the rows of the first line,
then those of each further one after `..> `; the caret is in the last row. -/
def onEnterLines (cols width : Nat) (above : List Str) (pre : Str) (lines : List (List Str)) :
    Option (List Str) :=
  (moveUp cols 4 width).map fun m =>
    cleared (above ++ pre :: lines.flatten) (above.length + 1 + (lines.flatten.length - 1)) m

/-! ## Proofs -/

/-- Going up by the right number leaves what was above; one more loses a row of it. -/
theorem cleared_drawn (above : List Str) (pre : Str) (rows : List Str) (h : rows ≠ []) (k : Nat) :
    cleared (drawn above pre rows).1 (drawn above pre rows).2 (rows.length + k) =
      above.take (above.length - k) := by
  have hl := List.length_pos_iff.2 h
  unfold cleared drawn
  simp only
  rw [show above.length + 1 + (rows.length - 1) - (rows.length + k) = above.length - k by omega,
    List.take_append_of_le_length (by omega)]

/-- Going up too little leaves the line above the mark, and rows of the text. -/
theorem cleared_less (above : List Str) (pre : Str) (rows : List Str) (m : Nat) (h : m < rows.length) :
    cleared (drawn above pre rows).1 (drawn above pre rows).2 m =
      above ++ pre :: rows.take (rows.length - m - 1) := by
  unfold cleared drawn
  simp only
  rw [show above.length + 1 + (rows.length - 1) - m = above.length + ((rows.length - m - 1) + 1) by omega,
    List.take_length_add_append, List.take_succ_cons]

variable {W : Char → Nat}

/-- The rows of a text of narrow characters. -/
theorem rows_length {cols start : Nat} {t : Str} {rows : List Str} (hc : 0 < cols)
    (h : Rows W cols start t rows) (hw : ∀ c ∈ t, W c = 1 ∧ c ≠ '\n') :
    rows.length = 1 + (start + t.length - 1) / cols := by
  have hsum : ∀ r : Str, (∀ c ∈ r, W c = 1) → (r.map W).sum = r.length := by
    intro r hr
    induction r with
    | nil => rfl
    | cons c r ih => simp [hr c (by simp), ih fun d hd => hr d (by simp [hd])]; omega
  induction h with
  | @last start r h1 h2 =>
    rw [hsum r fun c hc => (hw c hc).1] at h2
    have : (start + r.length - 1) / cols = 0 := Nat.div_eq_of_lt (by omega)
    simp [this]
  | @newline start r t rows h1 h2 h3 ih =>
    exact absurd rfl (hw '\n' (by simp)).2
  | @wrap start r c t rows h1 h2 h3 h4 h5 ih =>
    have hr := hsum r fun d hd => (hw d (by simp [hd])).1
    rw [hr] at h2 h4
    rw [(hw c (by simp)).1] at h4
    have := ih fun d hd => hw d (by simp at hd ⊢; exact Or.inr hd)
    simp only [List.length_cons, List.length_append] at this ⊢
    rw [this, show 0 + (t.length + 1) - 1 = t.length by omega,
      show start + (r.length + (t.length + 1)) - 1 = t.length + cols by omega, Nat.add_div_right _ hc]
    omega

/-- Every newline makes a row. -/
theorem rows_newlines {cols start : Nat} {t : Str} {rows : List Str} (h : Rows W cols start t rows) :
    t.count '\n' + 1 ≤ rows.length := by
  induction h with
  | @last start r h1 h2 => simp [List.count_eq_zero.2 h1]
  | @newline start r t rows h1 h2 h3 ih =>
    simp [List.count_append, List.count_eq_zero.2 h1]; omega
  | @wrap start r c t rows h1 h2 h3 h4 h5 ih =>
    simp [List.count_append, List.count_eq_zero.2 h1] at ih ⊢; omega

/-- The width of a text (input/utils.rs:2-26). -/
def width (W : Char → Nat) (t : Str) : Nat := (t.map W).sum

theorem width_narrow {t : Str} (hw : ∀ c ∈ t, W c = 1 ∧ c ≠ '\n') : width W t = t.length := by
  unfold width
  induction t with
  | nil => rfl
  | cons c r ih => simp [(hw c (by simp)).1, ih fun d hd => hw d (by simp [hd])]; omega

/-- C227: with the caret at the end of a text of narrow characters, everything above the prompt is kept
and nothing of the old prompt and line is left, unless the last row is just full.
`_partial`: the other cases are refuted below. -/
theorem C227_exact_partial (cols prompt : Nat) (t : Str) (rows above : List Str) (pre : Str)
    (hc : 0 < cols) (h : Rows W cols prompt t rows) (hw : ∀ c ∈ t, W c = 1 ∧ c ≠ '\n')
    (hm : (prompt + t.length) % cols ≠ 0) :
    onEnter cols prompt (width W t) above pre rows = some above := by
  have hl := rows_length hc h hw
  have hp : 0 < prompt + t.length := by
    rcases Nat.eq_zero_or_pos (prompt + t.length) with h0 | h0
    · rw [h0] at hm; simp at hm
    · exact h0
  have hq : (prompt + t.length) / cols = (prompt + t.length - 1) / cols := by
    have := Nat.div_add_mod (prompt + t.length) cols
    have hlt := Nat.mod_lt (prompt + t.length) hc
    generalize hq : (prompt + t.length) / cols = q at this
    generalize hr : (prompt + t.length) % cols = r at this hlt hm
    rw [← this, show cols * q + r - 1 = (r - 1) + cols * q by omega, Nat.add_mul_div_left _ _ hc,
      Nat.div_eq_of_lt (by omega)]
    omega
  unfold onEnter moveUp
  rw [if_neg (by omega), width_narrow hw, hq, ← hl]
  have := cleared_drawn above pre rows h.ne_nil 0
  simpa using this

/-- A width of one for every character. -/
def one (_ : Char) : Nat := 1

example : Rows one 10 2 c!"ls -l /home/me" [c!"ls -l /h", c!"ome/me"] :=
  .wrap (r := c!"ls -l /h") (by decide) (by decide) (by decide) (by decide) (.last (by decide) (by decide))

/-- C227 refuted: if prompt and text just fill their last row, the last row of what was above, such as
the end of the output of the command before, is lost. -/
theorem C227_full_violated (cols prompt : Nat) (t : Str) (rows above : List Str) (pre : Str)
    (hc : 0 < cols) (h : Rows W cols prompt t rows) (hw : ∀ c ∈ t, W c = 1 ∧ c ≠ '\n')
    (hm : (prompt + t.length) % cols = 0) (hp : 0 < prompt) :
    onEnter cols prompt (width W t) above pre rows = some above.dropLast := by
  have hl := rows_length hc h hw
  have hq : (prompt + t.length) / cols = (prompt + t.length - 1) / cols + 1 := by
    have := Nat.div_add_mod (prompt + t.length) cols
    generalize hq : (prompt + t.length) / cols = q at this
    rw [hm] at this
    cases q with
    | zero => simp at this; omega
    | succ q =>
      rw [← this, Nat.mul_succ, show cols * q + cols + 0 - 1 = (cols - 1) + cols * q by omega,
        Nat.add_mul_div_left _ _ hc, Nat.div_eq_of_lt (by omega)]
      omega
  unfold onEnter moveUp
  rw [if_neg (by omega), width_narrow hw, hq, ← Nat.add_assoc, ← hl, List.dropLast_eq_take]
  exact congrArg some (cleared_drawn above pre rows h.ne_nil 1)

example : Rows one 8 2 c!"ls -al" [c!"ls -al"] := .last (by decide) (by decide)
example : onEnter 8 2 6 [c!"a", c!"last line"] c!"~" [c!"ls -al"] = some [c!"a"] := by decide

/-- C227 refuted: the caret is taken to be in the last row.  If it is in the first row of a longer text,
as many rows of what was above are lost as the text has full rows. -/
theorem C227_caret_violated (cols prompt : Nat) (t : Str) (k : Nat) (above : List Str) (pre : Str)
    (hc : 0 < cols) (hw : ∀ c ∈ t, W c = 1 ∧ c ≠ '\n') (hk : prompt + (t.take k).length ≤ cols) :
    Rows W cols prompt (t.take k) [t.take k] ∧
    onEnter cols prompt (width W t) above pre [t.take k] =
      some (above.take (above.length - (prompt + t.length) / cols)) := by
  have hw' : ∀ c ∈ t.take k, W c = 1 ∧ c ≠ '\n' := fun c hc => hw c (List.mem_of_mem_take hc)
  refine ⟨.last (fun hn => (hw' _ hn).2 rfl) ?_, ?_⟩
  · have := width_narrow hw'
    unfold width at this
    rw [this]; exact hk
  · unfold onEnter moveUp
    rw [if_neg (by omega), width_narrow hw]
    exact congrArg some (cleared_drawn above pre [t.take k] (by simp) _)

example : onEnter 10 2 30 [c!"1", c!"2", c!"3", c!"4"] c!"~" [c!""] = some [c!"1"] := by decide

/-- C227 refuted: in a text with newlines the rows are not counted: a text that would fit into one row
leaves the line above the mark and all rows but the last two behind. -/
theorem C227_newline_violated (cols prompt : Nat) (t : Str) (rows above : List Str) (pre : Str)
    (h : Rows W cols prompt t rows) (hn : '\n' ∈ t) (hs : prompt + width W t < cols) :
    2 ≤ rows.length ∧ onEnter cols prompt (width W t) above pre rows =
      some (above ++ pre :: rows.take (rows.length - 2)) := by
  have h2 : 2 ≤ rows.length := by
    have := rows_newlines h
    have := List.count_pos_iff.2 hn
    omega
  refine ⟨h2, ?_⟩
  unfold onEnter moveUp
  rw [if_neg (by omega), Nat.div_eq_of_lt hs]
  show some (cleared _ _ 1) = _
  rw [cleared_less above pre rows 1 (by omega)]
  rw [Nat.sub_sub]

example : Rows one 20 2 c!"a\nb\nc" [c!"a", c!"b", c!"c"] :=
  .newline (r := c!"a") (by decide) (by decide)
    (.newline (r := c!"b") (by decide) (by decide) (.last (by decide) (by decide)))
example : onEnter 20 2 5 [] c!"~" [c!"a", c!"b", c!"c"] = some [c!"~", c!"a"] := by decide

/-- C227 refuted: of a command typed in several lines all but the last two rows stay, with the old prompt
above them. -/
theorem C227_lines_violated (cols w : Nat) (above : List Str) (pre : Str) (lines : List (List Str))
    (h : ∀ l ∈ lines, l ≠ []) (hn : 2 ≤ lines.length) (hs : 4 + w < cols) :
    onEnterLines cols w above pre lines =
      some (above ++ pre :: lines.flatten.take (lines.flatten.length - 2)) := by
  have hlen : ∀ ls : List (List Str), (∀ l ∈ ls, l ≠ []) → ls.length ≤ ls.flatten.length := by
    intro ls hls
    induction ls with
    | nil => simp
    | cons l ls ih =>
      have h1 := List.length_pos_iff.2 (hls l (by simp))
      have h2 := ih fun x hx => hls x (by simp [hx])
      simp only [List.flatten_cons, List.length_append, List.length_cons]
      omega
  have hl := hlen lines h
  unfold onEnterLines moveUp
  rw [if_neg (by omega), Nat.div_eq_of_lt hs]
  have := cleared_less above pre lines.flatten 1 (by omega)
  unfold drawn at this
  simp only at this
  rw [Nat.sub_sub] at this
  simpa using this

/-- C227 refuted: the width is that of the line after the abbreviation at its end was put in, which is not
on the screen: a short word that stands for a long text costs rows of what was above. -/
theorem C227_abbr_violated (cols prompt : Nat) (t : Str) (expanded : Nat) (above : List Str) (pre : Str)
    (hc : 0 < cols) (hw : cols ≤ prompt + expanded) (ha : above ≠ []) :
    ∃ n, n < above.length ∧ onEnter cols prompt expanded above pre [t] = some (above.take n) := by
  have hq : 1 ≤ (prompt + expanded) / cols := (Nat.one_le_div_iff hc).2 hw
  have hl := List.length_pos_iff.2 ha
  refine ⟨above.length - (prompt + expanded) / cols, by omega, ?_⟩
  unfold onEnter moveUp
  rw [if_neg (by omega)]
  exact congrArg some (cleared_drawn above pre [t] (by simp) _)

/-- C227 refuted: on a terminal that reports no columns, which the line between blocks allows for
(render.rs:62-83), Enter ends the shell with a division by zero. -/
theorem C227_zero_violated (prompt w : Nat) (above : List Str) (pre : Str) (rows : List Str) :
    onEnter 0 prompt w above pre rows = none := rfl

/-- Every character two columns wide. -/
def two (_ : Char) : Nat := 2

/-- C227 refuted: wide characters that do not fit leave a column free, which is not counted. -/
theorem C227_wide_violated :
    Rows two 3 0 c!"あいうえ" [c!"あ", c!"い", c!"う", c!"え"] ∧
    onEnter 3 0 (width two c!"あいうえ") [c!"x"] c!"~" [c!"あ", c!"い", c!"う", c!"え"] =
      some [c!"x", c!"~"] := by
  refine ⟨?_, by decide⟩
  exact .wrap (r := c!"あ") (by decide) (by decide) (by decide) (by decide)
    (.wrap (r := c!"い") (by decide) (by decide) (by decide) (by decide)
      (.wrap (r := c!"う") (by decide) (by decide) (by decide) (by decide)
        (.last (by decide) (by decide))))

end Dsh.Transient
