import Verif.Util
/-!
Model of the interactive line editor: `Input` in `dsh/src/input/editor.rs`.

The text is a list of characters with their UTF-8 lengths; the editor works on byte offsets, so
slicing at an offset that is not a character boundary, indexing outside a vector and unsigned
underflow are panics: `none`.  The display width of a character (crate `unicode-width`) is a
parameter `W`.  Colours and the completion ghost text are not modelled.
-/
namespace Dsh.Editor

/-- Byte length (`str::len`). -/
def blen (s : List Char) : Nat := (s.map Char.utf8Size).sum

/-- `s[..b]`, `s[b..]`; `none` if `b` is not a character boundary of `s`. -/
def splitByte : List Char → Nat → Option (List Char × List Char)
  | s, 0 => some ([], s)
  | [], _ + 1 => none
  | c :: cs, b + 1 =>
    if c.utf8Size ≤ b + 1 then
      match splitByte cs (b + 1 - c.utf8Size) with
      | some (x, y) => some (c :: x, y)
      | none => none
    else none

/-- `String::insert_str`. -/
def strInsert (s : List Char) (b : Nat) (t : List Char) : Option (List Char) :=
  match splitByte s b with
  | some (x, y) => some (x ++ t ++ y)
  | none => none

/-- `String::drain(a..b)` / `replace_range(a..b, t)`. -/
def strReplace (s : List Char) (a b : Nat) (t : List Char) : Option (List Char) :=
  match splitByte s b with
  | some (x, y) => match splitByte x a with
    | some (u, _) => some (u ++ t ++ y)
    | none => none
  | none => none

/-- `char_indices` offsets, starting at `b`. -/
def offs (b : Nat) : List Char → List Nat
  | [] => []
  | c :: cs => b :: offs (b + c.utf8Size) cs

/-- `Input` (editor.rs:16-27). -/
structure Input where
  cursor : Nat := 0
  input : List Char := []
  indices : List Nat := []
  width : Nat := 0
deriving DecidableEq, Repr

variable (W : Char → Nat)

/-- Sum of the display widths. -/
def widthOf (s : List Char) : Nat := (s.map W).sum

/-- `byte_index` (editor.rs:303-309). -/
def Input.byteIndex (s : Input) : Option Nat :=
  if s.cursor = s.indices.length then some (blen s.input) else s.indices[s.cursor]?

/-- Checked `x - d` on every element. -/
def subAll (d : Nat) : List Nat → Option (List Nat)
  | [] => some []
  | x :: xs => if d ≤ x then (subAll d xs).map (fun ys => (x - d) :: ys) else none

/-- `shift_indices_from` with positive delta (editor.rs:311-327). -/
def shiftUp (ix : List Nat) (start d : Nat) : List Nat :=
  if d = 0 ∨ ix.length ≤ start then ix else ix.take start ++ (ix.drop start).map (fun x => x + d)

/-- `shift_indices_from` with negative delta (editor.rs:311-327). -/
def shiftDown (ix : List Nat) (start d : Nat) : Option (List Nat) :=
  if d = 0 ∨ ix.length ≤ start then some ix
  else (subAll d (ix.drop start)).map (fun ys => ix.take start ++ ys)

/-- `char_len_at` (editor.rs:329-339). -/
def Input.charLenAt (s : Input) (i : Nat) : Option Nat :=
  if s.indices.length ≤ i then some 0
  else if i + 1 < s.indices.length then
    match s.indices[i + 1]?, s.indices[i]? with
    | some b, some a => if a ≤ b then some (b - a) else none
    | _, _ => none
  else match s.indices[i]? with
    | some a => some (blen s.input - a)
    | none => none

/-- `update_indices`, `recalculate_display_width` (editor.rs:341-346, 416-422). -/
def Input.refresh (s : Input) : Input :=
  { s with indices := offs 0 s.input, width := widthOf W s.input }

/-- `reset` (editor.rs:43-49). -/
def Input.reset (_ : Input) (t : List Char) : Input :=
  { cursor := t.length, input := t, indices := offs 0 t, width := widthOf W t }

/-- `clear` (editor.rs:71-77). -/
def Input.clear (_ : Input) : Input := {}

/-- `move_to_begin` (editor.rs:79-81). -/
def Input.moveToBegin (s : Input) : Input := { s with cursor := 0 }
/-- `move_to_end` (editor.rs:83-85). -/
def Input.moveToEnd (s : Input) : Input := { s with cursor := s.indices.length }

/-- `insert` (editor.rs:87-99); `Vec::insert` panics beyond the end. -/
def Input.insert (s : Input) (c : Char) : Option Input :=
  match s.byteIndex with
  | none => none
  | some b => match strInsert s.input b [c] with
    | none => none
    | some t =>
      if s.cursor ≤ s.indices.length then
        some { cursor := s.cursor + 1, input := t
               indices := shiftUp (s.indices.take s.cursor ++ [b] ++ s.indices.drop s.cursor) (s.cursor + 1) c.utf8Size
               width := s.width + W c }
      else none

/-- `insert_str` (editor.rs:101-124). -/
def Input.insertStr (s : Input) (t : List Char) : Option Input :=
  if t.isEmpty then some s
  else match s.byteIndex with
  | none => none
  | some b => match strInsert s.input b t with
    | none => none
    | some u =>
      if s.cursor ≤ s.indices.length then
        some { cursor := s.cursor + t.length, input := u
               indices := shiftUp (s.indices.take s.cursor ++ offs b t ++ s.indices.drop s.cursor)
                 (s.cursor + t.length) (blen t)
               width := s.width + widthOf W t }
      else none

/-- The byte offset of a character position (editor.rs:131-140). -/
def Input.byteOf (s : Input) (i : Nat) : Option Nat :=
  if i = s.indices.length then some (blen s.input) else s.indices[i]?

/-- `replace_range_chars` (editor.rs:126-148). The Boolean is the return value. -/
def Input.replaceRange (s : Input) (a b : Nat) (t : List Char) : Option (Input × Bool) :=
  if b < a ∨ s.indices.length < b then some (s, false)
  else match s.byteOf a, s.byteOf b with
    | some ba, some bb => match strReplace s.input ba bb t with
      | some u => some ({ cursor := a + t.length, input := u, indices := offs 0 u, width := widthOf W u }, true)
      | none => none
    | _, _ => none

/-- Removing the character at an index, shared by `backspace` and `delete_char`
(editor.rs:150-169, 565-584); `cur` is the caret afterwards. -/
def Input.removeAt (s : Input) (i cur : Nat) : Option Input :=
  match s.indices[i]?, s.charLenAt i with
  | some b, some n =>
    match splitByte s.input b with
    | none => none
    | some (_, rest) =>
      let w := match rest.head? with | some c => s.width - W c | none => s.width
      match strReplace s.input b (b + n) [] with
      | none => none
      | some u => match shiftDown (s.indices.eraseIdx i) i n with
        | none => none
        | some ix => some { cursor := cur, input := u, indices := ix, width := w }
  | _, _ => none

/-- `backspace` (editor.rs:150-169). -/
def Input.backspace (s : Input) : Option Input :=
  if 0 < s.cursor ∧ s.cursor ≤ s.indices.length then s.removeAt W (s.cursor - 1) (s.cursor - 1)
  else some s

/-- `backspacen` (editor.rs:171-175). -/
def Input.backspacen (s : Input) : Nat → Option Input
  | 0 => some s
  | n + 1 => match s.backspace W with
    | some s' => s'.backspacen n
    | none => none

/-- `delete_char` (editor.rs:565-584). -/
def Input.deleteChar (s : Input) : Option Input :=
  if s.indices.length ≤ s.cursor then some s else s.removeAt W s.cursor s.cursor

/-- `move_by` (editor.rs:177-183). -/
def Input.moveBy (s : Input) (d : Int) : Input :=
  if d < 0 then { s with cursor := s.cursor - d.natAbs }
  else { s with cursor := min s.indices.length (s.cursor + d.natAbs) }

/-- `while idx > 0 && p(chars[idx - 1]) { idx -= 1 }`. -/
def goBack (p : Char → Bool) (chars : List Char) : Nat → Option Nat
  | 0 => some 0
  | i + 1 => match chars[i]? with
    | none => none
    | some c => if p c then goBack p chars i else some (i + 1)

/-- `while idx < len && p(chars[idx]) { idx += 1 }`; `n` bounds the number of rounds. -/
def goOn (p : Char → Bool) (chars : List Char) : Nat → Nat → Nat
  | 0, i => i
  | n + 1, i => match chars[i]? with
    | none => i
    | some c => if p c then goOn p chars n (i + 1) else i

/-- The start of the word before the caret (editor.rs:190-201, 265-276). -/
def Input.wordStart (s : Input) : Option Nat :=
  match goBack rustWhitespace s.input s.cursor with
  | none => none
  | some i => goBack (fun c => !rustWhitespace c) s.input i

/-- `delete_word_backward` (editor.rs:185-207). -/
def Input.deleteWordBackward (s : Input) : Option Input :=
  if s.cursor = 0 then some s
  else match s.wordStart with
    | none => none
    | some i => s.backspacen W (s.cursor - i)

/-- `delete_to_end` (editor.rs:209-225); `String::truncate` at a boundary. -/
def Input.deleteToEnd (s : Input) : Option Input :=
  if s.indices.length ≤ s.cursor then some s
  else match s.byteIndex with
    | none => none
    | some b => match splitByte s.input b with
      | none => none
      | some (x, _) => some { s with input := x, indices := s.indices.take s.cursor, width := widthOf W x }

/-- `delete_to_beginning` (editor.rs:227-258). -/
def Input.deleteToBeginning (s : Input) : Option Input :=
  if s.cursor = 0 then some s
  else match s.byteIndex with
    | none => none
    | some b => match strReplace s.input 0 b [] with
      | none => none
      | some u =>
        if s.indices.length < s.cursor then none
        else match subAll b (s.indices.drop s.cursor) with
          | none => none
          | some ix => some { cursor := 0, input := u, indices := ix, width := widthOf W u }

/-- `move_word_left` (editor.rs:260-279). -/
def Input.moveWordLeft (s : Input) : Option Input :=
  if s.cursor = 0 then some s else s.wordStart.map (fun i => { s with cursor := i })

/-- `move_word_right` (editor.rs:281-301). -/
def Input.moveWordRight (s : Input) : Input :=
  if s.indices.length ≤ s.cursor then s
  else
    let n := s.input.length
    { s with cursor := goOn rustWhitespace s.input n (goOn (fun c => !rustWhitespace c) s.input n s.cursor) }

/-- The loop of `set_cursor_from_display_width` (editor.rs:426-444). -/
def clickLoop (target : Nat) (w cur : Nat) : List Char → Nat
  | [] => cur
  | c :: cs => if 2 * target < 2 * w + W c then cur else clickLoop target (w + W c) (cur + 1) cs

/-- `set_cursor_from_display_width` (editor.rs:426-444). -/
def Input.click (s : Input) (target : Nat) : Input := { s with cursor := clickLoop W target 0 0 s.input }

/-- Characters that end an abbreviation (editor.rs:507-513). -/
def abbrBreak (c : Char) : Bool := rustWhitespace c || ['|', '&', ';', '(', ')'].contains c

/-- `get_current_word_for_abbr` (editor.rs:483-532). -/
def Input.currentWord (s : Input) : Option (Option (List Char)) :=
  if s.input.isEmpty ∨ s.cursor = 0 then some none
  else match goBack (fun c => !abbrBreak c) s.input s.cursor with
    | none => none
    | some i =>
      if i < s.cursor then
        if s.input.length < s.cursor then none
        else
          let w := (s.input.take s.cursor).drop i
          if (trim w).isEmpty then some none else some (some w)
      else some none

/-- Deleting `n` characters at the caret (editor.rs:545-549). -/
def Input.deleteN (s : Input) : Nat → Option Input
  | 0 => some s
  | n + 1 =>
    if s.cursor < s.indices.length then
      match s.deleteChar W with
      | some s' => s'.deleteN n
      | none => none
    else s.deleteN n

/-- Typing a text (editor.rs:552-554). -/
def Input.insertAll (s : Input) : List Char → Option Input
  | [] => some s
  | c :: cs => match s.insert W c with
    | some s' => s'.insertAll cs
    | none => none

/-- `replace_current_word` (editor.rs:536-563). -/
def Input.replaceCurrentWord (s : Input) (t : List Char) : Option (Input × Bool) :=
  match s.currentWord with
  | none => none
  | some none => some (s, false)
  | some (some w) =>
    if w.length ≤ s.cursor then
      match ({ s with cursor := s.cursor - w.length } : Input).deleteN W w.length with
      | none => none
      | some s1 => (s1.insertAll W t).map (fun s2 => (s2, true))
    else some (s, false)

/-- `char_at` (editor.rs:455-461). -/
def Input.charAt (s : Input) (i : Nat) : Option (Option Char) :=
  if s.indices.length ≤ i then some none
  else match s.indices[i]? with
    | none => none
    | some b => (splitByte s.input b).map (fun x => x.2.head?)

/-- The column/line loop of `cursor_pos` (editor.rs:353-380). -/
def visual (columns : Nat) : Nat × Nat → List Char → Nat × Nat
  | p, [] => p
  | (w, l), c :: cs =>
    if c = '\n' then visual columns (0, l + 1) cs
    else if 0 < columns ∧ columns < w + W c then visual columns (W c, l + 1) cs
    else visual columns (w + W c, l) cs

/-- `cursor_pos` (editor.rs:353-380). -/
def Input.cursorPos (s : Input) (columns prompt : Nat) : Option (Nat × Nat) :=
  if s.cursor = 0 then some (prompt, 0)
  else match s.byteIndex with
    | none => none
    | some b => (splitByte s.input b).map (fun x => visual W columns (prompt, 0) x.1)

/-- `line_count` (editor.rs:383-407). -/
def Input.lineCount (s : Input) (columns prompt : Nat) : Nat :=
  if s.input.isEmpty then 1 else (visual W columns (prompt, 1) s.input).2

/-- The editing operations. -/
inductive Op where
  | insert (c : Char) | insertStr (t : List Char) | replaceRange (a b : Nat) (t : List Char)
  | backspace | backspacen (n : Nat) | deleteChar | moveBy (d : Int)
  | deleteWordBackward | deleteToEnd | deleteToBeginning | moveWordLeft | moveWordRight
  | moveToBegin | moveToEnd | reset (t : List Char) | clear | click (x : Nat)
  | replaceCurrentWord (t : List Char)

/-- Performing an operation; `none` is a panic. -/
def Input.op (s : Input) : Op → Option Input
  | .insert c => s.insert W c
  | .insertStr t => s.insertStr W t
  | .replaceRange a b t => (s.replaceRange W a b t).map (·.1)
  | .backspace => s.backspace W
  | .backspacen n => s.backspacen W n
  | .deleteChar => s.deleteChar W
  | .moveBy d => some (s.moveBy d)
  | .deleteWordBackward => s.deleteWordBackward W
  | .deleteToEnd => s.deleteToEnd W
  | .deleteToBeginning => s.deleteToBeginning W
  | .moveWordLeft => s.moveWordLeft
  | .moveWordRight => some s.moveWordRight
  | .moveToBegin => some s.moveToBegin
  | .moveToEnd => some s.moveToEnd
  | .reset t => some (s.reset W t)
  | .clear => some s.clear
  | .click x => some (s.click W x)
  | .replaceCurrentWord t => (s.replaceCurrentWord W t).map (·.1)

/-- A sequence of operations. -/
def Input.ops (s : Input) : List Op → Option Input
  | [] => some s
  | o :: os => match s.op W o with
    | some s' => s'.ops os
    | none => none

end Dsh.Editor
