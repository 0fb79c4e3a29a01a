import Verif.Completion.Menu
/-!
# Where the menu draws its candidates

`dsh/src/completion/display.rs`: `calculate_layout`, `render_all_items`, `get_formatted_display`,
`truncate_to_width`.

Simplified: the width of a text is the sum of the widths of its characters (`unicode-width` joins some
sequences of emoji); the width of a character is a parameter. Colours and cursor movements are left out:
a row is the text printed in it.
-/
namespace Dsh.Pick

/-! ## Model -/

/-- `unicode_display_width` (display.rs:31-33). -/
def wide (W : Char → Nat) (s : Str) : Nat := (s.map W).sum

/-- The loop of `truncate_to_width` (display.rs:48-57). -/
def truncGo (W : Char → Nat) (max cur : Nat) : Str → Str
  | [] => []
  | c :: s => if max - 1 < cur + W c then ['…'] else c :: truncGo W max (cur + W c) s

/-- `truncate_to_width` (display.rs:36-60). -/
def truncate (W : Char → Nat) (s : Str) (max : Nat) : Str :=
  if max = 0 then [] else if wide W s ≤ max then s else truncGo W max 0 s

/-- A candidate as drawn: `get_type_char`, `get_display_name`, `get_description` (display.rs:738-799). -/
structure Item where
  icon : Char
  name : Str
  desc : Option Str := none
deriving DecidableEq, Repr

/-- `LayoutCache` (display.rs:105-112). -/
structure Layout where
  width : Nat
  column : Nat
  maxName : Nat
  perRow : Nat
  rows : Nat
deriving DecidableEq, Repr

/-- The width of icon, blank and name (display.rs:154). -/
def Item.nameWide (W : Char → Nat) (i : Item) : Nat := wide W i.name + W i.icon + 1

/-- `max_total_width` counts the description and two blanks as well (display.rs:148-156). -/
def Item.totalWide (W : Char → Nat) (i : Item) : Nat :=
  i.nameWide W + (match i.desc with | some d => wide W d + 2 | none => 0)

/-- The widest of the items. -/
def widest (f : Item → Nat) (items : List Item) : Nat := items.foldl (fun m i => max m (f i)) 0

/-- How many columns (display.rs:159-185). -/
def columns (total width n : Nat) : Nat := min (max 1 ((width - 4) / (max total 10 + 1 + 2))) (max n 1)

/-- `calculate_layout` (display.rs:140-211). -/
def layout (W : Char → Nat) (items : List Item) (width : Nat) : Layout :=
  let n := columns (widest (Item.totalWide W) items) width items.length
  ⟨width, max ((width - 4) - (n - 1) * 2) 1 / n, widest (Item.nameWide W) items, n, (items.length + n - 1) / n⟩

/-- `n` blanks. -/
def blanks (n : Nat) : Str := List.replicate n ' '

/-- `get_formatted_display` (display.rs:806-881): name and description. -/
def cell (W : Char → Nat) (i : Item) (width maxName : Nat) : Str :=
  let maxContent := width - (W i.icon + 1)
  let shown := if maxContent < wide W i.name then truncate W i.name maxContent else i.name
  let cur := W i.icon + 1 + wide W shown
  let pad := if 0 < maxName then min maxName width - cur else width - cur
  let name := i.icon :: ' ' :: (shown ++ blanks pad)
  let remaining := width - (cur + pad)
  match i.desc with
  | some d =>
    if 3 < remaining then
      let t := truncate W d (remaining - 2)
      name ++ (' ' :: ' ' :: (t ++ blanks (remaining - 2 - wide W t)))
    else name ++ blanks remaining
  | none => name ++ blanks remaining

/-- The columns drawn in a row (display.rs:471-494): up to the last candidate, and as long as the column
ends within the terminal. -/
def drawnCols (L : Layout) (n row : Nat) : List Nat :=
  (List.range L.perRow).takeWhile (fun c => decide (row * L.perRow + c < n) &&
    decide ((c + 1) * (L.column + 1) + c * 2 ≤ L.width))

/-- The numbers of the candidates drawn in a row. -/
def drawnIn (L : Layout) (n row : Nat) : List Nat := (drawnCols L n row).map (row * L.perRow + ·)

/-- All candidates drawn (display.rs:468). -/
def drawn (L : Layout) (n : Nat) : List Nat := (List.range L.rows).flatMap (drawnIn L n)

/-- One candidate with its mark (`render_item`, display.rs:544-596). The line about more candidates is
not one of these: it is printed as it is. -/
def drawItem (W : Char → Nat) (L : Layout) (marked : Bool) (i : Item) : Str :=
  (if marked then '>' else ' ') :: cell W i L.column L.maxName

/-! ## C119 -/

variable {W : Char → Nat}

theorem wide_append (a b : Str) : wide W (a ++ b) = wide W a + wide W b := by simp [wide]
theorem wide_cons (c : Char) (b : Str) : wide W (c :: b) = W c + wide W b := by simp [wide]
theorem wide_blanks (h : W ' ' = 1) (n : Nat) : wide W (blanks n) = n := by
  simp [wide, blanks, h]

theorem truncGo_wide (he : W '…' = 1) {max : Nat} (hm : 0 < max) (s : Str) :
    ∀ cur, cur ≤ max - 1 → cur + wide W (truncGo W max cur s) ≤ max := by
  induction s with
  | nil => intro cur h; simp [truncGo, wide]; omega
  | cons c s ih =>
    intro cur h
    unfold truncGo
    split
    · simp [wide, he]; omega
    · rw [wide_cons]
      have := ih (cur + W c) (by omega)
      omega

theorem truncate_wide (he : W '…' = 1) (s : Str) (max : Nat) : wide W (truncate W s max) ≤ max := by
  unfold truncate
  split
  · simp [wide]
  · split
    · assumption
    · have := truncGo_wide he (max := max) (by omega) s 0 (by omega)
      omega

/-- **C119, cells.** Every candidate takes exactly the width of its column, whatever its name and its
description, if the column has room for the icon and a blank. -/
theorem C119_cell_partial (hs : W ' ' = 1) (he : W '…' = 1) (i : Item) (width maxName : Nat) (hi : W i.icon + 1 ≤ width) :
    wide W (cell W i width maxName) = width := by
  unfold cell
  simp only
  generalize hsh : (if width - (W i.icon + 1) < wide W i.name then truncate W i.name (width - (W i.icon + 1)) else i.name) = sh
  have h1 : wide W sh ≤ width - (W i.icon + 1) := by
    rw [← hsh]; split
    · exact truncate_wide he _ _
    · omega
  generalize hp : (if 0 < maxName then min maxName width - (W i.icon + 1 + wide W sh) else width - (W i.icon + 1 + wide W sh)) = pad
  have h2 : W i.icon + 1 + wide W sh + pad ≤ width := by
    rw [← hp]; split <;> omega
  have hname : wide W (i.icon :: ' ' :: (sh ++ blanks pad)) = W i.icon + 1 + wide W sh + pad := by
    rw [wide_cons, wide_cons, wide_append, wide_blanks hs, hs]; omega
  have hrest : wide W (i.icon :: ' ' :: (sh ++ blanks pad) ++ blanks (width - (W i.icon + 1 + wide W sh + pad))) = width := by
    rw [wide_append, hname, wide_blanks hs]; omega
  cases i.desc with
  | none => exact hrest
  | some d =>
    simp only
    split
    · have := truncate_wide he d (width - (W i.icon + 1 + wide W sh + pad) - 2)
      rw [wide_append, hname, wide_cons, wide_cons, wide_append, wide_blanks hs, hs]
      omega
    · exact hrest

theorem takeWhile_range {p : Nat → Bool} {n c : Nat} : c ∈ (List.range n).takeWhile p ↔ c < n ∧ ∀ d ≤ c, p d = true := by
  have key : ∀ l : List Nat, l = List.range' (l.headD 0) l.length → ∀ c, c ∈ l.takeWhile p ↔
      c ∈ l ∧ ∀ d, l.headD 0 ≤ d → d ≤ c → p d = true := by
    intro l
    induction l with
    | nil => intro _ c; simp
    | cons a l ih =>
      intro hl c
      simp only [List.headD_cons, List.length_cons, List.range'_succ, List.cons.injEq, true_and] at hl
      by_cases ha : p a
      · rw [List.takeWhile_cons_of_pos ha]
        have hl' : l = List.range' (l.headD 0) l.length := by
          cases l with
          | nil => rfl
          | cons b l =>
            simp only [List.length_cons, List.range'_succ, List.cons.injEq] at hl
            simp only [List.headD_cons, List.length_cons, List.range'_succ, List.cons.injEq, true_and]
            rw [hl.1]; exact hl.2
        simp only [List.mem_cons, List.headD_cons]
        constructor
        · rintro (rfl | h)
          · exact ⟨.inl rfl, fun d h1 h2 => by rw [show d = c by omega]; exact ha⟩
          · obtain ⟨h1, h2⟩ := (ih hl' c).1 h
            refine ⟨.inr h1, fun d h3 h4 => ?_⟩
            by_cases hd : d = a
            · rw [hd]; exact ha
            · refine h2 d ?_ h4
              cases l with
              | nil => simp at h1
              | cons b l =>
                simp only [List.length_cons, List.range'_succ, List.cons.injEq] at hl
                simp only [List.headD_cons]; omega
        · rintro ⟨h1, h2⟩
          rcases h1 with rfl | h1
          · exact .inl rfl
          · refine .inr ((ih hl' c).2 ⟨h1, fun d h3 h4 => h2 d ?_ h4⟩)
            cases l with
            | nil => simp at h1
            | cons b l =>
              simp only [List.length_cons, List.range'_succ, List.cons.injEq] at hl
              simp only [List.headD_cons] at h3; omega
      · rw [List.takeWhile_cons_of_neg ha]
        simp only [List.not_mem_nil, false_iff, List.headD_cons, List.mem_cons]
        rintro ⟨h1, h2⟩
        have hac : a ≤ c := by
          rcases h1 with rfl | h1
          · exact Nat.le_refl _
          · rw [hl] at h1; simp [List.mem_range'] at h1; omega
        exact ha (h2 a (Nat.le_refl _) hac)
  cases n with
  | zero => simp
  | succ n =>
    have := key (List.range (n + 1)) (by rw [List.range_eq_range']; simp [List.range'_succ]) c
    rw [this]
    have h0 : (List.range (n + 1)).headD 0 = 0 := by rw [List.range_eq_range']; simp [List.range'_succ]
    rw [h0]
    simp

theorem mem_drawn {L : Layout} {n k : Nat} (hp : 0 < L.perRow) :
    k ∈ drawn L n ↔ k / L.perRow < L.rows ∧ k < n ∧
      (k % L.perRow + 1) * (L.column + 1) + k % L.perRow * 2 ≤ L.width := by
  unfold drawn drawnIn drawnCols
  simp only [List.mem_flatMap, List.mem_range, List.mem_map, takeWhile_range, Bool.and_eq_true, decide_eq_true_eq]
  constructor
  · rintro ⟨r, hr, c, ⟨hc, hall⟩, rfl⟩
    have e1 : (r * L.perRow + c) / L.perRow = r := by
      rw [Nat.mul_comm, Nat.mul_add_div hp, Nat.div_eq_of_lt hc, Nat.add_zero]
    have e2 : (r * L.perRow + c) % L.perRow = c := by
      rw [Nat.mul_comm, Nat.mul_add_mod, Nat.mod_eq_of_lt hc]
    rw [e1, e2]
    exact ⟨hr, (hall c (Nat.le_refl _)).1, (hall c (Nat.le_refl _)).2⟩
  · rintro ⟨h1, h2, h3⟩
    have hd := Nat.div_add_mod k L.perRow
    have hm := Nat.mul_comm (k / L.perRow) L.perRow
    refine ⟨k / L.perRow, h1, k % L.perRow, ⟨Nat.mod_lt _ hp, fun d hd' => ⟨by omega, ?_⟩⟩, by omega⟩
    have : (d + 1) * (L.column + 1) ≤ (k % L.perRow + 1) * (L.column + 1) := Nat.mul_le_mul_right _ (by omega)
    omega

/-- **C119, rows.** The mark and the cell of a candidate that is drawn end within the terminal. -/
theorem C119_fits_partial (L : Layout) (n k : Nat) (hp : 0 < L.perRow) (h : k ∈ drawn L n) :
    k % L.perRow * (L.column + 1 + 2) + (1 + L.column) ≤ L.width := by
  have := ((mem_drawn hp).1 h).2.2
  rw [Nat.add_mul] at this
  rw [Nat.mul_add (k % L.perRow) (L.column + 1) 2]
  omega

theorem columns_pos (t w n : Nat) : 0 < columns t w n := by unfold columns; omega

theorem layout_perRow (items : List Item) (w : Nat) : 0 < (layout W items w).perRow := columns_pos _ _ _

theorem rows_enough {n k p : Nat} (hp : 0 < p) (hk : k < n) : k / p < (n + p - 1) / p := by
  rw [Nat.div_lt_iff_lt_mul hp]
  have h2 : n + p - 1 < ((n + p - 1) / p + 1) * p := by
    rw [← Nat.div_lt_iff_lt_mul hp]; omega
  rw [Nat.add_mul] at h2
  omega

/-- **C119, up to four columns.** On a terminal of at least five columns, a menu of up to four columns
draws every candidate. -/
theorem C119_all_partial (items : List Item) (w : Nat) (hw : 5 ≤ w) (h4 : (layout W items w).perRow ≤ 4) (k : Nat)
    (hk : k < items.length) : k ∈ drawn (layout W items w) items.length := by
  have hp := layout_perRow (W := W) items w
  rw [mem_drawn hp]
  generalize hL : layout W items w = L at *
  have hn : L.perRow = columns (widest (Item.totalWide W) items) w items.length := by rw [← hL]; rfl
  have hc : L.column = max ((w - 4) - (L.perRow - 1) * 2) 1 / L.perRow := by rw [← hL]; rfl
  have hr : L.rows = (items.length + L.perRow - 1) / L.perRow := by rw [← hL]; rfl
  have hwd : L.width = w := by rw [← hL]; rfl
  have hbig : L.perRow = 1 ∨ L.perRow * 13 ≤ w - 4 := by
    rw [hn]; unfold columns
    generalize hq : (w - 4) / (max (widest (Item.totalWide W) items) 10 + 1 + 2) = q
    have hmul : q * 13 ≤ w - 4 := by
      rw [← hq]
      calc (w - 4) / (max (widest (Item.totalWide W) items) 10 + 1 + 2) * 13
          ≤ (w - 4) / (max (widest (Item.totalWide W) items) 10 + 1 + 2) * (max (widest (Item.totalWide W) items) 10 + 1 + 2) :=
            Nat.mul_le_mul_left _ (by omega)
        _ ≤ w - 4 := Nat.div_mul_le_self _ _
    omega
  have hcol : L.column * L.perRow ≤ max ((w - 4) - (L.perRow - 1) * 2) 1 := by
    rw [hc]; exact Nat.div_mul_le_self _ _
  refine ⟨by rw [hr]; exact rows_enough hp hk, hk, ?_⟩
  rw [hwd]
  have hm := Nat.mod_lt k hp
  have hb : (k % L.perRow + 1) * (L.column + 1) ≤ L.perRow * (L.column + 1) := Nat.mul_le_mul_right _ (by omega)
  rw [Nat.mul_add L.perRow, Nat.mul_comm L.perRow L.column] at hb
  omega

/-- The names of five files. -/
def few : List Item := [⟨'📄', c!"a", none⟩, ⟨'📄', c!"b", none⟩, ⟨'📄', c!"c", none⟩, ⟨'📄', c!"d", none⟩, ⟨'📄', c!"e", none⟩]

example : (layout (fun _ => 1) few 60).perRow = 4 := by decide

/-- **C119 fails: the last column.** If the columns, with a blank for the mark of each and two between
them, do not fit, no candidate of the last column is drawn, in any row. -/
theorem C119_last (L : Layout) (n k : Nat) (hp : 0 < L.perRow) (hw : L.width < L.perRow * (L.column + 1) + (L.perRow - 1) * 2)
    (hk : k % L.perRow = L.perRow - 1) : k ∉ drawn L n := by
  rw [mem_drawn hp, hk]
  rintro ⟨-, -, h⟩
  rw [Nat.sub_add_cancel hp] at h
  omega

/-- **C119 fails: 100 columns.** Seven or more candidates none of which is wider than ten cells, on a
terminal of 100 columns: there are to be seven columns, and every seventh candidate is not drawn. -/
theorem C119_hundred_violated (items : List Item) (hn : 7 ≤ items.length) (hw : widest (Item.totalWide W) items ≤ 10)
    (k : Nat) (hk : k % 7 = 6) :
    (layout W items 100).perRow = 7 ∧ k ∉ drawn (layout W items 100) items.length := by
  have h7 : columns (widest (Item.totalWide W) items) 100 items.length = 7 := by
    unfold columns
    rw [Nat.max_eq_right hw, show max 1 ((100 - 4) / (10 + 1 + 2)) = 7 from rfl]
    omega
  have hp : (layout W items 100).perRow = 7 := h7
  refine ⟨hp, C119_last _ _ _ (by omega) ?_ (by rw [hp]; exact hk)⟩
  rw [hp]
  have hc : (layout W items 100).column = 12 := by
    show max ((100 - 4) - (columns (widest (Item.totalWide W) items) 100 items.length - 1) * 2) 1 /
      columns (widest (Item.totalWide W) items) 100 items.length = 12
    rw [h7]; rfl
  rw [hc]; show 100 < _; decide

/-- The seventh candidate is not drawn, can be marked, and Enter chooses it. -/
theorem C119_marked_violated (names : List Str) (hl : names.length = 7) (max p : Nat) (hmax : 7 ≤ max)
    (hw : widest (Item.totalWide W) (names.map (⟨'📄', ·, none⟩)) ≤ 10) :
    6 ∉ drawn (layout W (names.map (⟨'📄', ·, none⟩)) 100) 7 ∧
    run (Menu.new max names p) (List.replicate 6 (.press .right .none, 7) ++ [(.press .enter .none, 7)]) =
      some (.submitted (names[6]'(by omega)), []) := by
  constructor
  · have := (C119_hundred_violated (W := W) (names.map (⟨'📄', ·, none⟩)) (by simp [hl]) hw 6 rfl).2
    simpa [hl] using this
  · refine C118_reach_partial max names p 7 .none 6 _ ?_ []
    rw [List.take_of_length_le (by omega)]
    simp [hl]

example : widest (Item.totalWide (fun _ => 1)) ([c!"a", c!"b", c!"c", c!"d", c!"e", c!"f", c!"g"].map (⟨'📄', ·, none⟩)) ≤ 10 ∧
    drawn (layout (fun _ => 1) ([c!"a", c!"b", c!"c", c!"d", c!"e", c!"f", c!"g"].map (⟨'📄', ·, none⟩)) 100) 7 =
      [0, 1, 2, 3, 4, 5] := by decide

end Dsh.Pick
