import Verif.Editor.Props
/-!
C58: where the caret is drawn, and how many lines are reserved.
-/
namespace Dsh.Editor

variable {W : Char → Nat}

/-! ### Specification: rows of a terminal -/

/-- `Rows W columns start text rows`: written from column `start` on a terminal of that width, the
text fills these rows: every row fits, and a row ends only at the end, at a newline, or where the
next character does not fit. -/
inductive Rows (W : Char → Nat) (columns : Nat) : Nat → List Char → List (List Char) → Prop
  | last {start r} : '\n' ∉ r → start + (r.map W).sum ≤ columns → Rows W columns start r [r]
  | newline {start r t rows} : '\n' ∉ r → start + (r.map W).sum ≤ columns → Rows W columns 0 t rows →
      Rows W columns start (r ++ '\n' :: t) (r :: rows)
  | wrap {start r c t rows} : '\n' ∉ r → start + (r.map W).sum ≤ columns → c ≠ '\n' →
      columns < start + (r.map W).sum + W c → Rows W columns 0 (c :: t) rows →
      Rows W columns start (r ++ c :: t) (r :: rows)

/-- The column after the last row. -/
def endColumn (W : Char → Nat) (start : Nat) : List (List Char) → Nat
  | [] => start
  | [r] => start + (r.map W).sum
  | _ :: r :: rows => endColumn W 0 (r :: rows)

/-- There is at least one row. -/
theorem Rows.ne_nil {columns start : Nat} {t : List Char} {rows : List (List Char)}
    (h : Rows W columns start t rows) : rows ≠ [] := by
  cases h <;> simp

/-- One more character in front, on the same row. -/
theorem Rows.cons {columns start : Nat} {c : Char} {t : List Char} {rows : List (List Char)}
    (h : Rows W columns (start + W c) t rows) (hc : c ≠ '\n') :
    ∃ r rest, rows = r :: rest ∧ Rows W columns start (c :: t) ((c :: r) :: rest) := by
  generalize hk : start + W c = k at h
  have hc' : ¬ '\n' = c := fun e => hc e.symm
  cases h with
  | last h1 h2 =>
    exact ⟨_, _, rfl, .last (by simp [h1, hc']) (by simp; omega)⟩
  | @newline _ r t' _ h1 h2 h3 =>
    exact ⟨_, _, rfl, .newline (r := c :: r) (by simp [h1, hc']) (by simp; omega) h3⟩
  | @wrap _ r d t' _ h1 h2 h3 h4 h5 =>
    exact ⟨_, _, rfl, .wrap (r := c :: r) (by simp [h1, hc']) (by simp; omega) h3 (by simp; omega) h5⟩

/-- The loop computes the rows. -/
theorem visual_rows {columns : Nat} (hpos : 0 < columns) (t : List Char) (hw : ∀ c ∈ t, W c ≤ columns) :
    ∀ (start l : Nat), start ≤ columns → ∃ rows, Rows W columns start t rows ∧
      visual W columns (start, l) t = (endColumn W start rows, l + (rows.length - 1)) := by
  induction t with
  | nil => intro start l hs; exact ⟨[[]], .last (by simp) (by simpa), by simp [visual, endColumn]⟩
  | cons c t ih =>
    intro start l hs
    have hw' : ∀ c ∈ t, W c ≤ columns := fun d hd => hw d (List.mem_cons_of_mem _ hd)
    have hwc := hw c List.mem_cons_self
    unfold visual
    by_cases hc : c = '\n'
    · subst hc
      obtain ⟨rows, h1, h2⟩ := ih hw' 0 (l + 1) (Nat.zero_le _)
      refine ⟨[] :: rows, ?_, ?_⟩
      · exact .newline (r := []) (by simp) (by simpa) h1
      · rw [if_pos rfl, h2]
        have := h1.ne_nil
        cases rows with
        | nil => exact absurd rfl this
        | cons r rs => simp only [endColumn, List.length_cons]; congr 1; omega
    · rw [if_neg hc]
      by_cases ho : columns < start + W c
      · rw [if_pos ⟨hpos, ho⟩]
        obtain ⟨rows, h1, h2⟩ := ih hw' (W c) (l + 1) hwc
        have h1' : Rows W columns (0 + W c) t rows := by rw [Nat.zero_add]; exact h1
        obtain ⟨r, rest, e, h3⟩ := h1'.cons hc
        refine ⟨[] :: (c :: r) :: rest, ?_, ?_⟩
        · exact .wrap (r := []) (by simp) (by simpa) hc (by simpa using ho) h3
        · rw [h2, e]
          cases rest with
          | nil => simp [endColumn]
          | cons r2 rest => simp only [endColumn, List.length_cons]; congr 1; omega
      · rw [if_neg (fun h => ho h.2)]
        obtain ⟨rows, h1, h2⟩ := ih hw' (start + W c) l (by omega)
        obtain ⟨r, rest, e, h3⟩ := h1.cons hc
        refine ⟨(c :: r) :: rest, h3, ?_⟩
        rw [h2, e]
        cases rest with
        | nil => simp [endColumn]; omega
        | cons r2 rest => simp only [endColumn, List.length_cons]

/-- The position never lies outside the terminal. -/
theorem Rows.end_le {columns start : Nat} {t : List Char} {rows : List (List Char)}
    (h : Rows W columns start t rows) : endColumn W start rows ≤ columns := by
  induction h with
  | last h1 h2 => exact h2
  | @newline _ _ _ rows _ _ h ih =>
    cases rows with
    | nil => exact absurd rfl h.ne_nil
    | cons r rs => exact ih
  | @wrap _ _ _ _ rows _ _ _ _ h ih =>
    cases rows with
    | nil => exact absurd rfl h.ne_nil
    | cons r rs => exact ih

/-- Splitting at the first character not in a row. -/
theorem split_unique {columns start : Nat} {r r' : List Char} {t t' : List Char}
    (h : r ++ t = r' ++ t') (hn : '\n' ∉ r) (hf : start + (r.map W).sum ≤ columns)
    (hn' : '\n' ∉ r') (hf' : start + (r'.map W).sum ≤ columns)
    (ht : t = [] ∨ ∃ c u, t = c :: u ∧ (c = '\n' ∨ columns < start + (r.map W).sum + W c))
    (ht' : t' = [] ∨ ∃ c u, t' = c :: u ∧ (c = '\n' ∨ columns < start + (r'.map W).sum + W c)) :
    r = r' ∧ t = t' := by
  induction r generalizing start r' with
  | nil =>
    cases r' with
    | nil => exact ⟨rfl, h⟩
    | cons d r' =>
      exfalso
      rcases ht with rfl | ⟨c, u, rfl, hc⟩
      · simp at h
      · simp only [List.nil_append, List.cons_append, List.cons.injEq] at h
        obtain ⟨rfl, _⟩ := h
        rcases hc with rfl | hc
        · simp at hn'
        · simp at hc hf'; omega
  | cons c r ih =>
    cases r' with
    | nil =>
      exfalso
      rcases ht' with rfl | ⟨d, u, rfl, hc⟩
      · simp at h
      · simp only [List.nil_append, List.cons_append, List.cons.injEq] at h
        obtain ⟨rfl, _⟩ := h
        rcases hc with rfl | hc
        · simp at hn
        · simp at hc hf; omega
    | cons d r' =>
      simp only [List.cons_append, List.cons.injEq] at h
      obtain ⟨rfl, h⟩ := h
      simp only [List.mem_cons, not_or, List.map_cons, List.sum_cons] at hn hn' hf hf' ht ht'
      obtain ⟨rfl, rfl⟩ := ih (start := start + W c) h hn.2 (by omega) hn'.2 (by omega)
        (by simpa [Nat.add_assoc] using ht) (by simpa [Nat.add_assoc] using ht')
      exact ⟨rfl, rfl⟩

/-- The rows are determined by the text. -/
theorem Rows.unique {columns start : Nat} {t : List Char} {rows rows' : List (List Char)}
    (h : Rows W columns start t rows) (h' : Rows W columns start t rows') : rows = rows' := by
  induction h generalizing rows' with
  | @last start r h1 h2 =>
    generalize ht : r = t at h'
    cases h' with
    | last => subst ht; rfl
    | @newline _ r' t' _ a b c =>
      have := (split_unique (r := r) (t := []) (by simpa using ht) h1 h2 a b (.inl rfl) (.inr ⟨_, _, rfl, .inl rfl⟩)).2
      simp at this
    | @wrap _ r' d t' _ a b c e f =>
      have := (split_unique (r := r) (t := []) (by simpa using ht) h1 h2 a b (.inl rfl) (.inr ⟨_, _, rfl, .inr e⟩)).2
      simp at this
  | @newline start r t0 rows0 h1 h2 h3 ih =>
    generalize ht : r ++ '\n' :: t0 = t at h'
    cases h' with
    | last a b =>
      have := (split_unique (t' := []) (by simpa using ht) h1 h2 a b (.inr ⟨_, _, rfl, .inl rfl⟩) (.inl rfl)).2
      simp at this
    | @newline _ r' t' _ a b c =>
      obtain ⟨rfl, e⟩ := split_unique ht h1 h2 a b (.inr ⟨_, _, rfl, .inl rfl⟩) (.inr ⟨_, _, rfl, .inl rfl⟩)
      simp only [List.cons.injEq, true_and] at e
      subst e
      rw [ih c]
    | @wrap _ r' d t' _ a b c e f =>
      have := (split_unique ht h1 h2 a b (.inr ⟨_, _, rfl, .inl rfl⟩) (.inr ⟨_, _, rfl, .inr e⟩)).2
      simp only [List.cons.injEq] at this
      exact absurd this.1.symm c
  | @wrap start r d0 t0 rows0 h1 h2 h3 h4 h5 ih =>
    generalize ht : r ++ d0 :: t0 = t at h'
    cases h' with
    | last a b =>
      have := (split_unique (t' := []) (by simpa using ht) h1 h2 a b (.inr ⟨_, _, rfl, .inr h4⟩) (.inl rfl)).2
      simp at this
    | @newline _ r' t' _ a b c =>
      have := (split_unique ht h1 h2 a b (.inr ⟨_, _, rfl, .inr h4⟩) (.inr ⟨_, _, rfl, .inl rfl⟩)).2
      simp only [List.cons.injEq] at this
      exact absurd this.1 h3
    | @wrap _ r' d t' _ a b c e f =>
      obtain ⟨rfl, e'⟩ := split_unique ht h1 h2 a b (.inr ⟨_, _, rfl, .inr h4⟩) (.inr ⟨_, _, rfl, .inr e⟩)
      simp only [List.cons.injEq] at e'
      obtain ⟨rfl, rfl⟩ := e'
      rw [ih f]

/-! ### C58 -/

/-- **C58, caret.** After any editing, on a terminal into which the prompt and each character fit,
the caret is drawn at the end of the rows filled by the text before it, and within the terminal.
Missing from the full property: a prompt wider than the terminal. -/
theorem C58_caret_partial (os : List Op) (s : Input) (hs : ({} : Input).ops W os = some s)
    (columns prompt : Nat) (hpos : 0 < columns) (hp : prompt ≤ columns) (hw : ∀ c ∈ s.input, W c ≤ columns)
    (rows : List (List Char)) :
    Rows W columns prompt (s.input.take s.cursor) rows →
      s.cursorPos W columns prompt = some (endColumn W prompt rows, rows.length - 1) ∧
      endColumn W prompt rows ≤ columns := by
  intro hr
  obtain ⟨rows', h1, h2⟩ := visual_rows (W := W) hpos (s.input.take s.cursor)
    (fun c hc => hw c (List.mem_of_mem_take hc)) prompt 0 hp
  rw [(C01_queries W os s hs).2.1, h2, Nat.zero_add, h1.unique hr]
  exact ⟨rfl, hr.end_le⟩

/-- **C58, lines.** The number of lines reserved for the text is the number of rows it fills. -/
theorem C58_lines_partial (s : Input) (columns prompt : Nat) (hpos : 0 < columns) (hp : prompt ≤ columns)
    (hw : ∀ c ∈ s.input, W c ≤ columns) (rows : List (List Char)) :
    Rows W columns prompt s.input rows → s.lineCount W columns prompt = rows.length := by
  intro hr
  obtain ⟨rows', h1, h2⟩ := visual_rows (W := W) hpos s.input hw prompt 1 hp
  have hl := List.length_pos_iff.2 hr.ne_nil
  unfold Input.lineCount
  split
  · next he =>
    rw [List.isEmpty_iff.1 he] at hr
    generalize ht : ([] : List Char) = t at hr
    cases hr with
    | last => rfl
    | newline => simp at ht
    | wrap => simp at ht
  · rw [h2, h1.unique hr]; simp; omega

/-- Such rows exist for every text, so the two theorems speak about every reachable state. -/
theorem C58_rows_exist (t : List Char) (columns start : Nat) (hpos : 0 < columns) (hp : start ≤ columns)
    (hw : ∀ c ∈ t, W c ≤ columns) : ∃ rows, Rows W columns start t rows :=
  (visual_rows hpos t hw start 0 hp).imp fun _ h => h.1

/-- A text over three rows: one break for width, one newline. -/
example : Rows (fun c => if c = '日' then 2 else 1) 4 1 c!"ab日c\nd" [c!"ab", c!"日c", c!"d"] :=
  .wrap (r := c!"ab") (by decide) (by decide) (by decide) (by decide)
    (.newline (r := c!"日c") (by decide) (by decide) (.last (by decide) (by decide)))

example : ∃ s, ({} : Input).ops (fun c => if c = '日' then 2 else 1) [.insertStr c!"ab日c\nd"] = some s ∧
    s.cursorPos (fun c => if c = '日' then 2 else 1) 4 1 = some (1, 2) := ⟨_, rfl, by decide⟩

end Dsh.Editor
