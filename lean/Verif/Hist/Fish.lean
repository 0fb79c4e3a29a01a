import Verif.Lisp.RoundTrip
import Verif.Env.Direnv
/-!
Importing the history of fish (dsh/src/history_import.rs): C46.

The file is a UTF-8 text; the clock is a number for each command stored so far.
-/
namespace Dsh.Fish

abbrev Str := List Char

/-! ### Model -/

/-- `str::parse::<i64>`. -/
def parseI64 : Str → Option Int
  | '+' :: ds => if ds.head? = some '-' then none else Lisp.parseInt ds
  | s => Lisp.parseInt s

/-- The variables of the loop (history_import.rs:61-66). -/
structure St where
  inBlock : Bool
  cur : Str
  out : List (Str × Int)

/-- One line (history_import.rs:82-106). -/
def line (now : Nat → Int) (s : St) (l : Str) : St :=
  let t := trim l
  if (c!"- cmd:").isPrefixOf t then
    let s := if s.inBlock && !s.cur.isEmpty then { s with out := s.out ++ [(s.cur, now s.out.length)] } else s
    { s with cur := trim (t.drop 6), inBlock := true }
  else if (c!"when:").isPrefixOf t && s.inBlock then
    let w := (parseI64 (trim (t.drop 5))).getD (now s.out.length)
    let s := if s.cur.isEmpty then s else { s with out := s.out ++ [(s.cur, w)], cur := [] }
    { s with inBlock := false }
  else s

/-- `import` (history_import.rs:45-124): the commands handed to the history, oldest first. -/
def importFish (now : Nat → Int) (text : Str) : List (Str × Int) :=
  let s := (Env.splitOn '\n' text).foldl (line now) ⟨false, [], []⟩
  if s.inBlock && !s.cur.isEmpty then s.out ++ [(s.cur, now s.out.length)] else s.out

/-! ### Specification: how fish writes its history -/

/-- A command of the history of fish. -/
structure Item where
  cmd : Str
  time : Int
  paths : List Str

/-- fish writes a backslash as two and a line break as a backslash and an `n`. -/
def escape : Str → Str
  | [] => []
  | '\\' :: s => '\\' :: '\\' :: escape s
  | '\n' :: s => '\\' :: 'n' :: escape s
  | c :: s => c :: escape s

/-- One command in the file: its text, its time and, if there are any, the files it mentions. -/
def Item.lines (i : Item) : List Str :=
  [c!"- cmd: " ++ escape i.cmd, c!"  when: " ++ Lisp.intText i.time] ++
    (if i.paths = [] then [] else c!"  paths:" :: i.paths.map fun p => c!"    - " ++ escape p)

/-- The file. -/
def fishFile (l : List Item) : Str := (l.flatMap Item.lines).flatMap fun x => x ++ ['\n']

/-! ### What is imported -/

theorem escape_no_newline (s : Str) : '\n' ∉ escape s := by
  induction s using escape.induct with
  | case1 => simp [escape]
  | case2 s ih => simp [escape, ih]
  | case3 s ih => simp [escape, ih]
  | case4 c s h1 h2 ih =>
    rw [escape]
    · simp only [List.mem_cons, not_or]
      exact ⟨fun h => h2 h.symm, ih⟩
    · exact h1
    · exact h2

theorem escape_id {s : Str} (h1 : '\\' ∉ s) (h2 : '\n' ∉ s) : escape s = s := by
  induction s using escape.induct with
  | case1 => rfl
  | case2 s ih => simp at h1
  | case3 s ih => simp at h2
  | case4 c s h3 h4 ih =>
    rw [escape]
    · rw [ih (fun h => h1 (by simp [h])) (fun h => h2 (by simp [h]))]
    · exact h3
    · exact h4

theorem count_escape (s : Str) : (escape s).count '\\' = 2 * s.count '\\' + s.count '\n' := by
  induction s using escape.induct with
  | case1 => rfl
  | case2 s ih => simp [escape, ih]; omega
  | case3 s ih => simp [escape, ih]; omega
  | case4 c s h1 h2 ih =>
    have hc1 : ('\\' == c) = false := by simpa using fun h => h1 h.symm
    have hc : c ≠ '\\' := h1
    have hc2 : c ≠ '\n' := h2
    rw [escape]
    · rw [List.count_cons_of_ne hc, List.count_cons_of_ne hc, List.count_cons_of_ne hc2, ih]
    · exact h1
    · exact h2

theorem count_dropWhile (c : Char) (hc : rustWhitespace c = false) (s : Str) : (s.dropWhile rustWhitespace).count c = s.count c := by
  induction s with
  | nil => rfl
  | cons a s ih =>
    rw [List.dropWhile_cons]
    split
    · next ha =>
      have : a ≠ c := fun h => by rw [h, hc] at ha; simp at ha
      rw [ih, List.count_cons_of_ne this]
    · rfl

theorem count_trim (c : Char) (hc : rustWhitespace c = false) (s : Str) : (trim s).count c = s.count c := by
  rw [trim, trimEnd, List.count_reverse, count_dropWhile c hc, List.count_reverse, trimStart, count_dropWhile c hc]

theorem trimEnd_cons (c : Char) (y : Str) :
    trimEnd (c :: y) = if trimEnd y = [] ∧ rustWhitespace c = true then [] else c :: trimEnd y := by
  have h1 : trimEnd (c :: y) = (List.dropWhile rustWhitespace (y.reverse ++ [c])).reverse := by
    rw [trimEnd, List.reverse_cons]
  rw [h1, List.dropWhile_append]
  by_cases h : y.reverse.dropWhile rustWhitespace = []
  · have h2 : trimEnd y = [] := by rw [trimEnd, h]; rfl
    rw [h2, h]
    by_cases hc : rustWhitespace c = true
    · simp [hc]
    · simp [hc]
  · have h2 : ¬ trimEnd y = [] := by rw [trimEnd]; simpa using h
    rw [if_neg (by simpa using h), if_neg (fun h' => h2 h'.1), trimEnd]
    simp

theorem trimStart_trimEnd (y : Str) : trimStart (trimEnd y) = trimEnd (trimStart y) := by
  induction y with
  | nil => rfl
  | cons c y ih =>
    by_cases hc : rustWhitespace c = true
    · have h1 : trimStart (c :: y) = trimStart y := by simp [trimStart, hc]
      rw [h1, trimEnd_cons]
      split
      · next h => rw [← ih, h.1]
      · have h2 : trimStart (c :: trimEnd y) = trimStart (trimEnd y) := by simp [trimStart, hc]
        rw [h2, ih]
    · have h1 : trimStart (c :: y) = c :: y := by simp [trimStart, hc]
      rw [h1, trimEnd_cons, if_neg (fun h => hc h.2)]
      simp [trimStart, hc]

theorem trimEnd_idem (y : Str) : trimEnd (trimEnd y) = trimEnd y := by
  induction y with
  | nil => rfl
  | cons c y ih =>
    rw [trimEnd_cons]
    split
    · rfl
    · next h => rw [trimEnd_cons, ih, if_neg h]

theorem trim_trimEnd (y : Str) : trim (trimEnd y) = trim y := by
  rw [trim, trimStart_trimEnd, trimEnd_idem, trim]

theorem trim_space (y : Str) : trim (' ' :: y) = trim y := rfl

/-- White space is only cut behind a word that ends visibly. -/
theorem trimEnd_behind {p : Str} {c : Char} (hc : rustWhitespace c = false) (y : Str) :
    trimEnd (p ++ c :: y) = p ++ c :: trimEnd y := by
  induction p with
  | nil => rw [List.nil_append, trimEnd_cons, if_neg (by simp [hc])]; rfl
  | cons a p ih => rw [List.cons_append, trimEnd_cons, ih, if_neg (by simp)]; rfl

theorem line_cmd (now : Nat → Int) (out : List (Str × Int)) (x : Str) :
    line now ⟨false, [], out⟩ (c!"- cmd: " ++ x) = ⟨true, trim x, out⟩ := by
  have h : trim (c!"- cmd: " ++ x) = c!"- cmd:" ++ trimEnd (' ' :: x) := by
    have h1 : trimStart (c!"- cmd: " ++ x) = c!"- cmd: " ++ x := by
      show List.dropWhile rustWhitespace ('-' :: _) = _
      rw [List.dropWhile_cons, if_neg (by decide)]
      rfl
    rw [trim, h1]
    exact trimEnd_behind (p := c!"- cmd") (c := ':') (by decide) (' ' :: x)
  simp only [line, h]
  rw [if_pos (List.isPrefixOf_iff_prefix.2 (List.prefix_append _ _))]
  have h2 : List.drop 6 (c!"- cmd:" ++ trimEnd (' ' :: x)) = trimEnd (' ' :: x) := rfl
  rw [h2, trim_trimEnd, trim_space]
  rfl

/-- The range of a time. -/
def I64 (i : Int) : Prop := -(2 ^ 63 : Int) ≤ i ∧ i < (2 ^ 63 : Int)

theorem intText_chars (i : Int) : ∀ c ∈ Lisp.intText i, c = '-' ∨ c.isDigit = true := by
  intro c hc
  have hd := Lisp.natText_digits (i.natAbs + 1) i.natAbs
  rw [List.all_eq_true] at hd
  unfold Lisp.intText at hc
  split at hc
  · rcases List.mem_cons.1 hc with h | h
    · exact .inl h
    · exact .inr (hd c h)
  · exact .inr (hd c hc)

theorem intText_no_ws (i : Int) : ∀ c ∈ Lisp.intText i, rustWhitespace c = false := by
  intro c hc
  rcases intText_chars i c hc with rfl | h
  · decide
  · exact Env.upper_not_ws (.inr (.inl h))

theorem parseI64_intText {i : Int} (h : I64 i) : parseI64 (Lisp.intText i) = some i := by
  have hi : Lisp.inRange i = true := by simpa [Lisp.inRange, I64] using h
  have hd := Lisp.natText_digits (i.natAbs + 1) i.natAbs
  have hne := Lisp.natText_ne (f := i.natAbs + 1) (n := i.natAbs) (by omega)
  have hv := Lisp.natOf_natText (f := i.natAbs + 1) (n := i.natAbs) (by omega)
  have h0 : parseI64 (Lisp.intText i) = Lisp.parseInt (Lisp.intText i) := by
    unfold parseI64
    split
    · next ds hs =>
      exact absurd (intText_chars i '+' (by rw [hs]; simp)) (by decide)
    · rfl
  rw [h0]
  unfold Lisp.intText
  split
  · next hneg =>
    have hz : Lisp.signed true (Lisp.natOf (Lisp.natText (i.natAbs + 1) i.natAbs)) = i := by
      rw [hv]; simp [Lisp.signed]; omega
    unfold Lisp.parseInt
    simp only []
    rw [hz, hi, hd]
    simp [hne]
  · next hneg =>
    have hz : ((Lisp.natOf (Lisp.natText (i.natAbs + 1) i.natAbs) : Nat) : Int) = i := by rw [hv]; omega
    rw [Lisp.parseInt_digits hd hne (by rw [hz]; exact hi), hz]

theorem line_when (now : Nat → Int) (cur : Str) (out : List (Str × Int)) {i : Int} (h : I64 i) :
    line now ⟨true, cur, out⟩ (c!"  when: " ++ Lisp.intText i) =
      ⟨false, [], out ++ if cur = [] then [] else [(cur, i)]⟩ := by
  have hw := intText_no_ws i
  have he : trimEnd (Lisp.intText i) = Lisp.intText i := by
    simpa using Env.trimEnd_append (a := Lisp.intText i) (v := []) hw rfl
  have hne : Lisp.intText i ≠ [] := by
    have := Lisp.natText_ne (f := i.natAbs + 1) (n := i.natAbs) (by omega)
    unfold Lisp.intText
    split
    · simp
    · exact this
  have ht : trim (c!"  when: " ++ Lisp.intText i) = c!"when:" ++ (' ' :: Lisp.intText i) := by
    have h1 : trimStart (c!"  when: " ++ Lisp.intText i) = c!"when: " ++ Lisp.intText i := rfl
    have h2 := trimEnd_behind (p := c!"when") (c := ':') (by decide) (' ' :: Lisp.intText i)
    rw [trimEnd_cons ' ', he, if_neg (fun h => hne h.1)] at h2
    rw [trim, h1]
    exact h2
  have htr : trim (' ' :: Lisp.intText i) = Lisp.intText i := by
    rw [trim_space, trim, Env.trimStart_id hw, he]
  simp only [line, ht]
  rw [if_neg (by simp), if_pos]
  · have h3 : List.drop 5 (c!"when:" ++ (' ' :: Lisp.intText i)) = ' ' :: Lisp.intText i := rfl
    rw [h3, htr, parseI64_intText h]
    cases cur with
    | nil => simp
    | cons c t => simp
  · rw [Bool.and_eq_true]
    exact ⟨List.isPrefixOf_iff_prefix.2 (List.prefix_append _ _), rfl⟩

theorem line_other (now : Nat → Int) (s : St) {l : Str} (hs : s.inBlock = false) (h : (c!"- cmd:").isPrefixOf (trim l) = false) :
    line now s l = s := by
  simp only [line, h]
  rw [hs]
  simp

theorem escape_cmd {p : Str} (h : c!"cmd:" <+: escape p) : c!"cmd:" <+: p := by
  have step : ∀ (a : Char) (w p : Str), a ≠ '\\' → a :: w <+: escape p → ∃ q, p = a :: q ∧ w <+: escape q := by
    intro a w p ha hp
    match p with
    | [] => simp [escape] at hp
    | '\\' :: q =>
      rw [escape] at hp
      exact absurd (List.cons_prefix_cons.1 hp).1 ha
    | '\n' :: q =>
      rw [escape] at hp
      exact absurd (List.cons_prefix_cons.1 hp).1 ha
    | c :: q =>
      by_cases h1 : c = '\\'
      · subst h1
        rw [escape] at hp
        exact absurd (List.cons_prefix_cons.1 hp).1 ha
      by_cases h2 : c = '\n'
      · subst h2
        rw [escape] at hp
        exact absurd (List.cons_prefix_cons.1 hp).1 ha
      rw [escape] at hp
      · obtain ⟨h3, h4⟩ := List.cons_prefix_cons.1 hp
        exact ⟨q, by rw [h3], h4⟩
      · exact h1
      · exact h2
  obtain ⟨q1, rfl, h1⟩ := step _ _ _ (by decide) h
  obtain ⟨q2, rfl, h2⟩ := step _ _ _ (by decide) h1
  obtain ⟨q3, rfl, h3⟩ := step _ _ _ (by decide) h2
  obtain ⟨q4, rfl, h4⟩ := step _ _ _ (by decide) h3
  exact ⟨q4, rfl⟩

theorem line_path (now : Nat → Int) (s : St) {p : Str} (hs : s.inBlock = false) (h : ¬ c!"cmd:" <+: p) :
    line now s (c!"    - " ++ escape p) = s := by
  refine line_other now s hs ?_
  have h1 : trimStart (c!"    - " ++ escape p) = c!"- " ++ escape p := rfl
  have h2 := trimEnd_behind (p := []) (c := '-') (by decide) (' ' :: escape p)
  rw [trim, h1, Bool.eq_false_iff]
  intro hp
  have h3 := List.isPrefixOf_iff_prefix.1 hp
  rw [show trimEnd (c!"- " ++ escape p) = '-' :: trimEnd (' ' :: escape p) from h2, List.cons_prefix_cons] at h3
  have h4 := h3.2
  have h5 : trimEnd (' ' :: escape p) <+: ' ' :: escape p := by
    have : ∀ y : Str, trimEnd y <+: y := by
      intro y
      rw [trimEnd, ← List.reverse_suffix, List.reverse_reverse]
      exact List.dropWhile_suffix _
    exact this _
  have h6 := (List.cons_prefix_cons.1 (h4.trans h5)).2
  exact h (escape_cmd h6)

/-- What is handed on of a command. -/
def taken (i : Item) : Option (Str × Int) :=
  if trim (escape i.cmd) = [] then none else some (trim (escape i.cmd), i.time)

/-- The items of files written by fish: times of 64 bits, and no file whose name starts with
`cmd:`. -/
def Item.Ok (i : Item) : Prop := I64 i.time ∧ ∀ p ∈ i.paths, ¬ c!"cmd:" <+: p

theorem fold_item (now : Nat → Int) (out : List (Str × Int)) {i : Item} (h : i.Ok) :
    i.lines.foldl (line now) ⟨false, [], out⟩ = ⟨false, [], out ++ (taken i).toList⟩ := by
  have hp : ∀ (ps : List Str) (s : St), s.inBlock = false → (∀ p ∈ ps, ¬ c!"cmd:" <+: p) →
      (ps.map fun p => c!"    - " ++ escape p).foldl (line now) s = s := by
    intro ps
    induction ps with
    | nil => intros; rfl
    | cons p ps ih =>
      intro s hs hps
      rw [List.map_cons, List.foldl_cons, line_path now s hs (hps p (by simp))]
      exact ih s hs fun q hq => hps q (by simp [hq])
  simp only [Item.lines, List.foldl_append, List.foldl_cons, List.foldl_nil, line_cmd, line_when now _ _ h.1]
  have ht : (if trim (escape i.cmd) = [] then [] else [(trim (escape i.cmd), i.time)]) = (taken i).toList := by
    rw [taken]; split <;> rfl
  rw [ht]
  split
  · rfl
  · rw [List.foldl_cons, line_other now _ rfl (by decide)]
    exact hp i.paths _ rfl h.2

theorem splitOn_lines {l : List Str} (h : ∀ x ∈ l, '\n' ∉ x) : Env.splitOn '\n' (l.flatMap fun x => x ++ ['\n']) = l ++ [[]] := by
  induction l with
  | nil => rfl
  | cons x l ih =>
    simp only [List.flatMap_cons, List.append_assoc, List.cons_append, List.nil_append]
    rw [Env.splitOn_append x _ (h x (by simp)), ih fun y hy => h y (by simp [hy])]

theorem item_no_newline (i : Item) : ∀ x ∈ i.lines, '\n' ∉ x := by
  intro x hx
  simp only [Item.lines, List.mem_append, List.mem_cons, List.not_mem_nil, or_false] at hx
  rcases hx with (rfl | rfl) | hx
  · simp [escape_no_newline]
  · intro hm
    rcases List.mem_append.1 hm with hm | hm
    · revert hm; decide
    · rcases intText_chars i.time _ hm with h | h <;> revert h <;> decide
  · split at hx
    · simp at hx
    · rcases List.mem_cons.1 hx with rfl | hx
      · decide
      · obtain ⟨p, _, rfl⟩ := List.mem_map.1 hx
        simp [escape_no_newline]

/-- Everything that is imported, for all files fish writes. -/
theorem import_all (now : Nat → Int) (l : List Item) (h : ∀ i ∈ l, i.Ok) :
    importFish now (fishFile l) = l.filterMap taken := by
  have hnl : ∀ x ∈ l.flatMap Item.lines, '\n' ∉ x := by
    intro x hx
    obtain ⟨i, _, hi⟩ := List.mem_flatMap.1 hx
    exact item_no_newline i x hi
  have key : ∀ (l : List Item) (out : List (Str × Int)), (∀ i ∈ l, i.Ok) →
      (l.flatMap Item.lines).foldl (line now) ⟨false, [], out⟩ = ⟨false, [], out ++ l.filterMap taken⟩ := by
    intro l
    induction l with
    | nil => intro out _; simp
    | cons i l ih =>
      intro out h
      rw [List.flatMap_cons, List.foldl_append, fold_item now out (h i (by simp)), ih _ fun j hj => h j (by simp [hj])]
      cases ht : taken i with
      | none => simp [ht]
      | some t => simp [ht]
  have hf : (Env.splitOn '\n' (fishFile l)).foldl (line now) ⟨false, [], []⟩ = ⟨false, [], l.filterMap taken⟩ := by
    rw [fishFile, splitOn_lines hnl, List.foldl_append, key l [] h]
    rw [List.foldl_cons, List.foldl_nil, line_other now _ rfl (by decide)]
    simp
  unfold importFish
  rw [hf]
  rfl

/-- C46, what holds: the import of any history of fish yields every command that is not blank, in
order and with its time; and the text is that of the command if it contains no backslash, no line
break and no white space at its ends. -/
theorem C46_import_partial (now : Nat → Int) (l : List Item) (h : ∀ i ∈ l, i.Ok)
    (hc : ∀ i ∈ l, '\\' ∉ i.cmd ∧ '\n' ∉ i.cmd ∧ trim i.cmd = i.cmd ∧ i.cmd ≠ []) :
    importFish now (fishFile l) = l.map fun i => (i.cmd, i.time) := by
  rw [import_all now l h]
  induction l with
  | nil => rfl
  | cons i l ih =>
    obtain ⟨h1, h2, h3, h4⟩ := hc i (by simp)
    have ht : taken i = some (i.cmd, i.time) := by
      rw [taken, escape_id h1 h2, h3, if_neg h4]
    rw [List.filterMap_cons_some ht, ih (fun j hj => h j (by simp [hj])) (fun j hj => hc j (by simp [hj]))]
    rfl

/-- An example with files and a negative time. -/
def exItems : List Item := [⟨c!"git commit -m \"a: b\"", 1700000000, [c!"src/x.rs", c!"when: now"]⟩, ⟨c!"ls", -5, []⟩]

example : (∀ i ∈ exItems, i.Ok) ∧
    (∀ i ∈ exItems, '\\' ∉ i.cmd ∧ '\n' ∉ i.cmd ∧ trim i.cmd = i.cmd ∧ i.cmd ≠ []) ∧
    fishFile exItems = c!"- cmd: git commit -m \"a: b\"\n  when: 1700000000\n  paths:\n    - src/x.rs\n    - when: now\n- cmd: ls\n  when: -5\n" := by
  refine ⟨?_, by decide +kernel, by decide +kernel⟩
  simp only [Item.Ok, I64]
  decide +kernel

/-- C46, what does not hold: a command with a backslash or a line break is imported with a different
text, for all such commands and times; and a file that a command mentions becomes a command itself if
its name starts with `cmd:`. -/
theorem C46_violated :
    (∀ (now : Nat → Int) (i : Item), i.Ok → ('\\' ∈ i.cmd ∨ '\n' ∈ i.cmd) →
      ∀ r ∈ importFish now (fishFile [i]), r.1 ≠ i.cmd) ∧
    (∀ now, importFish now (fishFile [⟨c!"echo a\nb", 1, []⟩]) = [(c!"echo a\\nb", 1)]) ∧
    (∀ now : Nat → Int, importFish now (fishFile [⟨c!"cat cmd:x", 1, [c!"cmd:x"]⟩]) = [(c!"cat cmd:x", 1), (c!"x", now 1)]) := by
  refine ⟨?_, ?_, ?_⟩
  · intro now i hi hc r hr
    rw [import_all now [i] (by simpa using hi)] at hr
    have hr' : taken i = some r := by
      cases ht : taken i with
      | none => simp [ht] at hr
      | some t => simp [ht] at hr; rw [hr]
    rw [taken] at hr'
    split at hr'
    · simp at hr'
    · simp only [Option.some.injEq] at hr'
      subst hr'
      intro heq
      have h1 := congrArg (List.count '\\') heq
      dsimp only at h1
      rw [count_trim _ (by decide), count_escape] at h1
      rcases hc with hc | hc
      · have := List.count_pos_iff.2 hc
        omega
      · have := List.count_pos_iff.2 hc
        omega
  · intro now; rfl
  · intro now; rfl

end Dsh.Fish
