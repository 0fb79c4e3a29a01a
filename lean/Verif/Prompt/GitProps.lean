import Verif.Prompt.Git
/-!
C140: the git part of the prompt counts what git reports.
-/
namespace Dsh.Prm

/-! ### What git writes (`git status --porcelain=2 --branch`) -/

/-- The lines of the report, as git documents them. -/
inductive Line where
  | oid (s : Str)
  | head (s : Str)
  | upstream (s : Str)
  | ab (ahead behind : Nat)
  | changed (x y : Char) (rest : Str)
  | renamed (x y : Char) (rest : Str)
  | unmerged (x y : Char) (rest : Str)
  | untracked (path : Str)
  | ignored (path : Str)
deriving DecidableEq

def Line.text : Line → Str
  | .oid s => c!"# branch.oid " ++ s
  | .head s => c!"# branch.head " ++ s
  | .upstream s => c!"# branch.upstream " ++ s
  | .ab a b => c!"# branch.ab +" ++ Nat.toDigits 10 a ++ c!" -" ++ Nat.toDigits 10 b
  | .changed x y rest => '1' :: ' ' :: x :: y :: ' ' :: rest
  | .renamed x y rest => '2' :: ' ' :: x :: y :: ' ' :: rest
  | .unmerged x y rest => 'u' :: ' ' :: x :: y :: ' ' :: rest
  | .untracked p => '?' :: ' ' :: p
  | .ignored p => '!' :: ' ' :: p

/-- Letters for the index and the work tree. -/
def letters : List Char := ['.', 'M', 'T', 'A', 'D', 'R', 'C']

/-- A name without blanks. -/
def Name (s : Str) : Prop := s ≠ [] ∧ ∀ c ∈ s, rustWhitespace c = false

def Line.ok : Line → Prop
  | .oid s => Name s
  | .head s => Name s
  | .upstream _ => True
  | .ab a b => a < 2 ^ 32 ∧ b < 2 ^ 32
  | .changed x y _ => x ∈ letters ∧ y ∈ letters
  | .renamed x y _ => x ∈ letters ∧ y ∈ letters
  | _ => True

/-- The letters of a changed or renamed file. -/
def Line.xy : Line → Option (Char × Char)
  | .changed x y _ => some (x, y)
  | .renamed x y _ => some (x, y)
  | _ => none

/-- How many lines have letters with a property. -/
def countXY (p : Char → Char → Bool) (ls : List Line) : Nat := ls.countP fun l => l.xy.any fun q => p q.1 q.2

def Line.isUntracked : Line → Bool
  | .untracked _ => true
  | _ => false

def Line.isUnmerged : Line → Bool
  | .unmerged .. => true
  | _ => false

def Line.branch? : Line → Option Str
  | .head s => some s
  | _ => none

def Line.ab? : Line → Option (Nat × Nat)
  | .ab a b => some (a, b)
  | _ => none

/-! ### Texts -/

theorem dropWhile_stop {p : Char → Bool} {c : Char} (hc : p c = false) (s : Str) : (c :: s).dropWhile p = c :: s := by
  simp [List.dropWhile, hc]

theorem trimEnd_keep (a : Str) (y : Char) (hy : rustWhitespace y = false) (r : Str) : ∃ r', trimEnd (a ++ y :: r) = a ++ y :: r' := by
  unfold trimEnd
  have : ∀ l : Str, ∃ l', (l ++ y :: a.reverse).dropWhile rustWhitespace = l' ++ y :: a.reverse := by
    intro l
    induction l with
    | nil => exact ⟨[], by rw [List.nil_append, dropWhile_stop hy]⟩
    | cons c l ih =>
      by_cases hc : rustWhitespace c = true
      · obtain ⟨l', h⟩ := ih
        exact ⟨l', by rw [List.cons_append, List.dropWhile_cons, if_pos hc, h]⟩
      · exact ⟨c :: l, by rw [List.cons_append, List.dropWhile_cons, if_neg hc]⟩
  obtain ⟨l', h⟩ := this r.reverse
  refine ⟨l'.reverse, ?_⟩
  rw [List.reverse_append, List.reverse_cons, List.append_assoc, List.singleton_append, h]
  simp

theorem trim_keep (c : Char) (hc : rustWhitespace c = false) (a : Str) (y : Char) (hy : rustWhitespace y = false) (r : Str) :
    ∃ r', trim (c :: a ++ y :: r) = c :: a ++ y :: r' := by
  obtain ⟨r', h⟩ := trimEnd_keep (c :: a) y hy r
  refine ⟨r', ?_⟩
  rw [trim, trimStart, List.cons_append, dropWhile_stop hc]
  exact h

/-- A text that begins and ends without blanks stays. -/
theorem trim_same (c : Char) (hc : rustWhitespace c = false) (a : Str) (y : Char) (hy : rustWhitespace y = false) :
    trim (c :: a ++ [y]) = c :: a ++ [y] := by
  rw [trim, trimStart, List.cons_append, dropWhile_stop hc, trimEnd]
  simp only [List.reverse_cons, List.reverse_append, List.reverse_nil, List.nil_append, List.singleton_append]
  rw [List.cons_append, dropWhile_stop hy]
  simp

theorem wordsGo_word (w : Str) (hw : ∀ c ∈ w, rustWhitespace c = false) : ∀ (cur r : Str),
    wordsGo cur (w ++ r) = wordsGo (w.reverse ++ cur) r := by
  induction w with
  | nil => intro cur r; rfl
  | cons c w ih =>
    intro cur r
    rw [List.cons_append, wordsGo, if_neg (by rw [hw c (List.mem_cons_self ..)]; simp), ih (fun d hd => hw d (List.mem_cons_of_mem _ hd))]
    simp

theorem words_word (w : Str) (h : Name w) (r : Str) : words (w ++ ' ' :: r) = w :: words r := by
  unfold words
  rw [wordsGo_word w h.2, wordsGo, if_pos (by decide), if_neg (by simp [h.1])]
  simp

theorem words_last (w : Str) (h : Name w) : words w = [w] := by
  have := wordsGo_word w h.2 [] []
  rw [List.append_nil] at this
  unfold words
  rw [this, wordsGo, if_neg (by simp [h.1])]
  simp

theorem words_gap (r : Str) : words (' ' :: r) = words r := by
  unfold words
  rw [wordsGo, if_pos (by decide)]
  rfl

theorem words_nil : words [] = [] := rfl

theorem wordsGo_blank (w : Str) (hw : ∀ c ∈ w, rustWhitespace c = true) : ∀ cur : Str, wordsGo cur w = wordsGo cur [] := by
  induction w with
  | nil => intro cur; rfl
  | cons c w ih =>
    intro cur
    have hc := hw c (List.mem_cons_self ..)
    have h0 : wordsGo [] [] = [] := rfl
    have e : wordsGo cur (c :: w) = if cur.isEmpty then wordsGo [] w else cur.reverse :: wordsGo [] w := by
      rw [wordsGo, if_pos hc]
    rw [e, ih (fun d hd => hw d (List.mem_cons_of_mem _ hd)), h0]
    rfl

theorem wordsGo_end (w : Str) (hw : ∀ c ∈ w, rustWhitespace c = true) : ∀ s cur : Str, wordsGo cur (s ++ w) = wordsGo cur s := by
  intro s
  induction s with
  | nil => intro cur; exact wordsGo_blank w hw cur
  | cons c s ih =>
    intro cur
    rw [List.cons_append, wordsGo, wordsGo, ih, ih]

theorem dropWhile_split (p : Char → Bool) : ∀ s : Str, ∃ a, s = a ++ s.dropWhile p ∧ ∀ c ∈ a, p c = true := by
  intro s
  induction s with
  | nil => exact ⟨[], rfl, fun c hc => by cases hc⟩
  | cons c s ih =>
    by_cases hc : p c = true
    · obtain ⟨a, h1, h2⟩ := ih
      refine ⟨c :: a, ?_, ?_⟩
      · rw [List.dropWhile_cons, if_pos hc, List.cons_append, ← h1]
      · intro d hd
        rcases List.mem_cons.1 hd with rfl | hd
        · exact hc
        · exact h2 d hd
    · exact ⟨[], by rw [List.dropWhile_cons, if_neg hc]; rfl, fun c hc => by cases hc⟩

theorem words_trim (s : Str) : words (trim s) = words s := by
  have h1 : ∀ s : Str, words (trimStart s) = words s := by
    intro s
    induction s with
    | nil => rfl
    | cons c s ih =>
      unfold trimStart at ih ⊢
      by_cases hc : rustWhitespace c = true
      · rw [List.dropWhile_cons, if_pos hc, ih]
        unfold words
        rw [wordsGo, if_pos hc]
        rfl
      · rw [List.dropWhile_cons, if_neg hc]
  have h2 : ∀ s : Str, words (trimEnd s) = words s := by
    intro s
    obtain ⟨a, ha, hw⟩ := dropWhile_split rustWhitespace s.reverse
    have hs : s = trimEnd s ++ a.reverse := by
      have := congrArg List.reverse ha
      rw [List.reverse_reverse, List.reverse_append] at this
      exact this
    have := wordsGo_end a.reverse (fun c hc => hw c (List.mem_reverse.1 hc)) (trimEnd s) []
    rw [← hs] at this
    exact this.symm
  rw [trim, h2, h1]

theorem toDigits_name (n : Nat) : Name (Nat.toDigits 10 n) := by
  refine ⟨Nat.toDigits_ne_nil, ?_⟩
  intro c hc
  have h := Nat.isDigit_of_mem_toDigits (b := 10) (by decide) (by decide) hc
  simp only [Char.isDigit, Bool.and_eq_true, decide_eq_true_eq] at h
  have h1 : 48 ≤ c.toNat := h.1
  have h2 : c.toNat ≤ 57 := h.2
  unfold rustWhitespace
  simp only [Bool.or_eq_false_iff, Bool.and_eq_false_iff, decide_eq_false_iff_not]
  omega

theorem toDigits_no (n : Nat) (c : Char) (hc : c.isDigit = false) : c ∉ Nat.toDigits 10 n := by
  intro h
  rw [Nat.isDigit_of_mem_toDigits (b := 10) (by decide) (by decide) h] at hc
  cases hc

theorem digits_toDigits (n : Nat) : digits (Nat.toDigits 10 n) = some n := by
  have hf : ∀ (l : Str) a, l.foldl (fun n c => 10 * n + (c.toNat - 48)) a = Nat.ofDigitChars 10 l a := by
    intro l
    induction l with
    | nil => intro a; rfl
    | cons c l ih => intro a; rw [List.foldl_cons, ih, Nat.ofDigitChars_cons]; rfl
  rw [digits, if_neg, hf, Nat.ofDigitChars_ten_toDigits]
  simp only [Bool.or_eq_true, List.isEmpty_iff, List.any_eq_true, not_or]
  refine ⟨Nat.toDigits_ne_nil, ?_⟩
  rintro ⟨c, hc, hd⟩
  rw [Nat.isDigit_of_mem_toDigits (b := 10) (by decide) (by decide) hc] at hd
  cases hd

theorem parse32_toDigits (n : Nat) (h : n < 2 ^ 32) : parse32 (Nat.toDigits 10 n) = some n := by
  rw [parse32, digits_toDigits]
  show (if n < 2 ^ 32 then some n else none) = some n
  rw [if_pos h]

theorem filter_toDigits (n : Nat) (c : Char) (hc : c.isDigit = false) :
    (c :: Nat.toDigits 10 n).filter (· != c) = Nat.toDigits 10 n := by
  rw [List.filter_cons_of_neg (by simp)]
  apply List.filter_eq_self.2
  intro d hd
  simp only [bne_iff_ne, ne_eq]
  rintro rfl
  exact toDigits_no n d hc hd

/-! ### Lines -/

/-- What a line of git does. -/
def Line.effect (l : Line) (st : Status) : Status :=
  match l with
  | .oid s => { st with oid := some s }
  | .head s => { st with branch := s }
  | .ab a b => { st with ahead := a, behind := b }
  | .changed x y _ => entry x y st
  | .renamed x y _ => entry x y st
  | .unmerged .. => { st with conflicted := st.conflicted + 1 }
  | .untracked _ => { st with untracked := st.untracked + 1 }
  | _ => st

theorem trim_name (c : Char) (hc : rustWhitespace c = false) (a s : Str) (h : Name s) : trim (c :: a ++ s) = c :: a ++ s := by
  obtain ⟨s', y, rfl⟩ : ∃ s' y, s = s' ++ [y] := by
    cases hs : s.reverse with
    | nil => exact absurd (List.reverse_eq_nil_iff.1 hs) h.1
    | cons y t => exact ⟨t.reverse, y, by rw [← List.reverse_reverse s, hs, List.reverse_cons]⟩
  have := trim_same c hc (a ++ s') y (h.2 y (by simp))
  simpa [List.append_assoc] using this

theorem letter_ok {x : Char} (h : x ∈ letters) : rustWhitespace x = false := by
  revert x
  decide

theorem line_effect (l : Line) (h : l.ok) (st : Status) : listStats (trim l.text) st = l.effect st := by
  cases l with
  | oid s =>
    have ht : trim (Line.oid s).text = (Line.oid s).text := trim_name '#' (by decide) c!" branch.oid " s h
    rw [ht]
    have hw : words (c!"# branch.oid " ++ s) = [c!"#", c!"branch.oid", s] := by
      have := words_word c!"#" (by unfold Name; decide) (c!"branch.oid" ++ ' ' :: s)
      rw [words_word c!"branch.oid" (by unfold Name; decide) s, words_last s h] at this
      exact this
    show header (c!"# branch.oid " ++ s) st = _
    rw [header, if_pos (by rw [List.isPrefixOf_iff_prefix]; exact ⟨' ' :: s, rfl⟩), hw]
    rfl
  | head s =>
    have ht : trim (Line.head s).text = (Line.head s).text := trim_name '#' (by decide) c!" branch.head " s h
    rw [ht]
    have hw : words (c!"# branch.head " ++ s) = [c!"#", c!"branch.head", s] := by
      have := words_word c!"#" (by unfold Name; decide) (c!"branch.head" ++ ' ' :: s)
      rw [words_word c!"branch.head" (by unfold Name; decide) s, words_last s h] at this
      exact this
    show header (c!"# branch.head " ++ s) st = _
    rw [header, if_neg (by simp), if_pos (by rw [List.isPrefixOf_iff_prefix]; exact ⟨' ' :: s, rfl⟩), hw]
    rfl
  | upstream s =>
    obtain ⟨r, hr⟩ := trim_keep '#' (by decide) c!" branch.upstrea" 'm' (by decide) (' ' :: s)
    have ht : trim (Line.upstream s).text = c!"# branch.upstream" ++ r := hr
    rw [ht]
    show header (c!"# branch.upstream" ++ r) st = _
    rw [header, if_neg (by simp), if_neg (by simp), if_neg (by simp)]
    rfl
  | ab a b =>
    have ht : trim (Line.ab a b).text = (Line.ab a b).text := by
      have := trim_name '#' (by decide) (c!" branch.ab +" ++ Nat.toDigits 10 a ++ c!" -") (Nat.toDigits 10 b) (toDigits_name b)
      simpa [Line.text, List.append_assoc] using this
    rw [ht]
    have na : Name ('+' :: Nat.toDigits 10 a) := by
      refine ⟨by simp, ?_⟩
      intro c hc
      rcases List.mem_cons.1 hc with rfl | hc
      · decide
      · exact (toDigits_name a).2 c hc
    have nb : Name ('-' :: Nat.toDigits 10 b) := by
      refine ⟨by simp, ?_⟩
      intro c hc
      rcases List.mem_cons.1 hc with rfl | hc
      · decide
      · exact (toDigits_name b).2 c hc
    have hw : words (Line.ab a b).text = [c!"#", c!"branch.ab", '+' :: Nat.toDigits 10 a, '-' :: Nat.toDigits 10 b] := by
      have := words_word c!"#" (by unfold Name; decide) (c!"branch.ab" ++ ' ' :: (('+' :: Nat.toDigits 10 a) ++ ' ' :: ('-' :: Nat.toDigits 10 b)))
      rw [words_word c!"branch.ab" (by unfold Name; decide), words_word _ na, words_last _ nb] at this
      have e : (Line.ab a b).text = c!"#" ++ ' ' :: (c!"branch.ab" ++ ' ' :: (('+' :: Nat.toDigits 10 a) ++ ' ' :: ('-' :: Nat.toDigits 10 b))) := by
        simp [Line.text, List.append_assoc]
      rw [e]
      exact this
    show header (Line.ab a b).text st = _
    rw [header, if_neg (by simp [Line.text]), if_neg (by simp [Line.text]), if_pos (by simp [Line.text]), hw]
    simp only [List.getElem?_cons_succ, List.getElem?_cons_zero, Option.bind_some]
    rw [filter_toDigits a '+' (by decide), filter_toDigits b '-' (by decide), parse32_toDigits a h.1, parse32_toDigits b h.2]
    rfl
  | changed x y rest =>
    obtain ⟨r, hr⟩ := trim_keep '1' (by decide) [' ', x] y (letter_ok h.2) (' ' :: rest)
    have ht : trim (Line.changed x y rest).text = '1' :: ' ' :: x :: y :: r := hr
    rw [ht]
    rfl
  | renamed x y rest =>
    obtain ⟨r, hr⟩ := trim_keep '2' (by decide) [' ', x] y (letter_ok h.2) (' ' :: rest)
    have ht : trim (Line.renamed x y rest).text = '2' :: ' ' :: x :: y :: r := hr
    rw [ht]
    rfl
  | unmerged x y rest =>
    obtain ⟨r, hr⟩ := trimEnd_keep [] 'u' (by decide) (' ' :: x :: y :: ' ' :: rest)
    have ht : trim (Line.unmerged x y rest).text = 'u' :: r := by
      rw [trim, trimStart, Line.text, dropWhile_stop (by decide)]
      exact hr
    rw [ht]
    rfl
  | untracked p =>
    obtain ⟨r, hr⟩ := trimEnd_keep [] '?' (by decide) (' ' :: p)
    have ht : trim (Line.untracked p).text = '?' :: r := by
      rw [trim, trimStart, Line.text, dropWhile_stop (by decide)]
      exact hr
    rw [ht]
    rfl
  | ignored p =>
    obtain ⟨r, hr⟩ := trimEnd_keep [] '!' (by decide) (' ' :: p)
    have ht : trim (Line.ignored p).text = '!' :: r := by
      rw [trim, trimStart, Line.text, dropWhile_stop (by decide)]
      exact hr
    rw [ht]
    rfl

/-- The last of what lines say. -/
def lastOf {α} (f : Line → Option α) (ls : List Line) (d : α) : α := ((ls.filterMap f).getLast?).getD d

theorem lastOf_cons {α} (f : Line → Option α) (l : Line) (ls : List Line) (d : α) :
    lastOf f (l :: ls) d = lastOf f ls ((f l).getD d) := by
  unfold lastOf
  cases h : f l with
  | none => simp [h]
  | some a =>
    simp only [List.filterMap_cons, h]
    cases hl : ls.filterMap f with
    | nil => rfl
    | cons b bs =>
      rw [List.getLast?_cons_cons]
      cases hb : (b :: bs).getLast? with
      | none => simp at hb
      | some z => rfl

theorem parse_lines : ∀ (ls : List Line), (∀ l ∈ ls, l.ok) → ∀ st : Status,
    let r := parse (ls.map fun l => some l.text) st
    r.staged = st.staged + countXY (fun x _ => x != '.') ls ∧
    r.modified = st.modified + countXY (fun _ y => y == 'M') ls ∧
    r.deleted = st.deleted + countXY (fun x y => x == 'D' || y == 'D') ls ∧
    r.renamed = st.renamed + countXY (fun x _ => x == 'R') ls ∧
    r.untracked = st.untracked + ls.countP Line.isUntracked ∧
    r.conflicted = st.conflicted + ls.countP Line.isUnmerged ∧
    r.branch = lastOf Line.branch? ls st.branch ∧
    (r.ahead, r.behind) = lastOf Line.ab? ls (st.ahead, st.behind) := by
  intro ls
  induction ls with
  | nil => intro _ st; simp [parse, countXY, lastOf]
  | cons l ls ih =>
    intro hok st
    have hl := hok l (List.mem_cons_self ..)
    obtain ⟨h1, h2, h3, h4, h5, h6, h7, h8⟩ := ih (fun x hx => hok x (List.mem_cons_of_mem _ hx)) (l.effect st)
    simp only [List.map_cons, parse, line_effect l hl st]
    rw [h1, h2, h3, h4, h5, h6, h7, h8, lastOf_cons, lastOf_cons]
    unfold countXY
    simp only [List.countP_cons]
    cases l with
    | changed x y rest =>
      have hx : x ≠ '?' := by
        have := hl.1
        rintro rfl
        revert this
        decide
      simp only [Line.effect, entry, Line.xy, Option.any_some, Line.isUntracked, Line.isUnmerged, Line.branch?, Line.ab?, Option.getD_none]
      refine ⟨?_, ?_, ?_, ?_, by simp, by simp, trivial, trivial⟩
      · by_cases hd : x = '.' <;> simp [hd, hx] <;> omega
      · by_cases hd : y = 'M' <;> simp [hd] <;> omega
      · by_cases hx' : x = 'D' <;> by_cases hy' : y = 'D' <;> simp [hx', hy'] <;> omega
      · by_cases hd : x = 'R' <;> simp [hd] <;> omega
    | renamed x y rest =>
      have hx : x ≠ '?' := by
        have := hl.1
        rintro rfl
        revert this
        decide
      simp only [Line.effect, entry, Line.xy, Option.any_some, Line.isUntracked, Line.isUnmerged, Line.branch?, Line.ab?, Option.getD_none]
      refine ⟨?_, ?_, ?_, ?_, by simp, by simp, trivial, trivial⟩
      · by_cases hd : x = '.' <;> simp [hd, hx] <;> omega
      · by_cases hd : y = 'M' <;> simp [hd] <;> omega
      · by_cases hx' : x = 'D' <;> by_cases hy' : y = 'D' <;> simp [hx', hy'] <;> omega
      · by_cases hd : x = 'R' <;> simp [hd] <;> omega
    | oid s => simp [Line.effect, Line.xy, Line.isUntracked, Line.isUnmerged, Line.branch?, Line.ab?]
    | head s => simp [Line.effect, Line.xy, Line.isUntracked, Line.isUnmerged, Line.branch?, Line.ab?]
    | upstream s => simp [Line.effect, Line.xy, Line.isUntracked, Line.isUnmerged, Line.branch?, Line.ab?]
    | ab a b => simp [Line.effect, Line.xy, Line.isUntracked, Line.isUnmerged, Line.branch?, Line.ab?]
    | unmerged x y rest =>
      simp [Line.effect, Line.xy, Line.isUntracked, Line.isUnmerged, Line.branch?, Line.ab?]
      omega
    | untracked p =>
      simp [Line.effect, Line.xy, Line.isUntracked, Line.isUnmerged, Line.branch?, Line.ab?]
      omega
    | ignored p => simp [Line.effect, Line.xy, Line.isUntracked, Line.isUnmerged, Line.branch?, Line.ab?]

/-- **C140, the counts.** For every report of git whose lines are UTF-8: the number of files with changes in the index, with modified or deleted work
trees, renamed, untracked and in conflict, and the branch and how far it is ahead and behind. -/
theorem C140_counts_partial (ls : List Line) (hok : ∀ l ∈ ls, l.ok) :
    let r := parse (ls.map fun l => some l.text) {}
    r.staged = countXY (fun x _ => x != '.') ls ∧
    r.modified = countXY (fun _ y => y == 'M') ls ∧
    r.deleted = countXY (fun x y => x == 'D' || y == 'D') ls ∧
    r.renamed = countXY (fun x _ => x == 'R') ls ∧
    r.untracked = ls.countP Line.isUntracked ∧
    r.conflicted = ls.countP Line.isUnmerged ∧
    r.branch = lastOf Line.branch? ls [] ∧
    (r.ahead, r.behind) = lastOf Line.ab? ls (0, 0) := by
  have h := parse_lines ls hok {}
  simpa using h

/-- A report. -/
def exReport : List Line :=
  [.oid c!"4755b96", .head c!"main", .upstream c!"origin/main", .ab 2 0, .changed 'M' '.' c!"N... a.rs", .changed '.' 'M' c!"N... b c.rs ",
   .renamed 'R' 'M' c!"N... R100 d\te", .changed '.' 'D' c!"f", .untracked c!"g", .untracked c!"h ", .unmerged 'U' 'U' c!"i"]

example : ∀ l ∈ exReport, l.ok := by
  intro l hl
  simp only [exReport, List.mem_cons, List.not_mem_nil, or_false] at hl
  rcases hl with rfl | rfl | rfl | rfl | rfl | rfl | rfl | rfl | rfl | rfl | rfl <;> simp only [Line.ok, Name] <;> decide

example : gitPart (parse (exReport.map fun l => some l.text) {}) = c!" on 🐾 main [=1 ⇡2 +2 »1 ✘1 !2 ?2]" := by decide +kernel

/-! ### What is shown -/

/-- A mark with its number, if there is something to tell. -/
def tell (m : Char) (n : Nat) : List Str := if n = 0 then [] else [m :: Nat.toDigits 10 n]

/-- Pieces with a blank in front. -/
theorem words_mark (m : Char) (hm : rustWhitespace m = false) (n : Nat) (r : Str)
    (hr : r = [] ∨ ∃ t, r = ' ' :: t) : words (mark [] [m] n ++ r) = tell m n ++ words r := by
  unfold mark tell
  by_cases hn : n = 0
  · simp [hn]
  · rw [if_pos (by omega), if_neg hn]
    have hname : Name (m :: Nat.toDigits 10 n) := by
      refine ⟨by simp, ?_⟩
      intro c hc
      rcases List.mem_cons.1 hc with rfl | hc
      · exact hm
      · exact (toDigits_name n).2 c hc
    rcases hr with rfl | ⟨t, rfl⟩
    · have := words_last _ hname
      simpa [words_nil] using this
    · have := words_word _ hname t
      rw [words_gap]
      simpa using this

theorem words_mark' (m : Char) (hm : rustWhitespace m = false) (n : Nat) (r : Str) (hr : r = [] ∨ ∃ t, r = ' ' :: t) :
    words (mark [' '] [m] n ++ r) = tell m n ++ words r := by
  have h : mark [' '] [m] n ++ r = (if n > 0 then [' '] else []) ++ (mark [] [m] n ++ r) := by
    unfold mark
    by_cases hn : n > 0 <;> simp [hn]
  rw [h]
  by_cases hn : n > 0
  · rw [if_pos hn, List.singleton_append, words_gap, words_mark m hm n r hr]
  · rw [if_neg hn, List.nil_append, words_mark m hm n r hr]

theorem mark_front (m : Str) (n : Nat) (r : Str) (hr : r = [] ∨ ∃ t, r = ' ' :: t) :
    mark [' '] m n ++ r = [] ∨ ∃ t, mark [' '] m n ++ r = ' ' :: t := by
  unfold mark
  by_cases hn : n > 0
  · rw [if_pos hn]; exact Or.inr ⟨_, rfl⟩
  · rw [if_neg hn]; exact hr

/-- The words between the brackets. -/
def marks (st : Status) : List Str :=
  tell '=' st.conflicted ++
  (if st.ahead ≠ 0 ∧ st.behind ≠ 0 then [['⇕']] else tell '⇡' st.ahead ++ tell '⇣' st.behind) ++
  tell '+' st.staged ++ tell '»' st.renamed ++ tell '✘' st.deleted ++ tell '!' st.modified ++ tell '?' st.untracked

theorem content_words (st : Status) : words (content st) = marks st := by
  have e5 : words (mark [' '] ['?'] st.untracked) = tell '?' st.untracked := by
    have := words_mark' '?' (by decide) st.untracked [] (Or.inl rfl)
    simpa [words_nil] using this
  have f5 : mark [' '] ['?'] st.untracked = [] ∨ ∃ t, mark [' '] ['?'] st.untracked = ' ' :: t := by
    have := mark_front ['?'] st.untracked [] (Or.inl rfl)
    simpa using this
  have e4 := words_mark' '!' (by decide) st.modified _ f5
  have f4 := mark_front ['!'] st.modified _ f5
  have e3 := words_mark' '✘' (by decide) st.deleted _ f4
  have f3 := mark_front ['✘'] st.deleted _ f4
  have e2 := words_mark' '»' (by decide) st.renamed _ f3
  have f2 := mark_front ['»'] st.renamed _ f3
  have e1 := words_mark' '+' (by decide) st.staged _ f2
  have f1 := mark_front ['+'] st.staged _ f2
  unfold content marks
  simp only [List.append_assoc]
  by_cases hab : st.ahead > 0 ∧ st.behind > 0
  · rw [if_pos hab, if_pos (by omega)]
    rw [List.cons_append, words_mark '=' (by decide) st.conflicted _ (Or.inr ⟨_, rfl⟩)]
    have hx : ∀ r : Str, words (' ' :: '⇕' :: ' ' :: r) = ['⇕'] :: words r := by
      intro r
      rw [words_gap]
      exact words_word ['⇕'] (by unfold Name; decide) r
    rw [List.cons_append, List.cons_append, List.nil_append, hx, e1, e2, e3, e4, e5]
    simp
  · rw [if_neg hab, if_neg (by omega)]
    have eb := words_mark' '⇣' (by decide) st.behind _ f1
    have fb := mark_front ['⇣'] st.behind _ f1
    have ea := words_mark' '⇡' (by decide) st.ahead _ fb
    have fa := mark_front ['⇡'] st.ahead _ fb
    rw [List.append_assoc, words_mark '=' (by decide) st.conflicted _ fa, ea, eb, e1, e2, e3, e4, e5]
    simp

theorem content_nil (st : Status) : content st = [] ↔ marks st = [] := by
  constructor
  · intro h
    rw [← content_words, h]
    rfl
  · intro h
    unfold marks tell at h
    unfold content mark
    simp only [List.append_eq_nil_iff] at h ⊢
    obtain ⟨⟨⟨⟨⟨⟨h1, h2⟩, h3⟩, h4⟩, h5⟩, h6⟩, h7⟩ := h
    have z : ∀ (n : Nat) (m : Char), (if n = 0 then [] else [m :: Nat.toDigits 10 n]) = ([] : List Str) → n = 0 := by
      intro n m h
      by_cases hn : n = 0
      · exact hn
      · rw [if_neg hn] at h; cases h
    by_cases hab : st.ahead ≠ 0 ∧ st.behind ≠ 0
    · rw [if_pos hab] at h2; cases h2
    · rw [if_neg hab, List.append_eq_nil_iff] at h2
      rw [z _ _ h1, z _ _ h2.1, z _ _ h2.2, z _ _ h3, z _ _ h4, z _ _ h5, z _ _ h6, z _ _ h7]
      simp

/-- **C140, the text.** Between the brackets stand exactly the marks of the counts that are not 0, with the counts; without any there are no brackets.
(The two directions of a branch that is ahead and behind have one mark.) -/
theorem C140_text_partial (st : Status) :
    (marks st = [] → gitPart st = c!" on 🐾 " ++ st.branch) ∧
    (marks st ≠ [] → ∃ t, gitPart st = c!" on 🐾 " ++ st.branch ++ c!" [" ++ t ++ c!"]" ∧ words t = marks st) := by
  constructor
  · intro h
    rw [gitPart, (content_nil st).2 h]
    simp
  · intro h
    refine ⟨trim (content st), ?_, by rw [words_trim, content_words]⟩
    have hc : content st ≠ [] := fun hc => h ((content_nil st).1 hc)
    rw [gitPart, if_neg (by simpa using hc)]
    simp [List.append_assoc]

/-- **C140, clean.** If no line has another letter for the work tree than `M` or `D`, the brackets are missing exactly if git reports no
file and the branch is neither ahead nor behind. -/
theorem C140_clean_partial (ls : List Line) (hok : ∀ l ∈ ls, l.ok) (hy : ∀ l ∈ ls, ∀ x y, l.xy = some (x, y) → (x, y) ≠ ('.', '.') ∧ y ∈ ['.', 'M', 'D']) :
    let r := parse (ls.map fun l => some l.text) {}
    gitPart r = c!" on 🐾 " ++ r.branch ↔
      (∀ l ∈ ls, l.xy = none ∧ l.isUntracked = false ∧ l.isUnmerged = false) ∧ lastOf Line.ab? ls (0, 0) = (0, 0) := by
  intro r
  obtain ⟨h1, h2, h3, h4, h5, h6, h7, h8⟩ := C140_counts_partial ls hok
  have hm : gitPart r = c!" on 🐾 " ++ r.branch ↔ marks r = [] := by
    constructor
    · intro h
      by_cases hm : marks r = []
      · exact hm
      · obtain ⟨t, ht, _⟩ := (C140_text_partial r).2 hm
        rw [ht] at h
        have := congrArg List.length h
        simp at this
    · exact (C140_text_partial r).1
  have z : ∀ (n : Nat) (m : Char), tell m n = [] ↔ n = 0 := by
    intro n m
    unfold tell
    by_cases hn : n = 0 <;> simp [hn]
  have hz : marks r = [] ↔ r.conflicted = 0 ∧ (r.ahead = 0 ∧ r.behind = 0) ∧ r.staged = 0 ∧ r.renamed = 0 ∧ r.deleted = 0 ∧ r.modified = 0 ∧
      r.untracked = 0 := by
    unfold marks
    simp only [List.append_eq_nil_iff, z]
    by_cases hab : r.ahead ≠ 0 ∧ r.behind ≠ 0
    · rw [if_pos hab]
      constructor
      · rintro ⟨⟨⟨⟨⟨⟨_, h⟩, _⟩, _⟩, _⟩, _⟩, _⟩; cases h
      · rintro ⟨_, ⟨h, _⟩, _⟩; exact absurd h hab.1
    · rw [if_neg hab, List.append_eq_nil_iff, z, z]
      constructor
      · rintro ⟨⟨⟨⟨⟨⟨a, b⟩, c⟩, d⟩, e⟩, f⟩, g⟩; exact ⟨a, b, c, d, e, f, g⟩
      · rintro ⟨a, b, c, d, e, f, g⟩; exact ⟨⟨⟨⟨⟨⟨a, b⟩, c⟩, d⟩, e⟩, f⟩, g⟩
  rw [hm, hz]
  have hab : (r.ahead = 0 ∧ r.behind = 0) ↔ lastOf Line.ab? ls (0, 0) = (0, 0) := by
    rw [← h8, Prod.mk.injEq]
  rw [hab, h1, h2, h3, h4, h5, h6]
  unfold countXY
  simp only [List.countP_eq_zero]
  constructor
  · rintro ⟨a, b, c, d, e, f, g⟩
    refine ⟨?_, b⟩
    intro l hl
    refine ⟨?_, by simpa using g l hl, by simpa using a l hl⟩
    cases hxy : l.xy with
    | none => rfl
    | some q =>
      obtain ⟨x, y⟩ := q
      obtain ⟨n1, n2⟩ := hy l hl x y hxy
      have c' := c l hl
      have e' := e l hl
      have f' := f l hl
      rw [hxy] at c' e' f'
      simp only [Option.any_some, bne_iff_ne, ne_eq, Decidable.not_not, Bool.or_eq_true, beq_iff_eq, not_or] at c' e' f'
      simp only [List.mem_cons, List.not_mem_nil, or_false] at n2
      rcases n2 with rfl | rfl | rfl
      · exact absurd (by rw [c']) n1
      · exact absurd rfl f'
      · exact absurd rfl e'.2
  · rintro ⟨a, b⟩
    have hn : ∀ (p : Char → Char → Bool), ∀ l ∈ ls, ¬ (l.xy.any fun q => p q.1 q.2) = true := by
      intro p l hl
      rw [(a l hl).1]
      simp
    exact ⟨fun l hl => by rw [(a l hl).2.2]; simp, b, hn fun x _ => x != '.', hn fun x _ => x == 'R', hn fun x y => x == 'D' || y == 'D',
      hn fun _ y => y == 'M', fun l hl => by rw [(a l hl).2.1]; simp⟩

/-- **C140 fails for other changes of the work tree**: a file that became a link, or was added with `git add -N`, counts as nothing. -/
theorem C140_hidden_violated (y : Char) (hy : y ∈ letters) (h : y ≠ 'M' ∧ y ≠ 'D') (rest : Str) (st : Status) :
    parse [some (Line.changed '.' y rest).text] st = st := by
  have hok : (Line.changed '.' y rest).ok := ⟨by decide, hy⟩
  rw [parse, parse, line_effect _ hok]
  simp [Line.effect, entry, h.1, h.2]

example : gitPart (parse [some (Line.head c!"main").text, some (Line.changed '.' 'T' c!"N... link").text] {}) = c!" on 🐾 main" := by decide +kernel

/-- **C140 fails for names that are not UTF-8** (shown as they are with `core.quotePath` off): the rest of the report is lost. -/
theorem C140_utf8_violated (before after : List (Option Str)) (st : Status) : parse (before ++ none :: after) st = parse before st := by
  induction before generalizing st with
  | nil => rfl
  | cons l ls ih =>
    cases l with
    | none => rfl
    | some l => exact ih _

/-- **C140 fails for diverged branches**: how many commits there are on either side is not shown. -/
theorem C140_diverged_violated (st : Status) (a b a' b' : Nat) :
    gitPart { st with ahead := a + 1, behind := b + 1 } = gitPart { st with ahead := a' + 1, behind := b' + 1 } := by
  simp [gitPart, content]

end Dsh.Prm
