import Verif.Safety.Ignore
/-!
C151: the AI's tools and files ignored by git. C152: the length of a tool's answer.
-/
namespace Dsh.Ign

/-- git leaves the path alone: the path, or a directory it is in, is ignored (gitignore(5): nothing below an ignored directory can be brought back). -/
def GitIgnored (t : Tree) (p : Path) : Prop :=
  ∃ q r, p = q ++ r ∧ q ≠ [] ∧ gitVerdict t q (if r = [] then t.isDir p else true) = .ignore

theorem mem_inner : ∀ (p q : Path), q ∈ inner p ↔ ∃ r, p = q ++ r ∧ q ≠ [] ∧ r ≠ []
  | [], q => by simp [inner]
  | [a], q => by
    simp only [inner, List.not_mem_nil, false_iff]
    rintro ⟨r, h, hq, hr⟩
    cases q with
    | nil => exact hq rfl
    | cons x xs => simp at h; exact hr h.2.2
  | a :: b :: l, q => by
    simp only [inner, List.mem_cons, List.mem_map]
    constructor
    · rintro (rfl | ⟨x, hx, rfl⟩)
      · exact ⟨b :: l, rfl, by simp, by simp⟩
      · obtain ⟨r, h, _, hr⟩ := (mem_inner (b :: l) x).1 hx
        exact ⟨r, by simp [h], by simp, hr⟩
    · rintro ⟨r, h, hq, hr⟩
      cases q with
      | nil => exact absurd rfl hq
      | cons x xs =>
        simp only [List.cons_append, List.cons.injEq] at h
        obtain ⟨rfl, h⟩ := h
        cases xs with
        | nil => exact Or.inl rfl
        | cons y ys => exact Or.inr ⟨y :: ys, (mem_inner (b :: l) _).2 ⟨r, h, by simp, hr⟩, rfl⟩

theorem firstSay_append (t : Tree) (b : Bool) (l m : List (Path × Path))
    (h : ∀ x ∈ l, t.rules x.1 = none) : firstSay t b (l ++ m) = firstSay t b m := by
  induction l with
  | nil => rfl
  | cons x l ih =>
    have hx := h x (by simp)
    obtain ⟨d, s⟩ := x
    simp only [List.cons_append, firstSay]
    simp only at hx
    rw [hx]
    exact ih (fun y hy => h y (by simp [hy]))

theorem mem_cuts : ∀ (p : Path) (x : Path × Path), x ∈ cuts p → p = x.1 ++ x.2 ∧ x.2 ≠ []
  | [], x => by simp [cuts]
  | a :: r, x => by
    simp only [cuts, List.mem_append, List.mem_map, List.mem_singleton]
    rintro (⟨y, hy, rfl⟩ | rfl)
    · have := mem_cuts r y hy
      exact ⟨by simp [← this.1], this.2⟩
    · simp

/-- With no ignore file in the directories below the top and no other list, the verdict is that of the top file. -/
theorem gitVerdict_top (t : Tree) (p : Path) (b : Bool) (hp : p ≠ [])
    (hn : ∀ d s, p = d ++ s → d ≠ [] → s ≠ [] → t.rules d = none) (he : t.exclude p b = .none) :
    gitVerdict t p b = match t.rules [] with | none => .none | some r => r.says p b := by
  cases p with
  | nil => exact absurd rfl hp
  | cons a l =>
    have : firstSay t b (cuts (a :: l)) = match t.rules [] with | none => .none | some r => r.says (a :: l) b := by
      rw [cuts, firstSay_append]
      · simp only [firstSay]
        cases t.rules [] with
        | none => rfl
        | some r => simp only; split <;> simp_all
      · intro x hx
        obtain ⟨y, hy, rfl⟩ := List.mem_map.1 hx
        have := mem_cuts l y hy
        exact hn _ y.2 (by simp [← this.1]) (by simp) this.2
    rw [gitVerdict, this]
    by_cases h0 : (match t.rules [] with | none => Verdict.none | some r => r.says (a :: l) b) = .none
    · rw [if_pos h0, he, h0]
    · rw [if_neg h0]

/-- **C151 (partial).** In a work tree whose only ignore file on the way to `p` is the one at the top, every line of which is a pattern, and with the shell at the top: `read_file` and `edit` refuse `p` exactly when git ignores it. -/
theorem C151_top_partial (t : Tree) (p : Path)
    (hn : ∀ d s, p = d ++ s → d ≠ [] → s ≠ [] → t.rules d = none)
    (he : ∀ q b, t.exclude q b = .none)
    (hb : ∀ r, t.rules [] = some r → r.bad = false) :
    refuses t [] p = true ↔ GitIgnored t p := by
  have hv : ∀ q r b, p = q ++ r → q ≠ [] →
      gitVerdict t q b = match t.rules [] with | none => .none | some r => r.says q b := by
    intro q r b e hq
    refine gitVerdict_top t q b hq ?_ (he q b)
    intro d s e' hd hs
    exact hn d (s ++ r) (by rw [e, e', List.append_assoc]) hd (by simp [hs])
  unfold refuses isIgnored GitIgnored
  cases hr : t.rules [] with
  | none =>
    simp only [Bool.false_eq_true, false_iff]
    rintro ⟨q, r, e, hq, h⟩
    rw [hv q r _ e hq, hr] at h
    simp at h
  | some r =>
    simp only [hb r hr, Bool.false_eq_true, if_false, List.nil_append]
    constructor
    · intro h
      split at h
      · simp at h
      · rename_i hp
        split at h
        · rename_i hs
          exact ⟨p, [], by simp, hp, by rw [hv p [] _ (by simp) hp, hr]; simpa using hs⟩
        · obtain ⟨q, hq, hs⟩ := List.any_eq_true.1 h
          obtain ⟨s, e, hq0, hs0⟩ := (mem_inner p q).1 hq
          exact ⟨q, s, e, hq0, by rw [hv q s _ e hq0, hr]; simpa [hs0] using hs⟩
    · rintro ⟨q, s, e, hq, h⟩
      rw [hv q s _ e hq, hr] at h
      simp only at h
      have hp : p ≠ [] := by rw [e]; simp [hq]
      rw [if_neg hp]
      split
      · rfl
      · rename_i hs
        by_cases h0 : s = []
        · subst h0
          simp only [List.append_nil] at e
          subst e
          simp at h
          exact absurd h hs
        · refine List.any_eq_true.2 ⟨q, (mem_inner p q).2 ⟨s, e, hq, h0⟩, ?_⟩
          simpa [h0] using h

/-- **C151 (partial).** What `ls` shows: nothing of a place it refuses; otherwise exactly the entries `read_file` would not refuse, in their order. -/
theorem C151_ls_partial (t : Tree) (cwd rel : Path) (es : List Str) :
    (refuses t cwd rel = true → shown t cwd rel es = none) ∧
    (refuses t cwd rel = false → ∃ l, shown t cwd rel es = some l ∧ l.Sublist es ∧
      ∀ n, n ∈ l ↔ n ∈ es ∧ refuses t cwd (rel ++ [n]) = false) := by
  unfold refuses shown
  constructor
  · intro h; simp [h]
  · intro h
    refine ⟨_, by simp [h]; rfl, List.filter_sublist, ?_⟩
    intro n
    simp

/-- **C151 (partial).** A search started at a place git does not ignore looks at no ignored file. -/
theorem C151_search_partial (t : Tree) : ∀ (rest start : Path),
    ¬ GitIgnored t start → (∀ q r, rest = q ++ r → r ≠ [] → t.isDir (start ++ q) = true) →
    searched t start rest = true → ¬ GitIgnored t (start ++ rest)
  | [], start, h, _, _ => by simpa using h
  | n :: rest, start, h, hi, hs => by
    simp only [searched, reach, Bool.and_eq_true, decide_eq_true_eq] at hs
    obtain ⟨⟨_, hv⟩, hr⟩ := hs
    have hstep : ¬ GitIgnored t (start ++ [n]) := by
      rintro ⟨q, r, e, hq, hg⟩
      rcases List.eq_nil_or_concat r with rfl | ⟨r', x, rfl⟩
      · simp only [List.append_nil] at e
        subst e
        simp only [if_true] at hg
        by_cases h0 : rest = []
        · simp [h0, hg] at hv
        · have := hi [n] rest (by simp) h0
          rw [this] at hg
          simp [h0, hg] at hv
      · rw [List.concat_eq_append, ← List.append_assoc] at e
        obtain ⟨e1, _⟩ := List.append_inj' e rfl
        refine h ⟨q, r', e1, hq, ?_⟩
        simp only [List.concat_eq_append, List.append_eq_nil_iff, List.cons_ne_nil, and_false, if_false] at hg
        split
        · have hd := hi [] (n :: rest) (by simp) (by simp)
          simp only [List.append_nil] at hd
          rw [hd]; exact hg
        · exact hg
    have := C151_search_partial t rest (start ++ [n]) hstep
      (fun q r e hr' => by
        have := hi (n :: q) r (by simp [e]) hr'
        simpa using this) hr
    simpa using this

/-- **C151 (violated).** Whatever the ignore files say, `search` started at a file looks into it: an ignored file need only be named. -/
theorem C151_search_violated : (∀ t p, searched t p [] = true) ∧
    ∃ t p, GitIgnored t p ∧ refuses t [] p = true ∧ searched t p [] = true := by
  refine ⟨fun _ _ => rfl, ⟨fun d => if d = [] then some ⟨fun p _ => if p = [c!".env"] then .ignore else .none, false⟩ else none,
    fun _ _ => .none, fun _ => false⟩, [c!".env"], ⟨[c!".env"], [], rfl, by simp, by decide⟩, by decide, rfl⟩

/-- **C151 (violated).** The ignore files of other directories do not count: if the file of the shell's directory says nothing about the path and the directories on the way, it is handed out, whatever the others say — files of directories below, above, and the user's own lists. -/
theorem C151_other_violated :
    (∀ (t : Tree) (cwd rel : Path),
      (∀ r q s b, t.rules cwd = some r → rel = q ++ s → r.says q b ≠ .ignore) → refuses t cwd rel = false) ∧
    (∃ t p, t.exclude = (fun _ _ => .none) ∧ GitIgnored t p ∧ refuses t [] p = false) ∧
    (∃ t d p, t.exclude = (fun _ _ => .none) ∧ GitIgnored t (d ++ p) ∧ (∀ e, t.rules e ≠ none → e = []) ∧ refuses t d p = false) ∧
    (∃ t p, (∀ e, t.rules e = none) ∧ GitIgnored t p ∧ refuses t [] p = false) := by
  refine ⟨?_, ?_, ?_, ?_⟩
  · intro t cwd rel h
    unfold refuses isIgnored
    cases hr : t.rules cwd with
    | none => rfl
    | some r =>
      simp only
      split
      · rfl
      split
      · rfl
      rw [if_neg (h r rel [] _ hr (by simp))]
      refine List.any_eq_false.2 fun q hq => ?_
      obtain ⟨s, e, _⟩ := (mem_inner rel q).1 hq
      simpa using h r q s true hr e
  · exact ⟨⟨fun d => if d = [c!"sub"] then some ⟨fun p _ => if p = [c!"key"] then .ignore else .none, false⟩ else none,
      fun _ _ => .none, fun _ => false⟩, [c!"sub", c!"key"], rfl, ⟨[c!"sub", c!"key"], [], rfl, by simp, by decide⟩, by decide⟩
  · refine ⟨⟨fun d => if d = [] then some ⟨fun p _ => if p.getLast? = some c!"key" then .ignore else .none, false⟩ else none,
      fun _ _ => .none, fun _ => false⟩, [c!"sub"], [c!"key"], rfl, ⟨[c!"sub", c!"key"], [], rfl, by simp, by decide⟩, ?_, by decide⟩
    intro e h
    simp only at h
    split at h
    · assumption
    · exact absurd rfl h
  · exact ⟨⟨fun _ => none, fun p _ => if p = [c!"key"] then .ignore else .none, fun _ => false⟩, [c!"key"],
      fun _ => rfl, ⟨[c!"key"], [], rfl, by simp, by decide⟩, by decide⟩

/-- **C151 (violated).** One line that is no pattern opens every ignored file. -/
theorem C151_bad_violated : (∀ (t : Tree) cwd rel r, t.rules cwd = some r → r.bad = true → refuses t cwd rel = false) ∧
    ∃ t p, GitIgnored t p ∧ refuses t [] p = false ∧ ∀ d, d ≠ [] → t.rules d = none := by
  constructor
  · intro t cwd rel r h hb
    simp [refuses, isIgnored, h, hb]
  · exact ⟨⟨fun d => if d = [] then some ⟨fun p _ => if p = [c!"key"] then .ignore else .none, true⟩ else none,
      fun _ _ => .none, fun _ => false⟩, [c!"key"], ⟨[c!"key"], [], rfl, by simp, by decide⟩, by decide, fun d h => by simp [h]⟩

/-- **C151 (violated).** A file that a deeper ignore file brings back is refused although git tracks it. -/
theorem C151_kept_violated : ∃ t p, ¬ GitIgnored t p ∧ refuses t [] p = true := by
  refine ⟨⟨fun d => if d = [] then some ⟨fun p _ => if p.getLast? = some c!"a.log" then .ignore else .none, false⟩
    else if d = [c!"sub"] then some ⟨fun p _ => if p = [c!"a.log"] then .keep else .none, false⟩ else none,
    fun _ _ => .none, fun _ => false⟩, [c!"sub", c!"a.log"], ?_, by decide⟩
  rintro ⟨q, r, e, hq, h⟩
  match q, e with
  | [], _ => exact hq rfl
  | [x], e =>
    simp only [List.cons_append, List.nil_append, List.cons.injEq] at e
    obtain ⟨rfl, rfl⟩ := e
    revert h; decide
  | [x, y], e =>
    simp only [List.cons_append, List.nil_append, List.cons.injEq] at e
    obtain ⟨rfl, rfl, rfl⟩ := e
    revert h; decide
  | x :: y :: z :: l, e => simp at e

/-- The top theorem's case: `target/` in the top file, a file two levels below it is refused, another is not. -/
def exT : Tree := ⟨fun d => if d = [] then some ⟨fun p b => if p = [c!"target"] ∧ b = true then .ignore else .none, false⟩ else none,
  fun _ _ => .none, fun p => p = [c!"target"] || p = [c!"src"]⟩
example : GitIgnored exT [c!"target", c!"debug", c!"x"] ∧ ¬ GitIgnored exT [c!"src", c!"target"] := by
  rw [← C151_top_partial exT _ (by intro d s _ hd _; simp [exT, hd]) (fun _ _ => rfl) (by intro r h; simp [exT] at h; simp [← h]),
    ← C151_top_partial exT _ (by intro d s _ hd _; simp [exT, hd]) (fun _ _ => rfl) (by intro r h; simp [exT] at h; simp [← h])]
  decide
example : shown exT [] [] [c!"src", c!"target"] = some [c!"src"] := by decide
example : searched exT [c!"src"] [c!"target"] = true ∧ searched exT [] [c!"target", c!"x"] = false := by decide

/-! ### Length -/

theorem floorTake_prefix : ∀ (s : Str) (n : Nat), floorTake n s <+: s
  | [], _ => List.prefix_refl _
  | c :: cs, n => by
    rw [floorTake]
    split
    · exact List.cons_prefix_cons.2 ⟨rfl, floorTake_prefix cs _⟩
    · exact List.nil_prefix

theorem bytes_floorTake : ∀ (s : Str) (n : Nat), bytes (floorTake n s) ≤ n
  | [], _ => Nat.zero_le _
  | c :: cs, n => by
    rw [floorTake]
    split
    · have := bytes_floorTake cs (n - c.utf8Size)
      simp only [bytes, List.map_cons, List.sum_cons] at *
      omega
    · exact Nat.zero_le _

/-- No longer initial part fits. -/
theorem floorTake_longest : ∀ (s : Str) (n : Nat) (p : Str), p <+: s → bytes p ≤ n → p <+: floorTake n s
  | [], _, p, h, _ => by simpa [floorTake] using h
  | c :: cs, n, p, h, hb => by
    cases p with
    | nil => exact List.nil_prefix
    | cons x xs =>
      obtain ⟨rfl, h'⟩ := List.cons_prefix_cons.1 h
      simp only [bytes, List.map_cons, List.sum_cons] at hb
      rw [floorTake, if_pos (by omega)]
      exact List.cons_prefix_cons.2 ⟨rfl, floorTake_longest cs _ xs h' (by simp only [bytes]; omega)⟩

/-- **C152 (partial).** An answer that fits is passed on unchanged; of a longer one the longest beginning of whole characters that fits is passed on, followed by a notice with the number of bytes left out. -/
theorem C152_answer_partial (max : Nat) (s : Str) :
    (bytes s ≤ max → truncate max s = s) ∧
    (max < bytes s → ∃ kept left, s = kept ++ left ∧ left ≠ [] ∧ bytes kept ≤ max ∧
      (∀ p, p <+: s → bytes p ≤ max → p <+: kept) ∧
      truncate max s = kept ++ c!"\n... (truncated " ++ (toString (bytes left)).toList ++ c!" characters)") := by
  constructor
  · intro h; simp [truncate, Nat.not_lt.2 h]
  · intro h
    obtain ⟨left, hl⟩ := floorTake_prefix s max
    have hs : bytes s = bytes (floorTake max s) + bytes left := by
      conv => lhs; rw [← hl]
      simp [bytes]
    have hk := bytes_floorTake s max
    refine ⟨floorTake max s, left, hl.symm, ?_, hk, floorTake_longest s max, ?_⟩
    · rintro rfl; simp [bytes] at hs; simp only [bytes] at h hk; omega
    · rw [truncate, if_pos h, hs, Nat.add_sub_cancel_left]

/-- **C152 (violated).** The number in the notice is not the number of characters left out. -/
theorem C152_count_violated : ∃ s kept left, s = kept ++ left ∧ left.length = 2 ∧
    truncate 1 s = kept ++ c!"\n... (truncated 4 characters)" :=
  ⟨c!"aéé", c!"a", c!"éé", by decide, by decide, by decide +kernel⟩

theorem size_floorTake : ∀ (s : Str) (n : Nat), n < bytes s → n < bytes (floorTake n s) + 4
  | [], _, h => by simp [bytes] at h
  | c :: cs, n, h => by
    have hc := Char.utf8Size_le_four c
    rw [floorTake]
    split
    · have := size_floorTake cs (n - c.utf8Size)
      simp only [bytes, List.map_cons, List.sum_cons] at *
      omega
    · simp only [bytes, List.map_nil, List.sum_nil]; omega

theorem bytes_append (a b : Str) : bytes (a ++ b) = bytes a + bytes b := by simp [bytes]

/-- **C152 (partial).** The reader of an answer can tell whether something was left out: an answer is longer than the limit exactly if it was cut. -/
theorem C152_cut_partial (max : Nat) (s : Str) : max < bytes (truncate max s) ↔ max < bytes s := by
  constructor
  · intro h
    rcases Nat.lt_or_ge max (bytes s) with h' | h'
    · exact h'
    · rwa [(C152_answer_partial max s).1 h'] at h
  · intro h
    have := size_floorTake s max h
    have hn : bytes c!"\n... (truncated " = 16 := by decide
    rw [truncate, if_pos h, bytes_append, bytes_append, bytes_append, hn]
    omega

/-- **C152 (partial).** The line telling the user which tool runs shows the arguments whole, or their longest beginning of at most 80 bytes and three dots. -/
theorem C152_args_partial (s : Str) :
    (bytes s ≤ 80 → truncateArgs s = s) ∧
    (80 < bytes s → ∃ kept, truncateArgs s = kept ++ c!"..." ∧ kept <+: s ∧ bytes kept ≤ 80 ∧
      ∀ p, p <+: s → bytes p ≤ 80 → p <+: kept) := by
  constructor
  · intro h; simp [truncateArgs, Nat.not_lt.2 h]
  · intro h
    exact ⟨floorTake 80 s, by simp [truncateArgs, h], floorTake_prefix s 80, bytes_floorTake s 80, floorTake_longest s 80⟩

example : bytes c!"aéé" = 5 ∧ 1 < bytes (truncate 1 c!"aéé") := by decide +kernel
example : truncate 2 c!"aéé" = c!"a\n... (truncated 4 characters)" := by decide +kernel

end Dsh.Ign
