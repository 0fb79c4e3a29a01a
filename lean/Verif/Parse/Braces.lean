import Verif.Parse.Props
/-!
C09: brace expansion (`expand_braces`, modelled in `Verif/Parse/Expand.lean`).
-/
namespace Dsh.Shell.Brace
open Dsh.Shell

/-! ### Specification: words with brace groups -/

mutual
/-- A word: ordinary characters, escaped characters and brace groups. -/
inductive Word where
  | nil
  | plain (c : Char) (rest : Word)
  | esc (c : Char) (rest : Word)
  | grp (alts : Alts) (rest : Word)
/-- The alternatives of a group, at least two. -/
inductive Alts where
  | two (a b : Word)
  | more (a : Word) (as : Alts)
end

mutual
/-- How a word is typed. -/
def Word.text : Word → List Char
  | .nil => []
  | .plain c r => c :: r.text
  | .esc c r => '\\' :: c :: r.text
  | .grp a r => '{' :: a.text ++ '}' :: r.text
/-- The alternatives, separated by commas. -/
def Alts.text : Alts → List Char
  | .two a b => a.text ++ ',' :: b.text
  | .more a as => a.text ++ ',' :: as.text
end

mutual
/-- The meaning: all choices, the leftmost group varying slowest.  (Escapes are resolved later,
when the word is turned into an argument.) -/
def Word.choices : Word → List (List Char)
  | .nil => [[]]
  | .plain c r => r.choices.map (fun s => c :: s)
  | .esc c r => r.choices.map (fun s => '\\' :: c :: s)
  | .grp a r => a.choices.flatMap (fun x => r.choices.map (fun y => x ++ y))
/-- Choices of each alternative in turn. -/
def Alts.choices : Alts → List (List Char)
  | .two a b => a.choices ++ b.choices
  | .more a as => a.choices ++ as.choices
end

mutual
/-- Well-formed: braces and backslashes only as syntax; a comma inside a group only as separator
(or escaped). `top` says that the word is not inside a group. -/
def Word.ok (top : Bool) : Word → Bool
  | .nil => true
  | .plain c r => c != '{' && c != '}' && c != '\\' && (top || c != ',') && r.ok top
  | .esc c r => c != '\\' && r.ok top
  | .grp a r => a.ok && r.ok top
/-- All alternatives are well-formed. -/
def Alts.ok : Alts → Bool
  | .two a b => a.ok false && b.ok false
  | .more a as => a.ok false && as.ok
end

/-! ### Proof -/

mutual
/-- Number of groups. -/
def Word.groups : Word → Nat
  | .nil => 0
  | .plain _ r => r.groups
  | .esc _ r => r.groups
  | .grp a r => a.groups + 1 + r.groups
/-- Number of groups. -/
def Alts.groups : Alts → Nat
  | .two a b => a.groups + b.groups
  | .more a as => a.groups + as.groups
end

/-- The alternatives as a list. -/
def Alts.list : Alts → List Word
  | .two a b => [a, b]
  | .more a as => a :: as.list

/-- Concatenation. -/
def Word.app : Word → Word → Word
  | .nil, w => w
  | .plain c r, w => .plain c (r.app w)
  | .esc c r, w => .esc c (r.app w)
  | .grp a r, w => .grp a (r.app w)

theorem app_text : ∀ (v w : Word), (v.app w).text = v.text ++ w.text
  | .nil, w => rfl
  | .plain c r, w => by simp [Word.app, Word.text, app_text r w]
  | .esc c r, w => by simp [Word.app, Word.text, app_text r w]
  | .grp a r, w => by simp [Word.app, Word.text, app_text r w]

theorem app_groups : ∀ (v w : Word), (v.app w).groups = v.groups + w.groups
  | .nil, w => by simp [Word.app, Word.groups]
  | .plain c r, w => by simp [Word.app, Word.groups, app_groups r w]
  | .esc c r, w => by simp [Word.app, Word.groups, app_groups r w]
  | .grp a r, w => by simp [Word.app, Word.groups, app_groups r w]; omega

theorem app_ok : ∀ (v w : Word) (t : Bool), (v.app w).ok t = (v.ok t && w.ok t)
  | .nil, w, t => by simp [Word.app, Word.ok]
  | .plain c r, w, t => by simp [Word.app, Word.ok, app_ok r w, Bool.and_assoc]
  | .esc c r, w, t => by simp [Word.app, Word.ok, app_ok r w, Bool.and_assoc]
  | .grp a r, w, t => by simp [Word.app, Word.ok, app_ok r w, Bool.and_assoc]

theorem app_choices : ∀ (v w : Word),
    (v.app w).choices = v.choices.flatMap (fun x => w.choices.map (fun y => x ++ y))
  | .nil, w => by simp [Word.app, Word.choices]
  | .plain c r, w => by
    simp [Word.app, Word.choices, app_choices r w, List.flatMap_map, List.map_flatMap, Function.comp_def]
  | .esc c r, w => by
    simp [Word.app, Word.choices, app_choices r w, List.flatMap_map, List.map_flatMap, Function.comp_def]
  | .grp a r, w => by
    simp [Word.app, Word.choices, app_choices r w, List.flatMap_map, List.map_flatMap,
      Function.comp_def, List.flatMap_assoc]

theorem ok_top : ∀ (w : Word), w.ok false = true → w.ok true = true
  | .nil, _ => rfl
  | .plain c r, h => by
    simp only [Word.ok, Bool.and_eq_true] at h ⊢
    exact ⟨⟨h.1.1, rfl⟩, ok_top r h.2⟩
  | .esc c r, h => by
    simp only [Word.ok, Bool.and_eq_true] at h ⊢
    exact ⟨h.1, ok_top r h.2⟩
  | .grp a r, h => by
    simp only [Word.ok, Bool.and_eq_true] at h ⊢
    exact ⟨h.1, ok_top r h.2⟩

theorem list_ok : ∀ (a : Alts), a.ok = true → ∀ w ∈ a.list, w.ok false = true
  | .two a b, h => by
    simp only [Alts.ok, Bool.and_eq_true] at h
    intro w hw
    simp only [Alts.list, List.mem_cons, List.not_mem_nil, or_false] at hw
    rcases hw with rfl | rfl
    · exact h.1
    · exact h.2
  | .more a as, h => by
    simp only [Alts.ok, Bool.and_eq_true] at h
    intro w hw
    simp only [Alts.list, List.mem_cons] at hw
    rcases hw with rfl | hw
    · exact h.1
    · exact list_ok as h.2 w hw

theorem list_groups : ∀ (a : Alts), ∀ w ∈ a.list, w.groups ≤ a.groups
  | .two a b => by
    intro w hw
    simp only [Alts.list, List.mem_cons, List.not_mem_nil, or_false] at hw
    rcases hw with rfl | rfl <;> simp [Alts.groups]
  | .more a as => by
    intro w hw
    simp only [Alts.list, List.mem_cons] at hw
    simp only [Alts.groups]
    rcases hw with rfl | hw
    · omega
    · have := list_groups as w hw; omega

theorem list_choices : ∀ (a : Alts), a.choices = a.list.flatMap Word.choices
  | .two a b => by simp [Alts.choices, Alts.list]
  | .more a as => by simp [Alts.choices, Alts.list, list_choices as]

/-- The character before the next one. -/
def lastOr (prev : Option Char) (l : List Char) : Option Char := l.getLast?.or prev

theorem lastOr_nil (p) : lastOr p [] = p := rfl
theorem lastOr_cons (p c l) : lastOr p (c :: l) = lastOr (some c) l := by
  unfold lastOr
  cases l with
  | nil => rfl
  | cons d l => simp [List.getLast?_cons]

theorem lastOr_append (p a b) : lastOr p (a ++ b) = lastOr (lastOr p a) b := by
  induction a generalizing p with
  | nil => rfl
  | cons c a ih => rw [List.cons_append, lastOr_cons, lastOr_cons, ih]

theorem lastOr_text : ∀ (w : Word) (t : Bool), w.ok t = true → ∀ p, p ≠ some '\\' → lastOr p w.text ≠ some '\\'
  | .nil, _, _, p, hp => hp
  | .plain c r, t, h, p, hp => by
    simp only [Word.ok, Bool.and_eq_true, bne_iff_ne] at h
    simp only [Word.text, lastOr_cons]
    exact lastOr_text r t h.2 _ (by simpa using h.1.1.2)
  | .esc c r, t, h, p, hp => by
    simp only [Word.ok, Bool.and_eq_true, bne_iff_ne] at h
    simp only [Word.text, lastOr_cons]
    exact lastOr_text r t h.2 _ (by simpa using h.1)
  | .grp a r, t, h, p, hp => by
    simp only [Word.ok, Bool.and_eq_true] at h
    simp only [Word.text, List.cons_append, lastOr_cons, lastOr_append]
    exact lastOr_text r t h.2 _ (by simp)

mutual
theorem split_word : ∀ (w : Word) (t : Bool), w.ok t = true → ∀ (p : Option Char), p ≠ some '\\' →
    ∀ (d : Int), 0 ≤ d → (t = true → d ≠ 0) → ∀ (cur k : List Char),
    splitParts p d cur (w.text ++ k) = splitParts (lastOr p w.text) d (cur ++ w.text) k
  | .nil, _, _, p, _, d, _, _, cur, k => by simp [Word.text, lastOr_nil]
  | .plain c r, t, h, p, hp, d, hd, htd, cur, k => by
    simp only [Word.ok, Bool.and_eq_true, bne_iff_ne] at h
    simp only [Word.text, List.cons_append]
    rw [splitParts, if_neg (by simp [h.1.1.1.1]), if_neg (by simp [h.1.1.1.2]), if_neg]
    · rw [split_word r t h.2 _ (by simpa using h.1.1.2) d hd htd, lastOr_cons, List.append_assoc]; rfl
    · rintro ⟨h1, h2, -⟩
      have := h.1.2
      cases t
      · simp [h1] at this
      · exact htd rfl h2
  | .esc c r, t, h, p, hp, d, hd, htd, cur, k => by
    simp only [Word.ok, Bool.and_eq_true, bne_iff_ne] at h
    simp only [Word.text, List.cons_append]
    rw [splitParts, if_neg (by simp), if_neg (by simp), if_neg (by simp), splitParts, if_neg (by simp),
      if_neg (by simp), if_neg (by simp), split_word r t h.2 _ (by simpa using h.1) d hd htd, lastOr_cons,
      lastOr_cons, List.append_assoc, List.append_assoc]
    rfl
  | .grp a r, t, h, p, hp, d, hd, htd, cur, k => by
    simp only [Word.ok, Bool.and_eq_true] at h
    simp only [Word.text, List.cons_append, List.append_assoc]
    rw [splitParts, if_pos ⟨rfl, hp⟩]
    rw [split_alts a h.1 _ (by simp) (d + 1) (by omega)]
    rw [splitParts, if_neg (by simp), if_pos ⟨rfl, last_alts a h.1 _ (by simp)⟩]
    rw [split_word r t h.2 _ (by simp) (d + 1 - 1) (by omega) (by intro e; have := htd e; omega)]
    simp only [lastOr_cons, lastOr_append, List.append_assoc, Int.add_sub_cancel, List.cons_append,
      List.nil_append]
theorem split_alts : ∀ (a : Alts), a.ok = true → ∀ (p : Option Char), p ≠ some '\\' →
    ∀ (d : Int), 0 < d → ∀ (cur k : List Char),
    splitParts p d cur (a.text ++ k) = splitParts (lastOr p a.text) d (cur ++ a.text) k
  | .two a b, h, p, hp, d, hd, cur, k => by
    simp only [Alts.ok, Bool.and_eq_true] at h
    simp only [Alts.text, List.append_assoc, List.cons_append]
    rw [split_word a false h.1 p hp d (by omega) (by simp), splitParts, if_neg (by simp), if_neg (by simp),
      if_neg (by intro x; omega), split_word b false h.2 _ (by simp) d (by omega) (by simp)]
    simp only [lastOr_cons, lastOr_append, List.append_assoc, List.cons_append, List.nil_append]
  | .more a as, h, p, hp, d, hd, cur, k => by
    simp only [Alts.ok, Bool.and_eq_true] at h
    simp only [Alts.text, List.append_assoc, List.cons_append]
    rw [split_word a false h.1 p hp d (by omega) (by simp), splitParts, if_neg (by simp), if_neg (by simp),
      if_neg (by intro x; omega), split_alts as h.2 _ (by simp) d hd]
    simp only [lastOr_cons, lastOr_append, List.append_assoc, List.cons_append, List.nil_append]
theorem last_alts : ∀ (a : Alts), a.ok = true → ∀ p, p ≠ some '\\' → lastOr p a.text ≠ some '\\'
  | .two a b, h, p, hp => by
    simp only [Alts.ok, Bool.and_eq_true] at h
    simp only [Alts.text, lastOr_append, lastOr_cons]
    exact lastOr_text b false h.2 _ (by simp)
  | .more a as, h, p, hp => by
    simp only [Alts.ok, Bool.and_eq_true] at h
    simp only [Alts.text, lastOr_append, lastOr_cons]
    exact last_alts as h.2 _ (by simp)
end

/-- Splitting a group gives its alternatives. -/
theorem split_group : ∀ (a : Alts), a.ok = true → ∀ p, p ≠ some '\\' →
    splitParts p 0 [] a.text = a.list.map Word.text
  | .two a b, h, p, hp => by
    simp only [Alts.ok, Bool.and_eq_true] at h
    simp only [Alts.text]
    rw [split_word a false h.1 p hp 0 (by omega) (by simp), splitParts, if_neg (by simp), if_neg (by simp),
      if_pos ⟨rfl, rfl, lastOr_text a false h.1 p hp⟩]
    have := split_word b false h.2 (some ',') (by simp) 0 (by omega) (by simp) [] []
    simp only [List.append_nil] at this
    rw [this]
    simp [Alts.list, splitParts]
  | .more a as, h, p, hp => by
    simp only [Alts.ok, Bool.and_eq_true] at h
    simp only [Alts.text]
    rw [split_word a false h.1 p hp 0 (by omega) (by simp), splitParts, if_neg (by simp), if_neg (by simp),
      if_pos ⟨rfl, rfl, lastOr_text a false h.1 p hp⟩, split_group as h.2 _ (by simp)]
    simp [Alts.list]

theorem head_rev (b l : List Char) : (l.reverse ++ b).head? = lastOr b.head? l := by
  induction l generalizing b with
  | nil => rfl
  | cons c l ih => rw [lastOr_cons, List.reverse_cons, List.append_assoc, ih]; rfl

theorem find_pop (b : List Char) (x y : Nat) (st : List Nat) (k : List Char) (hb : b.head? ≠ some '\\') :
    findBrace b (x :: y :: st) ('}' :: k) = findBrace ('}' :: b) (y :: st) k := by
  conv_lhs => unfold findBrace
  rw [if_neg (by simp), if_pos ⟨rfl, hb⟩]

theorem find_other (b : List Char) (st : List Nat) (c : Char) (k : List Char)
    (h1 : ¬ (c = '{' ∧ b.head? ≠ some '\\')) (h2 : ¬ (c = '}' ∧ b.head? ≠ some '\\')) :
    findBrace b st (c :: k) = findBrace (c :: b) st k := by
  conv_lhs => unfold findBrace
  rw [if_neg h1, if_neg h2]

theorem find_open (b : List Char) (st : List Nat) (k : List Char) (hb : b.head? ≠ some '\\') :
    findBrace b st ('{' :: k) = findBrace ('{' :: b) (b.length :: st) k := by
  conv_lhs => unfold findBrace
  rw [if_pos ⟨rfl, hb⟩]

theorem find_close (b : List Char) (x : Nat) (k : List Char) (hb : b.head? ≠ some '\\') :
    findBrace b [x] ('}' :: k) = some (b.reverse.take x, b.reverse.drop (x + 1), k) := by
  unfold findBrace
  rw [if_neg (by simp), if_pos ⟨rfl, hb⟩]

mutual
theorem find_word : ∀ (w : Word) (t : Bool), w.ok t = true → ∀ (b : List Char), b.head? ≠ some '\\' →
    ∀ (x : Nat) (st : List Nat) (k : List Char),
    findBrace b (x :: st) (w.text ++ k) = findBrace (w.text.reverse ++ b) (x :: st) k
  | .nil, _, _, b, _, x, st, k => by simp [Word.text]
  | .plain c r, t, h, b, hb, x, st, k => by
    simp only [Word.ok, Bool.and_eq_true, bne_iff_ne] at h
    simp only [Word.text, List.cons_append]
    rw [find_other _ _ _ _ (by simp [h.1.1.1.1]) (by simp [h.1.1.1.2]),
      find_word r t h.2 _ (by simpa using h.1.1.2)]
    simp
  | .esc c r, t, h, b, hb, x, st, k => by
    simp only [Word.ok, Bool.and_eq_true, bne_iff_ne] at h
    simp only [Word.text, List.cons_append]
    rw [find_other _ _ _ _ (by simp) (by simp), find_other _ _ _ _ (by simp) (by simp),
      find_word r t h.2 _ (by simpa using h.1)]
    simp
  | .grp a r, t, h, b, hb, x, st, k => by
    simp only [Word.ok, Bool.and_eq_true] at h
    simp only [Word.text, List.cons_append, List.append_assoc]
    rw [find_open _ _ _ hb]
    rw [find_alts a h.1 _ (by simp)]
    rw [find_pop _ _ _ _ _ (by rw [head_rev]; exact last_alts a h.1 _ (by simp)),
      find_word r t h.2 _ (by simp)]
    simp
theorem find_alts : ∀ (a : Alts), a.ok = true → ∀ (b : List Char), b.head? ≠ some '\\' →
    ∀ (x : Nat) (st : List Nat) (k : List Char),
    findBrace b (x :: st) (a.text ++ k) = findBrace (a.text.reverse ++ b) (x :: st) k
  | .two a c, h, b, hb, x, st, k => by
    simp only [Alts.ok, Bool.and_eq_true] at h
    simp only [Alts.text, List.append_assoc, List.cons_append]
    rw [find_word a false h.1 b hb, find_other _ _ _ _ (by simp) (by simp),
      find_word c false h.2 _ (by simp)]
    simp
  | .more a as, h, b, hb, x, st, k => by
    simp only [Alts.ok, Bool.and_eq_true] at h
    simp only [Alts.text, List.append_assoc, List.cons_append]
    rw [find_word a false h.1 b hb, find_other _ _ _ _ (by simp) (by simp),
      find_alts as h.2 _ (by simp)]
    simp
end

/-- The first group of a word: literals before it, alternatives, rest. -/
def firstGroup : Word → Option (Word × Alts × Word)
  | .nil => none
  | .plain c r => (firstGroup r).map (fun (p, a, s) => (.plain c p, a, s))
  | .esc c r => (firstGroup r).map (fun (p, a, s) => (.esc c p, a, s))
  | .grp a r => some (.nil, a, r)

theorem firstGroup_none : ∀ (w : Word), firstGroup w = none → w.choices = [w.text]
  | .nil, _ => rfl
  | .plain c r, h => by
    simp only [firstGroup, Option.map_eq_none_iff] at h
    simp [Word.choices, Word.text, firstGroup_none r h]
  | .esc c r, h => by
    simp only [firstGroup, Option.map_eq_none_iff] at h
    simp [Word.choices, Word.text, firstGroup_none r h]
  | .grp a r, h => by simp [firstGroup] at h

theorem firstGroup_some : ∀ (w : Word) {p a s}, firstGroup w = some (p, a, s) →
    w = p.app (.grp a s) ∧ p.groups = 0
  | .nil, _, _, _, h => by simp [firstGroup] at h
  | .plain c r, p, a, s, h => by
    simp only [firstGroup, Option.map_eq_some_iff] at h
    obtain ⟨⟨p', a', s'⟩, h1, h2⟩ := h
    simp only [Prod.mk.injEq] at h2
    obtain ⟨rfl, rfl, rfl⟩ := h2
    have := firstGroup_some r h1
    exact ⟨by rw [Word.app, ← this.1], by simpa [Word.groups] using this.2⟩
  | .esc c r, p, a, s, h => by
    simp only [firstGroup, Option.map_eq_some_iff] at h
    obtain ⟨⟨p', a', s'⟩, h1, h2⟩ := h
    simp only [Prod.mk.injEq] at h2
    obtain ⟨rfl, rfl, rfl⟩ := h2
    have := firstGroup_some r h1
    exact ⟨by rw [Word.app, ← this.1], by simpa [Word.groups] using this.2⟩
  | .grp a r, p, a', s, h => by
    simp only [firstGroup, Option.some.injEq, Prod.mk.injEq] at h
    obtain ⟨rfl, rfl, rfl⟩ := h
    exact ⟨rfl, rfl⟩

theorem find_none : ∀ (w : Word), w.ok true = true → firstGroup w = none → ∀ (b : List Char),
    findBrace b [] w.text = none
  | .nil, _, _, b => rfl
  | .plain c r, h, hg, b => by
    simp only [Word.ok, Bool.and_eq_true, bne_iff_ne] at h
    simp only [firstGroup, Option.map_eq_none_iff] at hg
    simp only [Word.text]
    rw [find_other _ _ _ _ (by simp [h.1.1.1.1]) (by simp [h.1.1.1.2]), find_none r h.2 hg]
  | .esc c r, h, hg, b => by
    simp only [Word.ok, Bool.and_eq_true, bne_iff_ne] at h
    simp only [firstGroup, Option.map_eq_none_iff] at hg
    simp only [Word.text]
    rw [find_other _ _ _ _ (by simp) (by simp), find_other _ _ _ _ (by simp) (by simp),
      find_none r h.2 hg]
  | .grp a r, _, hg, b => by simp [firstGroup] at hg

theorem find_lits : ∀ (p : Word), p.ok true = true → p.groups = 0 → ∀ (b k : List Char), b.head? ≠ some '\\' →
    findBrace b [] (p.text ++ k) = findBrace (p.text.reverse ++ b) [] k
  | .nil, _, _, b, k, _ => rfl
  | .plain c r, h, hg, b, k, hb => by
    simp only [Word.ok, Bool.and_eq_true, bne_iff_ne] at h
    simp only [Word.text, List.cons_append]
    rw [find_other _ _ _ _ (by simp [h.1.1.1.1]) (by simp [h.1.1.1.2]),
      find_lits r h.2 (by simpa [Word.groups] using hg) _ _ (by simpa using h.1.1.2)]
    simp
  | .esc c r, h, hg, b, k, hb => by
    simp only [Word.ok, Bool.and_eq_true, bne_iff_ne] at h
    simp only [Word.text, List.cons_append]
    rw [find_other _ _ _ _ (by simp) (by simp), find_other _ _ _ _ (by simp) (by simp),
      find_lits r h.2 (by simpa [Word.groups] using hg) _ _ (by simpa using h.1)]
    simp
  | .grp a r, _, hg, b, k, _ => by simp [Word.groups] at hg

theorem find_first (p : Word) (a : Alts) (s : Word) (hp : p.ok true = true) (h0 : p.groups = 0)
    (ha : a.ok = true) :
    findBrace [] [] (p.text ++ ('{' :: (a.text ++ '}' :: s.text))) = some (p.text, a.text, s.text) := by
  rw [find_lits p hp h0 _ _ (by simp)]
  rw [find_open _ _ _ (by rw [head_rev]; exact lastOr_text p true hp _ (by simp))]
  rw [find_alts a ha _ (by simp)]
  rw [find_close _ _ _ (by rw [head_rev]; exact last_alts a ha _ (by simp))]
  have e : (a.text.reverse ++ '{' :: (p.text.reverse ++ [])).reverse = p.text ++ '{' :: a.text := by simp
  simp only [e]
  have e2 : (p.text.reverse ++ ([] : List Char)).length = p.text.length := by simp
  rw [e2, List.take_left' rfl]
  have : p.text ++ '{' :: a.text = (p.text ++ ['{']) ++ a.text := by simp
  rw [this, List.drop_left' (by simp)]

theorem expand_word : ∀ (n : Nat) (w : Word), w.ok true = true → w.groups < n →
    expandBracesN n w.text = w.choices := by
  intro n
  induction n with
  | zero => intro w _ h; omega
  | succ n ih =>
    intro w hok hn
    cases hg : firstGroup w with
    | none =>
      rw [expandBracesN, find_none w hok hg]
      exact (firstGroup_none w hg).symm
    | some x =>
      obtain ⟨p, a, s⟩ := x
      obtain ⟨rfl, h0⟩ := firstGroup_some w hg
      rw [app_ok] at hok
      simp only [Word.ok, Bool.and_eq_true] at hok
      rw [app_groups] at hn
      simp only [Word.groups] at hn
      rw [expandBracesN, app_text]
      simp only [Word.text, List.cons_append]
      rw [find_first p a s hok.1 h0 hok.2.1]
      simp only
      rw [split_group a hok.2.1 none (by simp), List.flatMap_map, app_choices, Word.choices,
        list_choices]
      simp only [List.map_flatMap, List.flatMap_assoc]
      have hp : p.choices = [p.text] := by
        cases hpg : firstGroup p with
        | none => exact firstGroup_none p hpg
        | some y =>
          obtain ⟨p1, p2, p3⟩ := y
          obtain ⟨rfl, -⟩ := firstGroup_some p hpg
          rw [app_groups] at h0
          simp [Word.groups] at h0
      rw [hp, List.flatMap_singleton]
      have step : ∀ v ∈ a.list, expandBracesN n (p.text ++ v.text ++ s.text) =
          v.choices.flatMap (fun x => (s.choices.map (fun y => x ++ y)).map (fun z => p.text ++ z)) := by
        intro v hv
        have : p.text ++ v.text ++ s.text = (p.app (v.app s)).text := by
          rw [app_text, app_text, List.append_assoc]
        rw [this, ih]
        · rw [app_choices, app_choices, hp, List.flatMap_singleton, List.map_flatMap]
        · rw [app_ok, app_ok, hok.1, hok.2.2, ok_top v (list_ok a hok.2.1 v hv)]; rfl
        · rw [app_groups, app_groups]
          have := list_groups a v hv
          omega
      revert step
      generalize a.list = l
      intro step
      induction l with
      | nil => rfl
      | cons v l ihl =>
        rw [List.flatMap_cons, List.flatMap_cons, step v (by simp),
          ihl (fun u hu => step u (List.mem_cons_of_mem _ hu))]

mutual
theorem groups_le : ∀ (w : Word), w.groups ≤ w.text.length
  | .nil => by simp [Word.groups]
  | .plain c r => by have := groups_le r; simp [Word.groups, Word.text]; omega
  | .esc c r => by have := groups_le r; simp [Word.groups, Word.text]; omega
  | .grp a r => by
    have := groups_le r; have := groups_le_alts a
    simp [Word.groups, Word.text]; omega
theorem groups_le_alts : ∀ (a : Alts), a.groups ≤ a.text.length
  | .two a b => by
    have := groups_le a; have := groups_le b
    simp [Alts.groups, Alts.text]; omega
  | .more a as => by
    have := groups_le a; have := groups_le_alts as
    simp [Alts.groups, Alts.text]; omega
end

/-- **C09, the part that holds.** A word with any number of brace groups, nested in any way, each
with at least two alternatives, expands to the list of all choices, the leftmost group varying
slowest, one entry per combination.  Missing: groups with a single alternative are not left alone
(`C09_single_violated`), and unbalanced braces. -/
theorem C09_product_partial (w : Word) (h : w.ok true = true) : expandBraces w.text = w.choices :=
  expand_word _ w h (Nat.lt_succ_of_le (groups_le w))

/-- Words without braces are left alone. -/
theorem C09_no_braces (s : List Char) (h : '{' ∉ s) : expandBraces s = [s] := by
  have key : ∀ (s b : List Char), '{' ∉ s → findBrace b [] s = none := by
    intro s
    induction s with
    | nil => intro _ _; rfl
    | cons c s ih =>
      intro b hs
      rw [findBrace, if_neg (by rintro ⟨rfl, -⟩; simp at hs)]
      have := ih (c :: b) (fun hm => hs (List.mem_cons_of_mem _ hm))
      split
      · exact this
      · exact this
  unfold expandBraces expandBracesN
  rw [key s [] h]

/-- `a{b,{c,d}e}{x,y}` -/
def exWord : Word :=
  .plain 'a' (.grp (.two (.plain 'b' .nil) (.grp (.two (.plain 'c' .nil) (.plain 'd' .nil)) (.plain 'e' .nil)))
    (.grp (.two (.plain 'x' .nil) (.plain 'y' .nil)) .nil))

example : exWord.text = c!"a{b,{c,d}e}{x,y}" ∧ exWord.ok true = true ∧
    exWord.choices = [c!"abx", c!"aby", c!"acex", c!"acey", c!"adex", c!"adey"] := by decide
example : expandBraces c!"a{b,{c,d}e}{x,y}" = [c!"abx", c!"aby", c!"acex", c!"acey", c!"adex", c!"adey"] :=
  C09_product_partial exWord (by decide)

/-- **C09 fails** for braces without a comma: they are removed, so `{}` (as in `find -exec … {}`)
vanishes; and a group next to an unmatched brace is not expanded. -/
theorem C09_single_violated :
    expandBraces c!"{a}" = [c!"a"] ∧ expandBraces c!"{}" = [c!""] ∧
    expandBraces c!"{x{a,b}" = [c!"{x{a,b}"] := by decide

end Dsh.Shell.Brace
