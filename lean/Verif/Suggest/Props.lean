import Verif.Suggest.Model
import Verif.Util
/-!
C39 – "did you mean" uses true edit distance.
-/
namespace Dsh.Suggest

/-! ### Specification -/

/-- One single-character edit: insertion, deletion or substitution at any place. -/
inductive Spec.Edit : List Char → List Char → Prop
  | ins (pre post : List Char) (c : Char) : Spec.Edit (pre ++ post) (pre ++ c :: post)
  | del (pre post : List Char) (c : Char) : Spec.Edit (pre ++ c :: post) (pre ++ post)
  | sub (pre post : List Char) (c d : Char) : Spec.Edit (pre ++ c :: post) (pre ++ d :: post)

/-- `b` is obtained from `a` by exactly `n` single-character edits. -/
inductive Spec.Edits : Nat → List Char → List Char → Prop
  | refl (a) : Spec.Edits 0 a a
  | step {n a b c} : Spec.Edit a b → Spec.Edits n b c → Spec.Edits (n + 1) a c

/-- `d` is the least number of edits leading from `a` to `b`. -/
def Spec.IsDistance (a b : List Char) (d : Nat) : Prop :=
  Spec.Edits d a b ∧ ∀ n, Spec.Edits n a b → d ≤ n

/-! ### The recursive distance and its optimality -/

/-- Recursive distance (proof device). -/
def lev : List Char → List Char → Nat
  | [], b => b.length
  | a, [] => a.length
  | x :: a, y :: b =>
    min (min (lev a (y :: b) + 1) (lev (x :: a) b + 1)) (lev a b + (if x = y then 0 else 1))
termination_by a b => a.length + b.length

theorem lev_nil_left (b) : lev [] b = b.length := by simp [lev]
theorem lev_nil_right (a) : lev a [] = a.length := by cases a <;> simp [lev]
theorem lev_cons (x a y b) : lev (x :: a) (y :: b) =
    min (min (lev a (y :: b) + 1) (lev (x :: a) b + 1)) (lev a b + (if x = y then 0 else 1)) := by
  rw [lev]

theorem lev_self (a) : lev a a = 0 := by
  induction a with
  | nil => simp [lev]
  | cons x a ih => rw [lev_cons]; simp [ih]

theorem lev_cons_left_le (x a b) : lev (x :: a) b ≤ lev a b + 1 := by
  cases b with
  | nil => simp [lev_nil_right]
  | cons y b => rw [lev_cons]; omega

theorem lev_cons_right_le (a y b) : lev a (y :: b) ≤ lev a b + 1 := by
  cases a with
  | nil => simp [lev_nil_left]
  | cons x a => rw [lev_cons]; omega

theorem lev_le_cons_left (x a b) : lev a b ≤ lev (x :: a) b + 1 := by
  induction b with
  | nil => simp only [lev_nil_right, List.length_cons]; omega
  | cons y b ih =>
    rw [lev_cons]
    have := lev_cons_right_le a y b
    omega

theorem lev_head_sub (x y a b) : lev (x :: a) b ≤ lev (y :: a) b + 1 := by
  induction b with
  | nil => simp [lev_nil_right]
  | cons z b ih =>
    rw [lev_cons, lev_cons]
    split <;> split <;> omega

theorem lev_congr (p : Char) (a a' : List Char) (h : ∀ b, lev a b ≤ lev a' b + 1) (b) :
    lev (p :: a) b ≤ lev (p :: a') b + 1 := by
  induction b with
  | nil => have := h []; simp only [lev_nil_right, List.length_cons] at *; omega
  | cons y b ih =>
    rw [lev_cons, lev_cons]
    have := h (y :: b); have := h b
    omega

theorem lev_edit {a a' : List Char} (h : Spec.Edit a a') (b) : lev a b ≤ lev a' b + 1 := by
  cases h with
  | ins pre post c =>
    induction pre generalizing b with
    | nil => simpa using lev_le_cons_left c post b
    | cons p pre ih => exact lev_congr p _ _ ih b
  | del pre post c =>
    induction pre generalizing b with
    | nil => simpa using lev_cons_left_le c post b
    | cons p pre ih => exact lev_congr p _ _ ih b
  | sub pre post c d =>
    induction pre generalizing b with
    | nil => simpa using lev_head_sub c d post b
    | cons p pre ih => exact lev_congr p _ _ ih b

theorem lev_lower {n a b} (h : Spec.Edits n a b) : lev a b ≤ n := by
  induction h with
  | refl a => simp [lev_self]
  | step e _ ih => have := lev_edit e; exact Nat.le_trans (this _) (by omega)

theorem edit_cons {a b} (x : Char) (h : Spec.Edit a b) : Spec.Edit (x :: a) (x :: b) := by
  cases h with
  | ins pre post c => exact Spec.Edit.ins (x :: pre) post c
  | del pre post c => exact Spec.Edit.del (x :: pre) post c
  | sub pre post c d => exact Spec.Edit.sub (x :: pre) post c d

theorem edits_cons {n a b} (x : Char) (h : Spec.Edits n a b) : Spec.Edits n (x :: a) (x :: b) := by
  induction h with
  | refl a => exact .refl _
  | step e _ ih => exact .step (edit_cons x e) ih

theorem edits_snoc {n a b c} (h : Spec.Edits n a b) (e : Spec.Edit b c) : Spec.Edits (n + 1) a c := by
  induction h with
  | refl a => exact .step e (.refl _)
  | step e' _ ih => exact .step e' (ih e)

theorem edits_del_all (a : List Char) : Spec.Edits a.length a [] := by
  induction a with
  | nil => exact .refl _
  | cons x a ih => exact .step (Spec.Edit.del [] a x) ih

theorem edits_ins_all (b : List Char) : Spec.Edits b.length [] b := by
  induction b with
  | nil => exact .refl _
  | cons x a ih => exact edits_snoc ih (Spec.Edit.ins [] a x)

theorem lev_attained (a b : List Char) : Spec.Edits (lev a b) a b := by
  fun_induction lev a b with
  | case1 b => exact edits_ins_all b
  | case2 a h => exact edits_del_all a
  | case3 x a y b ih1 ih2 ih3 =>
    have h1 : Spec.Edits (lev a (y :: b) + 1) (x :: a) (y :: b) := .step (Spec.Edit.del [] a x) ih1
    have h2 : Spec.Edits (lev (x :: a) b + 1) (x :: a) (y :: b) :=
      edits_snoc ih2 (Spec.Edit.ins [] b y)
    have h3 : Spec.Edits (lev a b + (if x = y then 0 else 1)) (x :: a) (y :: b) := by
      split
      · next h => subst h; exact edits_cons x ih3
      · exact .step (Spec.Edit.sub [] a x y) (edits_cons y ih3)
    rcases Nat.le_total (min (lev a (y :: b) + 1) (lev (x :: a) b + 1))
      (lev a b + (if x = y then 0 else 1)) with h | h
    · rw [Nat.min_eq_left h]
      rcases Nat.le_total (lev a (y :: b) + 1) (lev (x :: a) b + 1) with h' | h'
      · rw [Nat.min_eq_left h']; exact h1
      · rw [Nat.min_eq_right h']; exact h2
    · rw [Nat.min_eq_right h]; exact h3

theorem edit_reverse {a b} (h : Spec.Edit a b) : Spec.Edit a.reverse b.reverse := by
  cases h with
  | ins pre post c =>
    simpa using Spec.Edit.ins post.reverse pre.reverse c
  | del pre post c =>
    simpa using Spec.Edit.del post.reverse pre.reverse c
  | sub pre post c d =>
    simpa using Spec.Edit.sub post.reverse pre.reverse c d

theorem edits_reverse {n a b} (h : Spec.Edits n a b) : Spec.Edits n a.reverse b.reverse := by
  induction h with
  | refl a => exact .refl _
  | step e _ ih => exact .step (edit_reverse e) ih

theorem lev_reverse (a b : List Char) : lev a.reverse b.reverse = lev a b := by
  apply Nat.le_antisymm
  · exact lev_lower (edits_reverse (lev_attained a b))
  · have := lev_lower (edits_reverse (lev_attained a.reverse b.reverse))
    simpa using this

/-! ### The dynamic programme computes `lev` of prefixes -/

/-- Distance between the prefixes of lengths `i` and `j`. -/
def D (a b : List Char) (i j : Nat) : Nat := lev (a.take i).reverse (b.take j).reverse

theorem D_zero_left (a b j) (hj : j ≤ b.length) : D a b 0 j = j := by
  simp [D, lev_nil_left, hj]

theorem D_zero_right (a b i) (hi : i ≤ a.length) : D a b i 0 = i := by
  simp [D, lev_nil_right, hi]

theorem take_succ_reverse (a : List Char) (i : Nat) (h : i < a.length) :
    (a.take (i + 1)).reverse = a[i] :: (a.take i).reverse := by
  rw [List.take_add_one]; simp [h]

theorem D_succ (a b : List Char) (i j : Nat) (hi : i < a.length) (hj : j < b.length) :
    D a b (i + 1) (j + 1) = min (min (D a b i (j + 1) + 1) (D a b (i + 1) j + 1))
      (D a b i j + (if a[i] = b[j] then 0 else 1)) := by
  unfold D
  rw [take_succ_reverse a i hi, take_succ_reverse b j hj, lev_cons]

/-- `row` holds row `i` of the distance table. -/
def IsRow (a b : List Char) (i : Nat) (row : List Nat) : Prop :=
  row.length = b.length + 1 ∧ ∀ j, j ≤ b.length → row[j]? = some (D a b i j)

theorem inner_spec (a b : List Char) (i : Nat) (hi : i < a.length) (prev : List Nat)
    (hp : IsRow a b i prev) :
    ∀ (bs : List Char) (j : Nat) (curr : List Nat), b.drop j = bs → j ≤ b.length →
      curr.length = b.length + 1 → (∀ k, k ≤ j → curr[k]? = some (D a b (i + 1) k)) →
      ∃ curr', inner a[i] prev j bs curr = some curr' ∧ IsRow a b (i + 1) curr' := by
  intro bs
  induction bs with
  | nil =>
    intro j curr hd hj hl hc
    have : b.length ≤ j := by simpa using hd
    exact ⟨curr, rfl, hl, fun k hk => hc k (by omega)⟩
  | cons c bs ih =>
    intro j curr hd hj hl hc
    have hlt : j < b.length := by
      by_contra h
      rw [List.drop_eq_nil_of_le (by omega)] at hd; cases hd
    have hcj : b[j] = c := by
      rw [List.drop_eq_getElem_cons hlt] at hd; exact (List.cons.inj hd).1
    have hdj : b.drop (j + 1) = bs := by
      rw [List.drop_eq_getElem_cons hlt] at hd; exact (List.cons.inj hd).2
    have e1 : rowGet prev (j + 1) = some (D a b i (j + 1)) := hp.2 _ (by omega)
    have e2 : rowGet curr j = some (D a b (i + 1) j) := hc _ (by omega)
    have e3 : rowGet prev j = some (D a b i j) := hp.2 _ (by omega)
    have hv := D_succ a b i j hi hlt
    rw [hcj] at hv
    have e4 : rowSet curr (j + 1) (D a b (i + 1) (j + 1)) =
        some (curr.set (j + 1) (D a b (i + 1) (j + 1))) := by
      unfold rowSet; rw [if_pos (by omega)]
    obtain ⟨curr', h1, h2⟩ := ih (j + 1) (curr.set (j + 1) (D a b (i + 1) (j + 1))) hdj (by omega)
      (by simpa using hl) (by
        intro k hk
        rw [List.getElem?_set]
        by_cases hkj : j + 1 = k
        · subst hkj; simp; omega
        · rw [if_neg hkj]; exact hc k (by omega))
    refine ⟨curr', ?_, h2⟩
    simp only [inner, e1, e2, e3, Option.bind_eq_bind, Option.bind_some, ← hv, e4, h1]

theorem outer_spec (a b : List Char) :
    ∀ (as : List Char) (i : Nat) (prev curr : List Nat), a.drop i = as → i ≤ a.length →
      IsRow a b i prev → curr.length = b.length + 1 →
      ∃ row, outer b i as prev curr = some row ∧ IsRow a b a.length row := by
  intro as
  induction as with
  | nil =>
    intro i prev curr hd hi hp hl
    have : a.length ≤ i := by simpa using hd
    have : i = a.length := by omega
    subst this
    exact ⟨prev, rfl, hp⟩
  | cons c as ih =>
    intro i prev curr hd hi hp hl
    have hlt : i < a.length := by
      by_contra h
      rw [List.drop_eq_nil_of_le (by omega)] at hd; cases hd
    have hci : a[i] = c := by
      rw [List.drop_eq_getElem_cons hlt] at hd; exact (List.cons.inj hd).1
    have hdi : a.drop (i + 1) = as := by
      rw [List.drop_eq_getElem_cons hlt] at hd; exact (List.cons.inj hd).2
    have e0 : rowSet curr 0 (i + 1) = some (curr.set 0 (i + 1)) := by
      unfold rowSet; rw [if_pos (by omega)]
    obtain ⟨curr', h1, h2⟩ := inner_spec a b i hlt prev hp b 0 (curr.set 0 (i + 1)) (by simp)
      (by omega) (by simpa using hl) (by
        intro k hk
        have : k = 0 := by omega
        subst this
        rw [List.getElem?_set]; simp [hl, D_zero_right a b (i + 1) (by omega)])
    rw [hci] at h1
    obtain ⟨row, h3, h4⟩ := ih (i + 1) curr' prev hdi (by omega) h2 hp.1
    exact ⟨row, by simp only [outer, e0, Option.bind_eq_bind, Option.bind_some, h1, h3], h4⟩

theorem levenshtein_eq_lev (a b : List Char) : levenshtein a b = some (lev a b) := by
  unfold levenshtein
  split
  · next h => rw [List.length_eq_zero_iff] at h; subst h; simp [lev_nil_left]
  split
  · next h => rw [List.length_eq_zero_iff] at h; subst h; simp [lev_nil_right]
  obtain ⟨row, h1, h2⟩ := outer_spec a b a 0 (List.range (b.length + 1))
    (List.replicate (b.length + 1) 0) (by simp) (by omega)
    ⟨by simp, fun j hj => by
      rw [D_zero_left a b j hj, List.getElem?_range (by omega)]⟩ (by simp)
  simp only [h1, Option.bind_eq_bind, Option.bind_some, rowGet]
  rw [h2.2 _ (by omega)]
  simp [D, lev_reverse]

/-! ### Property theorems -/

/-- C39: the computed distance is the least number of single-character insertions, deletions and
substitutions, for all pairs of strings; the computation never indexes out of range. -/
theorem C39_distance_is_minimal (a b : List Char) :
    ∃ d, levenshtein a b = some d ∧ Spec.IsDistance a b d :=
  ⟨lev a b, levenshtein_eq_lev a b, lev_attained a b, fun _ h => lev_lower h⟩

/-- Concrete case: `gti` to `git` takes two edits. -/
example : levenshtein c!"gti" c!"git" = some 2 := by decide

/-! ### Suggestions -/

theorem strLe_total : ∀ a b : List Char, (strLe a b || strLe b a) = true := by
  intro a
  induction a with
  | nil => intro b; simp [strLe]
  | cons x a ih =>
    intro b
    cases b with
    | nil => simp [strLe]
    | cons y b =>
      simp only [strLe]
      have := ih b
      split_ifs <;> simp_all

theorem strLe_trans : ∀ a b c : List Char, strLe a b = true → strLe b c = true → strLe a c = true := by
  intro a
  induction a with
  | nil => intro b c _ _; simp [strLe]
  | cons x a ih =>
    intro b c h1 h2
    cases b with
    | nil => simp [strLe] at h1
    | cons y b =>
      cases c with
      | nil => simp [strLe] at h2
      | cons z c =>
        simp only [strLe] at h1 h2 ⊢
        split_ifs at h1 h2 ⊢ <;> first | rfl | omega | skip
        exact ih b c h1 h2

theorem suggLe_total (a b : Suggestion) : (suggLe a b || suggLe b a) = true := by
  have := strLe_total a.command b.command
  simp only [suggLe]
  split_ifs <;> simp_all

theorem suggLe_trans (a b c : Suggestion) (h1 : suggLe a b = true) (h2 : suggLe b c = true) :
    suggLe a c = true := by
  simp only [suggLe] at h1 h2 ⊢
  split_ifs at h1 h2 ⊢ <;> first | rfl | omega | skip
  exact strLe_trans _ _ _ h1 h2

/-- A candidate is eligible for a typo: the typo's byte length is 2..30, and the candidate's
distance `d` is positive and at most `max 2 (30% of that length)`. -/
def Spec.Eligible (typo cand : List Char) (d : Nat) : Prop :=
  2 ≤ strLen typo ∧ strLen typo ≤ 30 ∧ Spec.IsDistance typo cand d ∧ 0 < d ∧
    d ≤ max 2 (strLen typo * 30 / 100)

theorem isDistance_unique {a b d d'} (h : Spec.IsDistance a b d) (h' : Spec.IsDistance a b d') :
    d = d' := Nat.le_antisymm (h.2 _ h'.1) (h'.2 _ h.1)

theorem isDistance_lev (a b) : Spec.IsDistance a b (lev a b) :=
  ⟨lev_attained a b, fun _ h => lev_lower h⟩

/-- Invariant of the candidate loop after handling the candidates `done`. -/
def PushInv (typo : List Char) (done : List (List Char))
    (st : List (List Char) × List Suggestion) : Prop :=
  (st.2.map (·.command)).Nodup ∧ (∀ c, c ∈ st.1 ↔ ∃ s ∈ st.2, s.command = c) ∧
  (∀ s, s ∈ st.2 ↔ s.command ∈ done ∧ Spec.Eligible typo s.command s.distance)

theorem pushCandidate_inv (typo c : List Char) (done) (st) (h : PushInv typo done st) :
    ∃ st', pushCandidate typo st c = some st' ∧ PushInv typo (done ++ [c]) st' := by
  obtain ⟨hn, hs, he⟩ := h
  unfold pushCandidate
  simp only [levenshtein_eq_lev, Option.bind_eq_bind, Option.bind_some]
  split
  · next h1 =>
    refine ⟨st, rfl, hn, hs, fun s => ?_⟩
    rw [he s]
    refine ⟨fun ⟨a, b⟩ => ⟨by simp [a], b⟩, fun ⟨a, b⟩ => ⟨?_, b⟩⟩
    rcases List.mem_append.1 a with a | a
    · exact a
    · have a : s.command = c := by simpa using a
      rcases h1 with h1 | h1
      · exact absurd ⟨b.1, b.2.1⟩ h1
      · obtain ⟨s', hs', e⟩ := (hs c).1 h1
        have := ((he s').1 hs').1
        rw [a, ← e]; exact this
  · next h1 =>
    have h1a : 2 ≤ strLen typo ∧ strLen typo ≤ 30 := by
      by_contra hc; exact h1 (.inl hc)
    have h1b : c ∉ st.1 := fun hc => h1 (.inr hc)
    split
    · next h2 =>
      refine ⟨_, rfl, ?_, ?_, ?_⟩
      · simp only [List.map_append, List.map_cons, List.map_nil, List.nodup_append]
        refine ⟨hn, by simp, ?_⟩
        intro x hx y hy
        simp only [List.mem_singleton] at hy
        subst hy
        rintro rfl
        obtain ⟨s, hs', rfl⟩ := List.mem_map.1 hx
        exact h1b ((hs _).2 ⟨s, hs', rfl⟩)
      · intro x
        simp only [List.mem_cons, List.mem_append, List.not_mem_nil, or_false, hs x]
        constructor
        · rintro (rfl | ⟨s, a, b⟩)
          · exact ⟨⟨_, lev typo _⟩, .inr rfl, rfl⟩
          · exact ⟨s, .inl a, b⟩
        · rintro ⟨s, a | a, b⟩
          · exact .inr ⟨s, a, b⟩
          · subst a; exact .inl b.symm
      · intro s
        simp only [List.mem_append, List.mem_singleton, he s]
        constructor
        · rintro (⟨a, b⟩ | rfl)
          · exact ⟨.inl a, b⟩
          · exact ⟨.inr rfl, h1a.1, h1a.2, isDistance_lev _ _, h2.2, h2.1⟩
        · rintro ⟨a | a, b⟩
          · exact .inl ⟨a, b⟩
          · right
            have := isDistance_unique b.2.2.1 (isDistance_lev _ _)
            cases s; simp only at a this ⊢; subst a; rw [this]
    · next h2 =>
      refine ⟨st, rfl, hn, hs, fun s => ?_⟩
      rw [he s]
      refine ⟨fun ⟨a, b⟩ => ⟨by simp [a], b⟩, fun ⟨a, b⟩ => ⟨?_, b⟩⟩
      rcases List.mem_append.1 a with a | a
      · exact a
      · have a : s.command = c := by simpa using a
        exfalso; apply h2
        have := isDistance_unique b.2.2.1 (isDistance_lev _ _)
        rw [a] at this
        rw [← this]
        exact ⟨b.2.2.2.2, b.2.2.2.1⟩

theorem pushAll_inv (typo) : ∀ (cs done st), PushInv typo done st →
    ∃ st', pushAll typo cs st = some st' ∧ PushInv typo (done ++ cs) st' := by
  intro cs
  induction cs with
  | nil => intro done st h; exact ⟨st, rfl, by simpa using h⟩
  | cons c cs ih =>
    intro done st h
    obtain ⟨st', h1, h2⟩ := pushCandidate_inv typo c done st h
    obtain ⟨st'', h3, h4⟩ := ih _ _ h2
    exact ⟨st'', by simp [pushAll, h1, h3], by simpa using h4⟩

/-- C39: the suggestions are at most three distinct eligible candidates, in order of
(distance, name), and no eligible candidate is left out in favour of a worse one. -/
theorem C39_suggestions (typo : List Char) (cands : List (List Char)) :
    ∃ out, findSimilar typo cands = some out ∧
      out.length ≤ 3 ∧ (out.map (·.command)).Nodup ∧
      out.Pairwise (fun a b => suggLe a b = true) ∧
      (∀ s ∈ out, s.command ∈ cands ∧ Spec.Eligible typo s.command s.distance) ∧
      (∀ c ∈ cands, ∀ d, Spec.Eligible typo c d →
        ⟨c, d⟩ ∈ out ∨ (out.length = 3 ∧ ∀ s ∈ out, suggLe s ⟨c, d⟩ = true)) := by
  obtain ⟨st, h1, hn, -, he⟩ := pushAll_inv typo cands [] ([], []) ⟨by simp, by simp, by simp⟩
  simp only [List.nil_append] at he
  have hperm := sortBy_perm suggLe st.2
  have hsort : (sortBy suggLe st.2).Pairwise (fun a b => suggLe a b = true) :=
    sortBy_sorted suggLe suggLe_trans suggLe_total st.2
  set sorted := sortBy suggLe st.2 with hsd
  refine ⟨sorted.take 3, by simp [findSimilar, h1, hsd], by simp; omega, ?_, ?_, ?_, ?_⟩
  · have : (sorted.map (·.command)).Nodup := (hperm.map _).nodup_iff.2 hn
    rw [List.map_take]
    exact this.sublist (List.take_sublist _ _)
  · exact hsort.sublist (List.take_sublist _ _)
  · intro s hs
    exact (he s).1 (hperm.mem_iff.1 (List.mem_of_mem_take hs))
  · intro c hc d hd
    have hm : (⟨c, d⟩ : Suggestion) ∈ sorted := hperm.mem_iff.2 ((he ⟨c, d⟩).2 ⟨hc, hd⟩)
    rw [← List.take_append_drop 3 sorted, List.mem_append] at hm
    rcases hm with hm | hm
    · exact .inl hm
    · right
      refine ⟨?_, ?_⟩
      · have : 0 < (sorted.drop 3).length := List.length_pos_of_mem hm
        simp at this ⊢; omega
      · rw [← List.take_append_drop 3 sorted, List.pairwise_append] at hsort
        intro s hs
        exact hsort.2.2 s hs _ hm

/-- Concrete case: a typo with two eligible candidates and one that is too far. -/
example : findSimilar c!"gti" [c!"git", c!"gtk", c!"python"]
    = some [⟨c!"gtk", 1⟩, ⟨c!"git", 2⟩] := by decide +kernel

example : Spec.Eligible c!"gti" c!"git" 2 := by
  have := isDistance_lev c!"gti" c!"git"
  have e : lev c!"gti" c!"git" = 2 := by
    have := levenshtein_eq_lev c!"gti" c!"git"
    rw [show levenshtein c!"gti" c!"git" = some 2 by decide] at this
    exact (Option.some.inj this).symm
  rw [e] at this
  exact ⟨by decide, by decide, this, by decide, by decide⟩

end Dsh.Suggest
