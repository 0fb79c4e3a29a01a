import Verif.Dirs.Frecency
/-!
Properties of the directory history: C24, C75–C77.
-/
namespace Dsh.Frec

/-! ### The order of names -/

theorem toNat_inj {a b : Char} (h : a.toNat = b.toNat) : a = b := by
  have := Char.ofNat_toNat a
  rw [← this, h, Char.ofNat_toNat]

theorem cmpStr_lt : ∀ s t : Str, cmpStr s t = .lt ↔ Before s t
  | [], [] => by simp only [cmpStr]; constructor
                 · intro h; cases h
                 · intro h; cases h
  | [], b :: t => by simp only [cmpStr]; exact ⟨fun _ => .short b t, fun _ => trivial⟩
  | a :: s, [] => by simp only [cmpStr]; constructor
                     · intro h; cases h
                     · intro h; cases h
  | a :: s, b :: t => by
    have ih := cmpStr_lt s t
    simp only [cmpStr]
    split
    · next h => exact ⟨fun _ => .char s t h, fun _ => rfl⟩
    · next h =>
      split
      · next h' =>
        constructor
        · intro h; cases h
        · intro hb
          cases hb with
          | char _ _ h'' => omega
          | tail _ _ => omega
      · next h' =>
        have : a = b := toNat_inj (by omega)
        subst this
        rw [ih]
        constructor
        · exact .tail a
        · intro hb
          cases hb with
          | char _ _ h'' => omega
          | tail _ h => exact h

theorem cmpStr_eq : ∀ s t : Str, cmpStr s t = .eq ↔ s = t
  | [], [] => by simp [cmpStr]
  | [], b :: t => by simp [cmpStr]
  | a :: s, [] => by simp [cmpStr]
  | a :: s, b :: t => by
    have ih := cmpStr_eq s t
    simp only [cmpStr]
    split
    · next h =>
      constructor
      · intro h; cases h
      · intro he; simp only [List.cons.injEq] at he; rw [he.1] at h; omega
    · next h =>
      split
      · next h' =>
        constructor
        · intro h; cases h
        · intro he; simp only [List.cons.injEq] at he; rw [he.1] at h'; omega
      · next h' =>
        have : a = b := toNat_inj (by omega)
        subst this
        rw [ih]
        simp

theorem cmpStr_swap : ∀ s t : Str, cmpStr t s = (cmpStr s t).swap
  | [], [] => rfl
  | [], b :: t => rfl
  | a :: s, [] => rfl
  | a :: s, b :: t => by
    have ih := cmpStr_swap s t
    simp only [cmpStr]
    by_cases h : a.toNat < b.toNat
    · rw [if_pos h, if_neg (by omega), if_pos h]; rfl
    · by_cases h' : b.toNat < a.toNat
      · rw [if_pos h', if_neg h, if_pos h']; rfl
      · rw [if_neg h', if_neg h, if_neg h, if_neg h']; exact ih

theorem cmpStr_gt (s t : Str) : cmpStr s t = .gt ↔ Before t s := by
  rw [← cmpStr_lt, cmpStr_swap t s]
  cases cmpStr t s <;> simp [Ordering.swap]

theorem before_irrefl (s : Str) : ¬ Before s s := by
  intro h
  rw [← cmpStr_lt, (cmpStr_eq s s).mpr rfl] at h
  cases h

theorem before_trans {s t u : Str} (h : Before s t) (h' : Before t u) : Before s u := by
  induction h generalizing u with
  | short b t => cases h' <;> exact .short _ _
  | char s t hab =>
    cases h' with
    | char _ _ hbc => exact .char _ _ (by omega)
    | tail _ _ => exact .char _ _ hab
  | tail a _ ih =>
    cases h' with
    | char _ _ hbc => exact .char _ _ hbc
    | tail _ h' => exact .tail _ (ih h')

theorem before_total (s t : Str) : Before s t ∨ s = t ∨ Before t s := by
  cases h : cmpStr s t with
  | lt => exact .inl ((cmpStr_lt s t).mp h)
  | eq => exact .inr (.inl ((cmpStr_eq s t).mp h))
  | gt => exact .inr (.inr ((cmpStr_gt s t).mp h))

/-- Between a prefix and a string extending it there are only extensions. -/
theorem prefix_between : ∀ (p a b : Str), ¬ Before a p → Before a b → p <+: b → p <+: a
  | [], a, b, _, _, _ => List.nil_prefix
  | c :: p, [], b, h, _, _ => absurd (.short c p) h
  | c :: p, x :: a, b, h, hab, hb => by
    obtain ⟨b', rfl⟩ := hb
    simp only [List.cons_append] at hab
    cases hab with
    | char _ _ hlt => exact absurd (.char _ _ hlt) h
    | tail _ hab =>
      have := prefix_between p a (p ++ b') (fun h' => h (.tail _ h')) hab (List.prefix_append ..)
      exact (List.prefix_cons_inj _).mpr this

theorem not_before_prefix (p s : Str) : ¬ Before (p ++ s) p := by
  induction p with
  | nil => intro h; cases h
  | cons c p ih =>
    intro h
    cases h with
    | char _ _ h => omega
    | tail _ h => exact ih h

/-! ### Binary search -/

theorem bsLoop_spec (f : Nat → Ordering) (n : Nat)
    (mono : ∀ i j, i ≤ j → j < n → f i = .gt → f j = .gt) :
    ∀ (fuel base size : Nat), size ≤ fuel → 1 ≤ size → base + size ≤ n →
      (base = 0 ∨ f base ≠ .gt) → (∀ i, base + size ≤ i → i < n → f i = .gt) →
      bsLoop f fuel base size < n ∧ (bsLoop f fuel base size = 0 ∨ f (bsLoop f fuel base size) ≠ .gt) ∧
        ∀ i, bsLoop f fuel base size < i → i < n → f i = .gt
  | 0, base, size, hf, h1, _, _, _ => by omega
  | fuel + 1, base, size, hf, h1, hn, hb, ha => by
    simp only [bsLoop]
    by_cases hs : 1 < size
    · rw [if_pos hs]
      by_cases hg : f (base + size / 2) = .gt
      · rw [if_pos hg]
        refine bsLoop_spec f n mono fuel base (size - size / 2) (by omega) (by omega) (by omega) hb ?_
        intro i hi hin
        have : base + (size - size / 2) = base + size / 2 ∨
          base + (size - size / 2) = base + size / 2 + 1 := by omega
        exact mono (base + size / 2) i (by omega) hin hg
      · rw [if_neg hg]
        refine bsLoop_spec f n mono fuel _ (size - size / 2) (by omega) (by omega) (by omega)
          (.inr hg) ?_
        intro i hi hin
        exact ha i (by omega) hin
    · rw [if_neg hs]
      exact ⟨by omega, hb, fun i hi hin => ha i (by omega) hin⟩

/-- What binary search tells when the comparison is monotone. -/
theorem bsearch_spec (f : Nat → Ordering) (n : Nat)
    (mono : ∀ i j, i ≤ j → j < n → f i = .gt → f j = .gt)
    (mono' : ∀ i j, i ≤ j → j < n → f j = .lt → f i = .lt) :
    (∀ i, bsearch f n = .inl i → i < n ∧ f i = .eq) ∧
    (∀ i, bsearch f n = .inr i → i ≤ n ∧ (∀ j, j < i → f j = .lt) ∧ ∀ j, i ≤ j → j < n → f j = .gt) := by
  unfold bsearch
  by_cases h0 : n = 0
  · rw [if_pos h0]
    refine ⟨fun i h => (Sum.inl_ne_inr h.symm).elim, fun i h => ?_⟩
    cases h
    exact ⟨by omega, by omega, by omega⟩
  · rw [if_neg h0]
    obtain ⟨hlt, hb, ha⟩ := bsLoop_spec f n mono n 0 n (Nat.le_refl _) (by omega) (by omega) (.inl rfl)
      (by omega)
    generalize bsLoop f n 0 n = b at *
    cases hf : f b with
    | eq =>
      refine ⟨fun i h => ?_, fun i h => (Sum.inl_ne_inr h).elim⟩
      cases h
      exact ⟨hlt, hf⟩
    | lt =>
      refine ⟨fun i h => (Sum.inl_ne_inr h.symm).elim, fun i h => ?_⟩
      cases h
      exact ⟨by omega, fun j hj => mono' j b (by omega) hlt hf, fun j hj hn => ha j (by omega) hn⟩
    | gt =>
      refine ⟨fun i h => (Sum.inl_ne_inr h.symm).elim, fun i h => ?_⟩
      cases h
      have : b = 0 := by
        rcases hb with hb | hb
        · exact hb
        · exact absurd hf hb
      exact ⟨by omega, by omega, fun j hj hn => mono b j hj hn hf⟩

theorem takeWhile_length_of {α} (p : α → Bool) : ∀ (l : List α) (k : Nat), k ≤ l.length →
    (∀ j (h : j < l.length), j < k → p l[j] = true) → (∀ j (h : j < l.length), k ≤ j → p l[j] = false) →
    (l.takeWhile p).length = k
  | [], k, hk, _, _ => by simp at hk; simp [hk]
  | x :: l, 0, _, _, h2 => by
    have := h2 0 (by simp) (by omega)
    simp only [List.getElem_cons_zero] at this
    simp [List.takeWhile, this]
  | x :: l, k + 1, hk, h1, h2 => by
    have := h1 0 (by simp) (by omega)
    simp only [List.getElem_cons_zero] at this
    have ih := takeWhile_length_of p l k (by simpa using hk)
      (fun j h hj => by
        have := h1 (j + 1) (by simpa using h) (by omega)
        rwa [List.getElem_cons_succ] at this)
      (fun j h hj => by
        have := h2 (j + 1) (by simpa using h) (by omega)
        rwa [List.getElem_cons_succ] at this)
    simp [List.takeWhile, this, ih]

/-- `partition_point` on a list whose satisfying elements come first. -/
theorem partitionPoint_eq {α} (p : α → Bool) (l : List α)
    (h : l.Pairwise (fun a b => p b = true → p a = true)) :
    partitionPoint p l = (l.takeWhile p).length := by
  have hp : ∀ i j (hj : j < l.length) (hij : i ≤ j), p l[j] = true → p (l[i]'(by omega)) = true := by
    intro i j hj hij hpj
    rcases Nat.lt_or_ge i j with hlt | hge
    · exact List.pairwise_iff_getElem.mp h i j (by omega) hj hlt hpj
    · have : i = j := by omega
      subst this; exact hpj
  let f : Nat → Ordering := fun i => if (l[i]?).any p then .lt else .gt
  have hf : ∀ i (hi : i < l.length), f i = if p l[i] then .lt else .gt := by
    intro i hi
    simp [f, List.getElem?_eq_getElem hi]
  have mono : ∀ i j, i ≤ j → j < l.length → f i = .gt → f j = .gt := by
    intro i j hij hj hi
    rw [hf i (by omega)] at hi
    rw [hf j hj]
    by_cases hpj : p l[j] = true
    · rw [if_pos (hp i j hj hij hpj)] at hi; cases hi
    · rw [if_neg hpj]
  have mono' : ∀ i j, i ≤ j → j < l.length → f j = .lt → f i = .lt := by
    intro i j hij hj hi
    rw [hf j hj] at hi
    rw [hf i (by omega)]
    by_cases hpj : p l[j] = true
    · rw [if_pos (hp i j hj hij hpj)]
    · rw [if_neg hpj] at hi; cases hi
  obtain ⟨h1, h2⟩ := bsearch_spec f l.length mono mono'
  unfold partitionPoint
  show (match bsearch f l.length with | .inl i => i | .inr i => i) = _
  cases hb : bsearch f l.length with
  | inl i =>
    obtain ⟨hi, he⟩ := h1 i hb
    rw [hf i hi] at he
    split at he <;> cases he
  | inr i =>
    obtain ⟨hi, hl, hr⟩ := h2 i hb
    refine (takeWhile_length_of p l i hi ?_ ?_).symm
    · intro j hj hji
      have := hl j hji
      rw [hf j hj] at this
      by_contra hc
      rw [if_neg hc] at this; cases this
    · intro j hj hij
      have := hr j hij hj
      rw [hf j hj] at this
      cases hpj : p l[j] with
      | false => rfl
      | true => rw [hpj] at this; cases this

theorem take_takeWhile {α} (p : α → Bool) (l : List α) :
    l.take (l.takeWhile p).length = l.takeWhile p := by
  induction l with
  | nil => rfl
  | cons a l ih =>
    by_cases h : p a = true
    · simp [List.takeWhile, h, ih]
    · simp [List.takeWhile, h]

theorem drop_takeWhile {α} (p : α → Bool) (l : List α) :
    l.drop (l.takeWhile p).length = l.dropWhile p := by
  induction l with
  | nil => rfl
  | cons a l ih =>
    by_cases h : p a = true
    · simp [List.takeWhile, List.dropWhile, h, ih]
    · simp [List.takeWhile, List.dropWhile, h]

theorem takeWhile_eq_filter {α} (p : α → Bool) (l : List α)
    (h : l.Pairwise (fun a b => p b = true → p a = true)) : l.takeWhile p = l.filter p := by
  induction l with
  | nil => rfl
  | cons a l ih =>
    rw [List.pairwise_cons] at h
    by_cases ha : p a = true
    · simp [List.takeWhile, ha, ih h.2]
    · have : l.filter p = [] := by
        rw [List.filter_eq_nil_iff]
        intro b hb hpb
        exact ha (h.1 b hb hpb)
      simp [List.takeWhile, ha, this]

/-- **C24.** On a sorted store the prefix search gives exactly the entries with that prefix, in
order. -/
theorem prefix_range_exact (l : List Item) (h : Sorted l) (p : Str) :
    prefixRange l p = l.filter (fun i => decide (p <+: i.name)) := by
  unfold prefixRange
  obtain ⟨q, hq⟩ : ∃ q : Item → Bool, q = fun i => cmpStr i.name p == .lt := ⟨_, rfl⟩
  rw [← hq]
  have hlt : ∀ i : Item, q i = true ↔ Before i.name p := by
    intro i
    rw [hq]
    dsimp only
    rw [beq_iff_eq, cmpStr_lt]
  have h1 : l.Pairwise (fun a b => q b = true → q a = true) := by
    refine h.imp ?_
    intro a b hab
    simp only [hlt]
    exact before_trans hab
  dsimp only
  rw [partitionPoint_eq _ _ h1, drop_takeWhile]
  have hsub : (l.dropWhile q).Sublist l := List.dropWhile_sublist ..
  have hge : ∀ a ∈ l.dropWhile q, ¬ Before a.name p := by
    clear hsub
    induction l with
    | nil => simp
    | cons x l ih =>
      rw [Sorted, List.pairwise_cons] at h
      rw [List.pairwise_cons] at h1
      intro a ha
      by_cases hx : q x = true
      · rw [List.dropWhile_cons_of_pos hx] at ha
        exact ih h.2 h1.2 a ha
      · rw [List.dropWhile_cons_of_neg hx] at ha
        rw [hlt] at hx
        intro hb
        rcases List.mem_cons.mp ha with rfl | ha
        · exact hx hb
        · exact hx (before_trans (h.1 a ha) hb)
  have h2 : (l.dropWhile q).Pairwise
      (fun a b => p.isPrefixOf b.name = true → p.isPrefixOf a.name = true) := by
    have := (h.sublist hsub)
    rw [List.pairwise_iff_forall_sublist] at this
    rw [List.pairwise_iff_forall_sublist]
    intro a b hab hb
    rw [List.isPrefixOf_iff_prefix] at *
    exact prefix_between p a.name b.name (hge a (hab.subset (by simp))) (this hab) hb
  rw [partitionPoint_eq _ _ h2, take_takeWhile, takeWhile_eq_filter _ _ h2]
  have hfe : (fun i : Item => p.isPrefixOf i.name) = fun i => decide (p <+: i.name) := by
    funext i
    rw [Bool.eq_iff_iff, List.isPrefixOf_iff_prefix, decide_eq_true_iff]
  rw [hfe]
  conv => rhs; rw [← List.takeWhile_append_dropWhile (p := q) (l := l)]
  rw [List.filter_append]
  have hnil : (l.takeWhile q).filter (fun i => decide (p <+: i.name)) = [] := by
    rw [List.filter_eq_nil_iff]
    intro a ha hpa
    have := List.all_eq_true.mp (List.all_takeWhile (p := q) (l := l)) a ha
    rw [hlt] at this
    rw [decide_eq_true_iff] at hpa
    obtain ⟨t, ht⟩ := hpa
    rw [← ht] at this
    exact not_before_prefix p t this
  rw [hnil, List.nil_append]

/-! ### The store -/

theorem sorted_names_inj {l : List Item} (h : Sorted l) {a b : Item} (ha : a ∈ l) (hb : b ∈ l)
    (hn : a.name = b.name) : a = b := by
  induction l with
  | nil => cases ha
  | cons x l ih =>
    rw [Sorted, List.pairwise_cons] at h
    rcases List.mem_cons.mp ha with rfl | ha <;> rcases List.mem_cons.mp hb with rfl | hb
    · rfl
    · have := h.1 b hb
      rw [hn] at this
      exact absurd this (before_irrefl _)
    · have := h.1 a (by assumption)
      rw [hn] at this
      exact absurd this (before_irrefl _)
    · exact ih h.2 (by assumption) (by assumption)

theorem look_eq_some {l : List Item} (h : Sorted l) (d : Str) (x : Item) :
    look l d = some x ↔ x ∈ l ∧ x.name = d := by
  constructor
  · intro hx
    exact ⟨List.mem_of_find?_eq_some hx, by simpa using List.find?_some hx⟩
  · rintro ⟨hx, hn⟩
    cases hf : look l d with
    | none =>
      have := List.find?_eq_none.mp hf x hx
      simp [hn] at this
    | some y =>
      have hy : y ∈ l := List.mem_of_find?_eq_some hf
      have hyn : y.name = d := by simpa using List.find?_some hf
      rw [sorted_names_inj h hy hx (by rw [hyn, hn])]

/-- Looking a name up by binary search in a sorted list. -/
theorem searchName_spec (l : List Item) (h : Sorted l) (d : Str) :
    (∀ i, searchName l d = .inl i → ∃ h : i < l.length, (l[i]).name = d) ∧
    (∀ i, searchName l d = .inr i → i ≤ l.length ∧
      (∀ j (hj : j < l.length), j < i → Before (l[j]).name d) ∧
      ∀ j (hj : j < l.length), i ≤ j → Before d (l[j]).name) := by
  let f : Nat → Ordering := fun i => match l[i]? with | some x => cmpStr x.name d | none => .gt
  have hf : ∀ i (hi : i < l.length), f i = cmpStr (l[i]).name d := by
    intro i hi
    simp [f, List.getElem?_eq_getElem hi]
  have hb : ∀ i j (hj : j < l.length) (hij : i < j), Before (l[i]'(by omega)).name (l[j]).name :=
    fun i j hj hij => List.pairwise_iff_getElem.mp h i j (by omega) hj hij
  have mono : ∀ i j, i ≤ j → j < l.length → f i = .gt → f j = .gt := by
    intro i j hij hj hi
    rcases Nat.lt_or_ge i j with hlt | hge
    · rw [hf i (by omega), cmpStr_gt] at hi
      rw [hf j hj, cmpStr_gt]
      exact before_trans hi (hb i j hj hlt)
    · have : i = j := by omega
      subst this; exact hi
  have mono' : ∀ i j, i ≤ j → j < l.length → f j = .lt → f i = .lt := by
    intro i j hij hj hi
    rcases Nat.lt_or_ge i j with hlt | hge
    · rw [hf j hj, cmpStr_lt] at hi
      rw [hf i (by omega), cmpStr_lt]
      exact before_trans (hb i j hj hlt) hi
    · have : i = j := by omega
      subst this; exact hi
  obtain ⟨h1, h2⟩ := bsearch_spec f l.length mono mono'
  constructor
  · intro i hi
    obtain ⟨hi, he⟩ := h1 i hi
    rw [hf i hi, cmpStr_eq] at he
    exact ⟨hi, he⟩
  · intro i hi
    obtain ⟨hi, hl, hr⟩ := h2 i hi
    refine ⟨hi, fun j hj hji => ?_, fun j hj hij => ?_⟩
    · have := hl j hji
      rwa [hf j hj, cmpStr_lt] at this
    · have := hr j hij hj
      rwa [hf j hj, cmpStr_gt] at this

/-- A change of an item that keeps its name. -/
def KeepsName (g : Item → Item) : Prop := ∀ i, (g i).name = i.name

theorem setFrecency_name (I : Ieee) (now : Rat) (v : F) : KeepsName (setFrecency I now v) :=
  fun _ => rfl
theorem visit_name (I : Ieee) (now : Rat) : KeepsName (visit I now) := fun _ => rfl
theorem adjustItem_name (I : Ieee) (now : Rat) (w : F) (n : Int) : KeepsName (adjustItem I now w n) :=
  fun _ => rfl
theorem resetItem_name (I : Ieee) (now : Rat) : KeepsName (resetItem I now) := fun _ => rfl
theorem halfItem_name (I : Ieee) (now h : Rat) : KeepsName (halfItem I now h) := fun _ => rfl
theorem withCtx_name (ctx : Option Str) : KeepsName (withCtx ctx) := by
  intro i
  unfold withCtx
  split <;> rfl

theorem map_sorted {g : Item → Item} (hg : KeepsName g) {l : List Item} (h : Sorted l) :
    Sorted (l.map g) := by
  rw [Sorted, List.pairwise_map]
  exact h.imp (fun hab => by rw [hg, hg]; exact hab)

theorem modify_sorted {g : Item → Item} (hg : KeepsName g) {l : List Item} (h : Sorted l) (i : Nat) :
    Sorted (l.modify i g) := by
  rw [Sorted, List.pairwise_iff_getElem]
  intro a b ha hb hab
  rw [List.length_modify] at ha hb
  rw [List.getElem_modify, List.getElem_modify]
  have := List.pairwise_iff_getElem.mp h a b ha hb hab
  split <;> split <;> (try rw [hg]) <;> (try rw [hg]) <;> exact this

theorem insertIdx_eq {α} (x : α) : ∀ (l : List α) (i : Nat), i ≤ l.length →
    l.insertIdx i x = l.take i ++ x :: l.drop i
  | l, 0, _ => by simp
  | [], i + 1, h => by simp at h
  | y :: l, i + 1, h => by
    rw [List.insertIdx_succ_cons, insertIdx_eq x l i (by simpa using h)]
    simp

theorem insert_sorted {l : List Item} (h : Sorted l) (x : Item) (i : Nat) (hi : i ≤ l.length)
    (hl : ∀ j (hj : j < l.length), j < i → Before (l[j]).name x.name)
    (hr : ∀ j (hj : j < l.length), i ≤ j → Before x.name (l[j]).name) :
    Sorted (l.insertIdx i x) := by
  rw [insertIdx_eq x l i hi, Sorted, List.pairwise_append, List.pairwise_cons]
  have hl' : ∀ a ∈ l.take i, Before a.name x.name := by
    intro a ha
    obtain ⟨j, hj, rfl⟩ := List.mem_iff_getElem.mp ha
    rw [List.length_take] at hj
    rw [List.getElem_take]
    exact hl j (by omega) (by omega)
  have hr' : ∀ a ∈ l.drop i, Before x.name a.name := by
    intro a ha
    obtain ⟨j, hj, rfl⟩ := List.mem_iff_getElem.mp ha
    rw [List.length_drop] at hj
    rw [List.getElem_drop]
    exact hr (i + j) (by omega) (by omega)
  refine ⟨h.sublist (List.take_sublist ..), ⟨hr', h.sublist (List.drop_sublist ..)⟩, ?_⟩
  intro a ha b hb
  rcases List.mem_cons.mp hb with rfl | hb
  · exact hl' a ha
  · exact before_trans (hl' a ha) (hr' b hb)

theorem getMod_sorted {g : Item → Item} (hg : KeepsName g) (d : Str) (ctx : Option Str) (s : Store)
    (h : Sorted s.items) : Sorted (getMod g d ctx s).items := by
  unfold getMod
  cases hs : searchName s.items d with
  | inl i =>
    exact modify_sorted (fun x => by rw [hg, withCtx_name]) h i
  | inr i =>
    obtain ⟨hi, hl, hr⟩ := (searchName_spec s.items h d).2 i hs
    have hn : (g (newItem d s.ref s.half ctx)).name = d := by rw [hg]; rfl
    exact insert_sorted h _ i hi (fun j hj hji => by rw [hn]; exact hl j hj hji)
      (fun j hj hij => by rw [hn]; exact hr j hj hij)

/-- What `get` plus a change does, one name at a time. -/
theorem getMod_look {g : Item → Item} (hg : KeepsName g) (d : Str) (ctx : Option Str) (s : Store)
    (h : Sorted s.items) (e : Str) :
    look (getMod g d ctx s).items e =
      if e = d then
        some (g (match look s.items d with
          | some x => withCtx ctx x
          | none => newItem d s.ref s.half ctx))
      else look s.items e := by
  have hs' := getMod_sorted hg d ctx s h
  by_cases he : e = d
  · subst he
    rw [if_pos rfl, look_eq_some hs']
    unfold getMod
    cases hs : searchName s.items e with
    | inl i =>
      obtain ⟨hi, hn⟩ := (searchName_spec s.items h e).1 i hs
      have hl : look s.items e = some s.items[i] := (look_eq_some h _ _).mpr ⟨List.getElem_mem hi, hn⟩
      rw [hl]
      dsimp only
      refine ⟨List.mem_iff_getElem.mpr ⟨i, by rw [List.length_modify]; exact hi, ?_⟩, ?_⟩
      · rw [List.getElem_modify, if_pos rfl]
      · rw [hg, withCtx_name, hn]
    | inr i =>
      obtain ⟨hi, hl, hr⟩ := (searchName_spec s.items h e).2 i hs
      have hnone : look s.items e = none := by
        cases hx : look s.items e with
        | none => rfl
        | some x =>
          obtain ⟨hm, hn⟩ := (look_eq_some h _ _).mp hx
          obtain ⟨j, hj, rfl⟩ := List.mem_iff_getElem.mp hm
          rcases Nat.lt_or_ge j i with hji | hij
          · exact absurd (hn ▸ hl j hj hji) (before_irrefl _)
          · exact absurd (hn ▸ hr j hj hij) (before_irrefl _)
      rw [hnone]
      dsimp only
      refine ⟨?_, by rw [hg]; rfl⟩
      rw [insertIdx_eq _ _ _ hi]
      simp
  · rw [if_neg he]
    have key : ∀ x : Item, x.name = e → (x ∈ (getMod g d ctx s).items ↔ x ∈ s.items) := by
      intro x hx
      unfold getMod
      cases hs : searchName s.items d with
      | inl i =>
        obtain ⟨hi, hn⟩ := (searchName_spec s.items h d).1 i hs
        dsimp only
        constructor
        · intro hm
          obtain ⟨j, hj, hjx⟩ := List.mem_iff_getElem.mp hm
          rw [List.length_modify] at hj
          rw [List.getElem_modify] at hjx
          by_cases hij : i = j
          · subst hij
            rw [if_pos rfl] at hjx
            have : x.name = d := by rw [← hjx, hg, withCtx_name, hn]
            exact absurd (hx.symm.trans this) he
          · rw [if_neg hij] at hjx
            exact hjx ▸ List.getElem_mem hj
        · intro hm
          obtain ⟨j, hj, hjx⟩ := List.mem_iff_getElem.mp hm
          have hij : i ≠ j := by
            rintro rfl
            exact he (by rw [← hx, ← hjx, hn])
          refine List.mem_iff_getElem.mpr ⟨j, by rw [List.length_modify]; exact hj, ?_⟩
          rw [List.getElem_modify, if_neg hij, hjx]
      | inr i =>
        obtain ⟨hi, hl, hr⟩ := (searchName_spec s.items h d).2 i hs
        dsimp only
        rw [insertIdx_eq _ _ _ hi, List.mem_append, List.mem_cons]
        have hne : x ≠ g (newItem d s.ref s.half ctx) := by
          intro hc
          have hgn : (g (newItem d s.ref s.half ctx)).name = d := by rw [hg]; rfl
          exact he (by rw [← hx, hc, hgn])
        conv => rhs; rw [← List.take_append_drop i s.items, List.mem_append]
        simp [hne]
    cases hx : look s.items e with
    | none =>
      cases hy : look (getMod g d ctx s).items e with
      | none => rfl
      | some y =>
        obtain ⟨hm, hn⟩ := (look_eq_some hs' _ _).mp hy
        have := (look_eq_some h _ _).mpr ⟨(key y hn).mp hm, hn⟩
        rw [hx] at this; cases this
    | some x =>
      obtain ⟨hm, hn⟩ := (look_eq_some h _ _).mp hx
      exact (look_eq_some hs' _ _).mpr ⟨(key x hn).mpr hm, hn⟩

theorem eraseP_sorted {l : List Item} (h : Sorted l) (p : Item → Bool) : Sorted (l.eraseP p) :=
  h.sublist (List.eraseP_sublist ..)

theorem sortNames_sorted (l : List Item) (h : l.Pairwise (fun a b => a.name ≠ b.name)) :
    Sorted (sortBy (fun a b => cmpStr a.name b.name != .gt) l) := by
  have hle : ∀ a b : Item, (cmpStr a.name b.name != .gt) = true ↔ ¬ Before b.name a.name := by
    intro a b
    rw [bne_iff_ne, ne_eq, cmpStr_gt]
  have h1 := sortBy_sorted (fun a b : Item => cmpStr a.name b.name != .gt)
    (by
      intro a b c hab hbc
      rw [hle] at *
      intro hca
      rcases before_total c.name b.name with hcb | hcb | hbc'
      · exact hbc hcb
      · rw [hcb] at hca; exact hab hca
      · exact hab (before_trans hbc' hca))
    (by
      intro a b
      rw [Bool.or_eq_true, hle, hle]
      by_cases hba : Before b.name a.name
      · right
        intro hab
        exact before_irrefl _ (before_trans hab hba)
      · exact .inl hba) l
  have h2 : (sortBy (fun a b : Item => cmpStr a.name b.name != .gt) l).Pairwise
      (fun a b => a.name ≠ b.name) :=
    (sortBy_perm _ l).symm.pairwise h (fun hab hba => hab hba.symm)
  refine (h1.and h2).imp ?_
  rintro a b ⟨hab, hne⟩
  rw [hle] at hab
  rcases before_total a.name b.name with hl | he | hg
  · exact hl
  · exact absurd he hne
  · exact absurd hg hab

theorem sorted_ne {l : List Item} (h : Sorted l) : l.Pairwise (fun a b => a.name ≠ b.name) :=
  List.Pairwise.imp (fun {a b} hab (he : a.name = b.name) =>
    before_irrefl b.name (by rw [he] at hab; exact hab)) h

theorem truncate_sorted (k : Nat) (m : Method) (s : Store) (h : Sorted s.items) :
    Sorted (truncate k m s).items := by
  refine sortNames_sorted _ ?_
  have : (sorted m s.items).Pairwise (fun a b => a.name ≠ b.name) :=
    (sortBy_perm _ s.items).symm.pairwise (sorted_ne h) (fun hab hba => hab hba.symm)
  exact this.sublist (List.take_sublist ..)

theorem step_sorted (I : Ieee) (s : Store) (h : Sorted s.items) (op : Op) :
    Sorted (step I s op).items := by
  cases op with
  | add now d ctx => exact getMod_sorted (visit_name I now) d ctx s h
  | adjust now d w n => exact getMod_sorted (adjustItem_name I now w n) d none s h
  | delete d => exact eraseP_sorted h _
  | prune e => exact h.sublist (List.filter_sublist ..)
  | truncate k m => exact truncate_sorted k m s h
  | reset now => exact map_sorted (resetItem_name I now) h
  | half now hl => exact map_sorted (halfItem_name I now hl) (map_sorted (resetItem_name I now) h)

/-- **C24.** Whatever is done to a sorted store, it stays sorted: every directory occurs once. -/
theorem store_stays_sorted (I : Ieee) (s : Store) (h : Sorted s.items) (ops : List Op) :
    Sorted (run I s ops).items := by
  induction ops generalizing s with
  | nil => exact h
  | cons op ops ih => exact ih (step I s op) (step_sorted I s h op)

theorem look_map {g : Item → Item} (hg : KeepsName g) (l : List Item) (e : Str) :
    look (l.map g) e = (look l e).map g := by
  unfold look
  rw [List.find?_map]
  congr 1
  congr 1
  funext i
  simp [hg i]

theorem look_filter {l : List Item} (h : Sorted l) (p : Item → Bool) (q : Str → Bool)
    (hpq : ∀ i, p i = q i.name) (e : Str) :
    look (l.filter p) e = if q e then look l e else none := by
  have hs : Sorted (l.filter p) := h.sublist (List.filter_sublist ..)
  by_cases hq : q e = true
  · rw [if_pos hq]
    cases hx : look l e with
    | none =>
      cases hy : look (l.filter p) e with
      | none => rfl
      | some y =>
        obtain ⟨hm, hn⟩ := (look_eq_some hs _ _).mp hy
        have := (look_eq_some h _ _).mpr ⟨(List.mem_filter.mp hm).1, hn⟩
        rw [hx] at this; cases this
    | some x =>
      obtain ⟨hm, hn⟩ := (look_eq_some h _ _).mp hx
      exact (look_eq_some hs _ _).mpr ⟨List.mem_filter.mpr ⟨hm, by rw [hpq, hn, hq]⟩, hn⟩
  · rw [if_neg hq]
    cases hy : look (l.filter p) e with
    | none => rfl
    | some y =>
      obtain ⟨hm, hn⟩ := (look_eq_some hs _ _).mp hy
      have := (List.mem_filter.mp hm).2
      rw [hpq, hn] at this
      exact absurd this hq

theorem eraseP_eq_filter {l : List Item} (h : Sorted l) (d : Str) :
    l.eraseP (fun i => i.name == d) = l.filter (fun i => i.name != d) := by
  induction l with
  | nil => rfl
  | cons x l ih =>
    rw [Sorted, List.pairwise_cons] at h
    by_cases hx : x.name = d
    · have : l.filter (fun i => i.name != d) = l := by
        rw [List.filter_eq_self]
        intro a ha
        have := h.1 a ha
        simp only [bne_iff_ne]
        rintro rfl
        rw [hx] at this
        exact before_irrefl _ this
      simp [hx, this]
    · simp [hx, ih h.2]

/-- The operations other than `truncate`. -/
def Op.plain : Op → Bool
  | .truncate _ _ => false
  | _ => true

/-- **C24.** One operation changes exactly what it says: seen as a map from directories to entries
the store follows the specification. -/
theorem step_look (I : Ieee) (s : Store) (h : Sorted s.items) (op : Op) (hop : op.plain = true) :
    look (step I s op).items = specStep I s.ref s.half (look s.items) op := by
  funext e
  cases op with
  | add now d ctx =>
    show look (getMod (visit I now) d ctx s).items e = _
    rw [getMod_look (visit_name I now) d ctx s h e]
    rfl
  | adjust now d w n =>
    show look (getMod (adjustItem I now w n) d none s).items e = _
    rw [getMod_look (adjustItem_name I now w n) d none s h e]
    simp only [specStep]
    by_cases he : e = d
    · rw [if_pos he, if_pos he]
      cases look s.items d <;> rfl
    · rw [if_neg he, if_neg he]
  | delete d =>
    show look (s.items.eraseP (fun i => i.name == d)) e = _
    rw [eraseP_eq_filter h, look_filter h _ (fun e => e != d) (fun _ => rfl)]
    simp only [specStep]
    by_cases he : e = d
    · rw [if_pos he, if_neg (by simp [he])]
    · rw [if_neg he, if_pos (by simp [he])]
  | prune ex =>
    show look (s.items.filter _) e = _
    rw [look_filter h _ ex (fun _ => rfl)]
    rfl
  | truncate k m => cases hop
  | reset now =>
    show look (s.items.map _) e = _
    rw [look_map (resetItem_name I now)]
    rfl
  | half now hl =>
    show look ((s.items.map _).map _) e = _
    rw [look_map (halfItem_name I now hl), look_map (resetItem_name I now)]
    rfl

theorem getMod_ref (g : Item → Item) (d : Str) (ctx : Option Str) (s : Store) :
    (getMod g d ctx s).ref = s.ref ∧ (getMod g d ctx s).half = s.half := by
  unfold getMod
  cases searchName s.items d <;> exact ⟨rfl, rfl⟩

theorem step_ref (I : Ieee) (s : Store) (op : Op) :
    (step I s op).ref = (match op with | .reset now => now | .half now _ => now | _ => s.ref) ∧
    (step I s op).half = (match op with | .half _ h => h | _ => s.half) := by
  cases op with
  | add now d ctx => exact getMod_ref _ d ctx s
  | adjust now d w n => exact getMod_ref _ d none s
  | delete d => exact ⟨rfl, rfl⟩
  | prune e => exact ⟨rfl, rfl⟩
  | truncate k m => exact ⟨rfl, rfl⟩
  | reset now => exact ⟨rfl, rfl⟩
  | half now h => exact ⟨rfl, rfl⟩

/-- **C24.** Any sequence of additions, adjustments, deletions, prunings and changes of the time scale
leaves the store exactly as the specification says: a name is found iff it is present, with the
statistics all its visits gave it. -/
theorem store_exact (I : Ieee) (s : Store) (h : Sorted s.items) (ops : List Op)
    (hops : ∀ o ∈ ops, o.plain = true) :
    look (run I s ops).items = (ops.foldl (Spec.step I) ⟨s.ref, s.half, look s.items⟩).view := by
  induction ops generalizing s with
  | nil => rfl
  | cons op ops ih =>
    have h1 := ih (step I s op) (step_sorted I s h op) (fun o ho => hops o (List.mem_cons_of_mem _ ho))
    have h2 := step_look I s h op (hops op List.mem_cons_self)
    obtain ⟨h3, h4⟩ := step_ref I s op
    show look (run I (step I s op) ops).items = _
    rw [h1, h2, h3, h4]
    rfl

/-- The additions of a directory in a list of operations. -/
def visitsTo (d : Str) (ops : List Op) : Nat :=
  (ops.filter (fun o => match o with | .add _ e _ => e == d | _ => false)).length

/-- **C24.** Visits are counted: after visits only, a directory is known iff it was visited, and its
entry counts exactly its visits. -/
theorem visits_counted (I : Ieee) (now : Rat) (ops : List Op)
    (hops : ∀ o ∈ ops, ∃ t e c, o = .add t e c) (d : Str) :
    (look (run I (empty now) ops).items d = none ↔ visitsTo d ops = 0) ∧
    ∀ x, look (run I (empty now) ops).items d = some x → x.count = visitsTo d ops := by
  suffices H : ∀ (ops : List Op), (∀ o ∈ ops, ∃ t e c, o = .add t e c) → ∀ s : Store, Sorted s.items →
      (look (run I s ops).items d = none ↔ look s.items d = none ∧ visitsTo d ops = 0) ∧
      ∀ x, look (run I s ops).items d = some x →
        x.count = ((look s.items d).map Item.count).getD 0 + visitsTo d ops by
    have := H ops hops (empty now) List.Pairwise.nil
    refine ⟨by rw [this.1]; exact ⟨fun h => h.2, fun h => ⟨rfl, h⟩⟩, fun x hx => ?_⟩
    rw [this.2 x hx]
    exact Int.zero_add _
  intro ops
  induction ops with
  | nil =>
    intro _ s _
    refine ⟨⟨fun h => ⟨h, rfl⟩, fun h => h.1⟩, fun x hx => ?_⟩
    have hx' : look s.items d = some x := hx
    rw [hx']
    exact (Int.add_zero _).symm
  | cons o ops ih =>
    intro hops s hs
    obtain ⟨t, e, c, rfl⟩ := hops o List.mem_cons_self
    obtain ⟨h1, h2⟩ := ih (fun o ho => hops o (List.mem_cons_of_mem _ ho)) (step I s (.add t e c))
      (step_sorted I s hs _)
    have hl := congrFun (step_look I s hs (.add t e c) rfl) d
    have hcount : ∀ y : Item, (visit I t y).count = y.count + 1 := fun _ => rfl
    simp only [specStep] at hl
    show (look (run I (step I s (.add t e c)) ops).items d = none ↔ _) ∧
      ∀ x, look (run I (step I s (.add t e c)) ops).items d = some x → _
    by_cases hde : d = e
    · subst hde
      rw [if_pos rfl] at hl
      have hv : visitsTo d (.add t d c :: ops) = visitsTo d ops + 1 := by
        simp [visitsTo]
      rw [hv]
      refine ⟨?_, fun x hx => ?_⟩
      · rw [h1, hl]
        constructor
        · rintro ⟨h, _⟩; cases h
        · rintro ⟨_, h⟩; omega
      · rw [h2 x hx, hl]
        simp only [Option.map_some, Option.getD_some, hcount]
        cases look s.items d with
        | none => simp [newItem]; omega
        | some y =>
          simp only [Option.map_some, Option.getD_some]
          have : (if c.isSome = true then { y with ctx := c } else y).count = y.count := by
            split <;> rfl
          rw [this]
          omega
    · rw [if_neg hde] at hl
      have hv : visitsTo d (.add t e c :: ops) = visitsTo d ops := by
        have : (e == d) = false := by simp; exact fun h => hde h.symm
        simp [visitsTo, this]
      rw [hv, h1, hl]
      exact ⟨Iff.rfl, fun x hx => by rw [h2 x hx, hl]⟩

/-! ### Keeping the best entries -/

theorem insertBy_congr {α} (le le' : α → α → Bool) (x : α) (l : List α)
    (h : ∀ y ∈ l, le x y = le' x y) : insertBy le x l = insertBy le' x l := by
  induction l with
  | nil => rfl
  | cons y l ih =>
    simp only [insertBy]
    rw [h y List.mem_cons_self, ih (fun z hz => h z (List.mem_cons_of_mem _ hz))]

theorem sortBy_congr {α} (le le' : α → α → Bool) (l : List α)
    (h : ∀ x ∈ l, ∀ y ∈ l, le x y = le' x y) : sortBy le l = sortBy le' l := by
  induction l with
  | nil => rfl
  | cons x l ih =>
    simp only [sortBy]
    rw [ih (fun a ha b hb => h a (List.mem_cons_of_mem _ ha) b (List.mem_cons_of_mem _ hb))]
    refine insertBy_congr le le' x _ (fun y hy => ?_)
    exact h x List.mem_cons_self y (List.mem_cons_of_mem _ ((sortBy_perm le' l).mem_iff.mp hy))

/-- The number a method ranks by, if it can be compared. -/
def key : Method → Item → F
  | .recent, i => i.last
  | .frequent, i => .fin i.count
  | .frecent, i => i.score

/-- `a` is at most `b` among comparable numbers (specification, not from the code). -/
def FLe : F → F → Prop
  | .nan, _ => False
  | _, .nan => False
  | .fin a, .fin b => a ≤ b
  | .ninf, _ => True
  | _, .pinf => True
  | _, _ => False

instance (a b : F) : Decidable (FLe a b) := by
  cases a <;> cases b <;> simp only [FLe] <;> infer_instance

theorem fle_trans {a b c : F} (h : FLe a b) (h' : FLe b c) : FLe a c := by
  cases a <;> cases b <;> cases c <;> simp only [FLe] at * <;> grind

theorem fle_total {a b : F} (ha : a ≠ .nan) (hb : b ≠ .nan) : FLe a b ∨ FLe b a := by
  cases a <;> cases b <;> simp only [FLe] at * <;> grind

theorem fcmp_not_lt {a b : F} (ha : a ≠ .nan) (hb : b ≠ .nan) : fcmp a b ≠ .lt ↔ FLe b a := by
  cases a <;> cases b <;> simp only [fcmp, pcmp, FLe] at * <;> grind

theorem fcmp_not_gt {a b : F} (ha : a ≠ .nan) (hb : b ≠ .nan) : fcmp a b ≠ .gt ↔ FLe a b := by
  cases a <;> cases b <;> simp only [fcmp, pcmp, FLe] at * <;> grind

theorem cmpScore_key (m : Method) (a b : Item) (ha : key m a ≠ .nan) (hb : key m b ≠ .nan) :
    cmpScore m a b ≠ .lt ↔ FLe (key m b) (key m a) := by
  cases m with
  | recent => exact fcmp_not_lt ha hb
  | frecent => exact fcmp_not_lt ha hb
  | frequent =>
    simp only [cmpScore, cmpInt, key, FLe]
    have : ((b.count : Rat) ≤ (a.count : Rat)) ↔ b.count ≤ a.count := Rat.intCast_le_intCast
    rw [this]
    split
    · next h => constructor
                · intro h; exact absurd rfl h
                · intro h'; omega
    · next h =>
      split
      · exact ⟨fun _ => by omega, fun _ h => by cases h⟩
      · exact ⟨fun _ => by omega, fun _ h => by cases h⟩

/-- A NaN counted as the lowest number. -/
def low : F → F
  | .nan => .ninf
  | x => x

theorem low_ne (x : F) : low x ≠ .nan := by cases x <;> simp [low]

/-- **C24.** Sorting gives the same entries, best first, when no rank is NaN. -/
theorem sorted_spec (m : Method) (l : List Item) (hn : ∀ i ∈ l, key m i ≠ .nan) :
    (sorted m l).Perm l ∧ (sorted m l).Pairwise (fun a b => FLe (key m b) (key m a)) := by
  refine ⟨sortBy_perm _ l, ?_⟩
  have hc : sorted m l = sortBy (fun a b => decide (FLe (low (key m b)) (low (key m a)))) l := by
    refine sortBy_congr _ _ l (fun a ha b hb => ?_)
    have h1 := hn a ha
    have h2 := hn b hb
    have e1 : low (key m a) = key m a := by cases h : key m a <;> simp_all [low]
    have e2 : low (key m b) = key m b := by cases h : key m b <;> simp_all [low]
    rw [e1, e2, Bool.eq_iff_iff, decide_eq_true_iff, ← cmpScore_key m a b h1 h2]
    cases cmpScore m a b <;> simp [Ordering.swap]
  have := sortBy_sorted (fun a b : Item => decide (FLe (low (key m b)) (low (key m a))))
    (by
      intro a b c hab hbc
      rw [decide_eq_true_iff] at *
      exact fle_trans hbc hab)
    (by
      intro a b
      rw [Bool.or_eq_true, decide_eq_true_iff, decide_eq_true_iff]
      exact (fle_total (low_ne _) (low_ne _)).symm) l
  rw [hc]
  have hmem : ∀ x ∈ sortBy (fun a b : Item => decide (FLe (low (key m b)) (low (key m a)))) l,
      key m x ≠ .nan := fun x hx => hn x ((sortBy_perm _ l).mem_iff.mp hx)
  refine List.Pairwise.imp_of_mem ?_ this
  intro a b ha hb hab
  have h1 := hmem a ha
  have h2 := hmem b hb
  have e1 : low (key m a) = key m a := by cases h : key m a <;> simp_all [low]
  have e2 : low (key m b) = key m b := by cases h : key m b <;> simp_all [low]
  rw [decide_eq_true_iff, e1, e2] at hab
  exact hab

/-- **C24.** `truncate` keeps as many entries as asked for, unchanged, and none that is dropped ranks
above one that is kept. -/
theorem truncate_spec (k : Nat) (m : Method) (s : Store) (hn : ∀ i ∈ s.items, key m i ≠ .nan) :
    (truncate k m s).items.length = min k s.items.length ∧
    ∃ dropped, ((truncate k m s).items ++ dropped).Perm s.items ∧
      ∀ x ∈ (truncate k m s).items, ∀ y ∈ dropped, FLe (key m y) (key m x) := by
  obtain ⟨hp, hs⟩ := sorted_spec m s.items hn
  have hpt : (truncate k m s).items.Perm ((sorted m s.items).take k) := sortBy_perm _ _
  refine ⟨?_, (sorted m s.items).drop k, ?_, ?_⟩
  · rw [hpt.length_eq, List.length_take, hp.length_eq]
  · refine (hpt.append_right _).trans ?_
    rw [List.take_append_drop]
    exact hp
  · intro x hx y hy
    have hx' := hpt.mem_iff.mp hx
    rw [← List.take_append_drop k (sorted m s.items), List.pairwise_append] at hs
    exact hs.2.2 x hx' y hy

/-! ### Exact arithmetic, for examples -/

/-- Exact arithmetic.  The value of `2^x` is only used at `x = 0` in the examples. -/
def I0 : Ieee where
  rnd q := .fin q
  pow2 q := if q = 0 then .fin 1 else .fin 2
  lives now ref half := .fin ((now - ref) / half)
  long := by
    intro now ref half h hl
    refine .inr ⟨_, rfl, ?_⟩
    by_contra hc
    rw [Rat.not_le, Rat.div_lt_iff h] at hc
    grind

/-- Names of the items, in order. -/
def names (l : List Item) : List Str := l.map Item.name

/-- A store after three visits to two directories. -/
def exStore : Store := run I0 (empty 1000)
  [.add 1000 c!"/b" none, .add 1000 c!"/a" none, .add 1000 c!"/b" (some c!"/b")]

example : names exStore.items = [c!"/a", c!"/b"] := by decide +kernel
example : exStore.items.map Item.count = [1, 2] := by decide +kernel
example : Sorted exStore.items := store_stays_sorted I0 (empty 1000) List.Pairwise.nil _
example : names (prefixRange exStore.items c!"/b") = [c!"/b"] := by decide +kernel
example : names (truncate 1 .frequent exStore).items = [c!"/b"] := by decide +kernel
example : names (prune (fun d => d == c!"/a") exStore).items = [c!"/a"] := by decide +kernel

/-! ### The database -/

theorem itemOf_name (I : Ieee) (now : Rat) (r : Row) : (itemOf I now r).name = r.name := rfl

/-- **C24.** Synchronising with the database keeps a sorted store sorted. -/
theorem reload_sorted (I : Ieee) (now : Rat) (rows : List Row) (s : Store) (h : Sorted s.items) :
    Sorted (reload I now rows s).items := by
  show Sorted (rows.foldl (reloadRow I now) s.items)
  generalize s.items = l at h
  induction rows generalizing l with
  | nil => exact h
  | cons r rows ih =>
    refine ih _ ?_
    unfold reloadRow
    cases hs : searchName l r.name with
    | inl i => exact h
    | inr i =>
      obtain ⟨hi, hl, hr⟩ := (searchName_spec l h r.name).2 i hs
      exact insert_sorted h _ i hi hl hr

theorem reloadRow_mem (I : Ieee) (now : Rat) (l : List Item) (h : Sorted l) (r : Row) :
    (∀ x ∈ l, x ∈ reloadRow I now l r) ∧ (∃ x ∈ reloadRow I now l r, x.name = r.name) ∧
    ∀ x ∈ reloadRow I now l r, x ∈ l ∨ x = itemOf I now r := by
  unfold reloadRow
  cases hs : searchName l r.name with
  | inl i =>
    obtain ⟨hi, hn⟩ := (searchName_spec l h r.name).1 i hs
    exact ⟨fun x hx => hx, ⟨_, List.getElem_mem hi, hn⟩, fun x hx => .inl hx⟩
  | inr i =>
    obtain ⟨hi, hl, hr⟩ := (searchName_spec l h r.name).2 i hs
    dsimp only
    rw [insertIdx_eq _ _ _ hi]
    refine ⟨fun x hx => ?_, ⟨itemOf I now r, by simp, rfl⟩, fun x hx => ?_⟩
    · rw [← List.take_append_drop i l] at hx
      simp only [List.mem_append, List.mem_cons] at *
      grind
    · rw [← List.take_append_drop i l]
      simp only [List.mem_append, List.mem_cons] at *
      grind

/-- **C24.** Synchronising keeps every entry of the store and afterwards every directory of the
database is known. -/
theorem reload_complete (I : Ieee) (now : Rat) (rows : List Row) (s : Store) (h : Sorted s.items) :
    (∀ x ∈ s.items, x ∈ (reload I now rows s).items) ∧
    ∀ r ∈ rows, r.name ∈ names (reload I now rows s).items := by
  show (∀ x ∈ s.items, x ∈ rows.foldl (reloadRow I now) s.items) ∧
    ∀ r ∈ rows, r.name ∈ names (rows.foldl (reloadRow I now) s.items)
  have := h
  generalize s.items = l at this
  clear h
  induction rows generalizing l with
  | nil => exact ⟨fun x hx => hx, fun r hr => by cases hr⟩
  | cons r rows ih =>
    have hs : Sorted (reloadRow I now l r) := reload_sorted I now [r] ⟨0, 0, l, 0, false⟩ this
    obtain ⟨h1, ⟨z, hz, hzn⟩, _⟩ := reloadRow_mem I now l this r
    obtain ⟨h2, h3⟩ := ih _ hs
    refine ⟨fun x hx => h2 x (h1 x hx), fun q hq => ?_⟩
    rcases List.mem_cons.mp hq with rfl | hq
    · exact List.mem_map.mpr ⟨z, h2 z hz, hzn⟩
    · exact h3 q hq

theorem upsert_mem (rows : List Row) (r x : Row) :
    x ∈ upsert rows r ↔ (x ∈ rows ∧ x.name ≠ r.name) ∨ x = r := by
  simp [upsert, List.mem_filter]

/-- The names in the database. -/
def rowNames (rows : List Row) : List Str := rows.map Row.name

theorem upsert_names (rows : List Row) (r : Row) (d : Str) :
    d ∈ rowNames (upsert rows r) ↔ d ∈ rowNames rows ∨ d = r.name := by
  simp only [rowNames, List.mem_map]
  constructor
  · rintro ⟨x, hx, rfl⟩
    rcases (upsert_mem rows r x).mp hx with ⟨hx, _⟩ | rfl
    · exact .inl ⟨x, hx, rfl⟩
    · exact .inr rfl
  · rintro (⟨x, hx, rfl⟩ | rfl)
    · by_cases hn : x.name = r.name
      · exact ⟨r, (upsert_mem rows r r).mpr (.inr rfl), hn.symm⟩
      · exact ⟨x, (upsert_mem rows r x).mpr (.inl ⟨hx, hn⟩), rfl⟩
    · exact ⟨r, (upsert_mem rows r r).mpr (.inr rfl), rfl⟩

theorem foldl_upsert_names (new rows : List Row) (d : Str) :
    d ∈ rowNames (new.foldl upsert rows) ↔ d ∈ rowNames rows ∨ d ∈ rowNames new := by
  induction new generalizing rows with
  | nil => simp [rowNames]
  | cons r new ih =>
    rw [List.foldl_cons, ih, upsert_names]
    simp only [rowNames, List.map_cons, List.mem_cons]
    grind

theorem save_names_grow (y : Sys) (d : Str) (h : d ∈ rowNames y.rows) : d ∈ rowNames (save y).rows := by
  unfold save
  split
  · unfold saveTx
    by_cases hn : y.store.items.any (fun i => i.score == .nan || i.last == .nan) = true
    · rw [if_pos hn]; exact h
    · rw [if_neg hn]
      exact (foldl_upsert_names _ _ d).mpr (.inl h)
  · exact h

/-- **C76 fails, in general.** A directory that was ever written to the database stays in it, whatever
is done, cleaning included. -/
theorem saved_directory_stays (I : Ieee) (y : Sys) (as : List Act) (d : Str)
    (h : d ∈ rowNames y.rows) : d ∈ rowNames (runs I y as).rows := by
  induction as generalizing y with
  | nil => exact h
  | cons a as ih =>
    refine ih (act I y a) ?_
    cases a with
    | op o => exact h
    | save => exact save_names_grow y d h
    | reload now => exact h
    | clean e => exact save_names_grow ⟨prune e y.store, y.rows⟩ d h
    | restart now => exact h

/-- **C76 fails, in general.** A cleaned directory comes back: after `z -c` the next synchronisation
with the database makes every saved directory known again, existing or not. -/
theorem cleaned_directory_returns (I : Ieee) (y : Sys) (hs : Sorted y.store.items)
    (exist : Str → Bool) (now : Rat) (d : Str) (h : d ∈ rowNames y.rows) :
    d ∈ names (runs I y [.clean exist, .reload now]).store.items := by
  have h1 := saved_directory_stays I y [.clean exist] d h
  have hs' : Sorted (act I y (.clean exist)).store.items := by
    have : Sorted (prune exist y.store).items := hs.sublist (List.filter_sublist ..)
    show Sorted (save ⟨prune exist y.store, y.rows⟩).store.items
    unfold save
    split
    · split <;> exact this
    · exact this
  obtain ⟨r, hr, hrn⟩ := List.mem_map.mp h1
  have := (reload_complete I now _ (act I y (.clean exist)).store hs').2 r hr
  rw [hrn] at this
  exact this

/-- **C76.** Right after cleaning, only existing directories are known. -/
theorem clean_partial (I : Ieee) (y : Sys) (exist : Str → Bool) (x : Item) :
    x ∈ (act I y (.clean exist)).store.items ↔ x ∈ y.store.items ∧ exist x.name = true := by
  have : (act I y (.clean exist)).store.items = y.store.items.filter (fun i => exist i.name) := by
    show (save ⟨prune exist y.store, y.rows⟩).store.items = _
    unfold save
    split
    · split <;> rfl
    · rfl
  rw [this, List.mem_filter]

/-- **C76 fails.** A session that visits `/a` and `/b`, both saved; `/b` is removed and `z -c` run.
`/b` is known again after the next synchronisation. -/
theorem cleaning_violated : ∃ (I : Ieee) (as : List Act) (exist : Str → Bool) (now : Rat),
    exist c!"/b" = false ∧
    c!"/b" ∈ names (runs I (firstStart 1000) as).store.items ∧
    c!"/b" ∉ names (runs I (firstStart 1000) (as ++ [.clean exist])).store.items ∧
    c!"/b" ∈ names (runs I (firstStart 1000) (as ++ [.clean exist, .reload now])).store.items :=
  ⟨I0, [.op (.add 1000 c!"/a" none), .op (.add 1000 c!"/b" none), .save], fun d => d == c!"/a", 1000,
    by decide +kernel, by decide +kernel, by decide +kernel, by decide +kernel⟩

/-- **C24 fails after a restart.** One shell visits `/a` and `/b` and saves; `/b` is cleaned away, which
only moves the row of `/a` behind that of `/b`.  After a restart the store is not in order: the prefix
search for `/b` misses it and a visit to `/b`, which is known, adds a second entry for it. -/
theorem restart_sorted_violated : ∃ (I : Ieee) (as : List Act) (now : Rat),
    let y := runs I (firstStart 1000) as
    c!"/b" ∈ names y.store.items ∧ ¬ Sorted y.store.items ∧
    names (prefixRange y.store.items c!"/b") = [] ∧
    ((names (runs I y [.op (.add now c!"/b" none)]).store.items).filter (· == c!"/b")).length = 2 := by
  refine ⟨I0, [.op (.add 1000 c!"/a" none), .op (.add 1000 c!"/b" none), .save,
    .clean (fun d => d == c!"/a"), .restart 2000], 2000, ?_⟩
  intro y
  have hy : names y.store.items = [c!"/b", c!"/a"] := by decide +kernel
  refine ⟨by rw [hy]; decide, ?_, by decide +kernel, by decide +kernel⟩
  intro hs
  have : ([c!"/b", c!"/a"] : List Str).Pairwise Before := by
    rw [← hy, names, List.pairwise_map]
    exact hs
  rw [List.pairwise_cons] at this
  have := this.1 c!"/a" (by simp)
  rw [← cmpStr_lt] at this
  exact absurd this (by decide)

/-- **C24.** Loading gives a sorted store exactly when the rows that can be read come in order. -/
theorem load_sorted_iff (I : Ieee) (now : Rat) (rows : List Row) :
    Sorted (fromFile I now rows).items ↔
      (rows.filter (fun r => readsAsInt r.last)).Pairwise (fun a b => Before a.name b.name) := by
  show Sorted ((rows.filter _).map _) ↔ _
  rw [Sorted, List.pairwise_map]
  rfl

/-! ### What a restart keeps -/

/-- **C75, what holds.** After a restart exactly the directories are known whose last visit was a
whole number of seconds after the start of the session that saved them. -/
theorem restart_knows_partial (I : Ieee) (now : Rat) (rows : List Row) (d : Str) :
    d ∈ names (fromFile I now rows).items ↔
      ∃ r ∈ rows, r.name = d ∧ ∃ n : Int, r.last = .fin n := by
  have hint : ∀ x : F, readsAsInt x = true ↔ ∃ n : Int, x = .fin n := by
    intro x
    cases x with
    | fin q =>
      simp only [readsAsInt, beq_iff_eq, F.fin.injEq]
      constructor
      · intro h
        refine ⟨q.num, ?_⟩
        exact Rat.ext rfl h
      · rintro ⟨n, rfl⟩
        rfl
    | _ => simp [readsAsInt]
  show d ∈ ((rows.filter _).map _).map Item.name ↔ _
  rw [List.map_map, List.mem_map]
  constructor
  · rintro ⟨r, hr, rfl⟩
    obtain ⟨hm, hl⟩ := List.mem_filter.mp hr
    exact ⟨r, hm, rfl, (hint _).mp hl⟩
  · rintro ⟨r, hm, rfl, hl⟩
    exact ⟨r, List.mem_filter.mpr ⟨hm, (hint _).mpr hl⟩, rfl⟩

/-- **C75 fails.** A directory visited half a second after the start and saved is not known after a
restart. -/
theorem restart_knows_violated : ∃ (I : Ieee) (as : List Act) (now : Rat) (d : Str),
    d ∈ names (runs I (firstStart 1000) as).store.items ∧ d ∈ rowNames (runs I (firstStart 1000) as).rows ∧
    d ∉ names (runs I (firstStart 1000) (as ++ [.restart now])).store.items :=
  ⟨I0, [.op (.add (2001 / 2) c!"/a" none), .save], 2000, c!"/a",
    by decide +kernel, by decide +kernel, by decide +kernel⟩

theorem pow2_long (I : Ieee) (now half : Rat) (hh : 0 < half) (hn : 129 * half ≤ now) :
    pow2 I (I.lives now 0 half) = .pinf := by
  rcases I.long now 0 half hh (by rw [Rat.sub_eq_add_neg, Rat.neg_zero, Rat.add_zero]; exact hn) with
    h | ⟨q, h, hq⟩
  · rw [h]; rfl
  · rw [h]
    simp only [pow2]
    rw [if_pos hq]

/-- A score above zero. -/
def Pos : F → Prop
  | .fin q => 0 < q
  | .pinf => True
  | _ => False

/-- **C77 fails, in general.** At any time later than 129 half lives after 1970 (65 days for the
half life of twelve hours the shell uses) every restored entry has the score infinity, no recorded
access and no time of last access, whatever was saved. -/
theorem restored_item (I : Ieee) (now : Rat) (r : Row) (hh : 0 < r.half) (hn : 129 * r.half ≤ now)
    (hp : Pos r.score) :
    (itemOf I now r).score = .pinf ∧ (itemOf I now r).count = 0 ∧ (itemOf I now r).last = .fin 0 := by
  refine ⟨?_, rfl, rfl⟩
  show mul I r.score (pow2 I (I.lives now 0 r.half)) = .pinf
  rw [pow2_long I now r.half hh hn]
  cases hs : r.score with
  | fin q =>
    rw [hs] at hp
    have hq : 0 < q := hp
    simp only [mul]
    rw [if_pos hq]
  | pinf => rfl
  | ninf => rw [hs] at hp; exact hp.elim
  | nan => rw [hs] at hp; exact hp.elim

theorem sortBy_all {α} (le : α → α → Bool) (l : List α) (h : ∀ x ∈ l, ∀ y ∈ l, le x y = true) :
    sortBy le l = l := by
  induction l with
  | nil => rfl
  | cons x l ih =>
    simp only [sortBy]
    rw [ih (fun a ha b hb => h a (List.mem_cons_of_mem _ ha) b (List.mem_cons_of_mem _ hb))]
    cases l with
    | nil => rfl
    | cons y l =>
      simp only [insertBy]
      rw [if_pos (h x List.mem_cons_self y (by simp))]

/-- **C77 fails, in general.** After a restart every listing shows the directories in the order of the
database rows, independently of how often and how recently they were visited. -/
theorem restored_order (I : Ieee) (now : Rat) (rows : List Row)
    (hr : ∀ r ∈ rows, 0 < r.half ∧ 129 * r.half ≤ now ∧ Pos r.score) (m : Method) :
    names (sorted m (fromFile I now rows).items) =
      rowNames (rows.filter (fun r => readsAsInt r.last)) := by
  have hall : sorted m (fromFile I now rows).items = (fromFile I now rows).items := by
    refine sortBy_all _ _ (fun x hx y hy => ?_)
    obtain ⟨rx, hrx, rfl⟩ := List.mem_map.mp hx
    obtain ⟨ry, hry, rfl⟩ := List.mem_map.mp hy
    have h1 := hr rx (List.mem_filter.mp hrx).1
    have h2 := hr ry (List.mem_filter.mp hry).1
    obtain ⟨a1, a2, a3⟩ := restored_item I now rx h1.1 h1.2.1 h1.2.2
    obtain ⟨b1, b2, b3⟩ := restored_item I now ry h2.1 h2.2.1 h2.2.2
    cases m with
    | recent => simp only [cmpScore]; rw [a3, b3]; decide
    | frequent => simp only [cmpScore]; rw [a2, b2]; decide
    | frecent => simp only [cmpScore]; rw [a1, b1]; decide
  rw [hall]
  show ((rows.filter _).map _).map Item.name = _
  rw [List.map_map]
  rfl

/-- **C77 fails.** `/b` is visited twice and last, `/a` once: before the restart every listing shows
`/b` first, afterwards every listing shows `/a` first. -/
theorem ranks_survive_violated : ∃ (I : Ieee) (as : List Act) (now : Rat), ∀ m : Method,
    names (sorted m (runs I (firstStart 1000) as).store.items) = [c!"/b", c!"/a"] ∧
    names (sorted m (runs I (firstStart 1000) (as ++ [.restart now])).store.items) = [c!"/a", c!"/b"] := by
  refine ⟨I0, [.op (.add 1000 c!"/b" none), .op (.add 1000 c!"/a" none), .op (.add 1001 c!"/b" none),
    .save], 1700000000, ?_⟩
  intro m
  cases m <;> decide +kernel

/-- **C77, what holds.** Within a session listings are best first (see `sorted_spec`), and saving
writes the present numbers of every entry. -/
theorem saved_numbers_partial (rows rows' : List Row) (items : List Item) (hs : Sorted items)
    (h : saveTx rows items = some rows') (i : Item) (hi : i ∈ items) :
    ∀ r ∈ rows', r.name = i.name →
      r.score = i.score ∧ r.last = i.last ∧ r.count = i.count ∧ r.ctx = i.ctx := by
  suffices ∀ r ∈ rows', r.name = i.name → r = rowOf i by
    intro r hr hn
    rw [this r hr hn]
    exact ⟨rfl, rfl, rfl, rfl⟩
  unfold saveTx at h
  split at h
  · cases h
  · cases h
    -- processed part and the rest
    suffices H : ∀ (new : List Item) (rows : List Row), Sorted new →
        (∀ r ∈ (new.map rowOf).foldl upsert rows, ∀ i ∈ new, r.name = i.name → r = rowOf i) by
      intro r hr
      exact H items rows hs r hr i hi
    intro new
    induction new with
    | nil => intro rows _ r _ i hi; cases hi
    | cons j new ih =>
      intro rows hs r hr i hi hn
      rw [Sorted, List.pairwise_cons] at hs
      rcases List.mem_cons.mp hi with rfl | hi
      · -- later rows have other names
        have key : ∀ (new : List Item) (rows : List Row), (∀ k ∈ new, k.name ≠ i.name) →
            (∀ r ∈ rows, r.name = i.name → r = rowOf i) →
            ∀ r ∈ (new.map rowOf).foldl upsert rows, r.name = i.name → r = rowOf i := by
          intro new
          induction new with
          | nil => intro rows _ h; exact h
          | cons k new ih =>
            intro rows hk h
            refine ih _ (fun z hz => hk z (List.mem_cons_of_mem _ hz)) ?_
            intro r hr hrn
            rcases (upsert_mem rows (rowOf k) r).mp hr with ⟨hr, _⟩ | rfl
            · exact h r hr hrn
            · exact absurd hrn (hk k List.mem_cons_self)
        refine key new _ (fun k hk he => ?_) ?_ r hr hn
        · have := hs.1 k hk
          rw [he] at this
          exact before_irrefl _ this
        · intro r hr hrn
          rcases (upsert_mem rows (rowOf i) r).mp hr with ⟨_, hne⟩ | rfl
          · exact absurd hrn hne
          · rfl
      · exact ih (upsert rows (rowOf j)) hs.2 r hr i hi hn

/-! ### Saving -/

/-- Saving works exactly when no number is NaN. -/
theorem save_works_iff (rows : List Row) (items : List Item) :
    (∃ rows', saveTx rows items = some rows') ↔ ∀ i ∈ items, i.score ≠ .nan ∧ i.last ≠ .nan := by
  unfold saveTx
  by_cases h : items.any (fun i => i.score == .nan || i.last == .nan) = true
  · rw [if_pos h]
    constructor
    · rintro ⟨_, h⟩; cases h
    · intro hc
      obtain ⟨i, hi, hb⟩ := List.any_eq_true.mp h
      have := hc i hi
      simp [this.1, this.2] at hb
  · rw [if_neg h]
    refine ⟨fun _ i hi => ?_, fun _ => ⟨_, rfl⟩⟩
    rw [List.any_eq_true] at h
    constructor
    · intro hc; exact h ⟨i, hi, by simp [hc]⟩
    · intro hc; exact h ⟨i, hi, by simp [hc]⟩

/-- **C78, what holds.** When no number is NaN, saving makes the database hold every directory of the
store and lose none. -/
theorem save_keeps_partial (y : Sys) (hc : y.store.changed = true)
    (hn : ∀ i ∈ y.store.items, i.score ≠ .nan ∧ i.last ≠ .nan) (d : Str) :
    d ∈ rowNames (save y).rows ↔ d ∈ rowNames y.rows ∨ d ∈ names y.store.items := by
  have : saveTx y.rows y.store.items = some ((y.store.items.map rowOf).foldl upsert y.rows) := by
    unfold saveTx
    rw [if_neg]
    rw [List.any_eq_true]
    rintro ⟨i, hi, hb⟩
    simp [(hn i hi).1, (hn i hi).2] at hb
  unfold save
  rw [if_pos hc, this]
  dsimp only
  rw [foldl_upsert_names]
  simp only [rowNames, names, List.map_map]
  rfl

theorem withCtx_score (ctx : Option Str) (i : Item) :
    (withCtx ctx i).score = i.score ∧ (withCtx ctx i).ref = i.ref ∧ (withCtx ctx i).half = i.half := by
  unfold withCtx
  split <;> exact ⟨rfl, rfl, rfl⟩

/-- A visit to a restored entry makes its score NaN. -/
theorem visit_restored (I : Ieee) (t now : Rat) (r : Row) (ctx : Option Str) (hh : 0 < r.half)
    (ht : 129 * r.half ≤ t) (hn : 129 * r.half ≤ now) :
    (visit I now (withCtx ctx (itemOf I t r))).score = .nan := by
  obtain ⟨h1, h2, h3⟩ := withCtx_score ctx (itemOf I t r)
  have hsc : (itemOf I t r).score = .pinf ∨ (itemOf I t r).score = .ninf ∨ (itemOf I t r).score = .nan := by
    have hm : (itemOf I t r).score = mul I r.score (pow2 I (I.lives t 0 r.half)) := rfl
    rw [hm, pow2_long I t r.half hh ht]
    cases r.score with
    | fin q =>
      simp only [mul]
      by_cases h : 0 < q
      · rw [if_pos h]; exact .inl rfl
      · rw [if_neg h]
        by_cases h' : q < 0
        · rw [if_pos h']; exact .inr (.inl rfl)
        · rw [if_neg h']; exact .inr (.inr rfl)
    | pinf => exact .inl rfl
    | ninf => exact .inr (.inl rfl)
    | nan => exact .inr (.inr rfl)
  show mul I (add I (div I (withCtx ctx (itemOf I t r)).score
    (pow2 I (I.lives now (withCtx ctx (itemOf I t r)).ref (withCtx ctx (itemOf I t r)).half)))
    (.fin 1)) _ = .nan
  rw [h1, h2, h3]
  show mul I (add I (div I (itemOf I t r).score (pow2 I (I.lives now 0 r.half))) (.fin 1)) _ = .nan
  rw [pow2_long I now r.half hh hn]
  rcases hsc with h | h | h <;> rw [h] <;> rfl

/-- **C78 fails, in general.** Once an entry taken from the database is visited, nothing is saved any
more: the database stays as it is whatever else the store holds. -/
theorem revisit_blocks_saving (I : Ieee) (y : Sys) (hs : Sorted y.store.items) (t now : Rat) (r : Row)
    (hr : itemOf I t r ∈ y.store.items) (hh : 0 < r.half) (ht : 129 * r.half ≤ t)
    (hn : 129 * r.half ≤ now) (ctx : Option Str) :
    (runs I y [.op (.add now r.name ctx), .save]).rows = y.rows := by
  have hl : look y.store.items r.name = some (itemOf I t r) :=
    (look_eq_some hs _ _).mpr ⟨hr, rfl⟩
  have h1 := getMod_look (visit_name I now) r.name ctx y.store hs r.name
  rw [if_pos rfl, hl] at h1
  have hmem : visit I now (withCtx ctx (itemOf I t r)) ∈ (addDir I now r.name ctx y.store).items :=
    List.mem_of_find?_eq_some h1
  have hno : saveTx y.rows (addDir I now r.name ctx y.store).items = none := by
    unfold saveTx
    rw [if_pos]
    rw [List.any_eq_true]
    exact ⟨_, hmem, by rw [visit_restored I t now r ctx hh ht hn]; rfl⟩
  show (save ⟨addDir I now r.name ctx y.store, y.rows⟩).rows = y.rows
  unfold save
  rw [if_pos (show (addDir I now r.name ctx y.store).changed = true from rfl)]
  dsimp only
  rw [hno]

/-- **C78 fails.** A second session synchronises with the database, visits the known `/a` and the new
`/n`: neither this visit nor `/n` is ever saved. -/
theorem visits_saved_violated : ∃ (I : Ieee) (as : List Act),
    let y := runs I (firstStart 1699999999) as
    c!"/n" ∈ names y.store.items ∧ c!"/n" ∉ rowNames y.rows ∧ y.store.changed = true :=
  ⟨I0, [.op (.add 1699999999 c!"/a" none), .save, .restart 1700000000, .reload 1700000000,
    .op (.add 1700000000 c!"/a" none), .op (.add 1700000000 c!"/n" none), .save],
    by decide +kernel, by decide +kernel, by decide +kernel⟩

/-- The hypotheses of `revisit_blocks_saving` at work. -/
example : (runs I0 (runs I0 (firstStart 1699999999)
      [.op (.add 1699999999 c!"/a" none), .save, .restart 1700000000])
    [.op (.add 1700000001 c!"/a" none), .save]).rows.map Row.count = [1] := by decide +kernel

/-! ### The directory offered for a prefix -/

theorem foldl_max {α} (k : α → F) (cmp : α → α → Ordering) (hcmp : ∀ a b, cmp a b = fcmp (k a) (k b)) :
    ∀ (l : List α) (x : α), k x ≠ .nan → (∀ y ∈ l, k y ≠ .nan) →
      let r := l.foldl (fun a b => if cmp a b = .gt then a else b) x
      r ∈ x :: l ∧ ∀ y ∈ x :: l, FLe (k y) (k r)
  | [], x, hx, _ => by
    refine ⟨List.mem_singleton.mpr rfl, fun y hy => ?_⟩
    rw [List.mem_singleton.mp hy]
    exact (fle_total hx hx).elim id id
  | z :: l, x, hx, hl => by
    have hz := hl z List.mem_cons_self
    intro r
    have hl' : ∀ y ∈ l, k y ≠ .nan := fun y hy => hl y (List.mem_cons_of_mem _ hy)
    by_cases hg : cmp x z = .gt
    · have hr : r = l.foldl (fun a b => if cmp a b = .gt then a else b) x := by
        show List.foldl _ (if cmp x z = .gt then x else z) l = _
        rw [if_pos hg]
      obtain ⟨h1, h2⟩ := foldl_max k cmp hcmp l x hx hl'
      rw [← hr] at h1 h2
      have hzx : FLe (k z) (k x) := by
        rw [hcmp] at hg
        exact (fcmp_not_lt hx hz).mp (by rw [hg]; intro h; cases h)
      refine ⟨by simp only [List.mem_cons] at h1 ⊢; grind, fun y hy => ?_⟩
      rcases List.mem_cons.mp hy with rfl | hy
      · exact h2 _ List.mem_cons_self
      · rcases List.mem_cons.mp hy with rfl | hy
        · exact fle_trans hzx (h2 _ List.mem_cons_self)
        · exact h2 y (List.mem_cons_of_mem _ hy)
    · have hr : r = l.foldl (fun a b => if cmp a b = .gt then a else b) z := by
        show List.foldl _ (if cmp x z = .gt then x else z) l = _
        rw [if_neg hg]
      obtain ⟨h1, h2⟩ := foldl_max k cmp hcmp l z hz hl'
      rw [← hr] at h1 h2
      have hxz : FLe (k x) (k z) := by
        rw [hcmp] at hg
        exact (fcmp_not_gt hx hz).mp hg
      refine ⟨by simp only [List.mem_cons] at h1 ⊢; grind, fun y hy => ?_⟩
      rcases List.mem_cons.mp hy with rfl | hy
      · exact fle_trans hxz (h2 _ List.mem_cons_self)
      · rcases List.mem_cons.mp hy with rfl | hy
        · exact h2 _ List.mem_cons_self
        · exact h2 y (List.mem_cons_of_mem _ hy)

/-- What an entry is worth: its score decayed to now, doubled for an entry of the current project. -/
theorem effective_spec (I : Ieee) (now : Rat) (cur : Option Str) (i : Item) :
    (∀ c, cur = some c → i.ctx = some c →
      effective I now cur i = mul I (div I i.score (pow2 I (I.lives now i.ref i.half))) (.fin 2)) ∧
    ((∀ c, ¬ (cur = some c ∧ i.ctx = some c)) →
      effective I now cur i = div I i.score (pow2 I (I.lives now i.ref i.half))) := by
  unfold effective frecency
  constructor
  · rintro c rfl h
    rw [if_pos (by simp [h])]
  · intro h
    rw [if_neg]
    cases cur with
    | none => simp
    | some c =>
      simp only [Option.isSome_some, Bool.true_and, beq_iff_eq]
      exact fun hc => h c ⟨rfl, hc⟩

/-- **C24.** In a sorted store without NaN, the directory offered for a prefix is an entry with that
prefix of the highest score (doubled for entries of the current project); there is an offer iff some
entry has the prefix. -/
theorem search_prefix_best (I : Ieee) (now : Rat) (cur : Option Str) (l : List Item) (hs : Sorted l)
    (p : Str) (hn : ∀ i ∈ l, effective I now cur i ≠ .nan) :
    (searchPrefix I now cur l p = none ↔ ∀ i ∈ l, ¬ p <+: i.name) ∧
    ∀ d, searchPrefix I now cur l p = some d → ∃ x ∈ l, x.name = d ∧ p <+: d ∧
      ∀ y ∈ l, p <+: y.name → FLe (effective I now cur y) (effective I now cur x) := by
  unfold searchPrefix
  rw [prefix_range_exact l hs p]
  have hmem : ∀ x, x ∈ l.filter (fun i => decide (p <+: i.name)) ↔ x ∈ l ∧ p <+: x.name := by
    intro x
    rw [List.mem_filter, decide_eq_true_iff]
  cases hf : l.filter (fun i => decide (p <+: i.name)) with
  | nil =>
    refine ⟨⟨fun _ i hi hp => ?_, fun _ => rfl⟩, fun d h => by cases h⟩
    have := (hmem i).mpr ⟨hi, hp⟩
    rw [hf] at this
    cases this
  | cons x rest =>
    rw [hf] at hmem
    have hne : ∀ y ∈ x :: rest, effective I now cur y ≠ .nan := fun y hy => hn y ((hmem y).mp hy).1
    obtain ⟨h1, h2⟩ := foldl_max (effective I now cur)
      (fun a b => fcmp (effective I now cur a) (effective I now cur b)) (fun _ _ => rfl) rest x
      (hne x List.mem_cons_self) (fun y hy => hne y (List.mem_cons_of_mem _ hy))
    dsimp only [maxBy]
    refine ⟨⟨fun h => (by cases h), fun h => ?_⟩, fun d h => ?_⟩
    · exact absurd ((hmem x).mp List.mem_cons_self).2 (h x ((hmem x).mp List.mem_cons_self).1)
    · simp only [Option.map_some, Option.some.injEq] at h
      obtain ⟨hm, hp⟩ := (hmem _).mp h1
      refine ⟨_, hm, h, h ▸ hp, fun y hy hyp => ?_⟩
      exact h2 y ((hmem y).mpr ⟨hy, hyp⟩)

example : searchPrefix I0 1000 none exStore.items c!"/" = some c!"/b" := by decide +kernel

end Dsh.Frec
