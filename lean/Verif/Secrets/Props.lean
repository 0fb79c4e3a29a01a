import Verif.Secrets.Lemmas
/-!
Secrets and the persisted history (C23, C79–C81).
-/
namespace Dsh.Secrets

/-! ### Where a scan finds nothing -/

/-- After a dash none of these letters can start the name of an option that takes a secret. -/
def danger (c : Char) : Bool := c.toLower ∈ c!"ptsa" || c == 'ſ'

/-- No dash is followed by `p`, `t`, `s` or `a`. -/
def quiet : Str → Bool
  | [] => true
  | c :: s => (c != '-' || !(s.head?.any danger)) && quiet s

theorem quiet_cons {c : Char} {s : Str} (h : quiet (c :: s) = true) :
    (c = '-' → s.head?.any danger = false) ∧ quiet s = true := by
  simp only [quiet, Bool.and_eq_true, Bool.or_eq_true, bne_iff_ne, Bool.not_eq_true'] at h
  exact ⟨fun hc => h.1.resolve_left (fun hn => hn hc), h.2⟩

theorem fold_danger {c : Char} (h : danger c = false) : ∀ a ∈ c!"ptsa", fold c ≠ a := by
  intro a ha hf
  unfold danger at h
  simp only [Bool.or_eq_false_iff, decide_eq_false_iff_not, beq_eq_false_iff_ne] at h
  unfold fold at hf
  rw [if_neg (by simpa using h.2)] at hf
  split at hf
  · subst hf; exact absurd ha (by decide)
  · exact h.1 (hf ▸ ha)

theorem optNames_start : ∀ w ∈ optNames, ∃ a t, w = a :: t ∧ a ∈ c!"ptsa" := by
  intro w hw
  simp only [optNames, List.mem_cons, List.not_mem_nil, or_false] at hw
  rcases hw with rfl | rfl | rfl | rfl | rfl | rfl | rfl | rfl | rfl | rfl | rfl <;>
    exact ⟨_, _, rfl, by decide⟩

theorem lits_quiet (s : Str) (h : s.head?.any danger = false) : lits optNames s = none := by
  unfold lits
  rw [List.findSome?_eq_none_iff]
  intro w hw
  obtain ⟨a, t, rfl, ha⟩ := optNames_start w hw
  cases s with
  | nil => rfl
  | cons c s =>
    simp only [List.head?_cons, Option.any_some] at h
    simp [lit, fold_danger h a ha]

/-- Only letters are changed. -/
theorem fold_inv {c a : Char} (ha : a.toNat < 97) (hc : fold c = a) : c = a := by
  unfold fold at hc
  split at hc
  · subst hc; exact absurd ha (by decide)
  · split at hc
    · subst hc; exact absurd ha (by decide)
    · unfold Char.toLower at hc
      split at hc
      · next hr =>
        have h1 : (65 : UInt32) ≤ c.val := hr.1
        have h2 : c.val ≤ (90 : UInt32) := hr.2
        have h3 : (c.val + 32 : UInt32) = a.val := congrArg Char.val hc
        exfalso
        rw [UInt32.le_iff_toNat_le] at h1 h2
        have h4 := congrArg UInt32.toNat h3
        rw [UInt32.toNat_add] at h4
        have h5 : a.val.toNat < 97 := ha
        simp at h1 h2 h4
        omega
      · exact hc

theorem fold_dash {c : Char} (hc : fold c = '-') : c = '-' := fold_inv (by decide) hc

/-- No option is found where no dash stands, or where a dash or two are not followed by one of the
letters. -/
theorem option_none (p : Option Char) (s : Str)
    (h : ∀ t, s = '-' :: t → t.head?.any danger = false ∧ ∀ u, t = '-' :: u → u.head?.any danger = false) :
    optionAt p s = none := by
  have hd : fold '-' = '-' := by decide
  unfold optionAt
  cases s with
  | nil => rfl
  | cons c s =>
    by_cases hc : fold c = '-'
    · have hc := fold_dash hc
      subst hc
      obtain ⟨h1, h2⟩ := h s rfl
      have e1 : optLong c!"-" ('-' :: s) = none := by
        unfold optLong
        have e : lit c!"-" ('-' :: s) = some (['-'], s) := by
          show lit ['-'] ('-' :: s) = _
          simp [lit, hd]
        rw [e]
        simp only [Option.bind_some]
        rw [lits_quiet s h1]
        rfl
      have e2 : optLong c!"--" ('-' :: s) = none := by
        unfold optLong
        cases s with
        | nil => rfl
        | cons x u =>
          by_cases hx : fold x = '-'
          · have hx := fold_dash hx
            subst hx
            have e : lit c!"--" ('-' :: '-' :: u) = some (['-', '-'], u) := by
              show lit ['-', '-'] ('-' :: '-' :: u) = _
              simp [lit, hd]
            rw [e]
            simp only [Option.bind_some]
            rw [lits_quiet u (h2 u rfl)]
            rfl
          · have e : lit c!"--" ('-' :: x :: u) = none := by
              show lit ['-', '-'] ('-' :: x :: u) = _
              simp [lit, hd, hx]
            rw [e]
            rfl
      have e3 : optShort ('-' :: s) = none := by
        unfold optShort
        have e : lit c!"-p" ('-' :: s) = none := by
          show lit ['-', 'p'] ('-' :: s) = _
          cases s with
          | nil => rfl
          | cons x u =>
            have := fold_danger (c := x) (by simpa using h1) 'p' (by decide)
            simp [lit, this]
        rw [e]
        rfl
      rw [e1, e2, e3]
      rfl
    · have e : ∀ w, lit ('-' :: w) (c :: s) = none := by
        intro w
        simp [lit, hc]
      have e1 : optLong c!"--" (c :: s) = none := by unfold optLong; rw [e]; rfl
      have e2 : optLong c!"-" (c :: s) = none := by unfold optLong; rw [e]; rfl
      have e3 : optShort (c :: s) = none := by unfold optShort; rw [e]; rfl
      rw [e1, e2, e3]
      rfl

/-- The text before a place: empty or ending with white space. -/
def Apart (pre : Str) : Prop := pre = [] ∨ ∃ t w, pre = t ++ [w] ∧ rustWhitespace w = true

theorem apart_cons {c : Char} {s : Str} (h : Apart (c :: s)) (hs : s ≠ []) : Apart s := by
  rcases h with h | ⟨t, w, h, hw⟩
  · cases h
  · cases t with
    | nil =>
      simp only [List.nil_append, List.cons.injEq] at h
      exact absurd h.2 hs
    | cons x t =>
      simp only [List.cons_append, List.cons.injEq] at h
      exact Or.inr ⟨t, w, h.2, hw⟩

theorem ws_ne_dash {w : Char} (h : rustWhitespace w = true) : w ≠ '-' := by
  rintro rfl
  exact absurd h (by decide)

/-- A dash in a quiet text that ends with white space has its next characters inside the text. -/
theorem option_none_pre (c : Char) (a s : Str) (hq : quiet (c :: a) = true) (ha : Apart (c :: a))
    (p : Option Char) : optionAt p (c :: (a ++ s)) = none := by
  apply option_none
  intro t ht
  simp only [List.cons.injEq] at ht
  obtain ⟨rfl, rfl⟩ := ht
  obtain ⟨h1, h2⟩ := quiet_cons hq
  cases a with
  | nil =>
    rcases ha with h | ⟨t, w, h, hw⟩
    · cases h
    · cases t with
      | nil =>
        simp only [List.nil_append, List.cons.injEq, and_true] at h
        exact absurd h.symm (ws_ne_dash hw)
      | cons x t => simp at h
  | cons x a =>
    refine ⟨by simpa using h1 rfl, ?_⟩
    intro u hu
    simp only [List.cons_append, List.cons.injEq] at hu
    obtain ⟨rfl, rfl⟩ := hu
    have h3 := (quiet_cons h2).1 rfl
    cases a with
    | nil =>
      rcases apart_cons ha (by simp) with h | ⟨t, w, h, hw⟩
      · cases h
      · cases t with
        | nil =>
          simp only [List.nil_append, List.cons.injEq, and_true] at h
          exact absurd h.symm (ws_ne_dash hw)
        | cons x t => simp at h
    | cons y a => simpa using h3

theorem rep_any {m : Matcher} (hm : Proper m) (hp : ∀ p q s, m p s = m q s) (f : Hit → Str) (p q : Option Char)
    (s : Str) : rep m f p s = rep m f q s := by
  cases s with
  | nil => rfl
  | cons c s =>
    cases e : m p (c :: s) with
    | none => rw [rep_none f e, rep_none f ((hp q p _).trans e)]
    | some h =>
      rw [rep_some hm f e, rep_some hm f ((hp q p _).trans e)]
      obtain ⟨_, h2⟩ := hm p _ h e
      have : ∀ p : Option Char, lastOr p h.text = h.text.getLast? := by
        intro p
        unfold lastOr
        cases e' : h.text.getLast? with
        | none => exact absurd (List.getLast?_eq_none_iff.mp e') h2
        | some x => rfl
      rw [this, this]

/-- The options are looked for only behind a quiet text. -/
theorem rep_option_pre (f : Hit → Str) (a s : Str) (hq : quiet a = true) (ha : Apart a) (p : Option Char) :
    rep optionAt f p (a ++ s) = a ++ rep optionAt f none s := by
  induction a generalizing p with
  | nil => exact rep_any option_proper option_any f p none s
  | cons c a ih =>
    rw [List.cons_append, rep_none f (option_none_pre c a s hq ha p)]
    by_cases hn : a = []
    · subst hn
      rw [List.nil_append, rep_any option_proper option_any f (some c) none s]
      rfl
    · rw [ih (quiet_cons hq).2 (apart_cons ha hn)]
      rfl

/-! ### Redacting assignments: what it leaves alone -/

theorem rep_nil_iff (U : Uni) (M : Manager) (p : Option Char) (s : Str)
    (h : rep (assignAt U) (hideAssign M) p s = []) : s = [] := by
  cases s with
  | nil => rfl
  | cons c s =>
    cases e : assignAt U p (c :: s) with
    | none => rw [rep_none _ e] at h; cases h
    | some x =>
      rw [rep_some (assign_proper U) _ e] at h
      obtain ⟨_, h2⟩ := assign_proper U p _ x e
      simp only [List.append_eq_nil_iff] at h
      unfold hideAssign at h
      split at h
      · simp at h
      · exact absurd h.1 h2

theorem rep_chars (U : Uni) (M : Manager) (P : Char → Prop) (he : P '=') (hs : P '*') :
    ∀ (n : Nat) (s : Str) (p : Option Char), s.length ≤ n → (∀ c ∈ s, P c) →
      ∀ c ∈ rep (assignAt U) (hideAssign M) p s, P c
  | n, [], p, _, _ => by intro c hc; cases hc
  | 0, c :: s, p, h, _ => by simp at h
  | n + 1, c :: s, p, h, hP => by
    simp only [List.length_cons] at h
    cases e : assignAt U p (c :: s) with
    | none =>
      rw [rep_none _ e]
      intro x hx
      rcases List.mem_cons.mp hx with rfl | hx
      · exact hP _ List.mem_cons_self
      · exact rep_chars U M P he hs n s _ (by omega) (fun y hy => hP y (List.mem_cons_of_mem _ hy)) x hx
    | some hh =>
      rw [rep_some (assign_proper U) _ e]
      obtain ⟨h1, _⟩ := assign_proper U p _ hh e
      have hl := (assign_proper U).length e
      simp only [List.length_cons] at hl
      have ht : ∀ y ∈ hh.text, P y := fun y hy => hP y (h1 ▸ List.mem_append_left _ hy)
      intro x hx
      rcases List.mem_append.mp hx with hx | hx
      · unfold hideAssign at hx
        split at hx
        · rcases List.mem_append.mp hx with hx | hx
          · exact ht x (by unfold Hit.text; simp [hx])
          · simp only [List.mem_cons, List.not_mem_nil, or_false] at hx
            rcases hx with rfl | rfl | rfl | rfl
            · exact he
            all_goals exact hs
        · exact ht x hx
      · exact rep_chars U M P he hs n hh.rest _ (by omega)
          (fun y hy => hP y (h1 ▸ List.mem_append_right _ hy)) x hx

/-- Without `=` there is no assignment. -/
theorem assign_noeq (U : Uni) (p : Option Char) (s : Str) (h : '=' ∉ s) : assignAt U p s = none := by
  cases e : assignAt U p s with
  | none => rfl
  | some x =>
    exfalso
    obtain ⟨h1, _⟩ := assign_proper U p s x e
    apply h
    cases s with
    | nil => cases e
    | cons c s =>
      simp only [assignAt] at e
      split at e
      · unfold assignTail at e
        split at e
        · next v hv =>
          have : '=' ∈ s.dropWhile nameChar := by rw [hv]; exact List.mem_cons_self
          exact List.mem_cons_of_mem _ ((List.dropWhile_sublist _).mem this)
        · cases e
      · cases e

theorem rep_noeq (U : Uni) (f : Hit → Str) (s : Str) (h : '=' ∉ s) (p : Option Char) :
    rep (assignAt U) f p s = s := by
  induction s generalizing p with
  | nil => rfl
  | cons c s ih =>
    rw [rep_none f (assign_noeq U p _ h), ih (fun hh => h (List.mem_cons_of_mem _ hh))]

/-- A value behind `=`: what stands before the `=` stays. -/
theorem rep_eq (U : Uni) (M : Manager) (u v : Str) (hu : '=' ∉ u) (hv : v ≠ [])
    (hs : ∀ c ∈ v, rustWhitespace c = false) (p : Option Char) :
    ∃ v' : Str, rep (assignAt U) (hideAssign M) p (u ++ '=' :: v) = u ++ '=' :: v' ∧
      v' ≠ [] ∧ ∀ c ∈ v', c ∈ v ∨ c = '=' ∨ c = '*' := by
  induction u generalizing p with
  | nil =>
    have hne : nameStart '=' = false := by decide
    have e : assignAt U p ('=' :: v) = none := by simp [assignAt, hne]
    refine ⟨rep (assignAt U) (hideAssign M) (some '=') v, by rw [List.nil_append, rep_none _ e]; rfl, ?_, ?_⟩
    · intro h; exact hv (rep_nil_iff U M _ _ h)
    · exact rep_chars U M (fun c => c ∈ v ∨ c = '=' ∨ c = '*') (Or.inr (Or.inl rfl)) (Or.inr (Or.inr rfl))
        v.length v _ (Nat.le_refl _) (fun c hc => Or.inl hc)
  | cons c u ih =>
    have hu' : '=' ∉ u := fun hh => hu (List.mem_cons_of_mem _ hh)
    cases e : assignAt U p (c :: u ++ '=' :: v) with
    | none =>
      rw [List.cons_append] at e
      obtain ⟨v', h1, h2⟩ := ih hu' (some c)
      exact ⟨v', by rw [List.cons_append, rep_none _ e, h1]; rfl, h2⟩
    | some x =>
      have hx : x = ⟨c :: u, ['='], v, []⟩ := by
        simp only [List.cons_append, assignAt] at e
        split at e
        · have hd : (u ++ '=' :: v).takeWhile nameChar = u.takeWhile nameChar ∧
              (u ++ '=' :: v).dropWhile nameChar = u.dropWhile nameChar ++ '=' :: v :=
            takeWhile_stop nameChar u '=' v nameChar_eq
          rw [hd.1, hd.2] at e
          have hj : u.takeWhile nameChar ++ u.dropWhile nameChar = u := List.takeWhile_append_dropWhile
          cases hdw : u.dropWhile nameChar with
          | nil =>
            rw [hdw] at e hj
            rw [List.append_nil] at hj
            rw [hj, List.nil_append] at e
            simp only [assignTail] at e
            have := run1_value nonSpace (c :: u) ['='] v [] hv
              (fun y hy => by simp [nonSpace, hs y hy]) (by intro y hy; cases hy)
            rw [List.append_nil] at this
            rw [this] at e
            exact (Option.some.inj e).symm
          | cons y z =>
            rw [hdw] at e
            unfold assignTail at e
            split at e
            · next w hw =>
              simp only [List.cons_append, List.cons.injEq] at hw
              exfalso
              apply hu'
              rw [← hj, hdw, hw.1]
              simp
            · cases e
        · cases e
      rw [rep_some (assign_proper U) _ e, hx]
      unfold hideAssign
      split
      · exact ⟨c!"***", by simp [rep_nil], by simp, by intro z hz; right; right; simpa using hz⟩
      · exact ⟨v, by simp [rep_nil, Hit.text], hv, fun z hz => Or.inl hz⟩

theorem hideAssign_more (M : Manager) (h : Hit) (t : Str) : hideAssign M (h.more t) = hideAssign M h := rfl

theorem quiet_append {a b b' : Str} (h : quiet (a ++ b) = true) (hb : quiet b' = true)
    (hh : b'.head? = b.head?) : quiet (a ++ b') = true := by
  induction a with
  | nil => exact hb
  | cons c a ih =>
    simp only [List.cons_append, quiet, Bool.and_eq_true] at h ⊢
    refine ⟨?_, ih h.2⟩
    have : (a ++ b').head? = (a ++ b).head? := by cases a <;> simp [hh]
    rw [this]
    exact h.1

theorem quiet_right {a b : Str} (h : quiet (a ++ b) = true) : quiet b = true := by
  induction a with
  | nil => exact h
  | cons c a ih =>
    simp only [List.cons_append, quiet, Bool.and_eq_true] at h
    exact ih h.2

theorem quiet_stars {a b b' : Str} (h : quiet (a ++ b) = true) (hb : quiet b' = true) :
    quiet (a ++ (c!"=***" ++ b')) = true := by
  induction a with
  | nil =>
    have e : quiet (c!"=***" ++ b') = quiet b' := rfl
    rw [List.nil_append, e]
    exact hb
  | cons c a ih =>
    simp only [List.cons_append, quiet, Bool.and_eq_true] at h ⊢
    refine ⟨?_, ih h.2⟩
    cases a with
    | nil =>
      simp only [List.nil_append, List.head?_cons, Option.any_some]
      have : danger '=' = false := by decide
      simp [this]
    | cons x a => simpa using h.1

theorem hit_pre_ne (U : Uni) (p : Option Char) (c : Char) (s : Str) (h : Hit)
    (e : assignAt U p (c :: s) = some h) : ∃ t, h.pre = c :: t := by
  simp only [assignAt] at e
  split at e
  · unfold assignTail at e
    split at e
    · exact ⟨_, (run1_proper e).1⟩
    · cases e
  · cases e

/-- Redacting assignments keeps the first character and keeps a text quiet. -/
theorem rep_quiet (U : Uni) (M : Manager) : ∀ (n : Nat) (s : Str) (p : Option Char), s.length ≤ n →
    quiet s = true → quiet (rep (assignAt U) (hideAssign M) p s) = true ∧
      (rep (assignAt U) (hideAssign M) p s).head? = s.head?
  | n, [], p, _, _ => ⟨rfl, rfl⟩
  | 0, c :: s, p, h, _ => by simp at h
  | n + 1, c :: s, p, h, hq => by
    simp only [List.length_cons] at h
    cases e : assignAt U p (c :: s) with
    | none =>
      rw [rep_none _ e]
      obtain ⟨h1, h2⟩ := rep_quiet U M n s (some c) (by omega) (quiet_cons hq).2
      exact ⟨quiet_append (a := [c]) hq h1 h2, rfl⟩
    | some x =>
      rw [rep_some (assign_proper U) _ e]
      obtain ⟨h1, _⟩ := assign_proper U p _ x e
      obtain ⟨t, ht⟩ := hit_pre_ne U p c s x e
      have hl := (assign_proper U).length e
      simp only [List.length_cons] at hl
      rw [← h1] at hq
      obtain ⟨h3, h4⟩ := rep_quiet U M n x.rest (lastOr p x.text) (by omega) (quiet_right hq)
      unfold hideAssign
      split
      · constructor
        · rw [List.append_assoc]
          refine quiet_stars (b := x.mid ++ x.val ++ x.rest) ?_ h3
          simpa [Hit.text, List.append_assoc] using hq
        · rw [ht]; rfl
      · exact ⟨quiet_append hq h3 h4, by simp [Hit.text, ht]⟩

/-- How an option that takes a secret ends. -/
theorem option_end {o : Str} (ho : SecretOption o) :
    (∃ u, o = u ++ ['='] ∧ '=' ∉ u) ∨ (∃ u w, o = u ++ [w] ∧ rustWhitespace w = true ∧ '=' ∉ u ∧ '=' ∉ o) := by
  have hblank : ∀ t : Str, Blank t → ∃ t' w, t = t' ++ [w] ∧ rustWhitespace w = true ∧ '=' ∉ t := by
    rintro t ⟨h1, h2⟩
    refine ⟨t.dropLast, t.getLast h1, (List.dropLast_concat_getLast h1).symm, h2 _ (List.getLast_mem h1), ?_⟩
    intro h
    exact absurd (h2 _ h) (by decide)
  cases ho with
  | long d n w t hd hw hn ht =>
    have hne : '=' ∉ d ++ n := by
      intro h
      rcases List.mem_append.mp h with h | h
      · rcases hd with rfl | rfl <;> exact absurd h (by decide)
      · have : ('=' : Char).toLower ∈ w := hn ▸ List.mem_map_of_mem h
        clear hn
        revert this
        revert w
        decide +kernel
    rcases ht with rfl | ht
    · exact Or.inl ⟨d ++ n, rfl, hne⟩
    · obtain ⟨t', x, rfl, hx, hnt⟩ := hblank t ht
      refine Or.inr ⟨d ++ n ++ t', x, by simp, hx, ?_, ?_⟩
      · intro h
        rcases List.mem_append.mp h with h | h
        · exact hne h
        · exact hnt (List.mem_append_left _ h)
      · intro h
        rcases List.mem_append.mp h with h | h
        · exact hne h
        · exact hnt h
  | short q t hq ht =>
    obtain ⟨t', x, rfl, hx, hnt⟩ := hblank t ht
    have hqe : '=' ≠ q := by rcases hq with rfl | rfl <;> decide
    refine Or.inr ⟨'-' :: q :: t', x, by simp, hx, ?_, ?_⟩
    · simp only [List.mem_cons, not_or]
      exact ⟨by decide, hqe, fun h => hnt (List.mem_append_left _ h)⟩
    · simp only [List.mem_cons, not_or]
      exact ⟨by decide, hqe, hnt⟩

/-- The values whose hiding is shown: a word without quotes, or, behind white space, a quoted text
without `=`. -/
def Hideable (o v : Str) : Prop :=
  OptionValue v ∧ (('"' ∉ v ∧ '\'' ∉ v) ∨ ('=' ∉ v ∧ '=' ∉ o))

theorem stage1_option (M : Manager) (o v : Str) (ho : SecretOption o) (hv : Hideable o v) (p : Option Char) :
    ∃ v', OptionValue v' ∧ rep (assignAt M.uni) (hideAssign M) p (o ++ v) = o ++ v' := by
  obtain ⟨hov, hv⟩ := hv
  rcases hv with ⟨hq1, hq2⟩ | ⟨h1, h2⟩
  · have hpl : v ≠ [] ∧ ∀ c ∈ v, rustWhitespace c = false ∧ c ≠ '"' ∧ c ≠ '\'' := by
      cases hov with
      | plain v h1 h2 => exact ⟨h1, h2⟩
      | quoted q b h1 h2 =>
        rcases h1 with rfl | rfl
        · exact absurd List.mem_cons_self hq1
        · exact absurd List.mem_cons_self hq2
    rcases option_end ho with ⟨u, rfl, hu⟩ | ⟨u, w, rfl, hw, hu, _⟩
    · obtain ⟨v', e1, e2, e3⟩ := rep_eq M.uni M u v hu hpl.1 (fun c hc => (hpl.2 c hc).1) p
      refine ⟨v', .plain v' e2 ?_, by simpa using e1⟩
      intro c hc
      rcases e3 c hc with h | rfl | rfl
      · exact hpl.2 c h
      · decide
      · decide
    · refine ⟨rep (assignAt M.uni) (hideAssign M) (some w) v, .plain _ ?_ ?_, ?_⟩
      · intro h; exact hpl.1 (rep_nil_iff _ _ _ _ h)
      · exact rep_chars M.uni M _ (by decide) (by decide) v.length v _ (Nat.le_refl _) hpl.2
      · rw [List.append_assoc, List.singleton_append,
          rep_assign_split M.uni _ (hideAssign_more M) w hw v u.length u p (Nat.le_refl _),
          rep_noeq _ _ u hu]
        simp
  · refine ⟨v, hov, rep_noeq _ _ _ ?_ p⟩
    intro h
    rcases List.mem_append.mp h with h | h
    · exact h2 h
    · exact h1 h

theorem stage1_option_post (M : Manager) (o post : Str) (ho : SecretOption o) (hc : Closes post) :
    ∃ post', Closes post' ∧ ∀ v, Hideable o v → ∀ p, ∃ v', OptionValue v' ∧
      rep (assignAt M.uni) (hideAssign M) p (o ++ (v ++ post)) = o ++ (v' ++ post') := by
  rcases hc with rfl | ⟨w, t, rfl, hw⟩
  · refine ⟨[], Or.inl rfl, fun v hv p => ?_⟩
    obtain ⟨v', h1, h2⟩ := stage1_option M o v ho hv p
    exact ⟨v', h1, by simpa using h2⟩
  · refine ⟨w :: rep (assignAt M.uni) (hideAssign M) (some w) t, Or.inr ⟨w, _, rfl, hw⟩, fun v hv p => ?_⟩
    obtain ⟨v', h1, h2⟩ := stage1_option M o v ho hv p
    refine ⟨v', h1, ?_⟩
    rw [← List.append_assoc, rep_assign_split M.uni _ (hideAssign_more M) w hw t _ (o ++ v) p (Nat.le_refl _), h2]
    simp

/-! ### C23: assignments to secret variables -/

/-- The words that mark the name of a variable as secret. -/
def secretWords : List Str :=
  [c!"API_KEY", c!"_KEY", c!"TOKEN", c!"SECRET", c!"PASSWORD", c!"PASSWD", c!"PASSPHRASE", c!"AUTH",
   c!"COOKIE", c!"SESSION", c!"CREDENTIAL", c!"PRIVATE", c!"ACCESS_KEY", c!"SECRET_KEY"]

/-- A name is secret when, in capitals, it contains one of the words, or a word the user has added, or
when a pattern of the user matches it. -/
def SecretName (M : Manager) (n : Str) : Prop :=
  (∃ k ∈ secretWords, k <:+: n.map Char.toUpper) ∨
  (∃ k ∈ M.extra, k.map Char.toUpper <:+: n.map Char.toUpper) ∨
  (∃ p ∈ M.custom, p n = true)

theorem contains_iff (s w : Str) : contains s w = true ↔ w <:+: s := by
  induction s with
  | nil => simp [contains]
  | cons c s ih =>
    rw [contains, Bool.or_eq_true, ih, List.infix_cons_iff, List.isPrefixOf_iff_prefix]

theorem sensitiveKey_iff (M : Manager) (n : Str) : sensitiveKey M n = true ↔ SecretName M n := by
  unfold sensitiveKey SecretName
  simp only [Bool.or_eq_true, List.any_eq_true, contains_iff, upper]
  rw [or_assoc]
  rfl

/-- The line in which `n=v` stands. -/
def assignLine (pre n v post : Str) : Str := pre ++ (n ++ '=' :: (v ++ post))

theorem assign_sensitive (M : Manager) (pre n v post : Str) (ho : Opens M.uni pre) (hn : IsName n)
    (hs : SecretName M n) (hv : IsValue v) (hc : Closes post) :
    sensitiveCmd M (assignLine pre n v post) = true := by
  have := assign_key M.uni pre n v post ho hn hv hc
  obtain ⟨h, h1, h2⟩ := List.mem_map.mp this
  unfold sensitiveCmd
  have : (hits (assignAt M.uni) (assignLine pre n v post)).any (fun h => sensitiveKey M h.pre) = true := by
    rw [List.any_eq_true]
    exact ⟨h, h1, by rw [h2]; exact (sensitiveKey_iff M n).mpr hs⟩
  rw [this]
  rfl

/-- C23: by default a line that assigns to a secret variable is not stored. -/
theorem secret_assignment_skipped (M : Manager) (hm : M.mode = .skip) (pre n v post : Str)
    (ho : Opens M.uni pre) (hn : IsName n) (hs : SecretName M n) (hv : IsValue v) (hc : Closes post) :
    forHistory M (assignLine pre n v post) = none := by
  unfold forHistory
  rw [hm]
  simp only [assign_sensitive M pre n v post ho hn hs hv hc, if_true]

/-- C23: with redaction what is stored does not depend on the value. -/
theorem secret_assignment_hidden (M : Manager) (hm : M.mode = .redact) (pre n post : Str)
    (ho : Opens M.uni pre) (hn : IsName n) (hs : SecretName M n) (hc : Closes post) :
    ∃ out, ∀ v, IsValue v → forHistory M (assignLine pre n v post) = some out := by
  obtain ⟨a, b, h⟩ := assign_stage M.uni (hideAssign M) (hideAssign_more M) pre n post ho hn hc
  refine ⟨replaceAll queryAt hideRest (replaceAll bearerAt hideRest (replaceAll optionAt hideRest
    (a ++ (n ++ c!"=***" ++ b)))), fun v hv => ?_⟩
  unfold forHistory
  rw [hm]
  simp only [assign_sensitive M pre n v post ho hn hs hv hc, if_true, redact]
  have := h v hv
  unfold assignLine
  rw [this]
  unfold hideAssign
  rw [if_pos ((sensitiveKey_iff M n).mpr hs)]

/-! ### C79: options, headers and URL parameters -/

theorem skipped_of_match (M : Manager) (hm : M.mode = .skip) (s : Str)
    (h : isMatch optionAt s = true ∨ isMatch bearerAt s = true ∨ isMatch queryAt s = true) :
    forHistory M s = none := by
  unfold forHistory
  rw [hm]
  have : sensitiveCmd M s = true := by
    unfold sensitiveCmd
    rcases h with h | h | h <;> simp [h]
  simp only [this, if_true]

/-- C79: by default a line with an option that takes a secret is not stored, wherever it stands. -/
theorem secret_option_skipped (M : Manager) (hm : M.mode = .skip) (pre o v post : Str)
    (ho : SecretOption o) (hv : OptionValue v) : forHistory M (pre ++ (o ++ (v ++ post))) = none := by
  obtain ⟨h, hh⟩ := optValue_some o v post hv
  exact skipped_of_match M hm _
    (Or.inl (match_anywhere option_proper option_any (option_match o _ h ho (head_value hv) hh none) pre))

/-- C79: nor is a line with a bearer token. -/
theorem bearer_skipped (M : Manager) (hm : M.mode = .skip) (pre o post : Str) (c : Char)
    (ho : BearerHeader o) (hc : TokenChar c) : forHistory M (pre ++ (o ++ c :: post)) = none := by
  obtain ⟨h, hh⟩ := bearer_match o ho c hc post
  exact skipped_of_match M hm _ (Or.inr (Or.inl (match_anywhere bearer_proper bearer_any hh pre)))

/-- C79: nor is a line with a secret URL parameter. -/
theorem url_parameter_skipped (M : Manager) (hm : M.mode = .skip) (pre o post : Str) (c : Char)
    (ho : SecretParam o) (h1 : rustWhitespace c = false) (h2 : c ≠ '&') :
    forHistory M (pre ++ (o ++ c :: post)) = none := by
  obtain ⟨h, hh⟩ := query_match o ho c h1 h2 post
  exact skipped_of_match M hm _ (Or.inr (Or.inr (match_anywhere query_proper query_any hh pre)))

/-- C79, as far as it holds with redaction: what is stored does not depend on the value of the option,
when no dash before it is followed by `p`, `t`, `s` or `a`, and the value is a word without quotes or,
behind white space, a quoted text without `=`. -/
theorem option_value_hidden_partial (M : Manager) (hm : M.mode = .redact) (pre o post : Str)
    (hq : quiet pre = true) (ha : Apart pre) (ho : SecretOption o) (hc : Closes post) :
    ∃ out, ∀ v, Hideable o v → forHistory M (pre ++ (o ++ (v ++ post))) = some out := by
  obtain ⟨post', hc', hp⟩ := stage1_option_post M o post ho hc
  have hstage : ∃ pre', quiet pre' = true ∧ Apart pre' ∧ ∀ v, Hideable o v → ∃ v', OptionValue v' ∧
      rep (assignAt M.uni) (hideAssign M) none (pre ++ (o ++ (v ++ post))) = pre' ++ (o ++ (v' ++ post')) := by
    rcases ha with rfl | ⟨t, w, rfl, hw⟩
    · exact ⟨[], rfl, Or.inl rfl, fun v hv => hp v hv none⟩
    · have e := rep_assign_split M.uni _ (hideAssign_more M) w hw [] t.length t none (Nat.le_refl _)
      rw [rep_nil] at e
      refine ⟨rep (assignAt M.uni) (hideAssign M) none t ++ [w], ?_, Or.inr ⟨_, w, rfl, hw⟩, fun v hv => ?_⟩
      · rw [← e]
        exact (rep_quiet M.uni M _ _ none (Nat.le_refl _) hq).1
      · obtain ⟨v', h1, h2⟩ := hp v hv (some w)
        refine ⟨v', h1, ?_⟩
        rw [List.append_assoc, List.singleton_append,
          rep_assign_split M.uni _ (hideAssign_more M) w hw _ t.length t none (Nat.le_refl _), h2]
        simp
  obtain ⟨pre', hq', ha', hstage⟩ := hstage
  refine ⟨replaceAll queryAt hideRest (replaceAll bearerAt hideRest
    (pre' ++ (o ++ c!"***" ++ rep optionAt hideRest none post'))), fun v hv => ?_⟩
  obtain ⟨v', h1, h2⟩ := hstage v hv
  obtain ⟨h, hh⟩ := optValue_some o v post hv.1
  have hm1 := match_anywhere option_proper option_any (option_match o _ h ho (head_value hv.1) hh none) pre
  have hs : sensitiveCmd M (pre ++ (o ++ (v ++ post))) = true := by
    unfold sensitiveCmd
    simp [hm1]
  unfold forHistory
  rw [hm]
  simp only [hs, if_true, redact]
  rw [replaceAll_eq (assignAt M.uni), h2, replaceAll_eq optionAt, rep_option_pre hideRest pre' _ hq' ha',
    rep_some option_proper hideRest (option_found o v' post' ho h1 hc' none)]
  rw [rep_any option_proper option_any hideRest _ none post']
  rfl

/-! ### Redaction adds nothing but stars -/

theorem rep_adds {m : Matcher} (hm : Proper m) (f : Hit → Str)
    (hf : ∀ p s h, m p s = some h → List.Sublist ((f h).filter (· != '*')) h.text) :
    ∀ (n : Nat) (s : Str) (p : Option Char), s.length ≤ n →
      List.Sublist ((rep m f p s).filter (· != '*')) s
  | n, [], p, _ => by rw [rep_nil]; exact List.Sublist.refl _
  | 0, c :: s, p, h => by simp at h
  | n + 1, c :: s, p, h => by
    simp only [List.length_cons] at h
    cases e : m p (c :: s) with
    | none =>
      rw [rep_none f e, ← List.singleton_append, List.filter_append, ← List.singleton_append]
      exact List.Sublist.append List.filter_sublist (rep_adds hm f hf n s (some c) (by omega))
    | some x =>
      obtain ⟨h1, _⟩ := hm p _ x e
      have hl := hm.length e
      simp only [List.length_cons] at hl
      rw [rep_some hm f e, List.filter_append]
      conv => rhs; rw [← h1]
      exact List.Sublist.append (hf p _ x e) (rep_adds hm f hf n x.rest _ (by omega))

theorem adds_trans {a b c : Str} (h1 : List.Sublist (b.filter (· != '*')) a)
    (h2 : List.Sublist (c.filter (· != '*')) b) : List.Sublist (c.filter (· != '*')) a := by
  have := List.Sublist.filter (· != '*') h2
  rw [List.filter_filter] at this
  simp only [Bool.and_self] at this
  exact this.trans h1

theorem hideRest_adds (h : Hit) : List.Sublist ((hideRest h).filter (· != '*')) h.text := by
  unfold hideRest Hit.text
  rw [List.filter_append, List.append_assoc]
  have : (c!"***" : Str).filter (· != '*') = [] := by decide
  rw [this]
  exact List.Sublist.append List.filter_sublist (List.nil_sublist _)

theorem hideAssign_adds (M : Manager) (p : Option Char) (s : Str) (h : Hit)
    (e : assignAt M.uni p s = some h) : List.Sublist ((hideAssign M h).filter (· != '*')) h.text := by
  unfold hideAssign
  split
  · have hmid : h.mid = ['='] := by
      cases s with
      | nil => cases e
      | cons c s =>
        simp only [assignAt] at e
        split at e
        · unfold assignTail at e
          split at e
          · exact (run1_proper e).2.1
          · cases e
        · cases e
    unfold Hit.text
    rw [List.filter_append, hmid, List.append_assoc]
    have : (c!"=***" : Str).filter (· != '*') = ['='] := by decide
    rw [this]
    exact List.Sublist.append List.filter_sublist (List.sublist_append_left _ _)
  · exact List.filter_sublist

/-- C23: what is stored, its stars aside, consists of characters of the line in their order: no text is
made up, nothing is moved. -/
theorem stored_from_line (M : Manager) (s out : Str) (h : forHistory M s = some out) :
    List.Sublist (out.filter (· != '*')) s := by
  have hr : List.Sublist ((redact M s).filter (· != '*')) s := by
    unfold redact
    simp only [replaceAll_eq]
    refine adds_trans ?_ (rep_adds query_proper _ (fun _ _ h _ => hideRest_adds h) _ _ none (Nat.le_refl _))
    refine adds_trans ?_ (rep_adds bearer_proper _ (fun _ _ h _ => hideRest_adds h) _ _ none (Nat.le_refl _))
    refine adds_trans ?_ (rep_adds option_proper _ (fun _ _ h _ => hideRest_adds h) _ _ none (Nat.le_refl _))
    exact rep_adds (assign_proper M.uni) _ (hideAssign_adds M) _ _ none (Nat.le_refl _)
  unfold forHistory at h
  split at h
  · cases h; exact List.filter_sublist
  · split at h
    · cases h
    · cases h; exact List.filter_sublist
  · split at h
    · cases h; exact hr
    · cases h; exact List.filter_sublist

/-! ### C80: commands without secrets -/

theorem hits_none {m : Matcher} (P : Str → Prop) (hP : ∀ c s, P (c :: s) → P s)
    (hm : ∀ p s, P s → m p s = none) (s : Str) (hs : P s) (p : Option Char) : hitsFrom m p s = [] := by
  induction s generalizing p with
  | nil => rfl
  | cons c s ih => rw [hitsFrom_none (hm p _ hs)]; exact ih (hP c s hs) _

theorem option_quiet (p : Option Char) (s : Str) (h : quiet s = true) : optionAt p s = none := by
  apply option_none
  rintro t rfl
  obtain ⟨h1, h2⟩ := quiet_cons h
  refine ⟨h1 rfl, ?_⟩
  rintro u rfl
  exact (quiet_cons h2).1 rfl

theorem bearer_nocolon (p : Option Char) (s : Str) (h : ':' ∉ s) : bearerAt p s = none := by
  unfold bearerAt
  have : bearerHead s = none := by
    cases e : bearerHead s with
    | none => rfl
    | some r =>
      exfalso
      unfold bearerHead at e
      rw [Option.bind_eq_some_iff] at e
      obtain ⟨a, ha, e⟩ := e
      rw [Option.bind_eq_some_iff] at e
      obtain ⟨c, hc, _⟩ := e
      obtain ⟨h1, h2⟩ := lit_spec _ _ _ hc
      obtain ⟨h3, _⟩ := lit_spec _ _ _ ha
      apply h
      have hx : ':' ∈ c.1 := by
        have : ':' ∈ c.1.map fold := by rw [h2]; decide
        obtain ⟨x, hx, hf⟩ := List.mem_map.mp this
        rw [← fold_inv (by decide) hf]
        exact hx
      have h4 : ':' ∈ (skipWs a.2).2 := h1 ▸ List.mem_append_left _ hx
      have h5 : ':' ∈ a.2 := by
        rw [← skipWs_spec a.2]
        exact List.mem_append_right _ h4
      rw [← h3]
      exact List.mem_append_right _ h5
  rw [this]
  rfl

theorem query_noeq (p : Option Char) (s : Str) (h : '=' ∉ s) : queryAt p s = none := by
  cases s with
  | nil => rfl
  | cons c s =>
    simp only [queryAt]
    split
    · have : lits queryNames s = none := by
        cases e : lits queryNames s with
        | none => rfl
        | some r =>
          exfalso
          obtain ⟨h1, h2⟩ := lits_spec _ _ _ e
          have h3 : '=' ∈ r.1.map fold := by
            revert h2
            generalize r.1.map fold = w
            revert w
            decide +kernel
          obtain ⟨x, hx, hf⟩ := List.mem_map.mp h3
          apply h
          rw [← fold_inv (by decide) hf]
          exact List.mem_cons_of_mem _ (h1 ▸ List.mem_append_left _ hx)
      rw [this]
      rfl
    · rfl

/-- C80, as far as it holds: a line without `=` and `:` in which no dash is followed by `p`, `t`, `s` or
`a` is stored as it is in every mode, unless a pattern of the user matches it. -/
theorem ordinary_command_stored_partial (M : Manager) (s : Str) (h1 : '=' ∉ s) (h2 : ':' ∉ s)
    (h3 : quiet s = true) (h4 : ∀ p ∈ M.custom, p s = false) : forHistory M s = some s := by
  have hs : sensitiveCmd M s = false := by
    unfold sensitiveCmd isMatch
    simp only [hits_eq]
    rw [hits_none (fun s => '=' ∉ s) (fun c s h hh => h (List.mem_cons_of_mem _ hh))
        (fun p s h => assign_noeq M.uni p s h) s h1 none,
      hits_none (fun s => quiet s = true) (fun c s h => (quiet_cons h).2) option_quiet s h3 none,
      hits_none (fun s => ':' ∉ s) (fun c s h hh => h (List.mem_cons_of_mem _ hh)) bearer_nocolon s h2 none,
      hits_none (fun s => '=' ∉ s) (fun c s h hh => h (List.mem_cons_of_mem _ hh)) query_noeq s h1 none]
    simpa using h4
  unfold forHistory
  split
  · rfl
  · rw [hs]; rfl
  · rw [hs]; rfl

/-! ### Concrete managers -/

/-- ASCII only. -/
def U0 : Uni := ⟨fun _ => false, fun _ _ => rfl⟩

def skip0 : Manager := ⟨U0, [], .skip, []⟩
def redact0 : Manager := ⟨U0, [], .redact, []⟩

example : forHistory skip0 c!"export API_KEY=abc123" = none := by decide +kernel
example : forHistory redact0 c!"sudo env GITHUB_TOKEN=ghp_x LANG=C git push" =
    some c!"sudo env GITHUB_TOKEN=*** LANG=C git push" := by decide +kernel
example : forHistory redact0 c!"curl --token abc -H 'Authorization: Bearer xyz' 'https://a?token=qwe'" =
    some c!"curl --token *** -H 'Authorization: Bearer ***' 'https://a?token=***" := by decide +kernel

/-- The hypotheses of the theorems about assignments are met. -/
example : Opens U0 c!"export \"" ∧ IsName c!"GITHUB_TOKEN" ∧ SecretName redact0 c!"GITHUB_TOKEN" ∧
    IsValue c!"ghp_x" ∧ Closes c!" git push" := by
  refine ⟨⟨c!"export ", c!"\"", rfl, Or.inr ⟨c!"export", ' ', rfl, by decide⟩, by decide +kernel⟩,
    ⟨'G', _, rfl, by decide, by decide⟩, (sensitiveKey_iff _ _).mp (by decide +kernel),
    ⟨by decide, by decide⟩, Or.inr ⟨' ', _, rfl, by decide⟩⟩

/-- The hypotheses of the theorems about options are met. -/
example : quiet c!"mysql -u root --host db " = true ∧ Apart c!"mysql -u root --host db " ∧
    SecretOption c!"--Password=" ∧ Hideable c!"--Password=" c!"hunter2" ∧
    SecretOption c!"-p  " ∧ Hideable c!"-p  " c!"'two words'" := by
  refine ⟨by decide +kernel, Or.inr ⟨c!"mysql -u root --host db", ' ', rfl, by decide⟩,
    .long c!"--" c!"Password" c!"password" c!"=" (by decide) (by decide) rfl (Or.inl rfl),
    ⟨.plain _ (by decide) (by decide), Or.inl (by decide)⟩,
    .short 'p' c!"  " (by decide) ⟨by decide, by decide⟩,
    ⟨.quoted '\'' c!"two words" (by decide) (by decide), Or.inr (by decide)⟩⟩

example : BearerHeader c!"Authorization: Bearer " ∧ TokenChar 'e' ∧ SecretParam c!"&access_token=" :=
  ⟨.mk c!"Authorization" [] c!" " c!"Bearer" c!" " rfl (by decide) (by decide) rfl ⟨by decide, by decide⟩,
   Or.inl (by decide), .mk '&' c!"access_token=" _ (by decide) (by decide) rfl⟩

/-- An ordinary command. -/
example : forHistory skip0 c!"git commit --verbose -m fix" = some c!"git commit --verbose -m fix" :=
  ordinary_command_stored_partial skip0 _ (by decide) (by decide) (by decide +kernel) (by decide)

/-! ### What does not hold -/

/-- C23 without the condition on the text before: the value of a secret variable is hidden wherever the
shell takes `n=v` for an assignment.  After `;` it does, but an assignment glued to the one before is read
as part of its value. -/
theorem glued_assignment_violated :
    forHistory skip0 c!"A=1;API_KEY=abc123" = some c!"A=1;API_KEY=abc123" ∧
    forHistory redact0 c!"A=1;API_KEY=abc123" = some c!"A=1;API_KEY=abc123" := by
  decide +kernel

/-- C23 for values in quotes: what follows the first white space is stored. -/
theorem quoted_assignment_violated :
    forHistory redact0 c!"export PASSPHRASE=\"correct horse battery\"" =
      some c!"export PASSPHRASE=*** horse battery\"" := by
  decide +kernel

/-- C23 for the patterns of the user: with redaction a line that only such a pattern calls secret is
stored as it is. -/
theorem custom_pattern_violated (M : Manager) (hm : M.mode = .redact) (s : Str) (h1 : '=' ∉ s) (h2 : ':' ∉ s)
    (h3 : quiet s = true) : forHistory M s = some s := by
  have hr : redact M s = s := by
    have hr : ∀ {m : Matcher} (f : Hit → Str) (P : Str → Prop), (∀ c s, P (c :: s) → P s) →
        (∀ p s, P s → m p s = none) → ∀ s, P s → ∀ p, rep m f p s = s := by
      intro m f P hP hm s
      induction s with
      | nil => intro _ _; rfl
      | cons c s ih => intro hs p; rw [rep_none f (hm p _ hs), ih (hP c s hs)]
    unfold redact
    simp only [replaceAll_eq]
    rw [rep_noeq M.uni _ s h1 none,
      hr hideRest (fun s => quiet s = true) (fun c s h => (quiet_cons h).2) option_quiet s h3 none,
      hr hideRest (fun s => ':' ∉ s) (fun c s h hh => h (List.mem_cons_of_mem _ hh)) bearer_nocolon s h2 none,
      hr hideRest (fun s => '=' ∉ s) (fun c s h hh => h (List.mem_cons_of_mem _ hh)) query_noeq s h1 none]
  unfold forHistory
  rw [hm]
  dsimp only
  rw [hr]
  split <;> rfl

/-- The pattern `hunter2`, and a line it matches. -/
example : forHistory ⟨U0, [fun s => contains s c!"hunter2"], .skip, []⟩ c!"login hunter2" = none ∧
    forHistory ⟨U0, [fun s => contains s c!"hunter2"], .redact, []⟩ c!"login hunter2" =
      some c!"login hunter2" := by
  decide +kernel

/-- C23: redacting a second time can change the line again. -/
theorem redact_twice_violated :
    redact redact0 c!"run --password \"abc\"def" = c!"run --password ***def" ∧
    redact redact0 c!"run --password ***def" = c!"run --password ***" := by
  decide +kernel

/-- C79: the password of `mysql -psecret` is stored in every mode. -/
theorem short_option_violated :
    forHistory skip0 c!"mysql -u root -pSecret1" = some c!"mysql -u root -pSecret1" ∧
    forHistory redact0 c!"mysql -u root -pSecret1" = some c!"mysql -u root -pSecret1" := by
  decide +kernel

/-- C79: of a quoted value behind `=` only the first word is hidden; an option that swallows the next one
leaves its value. -/
theorem option_value_violated :
    forHistory redact0 c!"mysql --password=\"a b\"" = some c!"mysql --password=*** b\"" ∧
    forHistory redact0 c!"run --token --password secret1" = some c!"run --token *** secret1" := by
  decide +kernel

/-- C80: `-p` is an option of many commands. -/
theorem ordinary_command_violated :
    forHistory skip0 c!"mkdir -p src/bin" = none ∧
    forHistory redact0 c!"mkdir -p src/bin" = some c!"mkdir -p ***" := by
  decide +kernel

/-- C81: what is written does not always pass the filter: an accepted suggestion and an imported line are
written as they are. -/
theorem unfiltered_sources_violated :
    ¬ ∀ (src : Source) (s : Str), written skip0 src s = forHistory skip0 s := by
  intro h
  have := h .learned c!"export API_KEY=abc123"
  revert this
  decide +kernel

/-- C81, as far as it holds: a line that is run is written as the filter says, whatever the mode. -/
theorem run_filtered_partial (M : Manager) (pre n post : Str) (ho : Opens M.uni pre) (hn : IsName n)
    (hs : SecretName M n) (hc : Closes post) (hm : M.mode ≠ .none) :
    ∃ out, ∀ v, IsValue v → written M .run (assignLine pre n v post) = out := by
  cases e : M.mode with
  | none => exact absurd e hm
  | skip => exact ⟨none, fun v hv => secret_assignment_skipped M e pre n v post ho hn hs hv hc⟩
  | redact =>
    obtain ⟨out, h⟩ := secret_assignment_hidden M e pre n post ho hn hs hc
    exact ⟨some out, h⟩

end Dsh.Secrets
