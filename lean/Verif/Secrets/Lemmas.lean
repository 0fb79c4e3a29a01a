import Verif.Secrets.Model
/-!
Properties of secret handling: C23, C79–C81.
-/
namespace Dsh.Secrets

/-! ### General facts about going through a text -/

/-- A match starts where it is looked for and is not empty. -/
def Proper (m : Matcher) : Prop := ∀ p s h, m p s = some h → h.text ++ h.rest = s ∧ h.text ≠ []

theorem Proper.length {m : Matcher} (hm : Proper m) {p s h} (e : m p s = some h) :
    h.rest.length < s.length := by
  obtain ⟨h1, h2⟩ := hm p s h e
  rw [← h1, List.length_append]
  have := List.length_pos_iff.mpr h2
  omega

theorem replaceGo_fuel {m : Matcher} (hm : Proper m) (f : Hit → Str) : ∀ (n : Nat) (p : Option Char)
    (s : Str), s.length ≤ n → replaceGo m f n p s = replaceGo m f s.length p s
  | 0, p, s, h => by
    have : s.length = 0 := by omega
    rw [this]
  | n + 1, p, [], _ => rfl
  | n + 1, p, c :: s, h => by
    simp only [List.length_cons, replaceGo]
    cases e : m p (c :: s) with
    | none =>
      simp only
      rw [replaceGo_fuel hm f n _ s (by simpa using h)]
    | some h' =>
      have := hm.length e
      simp only [List.length_cons] at this h
      simp only
      rw [replaceGo_fuel hm f n _ h'.rest (by omega), replaceGo_fuel hm f s.length _ h'.rest (by omega)]

theorem hitsGo_fuel {m : Matcher} (hm : Proper m) : ∀ (n : Nat) (p : Option Char)
    (s : Str), s.length ≤ n → hitsGo m n p s = hitsGo m s.length p s
  | 0, p, s, h => by
    have : s.length = 0 := by omega
    rw [this]
  | n + 1, p, [], _ => rfl
  | n + 1, p, c :: s, h => by
    simp only [List.length_cons, hitsGo]
    cases e : m p (c :: s) with
    | none =>
      simp only
      rw [hitsGo_fuel hm n _ s (by simpa using h)]
    | some h' =>
      have := hm.length e
      simp only [List.length_cons] at this h
      simp only
      rw [hitsGo_fuel hm n _ h'.rest (by omega), hitsGo_fuel hm s.length _ h'.rest (by omega)]

/-- Replacing from a position on, with the character before it. -/
def rep (m : Matcher) (f : Hit → Str) (p : Option Char) (s : Str) : Str := replaceGo m f s.length p s

/-- The matches from a position on. -/
def hitsFrom (m : Matcher) (p : Option Char) (s : Str) : List Hit := hitsGo m s.length p s

theorem rep_nil (m : Matcher) (f : Hit → Str) (p : Option Char) : rep m f p [] = [] := rfl

theorem rep_none {m : Matcher} (f : Hit → Str) {p : Option Char} {c : Char} {s : Str}
    (h : m p (c :: s) = none) : rep m f p (c :: s) = c :: rep m f (some c) s := by
  simp only [rep, List.length_cons, replaceGo, h]

theorem rep_some {m : Matcher} (hm : Proper m) (f : Hit → Str) {p : Option Char} {s : Str} {h : Hit}
    (e : m p s = some h) : rep m f p s = f h ++ rep m f (lastOr p h.text) h.rest := by
  have hl := hm.length e
  cases s with
  | nil => simp at hl
  | cons c s =>
    simp only [rep, List.length_cons, replaceGo, e]
    simp only [List.length_cons] at hl
    rw [replaceGo_fuel hm f s.length _ h.rest (by omega)]

theorem hitsFrom_none {m : Matcher} {p : Option Char} {c : Char} {s : Str}
    (h : m p (c :: s) = none) : hitsFrom m p (c :: s) = hitsFrom m (some c) s := by
  simp only [hitsFrom, List.length_cons, hitsGo, h]

theorem hitsFrom_some {m : Matcher} (hm : Proper m) {p : Option Char} {s : Str} {h : Hit}
    (e : m p s = some h) : hitsFrom m p s = h :: hitsFrom m (lastOr p h.text) h.rest := by
  have hl := hm.length e
  cases s with
  | nil => simp at hl
  | cons c s =>
    simp only [hitsFrom, List.length_cons, hitsGo, e]
    simp only [List.length_cons] at hl
    rw [hitsGo_fuel hm s.length _ h.rest (by omega)]

theorem replaceAll_eq (m : Matcher) (f : Hit → Str) (s : Str) : replaceAll m f s = rep m f none s := rfl
theorem hits_eq (m : Matcher) (s : Str) : hits m s = hitsFrom m none s := rfl

/-! ### The matchers are proper -/

theorem run1_proper {q : Char → Bool} {pre mid s : Str} {h : Hit} (e : run1 q pre mid s = some h) :
    h.pre = pre ∧ h.mid = mid ∧ h.val ++ h.rest = s ∧ h.val ≠ [] := by
  unfold run1 at e
  split at e
  · cases e
  · next hne =>
    cases e
    exact ⟨rfl, rfl, List.takeWhile_append_dropWhile, by simpa using hne⟩

theorem assign_proper (U : Uni) : Proper (assignAt U) := by
  intro p s h e
  cases s with
  | nil => cases e
  | cons c s =>
    simp only [assignAt] at e
    split at e
    · have hs : s.takeWhile nameChar ++ s.dropWhile nameChar = s := List.takeWhile_append_dropWhile
      unfold assignTail at e
      split at e
      · next v hv =>
        obtain ⟨h1, h2, h3, h4⟩ := run1_proper e
        refine ⟨?_, by simp [Hit.text, h4]⟩
        unfold Hit.text
        rw [h1, h2, List.append_assoc, h3, List.append_assoc]
        show c :: (s.takeWhile nameChar ++ '=' :: v) = c :: s
        rw [← hv, hs]
      · cases e
    · cases e

theorem lit_spec : ∀ (w s : Str) (r : Str × Str), lit w s = some r → r.1 ++ r.2 = s ∧ r.1.map fold = w
  | [], s, r, h => by cases h; exact ⟨rfl, rfl⟩
  | a :: w, [], r, h => by cases h
  | a :: w, c :: s, r, h => by
    simp only [lit] at h
    split at h
    · next hc =>
      cases e : lit w s with
      | none => rw [e] at h; cases h
      | some r' =>
        rw [e] at h
        cases h
        obtain ⟨h1, h2⟩ := lit_spec w s r' e
        exact ⟨by simp [h1], by simp [h2, hc]⟩
    · cases h

theorem lits_spec (ws : List Str) (s : Str) (r : Str × Str) (h : lits ws s = some r) :
    r.1 ++ r.2 = s ∧ r.1.map fold ∈ ws := by
  obtain ⟨w, hw, e⟩ := List.exists_of_findSome?_eq_some h
  obtain ⟨h1, h2⟩ := lit_spec w s r e
  exact ⟨h1, h2 ▸ hw⟩

theorem lit_append (t s : Str) : lit (t.map fold) (t ++ s) = some (t, s) := by
  induction t with
  | nil => rfl
  | cons c t ih => simp [lit, ih]

/-- Two texts differ at some position both have. -/
def clash : Str → Str → Bool
  | a :: s, b :: t => a != b || clash s t
  | _, _ => false

theorem lit_clash : ∀ (w t s : Str), clash w (t.map fold) = true → lit w (t ++ s) = none
  | [], _, _, h => by simp [clash] at h
  | a :: w, [], s, h => by simp [clash] at h
  | a :: w, c :: t, s, h => by
    simp only [List.map_cons, clash, Bool.or_eq_true, bne_iff_ne] at h
    simp only [List.cons_append, lit]
    by_cases hc : fold c = a
    · rw [if_pos hc]
      rcases h with h | h
      · exact absurd hc.symm h
      · rw [lit_clash w t s h]; rfl
    · rw [if_neg hc]

theorem lits_append (ws : List Str) (hp : ws.Pairwise (fun a b => clash a b = true)) (t s : Str)
    (ht : t.map fold ∈ ws) : lits ws (t ++ s) = some (t, s) := by
  induction ws with
  | nil => cases ht
  | cons w ws ih =>
    rw [List.pairwise_cons] at hp
    unfold lits
    rw [List.findSome?_cons]
    rcases List.mem_cons.mp ht with h | h
    · rw [← h, lit_append]
    · rw [lit_clash w t s (hp.1 _ h)]
      exact ih hp.2 h

theorem optNames_clash : optNames.Pairwise (fun a b => clash a b = true) := by decide +kernel
theorem queryNames_clash : queryNames.Pairwise (fun a b => clash a b = true) := by decide +kernel

theorem optSep_spec (s : Str) (r : Str × Str) (h : optSep s = some r) : r.1 ++ r.2 = s ∧ r.1 ≠ [] := by
  cases s with
  | nil => cases h
  | cons c s =>
    simp only [optSep] at h
    split at h
    · cases h
      exact ⟨by simp [List.takeWhile_append_dropWhile], by simp⟩
    · split at h
      · cases h; exact ⟨rfl, by simp⟩
      · cases h

theorem quoted_proper {q : Char} {pre s : Str} {h : Hit} (e : quoted q pre s = some h) :
    h.pre = pre ∧ h.mid = [] ∧ h.val ++ h.rest = s ∧ h.val ≠ [] := by
  cases s with
  | nil => cases e
  | cons c s =>
    simp only [quoted] at e
    split at e
    · have hs : s.takeWhile (· != q) ++ s.dropWhile (· != q) = s := List.takeWhile_append_dropWhile
      split at e
      · cases e
      · next x rest hx =>
        cases e
        refine ⟨rfl, rfl, ?_, by simp⟩
        simp only [List.cons_append, List.append_assoc, List.nil_append]
        rw [← hx, hs]
    · cases e

theorem optValue_proper {pre s : Str} {h : Hit} (e : optValue pre s = some h) :
    h.pre = pre ∧ h.mid = [] ∧ h.val ++ h.rest = s ∧ h.val ≠ [] := by
  unfold optValue at e
  cases h1 : run1 plainChar pre [] s with
  | some x => rw [h1] at e; cases e; exact run1_proper h1
  | none =>
    rw [h1] at e
    cases h2 : quoted '"' pre s with
    | some x => rw [h2] at e; cases e; exact quoted_proper h2
    | none => rw [h2] at e; exact quoted_proper e

theorem optLong_spec (d s : Str) (r : Str × Str) (h : optLong d s = some r) : r.1 ++ r.2 = s := by
  unfold optLong at h
  rw [Option.bind_eq_some_iff] at h
  obtain ⟨a, ha, h⟩ := h
  rw [Option.bind_eq_some_iff] at h
  obtain ⟨n, hn, h⟩ := h
  rw [Option.map_eq_some_iff] at h
  obtain ⟨p, hp, rfl⟩ := h
  have h1 := (lit_spec _ _ _ ha).1
  have h2 := (lits_spec _ _ _ hn).1
  have h3 := (optSep_spec _ _ hp).1
  simp only [List.append_assoc]
  rw [h3, h2, h1]

theorem optShort_spec (s : Str) (r : Str × Str) (h : optShort s = some r) : r.1 ++ r.2 = s := by
  unfold optShort at h
  rw [Option.bind_eq_some_iff] at h
  obtain ⟨a, ha, h⟩ := h
  have h1 := (lit_spec _ _ _ ha).1
  split at h
  · cases h
  · next c t hc =>
    split at h
    · cases h
      simp only [List.append_assoc, List.cons_append, List.takeWhile_append_dropWhile]
      rw [← hc, h1]
    · cases h

theorem withValue_proper {o : Option (Str × Str)} {s : Str} {h : Hit}
    (ho : ∀ r, o = some r → r.1 ++ r.2 = s) (e : withValue o = some h) :
    h.text ++ h.rest = s ∧ h.text ≠ [] := by
  unfold withValue at e
  rw [Option.bind_eq_some_iff] at e
  obtain ⟨r, hr, e⟩ := e
  obtain ⟨h1, h2, h3, h4⟩ := optValue_proper e
  unfold Hit.text
  rw [h1, h2]
  refine ⟨?_, by simp [h4]⟩
  rw [List.append_nil, List.append_assoc, h3, ho r hr]

theorem option_proper : Proper optionAt := by
  intro p s h e
  unfold optionAt at e
  cases h1 : withValue (optLong c!"--" s) with
  | some x => rw [h1] at e; cases e; exact withValue_proper (optLong_spec _ s) h1
  | none =>
    rw [h1] at e
    cases h2 : withValue (optLong c!"-" s) with
    | some x => rw [h2] at e; cases e; exact withValue_proper (optLong_spec _ s) h2
    | none => rw [h2] at e; exact withValue_proper (optShort_spec s) e

theorem skipWs_spec (s : Str) : (skipWs s).1 ++ (skipWs s).2 = s := List.takeWhile_append_dropWhile

theorem bearerHead_spec (s : Str) (r : Str × Str) (h : bearerHead s = some r) : r.1 ++ r.2 = s := by
  unfold bearerHead at h
  rw [Option.bind_eq_some_iff] at h
  obtain ⟨a, ha, h⟩ := h
  dsimp only at h
  rw [Option.bind_eq_some_iff] at h
  obtain ⟨c, hc, h⟩ := h
  rw [Option.bind_eq_some_iff] at h
  obtain ⟨b, hb, h⟩ := h
  split at h
  · cases h
  · cases h
    simp only [List.append_assoc]
    rw [skipWs_spec, (lit_spec _ _ _ hb).1, skipWs_spec, (lit_spec _ _ _ hc).1, skipWs_spec,
      (lit_spec _ _ _ ha).1]

theorem bearer_proper : Proper bearerAt := by
  intro p s h e
  unfold bearerAt at e
  rw [Option.bind_eq_some_iff] at e
  obtain ⟨r, hr, e⟩ := e
  obtain ⟨h1, h2, h3, h4⟩ := run1_proper e
  unfold Hit.text
  rw [h1, h2]
  refine ⟨?_, by simp [h4]⟩
  rw [List.append_nil, List.append_assoc, h3, bearerHead_spec s r hr]

theorem query_proper : Proper queryAt := by
  intro p s h e
  cases s with
  | nil => cases e
  | cons c s =>
    simp only [queryAt] at e
    split at e
    · rw [Option.bind_eq_some_iff] at e
      obtain ⟨r, hr, e⟩ := e
      obtain ⟨h1, h2, h3, h4⟩ := run1_proper e
      unfold Hit.text
      rw [h1, h2]
      refine ⟨?_, by simp⟩
      rw [List.append_nil, List.append_assoc, h3, List.cons_append, (lits_spec _ _ _ hr).1]
    · cases e

/-! ### Assignments -/

theorem toLower_high (w : Char) (h : ¬ w.toNat < 128) : w.toLower = w := by
  unfold Char.toLower
  rw [dif_neg]
  rintro ⟨_, h2⟩
  have h3 : w.toNat ≤ 'Z'.toNat := h2
  have : 'Z'.toNat = 90 := by decide
  omega

theorem ws_not_name {w : Char} (h : rustWhitespace w = true) : nameStart w = false ∧ nameChar w = false := by
  have hn : w.toNat < 128 → nameChar w = false := by
    intro hlt
    have : w = Char.ofNat w.toNat := (Char.ofNat_toNat w).symm
    rw [this] at h ⊢
    generalize w.toNat = n at *
    clear this
    revert h
    revert n
    decide +kernel
  by_cases hlt : w.toNat < 128
  · have := hn hlt
    refine ⟨?_, this⟩
    unfold nameChar at this
    simp only [Bool.or_eq_false_iff] at this
    exact this.1
  · have hs : nameStart w = false := by
      unfold nameStart
      have h1 : w ≠ '\u017f' := by
        rintro rfl
        exact absurd h (by decide)
      have h2 : w ≠ 'K' := by
        rintro rfl
        exact absurd h (by decide)
      have h3 : fold w = w := by
        unfold fold
        rw [if_neg (by simpa using h1), if_neg (by simpa using h2)]
        exact toLower_high w hlt
      have h4 : w ≠ '_' := by
        rintro rfl
        exact absurd h (by decide)
      rw [h3]
      have h5 : ¬ (w ≤ 'z') := by
        intro hc
        have : w.toNat ≤ 'z'.toNat := hc
        have : 'z'.toNat = 122 := by decide
        omega
      simp [h4, h5]
    refine ⟨hs, ?_⟩
    unfold nameChar
    have h5 : ¬ (w ≤ '9') := by
      intro hc
      have : w.toNat ≤ '9'.toNat := hc
      have : '9'.toNat = 57 := by decide
      omega
    simp [hs, h5]

theorem takeWhile_stop {α} (q : α → Bool) (a : List α) (w : α) (b : List α) (hw : q w = false) :
    (a ++ w :: b).takeWhile q = a.takeWhile q ∧ (a ++ w :: b).dropWhile q = a.dropWhile q ++ w :: b := by
  induction a with
  | nil => simp [List.takeWhile, List.dropWhile, hw]
  | cons x a ih =>
    by_cases hx : q x = true
    · simp [List.takeWhile, List.dropWhile, hx, ih]
    · simp [List.takeWhile, List.dropWhile, hx]

/-- A match with more text behind it. -/
def Hit.more (t : Str) (h : Hit) : Hit := { h with rest := h.rest ++ t }

theorem run1_stop (q : Char → Bool) (pre mid s : Str) (w : Char) (b : Str) (hw : q w = false) :
    run1 q pre mid (s ++ w :: b) = (run1 q pre mid s).map (Hit.more (w :: b)) := by
  unfold run1
  obtain ⟨h1, h2⟩ := takeWhile_stop q s w b hw
  rw [h1, h2]
  split
  · rfl
  · rfl

theorem ws_ne_eq {w : Char} (h : rustWhitespace w = true) : w ≠ '=' := by
  rintro rfl
  exact absurd h (by decide)

theorem nonSpace_ws {w : Char} (h : rustWhitespace w = true) : nonSpace w = false := by
  simp [nonSpace, h]

/-- White space ends every assignment. -/
theorem assign_stop (U : Uni) (p : Option Char) (c : Char) (a : Str) (w : Char) (b : Str)
    (hw : rustWhitespace w = true) :
    assignAt U p (c :: a ++ w :: b) = (assignAt U p (c :: a)).map (Hit.more (w :: b)) := by
  obtain ⟨h1, h2⟩ := takeWhile_stop nameChar a w b (ws_not_name hw).2
  simp only [List.cons_append, assignAt]
  rw [h1, h2]
  split
  · cases hd : a.dropWhile nameChar with
    | nil =>
      rw [List.nil_append]
      unfold assignTail
      split
      · next v hv =>
        simp only [List.cons.injEq] at hv
        exact absurd hv.1 (ws_ne_eq hw)
      · rfl
    | cons x y =>
      rw [List.cons_append]
      by_cases hx : x = '='
      · subst hx
        simp only [assignTail]
        exact run1_stop nonSpace _ _ y w b (nonSpace_ws hw)
      · have e1 : ∀ z n, assignTail n (x :: z) = none := by
          intro z n
          unfold assignTail
          split
          · next v hv => simp only [List.cons.injEq] at hv; exact absurd hv.1 hx
          · rfl
        rw [e1, e1]
        rfl
  · rfl

theorem assign_ws (U : Uni) (p : Option Char) (w : Char) (b : Str) (hw : rustWhitespace w = true) :
    assignAt U p (w :: b) = none := by
  simp [assignAt, (ws_not_name hw).1]

theorem lastOr_text (p : Option Char) (h : Hit) (t : Str) : lastOr p (h.more t).text = lastOr p h.text := rfl

/-- Redacting the assignments of a text goes word by word. -/
theorem rep_assign_split (U : Uni) (f : Hit → Str) (hf : ∀ h t, f (h.more t) = f h) (w : Char)
    (hw : rustWhitespace w = true) (b : Str) : ∀ (n : Nat) (a : Str) (p : Option Char), a.length ≤ n →
    rep (assignAt U) f p (a ++ w :: b) = rep (assignAt U) f p a ++ w :: rep (assignAt U) f (some w) b
  | n, [], p, _ => by
    rw [List.nil_append, rep_none f (assign_ws U p w b hw)]
    rfl
  | 0, c :: a, p, h => by simp at h
  | n + 1, c :: a, p, h => by
    simp only [List.length_cons] at h
    have hs := assign_stop U p c a w b hw
    cases e : assignAt U p (c :: a) with
    | none =>
      rw [e] at hs
      rw [List.cons_append] at hs
      rw [List.cons_append, rep_none f hs, rep_none f e,
        rep_assign_split U f hf w hw b n a (some c) (by omega)]
      rfl
    | some h' =>
      rw [e] at hs
      have hl := (assign_proper U).length e
      simp only [List.length_cons] at hl
      rw [rep_some (assign_proper U) f hs, rep_some (assign_proper U) f e, hf, lastOr_text]
      show f h' ++ rep (assignAt U) f (lastOr p h'.text) (h'.rest ++ w :: b) = _
      rw [rep_assign_split U f hf w hw b n h'.rest _ (by omega), List.append_assoc]

/-- The names found go word by word too. -/
theorem keys_assign_split (U : Uni) (w : Char) (hw : rustWhitespace w = true) (b : Str) :
    ∀ (n : Nat) (a : Str) (p : Option Char), a.length ≤ n →
    (hitsFrom (assignAt U) p (a ++ w :: b)).map Hit.pre =
      (hitsFrom (assignAt U) p a).map Hit.pre ++ (hitsFrom (assignAt U) (some w) b).map Hit.pre
  | n, [], p, _ => by
    rw [List.nil_append, hitsFrom_none (assign_ws U p w b hw)]
    rfl
  | 0, c :: a, p, h => by simp at h
  | n + 1, c :: a, p, h => by
    simp only [List.length_cons] at h
    have hs := assign_stop U p c a w b hw
    cases e : assignAt U p (c :: a) with
    | none =>
      rw [e] at hs
      rw [List.cons_append] at hs
      rw [List.cons_append, hitsFrom_none hs, hitsFrom_none e,
        keys_assign_split U w hw b n a (some c) (by omega)]
    | some h' =>
      rw [e] at hs
      have hl := (assign_proper U).length e
      simp only [List.length_cons] at hl
      rw [hitsFrom_some (assign_proper U) hs, hitsFrom_some (assign_proper U) e, lastOr_text]
      show h'.pre :: (hitsFrom (assignAt U) (lastOr p h'.text) (h'.rest ++ w :: b)).map Hit.pre = _
      rw [keys_assign_split U w hw b n h'.rest _ (by omega)]
      rfl

/-! ### Specification: where an assignment stands -/

/-- A variable name: letters, digits and underscores, not starting with a digit. -/
def IsName (n : Str) : Prop :=
  ∃ c t, n = c :: t ∧ (c.isAlpha = true ∨ c = '_') ∧ ∀ x ∈ t, x.isAlphanum = true ∨ x = '_'

theorem alpha_nameStart {c : Char} (h : c.isAlpha = true ∨ c = '_') : nameStart c = true := by
  rcases h with h | rfl
  · have hlt : c.toNat < 128 := by
      simp only [Char.isAlpha, Char.isUpper, Char.isLower, Bool.or_eq_true, Bool.and_eq_true,
        decide_eq_true_eq] at h
      rcases h with ⟨_, h⟩ | ⟨_, h⟩
      · have h3 : c.toNat ≤ 'Z'.toNat := h
        have : 'Z'.toNat = 90 := by decide
        omega
      · have h3 : c.toNat ≤ 'z'.toNat := h
        have : 'z'.toNat = 122 := by decide
        omega
    have : c = Char.ofNat c.toNat := (Char.ofNat_toNat c).symm
    rw [this] at h ⊢
    generalize c.toNat = n at *
    clear this
    revert h
    revert n
    decide +kernel
  · decide

theorem alnum_nameChar {c : Char} (h : c.isAlphanum = true ∨ c = '_') : nameChar c = true := by
  unfold nameChar
  rcases h with h | h
  · rw [Char.isAlphanum, Bool.or_eq_true] at h
    rcases h with h | h
    · rw [alpha_nameStart (Or.inl h)]; rfl
    · simp only [Char.isDigit, Bool.and_eq_true, decide_eq_true_eq] at h
      have h1 : '0' ≤ c := h.1
      have h2 : c ≤ '9' := h.2
      simp [h1, h2]
  · rw [alpha_nameStart (Or.inr h)]; rfl

/-- A value without white space. -/
def IsValue (v : Str) : Prop := v ≠ [] ∧ ∀ x ∈ v, rustWhitespace x = false

/-- The text before: empty or ending with white space, then possibly characters that do not belong to
words (quotes, dashes, parentheses). -/
def Opens (U : Uni) (pre : Str) : Prop :=
  ∃ p j, pre = p ++ j ∧ (p = [] ∨ ∃ t w, p = t ++ [w] ∧ rustWhitespace w = true) ∧
    ∀ c ∈ j, isWord U c = false

/-- The text after: empty or starting with white space. -/
def Closes (post : Str) : Prop := post = [] ∨ ∃ w t, post = w :: t ∧ rustWhitespace w = true

theorem takeWhile_all_stop {α} (q : α → Bool) (a b : List α) (ha : ∀ x ∈ a, q x = true)
    (hb : ∀ x, b.head? = some x → q x = false) : (a ++ b).takeWhile q = a ∧ (a ++ b).dropWhile q = b := by
  induction a with
  | nil =>
    cases b with
    | nil => exact ⟨rfl, rfl⟩
    | cons x b =>
      have := hb x rfl
      simp [List.takeWhile, List.dropWhile, this]
  | cons x a ih =>
    have := ih (fun y hy => ha y (List.mem_cons_of_mem _ hy))
    simp [List.takeWhile, List.dropWhile, ha x List.mem_cons_self, this]

theorem closes_head {post : Str} (h : Closes post) : ∀ x, post.head? = some x → rustWhitespace x = true := by
  rcases h with rfl | ⟨w, t, rfl, hw⟩
  · intro x hx; cases hx
  · intro x hx; cases hx; exact hw

theorem run1_value (q : Char → Bool) (pre mid v post : Str) (hv : v ≠ []) (hq : ∀ x ∈ v, q x = true)
    (hp : ∀ x, post.head? = some x → q x = false) :
    run1 q pre mid (v ++ post) = some ⟨pre, mid, v, post⟩ := by
  obtain ⟨h1, h2⟩ := takeWhile_all_stop q v post hq hp
  unfold run1
  rw [h1, h2, if_neg (by simpa using hv)]

theorem nameChar_eq : nameChar '=' = false := by decide

/-- An assignment is matched where it stands. -/
theorem assign_found (U : Uni) (p : Option Char) (n v post : Str) (hn : IsName n) (hv : IsValue v)
    (hp : p.any (isWord U) = false) (hc : Closes post) :
    assignAt U p (n ++ '=' :: (v ++ post)) = some ⟨n, ['='], v, post⟩ := by
  obtain ⟨c, t, rfl, h1, h2⟩ := hn
  obtain ⟨h3, h4⟩ := takeWhile_all_stop nameChar t ('=' :: (v ++ post)) (fun x hx => alnum_nameChar (h2 x hx))
    (by intro x hx; cases hx; exact nameChar_eq)
  simp only [List.cons_append, assignAt]
  rw [if_pos (by simp [alpha_nameStart h1, hp]), h3, h4]
  simp only [assignTail]
  exact run1_value nonSpace _ _ v post hv.1 (fun x hx => by simp [nonSpace, hv.2 x hx])
    (fun x hx => by simp [nonSpace, closes_head hc x hx])

theorem nameStart_word (U : Uni) (c : Char) (h : isWord U c = false) : nameStart c = false := by
  by_cases hlt : c.toNat < 128
  · unfold isWord at h
    rw [if_pos hlt] at h
    have : c = Char.ofNat c.toNat := (Char.ofNat_toNat c).symm
    rw [this] at h ⊢
    generalize c.toNat = n at *
    clear this
    revert h
    revert n
    decide +kernel
  · unfold isWord at h
    rw [if_neg hlt] at h
    simp only [Bool.or_eq_false_iff, beq_eq_false_iff_ne] at h
    unfold nameStart
    have h3 : fold c = c := by
      unfold fold
      rw [if_neg (by simpa using h.1.2), if_neg (by simpa using h.2)]
      exact toLower_high c hlt
    rw [h3]
    have h5 : ¬ (c ≤ 'z') := by
      intro hc
      have : c.toNat ≤ 'z'.toNat := hc
      have : 'z'.toNat = 122 := by decide
      omega
    have h4 : c ≠ '_' := by
      rintro rfl
      exact absurd hlt (by decide)
    simp [h4, h5]

/-- Nothing is found in characters that do not belong to words. -/
theorem rep_junk (U : Uni) (f : Hit → Str) (j s : Str) (hj : ∀ c ∈ j, isWord U c = false)
    (p : Option Char) (hp : p.any (isWord U) = false) :
    ∃ q : Option Char, q.any (isWord U) = false ∧
      rep (assignAt U) f p (j ++ s) = j ++ rep (assignAt U) f q s ∧
      (hitsFrom (assignAt U) p (j ++ s)) = hitsFrom (assignAt U) q s := by
  induction j generalizing p with
  | nil => exact ⟨p, hp, rfl, rfl⟩
  | cons c j ih =>
    have hc := hj c List.mem_cons_self
    obtain ⟨q, h1, h2, h3⟩ := ih (fun x hx => hj x (List.mem_cons_of_mem _ hx)) (some c) (by simpa using hc)
    have he : assignAt U p (c :: (j ++ s)) = none := by
      simp [assignAt, nameStart_word U c hc]
    exact ⟨q, h1, by rw [List.cons_append, rep_none f he, h2]; rfl,
      by rw [List.cons_append, hitsFrom_none he, h3]⟩

theorem ws_not_word (U : Uni) {w : Char} (h : rustWhitespace w = true) : isWord U w = false := by
  by_cases hlt : w.toNat < 128
  · unfold isWord
    rw [if_pos hlt]
    have : w = Char.ofNat w.toNat := (Char.ofNat_toNat w).symm
    rw [this] at h ⊢
    generalize w.toNat = n at *
    clear this
    revert h
    revert n
    decide +kernel
  · unfold isWord
    rw [if_neg hlt, U.space w h]
    have h1 : w ≠ '\u017f' := by rintro rfl; exact absurd h (by decide)
    have h2 : w ≠ 'K' := by rintro rfl; exact absurd h (by decide)
    simp [h1, h2]

theorem rep_closes (U : Uni) (f : Hit → Str) {post : Str} (hc : Closes post) :
    ∃ b, ∀ p, rep (assignAt U) f p post = b := by
  rcases hc with rfl | ⟨w, t, rfl, hw⟩
  · exact ⟨[], fun _ => rfl⟩
  · exact ⟨_, fun p => rep_none f (assign_ws U p w t hw)⟩

/-- What replacing the assignments does to a text in which an assignment stands. -/
theorem assign_stage (U : Uni) (f : Hit → Str) (hf : ∀ h t, f (h.more t) = f h) (pre n post : Str)
    (ho : Opens U pre) (hn : IsName n) (hc : Closes post) :
    ∃ a b : Str, ∀ v, IsValue v →
      replaceAll (assignAt U) f (pre ++ (n ++ '=' :: (v ++ post))) = a ++ (f ⟨n, ['='], v, []⟩ ++ b) := by
  obtain ⟨p, j, rfl, hp, hj⟩ := ho
  obtain ⟨b, hb⟩ := rep_closes U f hc
  have key : ∀ q : Option Char, q.any (isWord U) = false → ∀ v, IsValue v →
      rep (assignAt U) f q (n ++ '=' :: (v ++ post)) = f ⟨n, ['='], v, []⟩ ++ b := by
    intro q hq v hv
    rw [rep_some (assign_proper U) f (assign_found U q n v post hn hv hq hc)]
    show f (Hit.more post ⟨n, ['='], v, []⟩) ++ rep (assignAt U) f _ post = _
    rw [hf, hb]
  have junk : ∀ q : Option Char, q.any (isWord U) = false → ∀ v, IsValue v →
      rep (assignAt U) f q (j ++ (n ++ '=' :: (v ++ post))) = j ++ (f ⟨n, ['='], v, []⟩ ++ b) := by
    intro q hq v hv
    obtain ⟨q', h1, h2, _⟩ := rep_junk U f j (n ++ '=' :: (v ++ post)) hj q hq
    rw [h2, key q' h1 v hv]
  rcases hp with rfl | ⟨t, w, rfl, hw⟩
  · refine ⟨j, b, fun v hv => ?_⟩
    rw [replaceAll_eq, List.nil_append]
    exact junk none rfl v hv
  · refine ⟨rep (assignAt U) f none t ++ w :: j, b, fun v hv => ?_⟩
    rw [replaceAll_eq, List.append_assoc, List.append_assoc, List.singleton_append,
      rep_assign_split U f hf w hw _ t.length t none (Nat.le_refl _),
      junk (some w) (by simpa using ws_not_word U hw) v hv]
    simp

/-- The name of an assignment is among those looked at. -/
theorem assign_key (U : Uni) (pre n v post : Str) (ho : Opens U pre) (hn : IsName n) (hv : IsValue v)
    (hc : Closes post) :
    n ∈ (hits (assignAt U) (pre ++ (n ++ '=' :: (v ++ post)))).map Hit.pre := by
  obtain ⟨p, j, rfl, hp, hj⟩ := ho
  have junk : ∀ q : Option Char, q.any (isWord U) = false →
      n ∈ (hitsFrom (assignAt U) q (j ++ (n ++ '=' :: (v ++ post)))).map Hit.pre := by
    intro q hq
    obtain ⟨q', h1, _, h2⟩ := rep_junk U Hit.text j (n ++ '=' :: (v ++ post)) hj q hq
    rw [h2, hitsFrom_some (assign_proper U) (assign_found U q' n v post hn hv h1 hc)]
    simp
  rcases hp with rfl | ⟨t, w, rfl, hw⟩
  · exact junk none rfl
  · rw [hits_eq, List.append_assoc, List.append_assoc, List.singleton_append,
      keys_assign_split U w hw _ t.length t none (Nat.le_refl _)]
    exact List.mem_append_right _ (junk (some w) (by simpa using ws_not_word U hw))

/-! ### Matching anywhere -/

/-- A match somewhere makes the text match. -/
theorem match_anywhere {m : Matcher} (hm : Proper m) (hp : ∀ p q s, m p s = m q s) {s : Str} {h : Hit}
    (e : m none s = some h) (u : Str) : isMatch m (u ++ s) = true := by
  have : ∀ p, hitsFrom m p (u ++ s) ≠ [] := by
    induction u with
    | nil =>
      intro p
      rw [List.nil_append, hitsFrom_some hm ((hp p none s).trans e)]
      simp
    | cons c u ih =>
      intro p
      rw [List.cons_append]
      cases e' : m p (c :: (u ++ s)) with
      | none => rw [hitsFrom_none e']; exact ih (some c)
      | some h' => rw [hitsFrom_some hm e']; simp
  unfold isMatch
  rw [hits_eq]
  simpa using this none

theorem option_any : ∀ p q s, optionAt p s = optionAt q s := fun _ _ _ => rfl
theorem bearer_any : ∀ p q s, bearerAt p s = bearerAt q s := fun _ _ _ => rfl
theorem query_any : ∀ p q s, queryAt p s = queryAt q s
  | _, _, [] => rfl
  | _, _, _ :: _ => rfl

/-! ### Specification: options, headers, URL parameters -/

/-- A text, ignoring case (of ASCII letters). -/
def Same (t w : Str) : Prop := t.map Char.toLower = w

theorem fold_lower {c a : Char} (h : c.toLower = a) (ha : a.toNat < 128) : fold c = a := by
  unfold fold
  have h1 : c ≠ '\u017f' := by
    rintro rfl
    rw [toLower_high _ (by decide)] at h
    subst h
    exact absurd ha (by decide)
  have h2 : c ≠ '\u212a' := by
    rintro rfl
    rw [toLower_high _ (by decide)] at h
    subst h
    exact absurd ha (by decide)
  rw [if_neg (by simpa using h1), if_neg (by simpa using h2), h]

theorem same_fold {t w : Str} (h : Same t w) (hw : ∀ c ∈ w, c.toNat < 128) : t.map fold = w := by
  subst h
  rw [List.map_inj_left]
  intro c hc
  exact fold_lower rfl (hw _ (List.mem_map_of_mem hc))

/-- The names of the options that take secrets. -/
def secretOptions : List Str :=
  [c!"password", c!"passwd", c!"passphrase", c!"token", c!"secret", c!"api-key", c!"api_key", c!"apikey",
   c!"access-token", c!"access_token", c!"accesstoken"]

/-- White space, at least one character. -/
def Blank (s : Str) : Prop := s ≠ [] ∧ ∀ c ∈ s, rustWhitespace c = true

/-- An option that takes a secret, up to where its value starts: one or two dashes, a name in upper or
lower case, and `=` or white space; or `-p` and white space. -/
inductive SecretOption : Str → Prop where
  | long (d n w t : Str) : (d = c!"-" ∨ d = c!"--") → w ∈ secretOptions → Same n w → (t = c!"=" ∨ Blank t) →
      SecretOption (d ++ n ++ t)
  | short (p : Char) (t : Str) : (p = 'p' ∨ p = 'P') → Blank t → SecretOption ('-' :: p :: t)

/-- A value given to an option: a word without quotes, or a text in quotes. -/
inductive OptionValue : Str → Prop where
  | plain (v : Str) : v ≠ [] → (∀ c ∈ v, rustWhitespace c = false ∧ c ≠ '"' ∧ c ≠ '\'') → OptionValue v
  | quoted (q : Char) (b : Str) : (q = '"' ∨ q = '\'') → q ∉ b → OptionValue (q :: b ++ [q])

theorem secretOptions_eq : secretOptions = optNames := rfl

theorem optNames_ascii : ∀ w ∈ optNames, ∀ c ∈ w, c.toNat < 128 := by decide +kernel

/-- A value cannot start with white space. -/
theorem value_head {v : Str} (hv : OptionValue v) : ∃ c t, v = c :: t ∧ rustWhitespace c = false := by
  cases hv with
  | plain v h1 h2 =>
    cases v with
    | nil => exact absurd rfl h1
    | cons c t => exact ⟨c, t, rfl, (h2 c List.mem_cons_self).1⟩
  | quoted q b h1 h2 =>
    refine ⟨q, b ++ [q], rfl, ?_⟩
    rcases h1 with rfl | rfl <;> decide

theorem plainChar_iff (c : Char) : plainChar c = true ↔ rustWhitespace c = false ∧ c ≠ '"' ∧ c ≠ '\'' := by
  simp only [plainChar, Bool.and_eq_true, Bool.not_eq_true', bne_iff_ne, ne_eq]
  grind

theorem optValue_found (pre v post : Str) (hv : OptionValue v) (hc : Closes post) :
    optValue pre (v ++ post) = some ⟨pre, [], v, post⟩ := by
  cases hv with
  | plain v h1 h2 =>
    unfold optValue
    rw [run1_value plainChar pre [] v post h1 (fun x hx => (plainChar_iff x).mpr (h2 x hx))
      (fun x hx => by simp [plainChar, closes_head hc x hx])]
    rfl
  | quoted q b h1 h2 =>
    unfold optValue
    have e1 : run1 plainChar pre [] (q :: b ++ [q] ++ post) = none := by
      unfold run1
      have : plainChar q = false := by rcases h1 with rfl | rfl <;> decide
      simp [List.takeWhile, this]
    have e2 : quoted q pre (q :: b ++ [q] ++ post) = some ⟨pre, [], q :: b ++ [q], post⟩ := by
      obtain ⟨h3, h4⟩ := takeWhile_all_stop (· != q) b (q :: post)
        (fun x hx => by
          have : x ≠ q := by rintro rfl; exact h2 hx
          simpa using this)
        (by intro x hx; cases hx; simp)
      simp only [List.cons_append, List.append_assoc, List.nil_append, quoted]
      rw [h4, h3]
      simp
    rw [e1]
    rcases h1 with rfl | rfl
    · rw [e2]; rfl
    · have e3 : quoted '"' pre ('\'' :: b ++ ['\''] ++ post) = none := rfl
      rw [e3, e2]; rfl

theorem blank_sep {t s : Str} (ht : Blank t) (hs : ∀ x, s.head? = some x → rustWhitespace x = false) :
    optSep (t ++ s) = some (t, s) := by
  obtain ⟨h1, h2⟩ := ht
  cases t with
  | nil => exact absurd rfl h1
  | cons c t =>
    obtain ⟨h3, h4⟩ := takeWhile_all_stop rustWhitespace t s (fun x hx => h2 x (List.mem_cons_of_mem _ hx)) hs
    simp only [List.cons_append, optSep]
    rw [if_pos (h2 c List.mem_cons_self), h3, h4]

theorem eq_sep (s : Str) : optSep (c!"=" ++ s) = some (c!"=", s) := by
  show optSep ('=' :: s) = _
  simp only [optSep]
  rw [if_neg (by decide), if_pos trivial]

theorem head_value {v post : Str} (hv : OptionValue v) :
    ∀ x, (v ++ post).head? = some x → rustWhitespace x = false := by
  obtain ⟨c, t, rfl, h⟩ := value_head hv
  intro x hx
  cases hx
  exact h

theorem optNames_heads : ∀ w ∈ optNames, w.head? ≠ some '-' ∧ w ≠ [] := by decide +kernel

/-- `--` is not read as `-` followed by a name, nor the other way round. -/
theorem optLong_dashes (n s : Str) (w : Str) (hw : w ∈ optNames) (hn : n.map fold = w) :
    optLong c!"--" (c!"-" ++ (n ++ s)) = none := by
  obtain ⟨h1, h2⟩ := optNames_heads w hw
  cases n with
  | nil => exact absurd hn.symm h2
  | cons c n =>
    have hc : fold c ≠ '-' := by
      rintro hc
      apply h1
      rw [← hn]
      simp [hc]
    unfold optLong
    have : lit c!"--" (c!"-" ++ (c :: n ++ s)) = none := by
      show lit ['-', '-'] ('-' :: c :: (n ++ s)) = none
      simp [lit, hc, show fold '-' = '-' from by decide]
    rw [this]
    rfl

theorem option_match (o s : Str) (h : Hit) (ho : SecretOption o)
    (hs : ∀ x, s.head? = some x → rustWhitespace x = false) (hval : optValue o s = some h)
    (p : Option Char) : optionAt p (o ++ s) = some h := by
  unfold optionAt
  cases ho with
  | long d n w t hd hw hn ht =>
    have hf := same_fold hn (optNames_ascii w hw)
    have hl : optLong d (d ++ n ++ t ++ s) = some (d ++ n ++ t, s) := by
      unfold optLong
      have h1 : lit d (d ++ n ++ t ++ s) = some (d, n ++ (t ++ s)) := by
        have : d.map fold = d := by rcases hd with rfl | rfl <;> decide
        have h := lit_append d (n ++ (t ++ s))
        rw [this] at h
        simpa [List.append_assoc] using h
      have h2 : lits optNames (n ++ (t ++ s)) = some (n, t ++ s) :=
        lits_append _ optNames_clash n _ (hf ▸ hw)
      have h3 : optSep (t ++ s) = some (t, s) := by
        rcases ht with rfl | ht
        · exact eq_sep _
        · exact blank_sep ht hs
      rw [h1]
      simp only [Option.bind_some]
      rw [h2]
      simp only [Option.bind_some]
      rw [h3]
      rfl
    rcases hd with rfl | rfl
    · have e1 : optLong c!"--" (c!"-" ++ n ++ t ++ s) = none := by
        have := optLong_dashes n (t ++ s) w hw hf
        simpa [List.append_assoc] using this
      rw [e1, hl]
      simp only [withValue, Option.bind_some, Option.bind_none]
      rw [hval]
      rfl
    · rw [hl]
      simp only [withValue, Option.bind_some]
      rw [hval]
      rfl
  | short q t hq ht =>
    have hpq : fold q = 'p' := by rcases hq with rfl | rfl <;> decide
    have hd : fold '-' = '-' := by decide
    obtain ⟨h1, h2⟩ := ht
    cases t with
    | nil => exact absurd rfl h1
    | cons c t =>
      have hcw := h2 c List.mem_cons_self
      have hfc : ∀ a ∈ (['a', 's'] : Str), fold c ≠ a := by
        intro a ha hfa
        have := (ws_not_name hcw).1
        unfold nameStart at this
        rw [hfa] at this
        rcases List.mem_cons.mp ha with rfl | ha
        · exact absurd this (by simp)
        · rw [List.mem_singleton] at ha; subst ha; exact absurd this (by simp)
      have e1 : optLong c!"--" ('-' :: q :: c :: t ++ s) = none := by
        unfold optLong
        have : lit c!"--" ('-' :: q :: c :: t ++ s) = none := by
          show lit ['-', '-'] ('-' :: q :: (c :: t ++ s)) = none
          simp [lit, hd, hpq]
        rw [this]; rfl
      have e2 : optLong c!"-" ('-' :: q :: c :: t ++ s) = none := by
        unfold optLong
        have h : lit c!"-" ('-' :: q :: c :: t ++ s) = some (['-'], q :: c :: t ++ s) := by
          show lit ['-'] ('-' :: (q :: c :: t ++ s)) = _
          simp [lit, hd]
        rw [h]
        simp only [Option.bind_some]
        have h' : lits optNames (q :: c :: t ++ s) = none := by
          unfold lits
          rw [List.findSome?_eq_none_iff]
          intro w hw
          have ha := hfc 'a' (by decide)
          simp only [optNames, List.mem_cons, List.not_mem_nil, or_false] at hw
          rcases hw with rfl | rfl | rfl | rfl | rfl | rfl | rfl | rfl | rfl | rfl | rfl <;>
            simp [lit, hpq, ha]
        rw [h']; rfl
      have e3 : optShort ('-' :: q :: c :: t ++ s) = some ('-' :: q :: c :: t, s) := by
        unfold optShort
        have h : lit c!"-p" ('-' :: q :: c :: t ++ s) = some (['-', q], c :: (t ++ s)) := by
          show lit ['-', 'p'] ('-' :: q :: (c :: t ++ s)) = _
          simp [lit, hd, hpq]
        rw [h]
        obtain ⟨h3, h4⟩ := takeWhile_all_stop rustWhitespace t s
          (fun x hx => h2 x (List.mem_cons_of_mem _ hx)) hs
        simp only [Option.bind_some]
        rw [if_pos hcw, h3, h4]
        rfl
      rw [e1, e2, e3]
      simp only [withValue, Option.bind_some, Option.bind_none]
      rw [hval]
      rfl

theorem option_found (o v post : Str) (ho : SecretOption o) (hv : OptionValue v) (hc : Closes post)
    (p : Option Char) : optionAt p (o ++ (v ++ post)) = some ⟨o, [], v, post⟩ :=
  option_match o (v ++ post) _ ho (head_value hv) (optValue_found o v post hv hc) p

theorem optValue_some (pre v post : Str) (hv : OptionValue v) : ∃ h, optValue pre (v ++ post) = some h := by
  cases hv with
  | plain v h1 h2 =>
    cases v with
    | nil => exact absurd rfl h1
    | cons c t =>
      have := (plainChar_iff c).mpr (h2 c List.mem_cons_self)
      unfold optValue run1
      simp [List.takeWhile, this]
  | quoted q b h1 h2 =>
    have e2 : ∃ h, quoted q pre (q :: b ++ [q] ++ post) = some h := by
      obtain ⟨h3, h4⟩ := takeWhile_all_stop (· != q) b (q :: post)
        (fun x hx => by
          have : x ≠ q := by rintro rfl; exact h2 hx
          simpa using this)
        (by intro x hx; cases hx; simp)
      simp only [List.cons_append, List.append_assoc, List.nil_append, quoted]
      rw [h4]
      simp
    obtain ⟨h, e2⟩ := e2
    unfold optValue
    cases run1 plainChar pre [] (q :: b ++ [q] ++ post) with
    | some x => exact ⟨x, rfl⟩
    | none =>
      rcases h1 with rfl | rfl
      · rw [e2]; exact ⟨h, rfl⟩
      · rw [e2]
        cases quoted '"' pre ('\'' :: b ++ ['\''] ++ post) with
        | some x => exact ⟨x, rfl⟩
        | none => exact ⟨h, rfl⟩

/-- The start of a bearer header up to the token, in upper or lower case. -/
inductive BearerHeader : Str → Prop where
  | mk (a w1 w2 b w3 : Str) : Same a c!"authorization" → (∀ c ∈ w1, rustWhitespace c = true) →
      (∀ c ∈ w2, rustWhitespace c = true) → Same b c!"bearer" → Blank w3 →
      BearerHeader (a ++ (w1 ++ ':' :: (w2 ++ (b ++ w3))))

/-- The characters of tokens. -/
def TokenChar (c : Char) : Prop := c.isAlphanum = true ∨ c ∈ c!"._~+/=-"

theorem token_bearer {c : Char} (h : TokenChar c) : bearerChar c = true ∧ rustWhitespace c = false := by
  rcases h with h | h
  · have hlt : c.toNat < 128 := by
      simp only [Char.isAlphanum, Char.isAlpha, Char.isUpper, Char.isLower, Char.isDigit, Bool.or_eq_true,
        Bool.and_eq_true, decide_eq_true_eq] at h
      rcases h with (⟨_, h⟩ | ⟨_, h⟩) | ⟨_, h⟩
      · have h3 : c.toNat ≤ 'Z'.toNat := h
        have : 'Z'.toNat = 90 := by decide
        omega
      · have h3 : c.toNat ≤ 'z'.toNat := h
        have : 'z'.toNat = 122 := by decide
        omega
      · have h3 : c.toNat ≤ '9'.toNat := h
        have : '9'.toNat = 57 := by decide
        omega
    have : c = Char.ofNat c.toNat := (Char.ofNat_toNat c).symm
    rw [this] at h ⊢
    generalize c.toNat = n at *
    clear this
    revert h
    revert n
    decide +kernel
  · revert c
    decide +kernel

theorem lit_same {t w : Str} (h : Same t w) (hw : ∀ c ∈ w, c.toNat < 128) (s : Str) :
    lit w (t ++ s) = some (t, s) := by
  have := lit_append t s
  rwa [same_fold h hw] at this

theorem lower_not_ws {c a : Char} (h : c.toLower = a) (ha : ('a' ≤ a && a ≤ 'z') = true) :
    rustWhitespace c = false := by
  by_contra hw
  have hw : rustWhitespace c = true := by simpa using hw
  have h1 := (ws_not_name hw).1
  have hz : a.toNat ≤ 'z'.toNat := by
    simp only [Bool.and_eq_true, decide_eq_true_eq] at ha
    exact ha.2
  have hz' : 'z'.toNat = 122 := by decide
  have := fold_lower h (by omega)
  unfold nameStart at h1
  rw [this, ha] at h1
  exact absurd h1 (by simp)

theorem bearerHead_found (o : Str) (ho : BearerHeader o) (s : Str)
    (hs : ∀ x, s.head? = some x → rustWhitespace x = false) : bearerHead (o ++ s) = some (o, s) := by
  obtain ⟨a, w1, w2, b, w3, ha, hw1, hw2, hb, hw3⟩ := ho
  have e1 := lit_same ha (by decide) (w1 ++ ':' :: (w2 ++ (b ++ (w3 ++ s))))
  have e2 : skipWs (w1 ++ ':' :: (w2 ++ (b ++ (w3 ++ s)))) = (w1, ':' :: (w2 ++ (b ++ (w3 ++ s)))) := by
    obtain ⟨h1, h2⟩ := takeWhile_all_stop rustWhitespace w1 (':' :: (w2 ++ (b ++ (w3 ++ s)))) hw1
      (by intro x hx; cases hx; decide)
    unfold skipWs
    rw [h1, h2]
  have e3 : lit c!":" (':' :: (w2 ++ (b ++ (w3 ++ s)))) = some (c!":", w2 ++ (b ++ (w3 ++ s))) := by
    show lit [':'] (':' :: _) = _
    simp [lit, show fold ':' = ':' from by decide]
  have e4 : skipWs (w2 ++ (b ++ (w3 ++ s))) = (w2, b ++ (w3 ++ s)) := by
    obtain ⟨h1, h2⟩ := takeWhile_all_stop rustWhitespace w2 (b ++ (w3 ++ s)) hw2 (by
      intro x hx
      cases b with
      | nil => exact absurd hb (by simp [Same])
      | cons c b =>
        simp only [List.cons_append, List.head?_cons, Option.some.injEq] at hx
        subst hx
        simp only [Same, List.map_cons, List.cons.injEq] at hb
        exact lower_not_ws hb.1 (by decide))
    unfold skipWs
    rw [h1, h2]
  have e5 := lit_same hb (by decide) (w3 ++ s)
  have e6 : skipWs (w3 ++ s) = (w3, s) := by
    obtain ⟨h1, h2⟩ := takeWhile_all_stop rustWhitespace w3 s hw3.2 hs
    unfold skipWs
    rw [h1, h2]
  have e0 : a ++ (w1 ++ ':' :: (w2 ++ (b ++ w3))) ++ s = a ++ (w1 ++ ':' :: (w2 ++ (b ++ (w3 ++ s)))) := by
    simp
  unfold bearerHead
  rw [e0, e1]
  simp only [Option.bind_some]
  rw [e2]
  dsimp only
  rw [e3]
  simp only [Option.bind_some]
  rw [e4]
  dsimp only
  rw [e5]
  simp only [Option.bind_some]
  rw [e6]
  dsimp only
  rw [if_neg (by simpa using hw3.1)]
  simp

theorem bearer_match (o : Str) (ho : BearerHeader o) (c : Char) (hc : TokenChar c) (s : Str) :
    ∃ h, bearerAt none (o ++ c :: s) = some h := by
  obtain ⟨h1, h2⟩ := token_bearer hc
  unfold bearerAt
  rw [bearerHead_found o ho (c :: s) (by intro x hx; cases hx; exact h2)]
  simp [run1, List.takeWhile, h1]

/-- The names of URL parameters that take secrets. -/
def secretParams : List Str :=
  [c!"token=", c!"access_token=", c!"api_key=", c!"apikey=", c!"auth=", c!"password="]

/-- The start of a URL parameter up to its value. -/
inductive SecretParam : Str → Prop where
  | mk (q : Char) (n w : Str) : (q = '?' ∨ q = '&') → w ∈ secretParams → Same n w → SecretParam (q :: n)

theorem queryNames_ascii : ∀ w ∈ queryNames, ∀ c ∈ w, c.toNat < 128 := by decide +kernel

theorem query_match (o : Str) (ho : SecretParam o) (c : Char) (h1 : rustWhitespace c = false) (h2 : c ≠ '&')
    (s : Str) : ∃ h, queryAt none (o ++ c :: s) = some h := by
  obtain ⟨q, n, w, hq, hw, hn⟩ := ho
  have hf := same_fold hn (queryNames_ascii w hw)
  simp only [List.cons_append, queryAt]
  rw [if_pos hq, lits_append _ queryNames_clash n _ (hf ▸ hw)]
  have h3 : queryChar c = true := by simp [queryChar, h1, h2]
  simp [run1, List.takeWhile, h3]

end Dsh.Secrets
