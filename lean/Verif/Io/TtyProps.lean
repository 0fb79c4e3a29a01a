import Verif.Io.TtyModel
import Verif.Util
/-!
C40 – terminal newline translation is independent of chunking.
-/
namespace Dsh.Tty

/-! ### Specification -/

/-- The translation of a whole stream: a LF not preceded by CR becomes CR LF; every other byte is
copied.  `prev` is the byte before the stream, if any. -/
def Spec.translate (prev : Option UInt8) : List UInt8 → List UInt8
  | [] => []
  | b :: bs => (if b = LF ∧ prev ≠ some CR then [CR, LF] else [b]) ++ Spec.translate (some b) bs

/-- No LF occurs without a CR directly before it. -/
def Spec.NoBareLF (l : List UInt8) : Prop :=
  ∀ pre post, l = pre ++ LF :: post → ∃ pre', pre = pre' ++ [CR]

/-- Forget every CR that stands directly before a LF. -/
def Spec.dropCR : List UInt8 → List UInt8
  | [] => []
  | [b] => [b]
  | a :: b :: bs => if a = CR ∧ b = LF then Spec.dropCR (b :: bs) else a :: Spec.dropCR (b :: bs)

/-! ### Helper lemmas -/

theorem loop_changed (data : List UInt8) (bs : List UInt8) :
    ∀ (p : Option UInt8) (acc : List UInt8) (i : Nat),
      loop data ⟨p, acc, true⟩ i bs
        = ⟨(bs.getLast?).or p, acc ++ Spec.translate p bs, true⟩ := by
  induction bs with
  | nil => intro p acc i; simp [loop, Spec.translate]
  | cons b bs ih =>
    intro p acc i
    simp only [loop, iter, Spec.translate]
    by_cases h : b = LF ∧ p ≠ some CR
    · simp only [h, if_true, and_self, ne_eq, not_false_eq_true]
      rw [ih]; simp [List.append_assoc]
      cases hb : bs.getLast? <;> simp [List.getLast?_cons, hb]
    · simp only [h, if_false, if_true]
      rw [ih]; simp [List.append_assoc]
      cases hb : bs.getLast? <;> simp [List.getLast?_cons, hb]

theorem loop_spec (data : List UInt8) (bs : List UInt8) :
    ∀ (p : Option UInt8) (i : Nat), data.drop i = bs → i ≤ data.length →
      let s := loop data ⟨p, [], false⟩ i bs
      (if s.changed then s.normalized else data)
          = data.take i ++ Spec.translate p bs ∧ s.prev = (bs.getLast?).or p := by
  induction bs with
  | nil =>
    intro p i h hi
    have : data.length ≤ i := by simpa using h
    simp [loop, Spec.translate, List.take_of_length_le this]
  | cons b bs ih =>
    intro p i h hi
    have hlt : i < data.length := by
      by_contra hc
      have : data.drop i = [] := List.drop_eq_nil_of_le (by omega)
      simp [this] at h
    have hd : data.drop (i + 1) = bs := by
      have := congrArg List.tail h
      simpa [List.tail_drop] using this
    have hget : data.take (i + 1) = data.take i ++ [b] := by
      rw [List.take_add_one]
      have : data[i]? = some b := by
        have := congrArg List.head? h
        simpa [List.head?_drop] using this
      simp [this]
    simp only [loop, iter, Spec.translate]
    by_cases hb : b = LF ∧ p ≠ some CR
    · simp only [hb, if_true, and_self, ne_eq, not_false_eq_true]
      rw [loop_changed]
      refine ⟨by simp [List.append_assoc], ?_⟩
      cases hb : bs.getLast? <;> simp [List.getLast?_cons, hb]
    · simp only [hb, if_false]
      have := ih (some b) (i + 1) hd (by omega)
      simp only at this ⊢
      refine ⟨?_, ?_⟩
      · simp only [Bool.false_eq_true, if_false]
        rw [this.1, hget]; simp
      · simp only [Bool.false_eq_true, if_false]
        rw [this.2]
        cases hb : bs.getLast? <;> simp [List.getLast?_cons, hb]

theorem normalize_spec (data : List UInt8) (p : Option UInt8) :
    ((normalize data p).1.getD data = Spec.translate p data) ∧
      (normalize data p).2 = (data.getLast?).or p := by
  have := loop_spec data data p 0 (by simp) (by simp)
  simp only [List.take_zero, List.nil_append] at this
  unfold normalize
  refine ⟨?_, this.2⟩
  rw [← this.1]
  simp only
  split <;> simp

theorem translate_append (a b : List UInt8) : ∀ p,
    Spec.translate p (a ++ b) = Spec.translate p a ++ Spec.translate ((a.getLast?).or p) b := by
  induction a with
  | nil => intro p; simp [Spec.translate]
  | cons x xs ih =>
    intro p
    simp only [List.cons_append, Spec.translate, ih, List.append_assoc]
    congr 2
    cases hb : xs.getLast? <;> simp [List.getLast?_cons, hb]

theorem run_tty (chunks : List (List UInt8)) : ∀ (m : Monitor), m.stdoutIsTty = true →
    (m.run chunks).shown = m.shown ++ Spec.translate m.last chunks.flatten := by
  induction chunks with
  | nil => intro m _; simp [Monitor.run, Spec.translate]
  | cons c cs ih =>
    intro m hm
    have h := normalize_spec c m.last
    have ih' := ih (m.chunk c) (by simp [Monitor.chunk, hm])
    simp only [Monitor.run, List.foldl_cons, List.flatten_cons] at ih' ⊢
    rw [ih', translate_append]
    simp [Monitor.chunk, hm, h.1, h.2, List.append_assoc]

theorem run_captured (chunks : List (List UInt8)) : ∀ (m : Monitor),
    (m.run chunks).captured = m.captured ++ chunks.flatten := by
  induction chunks with
  | nil => intro m; simp [Monitor.run]
  | cons c cs ih =>
    intro m
    have ih' := ih (m.chunk c)
    simp only [Monitor.run, List.foldl_cons, List.flatten_cons] at ih' ⊢
    rw [ih']; simp [Monitor.chunk, List.append_assoc]

/-! ### Property theorems -/

/-- C40: on a terminal, however the stream is cut into read chunks, the bytes shown are the
translation of the whole stream. -/
theorem C40_shown_is_translation (chunks : List (List UInt8)) :
    ((Monitor.new true).run chunks).shown = Spec.translate none chunks.flatten := by
  simpa [Monitor.new] using run_tty chunks (Monitor.new true) rfl

/-- C40: two cuttings of the same stream show the same bytes. -/
theorem C40_chunking_irrelevant (c₁ c₂ : List (List UInt8)) (h : c₁.flatten = c₂.flatten) :
    ((Monitor.new true).run c₁).shown = ((Monitor.new true).run c₂).shown := by
  rw [C40_shown_is_translation, C40_shown_is_translation, h]

/-- C40: the captured output is the raw stream, and without a terminal the raw stream is shown. -/
theorem C40_capture_is_raw (tty : Bool) (chunks : List (List UInt8)) :
    ((Monitor.new tty).run chunks).captured = chunks.flatten ∧
      (tty = false → ((Monitor.new tty).run chunks).shown = chunks.flatten) := by
  refine ⟨by simpa [Monitor.new] using run_captured chunks (Monitor.new tty), ?_⟩
  intro h; subst h
  have : ∀ (cs : List (List UInt8)) (m : Monitor), m.stdoutIsTty = false →
      (m.run cs).shown = m.shown ++ cs.flatten := by
    intro cs
    induction cs with
    | nil => intro m _; simp [Monitor.run]
    | cons c cs ih =>
      intro m hm
      have ih' := ih (m.chunk c) (by simp [Monitor.chunk, hm])
      simp only [Monitor.run, List.foldl_cons, List.flatten_cons] at ih' ⊢
      rw [ih']; simp [Monitor.chunk, hm, List.append_assoc]
  simpa [Monitor.new] using this chunks (Monitor.new false) rfl

theorem translate_noBare (l : List UInt8) : ∀ (p : Option UInt8) pre post,
    Spec.translate p l = pre ++ LF :: post →
      (pre = [] ∧ p = some CR) ∨ ∃ pre', pre = pre' ++ [CR] := by
  induction l with
  | nil => intro p pre post h; simp [Spec.translate] at h
  | cons b bs ih =>
    intro p pre post h
    simp only [Spec.translate] at h
    by_cases hb : b = LF ∧ p ≠ some CR
    · simp only [hb, if_true, and_self, ne_eq, not_false_eq_true, List.cons_append,
        List.nil_append] at h
      match pre, h with
      | [], h => exact absurd (List.cons.inj h).1 (by decide)
      | [x], h =>
        obtain ⟨rfl, _⟩ := List.cons.inj h
        exact .inr ⟨[], rfl⟩
      | x :: y :: zs, h =>
        simp only [List.cons_append, List.cons.injEq] at h
        obtain ⟨rfl, rfl, h⟩ := h
        rcases ih _ _ _ h with ⟨rfl, h2⟩ | ⟨pre', rfl⟩
        · exact absurd h2 (by decide)
        · exact .inr ⟨CR :: LF :: pre', rfl⟩
    · simp only [hb, if_false, List.cons_append, List.nil_append] at h
      match pre, h with
      | [], h =>
        obtain ⟨rfl, _⟩ := List.cons.inj h
        left
        refine ⟨rfl, ?_⟩
        by_contra hp
        exact hb ⟨rfl, hp⟩
      | x :: zs, h =>
        simp only [List.cons_append, List.cons.injEq] at h
        obtain ⟨rfl, h⟩ := h
        rcases ih _ _ _ h with ⟨rfl, h2⟩ | ⟨pre', rfl⟩
        · cases h2; exact .inr ⟨[], rfl⟩
        · exact .inr ⟨b :: pre', rfl⟩

/-- C40: no bare LF reaches the terminal. -/
theorem C40_no_bare_newline (chunks : List (List UInt8)) :
    Spec.NoBareLF ((Monitor.new true).run chunks).shown := by
  intro pre post h
  rw [C40_shown_is_translation] at h
  rcases translate_noBare _ _ _ _ h with ⟨_, h⟩ | h
  · cases h
  · exact h

theorem dropCR_cons_ne (a : UInt8) (l : List UInt8) (h : ¬ (a = CR ∧ l.head? = some LF)) :
    Spec.dropCR (a :: l) = a :: Spec.dropCR l := by
  cases l with
  | nil => simp [Spec.dropCR]
  | cons b bs =>
    have : ¬ (a = CR ∧ b = LF) := by simpa using h
    simp [Spec.dropCR, this]

theorem translate_head (p : Option UInt8) (l : List UInt8) (h : p = some CR) :
    (Spec.translate p l).head? = l.head? := by
  subst h
  cases l <;> simp [Spec.translate]

theorem dropCR_translate (l : List UInt8) : ∀ p,
    Spec.dropCR (Spec.translate p l) = Spec.dropCR l := by
  induction l with
  | nil => intro p; rfl
  | cons b bs ih =>
    intro p
    have hLF : Spec.dropCR (LF :: Spec.translate (some LF) bs) = Spec.dropCR (LF :: bs) := by
      rw [dropCR_cons_ne _ _ (by simp [LF, CR]), dropCR_cons_ne _ _ (by simp [LF, CR]), ih]
    simp only [Spec.translate]
    by_cases hb : b = LF ∧ p ≠ some CR
    · obtain ⟨rfl, hp⟩ := hb
      simp only [hp, ne_eq, not_false_eq_true, and_self, if_true, List.cons_append, List.nil_append]
      rw [← hLF]; simp [Spec.dropCR]
    · simp only [hb, if_false, List.cons_append, List.nil_append]
      by_cases hc : b = CR
      · subst hc
        have hh := translate_head (some CR) bs rfl
        cases bs with
        | nil => simp [Spec.translate]
        | cons c cs =>
          have e : Spec.translate (some CR) (c :: cs) = c :: Spec.translate (some c) cs := by
            simp [Spec.translate]
          have ihc := ih (some CR)
          rw [e] at ihc ⊢
          simp only [Spec.dropCR, true_and]
          split
          · exact ihc
          · rw [ihc]
      · rw [dropCR_cons_ne _ _ (by simp [hc]), dropCR_cons_ne _ _ (by simp [hc]), ih]

/-- C40: nothing else is changed – up to CRs directly before LFs, shown and produced bytes agree. -/
theorem C40_nothing_else_changed (chunks : List (List UInt8)) :
    Spec.dropCR ((Monitor.new true).run chunks).shown = Spec.dropCR chunks.flatten := by
  rw [C40_shown_is_translation, dropCR_translate]

/-- Concrete case: a CR LF pair cut in the middle and a bare LF. -/
example : ((Monitor.new true).run [[97, CR], [LF, 98, LF]]).shown = [97, CR, LF, 98, CR, LF] := by
  decide

end Dsh.Tty
