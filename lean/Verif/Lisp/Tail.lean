import Verif.Lisp.Scope
/-!
C28: handing calls in tail position to the caller does not change the meaning of programs that use neither
macros, nor commas, nor the native functions that look at the scope of their caller.
-/
namespace Dsh.Lisp

/-! ### The programs -/

/-- The native functions that look at the scope they are called from. -/
def envNatives : List Str := [c!"eval", c!"apply", c!"map", c!"filter", c!"bound?", c!"add-hook"]

mutual
/-- A value (or an expression) in which no name of `B`, no macro and no native function that looks at its
caller's scope occurs. -/
def Clean (B : Str → Prop) : Value → Prop
  | .sym s => ¬ B s
  | .native n => n ∉ envNatives
  | .list l => CleanL B l
  | .lam _ _ body => CleanL B body
  | .mac _ _ _ => False
  | .tail _ _ => False
  | _ => True
def CleanL (B : Str → Prop) : List Value → Prop
  | [] => True
  | v :: l => Clean B v ∧ CleanL B l
end

theorem cleanL_iff {B : Str → Prop} {l : List Value} : CleanL B l ↔ ∀ v ∈ l, Clean B v := by
  induction l with
  | nil => simp [CleanL]
  | cons a l ih => simp [CleanL, ih]

/-- Every name outside `B` has a clean value. -/
def Inv (B : Str → Prop) (st : St) : Prop := ∀ sc ∈ st.scopes, ∀ p ∈ sc.vars, ¬ B p.1 → Clean B p.2

/-- The native functions make clean values from clean arguments. -/
def PrimsClean (B : Str → Prop) (P : Prims) : Prop :=
  ∀ n args tr v, CleanL B args → P n args tr = .val v → Clean B v

variable {B : Str → Prop} {P : Prims}

theorem getGo_clean {st : St} (h : Inv B st) {k : Str} (hk : ¬ B k) {v : Value} :
    ∀ f e, getGo st.scopes f e k = some v → Clean B v := by
  intro f
  induction f with
  | zero => intro e h; simp [getGo] at h
  | succ f ih =>
    intro e hg
    simp only [getGo] at hg
    split at hg
    · simp at hg
    · next sc hsc =>
      split at hg
      · next w hw =>
        injection hg with hg; subst hg
        obtain ⟨l1, l2, hl, _⟩ := List.lookup_eq_some_iff.1 hw
        exact h sc (List.mem_of_getElem? hsc) (k, w) (by rw [hl]; simp) hk
      · split at hg
        · exact ih _ hg
        · simp at hg

theorem insertVar_clean {k : Str} {v : Value} (hv : ¬ B k → Clean B v) {vars : List (Str × Value)}
    (h : ∀ p ∈ vars, ¬ B p.1 → Clean B p.2) : ∀ p ∈ insertVar k v vars, ¬ B p.1 → Clean B p.2 := by
  intro p hp
  unfold insertVar at hp
  rcases List.mem_cons.1 hp with rfl | hp
  · exact hv
  · exact h p (List.mem_filter.1 hp).1

theorem define_inv {st : St} (h : Inv B st) (e : Nat) (k : Str) {v : Value} (hv : Clean B v) :
    Inv B { st with scopes := define st.scopes e k v } := by
  intro sc hsc
  simp only [define] at hsc
  obtain ⟨i, hi⟩ := List.getElem?_of_mem hsc
  rw [List.getElem?_modify] at hi
  cases hs : st.scopes[i]? with
  | none => rw [hs] at hi; simp at hi
  | some sc' =>
    rw [hs] at hi
    have hm := h sc' (List.mem_of_getElem? hs)
    simp at hi
    split at hi
    · rw [← hi]; exact insertVar_clean (fun _ => hv) hm
    · rw [← hi]; exact hm

theorem setGo_inv {st : St} (h : Inv B st) (k : Str) {v : Value} (hv : Clean B v) {s : List Scope} :
    ∀ f e, setGo st.scopes f e k v = some s → Inv B { st with scopes := s } := by
  intro f
  induction f with
  | zero => intro e hs; simp [setGo] at hs
  | succ f ih =>
    intro e hs
    simp only [setGo] at hs
    split at hs
    · simp at hs
    · split at hs
      · injection hs with hs; subst hs; exact define_inv h _ _ hv
      · split at hs
        · exact ih _ hs
        · simp at hs

theorem bindArgs_clean : ∀ (ps : List Str) (args : List Value) (vars : List (Str × Value)), CleanL B args →
    (∀ p ∈ vars, ¬ B p.1 → Clean B p.2) → ∀ p ∈ bindArgs ps args vars, ¬ B p.1 → Clean B p.2
  | [], _, _, _, h => by simpa [bindArgs] using h
  | p :: ps, args, vars, ha, h => by
    simp only [bindArgs]
    split
    · exact insertVar_clean (fun _ => by simpa [Clean] using ha) h
    · cases args with
      | nil => exact bindArgs_clean ps [] vars ha h
      | cons a args => exact bindArgs_clean ps args _ ha.2 (insertVar_clean (fun _ => ha.1) h)

/-! ### Refinement -/

/-- With enough depth the evaluation ends like this. -/
def Settles {α : Type} (m : Nat → M α) (st : St) (r : R α) : Prop := ∃ n, ∀ n', n ≤ n' → m n' st = r

/-- Whenever `m` ends, `m'` ends in the same way with enough depth, and the state and value are fine. -/
def Ref (B : Str → Prop) {α : Type} (Q : α → Prop) (m : M α) (m' : Nat → M α) : Prop :=
  ∀ st, Inv B st → m st ≠ .out → Settles m' st (m st) ∧ ∀ st' a, m st = .ok st' a → Inv B st' ∧ Q a

variable {α β : Type}

theorem Ref.pure {Q : α → Prop} {a : α} (h : Q a) : Ref B Q (M.pure a) (fun _ => M.pure a) := by
  intro st hst _
  refine ⟨⟨0, fun _ _ => rfl⟩, ?_⟩
  intro st' a' he
  simp only [M.pure, R.ok.injEq] at he
  rw [← he.1, ← he.2]
  exact ⟨hst, h⟩

theorem Ref.fail {Q : α → Prop} : Ref B Q (M.fail) (fun _ => M.fail) := by
  intro st hst _
  refine ⟨⟨0, fun _ _ => rfl⟩, ?_⟩
  intro st' a' he
  simp [M.fail] at he

theorem Ref.stuck {Q : α → Prop} {m : Nat → M α} : Ref B Q M.stuck m := by
  intro st _ h
  exact absurd rfl h

theorem Ref.bind {Q : α → Prop} {Q' : β → Prop} {m : M α} {m' : Nat → M α} {f : α → M β} {f' : Nat → α → M β}
    (h : Ref B Q m m') (hf : ∀ a, Q a → Ref B Q' (f a) (fun n => f' n a)) :
    Ref B Q' (M.bind m f) (fun n => M.bind (m' n) (f' n)) := by
  intro st hst hne
  have hm : m st ≠ .out := by
    intro h0
    exact hne (by simp [M.bind, h0])
  obtain ⟨⟨n, hn⟩, hok⟩ := h st hst hm
  cases hr : m st with
  | out => exact absurd hr hm
  | crash s =>
    have e : M.bind m f st = .crash s := by simp [M.bind, hr]
    rw [e]
    exact ⟨⟨n, fun n' hn' => by simp [M.bind, hn n' hn', hr]⟩, by simp⟩
  | err s =>
    have e : M.bind m f st = .err s := by simp [M.bind, hr]
    rw [e]
    exact ⟨⟨n, fun n' hn' => by simp [M.bind, hn n' hn', hr]⟩, by simp⟩
  | ok s a =>
    have e : M.bind m f st = f a s := by simp [M.bind, hr]
    rw [e] at hne ⊢
    obtain ⟨hi, hq⟩ := hok s a hr
    obtain ⟨⟨n2, hn2⟩, h2⟩ := hf a hq s hi hne
    exact ⟨⟨max n n2, fun n' hn' => by
      simp only [M.bind, hn n' (by omega), hr]
      exact hn2 n' (by omega)⟩, h2⟩

theorem Ref.mono {Q Q' : α → Prop} {m : M α} {m' : Nat → M α} (h : Ref B Q m m') (hq : ∀ a, Q a → Q' a) :
    Ref B Q' m m' := by
  intro st hst hne
  obtain ⟨h1, h2⟩ := h st hst hne
  exact ⟨h1, fun st' a ha => ⟨(h2 st' a ha).1, hq _ (h2 st' a ha).2⟩⟩

theorem Ref.congr {Q : α → Prop} {m : M α} {m' m'' : Nat → M α} (h : Ref B Q m m')
    (he : ∃ n, ∀ n', n ≤ n' → m'' n' = m' n') : Ref B Q m m'' := by
  intro st hst hne
  obtain ⟨⟨n, hn⟩, h2⟩ := h st hst hne
  obtain ⟨n0, hn0⟩ := he
  exact ⟨⟨max n n0, fun n' hn' => by rw [hn0 n' (by omega)]; exact hn n' (by omega)⟩, h2⟩

/-- Growing without bound. -/
def Big (a : Nat → Nat) : Prop := ∀ x, ∃ n, ∀ m, n ≤ m → x ≤ a m

theorem big_id : Big (fun n => n) := fun x => ⟨x, fun _ h => h⟩

theorem Big.pred {a : Nat → Nat} (h : Big a) : Big (fun n => a n - 1) := by
  intro x
  obtain ⟨n, hn⟩ := h (x + 1)
  exact ⟨n, fun m hm => by have := hn m hm; show x ≤ a m - 1; omega⟩

theorem Ref.comp {Q : α → Prop} {m : M α} {m' : Nat → M α} (h : Ref B Q m m') {a : Nat → Nat} (ha : Big a) :
    Ref B Q m (fun n => m' (a n)) := by
  intro st hst hne
  obtain ⟨⟨n, hn⟩, h2⟩ := h st hst hne
  obtain ⟨n0, hn0⟩ := ha n
  exact ⟨⟨n0, fun n' hn' => hn _ (hn0 n' hn')⟩, h2⟩

theorem bind_assoc {γ : Type} (m : M α) (f : α → M β) (g : β → M γ) :
    M.bind (M.bind m f) g = M.bind m (fun a => M.bind (f a) g) := by
  funext st
  simp only [M.bind]
  cases m st <;> rfl

theorem pure_bind (a : α) (f : α → M β) : M.bind (M.pure a) f = f a := rfl

theorem fail_bind (f : α → M β) : M.bind M.fail f = M.fail := rfl

theorem bind_pure (m : M α) : M.bind m M.pure = m := by
  funext st
  simp only [M.bind]
  cases m st <;> rfl

theorem Ref.mapM {γ : Type} {Q : β → Prop} {f : γ → M β} {f' : Nat → γ → M β} :
    ∀ (l : List γ), (∀ a ∈ l, Ref B Q (f a) (fun n => f' n a)) →
      Ref B (fun bs => ∀ b ∈ bs, Q b) (M.mapM f l) (fun n => M.mapM (f' n) l)
  | [], _ => Ref.pure (by simp)
  | a :: l, h => by
    refine Ref.bind (h a (by simp)) ?_
    intro b hb
    refine Ref.bind (Ref.mapM l (fun a ha => h a (by simp [ha]))) ?_
    intro bs hbs
    refine Ref.pure ?_
    intro x hx
    rcases List.mem_cons.1 hx with rfl | hx
    · exact hb
    · exact hbs x hx

theorem ref_look (e : Nat) {k : Str} (hk : ¬ B k) :
    Ref B (fun r => ∀ v, r = some v → Clean B v) (look e k) (fun _ => look e k) := by
  intro st hst _
  refine ⟨⟨0, fun _ _ => rfl⟩, ?_⟩
  intro st' a he
  simp only [look, R.ok.injEq] at he
  rw [← he.1, ← he.2]
  exact ⟨hst, fun v hv => getGo_clean hst hk _ _ hv⟩

theorem ref_define (e : Nat) (k : Str) {v : Value} (hv : Clean B v) :
    Ref B (fun _ => True) (defineM e k v) (fun _ => defineM e k v) := by
  intro st hst _
  refine ⟨⟨0, fun _ _ => rfl⟩, ?_⟩
  intro st' a he
  simp only [defineM, R.ok.injEq] at he
  rw [← he.1]
  exact ⟨define_inv hst _ _ hv, trivial⟩

theorem ref_set (e : Nat) (k : Str) {v : Value} (hv : Clean B v) :
    Ref B (fun _ => True) (setM e k v) (fun _ => setM e k v) := by
  intro st hst _
  refine ⟨⟨0, fun _ _ => rfl⟩, ?_⟩
  intro st' a he
  simp only [setM] at he
  split at he
  · next s hs =>
    simp only [R.ok.injEq] at he
    rw [← he.1]
    exact ⟨setGo_inv hst _ hv _ _ hs, trivial⟩
  · simp at he

theorem ref_extend (e : Nat) {vars : List (Str × Value)} (hv : ∀ p ∈ vars, ¬ B p.1 → Clean B p.2) :
    Ref B (fun _ => True) (extendM e vars) (fun _ => extendM e vars) := by
  intro st hst _
  refine ⟨⟨0, fun _ _ => rfl⟩, ?_⟩
  intro st' a he
  simp only [extendM, R.ok.injEq] at he
  rw [← he.1]
  refine ⟨?_, trivial⟩
  intro sc hsc
  simp only [extend, List.mem_append, List.mem_singleton] at hsc
  rcases hsc with hsc | rfl
  · exact hst sc hsc
  · exact hv

theorem ref_note (n : Str) (args : List Value) : Ref B (fun _ => True) (note n args) (fun _ => note n args) := by
  intro st hst _
  refine ⟨⟨0, fun _ _ => rfl⟩, ?_⟩
  intro st' a he
  simp only [note, R.ok.injEq] at he
  rw [← he.1]
  exact ⟨hst, trivial⟩

theorem ref_prim (hP : PrimsClean B P) (n : Str) {args : List Value} (ha : CleanL B args) :
    Ref B (Clean B) (prim P n args) (fun _ => prim P n args) := by
  intro st hst _
  refine ⟨⟨0, fun _ _ => rfl⟩, ?_⟩
  intro st' a he
  simp only [prim] at he
  split at he
  · next v hv =>
    simp only [R.ok.injEq] at he
    rw [← he.1, ← he.2]
    exact ⟨hst, hP _ _ _ _ ha hv⟩
  · simp at he
  · simp at he

/-! ### Forms of clean expressions -/

/-- The parts of the form are clean; no macro is made and there is no comma. -/
def Form.Clean (B : Str → Prop) : Form → Prop
  | .self v => Dsh.Lisp.Clean B v
  | .var s => ¬ B s
  | .bad => True
  | .comma _ => False
  | .quote e => Dsh.Lisp.Clean B e
  | .define _ e => Dsh.Lisp.Clean B e
  | .set _ e => Dsh.Lisp.Clean B e
  | .defun _ f => ∀ env, Dsh.Lisp.Clean B (f env)
  | .lambda _ body => CleanL B body
  | .letForm _ ds body => CleanL B ds ∧ CleanL B body
  | .begin l => CleanL B l
  | .cond l => CleanL B l
  | .when_ c body => Dsh.Lisp.Clean B c ∧ CleanL B body
  | .if_ c a b => Dsh.Lisp.Clean B c ∧ Dsh.Lisp.Clean B a ∧ ∀ v, b = some v → Dsh.Lisp.Clean B v
  | .andOr _ l => CleanL B l
  | .auto _ => True
  | .app f args => Dsh.Lisp.Clean B f ∧ CleanL B args

theorem asDefun_clean {rest : List Value} (h : CleanL B rest) : (asDefun .lam rest).Clean B := by
  unfold asDefun
  split
  · split
    · intro env; simp only [CleanL] at h; exact h.2.2
    · trivial
  · trivial

theorem classify_clean (hc : B c!"comma") (hm : B c!"defmacro") {e : Value} (h : Clean B e) :
    (classify e).Clean B := by
  unfold classify
  split
  · exact h
  · next k rest =>
    simp only [Clean, CleanL] at h
    obtain ⟨hk, hr⟩ := h
    unfold classifyKw
    rw [if_neg (fun h : k = c!"comma" => hk (h ▸ hc))]
    by_cases h1 : k = c!"quote"
    · rw [if_pos h1]; split <;> simp_all [Form.Clean, CleanL]
    rw [if_neg h1]
    by_cases h1 : k = c!"define"
    · rw [if_pos h1]; split <;> simp_all [Form.Clean, CleanL]
    rw [if_neg h1]
    by_cases h1 : k = c!"set"
    · rw [if_pos h1]; split <;> simp_all [Form.Clean, CleanL]
    rw [if_neg h1, if_neg (fun h : k = c!"defmacro" => hk (h ▸ hm))]
    by_cases h1 : k = c!"defun"
    · rw [if_pos h1]; exact asDefun_clean hr
    rw [if_neg h1]
    by_cases h1 : k = c!"fn"
    · rw [if_pos h1]; exact asDefun_clean hr
    rw [if_neg h1]
    by_cases h1 : k = c!"autocomplete"
    · rw [if_pos h1]; split <;> trivial
    rw [if_neg h1]
    by_cases h1 : k = c!"lambda"
    · rw [if_pos h1]
      unfold asLambda
      split
      · split
        · simp only [CleanL] at hr; exact hr.2
        · trivial
      · trivial
    rw [if_neg h1]
    by_cases h1 : k = c!"let"
    · rw [if_pos h1]; split <;> simp_all [Form.Clean, CleanL, Clean]
    rw [if_neg h1]
    by_cases h1 : k = c!"v-let"
    · rw [if_pos h1]; split <;> simp_all [Form.Clean, CleanL, Clean]
    rw [if_neg h1]
    by_cases h1 : k = c!"value-let"
    · rw [if_pos h1]; split <;> simp_all [Form.Clean, CleanL, Clean]
    rw [if_neg h1]
    by_cases h1 : k = c!"begin"
    · rw [if_pos h1]; exact hr
    rw [if_neg h1]
    by_cases h1 : k = c!"cond"
    · rw [if_pos h1]; exact hr
    rw [if_neg h1]
    by_cases h1 : k = c!"when"
    · rw [if_pos h1]; split <;> simp_all [Form.Clean, CleanL]
    rw [if_neg h1]
    by_cases h1 : k = c!"if"
    · rw [if_pos h1]
      split
      · next c a l =>
        simp only [CleanL] at hr
        refine ⟨hr.1, hr.2.1, ?_⟩
        intro v hv
        exact cleanL_iff.1 hr.2.2 v (List.mem_of_mem_head? (by rw [hv]; rfl))
      · trivial
    rw [if_neg h1]
    by_cases h1 : k = c!"and"
    · rw [if_pos h1]; exact hr
    rw [if_neg h1]
    by_cases h1 : k = c!"or"
    · rw [if_pos h1]; exact hr
    rw [if_neg h1]
    exact ⟨by simpa [Clean] using hk, hr⟩
  · simp only [Clean, CleanL] at h
    exact h
  · exact h

/-! ### One step -/

section
variable {tco₁ tco₂ : Bool} {ev₁ : Nat → Value → Ctx → M Value} {ev₂ : Nat → Nat → Value → Ctx → M Value}
  {k₁ : Nat} {k₂ : Nat → Nat} {K₁ : Value → M Value} {K₂ : Nat → Value → M Value} {c₁ c₂ : Ctx}

theorem block_ref
    (hN : ∀ env e, Clean B e → Ref B (Clean B) (ev₁ env e c₁.past) (fun n => ev₂ n env e c₂.past))
    (hA : ∀ env e, Clean B e → Ref B (Clean B) (M.bind (ev₁ env e c₁) K₁) (fun n => M.bind (ev₂ n env e c₂) (K₂ n)))
    (hK : ∀ v, Clean B v → Ref B (Clean B) (K₁ v) (fun n => K₂ n v)) (env : Nat) :
    ∀ es, CleanL B es → Ref B (Clean B) (M.bind (block ev₁ env c₁ es) K₁)
      (fun n => M.bind (block (ev₂ n) env c₂ es) (K₂ n))
  | [], _ => by
    simp only [block, pure_bind]
    exact hK _ (by simp [Clean, CleanL])
  | [e], h => by simp only [block]; exact hA env e h.1
  | e :: e' :: es, h => by
    simp only [block, bind_assoc]
    exact Ref.bind (hN env e h.1) (fun _ _ => block_ref hN hA hK env (e' :: es) h.2)

theorem letDecls_ref
    (hN : ∀ env e, Clean B e → Ref B (Clean B) (ev₁ env e c₁.past) (fun n => ev₂ n env e c₂.past))
    (env : Nat) (shell : Bool) : ∀ ds, CleanL B ds →
      Ref B (fun _ => True) (letDecls ev₁ env c₁ shell ds) (fun n => letDecls (ev₂ n) env c₂ shell ds)
  | [], _ => Ref.pure trivial
  | d :: ds, h => by
    unfold letDecls
    split
    · simp at *
    · next s e r ds' heq =>
      injection heq with h1 h2
      subst h1 h2
      have hd := h.1
      simp only [Clean, CleanL] at hd
      refine Ref.bind (hN env e hd.2.1) fun v hv => ?_
      refine Ref.bind (Q := fun _ => True) ?_ fun _ _ => ?_
      · split
        · exact ref_note _ _
        · exact Ref.pure trivial
      · exact Ref.bind (ref_define env s hv) fun _ _ => letDecls_ref hN env shell ds h.2
    · exact Ref.fail

theorem cond_ref
    (hN : ∀ env e, Clean B e → Ref B (Clean B) (ev₁ env e c₁.past) (fun n => ev₂ n env e c₂.past))
    (hA : ∀ env e, Clean B e → Ref B (Clean B) (M.bind (ev₁ env e c₁) K₁) (fun n => M.bind (ev₂ n env e c₂) (K₂ n)))
    (hK : ∀ v, Clean B v → Ref B (Clean B) (K₁ v) (fun n => K₂ n v)) (env : Nat) :
    ∀ l, CleanL B l → Ref B (Clean B) (M.bind (condClauses ev₁ env c₁ l) K₁)
      (fun n => M.bind (condClauses (ev₂ n) env c₂ l) (K₂ n))
  | [], _ => by
    simp only [condClauses, pure_bind]
    exact hK _ (by simp [Clean, CleanL])
  | d :: l, h => by
    unfold condClauses
    split
    · simp at *
    · next q a r l' heq =>
      injection heq with h1 h2
      subst h1 h2
      have hd := h.1
      simp only [Clean, CleanL] at hd
      simp only [bind_assoc]
      refine Ref.bind (hN env q hd.1) fun v hv => ?_
      split
      · exact hA env a hd.2.1
      · exact cond_ref hN hA hK env l h.2
    · simp only [fail_bind]; exact Ref.fail

theorem andOr_ref
    (hN : ∀ env e, Clean B e → Ref B (Clean B) (ev₁ env e c₁.past) (fun n => ev₂ n env e c₂.past))
    (hK : ∀ v, Clean B v → Ref B (Clean B) (K₁ v) (fun n => K₂ n v)) (env : Nat) (isOr : Bool) :
    ∀ l last, CleanL B l → Clean B last → Ref B (Clean B) (M.bind (andOr ev₁ env c₁ isOr last l) K₁)
      (fun n => M.bind (andOr (ev₂ n) env c₂ isOr last l) (K₂ n))
  | [], last, _, hl => by
    simp only [andOr, pure_bind]
    exact hK _ hl
  | e :: l, last, h, _ => by
    simp only [andOr, bind_assoc]
    refine Ref.bind (hN env e h.1) fun v hv => ?_
    split
    · exact hK v hv
    · exact andOr_ref hN hK env isOr l v h.2 hv

theorem call_ref (hP : PrimsClean B P)
    (hN : ∀ env e, Clean B e → Ref B (Clean B) (ev₁ env e ⟨true, tco₁, false⟩) (fun n => ev₂ n env e ⟨true, tco₂, false⟩))
    (hA : ∀ env e, Clean B e → Ref B (Clean B) (M.bind (ev₁ env e ⟨false, tco₁, false⟩) K₁)
      (fun n => M.bind (ev₂ n env e ⟨false, tco₂, false⟩) (K₂ n)))
    (hK : ∀ v, Clean B v → Ref B (Clean B) (K₁ v) (fun n => K₂ n v)) (env₁ env₂ : Nat) {f : Value}
    {args : List Value} (hf : Clean B f) (ha : CleanL B args) :
    Ref B (Clean B) (M.bind (call P tco₁ ev₁ env₁ f args) K₁)
      (fun n => M.bind (call P tco₂ (ev₂ n) env₂ f args) (K₂ n)) := by
  cases f with
  | native n =>
    simp only [Clean, envNatives, List.mem_cons, List.not_mem_nil, or_false, not_or] at hf
    obtain ⟨h1, h2, h3, h4, h5, h6⟩ := hf
    simp only [call, callNative, if_neg h1, if_neg h2, if_neg h3, if_neg h4, if_neg h5, if_neg h6]
    exact Ref.bind (ref_prim hP n ha) hK
  | lam e ps body =>
    simp only [Clean] at hf
    simp only [call, bind_assoc]
    refine Ref.bind (ref_extend e (bindArgs_clean ps args [] ha (by simp))) fun new _ => ?_
    exact block_ref (c₁ := ⟨false, tco₁, false⟩) (c₂ := ⟨false, tco₂, false⟩) hN hA hK new body hf
  | mac e ps body => simp [Clean] at hf
  | tail f a => simp [Clean] at hf
  | _ => simp only [call, fail_bind]; exact Ref.fail

theorem step_ref (hc : B c!"comma") (hm : B c!"defmacro") (hq₁ : c₁.quoting = false) (hq₂ : c₂.quoting = false)
    (hN : ∀ env e, Clean B e → Ref B (Clean B) (ev₁ env e c₁.past) (fun n => ev₂ n env e c₂.past))
    (hA : ∀ env e, Clean B e → Ref B (Clean B) (M.bind (ev₁ env e c₁) K₁) (fun n => M.bind (ev₂ n env e c₂) (K₂ n)))
    (hQ : ∀ env e, Clean B e → Ref B (fun v => v = e) (ev₁ env e (c₁.quote true)) (fun n => ev₂ n env e (c₂.quote true)))
    (hK : ∀ v, Clean B v → Ref B (Clean B) (K₁ v) (fun n => K₂ n v))
    (hC : ∀ env f args, Clean B f → CleanL B args →
      Ref B (Clean B) (M.bind (applyCall P tco₁ ev₁ k₁ env c₁ f args) K₁)
        (fun n => M.bind (applyCall P tco₂ (ev₂ n) (k₂ n) env c₂ f args) (K₂ n)))
    (env : Nat) {e : Value} (he : Clean B e) :
    Ref B (Clean B) (M.bind (step P tco₁ ev₁ k₁ env e c₁) K₁)
      (fun n => M.bind (step P tco₂ (ev₂ n) (k₂ n) env e c₂) (K₂ n)) := by
  simp only [step, hq₁, hq₂, Bool.false_eq_true, if_false]
  have hF := classify_clean hc hm he
  have hnil : Clean B (.list []) := by simp [Clean, CleanL]
  generalize classify e = F at hF
  cases F with
  | self v => exact hK v hF
  | var s =>
    simp only [evalForm, bind_assoc]
    refine Ref.bind (ref_look env hF) fun r hr => ?_
    cases r with
    | none => exact Ref.fail
    | some v => exact hK v (hr v rfl)
  | bad => exact Ref.fail
  | comma e => exact absurd hF id
  | quote e =>
    simp only [evalForm]
    refine Ref.bind (hQ env e hF) fun v hv => ?_
    subst hv
    exact hK v hF
  | define s e =>
    simp only [evalForm, bind_assoc]
    refine Ref.bind (hN env e hF) fun v hv => Ref.bind (ref_define env s hv) fun _ _ => hK v hv
  | set s e =>
    simp only [evalForm, bind_assoc]
    refine Ref.bind (hN env e hF) fun v hv => Ref.bind (ref_set env s hv) fun _ _ => hK v hv
  | defun s f =>
    simp only [evalForm, bind_assoc]
    exact Ref.bind (ref_define env s (hF env)) fun _ _ => hK _ hnil
  | lambda ps body =>
    simp only [evalForm]
    exact hK _ (by simp only [Clean]; exact hF)
  | letForm shell ds body =>
    simp only [evalForm, bind_assoc]
    refine Ref.bind (ref_extend env (by simp)) fun new _ => ?_
    exact Ref.bind (letDecls_ref hN new shell ds hF.1) fun _ _ => block_ref hN hA hK new body hF.2
  | «begin» l => exact block_ref hN hA hK env l hF
  | cond l => exact cond_ref hN hA hK env l hF
  | when_ q body =>
    simp only [evalForm, bind_assoc]
    refine Ref.bind (hN env q hF.1) fun v hv => ?_
    split
    · exact block_ref hN hA hK env body hF.2
    · exact hK _ hnil
  | if_ q a b =>
    simp only [evalForm, bind_assoc]
    refine Ref.bind (hN env q hF.1) fun v hv => ?_
    split
    · exact hA env a hF.2.1
    · cases b with
      | none => exact hK _ hnil
      | some b => exact hA env b (hF.2.2 b rfl)
  | andOr isOr l =>
    simp only [evalForm]
    exact andOr_ref hN hK env isOr l _ hF (by split <;> simp [Clean])
  | auto args =>
    simp only [evalForm, bind_assoc]
    exact Ref.bind (ref_note _ _) fun _ _ => hK _ hnil
  | app f args =>
    simp only [evalForm, bind_assoc]
    refine Ref.bind (hN env f hF.1) fun fv hfv => ?_
    have key : Ref B (Clean B)
        (M.bind (M.mapM (fun a => ev₁ env a c₁.past) args) fun as => M.bind (applyCall P tco₁ ev₁ k₁ env c₁ fv as) K₁)
        (fun n => M.bind (M.mapM (fun a => ev₂ n env a c₂.past) args) fun as =>
          M.bind (applyCall P tco₂ (ev₂ n) (k₂ n) env c₂ fv as) (K₂ n)) :=
      Ref.bind (Ref.mapM args (fun a ha => hN env a (cleanL_iff.1 hF.2 a ha))) fun as has =>
        hC env fv as hfv (cleanL_iff.2 has)
    cases fv with
    | mac _ _ _ => simp [Clean] at hfv
    | _ => simp only [bind_assoc]; exact key
end

/-! ### Quotations without commas -/

mutual
def depth : Value → Nat
  | .list l => depthL l + 1
  | _ => 1
def depthL : List Value → Nat
  | [] => 0
  | v :: l => max (depth v) (depthL l)
end

theorem quote_eval (hc : B c!"comma") (P : Prims) (tco : Bool) :
    ∀ (n env : Nat) (e : Value) (c : Ctx) (st : St), Clean B e → c.quoting = true →
      (eval P tco n env e c st = .out ∨ eval P tco n env e c st = .ok st e) ∧
      (depth e ≤ n → eval P tco n env e c st = .ok st e) := by
  intro n
  induction n with
  | zero =>
    intro env e c st _ _
    refine ⟨Or.inl rfl, fun h => ?_⟩
    cases e <;> simp [depth] at h
  | succ n ih =>
    intro env e c st he hq
    have hm : ∀ l st, CleanL B l →
        (M.mapM (fun x => eval P tco n env x c) l st = .out ∨ M.mapM (fun x => eval P tco n env x c) l st = .ok st l) ∧
        (depthL l ≤ n → M.mapM (fun x => eval P tco n env x c) l st = .ok st l) := by
      intro l
      induction l with
      | nil => intro st _; simp [M.mapM, M.pure]
      | cons a l ihl =>
        intro st hl
        obtain ⟨h1, h2⟩ := ih env a c st hl.1 hq
        obtain ⟨h3, h4⟩ := ihl st hl.2
        simp only [M.mapM, M.bind]
        constructor
        · rcases h1 with h1 | h1 <;> rcases h3 with h3 | h3 <;> simp [h1, h3, M.pure]
        · intro hd
          simp only [depthL] at hd
          rw [h2 (by omega)]
          simp only
          rw [h4 (by omega)]
          simp [M.pure]
    simp only [eval, step, hq, if_true]
    cases e with
    | list l =>
      cases l with
      | nil => simp [M.pure]
      | cons h t =>
        have hne : h ≠ .sym c!"comma" := by
          rintro rfl
          simp only [Clean, CleanL] at he
          exact he.1 hc
        simp only [if_neg hne]
        obtain ⟨h1, h2⟩ := hm (h :: t) st he
        constructor
        · rcases h1 with h1 | h1
          · left; simp only [M.bind, h1]
          · right; simp only [M.bind, h1, M.pure]
        · intro hd
          simp only [depth] at hd
          simp only [M.bind, h2 (by omega), M.pure]
    | _ => simp [M.pure]

theorem quote_ref (hc : B c!"comma") (tco₁ tco₂ : Bool) (n env : Nat) {e : Value} (he : Clean B e) {c₁ c₂ : Ctx}
    (h₁ : c₁.quoting = true) (h₂ : c₂.quoting = true) {a : Nat → Nat} (ha : Big a) :
    Ref B (fun v => v = e) (eval P tco₁ n env e c₁) (fun m => eval P tco₂ (a m) env e c₂) := by
  intro st hst hne
  have h1 := (quote_eval hc P tco₁ n env e c₁ st he h₁).1
  rcases h1 with h1 | h1
  · exact absurd h1 hne
  · rw [h1]
    obtain ⟨m0, hm0⟩ := ha (depth e)
    refine ⟨⟨m0, fun m hm => (quote_eval hc P tco₂ _ env e c₂ st he h₂).2 (hm0 m hm)⟩, ?_⟩
    intro st' v hv
    injection hv with h3 h4
    subst h3 h4
    exact ⟨hst, rfl⟩

/-! ### With and without handing on calls -/

theorem not_tail {v : Value} (h : Clean B v) (tco : Bool) (ev : Nat → Value → Ctx → M Value) (k env : Nat) :
    tramp P tco ev (k + 1) env v = M.pure v := by
  cases v <;> first | rfl | simp [Clean] at h

theorem tramp_left {v : Value} (h : Clean B v) (tco : Bool) (ev : Nat → Value → Ctx → M Value) (k env : Nat) :
    Ref B (Clean B) (tramp P tco ev k env v) (fun _ => M.pure v) := by
  cases k with
  | zero => exact Ref.stuck
  | succ k => rw [not_tail h]; exact Ref.pure h

theorem tramp_both {v : Value} (h : Clean B v) (tco₁ tco₂ : Bool) (ev₁ : Nat → Value → Ctx → M Value)
    (ev₂ : Nat → Nat → Value → Ctx → M Value) (k env₁ env₂ : Nat) {d : Nat → Nat} (hd : Big d) :
    Ref B (Clean B) (tramp P tco₁ ev₁ k env₁ v) (fun m => tramp P tco₂ (ev₂ m) (d m) env₂ v) := by
  refine (tramp_left h tco₁ ev₁ k env₁).congr ?_
  obtain ⟨n, hn⟩ := hd 1
  refine ⟨n, fun m hm => ?_⟩
  obtain ⟨j, hj⟩ : ∃ j, d m = j + 1 := ⟨d m - 1, by have := hn m hm; omega⟩
  rw [hj, not_tail h]

theorem Ref.thenTramp {m : M Value} {m' : Nat → M Value} (h : Ref B (Clean B) m m') (tco : Bool)
    (ev : Nat → Nat → Value → Ctx → M Value) (env : Nat) {d : Nat → Nat} (hd : Big d) :
    Ref B (Clean B) m (fun n => M.bind (m' n) (tramp P tco (ev n) (d n) env)) := by
  have := Ref.bind (f := M.pure) (f' := fun n => tramp P tco (ev n) (d n) env) h (fun v hv => by
    obtain ⟨n, hn⟩ := hd 1
    refine (Ref.pure hv).congr ⟨n, fun m hm => ?_⟩
    obtain ⟨j, hj⟩ : ∃ j, d m = j + 1 := ⟨d m - 1, by have := hn m hm; omega⟩
    simp only [hj, not_tail hv])
  rwa [bind_pure] at this

theorem Ref.trampFirst {m : M Value} {m' : Nat → M Value} (h : Ref B (Clean B) m m') (tco : Bool)
    (ev : Nat → Value → Ctx → M Value) (k env : Nat) :
    Ref B (Clean B) (M.bind m (tramp P tco ev k env)) m' := by
  have := Ref.bind (f := tramp P tco ev k env) (f' := fun _ => M.pure) h (fun v hv => tramp_left hv tco ev k env)
  refine this.congr ⟨0, fun n _ => ?_⟩
  rw [bind_pure]

/-- Contexts in which no call is handed on. -/
def Direct (c : Ctx) : Prop := c.quoting = false ∧ c.tail = false
/-- Contexts of a function without the optimisation. -/
def Outside (c : Ctx) : Prop := c.quoting = false ∧ c.inFunc = false

theorem Direct.past {c : Ctx} (h : c.quoting = false) : Direct c.past := ⟨h, by simp [Ctx.tail, Ctx.past]⟩
theorem Outside.past {c : Ctx} (h : Outside c) : Outside c.past := h
theorem Outside.tail {c : Ctx} (h : Outside c) : c.tail = false := by simp [Ctx.tail, h.2]

section
variable (hP : PrimsClean B P) (hc : B c!"comma") (hm : B c!"defmacro")
include hP hc hm

/-- From a bound on the depth: what has been handed on agrees. -/
theorem handed_on (j : Nat)
    (hN : ∀ n, n ≤ j → ∀ c₁ c₂, Direct c₁ → Outside c₂ → ∀ env e, Clean B e →
      Ref B (Clean B) (eval P true n env e c₁) (fun m => eval P false m env e c₂)) :
    ∀ k n, n ≤ j → ∀ c₁ c₂, c₁.quoting = false → c₁.tail = true → Outside c₂ → ∀ env env₀ e, Clean B e →
      Ref B (Clean B) (M.bind (eval P true n env e c₁) (tramp P true (eval P true j) k env₀))
        (fun m => eval P false m env e c₂) := by
  -- what is left to show once the call that has been handed on agrees
  have body : ∀ k env₀,
      (∀ env f args, Clean B f → CleanL B args →
        Ref B (Clean B) (tramp P true (eval P true j) k env₀ (.tail f args))
          (fun m => M.bind (call P false (eval P false m) env f args) (tramp P false (eval P false m) m env))) →
      ∀ n, n ≤ j → ∀ c₁ c₂, c₁.quoting = false → c₁.tail = true → Outside c₂ → ∀ env e, Clean B e →
        Ref B (Clean B) (M.bind (eval P true n env e c₁) (tramp P true (eval P true j) k env₀))
          (fun m => eval P false m env e c₂) := by
    intro k env₀ hcall n
    induction n with
    | zero => intro _ c₁ c₂ _ _ _ env e _; exact Ref.stuck
    | succ n ihn =>
      intro hn c₁ c₂ hq ht ho env e he
      have st := step_ref (P := P) (tco₁ := true) (tco₂ := false) (ev₁ := eval P true n)
        (ev₂ := fun m => eval P false m) (k₁ := n) (k₂ := fun m => m)
        (K₁ := tramp P true (eval P true j) k env₀) (K₂ := fun _ => M.pure) (c₁ := c₁) (c₂ := c₂)
        hc hm hq ho.1
        (fun env e he => hN n (by omega) _ _ (Direct.past hq) ho.past env e he)
        (fun env e he => by
          simp only [bind_pure]
          exact ihn (by omega) c₁ c₂ hq ht ho env e he)
        (fun env e he => quote_ref hc true false n env he rfl rfl big_id)
        (fun v hv => tramp_left hv true _ _ _)
        (fun env f args hf ha => by
          simp only [applyCall, ht, if_true, pure_bind, ho.tail, Bool.false_eq_true, if_false, bind_pure]
          exact hcall env f args hf ha)
        env he
      refine (st.comp big_id.pred).congr ⟨1, fun m hm => ?_⟩
      obtain ⟨i, rfl⟩ : ∃ i, m = i + 1 := ⟨m - 1, by omega⟩
      simp only [eval, Nat.add_sub_cancel, bind_pure]
  intro k
  induction k with
  | zero =>
    intro n hn c₁ c₂ hq ht ho env env₀ e he
    exact body 0 env₀ (fun _ _ _ _ _ => Ref.stuck) n hn c₁ c₂ hq ht ho env e he
  | succ k ihk =>
    intro n hn c₁ c₂ hq ht ho env env₀ e he
    refine body (k + 1) env₀ (fun env f args hf ha => ?_) n hn c₁ c₂ hq ht ho env e he
    simp only [tramp]
    exact call_ref hP
      (fun env e he => hN j (Nat.le_refl _) _ _ ⟨rfl, rfl⟩ ⟨rfl, rfl⟩ env e he)
      (fun env' e he => (ihk j (Nat.le_refl _) ⟨false, true, false⟩ ⟨false, false, false⟩ rfl rfl ⟨rfl, rfl⟩
        env' env₀ e he).thenTramp false _ env big_id)
      (fun v hv => tramp_both hv true false _ _ k env₀ env big_id) env₀ env hf ha

/-- Everything the code computes is computed without handing on. -/
theorem direct_of_code : ∀ n, ∀ c₁ c₂, Direct c₁ → Outside c₂ → ∀ env e, Clean B e →
    Ref B (Clean B) (eval P true n env e c₁) (fun m => eval P false m env e c₂) := by
  intro n
  induction n using Nat.strongRecOn with
  | _ n ih =>
  intro c₁ c₂ hd ho env e he
  cases n with
  | zero => exact Ref.stuck
  | succ n =>
    have hN := ih n (by omega)
    have hH := handed_on hP hc hm n (fun i hi => ih i (by omega)) n n (Nat.le_refl _)
    have st := step_ref (P := P) (tco₁ := true) (tco₂ := false) (ev₁ := eval P true n)
      (ev₂ := fun m => eval P false m) (k₁ := n) (k₂ := fun m => m)
      (K₁ := M.pure) (K₂ := fun _ => M.pure) (c₁ := c₁) (c₂ := c₂) hc hm hd.1 ho.1
      (fun env e he => hN _ _ (Direct.past hd.1) ho.past env e he)
      (fun env e he => by simp only [bind_pure]; exact hN _ _ hd ho env e he)
      (fun env e he => quote_ref hc true false n env he rfl rfl big_id)
      (fun v hv => Ref.pure hv)
      (fun env f args hf ha => by
        simp only [applyCall, hd.2, Bool.false_eq_true, if_false, ho.tail, bind_pure]
        exact call_ref hP
          (fun env e he => hN _ _ ⟨rfl, rfl⟩ ⟨rfl, rfl⟩ env e he)
          (fun env' e he => (hH ⟨false, true, false⟩ ⟨false, false, false⟩ rfl rfl ⟨rfl, rfl⟩
            env' env e he).thenTramp false _ env big_id)
          (fun v hv => tramp_both hv true false _ _ n env env big_id) env env hf ha)
      env he
    rw [bind_pure] at st
    refine (st.comp big_id.pred).congr ⟨1, fun m hm => ?_⟩
    obtain ⟨i, rfl⟩ : ∃ i, m = i + 1 := ⟨m - 1, by omega⟩
    simp only [eval, Nat.add_sub_cancel, bind_pure]

/-- Everything computed without handing on is computed by the code. -/
theorem code_of_direct : ∀ n, ∀ c₂, Outside c₂ →
    (∀ c₁, Direct c₁ → ∀ env e, Clean B e → ∀ a, Big a →
      Ref B (Clean B) (eval P false n env e c₂) (fun m => eval P true (a m) env e c₁)) ∧
    (∀ c₁, c₁.quoting = false → c₁.tail = true → ∀ env env₀ e, Clean B e → ∀ a b d, Big a → Big b → Big d →
      Ref B (Clean B) (eval P false n env e c₂)
        (fun m => M.bind (eval P true (a m) env e c₁) (tramp P true (eval P true (b m)) (d m) env₀))) := by
  intro n
  induction n with
  | zero => intro c₂ _; exact ⟨fun _ _ _ _ _ _ _ => Ref.stuck, fun _ _ _ _ _ _ _ _ _ _ _ _ _ => Ref.stuck⟩
  | succ n ih =>
    intro c₂ ho
    -- a call of the code, at depth `b`, finished at depth `d`
    have hcall : ∀ env env₀ f args, Clean B f → CleanL B args → ∀ b d, Big b → Big d →
        Ref B (Clean B) (M.bind (call P false (eval P false n) env f args) (tramp P false (eval P false n) n env))
          (fun m => M.bind (call P true (eval P true (b m)) env₀ f args) (tramp P true (eval P true (b m)) (d m) env₀)) := by
      intro env env₀ f args hf ha b d hb hd
      exact call_ref (ev₂ := fun m => eval P true (b m)) hP
        (fun env e he => (ih ⟨true, false, false⟩ ⟨rfl, rfl⟩).1 ⟨true, true, false⟩ ⟨rfl, rfl⟩ env e he b hb)
        (fun env' e he => ((ih ⟨false, false, false⟩ ⟨rfl, rfl⟩).2 ⟨false, true, false⟩ rfl rfl env' env₀ e he b b d
          hb hb hd).trampFirst false _ n env)
        (fun v hv => tramp_both hv false true _ (fun m => eval P true (b m)) n env env₀ hd) env env₀ hf ha
    constructor
    · intro c₁ hd env e he a ha
      have st := step_ref (P := P) (tco₁ := false) (tco₂ := true) (ev₁ := eval P false n)
        (ev₂ := fun m => eval P true (a m - 1)) (k₁ := n) (k₂ := fun m => a m - 1)
        (K₁ := M.pure) (K₂ := fun _ => M.pure) (c₁ := c₂) (c₂ := c₁) hc hm ho.1 hd.1
        (fun env e he => (ih _ ho.past).1 _ (Direct.past hd.1) env e he _ ha.pred)
        (fun env e he => by simp only [bind_pure]; exact (ih _ ho).1 _ hd env e he _ ha.pred)
        (fun env e he => quote_ref hc false true n env he rfl rfl ha.pred)
        (fun v hv => Ref.pure hv)
        (fun env f args hf hargs => by
          simp only [applyCall, hd.2, Bool.false_eq_true, if_false, ho.tail, bind_pure]
          exact hcall env env f args hf hargs _ _ ha.pred ha.pred)
        env he
      rw [bind_pure] at st
      obtain ⟨m0, hm0⟩ := ha 1
      refine st.congr ⟨m0, fun m hm => ?_⟩
      obtain ⟨i, hi⟩ : ∃ i, a m = i + 1 := ⟨a m - 1, by have := hm0 m hm; omega⟩
      simp only [hi, eval, Nat.add_sub_cancel, bind_pure]
    · intro c₁ hq ht env env₀ e he a b d ha hb hd
      have st := step_ref (P := P) (tco₁ := false) (tco₂ := true) (ev₁ := eval P false n)
        (ev₂ := fun m => eval P true (a m - 1)) (k₁ := n) (k₂ := fun m => a m - 1)
        (K₁ := M.pure) (K₂ := fun m => tramp P true (eval P true (b m)) (d m) env₀) (c₁ := c₂) (c₂ := c₁) hc hm ho.1 hq
        (fun env e he => (ih _ ho.past).1 _ (Direct.past hq) env e he _ ha.pred)
        (fun env e he => by simp only [bind_pure]; exact (ih _ ho).2 _ hq ht env env₀ e he _ _ _ ha.pred hb hd)
        (fun env e he => quote_ref hc false true n env he rfl rfl ha.pred)
        (fun v hv => by
          obtain ⟨m0, hm0⟩ := hd 1
          refine (Ref.pure hv).congr ⟨m0, fun m hm => ?_⟩
          obtain ⟨i, hi⟩ : ∃ i, d m = i + 1 := ⟨d m - 1, by have := hm0 m hm; omega⟩
          simp only [hi, not_tail hv])
        (fun env f args hf hargs => by
          simp only [applyCall, ht, if_true, Bool.false_eq_true, if_false, ho.tail, bind_pure, pure_bind]
          obtain ⟨m0, hm0⟩ := hd 1
          refine (hcall env env₀ f args hf hargs b (fun m => d m - 1) hb hd.pred).congr ⟨m0, fun m hm => ?_⟩
          obtain ⟨i, hi⟩ : ∃ i, d m = i + 1 := ⟨d m - 1, by have := hm0 m hm; omega⟩
          simp only [hi, tramp, Nat.add_sub_cancel])
        env he
      rw [bind_pure] at st
      obtain ⟨m0, hm0⟩ := ha 1
      refine st.congr ⟨m0, fun m hm => ?_⟩
      obtain ⟨i, hi⟩ : ∃ i, a m = i + 1 := ⟨a m - 1, by have := hm0 m hm; omega⟩
      simp only [hi, eval, Nat.add_sub_cancel]
end

end Dsh.Lisp
