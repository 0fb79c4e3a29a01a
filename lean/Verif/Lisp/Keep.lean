import Verif.Lisp.Mono
import Verif.Lisp.Scope
/-!
C27 for running programs: whatever a program does, scopes stay well formed, their nesting never changes, and
functions only refer to scopes that exist.  This holds of all programs, with macros and commas.
-/
namespace Dsh.Lisp

mutual
/-- The functions in the value refer to the first `n` scopes. -/
def Inside (n : Nat) : Value → Prop
  | .list l => InsideL n l
  | .lam e _ body => e < n ∧ InsideL n body
  | .mac e _ body => e < n ∧ InsideL n body
  | .tail f args => Inside n f ∧ InsideL n args
  | _ => True
def InsideL (n : Nat) : List Value → Prop
  | [] => True
  | v :: l => Inside n v ∧ InsideL n l
end

theorem insideL_iff {n : Nat} {l : List Value} : InsideL n l ↔ ∀ v ∈ l, Inside n v := by
  induction l with
  | nil => simp [InsideL]
  | cons a l ih => simp [InsideL, ih]

mutual
theorem Inside.mono {n n' : Nat} (h : n ≤ n') : ∀ {v : Value}, Inside n v → Inside n' v
  | .list l, hv => by simp only [Inside] at hv ⊢; exact InsideL.mono h hv
  | .lam e _ body, hv => by simp only [Inside] at hv ⊢; exact ⟨by omega, InsideL.mono h hv.2⟩
  | .mac e _ body, hv => by simp only [Inside] at hv ⊢; exact ⟨by omega, InsideL.mono h hv.2⟩
  | .tail f args, hv => by simp only [Inside] at hv ⊢; exact ⟨Inside.mono h hv.1, InsideL.mono h hv.2⟩
  | .tt, _ => by simp [Inside]
  | .ff, _ => by simp [Inside]
  | .int _, _ => by simp [Inside]
  | .float _, _ => by simp [Inside]
  | .str _, _ => by simp [Inside]
  | .sym _, _ => by simp [Inside]
  | .native _, _ => by simp [Inside]
theorem InsideL.mono {n n' : Nat} (h : n ≤ n') : ∀ {l : List Value}, InsideL n l → InsideL n' l
  | [], _ => trivial
  | _ :: _, hl => ⟨Inside.mono h hl.1, InsideL.mono h hl.2⟩
end

/-- Scopes lie inside older ones and refer to existing ones. -/
def Sound (st : St) : Prop :=
  WF st.scopes ∧ ∀ sc ∈ st.scopes, ∀ p ∈ sc.vars, Inside st.scopes.length p.2

/-- The scopes there were are still there, nested as before. -/
def Grows (st st' : St) : Prop :=
  ∀ i, i < st.scopes.length → i < st'.scopes.length ∧ st'.scopes[i]?.map Scope.parent = st.scopes[i]?.map Scope.parent

theorem Grows.refl (st : St) : Grows st st := fun _ h => ⟨h, rfl⟩

theorem Grows.trans {a b c : St} (h : Grows a b) (h' : Grows b c) : Grows a c := fun i hi =>
  ⟨(h' i (h i hi).1).1, ((h' i (h i hi).1).2).trans (h i hi).2⟩

theorem Grows.le {a b : St} (h : Grows a b) : a.scopes.length ≤ b.scopes.length := by
  by_cases h0 : a.scopes.length = 0
  · omega
  · have := (h (a.scopes.length - 1) (by omega)).1
    omega

/-- What an evaluation keeps. -/
def Keeps {α : Type} (Q : Nat → α → Prop) (n : Nat) (m : M α) : Prop :=
  ∀ st, n ≤ st.scopes.length → Sound st →
    match m st with
    | .out => True
    | .crash st' => Sound st' ∧ Grows st st'
    | .err st' => Sound st' ∧ Grows st st'
    | .ok st' a => Sound st' ∧ Grows st st' ∧ Q st'.scopes.length a

variable {α β : Type}

theorem Keeps.pure {Q : Nat → α → Prop} {n : Nat} {a : α} (h : ∀ m, n ≤ m → Q m a) : Keeps Q n (M.pure a) :=
  fun st hn hs => ⟨hs, Grows.refl st, h _ hn⟩

theorem Keeps.fail {Q : Nat → α → Prop} {n : Nat} : Keeps Q n (M.fail : M α) :=
  fun st _ hs => ⟨hs, Grows.refl st⟩

theorem Keeps.stuck {Q : Nat → α → Prop} {n : Nat} : Keeps Q n (M.stuck : M α) := fun _ _ _ => trivial

theorem Keeps.bind {Q : Nat → α → Prop} {Q' : Nat → β → Prop} {n : Nat} {m : M α} {f : α → M β}
    (h : Keeps Q n m) (hf : ∀ n' a, n ≤ n' → Q n' a → Keeps Q' n' (f a)) : Keeps Q' n (M.bind m f) := by
  intro st hn hs
  have h1 := h st hn hs
  simp only [M.bind]
  cases hr : m st with
  | out => trivial
  | crash st' => rw [hr] at h1; exact h1
  | err st' => rw [hr] at h1; exact h1
  | ok st' a =>
    rw [hr] at h1
    dsimp only at h1 ⊢
    obtain ⟨h2, h3, h4⟩ := h1
    have h5 := hf _ a (by have := h3.le; omega) h4 st' (Nat.le_refl _) h2
    cases hr2 : f a st' with
    | out => trivial
    | crash s => rw [hr2] at h5; exact ⟨h5.1, h3.trans h5.2⟩
    | err s => rw [hr2] at h5; exact ⟨h5.1, h3.trans h5.2⟩
    | ok s b => rw [hr2] at h5; exact ⟨h5.1, h3.trans h5.2.1, h5.2.2⟩

theorem Keeps.mono {Q : Nat → α → Prop} {n n' : Nat} {m : M α} (h : Keeps Q n m) (hn : n ≤ n') : Keeps Q n' m :=
  fun st h1 hs => h st (by omega) hs

theorem Keeps.mapM {Q : Nat → β → Prop} (hQ : ∀ n n' b, n ≤ n' → Q n b → Q n' b) {f : α → M β} {n : Nat} :
    ∀ l, (∀ a ∈ l, Keeps Q n (f a)) → Keeps (fun n bs => ∀ b ∈ bs, Q n b) n (M.mapM f l)
  | [], _ => Keeps.pure (by simp)
  | a :: l, h => by
    refine Keeps.bind (h a (by simp)) fun n1 b h1 hb => ?_
    refine Keeps.bind ((Keeps.mapM hQ l (fun a ha => h a (by simp [ha]))).mono h1) fun n2 bs h2 hbs => ?_
    refine Keeps.pure fun m hm x hx => ?_
    rcases List.mem_cons.1 hx with rfl | hx
    · exact hQ _ _ _ (by omega) hb
    · exact hQ _ _ _ hm (hbs x hx)

theorem getGo_inside {st : St} (h : Sound st) {k : Str} {v : Value} :
    ∀ f e, getGo st.scopes f e k = some v → Inside st.scopes.length v := by
  intro f
  induction f with
  | zero => intro e h; simp [getGo] at h
  | succ f ih =>
    intro e hg
    simp only [getGo] at hg
    split at hg
    · simp at hg
    · next sc hsc =>
      split at hg
      · next w hw =>
        injection hg with hg; subst hg
        obtain ⟨l1, l2, hl, _⟩ := List.lookup_eq_some_iff.1 hw
        exact h.2 sc (List.mem_of_getElem? hsc) (k, w) (by rw [hl]; simp)
      · split at hg
        · exact ih _ hg
        · simp at hg

theorem keeps_look (e : Nat) (k : Str) (n : Nat) :
    Keeps (fun n r => ∀ v, r = some v → Inside n v) n (look e k) := by
  intro st _ hs
  exact ⟨hs, Grows.refl st, fun v hv => getGo_inside hs _ _ hv⟩

theorem define_length (s : List Scope) (e : Nat) (k : Str) (v : Value) : (define s e k v).length = s.length := by
  simp [define]

theorem define_sound {st : St} (h : Sound st) (e : Nat) (k : Str) {v : Value} (hv : Inside st.scopes.length v) :
    Sound { st with scopes := define st.scopes e k v } ∧ Grows st { st with scopes := define st.scopes e k v } := by
  refine ⟨⟨(define_shape _ e k v).wf h.1, ?_⟩, fun i hi => ⟨by simpa [define] using hi, define_shape _ e k v i⟩⟩
  intro sc hsc p hp
  rw [define_length]
  simp only [define] at hsc
  obtain ⟨i, hi⟩ := List.getElem?_of_mem hsc
  rw [List.getElem?_modify] at hi
  cases hs : st.scopes[i]? with
  | none => rw [hs] at hi; simp at hi
  | some sc' =>
    rw [hs] at hi
    have hm := h.2 sc' (List.mem_of_getElem? hs)
    simp at hi
    split at hi
    · rw [← hi] at hp
      rcases List.mem_cons.1 hp with rfl | hp
      · exact hv
      · exact hm p (List.mem_filter.1 hp).1
    · rw [← hi] at hp; exact hm p hp

theorem keeps_define (e : Nat) (k : Str) {v : Value} {n : Nat} (hv : Inside n v) :
    Keeps (fun _ _ => True) n (defineM e k v) := by
  intro st hn hs
  obtain ⟨h1, h2⟩ := define_sound hs e k (hv.mono hn)
  exact ⟨h1, h2, trivial⟩

theorem setGo_is_define {s : List Scope} {k : Str} {v : Value} {s' : List Scope} :
    ∀ f e, setGo s f e k v = some s' → ∃ i, s' = define s i k v := by
  intro f
  induction f with
  | zero => intro e hs; simp [setGo] at hs
  | succ f ih =>
    intro e hs
    simp only [setGo] at hs
    split at hs
    · simp at hs
    · split at hs
      · injection hs with hs; exact ⟨e, hs.symm⟩
      · split at hs
        · exact ih _ hs
        · simp at hs

theorem keeps_set (e : Nat) (k : Str) {v : Value} {n : Nat} (hv : Inside n v) :
    Keeps (fun _ _ => True) n (setM e k v) := by
  intro st hn hs
  simp only [setM]
  cases h : set st.scopes e k v with
  | none => exact ⟨hs, Grows.refl st⟩
  | some s =>
    obtain ⟨i, rfl⟩ := setGo_is_define _ _ h
    obtain ⟨h1, h2⟩ := define_sound hs i k (hv.mono hn)
    exact ⟨h1, h2, trivial⟩

theorem keeps_extend {e n : Nat} (he : e < n) {vars : List (Str × Value)} (hv : ∀ p ∈ vars, Inside n p.2) :
    Keeps (fun n i => i < n) n (extendM e vars) := by
  intro st hn hs
  refine ⟨⟨extend_wf hs.1 (by omega) vars, ?_⟩, ?_, ?_⟩
  · intro sc hsc p hp
    have hlen : st.scopes.length ≤ (extend st.scopes e vars).2.length := by simp [extend]
    simp only [extend, List.mem_append, List.mem_singleton] at hsc
    rcases hsc with hsc | rfl
    · exact (hs.2 sc hsc p hp).mono hlen
    · exact (hv p hp).mono (Nat.le_trans hn hlen)
  · intro i hi
    simp only [extend, List.length_append, List.length_singleton]
    exact ⟨by omega, by rw [List.getElem?_append_left hi]⟩
  · simp [extend]

theorem keeps_note (k : Str) (args : List Value) (n : Nat) : Keeps (fun _ _ => True) n (note k args) :=
  fun _ _ hs => ⟨hs, fun _ hi => ⟨hi, rfl⟩, trivial⟩

/-- The native functions make no functions that refer to scopes that do not exist. -/
def PrimsInside (P : Prims) : Prop := ∀ n k args tr v, InsideL n args → P k args tr = .val v → Inside n v

theorem keeps_prim {P : Prims} (hP : PrimsInside P) (k : Str) {args : List Value} {n : Nat} (ha : InsideL n args) :
    Keeps Inside n (prim P k args) := by
  intro st hn hs
  simp only [prim]
  cases h : P k args st.trace with
  | val v => exact ⟨hs, fun _ hi => ⟨hi, rfl⟩, (hP n k args _ v ha h).mono hn⟩
  | err => exact ⟨hs, fun _ hi => ⟨hi, rfl⟩⟩
  | crash => exact ⟨hs, fun _ hi => ⟨hi, rfl⟩⟩

theorem bindArgs_inside {n : Nat} : ∀ (ps : List Str) (args : List Value) (vars : List (Str × Value)), InsideL n args →
    (∀ p ∈ vars, Inside n p.2) → ∀ p ∈ bindArgs ps args vars, Inside n p.2
  | [], _, _, _, h => by simpa [bindArgs] using h
  | q :: ps, args, vars, ha, h => by
    have ins : ∀ (k : Str) (v : Value) (vars : List (Str × Value)), Inside n v → (∀ p ∈ vars, Inside n p.2) →
        ∀ p ∈ insertVar k v vars, Inside n p.2 := by
      intro k v vars hv h p hp
      rcases List.mem_cons.1 hp with rfl | hp
      · exact hv
      · exact h p (List.mem_filter.1 hp).1
    simp only [bindArgs]
    split
    · exact ins _ _ _ (by simpa [Inside] using ha) h
    · cases args with
      | nil => exact bindArgs_inside ps [] vars ha h
      | cons a args => exact bindArgs_inside ps args _ ha.2 (ins _ _ _ ha.1 h)

/-- The values in the form refer to the first `n` scopes. -/
def Form.Inside (n : Nat) : Form → Prop
  | .self v => Dsh.Lisp.Inside n v
  | .comma e => Dsh.Lisp.Inside n e
  | .quote e => Dsh.Lisp.Inside n e
  | .define _ e => Dsh.Lisp.Inside n e
  | .set _ e => Dsh.Lisp.Inside n e
  | .defun _ f => ∀ m env, n ≤ m → env < m → Dsh.Lisp.Inside m (f env)
  | .lambda _ body => InsideL n body
  | .letForm _ ds body => InsideL n ds ∧ InsideL n body
  | .begin l => InsideL n l
  | .cond l => InsideL n l
  | .when_ c body => Dsh.Lisp.Inside n c ∧ InsideL n body
  | .if_ c a b => Dsh.Lisp.Inside n c ∧ Dsh.Lisp.Inside n a ∧ ∀ v, b = some v → Dsh.Lisp.Inside n v
  | .andOr _ l => InsideL n l
  | .app f args => Dsh.Lisp.Inside n f ∧ InsideL n args
  | _ => True

theorem asDefun_inside {n : Nat} {mk : Nat → List Str → List Value → Value}
    (hmk : ∀ m env ps body, env < m → InsideL m body → Inside m (mk env ps body)) {rest : List Value}
    (h : InsideL n rest) : (asDefun mk rest).Inside n := by
  unfold asDefun
  split
  · split
    · intro m env hm he; simp only [InsideL] at h; exact hmk m env _ _ he (h.2.2.mono hm)
    · trivial
  · trivial

theorem classify_inside {n : Nat} {e : Value} (h : Inside n e) : (classify e).Inside n := by
  unfold classify
  split
  · trivial
  · next k rest =>
    simp only [Inside, InsideL] at h
    obtain ⟨_, hr⟩ := h
    unfold classifyKw
    by_cases h1 : k = c!"comma"
    · rw [if_pos h1]; split <;> simp_all [Form.Inside, InsideL]
    rw [if_neg h1]
    by_cases h1 : k = c!"quote"
    · rw [if_pos h1]; split <;> simp_all [Form.Inside, InsideL]
    rw [if_neg h1]
    by_cases h1 : k = c!"define"
    · rw [if_pos h1]; split <;> simp_all [Form.Inside, InsideL]
    rw [if_neg h1]
    by_cases h1 : k = c!"set"
    · rw [if_pos h1]; split <;> simp_all [Form.Inside, InsideL]
    rw [if_neg h1]
    by_cases h1 : k = c!"defmacro"
    · rw [if_pos h1]; exact asDefun_inside (fun m env ps body he hb => by simp only [Inside]; exact ⟨he, hb⟩) hr
    rw [if_neg h1]
    by_cases h1 : k = c!"defun"
    · rw [if_pos h1]; exact asDefun_inside (fun m env ps body he hb => by simp only [Inside]; exact ⟨he, hb⟩) hr
    rw [if_neg h1]
    by_cases h1 : k = c!"fn"
    · rw [if_pos h1]; exact asDefun_inside (fun m env ps body he hb => by simp only [Inside]; exact ⟨he, hb⟩) hr
    rw [if_neg h1]
    by_cases h1 : k = c!"autocomplete"
    · rw [if_pos h1]; split <;> trivial
    rw [if_neg h1]
    by_cases h1 : k = c!"lambda"
    · rw [if_pos h1]
      unfold asLambda
      split
      · split
        · simp only [InsideL] at hr; exact hr.2
        · trivial
      · trivial
    rw [if_neg h1]
    by_cases h1 : k = c!"let"
    · rw [if_pos h1]; split <;> simp_all [Form.Inside, InsideL, Inside]
    rw [if_neg h1]
    by_cases h1 : k = c!"v-let"
    · rw [if_pos h1]; split <;> simp_all [Form.Inside, InsideL, Inside]
    rw [if_neg h1]
    by_cases h1 : k = c!"value-let"
    · rw [if_pos h1]; split <;> simp_all [Form.Inside, InsideL, Inside]
    rw [if_neg h1]
    by_cases h1 : k = c!"begin"
    · rw [if_pos h1]; exact hr
    rw [if_neg h1]
    by_cases h1 : k = c!"cond"
    · rw [if_pos h1]; exact hr
    rw [if_neg h1]
    by_cases h1 : k = c!"when"
    · rw [if_pos h1]; split <;> simp_all [Form.Inside, InsideL]
    rw [if_neg h1]
    by_cases h1 : k = c!"if"
    · rw [if_pos h1]
      split
      · next c a l =>
        simp only [InsideL] at hr
        refine ⟨hr.1, hr.2.1, ?_⟩
        intro v hv
        exact insideL_iff.1 hr.2.2 v (List.mem_of_mem_head? (by rw [hv]; rfl))
      · trivial
    rw [if_neg h1]
    by_cases h1 : k = c!"and"
    · rw [if_pos h1]; exact hr
    rw [if_neg h1]
    by_cases h1 : k = c!"or"
    · rw [if_pos h1]; exact hr
    rw [if_neg h1]
    exact ⟨by simp [Inside], hr⟩
  · simp only [Inside, InsideL] at h
    exact h
  · exact h

section
variable {P : Prims} {tco : Bool} {ev : Nat → Value → Ctx → M Value}
  (h : ∀ n env e c, env < n → Inside n e → Keeps Inside n (ev env e c))
include h

theorem block_keeps {n env : Nat} (he : env < n) (c : Ctx) : ∀ es, InsideL n es → Keeps Inside n (block ev env c es)
  | [], _ => Keeps.pure (by simp [Inside, InsideL])
  | [e], hl => h n env e c he hl.1
  | e :: e' :: es, hl =>
    Keeps.bind (h n env e _ he hl.1) fun _ _ hn _ => (block_keeps he c (e' :: es) hl.2).mono hn

theorem letDecls_keeps {n env : Nat} (he : env < n) (c : Ctx) (shell : Bool) :
    ∀ ds, InsideL n ds → Keeps (fun _ _ => True) n (letDecls ev env c shell ds)
  | [], _ => Keeps.pure (by simp)
  | d :: ds, hl => by
    unfold letDecls
    split
    · simp at *
    · next s e r ds' heq =>
      injection heq with h1 h2
      subst h1 h2
      have hd := hl.1
      simp only [Inside, InsideL] at hd
      refine Keeps.bind (h n env e _ he hd.2.1) fun n1 v h1 hv => ?_
      refine Keeps.bind (Q := fun _ _ => True) ?_ fun n2 _ h2 _ => ?_
      · split
        · exact keeps_note _ _ _
        · exact Keeps.pure (by simp)
      · exact Keeps.bind (keeps_define env s (hv.mono h2)) fun n3 _ h3 _ =>
          (letDecls_keeps he c shell ds hl.2).mono (by omega)
    · exact Keeps.fail

theorem cond_keeps {n env : Nat} (he : env < n) (c : Ctx) :
    ∀ l, InsideL n l → Keeps Inside n (condClauses ev env c l)
  | [], _ => Keeps.pure (by simp [Inside, InsideL])
  | d :: l, hl => by
    unfold condClauses
    split
    · simp at *
    · next q a r l' heq =>
      injection heq with h1 h2
      subst h1 h2
      have hd := hl.1
      simp only [Inside, InsideL] at hd
      refine Keeps.bind (h n env q _ he hd.1) fun n1 v h1 hv => ?_
      split
      · exact (h n env a c he hd.2.1).mono h1
      · exact (cond_keeps he c l hl.2).mono h1
    · exact Keeps.fail

theorem andOr_keeps {env : Nat} (c : Ctx) (isOr : Bool) :
    ∀ l {n} last, env < n → InsideL n l → Inside n last → Keeps Inside n (andOr ev env c isOr last l)
  | [], _, _, _, _, hv => Keeps.pure (fun _ hm => hv.mono hm)
  | e :: l, n, _, he, hl, _ => by
    simp only [andOr]
    refine Keeps.bind (h n env e _ he hl.1) fun n1 v h1 hv => ?_
    split
    · exact Keeps.pure (fun _ hm => hv.mono hm)
    · exact andOr_keeps c isOr l v (by omega) (hl.2.mono h1) hv

theorem callNative_keeps (hP : PrimsInside P) {n env : Nat} (he : env < n) (k : Str) {args : List Value}
    (ha : InsideL n args) : Keeps Inside n (callNative P ev env k args) := by
  have hnil : ∀ m, Inside m (.list []) := by simp [Inside, InsideL]
  unfold callNative
  by_cases h1 : k = c!"eval"
  · rw [if_pos h1]
    cases args with
    | nil => exact Keeps.fail
    | cons e l => exact h n env e _ he ha.1
  rw [if_neg h1]
  by_cases h1 : k = c!"apply"
  · rw [if_pos h1]
    split
    · next f ps l =>
      simp only [InsideL, Inside] at ha
      exact h n env _ _ he (by simp only [Inside, InsideL]; exact ⟨ha.1, ha.2.1⟩)
    · exact Keeps.fail
  rw [if_neg h1]
  by_cases h1 : k = c!"map"
  · rw [if_pos h1]
    split
    · next f l r =>
      simp only [InsideL, Inside] at ha
      refine Keeps.bind (Keeps.mapM (Q := Inside) (fun _ _ _ hn hb => Inside.mono hn hb) l fun v hv => h n env _ _ he ?_)
        fun n1 vs h1 hvs => Keeps.pure fun m hm => ?_
      · simp only [Inside, InsideL]
        exact ⟨ha.1, ⟨trivial, insideL_iff.1 ha.2.1 v hv, trivial⟩, trivial⟩
      · simp only [Inside]
        exact (insideL_iff.2 hvs).mono hm
    · exact Keeps.fail
  rw [if_neg h1]
  by_cases h1 : k = c!"filter"
  · rw [if_pos h1]
    split
    · next f l r =>
      simp only [InsideL, Inside] at ha
      refine Keeps.bind (Keeps.mapM (Q := fun n vs => InsideL n vs) (fun _ _ _ hn hb => InsideL.mono hn hb) l fun v hv =>
        Keeps.bind (h n env _ _ he ?_) fun n1 r h1 _ => Keeps.pure fun m hm => ?_)
        fun n1 vs h1 hvs => Keeps.pure fun m hm => ?_
      · simp only [Inside, InsideL]
        exact ⟨ha.1, ⟨trivial, insideL_iff.1 ha.2.1 v hv, trivial⟩, trivial⟩
      · split
        · exact ⟨(insideL_iff.1 ha.2.1 v hv).mono (by omega), trivial⟩
        · trivial
      · simp only [Inside]
        rw [insideL_iff]
        intro v hv
        obtain ⟨l, hl, hv⟩ := List.mem_flatten.1 hv
        exact (insideL_iff.1 (hvs l hl) v hv).mono hm
    · exact Keeps.fail
  rw [if_neg h1]
  by_cases h1 : k = c!"bound?"
  · rw [if_pos h1]
    split
    · refine Keeps.bind (keeps_look _ _ _) fun n1 r h1 _ => Keeps.pure fun m _ => ?_
      split
      · simp [Inside]
      · exact hnil m
    · exact Keeps.fail
  rw [if_neg h1]
  by_cases h1 : k = c!"add-hook"
  · rw [if_pos h1]
    split
    · next hk f =>
      simp only [InsideL] at ha
      refine Keeps.bind (keeps_look _ _ _) fun n1 r h1 hr => ?_
      split
      · next l =>
        refine Keeps.bind (keeps_set _ _ ?_) fun n2 _ _ _ => Keeps.pure fun m _ => hnil m
        have := hr _ rfl
        simp only [Inside, InsideL] at this ⊢
        exact ⟨ha.2.1.mono h1, this⟩
      · exact Keeps.fail
    · exact Keeps.fail
  rw [if_neg h1]
  exact keeps_prim hP k ha

theorem call_keeps (hP : PrimsInside P) {n env : Nat} (he : env < n) {f : Value} {args : List Value}
    (hf : Inside n f) (ha : InsideL n args) : Keeps Inside n (call P tco ev env f args) := by
  unfold call
  cases f with
  | native k => exact callNative_keeps h hP he k ha
  | lam e ps body =>
    simp only [Inside] at hf
    exact Keeps.bind (keeps_extend hf.1 (bindArgs_inside ps args [] ha (by simp))) fun n1 new h1 hnew =>
      block_keeps h hnew _ body (hf.2.mono h1)
  | mac e ps body =>
    simp only [Inside] at hf
    exact Keeps.bind (keeps_extend hf.1 (bindArgs_inside ps args [] ha (by simp))) fun n1 new h1 hnew =>
      block_keeps h hnew _ body (hf.2.mono h1)
  | _ => exact Keeps.fail

theorem tramp_keeps (hP : PrimsInside P) : ∀ (k : Nat) {n env : Nat} {v : Value}, env < n → Inside n v →
    Keeps Inside n (tramp P tco ev k env v)
  | 0, _, _, _, _, _ => Keeps.stuck
  | k + 1, n, env, v, he, hv => by
    cases v with
    | tail f args =>
      simp only [Inside] at hv
      exact Keeps.bind (call_keeps h hP he hv.1 hv.2) fun n1 w h1 hw => tramp_keeps hP k (by omega) hw
    | _ => exact Keeps.pure (fun _ hm => hv.mono hm)

theorem applyCall_keeps (hP : PrimsInside P) (k : Nat) {n env : Nat} (he : env < n) (c : Ctx) {f : Value}
    {args : List Value} (hf : Inside n f) (ha : InsideL n args) : Keeps Inside n (applyCall P tco ev k env c f args) := by
  unfold applyCall
  split
  · refine Keeps.pure fun m hm => ?_
    simp only [Inside]
    exact ⟨hf.mono hm, ha.mono hm⟩
  · exact Keeps.bind (call_keeps h hP he hf ha) fun n1 w h1 hw => tramp_keeps h hP k (by omega) hw

theorem evalForm_keeps (hP : PrimsInside P) (k : Nat) {n env : Nat} (he : env < n) (c : Ctx) {F : Form}
    (hF : F.Inside n) : Keeps Inside n (evalForm P tco ev k env c F) := by
  have hnil : ∀ m, Inside m (.list []) := by simp [Inside, InsideL]
  cases F with
  | self v => exact Keeps.pure fun _ hm => Inside.mono hm hF
  | var s =>
    simp only [evalForm]
    refine Keeps.bind (keeps_look _ _ _) fun n1 r h1 hr => ?_
    cases r with
    | none => exact Keeps.fail
    | some v => exact Keeps.pure fun _ hm => (hr v rfl).mono hm
  | bad => exact Keeps.fail
  | comma e => exact h n env e _ he hF
  | quote e => exact h n env e _ he hF
  | define s e =>
    exact Keeps.bind (h n env e _ he hF) fun n1 v h1 hv => Keeps.bind (keeps_define _ _ hv) fun n2 _ h2 _ =>
      Keeps.pure fun _ hm => hv.mono (by omega)
  | set s e =>
    exact Keeps.bind (h n env e _ he hF) fun n1 v h1 hv => Keeps.bind (keeps_set _ _ hv) fun n2 _ h2 _ =>
      Keeps.pure fun _ hm => hv.mono (by omega)
  | defun s f =>
    simp only [evalForm]
    exact Keeps.bind (keeps_define _ _ (hF n env (Nat.le_refl _) he)) fun _ _ _ _ => Keeps.pure fun m _ => hnil m
  | lambda ps body =>
    refine Keeps.pure fun m hm => ?_
    simp only [Inside]
    exact ⟨by omega, InsideL.mono hm hF⟩
  | letForm shell ds body =>
    simp only [evalForm]
    exact Keeps.bind (keeps_extend he (by simp)) fun n1 new h1 hnew =>
      Keeps.bind (letDecls_keeps h hnew c shell ds (hF.1.mono h1)) fun n2 _ h2 _ =>
        block_keeps h (by omega) c body (hF.2.mono (by omega))
  | «begin» l => exact block_keeps h he c l hF
  | cond l => exact cond_keeps h he c l hF
  | when_ q body =>
    refine Keeps.bind (h n env q _ he hF.1) fun n1 v h1 _ => ?_
    split
    · exact (block_keeps h he c body hF.2).mono h1
    · exact Keeps.pure fun m _ => hnil m
  | if_ q a b =>
    refine Keeps.bind (h n env q _ he hF.1) fun n1 v h1 _ => ?_
    split
    · exact (h n env a c he hF.2.1).mono h1
    · cases b with
      | none => exact Keeps.pure fun m _ => hnil m
      | some b => exact (h n env b c he (hF.2.2 b rfl)).mono h1
  | andOr isOr l => exact andOr_keeps h c isOr l _ he hF (by split <;> simp [Inside])
  | auto args => exact Keeps.bind (keeps_note _ _ _) fun _ _ _ _ => Keeps.pure fun m _ => hnil m
  | app f args =>
    refine Keeps.bind (h n env f _ he hF.1) fun n1 fv h1 hfv => ?_
    have key : Keeps Inside n1 (M.bind (M.mapM (fun a => ev env a c.past) args) (applyCall P tco ev k env c fv)) :=
      Keeps.bind (Keeps.mapM (Q := Inside) (fun _ _ _ hn hb => Inside.mono hn hb) args fun a ha =>
        h n1 env a _ (by omega) ((insideL_iff.1 hF.2 a ha).mono h1)) fun n2 as h2 has =>
        applyCall_keeps h hP k (by omega) c (hfv.mono h2) (insideL_iff.2 has)
    cases fv with
    | mac e ps body =>
      exact Keeps.bind (call_keeps h hP (by omega) hfv (hF.2.mono h1)) fun n2 e h2 hee => h n2 env e _ (by omega) hee
    | _ => exact key

theorem step_keeps (hP : PrimsInside P) (k : Nat) {n env : Nat} (he : env < n) {e : Value} (c : Ctx)
    (hv : Inside n e) : Keeps Inside n (step P tco ev k env e c) := by
  unfold step
  split
  · split
    · next hd tl =>
      split
      · exact evalForm_keeps h hP k he c (classify_inside hv)
      · simp only [Inside] at hv
        refine Keeps.bind (Keeps.mapM (Q := Inside) (fun _ _ _ hn hb => Inside.mono hn hb) _ fun x hx =>
          h n env x c he (insideL_iff.1 hv x hx)) fun n1 vs h1 hvs => Keeps.pure fun m hm => ?_
        simp only [Inside]
        exact (insideL_iff.2 hvs).mono hm
    · exact Keeps.pure fun _ hm => hv.mono hm
  · exact evalForm_keeps h hP k he c (classify_inside hv)
end

theorem eval_keeps {P : Prims} (hP : PrimsInside P) (tco : Bool) : ∀ (d n env : Nat) (e : Value) (c : Ctx),
    env < n → Inside n e → Keeps Inside n (eval P tco d env e c)
  | 0, _, _, _, _, _, _ => Keeps.stuck
  | d + 1, n, env, e, c, he, hv =>
    step_keeps (fun n env e c he hv => eval_keeps hP tco d n env e c he hv) hP d he c hv

/-- The state an evaluation leaves behind, however it ends. -/
def R.state : R α → Option St
  | .out => none
  | .crash st => some st
  | .err st => some st
  | .ok st _ => some st

/-- **C27 (running programs)**: whatever a program does and however it ends, the scopes are well formed, every
scope that was there has the same scopes around it, and the functions in the value and in all variables refer
to scopes that exist. -/
theorem C27_eval_scopes {P : Prims} (hP : PrimsInside P) {st : St} (hs : Sound st) {env : Nat}
    (he : env < st.scopes.length) {e : Value} (hv : Inside st.scopes.length e) {r : R Value}
    (h : Ends P true st env e r) {st' : St} (hst : r.state = some st') :
    Sound st' ∧ (∀ i l, Chain st.scopes i l → Chain st'.scopes i l) ∧
      ∀ v, r = .ok st' v → Inside st'.scopes.length v := by
  obtain ⟨hr, d, hd⟩ := h
  have hk := eval_keeps hP true d st.scopes.length env e .new he hv st (Nat.le_refl _) hs
  rw [hd] at hk
  have hch : ∀ st', Grows st st' → ∀ i l, Chain st.scopes i l → Chain st'.scopes i l := by
    intro st' hg i l hc
    induction hc with
    | @top i sc hsc hp =>
      obtain ⟨h1, h2⟩ := hg i (List.getElem?_eq_some_iff.1 hsc).1
      rw [hsc, List.getElem?_eq_getElem h1] at h2
      simp only [Option.map_some, Option.some.injEq] at h2
      exact .top (List.getElem?_eq_getElem h1) (by rw [h2]; exact hp)
    | @up i sc p l hsc hp _ ih =>
      obtain ⟨h1, h2⟩ := hg i (List.getElem?_eq_some_iff.1 hsc).1
      rw [hsc, List.getElem?_eq_getElem h1] at h2
      simp only [Option.map_some, Option.some.injEq] at h2
      exact .up (List.getElem?_eq_getElem h1) (by rw [h2]; exact hp) ih
  cases r with
  | out => exact absurd rfl hr
  | crash s => simp only [R.state, Option.some.injEq] at hst; subst hst; exact ⟨hk.1, hch _ hk.2, by simp⟩
  | err s => simp only [R.state, Option.some.injEq] at hst; subst hst; exact ⟨hk.1, hch _ hk.2, by simp⟩
  | ok s a =>
    simp only [R.state, Option.some.injEq] at hst
    subst hst
    refine ⟨hk.1, hch _ hk.2.1, ?_⟩
    intro v hv
    injection hv with _ hv
    subst hv
    exact hk.2.2

end Dsh.Lisp
