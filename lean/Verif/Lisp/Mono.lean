import Verif.Lisp.Eval
/-!
More depth never changes the end of an evaluation, so "the program ends like this" is well defined.
-/
namespace Dsh.Lisp

/-- `m'` ends like `m` whenever `m` ends. -/
def Le {α : Type} (m m' : M α) : Prop := ∀ st, m st ≠ .out → m' st = m st

variable {α β : Type}

theorem Le.refl (m : M α) : Le m m := fun _ _ => rfl

theorem Le.stuck (m : M α) : Le M.stuck m := fun _ h => absurd rfl h

theorem Le.bind {m m' : M α} {f f' : α → M β} (h : Le m m') (hf : ∀ a, Le (f a) (f' a)) :
    Le (M.bind m f) (M.bind m' f') := by
  intro st hne
  simp only [M.bind] at hne ⊢
  have hm : m st ≠ .out := by
    intro h0
    rw [h0] at hne
    exact hne rfl
  rw [h st hm]
  cases hr : m st with
  | ok s a =>
    rw [hr] at hne
    exact hf a s hne
  | _ => rfl

theorem Le.mapM {f f' : α → M β} (h : ∀ a, Le (f a) (f' a)) : ∀ l, Le (M.mapM f l) (M.mapM f' l)
  | [] => Le.refl _
  | a :: l => Le.bind (h a) fun _ => Le.bind (Le.mapM h l) fun _ => Le.refl _

section
variable {P : Prims} {tco : Bool} {ev ev' : Nat → Value → Ctx → M Value} (h : ∀ env e c, Le (ev env e c) (ev' env e c))
include h

theorem block_le (env : Nat) (c : Ctx) : ∀ es, Le (block ev env c es) (block ev' env c es)
  | [] => Le.refl _
  | [e] => h env e c
  | e :: e' :: es => Le.bind (h env e _) fun _ => block_le env c (e' :: es)

theorem letDecls_le (env : Nat) (c : Ctx) (shell : Bool) : ∀ ds, Le (letDecls ev env c shell ds) (letDecls ev' env c shell ds)
  | [] => Le.refl _
  | d :: ds => by
    unfold letDecls
    split
    · exact Le.refl _
    · next s e r ds' heq =>
      injection heq with h1 h2
      subst h1 h2
      exact Le.bind (h env e _) fun _ => Le.bind (Le.refl _) fun _ => Le.bind (Le.refl _) fun _ =>
        letDecls_le env c shell ds
    · exact Le.refl _

theorem cond_le (env : Nat) (c : Ctx) : ∀ l, Le (condClauses ev env c l) (condClauses ev' env c l)
  | [] => Le.refl _
  | d :: l => by
    unfold condClauses
    split
    · exact Le.refl _
    · next q a r l' heq =>
      injection heq with h1 h2
      subst h1 h2
      refine Le.bind (h env q _) fun v => ?_
      split
      · exact h env a c
      · exact cond_le env c l
    · exact Le.refl _

theorem andOr_le (env : Nat) (c : Ctx) (isOr : Bool) : ∀ l last, Le (andOr ev env c isOr last l) (andOr ev' env c isOr last l)
  | [], _ => Le.refl _
  | e :: l, _ => by
    simp only [andOr]
    refine Le.bind (h env e _) fun v => ?_
    split
    · exact Le.refl _
    · exact andOr_le env c isOr l v

theorem callNative_le (env : Nat) (n : Str) (args : List Value) :
    Le (callNative P ev env n args) (callNative P ev' env n args) := by
  unfold callNative
  by_cases h1 : n = c!"eval"
  · rw [if_pos h1, if_pos h1]
    cases args with
    | nil => exact Le.refl _
    | cons e l => exact h env e _
  rw [if_neg h1, if_neg h1]
  by_cases h1 : n = c!"apply"
  · rw [if_pos h1, if_pos h1]
    split
    · exact h env _ _
    · exact Le.refl _
  rw [if_neg h1, if_neg h1]
  by_cases h1 : n = c!"map"
  · rw [if_pos h1, if_pos h1]
    split
    · exact Le.bind (Le.mapM (fun v => h env _ _) _) fun _ => Le.refl _
    · exact Le.refl _
  rw [if_neg h1, if_neg h1]
  by_cases h1 : n = c!"filter"
  · rw [if_pos h1, if_pos h1]
    split
    · exact Le.bind (Le.mapM (fun v => Le.bind (h env _ _) fun _ => Le.refl _) _) fun _ => Le.refl _
    · exact Le.refl _
  rw [if_neg h1, if_neg h1]
  exact Le.refl _

theorem call_le (env : Nat) (f : Value) (args : List Value) :
    Le (call P tco ev env f args) (call P tco ev' env f args) := by
  unfold call
  cases f with
  | native n => exact callNative_le h env n args
  | lam e ps body => exact Le.bind (Le.refl _) fun _ => block_le h _ _ body
  | mac e ps body => exact Le.bind (Le.refl _) fun _ => block_le h _ _ body
  | _ => exact Le.refl _

theorem tramp_le : ∀ (k k' : Nat), k ≤ k' → ∀ (env : Nat) (v : Value),
    Le (tramp P tco ev k env v) (tramp P tco ev' k' env v)
  | 0, _, _, _, _ => Le.stuck _
  | k + 1, 0, hk, _, _ => by omega
  | k + 1, k' + 1, hk, env, v => by
    cases v with
    | tail f args => exact Le.bind (call_le h env f args) fun _ => tramp_le k k' (by omega) env _
    | _ => exact Le.refl _

theorem applyCall_le {k k' : Nat} (hk : k ≤ k') (env : Nat) (c : Ctx) (f : Value) (args : List Value) :
    Le (applyCall P tco ev k env c f args) (applyCall P tco ev' k' env c f args) := by
  unfold applyCall
  split
  · exact Le.refl _
  · exact Le.bind (call_le h env f args) fun _ => tramp_le h k k' hk env _

theorem evalForm_le {k k' : Nat} (hk : k ≤ k') (env : Nat) (c : Ctx) (F : Form) :
    Le (evalForm P tco ev k env c F) (evalForm P tco ev' k' env c F) := by
  cases F with
  | comma e => exact h env e _
  | quote e => exact h env e _
  | define s e => exact Le.bind (h env e _) fun _ => Le.refl _
  | set s e => exact Le.bind (h env e _) fun _ => Le.refl _
  | letForm shell ds body =>
    simp only [evalForm]
    exact Le.bind (Le.refl _) fun new => Le.bind (letDecls_le h new c shell ds) fun _ => block_le h new c body
  | «begin» l => exact block_le h env c l
  | cond l => exact cond_le h env c l
  | when_ q body =>
    refine Le.bind (h env q _) fun v => ?_
    split
    · exact block_le h env c body
    · exact Le.refl _
  | if_ q a b =>
    refine Le.bind (h env q _) fun v => ?_
    split
    · exact h env a c
    · cases b with
      | none => exact Le.refl _
      | some b => exact h env b c
  | andOr isOr l => exact andOr_le h env c isOr l _
  | app f args =>
    refine Le.bind (h env f _) fun fv => ?_
    have key : Le (M.bind (M.mapM (fun a => ev env a c.past) args) (applyCall P tco ev k env c fv))
        (M.bind (M.mapM (fun a => ev' env a c.past) args) (applyCall P tco ev' k' env c fv)) :=
      Le.bind (Le.mapM (fun a => h env a _) args) fun _ => applyCall_le h hk env c fv _
    cases fv with
    | mac e ps body => exact Le.bind (call_le h env _ args) fun e => h env e _
    | _ => exact key
  | _ => exact Le.refl _

theorem step_le {k k' : Nat} (hk : k ≤ k') (env : Nat) (e : Value) (c : Ctx) :
    Le (step P tco ev k env e c) (step P tco ev' k' env e c) := by
  unfold step
  split
  · split
    · split
      · exact evalForm_le h hk env c _
      · exact Le.bind (Le.mapM (fun x => h env x c) _) fun _ => Le.refl _
    · exact Le.refl _
  · exact evalForm_le h hk env c _
end

theorem eval_le (P : Prims) (tco : Bool) : ∀ (n n' : Nat), n ≤ n' → ∀ env e c,
    Le (eval P tco n env e c) (eval P tco n' env e c)
  | 0, _, _, _, _, _ => Le.stuck _
  | n + 1, 0, h, _, _, _ => by omega
  | n + 1, n' + 1, h, env, e, c =>
    step_le (fun env e c => eval_le P tco n n' (by omega) env e c) (by omega) env e c

/-- The evaluation of `e` in the scope `env` ends with `r`: this is what the shell observes (the depth is
not bounded; a program that needs unbounded depth does not end). -/
def Ends (P : Prims) (tco : Bool) (st : St) (env : Nat) (e : Value) (r : R Value) : Prop :=
  r ≠ .out ∧ ∃ n, eval P tco n env e .new st = r

theorem Ends.settles {P : Prims} {tco : Bool} {st : St} {env : Nat} {e : Value} {r : R Value}
    (h : Ends P tco st env e r) : ∃ n, ∀ m, n ≤ m → eval P tco m env e .new st = r := by
  obtain ⟨hr, n, hn⟩ := h
  exact ⟨n, fun m hm => by rw [← hn]; exact eval_le P tco n m hm env e _ st (by rw [hn]; exact hr)⟩

/-- An evaluation has one end. -/
theorem ends_unique {P : Prims} {tco : Bool} {st : St} {env : Nat} {e : Value} {r r' : R Value}
    (h : Ends P tco st env e r) (h' : Ends P tco st env e r') : r = r' := by
  obtain ⟨n, hn⟩ := h.settles
  obtain ⟨m, hm⟩ := h'.settles
  rw [← hn (max n m) (by omega), hm (max n m) (by omega)]

end Dsh.Lisp
