import Verif.Lisp.TailProps
import Verif.Lisp.Keep
/-!
C26 (running a recorded macro) and C84 (parameters are local).
-/
namespace Dsh.Lisp

/-! ### C26: the recorded commands are run -/

/-- The names that are not functions. -/
def specialForms : List Str :=
  [c!"comma", c!"quote", c!"define", c!"set", c!"defmacro", c!"defun", c!"fn", c!"autocomplete", c!"lambda",
    c!"let", c!"v-let", c!"value-let", c!"begin", c!"cond", c!"when", c!"if", c!"and", c!"or"]

theorem classifyKw_app {k : Str} (h : k ∉ specialForms) (rest : List Value) : classifyKw k rest = .app (.sym k) rest := by
  simp only [specialForms, List.mem_cons, List.not_mem_nil, or_false, not_or] at h
  unfold classifyKw
  simp [h]

/-- What the shell sees of running the command `c`. -/
def ran (c : Str) : Str × List Value := (c!"sh", [.str c])

section
variable {P : Prims}

theorem eval_form {n env : Nat} {e : Value} {c : Ctx} (hq : c.quoting = false) {F : Form} (hF : classify e = F) :
    eval P true (n + 1) env e c = evalForm P true (eval P true n) n env c F := by
  show step P true (eval P true n) n env e c = _
  unfold step
  rw [if_neg (by simp [hq]), hF]

theorem eval_sym {n env : Nat} {k : Str} {c : Ctx} (hq : c.quoting = false) {st : St} {v : Value}
    (h : get st.scopes env k = some v) : eval P true (n + 1) env (.sym k) c st = .ok st v := by
  have hc : classify (.sym k) = .var k := rfl
  rw [eval_form hq hc]
  simp [evalForm, M.bind, look, h, M.pure]

theorem eval_str {n env : Nat} {s : Str} {c : Ctx} (hq : c.quoting = false) (st : St) :
    eval P true (n + 1) env (.str s) c st = .ok st (.str s) := by
  rw [eval_form hq rfl]
  rfl

theorem prim_val {k : Str} {args : List Value} {st : St} {v : Value} (h : P k args st.trace = .val v) :
    prim P k args st = .ok { st with trace := st.trace ++ [(k, args)] } v := by
  simp [prim, h]

theorem prim_err {k : Str} {args : List Value} {st : St} (h : P k args st.trace = .err) :
    prim P k args st = .err { st with trace := st.trace ++ [(k, args)] } := by
  simp [prim, h]

theorem call_sh (ev : Nat → Value → Ctx → M Value) (env : Nat) (args : List Value) :
    call P true ev env (.native c!"sh") args = prim P c!"sh" args := rfl

theorem eval_sh (m : Nat) {env : Nat} {c : Str} {ctx : Ctx} (hq : ctx.quoting = false) {st : St}
    (hg : get st.scopes env c!"sh" = some (.native c!"sh")) :
    eval P true (m + 2) env (shForm c) ctx st =
      if ctx.tail then .ok st (.tail (.native c!"sh") [.str c])
      else M.bind (prim P c!"sh" [.str c]) (tramp P true (eval P true (m + 1)) (m + 1) env) st := by
  have hc : classify (shForm c) = .app (.sym c!"sh") [.str c] := rfl
  have hp : ctx.past.quoting = false := hq
  rw [eval_form hq hc]
  simp only [evalForm, M.mapM, M.bind, eval_sym hp hg, eval_str hp st, M.pure, applyCall]
  split
  · rfl
  · rfl

/-- The last value a native function returns is not a call still to be made. -/
def Value.isTail : Value → Bool
  | .tail _ _ => true
  | _ => false

theorem tramp_val {ev : Nat → Value → Ctx → M Value} {k env : Nat} {v : Value} (h : v.isTail = false) :
    tramp P true ev (k + 1) env v = M.pure v := by
  cases v <;> first | rfl | simp [Value.isTail] at h

/-- The body of a recorded macro, run in a function; `done` says whether all commands were. -/
theorem run_body (m : Nat) {env env₀ : Nat} : ∀ (cmds : List Str) (st : St),
    get st.scopes env c!"sh" = some (.native c!"sh") →
    ((∀ c ∈ cmds, ∀ tr, ∃ v, P c!"sh" [.str c] tr = .val v ∧ v.isTail = false) →
      ∃ v, M.bind (block (eval P true (m + 2)) env ⟨false, true, false⟩ (cmds.map shForm))
        (tramp P true (eval P true (m + 2)) (m + 2) env₀) st =
          .ok { st with trace := st.trace ++ cmds.map ran } v) ∧
    (∀ a c b, cmds = a ++ c :: b → (∀ c ∈ a, ∀ tr, ∃ v, P c!"sh" [.str c] tr = .val v ∧ v.isTail = false) →
      P c!"sh" [.str c] (st.trace ++ a.map ran) = .err →
      M.bind (block (eval P true (m + 2)) env ⟨false, true, false⟩ (cmds.map shForm))
        (tramp P true (eval P true (m + 2)) (m + 2) env₀) st =
          .err { st with trace := st.trace ++ (a ++ [c]).map ran })
  | [], st, _ => by
    refine ⟨fun _ => ⟨.list [], by simp [block, M.bind, M.pure, tramp]⟩, ?_⟩
    intro a c b h
    simp at h
  | [c], st, hg => by
    have he : block (eval P true (m + 2)) env ⟨false, true, false⟩ ([c].map shForm) st =
        .ok st (.tail (.native c!"sh") [.str c]) := by
      simp only [List.map_cons, List.map_nil, block]
      rw [eval_sh m rfl hg]
      rfl
    constructor
    · intro hP
      obtain ⟨v, hv, ht⟩ := hP c (by simp) st.trace
      refine ⟨v, ?_⟩
      simp only [M.bind, he, tramp, call_sh, prim_val hv]
      rw [tramp_val ht]
      rfl
    · intro a c' b hl _ hP
      cases a with
      | cons x a => simp at hl
      | nil =>
        simp only [List.nil_append, List.cons.injEq] at hl
        obtain ⟨rfl, _⟩ := hl
        have hP' : P c!"sh" [.str c] st.trace = .err := by simpa using hP
        simp only [M.bind, he, tramp, call_sh, prim_err hP']
        rfl
  | c :: c' :: cmds, st, hg => by
    have he : ∀ (K : Value → M Value), M.bind (block (eval P true (m + 2)) env ⟨false, true, false⟩ ((c :: c' :: cmds).map shForm)) K st =
        M.bind (M.bind (prim P c!"sh" [.str c]) (tramp P true (eval P true (m + 1)) (m + 1) env))
          (fun _ => M.bind (block (eval P true (m + 2)) env ⟨false, true, false⟩ ((c' :: cmds).map shForm)) K) st := by
      intro K
      have : M.bind (block (eval P true (m + 2)) env ⟨false, true, false⟩ ((c :: c' :: cmds).map shForm)) K =
          M.bind (eval P true (m + 2) env (shForm c) (Ctx.past ⟨false, true, false⟩))
            (fun _ => M.bind (block (eval P true (m + 2)) env ⟨false, true, false⟩ ((c' :: cmds).map shForm)) K) := by
        simp only [List.map_cons, block, bind_assoc]
      rw [this, M.bind, eval_sh m rfl hg]
      rfl
    rw [he]
    have ih := fun st' => run_body m (env := env) (env₀ := env₀) (c' :: cmds) st'
    constructor
    · intro hP
      obtain ⟨v, hv, ht⟩ := hP c (by simp) st.trace
      obtain ⟨w, hw⟩ := (ih { st with trace := st.trace ++ [(c!"sh", [.str c])] } hg).1 (fun d hd => hP d (by simp [hd]))
      refine ⟨w, ?_⟩
      rw [M.bind, M.bind, prim_val hv]
      dsimp only
      rw [tramp_val ht]
      dsimp only [M.pure]
      rw [hw]
      simp [ran]
    · intro a d b hl ha hP
      cases a with
      | nil =>
        simp only [List.nil_append, List.cons.injEq] at hl
        obtain ⟨rfl, _⟩ := hl
        have hP' : P c!"sh" [.str c] st.trace = .err := by simpa using hP
        rw [M.bind, M.bind, prim_err hP']
        rfl
      | cons x a =>
        simp only [List.cons_append, List.cons.injEq] at hl
        obtain ⟨rfl, hl⟩ := hl
        obtain ⟨v, hv, ht⟩ := ha c (by simp) st.trace
        have := (ih { st with trace := st.trace ++ [(c!"sh", [.str c])] } hg).2 a d b hl
          (fun d hd => ha d (by simp [hd])) (by simpa [ran] using hP)
        rw [M.bind, M.bind, prim_val hv]
        dsimp only
        rw [tramp_val ht]
        dsimp only [M.pure]
        rw [this]
        simp [ran]

theorem eval_wanted (name : Str) (cmds : List Str) (st : St) (n : Nat) :
    eval P true (n + 1) 0 (wanted name cmds) .new st =
      .ok { st with scopes := define st.scopes 0 name (.lam 0 [] (cmds.map shForm)) } .nil := by
  rfl

theorem get_zero {s : List Scope} {sc : Scope} (h : s[0]? = some sc) {k : Str} {v : Value}
    (hk : sc.vars.lookup k = some v) : get s 0 k = some v := by
  simp [get, getGo, h, hk]

theorem define_zero {s : List Scope} {sc : Scope} (h : s[0]? = some sc) (k : Str) (v : Value) :
    (define s 0 k v)[0]? = some { sc with vars := insertVar k v sc.vars } := by
  simp [define, List.getElem?_modify, h]

theorem get_extended {s : List Scope} {sc : Scope} (h : s[0]? = some sc) {k : Str} {v : Value}
    (hk : sc.vars.lookup k = some v) : get (s ++ [⟨some 0, []⟩]) s.length k = some v := by
  have hl : 0 < s.length := (List.getElem?_eq_some_iff.1 h).1
  obtain ⟨n, hn⟩ : ∃ n, s.length = n + 1 := ⟨s.length - 1, by omega⟩
  have h1 : (s ++ [⟨some 0, []⟩])[0]? = some sc := by rw [List.getElem?_append_left hl]; exact h
  have h2 : (s ++ [(⟨some 0, []⟩ : Scope)])[s.length]? = some ⟨some 0, []⟩ := by simp
  unfold get
  rw [getGo, h2]
  simp only [List.lookup_nil]
  rw [hn, getGo, h1]
  simp [hk]

/-- After recording `name`, the expression `(name)` calls the function in the global scope. -/
theorem eval_call_macro {name : Str} (hname : name ∉ specialForms) {st : St} {sc : Scope}
    (h0 : st.scopes[0]? = some sc) {body : List Value} (hk : sc.vars.lookup name = some (.lam 0 [] body)) (m : Nat) :
    eval P true (m + 2) 0 (.list [.sym name]) .new st =
      M.bind (block (eval P true (m + 1)) st.scopes.length ⟨false, true, false⟩ body)
        (tramp P true (eval P true (m + 1)) (m + 1) 0) { st with scopes := st.scopes ++ [⟨some 0, []⟩] } := by
  have hc : classify (.list [.sym name]) = .app (.sym name) [] := classifyKw_app hname []
  have hp : (Ctx.past .new).quoting = false := rfl
  rw [eval_form rfl hc]
  simp only [evalForm, M.mapM, M.bind, eval_sym hp (get_zero h0 hk), M.pure, applyCall]
  have ht : Ctx.new.tail = false := rfl
  rw [if_neg (by simp [ht])]
  rfl

/-- **C26 (replay)**: evaluating the definition of a recorded macro runs nothing; calling it then runs exactly
the recorded commands, in order, if the name is not that of a special form or `sh` and every command succeeds
(is a `sh` call with a value). -/
theorem C26_replay {name : Str} (hname : name ∉ specialForms) (hne : name ≠ c!"sh") {cmds : List Str} {st : St}
    {sc : Scope} (h0 : st.scopes[0]? = some sc) (hsh : sc.vars.lookup c!"sh" = some (.native c!"sh"))
    (hP : ∀ c ∈ cmds, ∀ tr, ∃ v, P c!"sh" [.str c] tr = .val v ∧ v.isTail = false) :
    ∃ st₁ st₂ v, Ends P true st 0 (wanted name cmds) (.ok st₁ .nil) ∧ st₁.trace = st.trace ∧
      Ends P true st₁ 0 (.list [.sym name]) (.ok st₂ v) ∧ st₂.trace = st₁.trace ++ cmds.map ran := by
  have h1 := define_zero h0 name (.lam 0 [] (cmds.map shForm))
  have hl : (insertVar name (Value.lam 0 [] (cmds.map shForm)) sc.vars).lookup name = some (.lam 0 [] (cmds.map shForm)) := by
    rw [lookup_insertVar]; simp
  have hs : (insertVar name (Value.lam 0 [] (cmds.map shForm)) sc.vars).lookup c!"sh" = some (.native c!"sh") := by
    rw [lookup_insertVar, if_neg (Ne.symm hne)]; exact hsh
  obtain ⟨v, hv⟩ := (run_body (P := P) 0 (env₀ := 0) cmds
    { st with scopes := define st.scopes 0 name (.lam 0 [] (cmds.map shForm)) ++ [⟨some 0, []⟩] }
    (get_extended h1 hs)).1 hP
  refine ⟨{ st with scopes := define st.scopes 0 name (.lam 0 [] (cmds.map shForm)) }, { st with scopes := define st.scopes 0 name (.lam 0 [] (cmds.map shForm)) ++ [⟨some 0, []⟩], trace := st.trace ++ cmds.map ran }, v,
    ⟨by simp, 1, eval_wanted name cmds st 0⟩, rfl, ⟨by simp, 3, ?_⟩, rfl⟩
  rw [eval_call_macro (m := 1) hname h1 hl]
  exact hv

/-- **C26 (a command fails)**: the commands before it and itself are run, the rest is not. -/
theorem C26_replay_stops {name : Str} (hname : name ∉ specialForms) (hne : name ≠ c!"sh") {a b : List Str} {c : Str}
    {st : St} {sc : Scope} (h0 : st.scopes[0]? = some sc) (hsh : sc.vars.lookup c!"sh" = some (.native c!"sh"))
    (hP : ∀ c ∈ a, ∀ tr, ∃ v, P c!"sh" [.str c] tr = .val v ∧ v.isTail = false)
    (hf : P c!"sh" [.str c] (st.trace ++ a.map ran) = .err) :
    ∃ st₁ st₂, Ends P true st 0 (wanted name (a ++ c :: b)) (.ok st₁ .nil) ∧ st₁.trace = st.trace ∧
      Ends P true st₁ 0 (.list [.sym name]) (.err st₂) ∧ st₂.trace = st₁.trace ++ (a ++ [c]).map ran := by
  have h1 := define_zero h0 name (.lam 0 [] ((a ++ c :: b).map shForm))
  have hl : (insertVar name (Value.lam 0 [] ((a ++ c :: b).map shForm)) sc.vars).lookup name =
      some (.lam 0 [] ((a ++ c :: b).map shForm)) := by
    rw [lookup_insertVar]; simp
  have hs : (insertVar name (Value.lam 0 [] ((a ++ c :: b).map shForm)) sc.vars).lookup c!"sh" = some (.native c!"sh") := by
    rw [lookup_insertVar, if_neg (Ne.symm hne)]; exact hsh
  have hv := (run_body (P := P) 0 (env₀ := 0) (a ++ c :: b)
    { st with scopes := define st.scopes 0 name (.lam 0 [] ((a ++ c :: b).map shForm)) ++ [⟨some 0, []⟩] }
    (get_extended h1 hs)).2 a c b rfl hP hf
  refine ⟨{ st with scopes := define st.scopes 0 name (.lam 0 [] ((a ++ c :: b).map shForm)) }, { st with scopes := define st.scopes 0 name (.lam 0 [] ((a ++ c :: b).map shForm)) ++ [⟨some 0, []⟩], trace := st.trace ++ (a ++ [c]).map ran },
    ⟨by simp, 1, eval_wanted name _ st 0⟩, rfl, ⟨by simp, 3, ?_⟩, rfl⟩
  rw [eval_call_macro (m := 1) hname h1 hl]
  exact hv

/-- C26 is false of names that are special forms: the macro `if` is recorded, and calling it runs nothing. -/
theorem C26_special_name_violated {name : Str} (h : classifyKw name [] = .bad) (cmds : List Str) (st : St) :
    ∃ st₁, Ends P true st 0 (wanted name cmds) (.ok st₁ .nil) ∧ st₁.trace = st.trace ∧
      Ends P true st₁ 0 (.list [.sym name]) (.err st₁) := by
  refine ⟨_, ⟨by simp, 1, eval_wanted name cmds st 0⟩, rfl, ⟨by simp, 1, ?_⟩⟩
  have hc : classify (.list [.sym name]) = .bad := h
  rw [eval_form rfl hc]
  rfl

example : ∀ name ∈ [c!"comma", c!"quote", c!"define", c!"set", c!"defmacro", c!"defun", c!"fn", c!"autocomplete",
    c!"lambda", c!"let", c!"v-let", c!"value-let", c!"when", c!"if"], classifyKw name [] = .bad := by
  intro name h
  simp only [List.mem_cons, List.not_mem_nil, or_false] at h
  rcases h with rfl | rfl | rfl | rfl | rfl | rfl | rfl | rfl | rfl | rfl | rfl | rfl | rfl | rfl <;> rfl

/-! A macro recorded under the name `sh`. -/

/-- The global scope after recording the macro `sh`. -/
def ShMacro (cmds : List Str) (st : St) : Prop :=
  ∃ sc, st.scopes[0]? = some sc ∧ sc.vars.lookup c!"sh" = some (.lam 0 [] (cmds.map shForm))

theorem ShMacro.extend {cmds : List Str} {st : St} (h : ShMacro cmds st) (vars : List (Str × Value)) (p : Nat) :
    ShMacro cmds { st with scopes := st.scopes ++ [⟨some p, vars⟩] } := by
  obtain ⟨sc, h0, hk⟩ := h
  exact ⟨sc, by
    show (st.scopes ++ [⟨some p, vars⟩])[0]? = some sc
    rw [List.getElem?_append_left (List.getElem?_eq_some_iff.1 h0).1]; exact h0, hk⟩

theorem sh_loops_step {cmds : List Str} {f : Value} (hf : f = .lam 0 [] (cmds.map shForm)) {n : Nat} (hne : cmds ≠ [])
    (ih : ∀ (st : St) (env : Nat) (c : Str) (ctx : Ctx), ShMacro cmds st → get st.scopes env c!"sh" = some f →
      ctx.quoting = false → ctx.tail = false → eval P true n env (shForm c) ctx st = .out) :
    (∀ (k : Nat) (env : Nat) (args : List Value) (st : St), ShMacro cmds st →
      M.bind (call P true (eval P true n) env f args) (tramp P true (eval P true n) k env) st = .out) := by
  intro k
  have hq : ∀ (st : St) (env : Nat) (c : Str) (ctx : Ctx), get st.scopes env c!"sh" = some f → ctx.quoting = false →
      ctx.tail = true → eval P true n env (shForm c) ctx st = .out ∨
        eval P true n env (shForm c) ctx st = .ok st (.tail f [.str c]) := by
    intro st env c ctx hg hq ht
    have hc : classify (shForm c) = .app (.sym c!"sh") [.str c] := rfl
    have hp : ctx.past.quoting = false := hq
    cases n with
    | zero => exact Or.inl rfl
    | succ n =>
      cases n with
      | zero =>
        left
        rw [eval_form hq hc]
        simp only [evalForm, M.bind, eval, M.stuck]
      | succ n =>
        right
        rw [eval_form hq hc]
        subst hf
        simp only [evalForm, M.mapM, M.bind, eval_sym hp hg, eval_str hp st, M.pure, applyCall, ht, if_true]
  induction k with
  | zero =>
    intro env args st hs
    obtain ⟨sc, h0, hk⟩ := hs
    have hg := get_extended h0 hk
    rw [← hf] at hg
    subst hf
    obtain ⟨c, cs, rfl⟩ : ∃ c cs, cmds = c :: cs := by
      cases cmds with
      | nil => exact absurd rfl hne
      | cons c cs => exact ⟨c, cs, rfl⟩
    simp only [call, bindArgs, M.bind, extendM, extend]
    cases cs with
    | nil =>
      simp only [List.map_cons, List.map_nil, block]
      rcases hq { st with scopes := st.scopes ++ [⟨some 0, []⟩] } st.scopes.length c ⟨false, true, false⟩ hg rfl rfl with h | h
      · rw [h]
      · rw [h]; rfl
    | cons c' cs =>
      simp only [List.map_cons, block, M.bind]
      have := ih { st with scopes := st.scopes ++ [⟨some 0, []⟩] } st.scopes.length c (Ctx.past ⟨false, true, false⟩)
        (ShMacro.extend ⟨sc, h0, hk⟩ [] 0) hg rfl rfl
      rw [this]
  | succ k ihk =>
    intro env args st hs
    have hs' := hs
    obtain ⟨sc, h0, hk⟩ := hs
    have hg := get_extended h0 hk
    rw [← hf] at hg
    obtain ⟨c, cs, hcmds⟩ : ∃ c cs, cmds = c :: cs := by
      cases cmds with
      | nil => exact absurd rfl hne
      | cons c cs => exact ⟨c, cs, rfl⟩
    have hcall : ∀ K : Value → M Value, M.bind (call P true (eval P true n) env f args) K st =
        M.bind (block (eval P true n) st.scopes.length ⟨false, true, false⟩ (cmds.map shForm)) K
          { st with scopes := st.scopes ++ [⟨some 0, []⟩] } := by
      intro K
      subst hf
      simp only [call, bindArgs, M.bind, extendM, extend]
    rw [hcall, hcmds]
    cases cs with
    | nil =>
      simp only [List.map_cons, List.map_nil, block, M.bind]
      rcases hq { st with scopes := st.scopes ++ [⟨some 0, []⟩] } st.scopes.length c ⟨false, true, false⟩ hg rfl rfl with h | h
      · rw [h]
      · rw [h]
        simp only [tramp]
        exact ihk env [.str c] _ (ShMacro.extend hs' [] 0)
    | cons c' cs =>
      simp only [List.map_cons, block, M.bind]
      have := ih { st with scopes := st.scopes ++ [⟨some 0, []⟩] } st.scopes.length c (Ctx.past ⟨false, true, false⟩)
        (ShMacro.extend hs' [] 0) hg rfl rfl
      rw [this]

theorem sh_loops {cmds : List Str} (hne : cmds ≠ []) : ∀ (n : Nat) (st : St) (env : Nat) (c : Str) (ctx : Ctx),
    ShMacro cmds st → get st.scopes env c!"sh" = some (.lam 0 [] (cmds.map shForm)) → ctx.quoting = false →
    ctx.tail = false → eval P true n env (shForm c) ctx st = .out := by
  intro n
  induction n with
  | zero => intros; rfl
  | succ n ih =>
    intro st env c ctx hs hg hq ht
    have hc : classify (shForm c) = .app (.sym c!"sh") [.str c] := rfl
    have hp : ctx.past.quoting = false := hq
    have hl := sh_loops_step (P := P) rfl hne ih
    rw [eval_form hq hc]
    cases n with
    | zero => simp only [evalForm, M.bind, eval, M.stuck]
    | succ n =>
      simp only [evalForm, M.mapM, M.bind, eval_sym hp hg, eval_str hp st, M.pure, applyCall, ht, Bool.false_eq_true,
        if_false]
      exact hl (n + 1) env [.str c] st hs

/-- C26 is false of the name `sh`: calling the recorded macro never ends, and from then on no macro recorded
before can be run either. -/
theorem C26_sh_name_violated {cmds : List Str} (hne : cmds ≠ []) {st : St} {sc : Scope}
    (h0 : st.scopes[0]? = some sc) :
    ∃ st₁, Ends P true st 0 (wanted c!"sh" cmds) (.ok st₁ .nil) ∧
      (∀ r, ¬ Ends P true st₁ 0 (.list [.sym c!"sh"]) r) ∧ ∀ c r, ¬ Ends P true st₁ 0 (shForm c) r := by
  have h1 := define_zero h0 c!"sh" (.lam 0 [] (cmds.map shForm))
  have hl : (insertVar c!"sh" (Value.lam 0 [] (cmds.map shForm)) sc.vars).lookup c!"sh" = some (.lam 0 [] (cmds.map shForm)) := by
    rw [lookup_insertVar]; simp
  refine ⟨{ st with scopes := define st.scopes 0 c!"sh" (.lam 0 [] (cmds.map shForm)) },
    ⟨by simp, 1, eval_wanted c!"sh" cmds st 0⟩, ?_, ?_⟩
  · rintro r ⟨hr, n, hn⟩
    apply hr
    rw [← hn]
    have hle := eval_le P true n (n + 2) (by omega) 0 (.list [.sym c!"sh"]) .new
      { st with scopes := define st.scopes 0 c!"sh" (.lam 0 [] (cmds.map shForm)) }
    have hx := sh_loops_step (P := P) rfl hne (fun st env c ctx h1 h2 h3 h4 => sh_loops (P := P) hne (n + 1) st env c ctx h1 h2 h3 h4)
      (n + 1) 0 [] { st with scopes := define st.scopes 0 c!"sh" (.lam 0 [] (cmds.map shForm)) } ⟨_, h1, hl⟩
    have he := eval_call_macro (P := P) (name := c!"sh") (by decide)
      (st := { st with scopes := define st.scopes 0 c!"sh" (.lam 0 [] (cmds.map shForm)) }) h1 hl n
    simp only [call, bindArgs, M.bind, extendM, extend] at hx
    simp only [M.bind] at he
    rw [hx] at he
    rw [he] at hle
    by_cases ho : eval P true n 0 (.list [.sym c!"sh"]) .new { st with scopes := define st.scopes 0 c!"sh" (.lam 0 [] (cmds.map shForm)) } = .out
    · exact ho
    · exact (hle ho).symm
  · rintro c r ⟨hr, n, hn⟩
    apply hr
    rw [← hn]
    exact sh_loops hne n _ 0 c .new ⟨_, h1, hl⟩ (get_zero h1 hl) rfl rfl
end

/-- Two commands recorded as `build` and replayed. -/
example : ∃ st₁ st₂ v, Ends exPrims true exSt 0 (wanted c!"build" [c!"cd src", c!"make"]) (.ok st₁ .nil) ∧
    Ends exPrims true st₁ 0 (.list [.sym c!"build"]) (.ok st₂ v) ∧
    st₂.trace = [(c!"sh", [.str c!"cd src"]), (c!"sh", [.str c!"make"])] := by
  obtain ⟨st₁, st₂, v, h1, h2, h3, h4⟩ := C26_replay (P := exPrims) (name := c!"build") (cmds := [c!"cd src", c!"make"])
    (st := exSt) (by decide) (by decide) (h0 := rfl) (hsh := by decide) (fun c _ tr => ⟨.nil, rfl, rfl⟩)
  exact ⟨st₁, st₂, v, h1, h3, by rw [h4, h2]; rfl⟩

/-! ### C84: parameters are local -/

/-- C84 (partial: as many arguments as parameters, no repetitions and no `...`): inside the call every
parameter is bound in the scope of the call itself, so the names of the caller and of the definition cannot be
read or changed through it. -/
theorem C84_parameters_partial {s : List Scope} {p : Nat} {ps : List Str} {args : List Value}
    (hd : c!"..." ∉ ps) (hn : ps.Nodup) (hlen : ps.length ≤ args.length) {i : Nat} {k : Str} (hi : ps[i]? = some k) :
    own (extend s p (bindArgs ps args [])).2 k (extend s p (bindArgs ps args [])).1 = args[i]? := by
  have h1 : own (extend s p (bindArgs ps args [])).2 k (extend s p (bindArgs ps args [])).1 = (bindArgs ps args []).lookup k := by
    simp [own, extend]
  rw [h1, bindArgs_lookup k ps args [] hd hn]
  simp only [List.lookup_nil, Option.or_none]
  clear h1 hd
  induction ps generalizing args i with
  | nil => simp at hi
  | cons q ps ih =>
    cases args with
    | nil => simp at hlen
    | cons a args =>
      rw [List.nodup_cons] at hn
      cases i with
      | zero =>
        simp only [List.getElem?_cons_zero, Option.some.injEq] at hi
        subst hi
        simp [List.lookup]
      | succ i =>
        simp only [List.getElem?_cons_succ] at hi ⊢
        have hne : (k == q) = false := by
          rw [beq_eq_false_iff_ne]
          rintro rfl
          exact hn.1 (List.mem_of_getElem? hi)
        rw [List.zip_cons_cons, List.lookup_cons, hne]
        exact ih hn.2 (by simpa using hlen) hi

/-- C84 is false of calls with too few arguments: a parameter without an argument means, in the body, the
variable of that name around the definition of the function, and `set` changes that variable. -/
theorem C84_missing_argument_violated {s : List Scope} (w : WF s) {p : Nat} {l : List Nat} (h : Chain s p l)
    {ps : List Str} (hd : c!"..." ∉ ps) (hn : ps.Nodup) {args : List Value} {i : Nat} {k : Str}
    (hi : ps[i]? = some k) (hlen : args.length ≤ i) :
    get (extend s p (bindArgs ps args [])).2 (extend s p (bindArgs ps args [])).1 k = get s p k ∧
    ∀ v, get s p k ≠ none → ∃ s', set (extend s p (bindArgs ps args [])).2 (extend s p (bindArgs ps args [])).1 k v = some s' ∧
      get s' p k = some v := by
  have hz : (bindArgs ps args []).lookup k = none := by
    rw [bindArgs_lookup k ps args [] hd hn]
    simp only [List.lookup_nil, Option.or_none]
    rw [List.lookup_eq_none_iff]
    intro q hq
    obtain ⟨a, b⟩ := q
    obtain ⟨j, hj⟩ := List.getElem?_of_mem hq
    rw [List.getElem?_zip_eq_some] at hj
    simp only [bne_iff_ne]
    rintro rfl
    have hj2 := (List.getElem?_eq_some_iff.1 hj.2).1
    have hij : i = j := by
      obtain ⟨hi1, hi2⟩ := List.getElem?_eq_some_iff.1 hi
      obtain ⟨hj1, hj3⟩ := List.getElem?_eq_some_iff.1 hj.1
      rw [← List.Nodup.idxOf_getElem hn i hi1, hi2, show k = ps[j] from hj3.symm, List.Nodup.idxOf_getElem hn j hj1]
    omega
  have h1 := (C27_extend w h (bindArgs ps args []) k).1
  rw [hz, Option.none_or] at h1
  refine ⟨h1, fun v hne => ?_⟩
  have w' := extend_wf w h.lt (bindArgs ps args [])
  have hc := extend_new h (bindArgs ps args [])
  have hc' := extend_chain h p (bindArgs ps args [])
  cases hset : set (extend s p (bindArgs ps args [])).2 (extend s p (bindArgs ps args [])).1 k v with
  | none => exact absurd (h1.symm.trans ((C27_set_fails w' hc k v).1 hset)) hne
  | some s' =>
    refine ⟨s', rfl, ?_⟩
    obtain ⟨a, j, b, hl, ha, hj, hown, hsh⟩ := C27_set w' hc hset
    have hnew : own (extend s p (bindArgs ps args [])).2 k (extend s p (bindArgs ps args [])).1 = none := by
      simp [own, extend, hz]
    -- the scope of the call is not the one that has the name
    cases a with
    | nil =>
      simp only [List.nil_append, List.cons.injEq] at hl
      rw [← hl.1] at hj
      exact absurd hnew hj
    | cons x a =>
      simp only [List.cons_append, List.cons.injEq] at hl
      rw [C27_lookup (hsh.wf w') (hsh.chain hc'), hl.2, List.findSome?_append]
      have hz2 : a.findSome? (own s' k) = none := by
        rw [List.findSome?_eq_none_iff]
        intro y hy
        rw [hown]
        by_cases hyj : y = j
        · subst hyj
          exact absurd (ha y (by simp [hy])) hj
        · rw [if_neg (by simp [hyj])]
          exact ha y (by simp [hy])
      rw [hz2]
      simp [hown]

/-- `(define x 5)`, `(defun g (x) (set x (+ x 1)))`, `(g)`: the global `x` is 6 afterwards. -/
theorem C84_global_changed_violated : ∃ st',
    Ends exPrims true exSt 0
      (.list [.sym c!"begin", .list [.sym c!"define", .sym c!"x", .int 5],
        .list [.sym c!"defun", .sym c!"g", .list [.sym c!"x"],
          .list [.sym c!"set", .sym c!"x", .list [.sym c!"+", .sym c!"x", .int 1]]],
        .list [.sym c!"g"], .sym c!"x"]) (.ok st' (.int 6)) :=
  ends_value (n := 20) (by decide +kernel)

example : get (extend ex3 2 (bindArgs [c!"a", c!"x"] [.int 1] [])).2 (extend ex3 2 (bindArgs [c!"a", c!"x"] [.int 1] [])).1 c!"x"
    = some (.int 10) := (C84_missing_argument_violated ex3_wf ex3_chain (ps := [c!"a", c!"x"]) (args := [.int 1]) (by decide) (by decide) (i := 1) rfl (by decide)).1

/-! ### C27: what a function sees -/

theorem argNames_map : ∀ (ps : List Str), argNames (ps.map .sym) = some ps
  | [] => rfl
  | p :: ps => by simp [argNames, argNames_map ps]

/-- **C27 (closures)**: a function made in a scope — by `lambda`, or by `defun` under a name — sees its
arguments and, whenever and from wherever it is called, what its other names then mean in the scope it was
made in. -/
theorem C27_captured {P : Prims} {st : St} (w : WF st.scopes) {env : Nat} {l : List Nat} (hch : Chain st.scopes env l)
    {ps : List Str} (hd : c!"..." ∉ ps) (hn : ps.Nodup) (k name : Str) :
    ∃ f, Ends P true st env (.list [.sym c!"lambda", .list (ps.map .sym), .sym k]) (.ok st f) ∧
      (∃ st₁, Ends P true st env (.list [.sym c!"defun", .sym name, .list (ps.map .sym), .sym k]) (.ok st₁ .nil) ∧
        get st₁.scopes env name = some f) ∧
      ∀ (st' : St), WF st'.scopes → ∀ l', Chain st'.scopes env l' → ∀ (env' : Nat) (args : List Value) (v : Value),
        ((ps.zip args).lookup k).or (get st'.scopes env k) = some v → v.isTail = false →
        ∃ st'', CallEnds P st' env' f args (.ok st'' v) := by
  refine ⟨.lam env ps [.sym k], ⟨by simp, 1, ?_⟩, ⟨{ st with scopes := define st.scopes env name (.lam env ps [.sym k]) },
    ⟨by simp, 1, ?_⟩, ?_⟩, ?_⟩
  · have hc : classify (.list [.sym c!"lambda", .list (ps.map .sym), .sym k]) = .lambda ps [.sym k] := by
      simp [classify, classifyKw, asLambda, argNames_map]
    rw [eval_form rfl hc]
    rfl
  · have hc : classify (.list [.sym c!"defun", .sym name, .list (ps.map .sym), .sym k]) =
        .defun name (fun e => .lam e ps [.sym k]) := by
      simp [classify, classifyKw, asDefun, argNames_map]
    rw [eval_form rfl hc]
    rfl
  · exact C27_define_here w hch name _
  · intro st' w' l' hch' env' args v hv ht
    have hg := C27_call_scope w' hch' hd hn args k
    rw [hv] at hg
    refine ⟨{ st' with scopes := (extend st'.scopes env (bindArgs ps args [])).2 }, by simp, 1, ?_⟩
    have hb : call P true (eval P true 1) env' (.lam env ps [.sym k]) args st' =
        .ok { st' with scopes := (extend st'.scopes env (bindArgs ps args [])).2 } v := by
      simp only [call, M.bind, extendM, block]
      exact eval_sym rfl hg
    simp only [M.bind, hb]
    rw [tramp_val ht]
    rfl

/-- A function of the middle scope of `ex3`, called from the outermost with the outer `y` changed in the
meantime. -/
example : ∃ f, (∃ st', Ends exPrims true ⟨ex3, []⟩ 1 (.list [.sym c!"lambda", .list [.sym c!"z"], .sym c!"x"]) (.ok st' f)) ∧
    ∃ st', CallEnds exPrims ⟨ex3, []⟩ 0 f [.int 7] (.ok st' (.int 10)) := by
  have hch : Chain ex3 1 [1, 0] := .up rfl rfl (.top rfl rfl)
  obtain ⟨f, h, _, hf⟩ := C27_captured (P := exPrims) (st := ⟨ex3, []⟩) ex3_wf hch (ps := [c!"z"]) (by decide) (by decide)
    c!"x" c!"g"
  exact ⟨f, ⟨_, h⟩, hf ⟨ex3, []⟩ ex3_wf _ hch 0 [.int 7] (.int 10) (by decide) rfl⟩

/-! ### The hypotheses of `C27_eval_scopes` -/

theorem exPrims_inside : PrimsInside exPrims := by
  intro n k args tr v ha h
  unfold exPrims at h
  split at h
  · injection h with h; subst h; simp [Inside]
  · injection h with h; subst h; simp [Inside]
  · injection h with h; subst h; split <;> simp [Inside]
  · injection h with h; subst h; simpa [Inside] using ha
  · injection h with h; subst h; simp [Inside, Value.nil, InsideL]
  · simp at h

theorem exSt_sound : Sound exSt := by
  refine ⟨?_, ?_⟩
  · intro i sc p hsc hp
    cases i with
    | zero => simp only [exSt, List.getElem?_cons_zero, Option.some.injEq] at hsc; subst hsc; simp at hp
    | succ i => simp [exSt] at hsc
  · intro sc hsc p hp
    simp only [exSt, List.mem_singleton] at hsc
    subst hsc
    simp only [List.mem_map] at hp
    obtain ⟨n, _, rfl⟩ := hp
    simp [Inside]

/-- A loop of the example shell leaves well-formed scopes behind. -/
example : ∃ st', Sound st' ∧ Ends exPrims true exSt 0 exLoop (.ok st' (.int 10)) := by
  obtain ⟨st', h, _⟩ := exLoop_value
  exact ⟨st', (C27_eval_scopes exPrims_inside exSt_sound (by decide) (by simp [exLoop, Inside, InsideL]) h rfl).1, h⟩

end Dsh.Lisp
