import Verif.Lisp.EvalProps
/-!
C88: a configuration that fails leaves nothing behind (dsh/src/lisp/mod.rs).
-/
namespace Dsh.Lisp

/-! ### What was called stays called -/

/-- The trace only grows. -/
def Grew {α : Type} (m : M α) : Prop := ∀ st st', (m st).state = some st' → st.trace <+: st'.trace

theorem Grew.pure {α : Type} (a : α) : Grew (M.pure a) := by
  intro st st' h
  simp only [M.pure, R.state, Option.some.injEq] at h
  subst h
  exact List.prefix_refl _
theorem Grew.fail {α : Type} : Grew (M.fail : M α) := by
  intro st st' h
  simp only [M.fail, R.state, Option.some.injEq] at h
  subst h
  exact List.prefix_refl _
theorem Grew.stuck {α : Type} : Grew (M.stuck : M α) := by
  intro st st' h
  simp [M.stuck, R.state] at h

theorem Grew.bind {α β : Type} {m : M α} {f : α → M β} (h : Grew m) (hf : ∀ a, Grew (f a)) : Grew (M.bind m f) := by
  intro st st' hst
  have h1 := h st
  simp only [M.bind] at hst
  cases hm : m st with
  | out => rw [hm] at hst; simp [R.state] at hst
  | crash s => rw [hm] at hst h1; exact h1 st' hst
  | err s => rw [hm] at hst h1; exact h1 st' hst
  | ok s a => rw [hm] at hst h1; exact (h1 s rfl).trans (hf a s st' hst)

theorem Grew.mapM {α β : Type} {f : α → M β} (hf : ∀ a, Grew (f a)) : ∀ l, Grew (M.mapM f l)
  | [] => .pure _
  | a :: l => .bind (hf a) fun _ => .bind (Grew.mapM hf l) fun _ => .pure _

theorem grew_look (e : Nat) (k : Str) : Grew (look e k) := by
  intro st st' h
  simp only [look, R.state, Option.some.injEq] at h
  subst h
  exact List.prefix_refl _
theorem grew_define (e : Nat) (k : Str) (v : Value) : Grew (defineM e k v) := by
  intro st st' h
  simp only [defineM, R.state, Option.some.injEq] at h
  subst h
  exact List.prefix_refl _
theorem grew_set (e : Nat) (k : Str) (v : Value) : Grew (setM e k v) := by
  intro st st' h
  simp only [setM] at h
  split at h <;> simp only [R.state, Option.some.injEq] at h <;> subst h <;> exact List.prefix_refl _
theorem grew_extend (p : Nat) (vars : List (Str × Value)) : Grew (extendM p vars) := by
  intro st st' h
  simp only [extendM, R.state, Option.some.injEq] at h
  subst h
  exact List.prefix_refl _
theorem grew_note (n : Str) (args : List Value) : Grew (note n args) := by
  intro st st' h
  simp only [note, R.state, Option.some.injEq] at h
  subst h
  exact List.prefix_append _ _
theorem grew_prim (P : Prims) (n : Str) (args : List Value) : Grew (prim P n args) := by
  intro st st' h
  simp only [prim] at h
  split at h <;> simp only [R.state, Option.some.injEq] at h <;> subst h <;> exact List.prefix_append _ _

section
variable {P : Prims} {tco : Bool} {ev : Nat → Value → Ctx → M Value} (hev : ∀ env e c, Grew (ev env e c))
include hev

theorem grew_block (env : Nat) (c : Ctx) : ∀ l, Grew (block ev env c l)
  | [] => .pure _
  | [e] => hev _ _ _
  | _ :: e :: es => .bind (hev _ _ _) fun _ => grew_block env c (e :: es)

theorem grew_decls (env : Nat) (c : Ctx) (shell : Bool) : ∀ l, Grew (letDecls ev env c shell l)
  | [] => .pure _
  | d :: ds => by
    unfold letDecls
    split
    · exact .pure _
    · next h =>
      injection h with h1 h2
      subst h2
      refine .bind (hev _ _ _) fun v => .bind ?_ fun _ => .bind (grew_define _ _ _) fun _ => grew_decls env c shell ds
      cases shell
      · exact .pure _
      · exact grew_note _ _
    · exact .fail

theorem grew_cond (env : Nat) (c : Ctx) : ∀ l, Grew (condClauses ev env c l)
  | [] => .pure _
  | d :: ds => by
    unfold condClauses
    split
    · exact .pure _
    · next h =>
      injection h with h1 h2
      subst h2
      refine .bind (hev _ _ _) fun v => ?_
      split
      · exact hev _ _ _
      · exact grew_cond env c ds
    · exact .fail

theorem grew_andOr (env : Nat) (c : Ctx) (isOr : Bool) : ∀ l last, Grew (andOr ev env c isOr last l)
  | [], _ => .pure _
  | e :: es, _ => by
    refine .bind (hev _ _ _) fun v => ?_
    split
    · exact .pure _
    · exact grew_andOr env c isOr es v

theorem grew_native (env : Nat) (n : Str) (args : List Value) : Grew (callNative P ev env n args) := by
  unfold callNative
  repeat' split
  all_goals first
    | exact hev _ _ _
    | exact .fail
    | exact grew_prim _ _ _
    | exact .bind (grew_look _ _) fun _ => .pure _
    | exact .bind (.mapM (fun _ => hev _ _ _) _) fun _ => .pure _
    | exact .bind (.mapM (fun _ => .bind (hev _ _ _) fun _ => .pure _) _) fun _ => .pure _
    | skip
  refine .bind (grew_look _ _) fun r => ?_
  split
  · exact .bind (grew_set _ _ _) fun _ => .pure _
  · exact .fail

theorem grew_call (env : Nat) (f : Value) (args : List Value) : Grew (call P tco ev env f args) := by
  unfold call
  split
  · exact grew_native hev _ _ _
  · exact .bind (grew_extend _ _) fun _ => grew_block hev _ _ _
  · exact .bind (grew_extend _ _) fun _ => grew_block hev _ _ _
  · exact .fail

theorem grew_tramp : ∀ k env v, Grew (tramp P tco ev k env v)
  | 0, _, _ => .stuck
  | k + 1, env, v => by
    cases v with
    | tail f args => exact .bind (grew_call hev _ _ _) fun v => grew_tramp k env v
    | _ => exact .pure _

theorem grew_form (k env : Nat) (c : Ctx) (F : Form) : Grew (evalForm P tco ev k env c F) := by
  cases F with
  | self v => exact .pure _
  | var s =>
    simp only [evalForm]
    refine .bind (grew_look _ _) fun r => ?_
    cases r
    · exact .fail
    · exact .pure _
  | bad => exact .fail
  | comma e => exact hev _ _ _
  | quote e => exact hev _ _ _
  | define s e => exact .bind (hev _ _ _) fun _ => .bind (grew_define _ _ _) fun _ => .pure _
  | set s e => exact .bind (hev _ _ _) fun _ => .bind (grew_set _ _ _) fun _ => .pure _
  | defun s f => exact .bind (grew_define _ _ _) fun _ => .pure _
  | lambda ps body => exact .pure _
  | letForm shell ds body =>
    simp only [evalForm]
    exact .bind (grew_extend _ _) fun _ => .bind (grew_decls hev _ _ _ _) fun _ => grew_block hev _ _ _
  | begin l => exact grew_block hev _ _ _
  | cond l => exact grew_cond hev _ _ _
  | when_ q body =>
    refine .bind (hev _ _ _) fun v => ?_
    split
    · exact grew_block hev _ _ _
    · exact .pure _
  | if_ q a b =>
    refine .bind (hev _ _ _) fun v => ?_
    split
    · exact hev _ _ _
    · cases b
      · exact .pure _
      · exact hev _ _ _
  | andOr isOr l => exact grew_andOr hev _ _ _ _ _
  | auto args => exact .bind (grew_note _ _) fun _ => .pure _
  | app f args =>
    refine .bind (hev _ _ _) fun fv => ?_
    have hap : ∀ args, Grew (applyCall P tco ev k env c fv args) := by
      intro args
      unfold applyCall
      split
      · exact .pure _
      · exact .bind (grew_call hev _ _ _) fun _ => grew_tramp hev _ _ _
    cases fv with
    | mac e ps body => exact .bind (grew_call hev _ _ _) fun _ => hev _ _ _
    | _ => exact .bind (.mapM (fun _ => hev _ _ _) _) fun _ => hap _

theorem grew_step (k env : Nat) (e : Value) (c : Ctx) : Grew (step P tco ev k env e c) := by
  unfold step
  split
  · split
    · split
      · exact grew_form hev _ _ _ _
      · exact .bind (.mapM (fun _ => hev _ _ _) _) fun _ => .pure _
    · exact .pure _
  · exact grew_form hev _ _ _ _
end

theorem grew_eval (P : Prims) (tco : Bool) : ∀ n env e c, Grew (eval P tco n env e c)
  | 0, _, _, _ => .stuck
  | n + 1, env, e, c => grew_step (grew_eval P tco n) n env e c

/-! ### Rolling back -/

/-- What the shell remembers: the fields of `Environment` (environment/mod.rs:75-103), the registered actions
and the variables of the process. -/
inductive Field where
  | alias | abbreviations | autocompletion | paths | variables | exportedVars | direnvRoots | chpwdHooks
  | mcpServers | mcpManager | executeAllowlist | systemEnvVars | inputPreferences | safetyLevel | commandCache
  | executableNames | outputHistory | aiService | zExclude | startupMode | secretManager | actions | processEnv
deriving DecidableEq

/-- The fields of `EnvironmentSnapshot` (lisp/mod.rs:42-60) that `restore_environment_snapshot`
(lisp/mod.rs:143-164) writes back, and what `run_config_lisp` restores besides (lisp/mod.rs:106-108, 132-137). -/
def restored : Field → Bool
  | .autocompletion => false
  | .chpwdHooks => false
  | .outputHistory => false
  | .aiService => false
  | _ => true

/-- The shell: the Lisp side and the fields, with values of any kind. -/
structure Shell (V : Type) where
  lisp : St
  field : Field → V

section
variable {V : Type}

/-- What running code does to the fields: every call of a native function (and every `autocomplete`) since
then has its effect on each. -/
def effects (E : Str × List Value → Field → V → V) (calls : List (Str × List Value)) (f : Field) (v : V) : V :=
  calls.foldl (fun v c => E c f v) v

/-- `Env::restore_entries` of the global scope (model/env.rs:93-95, lisp/mod.rs:132). -/
def restoreGlobals (old new : List Scope) : List Scope :=
  new.modify 0 (fun sc => { sc with vars := ((old[0]?).map Scope.vars).getD [] })

/-- `run_config_lisp` (lisp/mod.rs:95-141) once the file is read: `pre` stands for the changes in front
(lisp/mod.rs:110-116: startup mode, the MCP servers are cleared); success takes back startup mode only, an
error takes back everything restored.  What has been called stays called. -/
def configured (E : Str × List Value → Field → V → V) (pre : Field → V → V) (sh : Shell V) (r : R Value) : Option (Shell V) :=
  let now (st' : St) (f : Field) : V := effects E (st'.trace.drop sh.lisp.trace.length) f (pre f (sh.field f))
  match r with
  | .ok st' _ => some ⟨st', fun f => if f = .startupMode then sh.field f else now st' f⟩
  | .err st' => some ⟨{ st' with scopes := restoreGlobals sh.lisp.scopes st'.scopes },
      fun f => if restored f then sh.field f else now st' f⟩
  | _ => none

/-- **C88 (partial)**: after a configuration that fails, every alias, abbreviation, path, variable, preference
and so on is as before, and every global name means what it meant; the Lisp state is well formed.  Missing:
completions, and what the functions remember (below). -/
theorem C88_rollback_partial {P : Prims} (hP : PrimsInside P) {E : Str × List Value → Field → V → V} {pre : Field → V → V}
    {sh : Shell V} (hs : Sound sh.lisp) {sc : Scope} (h0 : sh.lisp.scopes[0]? = some sc) (hp : sc.parent = none)
    {e : Value} (hv : Inside sh.lisp.scopes.length e) {st' : St} (h : Ends P true sh.lisp 0 e (.err st'))
    {sh' : Shell V} (hc : configured E pre sh (.err st') = some sh') :
    (∀ f, f ≠ .autocompletion → f ≠ .chpwdHooks → f ≠ .outputHistory → f ≠ .aiService → sh'.field f = sh.field f) ∧
      (∀ k, get sh'.lisp.scopes 0 k = get sh.lisp.scopes 0 k) ∧ Sound sh'.lisp := by
  simp only [configured, Option.some.injEq] at hc
  subst hc
  have hlen : 0 < sh.lisp.scopes.length := (List.getElem?_eq_some_iff.1 h0).1
  obtain ⟨hs', hch, _⟩ := C27_eval_scopes hP hs hlen hv h rfl
  have hc0 := hch 0 _ (.top h0 hp)
  obtain ⟨n, hr, hd⟩ : ∃ n, R.err st' ≠ (.out : R Value) ∧ eval P true n 0 e .new sh.lisp = .err st' := by
    obtain ⟨hr, n, hn⟩ := h
    exact ⟨n, hr, hn⟩
  have hk := eval_keeps hP true n sh.lisp.scopes.length 0 e .new hlen hv sh.lisp (Nat.le_refl _) hs
  rw [hd] at hk
  have hgrow : sh.lisp.scopes.length ≤ st'.scopes.length := hk.2.le
  obtain ⟨sc', h1⟩ : ∃ sc', st'.scopes[0]? = some sc' := ⟨st'.scopes[0], List.getElem?_eq_getElem (by omega)⟩
  have hp' : sc'.parent = none := by
    have := (hk.2 0 hlen).2
    rw [h0, h1] at this
    simpa [hp] using this
  refine ⟨?_, ?_, ?_, ?_⟩
  · intro f a b c d
    have : restored f = true := by cases f <;> simp_all [restored]
    simp only [this, if_true]
  · intro k
    have e1 : (restoreGlobals sh.lisp.scopes st'.scopes)[0]? = some { sc' with vars := sc.vars } := by
      simp [restoreGlobals, h1, h0]
    simp only [get, getGo, e1, h0, hp, hp']
  · intro i sci p hi hpar
    simp only [restoreGlobals, List.getElem?_modify] at hi
    cases hq : st'.scopes[i]? with
    | none => rw [hq] at hi; simp at hi
    | some s =>
      rw [hq] at hi
      simp only [Option.map_eq_map, Option.map_some, Option.some.injEq] at hi
      have : sci.parent = s.parent := by
        rw [← hi]
        by_cases h : 0 = i <;> simp [h]
      exact hs'.1 i s p hq (by rw [← this]; exact hpar)
  · intro s hmem p hp
    obtain ⟨i, hi⟩ := List.mem_iff_getElem?.1 hmem
    have hl : (restoreGlobals sh.lisp.scopes st'.scopes).length = st'.scopes.length := by simp [restoreGlobals]
    show Inside (restoreGlobals sh.lisp.scopes st'.scopes).length p.2
    rw [hl]
    simp only [restoreGlobals, List.getElem?_modify] at hi
    cases hq : st'.scopes[i]? with
    | none => rw [hq] at hi; simp at hi
    | some s' =>
      rw [hq] at hi
      simp only [Option.map_eq_map, Option.map_some, Option.some.injEq] at hi
      by_cases h : 0 = i
      · subst h
        simp only [if_true, h0, Option.map_some, Option.getD_some] at hi
        subst hi
        exact (hs.2 sc (List.mem_of_getElem? h0) p hp).mono hgrow
      · simp only [h, if_false] at hi
        subst hi
        exact hs'.2 s' (List.mem_of_getElem? hq) p hp

/-- The effect of `autocomplete` on the completions: one more. -/
def addsCompletion (c : Str × List Value) (f : Field) (v : List (List Value)) : List (List Value) :=
  if f = .autocompletion ∧ c.1 = c!"autocomplete" then v ++ [c.2] else v

/-- C88 is false of completions: whatever a configuration does after defining one and however it fails, the
completion stays. -/
theorem C88_completion_violated {P : Prims} {sh : Shell (List (List Value))} (name : Str) (cand : Value) (rest : List Value)
    {st' : St}
    (h : Ends P true sh.lisp 0 (.list (.sym c!"begin" :: .list [.sym c!"autocomplete", .sym name, cand] :: rest)) (.err st')) :
    ∃ sh', configured addsCompletion (fun _ v => v) sh (.err st') = some sh' ∧
      sh'.field .autocompletion ≠ sh.field .autocompletion := by
  have hpre : sh.lisp.trace ++ [(c!"autocomplete", [.sym name, cand])] <+: st'.trace := by
    obtain ⟨_, n, hn⟩ := h
    cases n with
    | zero => simp [eval, M.stuck] at hn
    | succ n =>
      rw [eval_form rfl (F := .begin (.list [.sym c!"autocomplete", .sym name, cand] :: rest)) rfl] at hn
      simp only [evalForm] at hn
      cases n with
      | zero =>
        cases rest with
        | nil => simp [block, eval, M.stuck] at hn
        | cons r rest => simp [block, eval, M.stuck, M.bind] at hn
      | succ n =>
        have ha : ∀ c : Ctx, c.quoting = false → eval P true (n + 1) 0 (.list [.sym c!"autocomplete", .sym name, cand]) c sh.lisp =
            .ok { sh.lisp with trace := sh.lisp.trace ++ [(c!"autocomplete", [.sym name, cand])] } (.list []) := by
          intro c hq
          rw [eval_form hq (F := .auto [.sym name, cand]) rfl]
          rfl
        cases rest with
        | nil => simp only [block, ha .new rfl] at hn; simp at hn
        | cons r rest =>
          simp only [block, M.bind, ha (Ctx.past .new) rfl] at hn
          exact grew_block (grew_eval P true (n + 1)) 0 .new (r :: rest) _ st' (by rw [hn]; rfl)
  refine ⟨_, rfl, ?_⟩
  obtain ⟨t, ht⟩ := hpre
  have hd : st'.trace.drop sh.lisp.trace.length = (c!"autocomplete", [.sym name, cand]) :: t := by
    rw [← ht, List.append_assoc, List.drop_left]
    rfl
  simp only [restored, Bool.false_eq_true, if_false, hd, effects, List.foldl_cons]
  have hmono : ∀ (l : List (Str × List Value)) (v : List (List Value)),
      v.length ≤ (l.foldl (fun v c => addsCompletion c .autocompletion v) v).length := by
    intro l
    induction l with
    | nil => intro v; simp
    | cons c l ih =>
      intro v
      rw [List.foldl_cons]
      refine Nat.le_trans ?_ (ih _)
      simp only [addsCompletion]
      split <;> simp
  intro heq
  have := hmono t (addsCompletion (c!"autocomplete", [.sym name, cand]) .autocompletion (sh.field .autocompletion))
  rw [heq] at this
  simp [addsCompletion] at this
  omega

end

/-- The configuration `(begin (autocomplete git "git-x") (boom))`, with `boom` unknown. -/
def exFailing : Value :=
  .list [.sym c!"begin", .list [.sym c!"autocomplete", .sym c!"git", .str c!"git-x"], .list [.sym c!"boom"]]

example : ∃ sh', configured addsCompletion (fun _ v => v) ⟨exSt, fun _ => []⟩ (eval exPrims true 20 0 exFailing .new exSt) = some sh' ∧
    sh'.field .autocompletion ≠ [] := by
  have h : eval exPrims true 20 0 exFailing .new exSt = .err { exSt with trace := [(c!"autocomplete", [.sym c!"git", .str c!"git-x"])] } := by
    decide +kernel
  rw [h]
  exact C88_completion_violated (P := exPrims) (sh := ⟨exSt, fun _ => []⟩) c!"git" (.str c!"git-x") [.list [.sym c!"boom"]]
    ⟨by simp, 20, h⟩

/-- And the hypotheses of `C88_rollback_partial` hold of it. -/
example : ∀ k, ∃ sh', configured addsCompletion (fun _ v => v) ⟨exSt, fun _ => []⟩
    (.err { exSt with trace := [(c!"autocomplete", [.sym c!"git", .str c!"git-x"])] }) = some sh' ∧
      get sh'.lisp.scopes 0 k = get exSt.scopes 0 k := by
  intro k
  refine ⟨_, rfl, ?_⟩
  have h : eval exPrims true 20 0 exFailing .new exSt = .err { exSt with trace := [(c!"autocomplete", [.sym c!"git", .str c!"git-x"])] } := by
    decide +kernel
  exact (C88_rollback_partial (V := List (List Value)) (E := addsCompletion) (pre := fun _ v => v) (sh := ⟨exSt, fun _ => []⟩)
    exPrims_inside exSt_sound (sc := exSt.scopes.head (by decide)) rfl rfl
    (by simp [exFailing, Inside, InsideL]) ⟨by simp, 20, h⟩ rfl).2.1 k

/-- C88 is false of what functions remember: a counter that counts during a configuration that fails goes on
from there. -/
theorem C88_closure_violated : ∃ (st₁ st₂ st₃ st₄ : St),
    Ends exPrims true exSt 0 (.list [.sym c!"define", .sym c!"next",
      .list [.sym c!"let", .list [.list [.sym c!"n", .int 0]],
        .list [.sym c!"lambda", .list [], .list [.sym c!"set", .sym c!"n", .list [.sym c!"+", .sym c!"n", .int 1]]]]])
      (.ok st₁ (.lam 1 [] [.list [.sym c!"set", .sym c!"n", .list [.sym c!"+", .sym c!"n", .int 1]]])) ∧
    Ends exPrims true st₁ 0 (.list [.sym c!"next"]) (.ok st₂ (.int 1)) ∧
    Ends exPrims true st₁ 0 (.list [.sym c!"begin", .list [.sym c!"next"], .list [.sym c!"boom"]]) (.err st₃) ∧
    ∃ sh', configured addsCompletion (fun _ v => v) ⟨st₁, fun _ => []⟩ (.err st₃) = some sh' ∧
      Ends exPrims true sh'.lisp 0 (.list [.sym c!"next"]) (.ok st₄ (.int 2)) := by
  let e₁ : Value := .list [.sym c!"define", .sym c!"next",
      .list [.sym c!"let", .list [.list [.sym c!"n", .int 0]],
        .list [.sym c!"lambda", .list [], .list [.sym c!"set", .sym c!"n", .list [.sym c!"+", .sym c!"n", .int 1]]]]]
  let s₁ := (eval exPrims true 20 0 e₁ .new exSt).state.getD exSt
  let s₂ := (eval exPrims true 20 0 (.list [.sym c!"next"]) .new s₁).state.getD exSt
  let s₃ := (eval exPrims true 20 0 (.list [.sym c!"begin", .list [.sym c!"next"], .list [.sym c!"boom"]]) .new s₁).state.getD exSt
  let s₃' : St := { s₃ with scopes := restoreGlobals s₁.scopes s₃.scopes }
  let s₄ := (eval exPrims true 20 0 (.list [.sym c!"next"]) .new s₃').state.getD exSt
  refine ⟨s₁, s₂, s₃, s₄, ⟨by simp, 20, by decide +kernel⟩, ⟨by simp, 20, by decide +kernel⟩, ⟨by simp, 20, by decide +kernel⟩,
    _, rfl, ⟨by simp, 20, by decide +kernel⟩⟩

end Dsh.Lisp
