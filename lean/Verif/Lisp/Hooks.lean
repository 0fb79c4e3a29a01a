import Verif.Lisp.EvalProps
import Verif.Lisp.Natives
/-!
C87: hooks get the text of the command, and it is never run as code (dsh/src/shell/hooks.rs,
dsh/src/proxy/mod.rs).
-/
namespace Dsh.Lisp

/-! ### The code that is run for a hook -/

/-- A text argument (shell/hooks.rs:104-107, proxy/mod.rs:242-246): quotes are escaped, though the reader knows
no escapes. -/
def quoteArg (a : Str) : Str := '"' :: replaceChar '"' c!"\\\"" a ++ ['"']

/-- The code for hooks with at least one argument: `exec_pre_exec_hooks` (shell/hooks.rs:94-113, the command),
`exec_post_exec_hooks` (shell/hooks.rs:116-136, the command and its status), `exec_completion_hooks`
(shell/hooks.rs:173-193, the line and the place of the cursor), `run_hook` (proxy/mod.rs:229-255, texts).  The
code of the project and not-found hooks puts the same call into other forms. -/
def hookText (var : Str) (texts : List Str) (nums : List Int) : Str :=
  c!"(map (lambda (hook) (hook" ++ (texts.map quoteArg ++ nums.map intText).flatMap (' ' :: ·) ++ c!")) " ++ var ++ c!")"

/-- The code a hook with these arguments should be: call every function of the list with them. -/
def hookForm (var : Str) (args : List Value) : Value :=
  .list [.sym c!"map", .list [.sym c!"lambda", .list [.sym c!"hook"], .list (.sym c!"hook" :: args)], .sym var]

/-! ### Reading pieces of text -/

inductive All2 {α β : Type} (R : α → β → Prop) : List α → List β → Prop where
  | nil : All2 R [] []
  | cons {a : α} {b : β} {l : List α} {m : List β} : R a b → All2 R l m → All2 R (a :: l) (b :: m)

/-- Wherever a word may end, this text is read as this value. -/
structure Reads (U : Uni) (t : Str) (v : Value) : Prop where
  solid : Solid t
  read : ∀ rest, isBreak rest = true → ∃ n, parseExpr U n (some (t ++ rest)) = .ok v (some rest)

theorem Solid.append {t : Str} (h : Solid t) (s : Str) : Solid (t ++ s) := by
  obtain ⟨c, t, rfl, h⟩ := h
  exact ⟨c, t ++ s, rfl, h⟩

theorem Reads.sym (U : Uni) {s : Str} (h : GoodSym U s) : Reads U s (.sym s) := by
  refine ⟨?_, fun rest hr => ⟨1, parseExpr_sym U h hr 0⟩⟩
  cases hs : s with
  | nil => exact absurd hs h.ne
  | cons c t =>
    have hc := h.chars
    rw [hs, List.all_cons, Bool.and_eq_true] at hc
    exact ⟨c, t, rfl, (symbolic_solid hc.1).1, (symbolic_solid hc.1).2.1⟩

theorem Reads.str (U : Uni) {x : Str} (h : Plain x) : Reads U ('"' :: x ++ ['"']) (.str x) := by
  refine ⟨⟨'"', x ++ ['"'], rfl, by decide⟩, fun rest _ => ⟨1, ?_⟩⟩
  have := parseExpr_plain U (rest := rest) h 0
  simpa using this

theorem Reads.print (U : Uni) {v : Value} (h : Readable U v) : Reads U (print v) v := by
  refine ⟨by simpa using print_solid U v h [] rfl, fun rest hr => read_print U v h rest hr⟩

theorem Reads.int (U : Uni) {i : Int} (h : I64 i) : Reads U (intText i) (.int i) :=
  Reads.print U (v := .int i) (by simpa [Readable, I64] using h)

/-- The members behind the first. -/
theorem Reads.members (U : Uni) : ∀ {ts : List Str} {vs : List Value}, All2 (Reads U) ts vs → ∀ (rest : Str) (ws : List Value),
    ∃ n, parseMembers U n (skip (some (ts.flatMap (' ' :: ·) ++ ')' :: rest))) ws = .ok (.list (ws ++ vs)) (some rest) := by
  intro ts vs h
  induction h with
  | nil =>
    intro rest ws
    refine ⟨2, ?_⟩
    rw [List.flatMap_nil, List.nil_append, skip_some_of_not _ (head_solid (by decide)), members_close]
    simp
  | @cons t v ts vs ht _ ih =>
    intro rest ws
    have hb : isBreak (ts.flatMap (' ' :: ·) ++ ')' :: rest) = true := by
      cases ts with
      | nil => rfl
      | cons a l => rfl
    obtain ⟨n, hn⟩ := ht.read _ hb
    obtain ⟨m, hm⟩ := ih rest (ws ++ [v])
    refine ⟨max n m + 1, ?_⟩
    have hs : skip (some ((t :: ts).flatMap (' ' :: ·) ++ ')' :: rest)) =
        some (t ++ (ts.flatMap (' ' :: ·) ++ ')' :: rest)) := by
      have := skip_blank (pre := [' ']) (s := t ++ (ts.flatMap (' ' :: ·) ++ ')' :: rest)) (by decide) (ht.solid.append _).head
      simpa using this
    have hp : parseExpr U (max n m) (some (t ++ (ts.flatMap (' ' :: ·) ++ ')' :: rest))) = .ok v (some (ts.flatMap (' ' :: ·) ++ ')' :: rest)) := by
      rw [parseExpr_mono U (Nat.le_max_left n m) (by rw [hn]; simp), hn]
    rw [hs, members_step U hp, parseMembers_mono U (Nat.le_max_right n m) (by rw [hm]; simp), hm]
    simp

/-- A list whose members are one blank apart. -/
theorem Reads.list (U : Uni) {t : Str} {v : Value} {ts : List Str} {vs : List Value} (ht : Reads U t v)
    (h : All2 (Reads U) ts vs) : Reads U ('(' :: t ++ ts.flatMap (' ' :: ·) ++ [')']) (.list (v :: vs)) := by
  refine ⟨⟨'(', t ++ ts.flatMap (' ' :: ·) ++ [')'], rfl, by decide⟩, fun rest _ => ?_⟩
  have hb : isBreak (ts.flatMap (' ' :: ·) ++ ')' :: rest) = true := by
    cases ts with
    | nil => rfl
    | cons a l => rfl
  obtain ⟨n, hn⟩ := ht.read _ hb
  obtain ⟨m, hm⟩ := Reads.members U h rest [v]
  refine ⟨max n m + 2, ?_⟩
  have he : '(' :: t ++ ts.flatMap (' ' :: ·) ++ [')'] ++ rest = '(' :: (t ++ (ts.flatMap (' ' :: ·) ++ ')' :: rest)) := by simp
  have hs : skip (some (t ++ (ts.flatMap (' ' :: ·) ++ ')' :: rest))) = some (t ++ (ts.flatMap (' ' :: ·) ++ ')' :: rest)) :=
    skip_some_of_not _ (ht.solid.append _).head
  have hp : parseExpr U (max n m) (some (t ++ (ts.flatMap (' ' :: ·) ++ ')' :: rest))) = .ok v (some (ts.flatMap (' ' :: ·) ++ ')' :: rest)) := by
    rw [parseExpr_mono U (Nat.le_max_left n m) (by rw [hn]; simp), hn]
  rw [he, parseExpr.eq_def]
  simp only [Cur.text, Option.getD_some]
  rw [hs, members_step U hp, List.nil_append, parseMembers_mono U (Nat.le_max_right n m) (by rw [hm]; simp), hm]
  simp

theorem Reads.readsAs {U : Uni} {t : Str} {v : Value} (h : Reads U t v) : ReadsAs U t v := by
  obtain ⟨n, hn⟩ := h.read [] rfl
  refine readsAs_of U (n := n) ?_
  unfold readFirst
  rw [skip_some_of_not _ h.solid.head]
  rw [List.append_nil] at hn
  rw [hn]

theorem goodSym_ascii (U : Uni) {s : Str}
    (h : s ≠ [] ∧ s.all (fun c => symbolic c && decide (c.toNat < 128)) = true ∧
      (∀ c, s.head? = some c → c.isDigit = false ∧ c ≠ '-' ∧ c ≠ '"') ∧ s.map Char.toLower ∉ [c!"nil", c!"t", c!"f"]) :
    GoodSym U s := by
  obtain ⟨h1, h2, h3, h4⟩ := h
  simp only [List.all_eq_true, Bool.and_eq_true, decide_eq_true_eq] at h2
  refine ⟨h1, ?_, ?_, ?_, h4, ?_, ?_⟩
  · rw [List.all_eq_true]; exact fun c hc => (h2 c hc).1
  · intro c hc
    have := h2 c (List.mem_of_mem_head? hc)
    simp [isNumeric, this.2, (h3 c hc).1]
  · intro c hc
    have := h2 c (List.mem_of_getLast? hc)
    simp [oneByte, this.2]
  · intro c t e
    subst e
    exact absurd rfl (h3 '-' rfl).2.1
  · intro t e
    subst e
    exact absurd rfl (h3 '"' rfl).2.2

/-- The text made of pieces of code is read as the call of the hooks with the values of the pieces. -/
theorem reads_hook (U : Uni) {var : Str} (hv : GoodSym U var) {ts : List Str} {vs : List Value} (h : All2 (Reads U) ts vs) :
    ReadsAs U (c!"(map (lambda (hook) (hook" ++ ts.flatMap (' ' :: ·) ++ c!")) " ++ var ++ c!")") (hookForm var vs) := by
  have hk : Reads U c!"hook" (.sym c!"hook") := .sym U (goodSym_ascii U (by decide))
  have h1 := Reads.list U hk h
  have h2 := Reads.list U hk (ts := []) (vs := []) .nil
  have h3 := Reads.list U (.sym U (goodSym_ascii U (s := c!"lambda") (by decide))) (.cons h2 (.cons h1 .nil))
  have h4 := Reads.list U (.sym U (goodSym_ascii U (s := c!"map") (by decide))) (.cons h3 (.cons (.sym U hv) .nil))
  have := h4.readsAs
  simpa [hookForm] using this

theorem replaceChar_of {a : Char} {w s : Str} (h : a ∉ s) : replaceChar a w s = s := by
  induction s with
  | nil => rfl
  | cons d s ih =>
    simp only [List.mem_cons, not_or] at h
    simp only [replaceChar, List.flatMap_cons] at ih ⊢
    rw [if_neg (Ne.symm h.1), ih h.2]
    rfl

theorem forall2_append {α β : Type} {R : α → β → Prop} {a c : List α} {b d : List β} (h : All2 R a b)
    (h' : All2 R c d) : All2 R (a ++ c) (b ++ d) := by
  induction h with
  | nil => exact h'
  | cons h _ ih => exact .cons h ih

theorem forall2_map {α β γ : Type} {R : β → γ → Prop} {f : α → β} {g : α → γ} : ∀ {l : List α},
    (∀ a ∈ l, R (f a) (g a)) → All2 R (l.map f) (l.map g)
  | [], _ => .nil
  | a :: _, h => .cons (h a (by simp)) (forall2_map fun b hb => h b (by simp [hb]))

/-- **C87 (partial: reading)**: the code made for a hook is the call of every function of the list with
exactly these texts **exactly when** every text is non-empty, has no double quote and ends in an ASCII character. -/
theorem C87_hook_read_partial (U : Uni) {var : Str} (hvar : GoodSym U var) (texts : List Str) {nums : List Int}
    (hn : ∀ i ∈ nums, I64 i) :
    ReadsAs U (hookText var texts nums) (hookForm var (texts.map .str ++ nums.map .int)) ↔
      ∀ t ∈ texts, t ≠ [] ∧ '"' ∉ t ∧ ∀ l, t.getLast? = some l → l.toNat < 128 := by
  constructor
  · rintro ⟨n, h⟩ t ht
    have hs : t ∈ strings (hookForm var (texts.map .str ++ nums.map .int)) := by
      have : ∀ (l : List Str) (r : List Value), t ∈ l → t ∈ stringsL (l.map .str ++ r) := by
        intro l
        induction l with
        | nil => simp
        | cons a l ih =>
          intro r h
          simp only [List.map_cons, List.cons_append, stringsL, strings, List.mem_cons, List.nil_append]
          rcases List.mem_cons.1 h with h | h
          · exact Or.inl h
          · exact Or.inr (ih r h)
      simp only [hookForm, strings, stringsL, List.mem_append]
      right; left; right; right; left; right
      exact this texts _ ht
    obtain ⟨h1, h2, h3⟩ := readFirst_strings U (h n (Nat.le_refl _)) t hs
    exact ⟨h1, h2, fun l hl => by simpa [oneByte] using h3 l hl⟩
  · intro h
    refine reads_hook U hvar (forall2_append (forall2_map fun t ht => ?_) (forall2_map fun i hi => Reads.int U (hn i hi)))
    obtain ⟨h1, h2, h3⟩ := h t ht
    have := Reads.str U (x := t) ⟨h1, h2, fun c hc => by simpa [oneByte] using h3 c hc⟩
    simpa [quoteArg, replaceChar_of h2] using this

theorem goodSym_pre (U : Uni) : GoodSym U c!"*pre-exec-hooks*" := goodSym_ascii U (by decide)
theorem goodSym_post (U : Uni) : GoodSym U c!"*post-exec-hooks*" := goodSym_ascii U (by decide)

example (U : Uni) : ReadsAs U c!"(map (lambda (hook) (hook \"ls -l\" 127)) *post-exec-hooks*)"
    (hookForm c!"*post-exec-hooks*" [.str c!"ls -l", .int 127]) :=
  (C87_hook_read_partial U (goodSym_post U) [c!"ls -l"] (nums := [127]) (by decide)).2 (by decide)

theorem replaceChar_append (a : Char) (w s t : Str) : replaceChar a w (s ++ t) = replaceChar a w s ++ replaceChar a w t := by
  simp [replaceChar]

/-- C87 is false of commands with quotes: whatever is between them is code and is evaluated as an argument of
the hook. -/
theorem C87_code_violated (U : Uni) {var : Str} (hvar : GoodSym U var) {v : Value} (hv : Readable U v) (hq : '"' ∉ print v) :
    ReadsAs U (hookText var [c!"echo \" " ++ print v ++ c!" \""] [])
      (hookForm var [.str c!"echo \\", v, .sym c!"\\\"\""]) := by
  have h := reads_hook U hvar (.cons (Reads.str U (x := c!"echo \\") ⟨by decide, by decide, by decide⟩)
    (.cons (Reads.print U hv) (.cons (Reads.sym U (goodSym_ascii U (s := c!"\\\"\"") (by decide))) .nil)))
  have e : hookText var [c!"echo \" " ++ print v ++ c!" \""] [] = c!"(map (lambda (hook) (hook" ++
      ([c!"\"echo \\\"", print v, c!"\\\"\""] : List Str).flatMap (' ' :: ·) ++ c!")) " ++ var ++ c!")" := by
    simp only [hookText, quoteArg, List.map_cons, List.map_nil, replaceChar_append, replaceChar_of hq]
    simp [replaceChar]
  rw [e]
  exact h

/-! ### Running the code -/

/-- A value that stands for itself, and is neither a macro nor a call still to be made. -/
def Const : Value → Prop
  | .str _ => True
  | .int _ => True
  | _ => False

/-- A function. -/
def IsFn : Value → Prop
  | .native _ => True
  | .lam _ _ _ => True
  | _ => False

/-- The state in which a hook is called: there is a scope with the name `hook` more. -/
def hookSt (st : St) (h : Value) : St := { st with scopes := (extend st.scopes 0 [(c!"hook", h)]).2 }

/-- The hooks are called one after the other with these arguments, all without an error. -/
inductive Called (P : Prims) (args : List Value) : St → List Value → St → Prop where
  | none (st : St) : Called P args st [] st
  | one {st st' st'' : St} {h v : Value} {hs : List Value} :
    CallEnds P (hookSt st h) 0 h args (.ok st' v) → Called P args st' hs st'' → Called P args st (h :: hs) st''

section
variable {P : Prims}

theorem eval_const {n env : Nat} {v : Value} {c : Ctx} (hv : Const v) (st : St) : eval P true (n + 1) env v c st = .ok st v := by
  cases v <;> simp only [Const] at hv
  all_goals
    show step P true (eval P true n) n env _ c st = _
    unfold step
    split <;> rfl

theorem mapM_const {n env : Nat} {c : Ctx} : ∀ {l : List Value}, (∀ v ∈ l, Const v) → ∀ st,
    M.mapM (fun a => eval P true (n + 1) env a c) l st = .ok st l
  | [], _, _ => rfl
  | v :: l, h, st => by
    have ih := mapM_const (n := n) (env := env) (c := c) (l := l) (fun w hw => h w (by simp [hw])) st
    simp only [M.mapM, M.bind, eval_const (h v (by simp)) st, ih, M.pure]

/-- Calling one hook. -/
theorem eval_hook {args : List Value} (ha : ∀ v ∈ args, Const v) {h : Value} (hf : IsFn h) {st st' : St} {v : Value}
    (hc : CallEnds P (hookSt st h) 0 h args (.ok st' v)) :
    ∃ N, ∀ n, N ≤ n → eval P true n 0
      (.list [.lam 0 [c!"hook"] [.list (.sym c!"hook" :: args)], .list [.sym c!"quote", h]]) .new st = .ok st' v := by
  obtain ⟨_, n₀, hn₀⟩ := hc
  refine ⟨n₀ + 5, fun n hn => ?_⟩
  obtain ⟨m, rfl⟩ : ∃ m, n = m + 4 := ⟨n - 4, by omega⟩
  have hm : n₀ ≤ m := by omega
  have hcl : classify (.list [.lam 0 [c!"hook"] [.list (.sym c!"hook" :: args)], .list [.sym c!"quote", h]]) =
      .app (.lam 0 [c!"hook"] [.list (.sym c!"hook" :: args)]) [.list [.sym c!"quote", h]] := rfl
  have hlam : eval P true (m + 3) 0 (.lam 0 [c!"hook"] [.list (.sym c!"hook" :: args)]) Ctx.new.past st =
      .ok st (.lam 0 [c!"hook"] [.list (.sym c!"hook" :: args)]) := by
    rw [eval_form rfl rfl]; rfl
  have hq : eval P true (m + 3) 0 (.list [.sym c!"quote", h]) Ctx.new.past st = .ok st h := by
    rw [eval_form rfl (show classify (.list [.sym c!"quote", h]) = .quote h from rfl)]
    show eval P true (m + 2) 0 h _ st = _
    show step P true (eval P true (m + 1)) (m + 1) 0 h _ st = _
    unfold step
    cases h <;> simp only [IsFn] at hf <;> rfl
  have hbody : eval P true (m + 3) st.scopes.length (.list (.sym c!"hook" :: args)) ⟨false, true, false⟩ (hookSt st h) =
      .ok (hookSt st h) (.tail h args) := by
    rw [eval_form rfl (show classify (.list (.sym c!"hook" :: args)) = .app (.sym c!"hook") args from rfl)]
    have hg : get (hookSt st h).scopes st.scopes.length c!"hook" = some h := by
      simp [get, getGo, hookSt, extend]
    simp only [evalForm, M.bind]
    rw [eval_sym rfl hg]
    have hm := mapM_const (P := P) (n := m + 1) (env := st.scopes.length) (c := Ctx.past ⟨false, true, false⟩) ha (hookSt st h)
    cases h <;> simp only [IsFn] at hf <;> simp only [M.bind, hm] <;> rfl
  rw [eval_form rfl hcl]
  simp only [evalForm, M.bind, hlam, M.mapM, hq, M.pure, applyCall]
  have ht : Ctx.new.tail = false := rfl
  rw [ht]
  simp only [Bool.false_eq_true, if_false, M.bind, call, extendM, block]
  have hx : (extend st.scopes 0 (bindArgs [c!"hook"] [h] [])) = (st.scopes.length, (hookSt st h).scopes) := rfl
  rw [hx]
  have hy : ({ st with scopes := (st.scopes.length, (hookSt st h).scopes).2 } : St) = hookSt st h := rfl
  rw [hy, hbody]
  simp only [tramp]
  have hle : Le (M.bind (call P true (eval P true n₀) 0 h args) (tramp P true (eval P true n₀) n₀ 0))
      (M.bind (call P true (eval P true (m + 3)) 0 h args) (tramp P true (eval P true (m + 3)) (m + 2) 0)) :=
    Le.bind (call_le (eval_le P true n₀ (m + 3) (by omega)) 0 h args) fun v =>
      tramp_le (eval_le P true n₀ (m + 3) (by omega)) n₀ (m + 2) (by omega) 0 v
  rw [hle _ (by rw [hn₀]; simp), hn₀]

/-- **C87 (partial: running)**: the code read for a hook calls every function of the list, in order, with
exactly the arguments. -/
theorem C87_hooks_called_partial {args : List Value} (ha : ∀ v ∈ args, Const v) {var : Str} {hs : List Value} (hf : ∀ h ∈ hs, IsFn h)
    {st st' : St} {sc : Scope} (h0 : st.scopes[0]? = some sc) (hmap : sc.vars.lookup c!"map" = some (.native c!"map"))
    (hvar : sc.vars.lookup var = some (.list hs)) (hc : Called P args st hs st') :
    ∃ v, Ends P true st 0 (hookForm var args) (.ok st' v) := by
  have hall : ∃ N vs, ∀ n, N ≤ n → M.mapM (fun v => eval P true n 0
      (.list [.lam 0 [c!"hook"] [.list (.sym c!"hook" :: args)], .list [.sym c!"quote", v]]) .new) hs st = .ok st' vs := by
    clear hvar h0
    induction hc with
    | none st => exact ⟨0, [], fun _ _ => rfl⟩
    | @one st st₁ st₂ h v hs h1 _ ih =>
      obtain ⟨N, hN⟩ := eval_hook ha (hf h (by simp)) h1
      obtain ⟨K, vs, hM⟩ := ih (fun h hh => hf h (by simp [hh]))
      refine ⟨max N K, v :: vs, fun n hn => ?_⟩
      simp only [M.mapM, M.bind, hN n (by omega), hM n (by omega), M.pure]
  obtain ⟨N, vs, hN⟩ := hall
  refine ⟨.list vs, by simp, N + 3, ?_⟩
  have hg : ∀ {k : Str} {v : Value}, sc.vars.lookup k = some v → get st.scopes 0 k = some v := by
    intro k v h
    simp [get, getGo, h0, h]
  have hcl : classify (hookForm var args) = .app (.sym c!"map")
      [.list [.sym c!"lambda", .list [.sym c!"hook"], .list (.sym c!"hook" :: args)], .sym var] := rfl
  have hl : eval P true (N + 2) 0 (.list [.sym c!"lambda", .list [.sym c!"hook"], .list (.sym c!"hook" :: args)]) Ctx.new.past st =
      .ok st (.lam 0 [c!"hook"] [.list (.sym c!"hook" :: args)]) := by
    rw [eval_form rfl (F := .lambda [c!"hook"] [.list (.sym c!"hook" :: args)]) rfl]
    rfl
  rw [eval_form rfl hcl]
  simp only [evalForm, M.bind, eval_sym (c := Ctx.new.past) rfl (hg hmap), M.mapM, hl,
    eval_sym (c := Ctx.new.past) rfl (hg hvar), M.pure, applyCall]
  have ht : Ctx.new.tail = false := rfl
  rw [ht]
  simp only [Bool.false_eq_true, if_false, M.bind, call]
  have hcn : callNative P (eval P true (N + 2)) 0 c!"map" [.lam 0 [c!"hook"] [.list (.sym c!"hook" :: args)], .list hs] st =
      .ok st' (.list vs) := by
    have : callNative P (eval P true (N + 2)) 0 c!"map" [.lam 0 [c!"hook"] [.list (.sym c!"hook" :: args)], .list hs] =
        .bind (M.mapM (fun v => eval P true (N + 2) 0 (.list [.lam 0 [c!"hook"] [.list (.sym c!"hook" :: args)], .list [.sym c!"quote", v]]) .new) hs)
          fun vs => .pure (.list vs) := rfl
    rw [this]
    simp only [M.bind, hN (N + 2) (by omega), M.pure]
  rw [hcn]
  rfl

end

/-- A shell with the pre-exec hook `log`. -/
def hookedSt : St :=
  ⟨[⟨none, (c!"*pre-exec-hooks*", .list [.native c!"log"]) :: (exGlobals ++ [c!"log"]).map (fun n => (n, .native n))⟩], []⟩

/-- Its native functions: `log` and `sh` always succeed. -/
def hookedPrims : Prims := fun n _ _ => if n = c!"log" ∨ n = c!"sh" then .val .nil else .err

/-- The hook gets the command. -/
example : ∃ st', (∃ v, Ends hookedPrims true hookedSt 0 (hookForm c!"*pre-exec-hooks*" [.str c!"ls -l"]) (.ok st' v)) ∧
    st'.trace = [(c!"log", [.str c!"ls -l"])] := by
  refine ⟨_, C87_hooks_called_partial (sc := hookedSt.scopes.head (by decide)) (hs := [.native c!"log"])
    (by simp [Const]) (by simp [IsFn]) rfl (by decide) (by decide) (.one ⟨by simp, 1, rfl⟩ (.none _)), ?_⟩
  decide

/-- C87 is false: with any pre-exec hook, the command `echo " (sh (quote reboot)) "` runs `reboot` — before
the command is run, and the hook never gets its text. -/
theorem C87_runs_violated (U : Uni) : ∃ e st',
    ReadsAs U (hookText c!"*pre-exec-hooks*" [c!"echo \" (sh (quote reboot)) \""] []) e ∧
    Ends hookedPrims true hookedSt 0 e (.err st') ∧ st'.trace = [(c!"sh", [.sym c!"reboot"])] := by
  have hs : ∀ s ∈ [c!"sh", c!"quote", c!"reboot"], GoodSym U s := by
    intro s hs
    apply goodSym_ascii
    revert s
    decide
  have h := C87_code_violated U (goodSym_pre U) (v := .list [.sym c!"sh", .list [.sym c!"quote", .sym c!"reboot"]])
    (by simp only [Readable, ReadableL, and_true]; exact ⟨hs _ (by simp), hs _ (by simp), hs _ (by simp)⟩) (by decide)
  refine ⟨_, (eval hookedPrims true 20 0 (hookForm c!"*pre-exec-hooks*" [.str c!"echo \\",
    .list [.sym c!"sh", .list [.sym c!"quote", .sym c!"reboot"]], .sym c!"\\\"\""]) .new hookedSt).state.getD hookedSt, h, ⟨by simp, 20, ?_⟩, ?_⟩
  · decide +kernel
  · decide +kernel

end Dsh.Lisp
