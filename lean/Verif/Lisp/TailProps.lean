import Verif.Lisp.Mono
import Verif.Lisp.Tail
import Verif.Lisp.ReadProps
/-!
C28 (tail calls), C27 (functions and the scope of their caller), C26 (running a recorded macro), C84
(parameters).
-/
namespace Dsh.Lisp

/-! ### C28 -/

/-- C28 (partial: without macros, commas and native functions that look at the scope of their caller): the
code ends a program with a value, an error or a crash exactly when evaluation without handing on calls does,
with the same value, the same scopes and the same calls of native functions. -/
theorem C28_tail_partial {B : Str → Prop} {P : Prims} (hP : PrimsClean B P) (hc : B c!"comma") (hm : B c!"defmacro")
    {st : St} (hst : Inv B st) {env : Nat} {e : Value} (he : Clean B e) {r : R Value} :
    Ends P true st env e r ↔ Ends P false st env e r := by
  constructor
  · rintro ⟨hr, n, hn⟩
    obtain ⟨⟨m, hm⟩, _⟩ := direct_of_code hP hc hm n .new .new ⟨rfl, rfl⟩ ⟨rfl, rfl⟩ env e he st hst (by rw [hn]; exact hr)
    exact ⟨hr, m, (hm m (Nat.le_refl _)).trans hn⟩
  · rintro ⟨hr, n, hn⟩
    obtain ⟨⟨m, hm⟩, _⟩ := (code_of_direct hP hc hm n .new ⟨rfl, rfl⟩).1 .new ⟨rfl, rfl⟩ env e he _ big_id st hst
      (by rw [hn]; exact hr)
    exact ⟨hr, m, (hm m (Nat.le_refl _)).trans hn⟩

/-- C28 (partial): the value is never a call still to be made, and the program can be followed by another. -/
theorem C28_no_leak_partial {B : Str → Prop} {P : Prims} (hP : PrimsClean B P) (hc : B c!"comma") (hm : B c!"defmacro")
    {st : St} (hst : Inv B st) {env : Nat} {e : Value} (he : Clean B e) {st' : St} {v : Value}
    (h : Ends P true st env e (.ok st' v)) : (∀ f args, v ≠ .tail f args) ∧ Clean B v ∧ Inv B st' := by
  obtain ⟨hr, n, hn⟩ := h
  obtain ⟨_, h2⟩ := direct_of_code hP hc hm n .new .new ⟨rfl, rfl⟩ ⟨rfl, rfl⟩ env e he st hst (by rw [hn]; exact hr)
  obtain ⟨hi, hv⟩ := h2 st' v hn
  refine ⟨?_, hv, hi⟩
  rintro f args rfl
  simp [Clean] at hv

/-! The native functions of the examples. -/

def exPrims : Prims := fun n args _ =>
  match n, args with
  | ['+'], [.int a, .int b] => .val (.int (a + b))
  | ['-'], [.int a, .int b] => .val (.int (a - b))
  | ['=', '='], [.int a, .int b] => .val (if a = b then .tt else .ff)
  | ['l', 'i', 's', 't'], args => .val (.list args)
  | ['s', 'h'], _ => .val .nil
  | _, _ => .err

def exGlobals : List Str := [c!"+", c!"-", c!"==", c!"list", c!"sh"] ++ envNatives

/-- A shell that has just started. -/
def exSt : St := ⟨[⟨none, exGlobals.map (fun n => (n, .native n))⟩], []⟩

/-- The names the examples stay away from. -/
def exBanned (s : Str) : Prop := s ∈ c!"comma" :: c!"defmacro" :: envNatives

instance (s : Str) : Decidable (exBanned s) := inferInstanceAs (Decidable (_ ∈ _))

theorem exPrims_clean {B : Str → Prop} : PrimsClean B exPrims := by
  intro n args tr v ha h
  unfold exPrims at h
  split at h
  · injection h with h; subst h; simp [Clean]
  · injection h with h; subst h; simp [Clean]
  · injection h with h; subst h; split <;> simp [Clean]
  · injection h with h; subst h; simpa [Clean] using ha
  · injection h with h; subst h; simp [Clean, Value.nil, CleanL]
  · simp at h

theorem exSt_inv : Inv exBanned exSt := by
  intro sc hsc p hp hb
  simp only [exSt, List.mem_singleton] at hsc
  subst hsc
  simp only [List.mem_map] at hp
  obtain ⟨n, _, rfl⟩ := hp
  simp only [Clean]
  intro hn
  exact hb (List.mem_cons_of_mem _ (List.mem_cons_of_mem _ hn))

/-- `(begin (defun loop (n acc) (if (== n 0) acc (loop (- n 1) (+ acc n)))) (loop 4 0))`. -/
def exLoop : Value :=
  .list [.sym c!"begin",
    .list [.sym c!"defun", .sym c!"loop", .list [.sym c!"n", .sym c!"acc"],
      .list [.sym c!"if", .list [.sym c!"==", .sym c!"n", .int 0], .sym c!"acc",
        .list [.sym c!"loop", .list [.sym c!"-", .sym c!"n", .int 1], .list [.sym c!"+", .sym c!"acc", .sym c!"n"]]]],
    .list [.sym c!"loop", .int 4, .int 0]]

theorem exLoop_clean : Clean exBanned exLoop := by
  simp only [exLoop, Clean, CleanL, exBanned]
  repeat' apply And.intro
  all_goals first | trivial | decide

/-- The final value of an end. -/
def R.value {α : Type} : R α → Option α
  | .ok _ a => some a
  | _ => none

/-- The loop ends with 10, also without handing on calls. -/
theorem exLoop_value : ∃ st', Ends exPrims true exSt 0 exLoop (.ok st' (.int 10)) ∧
    Ends exPrims false exSt 0 exLoop (.ok st' (.int 10)) := by
  have h : (eval exPrims true 20 0 exLoop .new exSt).value = some (.int 10) := by decide +kernel
  cases hr : eval exPrims true 20 0 exLoop .new exSt with
  | ok st' a =>
    rw [hr] at h
    simp only [R.value, Option.some.injEq] at h
    subst h
    have hE : Ends exPrims true exSt 0 exLoop (.ok st' (.int 10)) := ⟨by simp, 20, hr⟩
    exact ⟨st', hE, (C28_tail_partial exPrims_clean (by decide) (by decide) exSt_inv exLoop_clean).1 hE⟩
  | _ => rw [hr] at h; simp [R.value] at h

/-- Define (with `head`) the function `f` with one parameter `x`, then call it. -/
def exDef (head : Str) (body arg : Value) : Value :=
  .list [.sym c!"begin", .list [.sym head, .sym c!"f", .list [.sym c!"x"], body], .list [.sym c!"f", arg]]

theorem ends_value {P : Prims} {tco : Bool} {st : St} {env : Nat} {e v : Value} {n : Nat}
    (h : (eval P tco n env e .new st).value = some v) : ∃ st', Ends P tco st env e (.ok st' v) := by
  cases hr : eval P tco n env e .new st with
  | ok st' a =>
    rw [hr] at h
    simp only [R.value, Option.some.injEq] at h
    subst h
    exact ⟨st', by simp, n, hr⟩
  | _ => rw [hr] at h; simp [R.value] at h

/-- C28 is false of macros: `(defmacro f (x) (list 'quote x))` `(f 5)` gives not 5 but a call still to be
made. -/
theorem C28_macro_violated :
    let e := exDef c!"defmacro" (.list [.sym c!"list", .list [.sym c!"quote", .sym c!"quote"], .sym c!"x"]) (.int 5)
    (∃ st', Ends exPrims true exSt 0 e (.ok st' (.tail (.native c!"list") [.sym c!"quote", .int 5]))) ∧
      ∃ st', Ends exPrims false exSt 0 e (.ok st' (.int 5)) :=
  ⟨ends_value (n := 20) (by decide +kernel), ends_value (n := 20) (by decide +kernel)⟩

/-- C28 is false of commas: `(defun f (x) '(1 ,(list x)))` `(f 5)` gives a list with a call still to be made
in it. -/
theorem C28_comma_violated :
    let e := exDef c!"defun" (.list [.sym c!"quote", .list [.int 1, .list [.sym c!"comma", .list [.sym c!"list", .sym c!"x"]]]]) (.int 5)
    (∃ st', Ends exPrims true exSt 0 e (.ok st' (.list [.int 1, .tail (.native c!"list") [.int 5]]))) ∧
      ∃ st', Ends exPrims false exSt 0 e (.ok st' (.list [.int 1, .list [.int 5]])) :=
  ⟨ends_value (n := 20) (by decide +kernel), ends_value (n := 20) (by decide +kernel)⟩

/-- C28 is false of `bound?`: `(defun f (x) (bound? 'x))` `(f 5)` does not find the parameter. -/
theorem C28_bound_violated :
    let e := exDef c!"defun" (.list [.sym c!"bound?", .list [.sym c!"quote", .sym c!"x"]]) (.int 5)
    (∃ st', Ends exPrims true exSt 0 e (.ok st' .nil)) ∧ ∃ st', Ends exPrims false exSt 0 e (.ok st' .tt) :=
  ⟨ends_value (n := 20) (by decide +kernel), ends_value (n := 20) (by decide +kernel)⟩

/-- C28 is false of `eval`: `(defun f (x) (eval 'x))` `(f 5)` is an error. -/
theorem C28_eval_violated :
    let e := exDef c!"defun" (.list [.sym c!"eval", .list [.sym c!"quote", .sym c!"x"]]) (.int 5)
    (∃ st', Ends exPrims true exSt 0 e (.err st')) ∧ ∃ st', Ends exPrims false exSt 0 e (.ok st' (.int 5)) := by
  refine ⟨?_, ends_value (n := 20) (by decide +kernel)⟩
  generalize he : exDef c!"defun" (.list [.sym c!"eval", .list [.sym c!"quote", .sym c!"x"]]) (.int 5) = e
  have h : (match eval exPrims true 20 0 e .new exSt with | .err _ => true | _ => false) = true := by
    rw [← he]; decide +kernel
  cases hr : eval exPrims true 20 0 e .new exSt with
  | err st' => exact ⟨st', by simp, 20, hr⟩
  | _ => rw [hr] at h; simp at h

/-! ### C27: functions and the scope of their caller -/

/-- The call of the function value `f` with these arguments, made from the scope `env`, ends with `r`. -/
def CallEnds (P : Prims) (st : St) (env : Nat) (f : Value) (args : List Value) (r : R Value) : Prop :=
  r ≠ .out ∧ ∃ n, M.bind (call P true (eval P true n) env f args) (tramp P true (eval P true n) n env) st = r

/-- C27 (partial: without macros, commas and native functions that look at the scope of their caller): what a
function does depends on the scope of its definition only, not on the scope it is called from. -/
theorem C27_closure_partial {B : Str → Prop} {P : Prims} (hP : PrimsClean B P) (hc : B c!"comma") (hm : B c!"defmacro")
    {st : St} (hst : Inv B st) {f : Value} {args : List Value} (hf : Clean B f) (ha : CleanL B args)
    {env env' : Nat} {r : R Value} (h : CallEnds P st env f args r) : CallEnds P st env' f args r := by
  obtain ⟨hr, n, hn⟩ := h
  have hN := direct_of_code hP hc hm n
  have hH := handed_on hP hc hm n (fun i _ => direct_of_code hP hc hm i) n n (Nat.le_refl _)
  -- first without handing on calls
  have h1 : Ref B (Clean B) (M.bind (call P true (eval P true n) env f args) (tramp P true (eval P true n) n env))
      (fun m => M.bind (call P false (eval P false m) env' f args) (tramp P false (eval P false m) m env')) :=
    call_ref hP (fun env e he => hN _ _ ⟨rfl, rfl⟩ ⟨rfl, rfl⟩ env e he)
      (fun env'' e he => (hH ⟨false, true, false⟩ ⟨false, false, false⟩ rfl rfl ⟨rfl, rfl⟩
        env'' env e he).thenTramp false _ env' big_id)
      (fun v hv => tramp_both hv true false _ _ n env env' big_id) env env' hf ha
  obtain ⟨⟨m, hm1⟩, _⟩ := h1 st hst (by rw [hn]; exact hr)
  -- and back
  have h2 : Ref B (Clean B) (M.bind (call P false (eval P false m) env' f args) (tramp P false (eval P false m) m env'))
      (fun i => M.bind (call P true (eval P true i) env' f args) (tramp P true (eval P true i) i env')) :=
    call_ref hP (fun env e he => (code_of_direct hP hc hm m ⟨true, false, false⟩ ⟨rfl, rfl⟩).1 ⟨true, true, false⟩ ⟨rfl, rfl⟩ env e he _ big_id)
      (fun env'' e he => ((code_of_direct hP hc hm m ⟨false, false, false⟩ ⟨rfl, rfl⟩).2 ⟨false, true, false⟩ rfl rfl env'' env' e he _ _ _
        big_id big_id big_id).trampFirst false _ m env')
      (fun v hv => tramp_both hv false true _ _ m env' env' big_id) env' env' hf ha
  have hm2 := hm1 m (Nat.le_refl _)
  rw [hn] at hm2
  dsimp only at hm2
  obtain ⟨⟨i, hi⟩, _⟩ := h2 st hst (by rw [hm2]; exact hr)
  exact ⟨hr, i, (hi i (Nat.le_refl _)).trans hm2⟩

/-- C27 is false when the last thing the function does is `eval`: `(lambda (x) (eval 'x))` finds `x` in the
scope it is called from (here a scope where `x` is 7), not its parameter 5. -/
theorem C27_closure_violated :
    let st : St := ⟨exSt.scopes ++ [⟨some 0, [(c!"x", .int 7)]⟩], []⟩
    let f : Value := .lam 0 [c!"x"] [.list [.sym c!"eval", .list [.sym c!"quote", .sym c!"x"]]]
    (∃ st', CallEnds exPrims st 1 f [.int 5] (.ok st' (.int 7))) ∧
      ¬ ∃ st', CallEnds exPrims st 1 f [.int 5] (.ok st' (.int 5)) := by
  intro st f
  have hv : (M.bind (call exPrims true (eval exPrims true 10) 1 f [.int 5]) (tramp exPrims true (eval exPrims true 10) 10 1) st).value
      = some (.int 7) := by decide +kernel
  have mono : ∀ n m, n ≤ m → Le (M.bind (call exPrims true (eval exPrims true n) 1 f [.int 5]) (tramp exPrims true (eval exPrims true n) n 1))
      (M.bind (call exPrims true (eval exPrims true m) 1 f [.int 5]) (tramp exPrims true (eval exPrims true m) m 1)) := by
    intro n m h
    exact Le.bind (call_le (eval_le exPrims true n m h) 1 f _) fun v => tramp_le (eval_le exPrims true n m h) n m h 1 v
  cases hr : M.bind (call exPrims true (eval exPrims true 10) 1 f [.int 5]) (tramp exPrims true (eval exPrims true 10) 10 1) st with
  | ok st' a =>
    rw [hr] at hv
    simp only [R.value, Option.some.injEq] at hv
    subst hv
    refine ⟨⟨st', by simp, 10, hr⟩, ?_⟩
    rintro ⟨st'', _, n, hn⟩
    have h1 := mono n (max n 10) (by omega) st (by rw [hn]; simp)
    have h2 := mono 10 (max n 10) (by omega) st (by rw [hr]; simp)
    rw [h1, hn, hr] at h2
    simp at h2
  | _ => rw [hr] at hv; simp [R.value] at hv

end Dsh.Lisp
