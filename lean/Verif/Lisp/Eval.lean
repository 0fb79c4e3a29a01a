import Verif.Lisp.Reader
/-!
The Lisp scopes (dsh/src/lisp/model/env.rs) and the evaluator (dsh/src/lisp/interpreter.rs): C26, C27, C28,
C84–C86.
-/
namespace Dsh.Lisp

/-! ### Scopes -/

/-- `Env` (model/env.rs:12-16): shared scopes are kept in a list and named by their place in it.  The names
of a scope are an association list without repetitions, newest first. -/
structure Scope where
  parent : Option Nat
  vars : List (Str × Value)
deriving DecidableEq

/-- `HashMap::insert`. -/
def insertVar (k : Str) (v : Value) (vars : List (Str × Value)) : List (Str × Value) :=
  (k, v) :: vars.filter (fun p => p.1 != k)

/-- `Env::get` (model/env.rs:40-48); the first argument bounds the length of the chain. -/
def getGo (scopes : List Scope) : Nat → Nat → Str → Option Value
  | 0, _, _ => none
  | f + 1, e, k =>
    match scopes[e]? with
    | none => none
    | some sc =>
      match sc.vars.lookup k with
      | some v => some v
      | none =>
        match sc.parent with
        | some p => getGo scopes f p k
        | none => none

/-- `Env::get`. -/
def get (scopes : List Scope) (e : Nat) (k : Str) : Option Value := getGo scopes (e + 1) e k

/-- `Env::define` (model/env.rs:51-53). -/
def define (scopes : List Scope) (e : Nat) (k : Str) (v : Value) : List Scope :=
  scopes.modify e (fun sc => { sc with vars := insertVar k v sc.vars })

/-- `Env::set` (model/env.rs:57-74); `none` is the error. -/
def setGo (scopes : List Scope) : Nat → Nat → Str → Value → Option (List Scope)
  | 0, _, _, _ => none
  | f + 1, e, k, v =>
    match scopes[e]? with
    | none => none
    | some sc =>
      if (sc.vars.lookup k).isSome then some (define scopes e k v)
      else
        match sc.parent with
        | some p => setGo scopes f p k v
        | none => none

/-- `Env::set`. -/
def set (scopes : List Scope) (e : Nat) (k : Str) (v : Value) : Option (List Scope) := setGo scopes (e + 1) e k v

/-- `Env::undefine` (model/env.rs:77-83). -/
def undefineGo (scopes : List Scope) : Nat → Nat → Str → List Scope
  | 0, _, _ => scopes
  | f + 1, e, k =>
    match scopes[e]? with
    | none => scopes
    | some sc =>
      if (sc.vars.lookup k).isSome then
        scopes.modify e (fun sc => { sc with vars := sc.vars.filter (fun p => p.1 != k) })
      else
        match sc.parent with
        | some p => undefineGo scopes f p k
        | none => scopes

/-- `Env::undefine`. -/
def undefine (scopes : List Scope) (e : Nat) (k : Str) : List Scope := undefineGo scopes (e + 1) e k

/-- `Env::extend` (model/env.rs:29-36): the new scope and the list with it. -/
def extend (scopes : List Scope) (parent : Nat) (vars : List (Str × Value)) : Nat × List Scope :=
  (scopes.length, scopes ++ [⟨some parent, vars⟩])

/-- Binding the arguments of a call (interpreter.rs:491-503): a parameter without an argument stays
unbound; `...` takes the rest and ends the list. -/
def bindArgs : List Str → List Value → List (Str × Value) → List (Str × Value)
  | [], _, vars => vars
  | p :: ps, args, vars =>
    if p = c!"..." then insertVar c!"..." (.list args) vars
    else
      match args with
      | [] => bindArgs ps [] vars
      | a :: args => bindArgs ps args (insertVar p a vars)

/-! ### What the evaluator works on -/

/-- Everything that lasts: the scopes, and every call of a native function so far with its arguments (what
such a function does to the shell is a function of this trace). -/
structure St where
  scopes : List Scope
  trace : List (Str × List Value)
deriving DecidableEq

/-- The end of an evaluation: `out` (the model's bound was too small), the end of the shell, an error, a
value. -/
inductive R (α : Type) where
  | out
  | crash (st : St)
  | err (st : St)
  | ok (st : St) (a : α)
deriving DecidableEq

abbrev M (α : Type) := St → R α

namespace M
variable {α β : Type}

def pure (a : α) : M α := fun st => .ok st a
def fail : M α := fun st => .err st
def crash : M α := fun st => .crash st
def stuck : M α := fun _ => .out

def bind (m : M α) (f : α → M β) : M β := fun st =>
  match m st with
  | .out => .out
  | .crash st => .crash st
  | .err st => .err st
  | .ok st a => f a st

/-- One after the other, stopping at the first error. -/
def mapM (f : α → M β) : List α → M (List β)
  | [] => pure []
  | a :: l => bind (f a) fun b => bind (mapM f l) fun bs => pure (b :: bs)
end M

/-- What a native function does that needs nothing but its arguments and the state of the shell. -/
inductive Ret where
  | val (v : Value)
  | err
  | crash
deriving DecidableEq

/-- The native functions that do not look at the scope they are called from: their result as a function of
the arguments and of all earlier calls. -/
abbrev Prims := Str → List Value → List (Str × List Value) → Ret

def look (e : Nat) (k : Str) : M (Option Value) := fun st => .ok st (get st.scopes e k)
def defineM (e : Nat) (k : Str) (v : Value) : M Unit := fun st => .ok { st with scopes := define st.scopes e k v } ()
def setM (e : Nat) (k : Str) (v : Value) : M Unit := fun st =>
  match set st.scopes e k v with
  | some s => .ok { st with scopes := s } ()
  | none => .err st
def extendM (parent : Nat) (vars : List (Str × Value)) : M Nat := fun st =>
  .ok { st with scopes := (extend st.scopes parent vars).2 } (extend st.scopes parent vars).1
/-- A native function is called: note it, then its result. -/
def note (n : Str) (args : List Value) : M Unit := fun st => .ok { st with trace := st.trace ++ [(n, args)] } ()
def prim (P : Prims) (n : Str) (args : List Value) : M Value := fun st =>
  match P n args st.trace with
  | .val v => .ok { st with trace := st.trace ++ [(n, args)] } v
  | .err => .err { st with trace := st.trace ++ [(n, args)] }
  | .crash => .crash { st with trace := st.trace ++ [(n, args)] }

/-- `Context` (interpreter.rs:525-529). -/
structure Ctx where
  found : Bool
  inFunc : Bool
  quoting : Bool
deriving DecidableEq

/-- `Context::new`. -/
def Ctx.new : Ctx := ⟨false, false, false⟩
/-- `Context::found_tail(true)`. -/
def Ctx.past (c : Ctx) : Ctx := { c with found := true }
/-- `Context::quoting`. -/
def Ctx.quote (c : Ctx) (q : Bool) : Ctx := { c with quoting := q }
/-- A call here is handed to the caller (interpreter.rs:427). -/
def Ctx.tail (c : Ctx) : Bool := !c.found && c.inFunc

/-- `From<&Value> for bool` (model/value.rs:106-110). -/
def truthy (v : Value) : Bool := v != .list [] && v != .ff

/-! ### Special forms -/

/-- What an expression is (the `match` of interpreter.rs:83-448). -/
inductive Form where
  | self (v : Value)
  | var (s : Str)
  | bad
  | comma (e : Value)
  | quote (e : Value)
  | define (s : Str) (e : Value)
  | set (s : Str) (e : Value)
  | defun (s : Str) (f : Nat → Value)
  | lambda (params : List Str) (body : List Value)
  | letForm (shell : Bool) (decls body : List Value)
  | begin (l : List Value)
  | cond (l : List Value)
  | when_ (c : Value) (body : List Value)
  | if_ (c a : Value) (b : Option Value)
  | andOr (isOr : Bool) (l : List Value)
  | auto (args : List Value)
  | app (f : Value) (args : List Value)

/-- `value_to_argnames` (interpreter.rs:452-467). -/
def argNames : List Value → Option (List Str)
  | [] => some []
  | .sym s :: l => (argNames l).map (s :: ·)
  | _ :: _ => none

def asDefun (mk : Nat → List Str → List Value → Value) : List Value → Form
  | .sym s :: .list ps :: body =>
    match argNames ps with
    | some ps => .defun s (fun e => mk e ps body)
    | none => .bad
  | _ => .bad

def asLambda : List Value → Form
  | .list ps :: body =>
    match argNames ps with
    | some ps => .lambda ps body
    | none => .bad
  | _ => .bad

/-- The special form a list with this head is (interpreter.rs:93-407); errors in its shape that are found before anything is evaluated
are `bad`. -/
def classifyKw (k : Str) (rest : List Value) : Form :=
  if k = c!"comma" then (match rest with | e :: _ => .comma e | [] => .bad)
  else if k = c!"quote" then (match rest with | e :: _ => .quote e | [] => .bad)
  else if k = c!"define" then (match rest with | .sym s :: e :: _ => .define s e | _ => .bad)
  else if k = c!"set" then (match rest with | .sym s :: e :: _ => .set s e | _ => .bad)
  else if k = c!"defmacro" then asDefun .mac rest
  else if k = c!"defun" then asDefun .lam rest
  else if k = c!"fn" then asDefun .lam rest
  else if k = c!"autocomplete" then (match rest with | .sym s :: a :: l => .auto (.sym s :: a :: l) | _ => .bad)
  else if k = c!"lambda" then asLambda rest
  else if k = c!"let" then (match rest with | .list ds :: body => .letForm false ds body | _ => .bad)
  else if k = c!"v-let" then (match rest with | .list ds :: body => .letForm true ds body | _ => .bad)
  else if k = c!"value-let" then (match rest with | .list ds :: body => .letForm true ds body | _ => .bad)
  else if k = c!"begin" then .begin rest
  else if k = c!"cond" then .cond rest
  else if k = c!"when" then (match rest with | c :: body => .when_ c body | [] => .bad)
  else if k = c!"if" then (match rest with | c :: a :: l => .if_ c a l.head? | _ => .bad)
  else if k = c!"and" then .andOr false rest
  else if k = c!"or" then .andOr true rest
  else .app (.sym k) rest

def classify : Value → Form
  | .sym s => .var s
  | .list (.sym k :: rest) => classifyKw k rest
  | .list (h :: rest) => .app h rest
  | v => .self v

/-! ### Evaluating

`ev` evaluates an expression in a scope (the recursive calls of `eval_inner`). -/

section
variable (P : Prims) (tco : Bool) (ev : Nat → Value → Ctx → M Value)

/-- `eval_block_inner` (interpreter.rs:23-51). -/
def block (env : Nat) (c : Ctx) : List Value → M Value
  | [] => .pure (.list [])
  | [e] => ev env e c
  | e :: es => .bind (ev env e c.past) fun _ => block env c es

/-- The declarations of `let` (interpreter.rs:253-268) and `v-let` (285-306). -/
def letDecls (env : Nat) (c : Ctx) (shell : Bool) : List Value → M Unit
  | [] => .pure ()
  | .list (.sym s :: e :: _) :: ds =>
    .bind (ev env e c.past) fun v =>
    .bind (if shell then note c!"v-let" [.sym s, v] else .pure ()) fun _ =>
    .bind (defineM env s v) fun _ => letDecls env c shell ds
  | _ :: _ => .fail

/-- `cond` (interpreter.rs:323-342). -/
def condClauses (env : Nat) (c : Ctx) : List Value → M Value
  | [] => .pure (.list [])
  | .list (q :: a :: _) :: l =>
    .bind (ev env q c.past) fun v => if truthy v then ev env a c else condClauses env c l
  | _ :: _ => .fail

/-- `and` and `or` (interpreter.rs:385-407). -/
def andOr (env : Nat) (c : Ctx) (isOr : Bool) : Value → List Value → M Value
  | last, [] => .pure last
  | _, e :: es =>
    .bind (ev env e c.past) fun v => if isOr == truthy v then .pure v else andOr env c isOr v es

/-- The native functions that look at the scope they are called from (default_environment.rs:246-293, 298-312,
316-329, 334-356, 497-512), and the others. -/
def callNative (env : Nat) (n : Str) (args : List Value) : M Value :=
  if n = c!"eval" then
    (match args with | e :: _ => ev env e .new | [] => .fail)
  else if n = c!"apply" then
    (match args with | f :: .list ps :: _ => ev env (.list (f :: ps)) .new | _ => .fail)
  else if n = c!"map" then
    (match args with
      | f :: .list l :: _ =>
        .bind (M.mapM (fun v => ev env (.list [f, .list [.sym c!"quote", v]]) .new) l) fun vs => .pure (.list vs)
      | _ => .fail)
  else if n = c!"filter" then
    (match args with
      | f :: .list l :: _ =>
        .bind (M.mapM (fun v => .bind (ev env (.list [f, .list [.sym c!"quote", v]]) .new) fun r =>
            .pure (if truthy r then [v] else [])) l) fun vs => .pure (.list vs.flatten)
      | _ => .fail)
  else if n = c!"bound?" then
    (match args with
      | [.sym s] => .bind (look env s) fun r => .pure (if r.isSome then .tt else .list [])
      | _ => .fail)
  else if n = c!"add-hook" then
    (match args with
      | [.sym h, f] =>
        .bind (look env (c!"*" ++ h ++ c!"*")) fun r =>
          (match r with
            | some (.list l) => .bind (setM env (c!"*" ++ h ++ c!"*") (.list (f :: l))) fun _ => .pure (.list [])
            | _ => .fail)
      | _ => .fail)
  else prim P n args

/-- `call_function_or_macro` (interpreter.rs:472-522).  Without the optimisation (`tco = false`) the body
is evaluated as if it were not in a function, so that no call is ever handed on. -/
def call (env : Nat) (f : Value) (args : List Value) : M Value :=
  match f with
  | .native n => callNative P ev env n args
  | .lam e ps body => .bind (extendM e (bindArgs ps args [])) fun new => block ev new ⟨false, tco, false⟩ body
  | .mac e ps body => .bind (extendM e (bindArgs ps args [])) fun new => block ev new ⟨false, tco, false⟩ body
  | _ => .fail

/-- The loop over calls handed on (interpreter.rs:433-439); the first argument bounds their number. -/
def tramp : Nat → Nat → Value → M Value
  | 0, _, _ => .stuck
  | k + 1, env, .tail f args => .bind (call P tco ev env f args) (tramp k env)
  | _ + 1, _, v => .pure v

/-- A call whose function and arguments are known (interpreter.rs:427-440). -/
def applyCall (k : Nat) (env : Nat) (c : Ctx) (f : Value) (args : List Value) : M Value :=
  if c.tail then .pure (.tail f args) else .bind (call P tco ev env f args) (tramp P tco ev k env)

/-- `eval_inner` outside quotations (interpreter.rs:83-448). -/
def evalForm (k : Nat) (env : Nat) (c : Ctx) : Form → M Value
  | .self v => .pure v
  | .var s => .bind (look env s) fun r => (match r with | some v => .pure v | none => .fail)
  | .bad => .fail
  | .comma e => ev env e (c.quote false)
  | .quote e => ev env e (c.quote true)
  | .define s e => .bind (ev env e c.past) fun v => .bind (defineM env s v) fun _ => .pure v
  | .set s e => .bind (ev env e c.past) fun v => .bind (setM env s v) fun _ => .pure v
  | .defun s f => .bind (defineM env s (f env)) fun _ => .pure (.list [])
  | .lambda ps body => .pure (.lam env ps body)
  | .letForm shell ds body =>
    .bind (extendM env []) fun new => .bind (letDecls ev new c shell ds) fun _ => block ev new c body
  | .begin l => block ev env c l
  | .cond l => condClauses ev env c l
  | .when_ q body =>
    .bind (ev env q c.past) fun v => if truthy v then block ev env c body else .pure (.list [])
  | .if_ q a b =>
    .bind (ev env q c.past) fun v =>
      if truthy v then ev env a c else (match b with | some b => ev env b c | none => .pure (.list []))
  | .andOr isOr l => andOr ev env c isOr (if isOr then .ff else .tt) l
  | .auto args => .bind (note c!"autocomplete" args) fun _ => .pure (.list [])
  | .app f args =>
    .bind (ev env f c.past) fun fv =>
      (match fv with
        | .mac _ _ _ => .bind (call P tco ev env fv args) fun e => ev env e .new
        | _ => .bind (M.mapM (fun a => ev env a c.past) args) (applyCall P tco ev k env c fv))

/-- `eval_inner` (interpreter.rs:60-449). -/
def step (k : Nat) (env : Nat) (e : Value) (c : Ctx) : M Value :=
  if c.quoting then
    match e with
    | .list (h :: t) =>
      if h = .sym c!"comma" then evalForm P tco ev k env c (classify e)
      else .bind (M.mapM (fun x => ev env x c) (h :: t)) fun vs => .pure (.list vs)
    | _ => .pure e
  else evalForm P tco ev k env c (classify e)
end

/-- `eval_inner`, to a given depth of recursion; `tco = true` is the code. -/
def eval (P : Prims) (tco : Bool) : Nat → Nat → Value → Ctx → M Value
  | 0, _, _, _ => .stuck
  | n + 1, env, e, c => step P tco (eval P tco n) n env e c

end Dsh.Lisp
