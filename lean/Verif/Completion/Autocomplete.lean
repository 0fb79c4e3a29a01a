import Verif.Lisp.Reader
import Verif.Env.Direnv
/-!
Completions the user defines with `autocomplete` (C209): dsh/src/lisp/interpreter.rs:180-231,
dsh/src/completion/selection.rs:116-283, dsh/src/repl/key_handlers/completion.rs:118-260.

Parameters: the output of `sh -c`, the answer of a Lisp function, the menu, the candidates of the engine, of `z`
and of the current directory.  Left out: which menu it is, the query given to it, what is done with the chosen
text (Verif.Completion.Menu).
-/
namespace Dsh.AutoComp
open Dsh.Lisp (Value print replaceChar)

abbrev Str := List Char

/-- `AutoComplete` (completion.rs:52-57). -/
structure Entry where
  target : Str
  cmd : Option Str := none
  func : Option Value := none
  candidates : Option (List Str) := none

/-- The form `autocomplete` (lisp/interpreter.rs:180-231): its arguments as they are written, none is evaluated;
`none` is an error. -/
def register (defs : List Entry) : List Value → Option (List Entry)
  | .sym name :: val :: _ =>
    let target := replaceChar '-' ['_'] name
    some (defs ++ [match val with
      | .list l => { target, candidates := some (l.map print) }
      | .lam e ps b => { target, func := some (.lam e ps b) }
      | .str s => { target, cmd := some s }
      | _ => { target }])
  | _ => none

/-- `replace_space` (completion/skim_adapter.rs:80-97), with the flag `in_whitespace`. -/
def squashGo : Bool → Str → Str
  | _, [] => []
  | b, c :: s =>
    if rustWhitespace c then (if b then squashGo true s else '_' :: squashGo true s) else c :: squashGo false s

def squash (s : Str) : Str := squashGo false s

/-- `CompletionSelection`, with the shell that does not go on. -/
inductive Pick where
  | selected (v : Str) | interactive (items : List Str) | none | hangs
deriving DecidableEq, Repr

/-- What a function does: it answers, fails, or changes the environment of the shell. -/
inductive Ran where
  | value (v : Value) | error | writes

/-- What the world answers. -/
structure World where
  /-- the output of `sh -c`, if it is text -/
  run : Str → Option Str
  /-- the function with its argument -/
  apply : Value → Str → Ran
  /-- the menu, for at least two candidates -/
  menu : List Str → Pick

/-- `select_completion_items` and `select_completion_items_with_framework` (selection.rs:42-55, 68-98). -/
def offer (w : World) : List Str → Pick
  | [] => .none
  | [c] => .selected c
  | l => w.menu l

/-- `completion_from_cmd` (selection.rs:119-145). -/
def fromCmd (w : World) (cmd : Str) : Pick :=
  match w.run cmd with
  | some out => offer w (((Env.lines out).map trim).filter (· ≠ []))
  | none => .none

/-- What one definition offers (selection.rs:212-257).  The lock of the environment is held for reading all the
time, so a function that wants to write it waits for ever. -/
def Entry.complete (w : World) (e : Entry) (line : Str) : Pick :=
  match e.func, e.cmd, e.candidates with
  | some f, _, _ =>
    match w.apply f (squash line) with
    | .value (.list l) => offer w (l.map print)
    | .value (.str s) => .selected s
    | .writes => .hangs
    | _ => .none
  | none, some cmd, _ =>
    match fromCmd w cmd with
    | .selected v => if ['*'].isPrefixOf v then .selected (v.drop 2) else .selected v
    | p => p
  | none, none, some items => offer w (items.map trim)
  | none, none, none => .none

/-- `completion_from_lisp_with_prompt` (selection.rs:195-262): the first definition that fits. -/
def fromLisp (w : World) : List Entry → Str → Pick
  | [], _ => .none
  | e :: l, line => if e.target.isPrefixOf (squash line) then e.complete w line else fromLisp w l line

/-- `or else` for sources. -/
def Pick.orElse : Pick → Pick → Pick
  | .none, q => q
  | p, _ => p

/-- Tab (repl/key_handlers/completion.rs:118-260): the engine, then `input_completion` (selection.rs:147-193):
the definitions, `z`, the current directory. -/
def tab (w : World) (engine z current : Pick) (defs : List Entry) (line : Str) : Pick :=
  engine.orElse ((fromLisp w defs line).orElse (z.orElse current))

/-! ### Spec -/

/-- The line begins with these words. -/
inductive Begins : List Str → Str → Prop where
  | one (w rest : Str) : Begins [w] (w ++ rest)
  | cons (w gap line : Str) (ws : List Str) : gap ≠ [] → (∀ c ∈ gap, rustWhitespace c = true) → Begins ws line →
      Begins (w :: ws) (w ++ gap ++ line)

/-- A word without blanks and dashes. -/
def Plain (w : Str) : Prop := w ≠ [] ∧ ∀ c ∈ w, rustWhitespace c = false ∧ c ≠ '-'

/-! ### Lemmas -/

theorem squashGo_solid : ∀ (w s : Str) (b : Bool), w ≠ [] → (∀ c ∈ w, rustWhitespace c = false) →
    squashGo b (w ++ s) = w ++ squashGo false s
  | [], _, _, h, _ => absurd rfl h
  | [c], s, b, _, h => by simp [squashGo, h c (by simp)]
  | c :: d :: w, s, b, _, h => by
    rw [List.cons_append, squashGo, if_neg (by simp [h c (by simp)]),
      squashGo_solid (d :: w) s false (by simp) fun x hx => h x (by simp [hx])]
    rfl

theorem squashGo_true : ∀ (g s : Str), (∀ c ∈ g, rustWhitespace c = true) → squashGo true (g ++ s) = squashGo true s
  | [], _, _ => rfl
  | c :: g, s, h => by
    rw [List.cons_append, squashGo, if_pos (h c (by simp)), if_pos rfl]
    exact squashGo_true g s fun x hx => h x (by simp [hx])

theorem squashGo_gap (g s : Str) (hg : g ≠ []) (h : ∀ c ∈ g, rustWhitespace c = true) :
    squashGo false (g ++ s) = '_' :: squashGo true s := by
  cases g with
  | nil => exact absurd rfl hg
  | cons c g =>
    rw [List.cons_append, squashGo, if_pos (h c (by simp)), if_neg (by simp),
      squashGo_true g s fun x hx => h x (by simp [hx])]

theorem replaceChar_append (a : Char) (w s t : Str) : replaceChar a w (s ++ t) = replaceChar a w s ++ replaceChar a w t := by
  simp [replaceChar]

theorem replaceChar_none {s : Str} (h : '-' ∉ s) : replaceChar '-' ['_'] s = s := by
  induction s with
  | nil => rfl
  | cons c s ih =>
    have : c ≠ '-' := fun e => h (by simp [e])
    have ih := ih fun m => h (by simp [m])
    simp only [replaceChar, List.flatMap_cons, if_neg this] at ih ⊢
    rw [ih]; rfl

theorem target_words : ∀ ws : List Str, (∀ w ∈ ws, Plain w) →
    replaceChar '-' ['_'] (joinWith ['-'] ws) = joinWith ['_'] ws
  | [], _ => rfl
  | [w], h => replaceChar_none fun m => ((h w (by simp)).2 _ m).2 rfl
  | w :: v :: ws, h => by
    have ih := target_words (v :: ws) fun x hx => h x (by simp [hx])
    show replaceChar '-' ['_'] (w ++ ['-'] ++ joinWith ['-'] (v :: ws)) = w ++ ['_'] ++ joinWith ['_'] (v :: ws)
    rw [replaceChar_append, replaceChar_append, ih, replaceChar_none fun m => ((h w (by simp)).2 _ m).2 rfl]
    rfl

theorem begins_prefix {ws : List Str} {line : Str} (hb : Begins ws line) : ∀ b, (∀ w ∈ ws, Plain w) →
    joinWith ['_'] ws <+: squashGo b line := by
  induction hb with
  | one w rest =>
    intro b h
    rw [squashGo_solid w rest b (h w (by simp)).1 fun c hc => ((h w (by simp)).2 c hc).1]
    exact List.prefix_append _ _
  | cons w gap line ws hg hgb hb ih =>
    intro b h
    have ih := ih true fun x hx => h x (by simp [hx])
    rw [List.append_assoc, squashGo_solid w _ b (h w (by simp)).1 fun c hc => ((h w (by simp)).2 c hc).1,
      squashGo_gap gap line hg hgb]
    cases ws with
    | nil => cases hb
    | cons v ws =>
      show w ++ ['_'] ++ joinWith ['_'] (v :: ws) <+: _
      obtain ⟨r, hr⟩ := ih
      exact ⟨r, by rw [← hr]; simp⟩

theorem fromLisp_skip (w : World) : ∀ (defs : List Entry) (e : Entry) (line : Str),
    (∀ d ∈ defs, ¬ d.target <+: squash line) → fromLisp w (defs ++ [e]) line = fromLisp w [e] line
  | [], _, _, _ => rfl
  | d :: defs, e, line, h => by
    have : d.target.isPrefixOf (squash line) = false := by
      rw [Bool.eq_false_iff]; intro hp; exact h d (by simp) (List.isPrefixOf_iff_prefix.mp hp)
    rw [List.cons_append, fromLisp, this]
    exact fromLisp_skip w defs e line fun x hx => h x (by simp [hx])

theorem fromLisp_one (w : World) (e : Entry) (line : Str) (h : e.target <+: squash line) :
    fromLisp w [e] line = e.complete w line := by
  rw [fromLisp, List.isPrefixOf_iff_prefix.mpr h]; rfl

theorem orElse_some {p q : Pick} (h : p ≠ .none) : p.orElse q = p := by cases p <;> first | rfl | exact absurd rfl h

theorem map_print_str : ∀ l : List Str, (l.map Value.str).map print = l
  | [] => rfl
  | s :: l => by simp only [List.map_cons, map_print_str l, print]

/-! ### C209 -/

/-- **C209, a list.** After `(autocomplete a-b ("x" "y" …))`, where no earlier definition fits the line and the engine has
nothing, Tab on a line that begins with the words `a b` offers the strings of the list, in their order. -/
theorem C209_list_partial (w : World) (z current : Pick) (defs defs' : List Entry) (ws items : List Str) (line : Str)
    (hw : ∀ x ∈ ws, Plain x) (hb : Begins ws line) (hd : ∀ d ∈ defs, ¬ d.target <+: squash line)
    (ht : ∀ i ∈ items, trim i = i) (h2 : 2 ≤ items.length)
    (hr : register defs [.sym (joinWith ['-'] ws), .list (items.map .str)] = some defs') (hm : w.menu items ≠ .none) :
    tab w .none z current defs' line = w.menu items := by
  simp only [register, Option.some.injEq, map_print_str] at hr
  subst hr
  show (fromLisp w _ line).orElse _ = _
  rw [fromLisp_skip w _ _ _ hd, fromLisp_one]
  · show (offer w (items.map trim)).orElse _ = _
    have : items.map trim = items := by
      conv => rhs; rw [← List.map_id items]
      exact List.map_congr_left fun i hi => ht i hi
    rw [this]
    match items, h2 with
    | a :: b :: l, _ => exact orElse_some hm
  · rw [target_words ws hw]; exact begins_prefix hb false hw

/-- One string: it is taken at once. -/
theorem C209_single_partial (w : World) (z current : Pick) (defs defs' : List Entry) (ws : List Str) (item line : Str)
    (hw : ∀ x ∈ ws, Plain x) (hb : Begins ws line) (hd : ∀ d ∈ defs, ¬ d.target <+: squash line) (ht : trim item = item)
    (hr : register defs [.sym (joinWith ['-'] ws), .list [.str item]] = some defs') :
    tab w .none z current defs' line = .selected item := by
  simp only [register, Option.some.injEq] at hr
  subst hr
  show (fromLisp w _ line).orElse _ = _
  rw [fromLisp_skip w _ _ _ hd, fromLisp_one]
  · show (offer w [trim (print (.str item))]).orElse _ = _
    simp only [print, ht]; rfl
  · rw [target_words ws hw]; exact begins_prefix hb false hw

/-- **C209, a command.** After `(autocomplete a-b "command")`, the lines the command prints are offered. -/
theorem C209_command_partial (w : World) (z current : Pick) (defs defs' : List Entry) (ws items : List Str) (line cmd : Str)
    (hw : ∀ x ∈ ws, Plain x) (hb : Begins ws line) (hd : ∀ d ∈ defs, ¬ d.target <+: squash line)
    (ht : ∀ i ∈ items, trim i = i ∧ i ≠ [] ∧ '\n' ∉ i) (h2 : 2 ≤ items.length)
    (hrun : w.run cmd = some (items.flatMap fun i => i ++ ['\n']))
    (hr : register defs [.sym (joinWith ['-'] ws), .str cmd] = some defs')
    (hm : ∃ l, w.menu items = .interactive l ∨ ∃ v, v.head? ≠ some '*' ∧ w.menu items = .selected v) :
    tab w .none z current defs' line = w.menu items := by
  simp only [register, Option.some.injEq] at hr
  subst hr
  show (fromLisp w _ line).orElse _ = _
  rw [fromLisp_skip w _ _ _ hd, fromLisp_one]
  · have hl : ((Env.lines (items.flatMap fun i => i ++ ['\n'])).map trim).filter (· ≠ []) = items := by
      rw [Env.lines_flatMap (g := fun i : Str => i) fun i hi => (ht i hi).2.2, List.map_map]
      have : items.map (trim ∘ fun i => i) = items := by
        conv => rhs; rw [← List.map_id items]
        exact List.map_congr_left fun i hi => (ht i hi).1
      rw [this, List.filter_eq_self]
      intro i hi; simpa using (ht i hi).2.1
    have hf : fromCmd w cmd = w.menu items := by
      rw [fromCmd, hrun]
      simp only [hl]
      match items, h2 with
      | a :: b :: l, _ => rfl
    simp only [Entry.complete, hf]
    obtain ⟨l, hm | ⟨v, hv, hm⟩⟩ := hm
    · rw [hm]; rfl
    · rw [hm]
      have : ['*'].isPrefixOf v = false := by
        cases v with
        | nil => rfl
        | cons c v =>
          have : c ≠ '*' := by simpa using hv
          simpa [List.isPrefixOf] using fun e => this e.symm
      simp only [this]; rfl
  · rw [target_words ws hw]; exact begins_prefix hb false hw

/-- **C209, other lines.** A line no definition fits is completed as without definitions. -/
theorem C209_untouched_partial (w : World) (engine z current : Pick) (defs : List Entry) (line : Str)
    (hd : ∀ d ∈ defs, ¬ d.target <+: squash line) : tab w engine z current defs line = tab w engine z current [] line := by
  have : fromLisp w defs line = .none := by
    induction defs with
    | nil => rfl
    | cons d defs ih =>
      have hp : d.target.isPrefixOf (squash line) = false := by
        rw [Bool.eq_false_iff]; intro hp; exact hd d (by simp) (List.isPrefixOf_iff_prefix.mp hp)
      rw [fromLisp, hp]
      exact ih fun x hx => hd x (by simp [hx])
  rw [tab, this]; rfl

/-- **C209 fails: functions.** `(autocomplete NAME (lambda …))` is not evaluated: on a line of NAME the word `lambda` and the
texts of parameters and body are offered; whatever `sh` and the functions would answer. -/
theorem C209_function_violated (w : World) (z current : Pick) (ws : List Str) (line : Str) (params : Value) (body : List Value)
    (hw : ∀ x ∈ ws, Plain x) (hb : Begins ws line) :
    ∃ defs, register [] [.sym (joinWith ['-'] ws), .list (.sym c!"lambda" :: params :: body)] = some defs ∧
      tab w .none z current defs line =
        (w.menu (c!"lambda" :: trim (print params) :: body.map (trim ∘ print))).orElse (z.orElse current) := by
  refine ⟨_, rfl, ?_⟩
  show (fromLisp w _ line).orElse _ = _
  rw [fromLisp_skip w [] _ _ (by simp), fromLisp_one]
  · simp only [Entry.complete, List.map_cons, List.map_map, offer]
    have : trim (print (.sym c!"lambda")) = c!"lambda" := by simp only [print]; decide
    rw [this]
  · rw [target_words ws hw]; exact begins_prefix hb false hw

/-- **C209 fails: names.** A function or list given by its name is not looked up: nothing is offered, and no later definition
of this command is tried. -/
theorem C209_name_violated (w : World) (engine z current : Pick) (ws : List Str) (line name : Str) (later : List Entry)
    (hw : ∀ x ∈ ws, Plain x) (hb : Begins ws line) :
    ∃ defs, register [] [.sym (joinWith ['-'] ws), .sym name] = some defs ∧
      tab w engine z current (defs ++ later) line = tab w engine z current [] line := by
  refine ⟨_, rfl, ?_⟩
  have hp : joinWith ['_'] ws <+: squash line := begins_prefix hb false hw
  rw [← target_words ws hw] at hp
  show engine.orElse ((fromLisp w (_ :: later) line).orElse _) = _
  rw [fromLisp, List.isPrefixOf_iff_prefix.mpr hp]
  rfl

/-- **C209 fails: commands with a dash.** The definition for a command whose name has a dash is not used on the lines of this
command. -/
theorem C209_dash_violated (w : World) (engine z current : Pick) (name rest : Str) (val : Value)
    (hs : ∀ c ∈ name, rustWhitespace c = false) (hd : '-' ∈ name) :
    ∃ defs, register [] [.sym name, val] = some defs ∧
      tab w engine z current defs (name ++ rest) = tab w engine z current [] (name ++ rest) := by
  refine ⟨_, rfl, C209_untouched_partial _ _ _ _ _ _ ?_⟩
  intro d hm hp
  have ht : d.target = replaceChar '-' ['_'] name := by
    simp only [List.nil_append, List.mem_singleton] at hm
    rw [hm]; cases val <;> rfl
  rw [ht, squash, squashGo_solid name rest false (by rintro rfl; cases hd) hs] at hp
  have hl : ∀ s : Str, (replaceChar '-' ['_'] s).length = s.length := by
    intro s; induction s with
    | nil => rfl
    | cons c s ih =>
      simp only [replaceChar, List.flatMap_cons, List.length_append, List.length_cons] at ih ⊢
      rw [ih]; split <;> simp <;> omega
  have he := List.prefix_iff_eq_take.mp hp
  rw [hl name, List.take_left'] at he
  · have : '-' ∉ replaceChar '-' ['_'] name := by
      intro hm
      rw [replaceChar, List.mem_flatMap] at hm
      obtain ⟨c, -, hc⟩ := hm
      split at hc <;> simp at hc
      · rename_i h; exact h hc.symm
    rw [he] at this; exact this hd
  · rfl

/-- **C209 fails: longer names.** A definition for one command is used for every command whose name begins with it: on the
line `NAMEmore …` the list of NAME is offered. -/
theorem C209_longer_violated (w : World) (z current : Pick) (name more rest : Str) (a b : Str) (items : List Str)
    (hn : Plain name) (ht : ∀ i ∈ a :: b :: items, trim i = i) (hm : w.menu (a :: b :: items) ≠ .none) :
    ∃ defs, register [] [.sym name, .list ((a :: b :: items).map .str)] = some defs ∧
      tab w .none z current defs (name ++ more ++ rest) = w.menu (a :: b :: items) := by
  refine ⟨_, rfl, ?_⟩
  exact C209_list_partial w z current [] _ [name] (a :: b :: items) _ (by simpa using hn)
    (by rw [List.append_assoc]; exact .one name (more ++ rest)) (by simp) ht (by simp) rfl hm

/-- **C209 fails: the last definition.** A definition does not replace an earlier one of the same command: it is never used. -/
theorem C209_last_violated (w : World) (engine z current : Pick) (name : Str) (v v' : Value) (line : Str) :
    ∃ defs defs', register [] [.sym name, v] = some defs ∧ register defs [.sym name, v'] = some defs' ∧
      tab w engine z current defs' line = tab w engine z current defs line := by
  refine ⟨_, _, rfl, rfl, ?_⟩
  have ht : ∀ v : Value, (match v with
      | .list l => { target := replaceChar '-' ['_'] name, candidates := some (l.map print) }
      | .lam e ps b => { target := replaceChar '-' ['_'] name, func := some (.lam e ps b) }
      | .str s => { target := replaceChar '-' ['_'] name, cmd := some s }
      | _ => { target := replaceChar '-' ['_'] name } : Entry).target = replaceChar '-' ['_'] name := by
    intro v; cases v <;> rfl
  simp only [List.nil_append, List.cons_append, tab, fromLisp, ht]
  congr 2
  split <;> rfl

/-- **C209 fails: a blank in front.** On a line that begins with a blank no definition of a name that does not begin with a
dash or `_` is used. -/
theorem C209_blank_violated (w : World) (engine z current : Pick) (c : Char) (name line : Str) (b : Char) (val : Value)
    (hc : c ≠ '-' ∧ c ≠ '_') (hb : rustWhitespace b = true) :
    ∃ defs, register [] [.sym (c :: name), val] = some defs ∧
      tab w engine z current defs (b :: line) = tab w engine z current [] (b :: line) := by
  refine ⟨_, rfl, C209_untouched_partial _ _ _ _ _ _ ?_⟩
  intro d hm hp
  have ht : d.target = c :: replaceChar '-' ['_'] name := by
    simp only [List.nil_append, List.mem_singleton] at hm
    have : replaceChar '-' ['_'] (c :: name) = c :: replaceChar '-' ['_'] name := by
      simp [replaceChar, hc.1]
    rw [hm, ← this]; cases val <;> rfl
  rw [ht, squash, squashGo, if_pos hb, if_neg (by simp)] at hp
  rw [List.cons_prefix_cons] at hp
  exact hc.2 hp.1

/-- **C209 fails: the engine.** Where the engine has something, no definition is used. -/
theorem C209_engine_violated (w : World) (engine z current : Pick) (defs : List Entry) (line : Str) (h : engine ≠ .none) :
    tab w engine z current defs line = engine := orElse_some h

/-- **C209 fails: stars.** The only line of the output of a command loses its first two characters when it begins with a
star, whatever the second one is. -/
theorem C209_star_violated (w : World) (z current : Pick) (ws : List Str) (line cmd : Str) (c : Char) (v : Str)
    (hw : ∀ x ∈ ws, Plain x) (hb : Begins ws line) (ht : trim ('*' :: c :: v) = '*' :: c :: v) (hn : '\n' ∉ c :: v)
    (hrun : w.run cmd = some ('*' :: c :: v ++ ['\n'])) :
    ∃ defs, register [] [.sym (joinWith ['-'] ws), .str cmd] = some defs ∧ tab w .none z current defs line = .selected v := by
  refine ⟨_, rfl, ?_⟩
  show (fromLisp w _ line).orElse _ = _
  rw [fromLisp_skip w [] _ _ (by simp), fromLisp_one]
  · have hl : Env.lines ('*' :: c :: v ++ ['\n']) = ['*' :: c :: v] := by
      have := Env.lines_flatMap (g := fun i : Str => i) (l := ['*' :: c :: v]) (by simpa using hn)
      simpa using this
    have hf : fromCmd w cmd = .selected ('*' :: c :: v) := by
      rw [fromCmd, hrun]
      simp only [hl, List.map_cons, List.map_nil, ht]
      rfl
    simp only [Entry.complete, hf]
    rfl
  · rw [target_words ws hw]; exact begins_prefix hb false hw

/-- **C209 fails: the argument.** A function that does come in is given the line with `_` for its blanks: it cannot tell two
lines that differ in this only. -/
theorem C209_argument_violated (w : World) (e : Entry) (f : Value) (line line' : Str) (hf : e.func = some f)
    (h : squash line = squash line') : e.complete w line = e.complete w line' := by
  simp only [Entry.complete, hf, h]

/-- **C209 fails: functions that change settings.** A function that sets a variable, an alias or any other part of the
environment stops the shell for good on Tab. -/
theorem C209_hang_violated (w : World) (z current : Pick) (defs : List Entry) (ws : List Str) (line : Str) (env : Nat)
    (ps : List Str) (body : List Value) (hw : ∀ x ∈ ws, Plain x) (hb : Begins ws line)
    (hd : ∀ d ∈ defs, ¬ d.target <+: squash line) (hr : w.apply (.lam env ps body) (squash line) = .writes) :
    ∃ defs', register defs [.sym (joinWith ['-'] ws), .lam env ps body] = some defs' ∧
      tab w .none z current defs' line = .hangs := by
  refine ⟨_, rfl, ?_⟩
  show (fromLisp w _ line).orElse _ = _
  rw [fromLisp_skip w _ _ _ hd, fromLisp_one]
  · simp only [Entry.complete, hr]; rfl
  · rw [target_words ws hw]; exact begins_prefix hb false hw

/-! ### Examples -/

def demo : World := ⟨fun _ => some c!"main\ndev\n", fun _ _ => .error, .interactive⟩

theorem begins_run : Begins [c!"git", c!"checkout"] c!"git  checkout " := .cons c!"git" c!"  " c!"checkout " _ (by decide) (by decide) (.one c!"checkout" c!" ")

theorem words_run : ∀ x ∈ [c!"git", c!"checkout"], Plain x := by
  intro x hx
  simp only [List.mem_cons, List.not_mem_nil, or_false] at hx
  rcases hx with rfl | rfl <;> exact ⟨by decide, by decide⟩

theorem list_run : tab demo .none .none .none [⟨c!"git_checkout", none, none, some [c!"main", c!"dev"]⟩] c!"git  checkout " =
    .interactive [c!"main", c!"dev"] :=
  C209_list_partial demo .none .none [] _ [c!"git", c!"checkout"] [c!"main", c!"dev"] _ words_run begins_run (by simp) (by decide)
    (by decide) rfl (by decide)

theorem command_run : tab demo .none .none .none [⟨c!"git_checkout", some c!"git branch", none, none⟩] c!"git  checkout " =
    .interactive [c!"main", c!"dev"] :=
  C209_command_partial demo .none .none [] _ [c!"git", c!"checkout"] [c!"main", c!"dev"] _ c!"git branch" words_run begins_run
    (by simp) (by decide) (by decide) rfl rfl ⟨_, .inl rfl⟩

/-- `docker-compose` and `docker compose`: the definition of the one is used for the other. -/
theorem dash_run :
    let defs : List Entry := [⟨c!"docker_compose", none, none, some [c!"up", c!"down"]⟩]
    tab demo .none .none .none defs c!"docker-compose " = .none ∧
      tab demo .none .none .none defs c!"docker compose " = .interactive [c!"up", c!"down"] := by decide

/-- `*.c` is taken as `c`. -/
theorem star_run : tab ⟨fun _ => some c!"*.c\n", fun _ _ => .error, .interactive⟩ .none .none .none
    [⟨c!"cc", some c!"ls", none, none⟩] c!"cc " = .selected c!"c" := by decide

theorem blanks_run : squash c!"git  checkout a_b" = squash c!"git checkout_a b" := by decide

end Dsh.AutoComp
