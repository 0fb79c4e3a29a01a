import Verif.Util
/-!
# `procs`

`dsh-builtin/src/procs.rs`: a table of the running processes with one row highlighted, a filter, and keys that send signals.

Simplified: the processes the system reports are a parameter of each step, in the order of the map they are kept in; a process is its
number, its name and its use of the processor, which is a number that can always be compared. `str::to_lowercase` is a parameter. Errors of the
terminal end the loop and are left out. That a number is given to another process between the last report and the signal is not modelled.
-/
namespace Dsh.Procs

abbrev Str := List Char

/-- A row of the table (procs.rs:29). -/
structure Proc where
  pid : Nat
  name : Str
  cpu : Nat
deriving DecidableEq, Repr

/-- `str::contains`. -/
def contains (needle : Str) : Str → Bool
  | [] => needle.isEmpty
  | c :: s => needle.isPrefixOf (c :: s) || contains needle s

/-- `App` (procs.rs:27-35). -/
structure App where
  procs : List Proc := []
  sel : Option Nat := none
  filter : Str := []
  typing : Bool := false
deriving DecidableEq, Repr

/-- The rows for a filter (procs.rs:57-82): the most busy first, `sort_by` is stable. -/
def rows (low : Str → Str) (filter : Str) (snap : List Proc) : List Proc :=
  let sorted := sortBy (fun a b => decide (b.cpu ≤ a.cpu)) snap
  if filter.isEmpty then sorted else sorted.filter fun p => contains (low filter) (low p.name)

/-- The selection (procs.rs:86-96). -/
def adjust (n : Nat) : Option Nat → Option Nat
  | some i => if i ≥ n then (if n = 0 then none else some (n - 1)) else some i
  | none => if n = 0 then none else some 0

/-- `refresh_processes` (procs.rs:57-97). -/
def App.refresh (low : Str → Str) (a : App) (snap : List Proc) : App :=
  let ps := rows low a.filter snap
  { a with procs := ps, sel := adjust ps.length a.sel }

/-- `App::new` (procs.rs:38-55). -/
def App.start (low : Str → Str) (snap : List Proc) : App := ({} : App).refresh low snap

/-- `next` (procs.rs:106-121). -/
def App.next (a : App) : App :=
  if a.procs.isEmpty then a
  else { a with sel := some (match a.sel with
    | some i => if i ≥ a.procs.length - 1 then 0 else i + 1
    | none => 0) }

/-- `previous` (procs.rs:123-138). -/
def App.previous (a : App) : App :=
  if a.procs.isEmpty then a
  else { a with sel := some (match a.sel with
    | some i => if i = 0 then a.procs.length - 1 else i - 1
    | none => 0) }

/-- The keys the loop knows. -/
inductive Code where
  | char (c : Char) | enter | esc | backspace | up | down | other
deriving DecidableEq, Repr

/-- A key with its modifier; the loop looks at the code only. -/
structure Key where
  code : Code
  ctrl : Bool := false
deriving DecidableEq, Repr

inductive Signal where | term | kill
deriving DecidableEq, Repr

/-- What a key does besides changing the table. -/
inductive Eff where
  | none | quit
  | signal (pid : Nat) (s : Signal)
deriving DecidableEq, Repr

/-- `kill_selected` (procs.rs:140-147). The table holds processes of the last report only, so `system.process` finds it. -/
def App.kill (a : App) (s : Signal) : Eff :=
  match a.sel.bind fun i => a.procs[i]? with
  | some p => .signal p.pid s
  | none => .none

/-- One key (procs.rs:206-244); `snap` is what the system reports if the table is refreshed. -/
def App.key (low : Str → Str) (a : App) (snap : List Proc) (k : Key) : App × Eff :=
  if a.typing then
    match k.code with
    | .enter => ({ a with typing := false }, .none)
    | .esc => ({ a with typing := false, filter := [] }.refresh low snap, .none)
    | .char c => ({ a with filter := a.filter ++ [c] }.refresh low snap, .none)
    | .backspace => ({ a with filter := a.filter.dropLast }.refresh low snap, .none)
    | _ => (a, .none)
  else
    match k.code with
    | .esc => (a, .quit)
    | .down => (a.next, .none)
    | .up => (a.previous, .none)
    | .char c =>
      if c = 'q' then (a, .quit)
      else if c = 'j' then (a.next, .none)
      else if c = 'k' then (a.previous, .none)
      else if c = '/' then ({ a with typing := true }, .none)
      else if c = 'x' then (a, a.kill .term)
      else if c = 'X' then (a, a.kill .kill)
      else (a, .none)
    | _ => (a, .none)

/-- One turn of the loop (procs.rs:203-251): the table is drawn, a key may come, a second may have passed. -/
structure Turn where
  key : Option Key
  snap : List Proc
  tick : Option (List Proc)

/-- `on_tick` (procs.rs:99-104). -/
def App.tick (low : Str → Str) (a : App) : Option (List Proc) → App
  | some snap => a.refresh low snap
  | none => a

/-- The effect of a turn and the table behind it. -/
def App.turn (low : Str → Str) (a : App) (t : Turn) : App × Eff :=
  match t.key with
  | some k =>
    let r := a.key low t.snap k
    (r.1.tick low t.tick, r.2)
  | none => (a.tick low t.tick, .none)

/-- `run_app` (procs.rs:199-252): each table drawn with what happened in its turn; `quit` ends the loop. -/
def run (low : Str → Str) : App → List Turn → List (App × Option Key × Eff)
  | _, [] => []
  | a, t :: ts =>
    let r := a.turn low t
    (a, t.key, r.2) :: (if r.2 = .quit then [] else run low r.1 ts)

end Dsh.Procs
