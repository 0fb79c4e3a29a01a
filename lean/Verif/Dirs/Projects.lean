import Verif.Util
/-!
# The projects of `pm` and `pj`, and the project one is in

`dsh-builtin/src/project.rs` (here project.rs; `pm activate` is C97), `dsh-types/src/project.rs` (types/project.rs),
`dsh/src/shell/hooks.rs` (hooks.rs) and `changepwd` of `dsh/src/proxy/mod.rs` (proxy/mod.rs).

Simplified: a directory is the list of its components, without links; what a text means as a path, whether a directory is
still there and where one lands in it are given by the world. The file of the projects is absent, a list, or no longer
readable. Messages are left out; a status is a number. Descriptions of projects are never set and are left out.
-/
namespace Dsh.Projects

abbrev Str := List Char
abbrev Path := List Str

/-- `Project` (types/project.rs:4-11). -/
structure Project where
  name : Str
  path : Path
  last : Nat
  created : Nat
deriving DecidableEq, Repr

/-- `projects.json` (project.rs:84-87). `bad`: what is there is not JSON of projects. -/
inductive Disk where
  | absent
  | list (ps : List Project)
  | bad
deriving DecidableEq, Repr

/-- `load_projects` (project.rs:89-97); nothing is an error. -/
def load : Disk → Option (List Project)
  | .absent => some []
  | .list ps => some ps
  | .bad => none

/-- The world around: what a text means as a path seen from a directory (`canonicalize`), where one lands who goes to a
directory (nothing: it cannot be entered), and whether the settings of the directory (`direnv`) can be read. -/
structure World where
  resolve : Path → Str → Option Path
  land : Path → Option Path
  settings : Path → Bool

/-- The shell, as far as projects go: `var` is `DSH_PROJECT` among its variables, `inherited` what the environment it was
started with has, `hooked` the names the hooks for a change of project were called with. -/
structure St where
  disk : Disk
  cwd : Path
  now : Nat
  var : Option Str
  inherited : Option Str
  hooked : List Str
deriving DecidableEq, Repr

/-- `$DSH_PROJECT` (`get_var`, environment/variables.rs:32-43). -/
def St.project (s : St) : Option Str := s.var.or s.inherited

/-! ### The project of a directory -/

/-- One round of the loop (project.rs:110-124). -/
def better (dir : Path) (best : Option Project) (p : Project) : Option Project :=
  if p.path.isPrefixOf dir then
    match best with
    | none => some p
    | some q => if p.path.length > q.path.length then some p else best
  else best

/-- `find_project_by_path` (project.rs:103-126), of a directory without links. -/
def find (ps : List Project) (dir : Path) : Option Project := ps.foldl (better dir) none

/-- What happens in a new directory: the end of `exec_chpwd_hooks` (hooks.rs:32-61). -/
def arrive (s : St) : St :=
  let new := ((load s.disk).bind (find · s.cwd)).map (·.name)
  if new = s.project then s
  else
    match new with
    | some n => { s with var := some n, hooked := s.hooked ++ [n] }
    | none => { s with var := none }

/-- `changepwd` (proxy/mod.rs:90-112) with `exec_chpwd_hooks` (hooks.rs:10-64); nothing of other hooks. The second
component says whether it worked. -/
def go (w : World) (s : St) (p : Path) : St × Bool :=
  match w.land p with
  | none => (s, false)
  | some d =>
    let s := { s with cwd := d }
    if w.settings d then (arrive s, true) else (s, false)

/-! ### The commands -/

/-- `add` (project.rs:138-173); nothing is an error. -/
def add (w : World) (s : St) (args : List Str) : Option Disk :=
  match (match args with | [] => some s.cwd | a :: _ => w.resolve s.cwd a) with
  | none => none
  | some path =>
    match (match args with | _ :: n :: _ => some n | _ => path.getLast?) with
    | none => none
    | some name =>
      match load s.disk with
      | none => none
      | some ps =>
        if ps.any (·.name == name) then none
        else if ps.any (·.path == path) then none
        else some (.list (ps ++ [⟨name, path, s.now, s.now⟩]))

/-- `remove` (project.rs:199-216). -/
def remove (s : St) (args : List Str) : Option Disk :=
  match args with
  | [] => none
  | name :: _ =>
    match load s.disk with
    | none => none
    | some ps =>
      let rest := ps.filter (·.name != name)
      if rest.length = ps.length then none else some (.list rest)

/-- `projects[project_idx].update_timestamp()` for the first with the name (project.rs:225-233). -/
def touch (name : Str) (now : Nat) : List Project → List Project
  | [] => []
  | p :: ps => if p.name = name then { p with last := now } :: ps else p :: touch name now ps

/-- `work` (project.rs:218-244). -/
def work (w : World) (s : St) (args : List Str) : St × Bool :=
  match args with
  | [] => (s, false)
  | name :: _ =>
    match load s.disk with
    | none => (s, false)
    | some ps =>
      match ps.find? (·.name == name) with
      | none => (s, false)
      | some p => go w { s with disk := .list (touch name s.now ps) } p.path

/-- The order of lists: those used last first, otherwise as registered (`sort_by_key` with `Reverse`; project.rs:177,
456). -/
def ordered (ps : List Project) : List Project := sortBy (fun a b => decide (b.last ≤ a.last)) ps

/-- `list` (project.rs:175-197): the names in the order they are listed. -/
def list (s : St) : Option (List Str) := (load s.disk).map fun ps => (ordered ps).map (·.name)

/-- `jump` (project.rs:449-471); `choose` is what the user picks of the names. -/
def jump (w : World) (choose : List Str → Option Str) (s : St) (args : List Str) : St × Bool :=
  match args with
  | _ :: _ => work w s args
  | [] =>
    match list s with
    | none => (s, false)
    | some [] => (s, true)
    | some names =>
      match choose names with
      | none => (s, true)
      | some n => work w s [n]

/-- The effect of a command that only writes the file. -/
def write (s : St) : Option Disk → St × Nat
  | some d => ({ s with disk := d }, 0)
  | none => (s, 1)

/-- The status of a command that goes somewhere. -/
def status (r : St × Bool) : St × Nat := (r.1, if r.2 then 0 else 1)

/-- `command` (project.rs:15-82), without `activate`. -/
def command (w : World) (choose : List Str → Option Str) (s : St) (argv : List Str) : St × Nat :=
  match argv with
  | [] => (s, 1)
  | cmd :: args =>
    if cmd = c!"pj" then status (jump w choose s args)
    else
      match args with
      | [] => (s, 1)
      | sub :: rest =>
        if sub = c!"add" then write s (add w s rest)
        else if sub = c!"list" ∨ sub = c!"ls" then (s, if (list s).isSome then 0 else 1)
        else if sub = c!"remove" ∨ sub = c!"rm" then write s (remove s rest)
        else if sub = c!"work" then status (work w s rest)
        else if sub = c!"jump" then status (jump w choose s rest)
        else (s, 1)

/-- What happens to a shell: a command of projects at some time, going to a directory, another shell that writes the
file, or a write of the file that is cut (`fs::write`, project.rs:128-136, empties the file first). -/
inductive Ev where
  | run (argv : List Str) (pick : List Str → Option Str) (now : Nat)
  | cd (p : Path)
  | other (d : Disk)
  | cut

def ev (w : World) (s : St) : Ev → St
  | .run argv pick now => (command w pick { s with now := now } argv).1
  | .cd p => (go w s p).1
  | .other d => { s with disk := d }
  | .cut => { s with disk := .bad }

def evs (w : World) (s : St) (l : List Ev) : St := l.foldl (ev w) s

/-- A shell that has just been started in a directory (no hook runs then: the only caller of the hooks is
proxy/mod.rs:110). -/
def start (d : Disk) (cwd : Path) : St := ⟨d, cwd, 0, none, none, []⟩

end Dsh.Projects
