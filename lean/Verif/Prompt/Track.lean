import Verif.Prompt.Git
/-!
Which repository and which report of git the prompt shows (dsh/src/prompt/mod.rs, dsh/src/repl/mod.rs): C141.

The file system and git are a parameter that may be different at each step.  The background task is cut at its two waits; what it reads at its
start is read when the message is taken.  The set of known roots is a list in any order.  The watcher of files is an event that sends a message.
Times are in milliseconds.
-/
namespace Dsh.Prm

/-- What is on the disk: the root found from a directory, the report of `git -C`, and the branch in the `HEAD` of a root. -/
structure Disk where
  rootOf : Path → Option Path
  report : Path → Option Status
  head : Path → Option Str

/-- The waits of the background task (repl/mod.rs:901-919). -/
inductive Task where
  | finding (cwd : Path)
  | fetching (path : Path)
deriving DecidableEq

/-- `Prompt` with the messages, the time of the last task and the task of `Repl`. -/
structure Pr where
  dir : Path
  root : Option Path := none
  needs : Bool := true
  known : List Path := []
  cache : Option (Status × Path) := none
  msgs : Nat := 0
  last : Option Nat := none
  task : Option Task := none
deriving DecidableEq

/-- `under_git` (prompt/mod.rs:512-518). -/
def Pr.under (p : Pr) : Bool :=
  match p.root with
  | some r => r.isPrefixOf p.dir
  | none => false

/-- `set_current` (prompt/mod.rs:533-572). -/
def Pr.cd (dir : Path) (p : Pr) : Pr :=
  let p := { p with dir := dir }
  if p.under then p
  else match p.known.find? (fun k => k.isPrefixOf dir) with
    | some k => { p with root := some k, cache := none, needs := false }
    | none => { p with root := none, needs := true, msgs := p.msgs + 1 }

/-- `update_git_root` (prompt/mod.rs:603-610). -/
def Pr.setRoot (root : Option Path) (p : Pr) : Pr :=
  { p with
    root := root
    known := match root with | some r => if p.known.contains r then p.known else r :: p.known | none => p.known
    needs := false
    cache := none }

/-- `update_git_status` (prompt/mod.rs:653-665). -/
def Pr.setReport (s : Option Status) (p : Pr) : Pr :=
  match p.root, s with
  | some r, some s => { p with cache := some (s, r) }
  | _, _ => p

/-- `get_git_status_cached` (prompt/mod.rs:628-640). -/
def Pr.cached (p : Pr) : Option Status :=
  match p.root, p.cache with
  | some r, some (s, r') => if r' = r then some s else none
  | _, _ => none

/-- `trigger_git_check` (prompt/mod.rs:618-622). -/
def Pr.send (p : Pr) : Pr := { p with msgs := p.msgs + 1 }

/-- A message is taken (repl/mod.rs:887-923). -/
def Pr.recv (now : Nat) (p : Pr) : Pr :=
  match p.msgs with
  | 0 => p
  | m + 1 =>
    let p := { p with msgs := m }
    if (p.last.any fun l => decide (now < l + 200)) || p.task.isSome then p
    else
      { p with
        last := some now
        task := if p.needs then some (.finding p.dir) else if p.root.isSome then some (.fetching p.dir) else none }

/-- The task goes on to its next wait or its end (repl/mod.rs:904-919). -/
def Pr.step (D : Disk) (p : Pr) : Pr :=
  match p.task with
  | none => p
  | some (.finding cwd) =>
    let p := p.setRoot (D.rootOf cwd)
    { p with task := if p.root.isSome then some (.fetching p.dir) else none }
  | some (.fetching path) => { p.setReport (D.report path) with task := none }

/-- `print_preprompt` (prompt/mod.rs:337-376): the report shown. -/
def Pr.print (D : Disk) (p : Pr) : Option Status × Pr :=
  let s := p.cached
  if p.under then
    match p.root.bind D.head with
    | some b =>
      match s with
      | some s => if s.branch ≠ b then (some { s with branch := b }, { p with cache := none, needs := true }) else (some s, p)
      | none => (some { branch := b }, { p with cache := none, needs := true })
    | none => (s, p)
  else (s, p)

end Dsh.Prm
