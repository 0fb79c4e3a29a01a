import Verif.Prompt.Git
import Verif.Suggest.Model
/-!
The command palette (dsh/src/command_palette, dsh/src/repl/key_handlers/auxiliary.rs, dsh/src/repl/mod.rs): C143, C144.

The picker is a parameter: it gives the items that are selected when it closes and whether it was closed with Esc.  Programs that are started are
lists of words; what git, ps, docker and the others print is a parameter.
-/
namespace Dsh.Pal

abbrev Str := List Char
open Dsh.Prm (words)

/-- An action with what it does (a number stands for its code). -/
structure Act where
  name : Str
  category : Str := c!"General"
  body : Nat
deriving DecidableEq

/-- `register` (command_palette/mod.rs:50-52); the map is a list in any order. -/
def register (a : Act) (reg : List Act) : List Act := a :: reg.filter fun b => b.name != a.name

/-- The comparison of `get_all`. -/
def actLe (a b : Act) : Bool :=
  if a.category = b.category then Dsh.Suggest.strLe a.name b.name else Dsh.Suggest.strLe a.category b.category

/-- `get_all` (command_palette/mod.rs:54-66). -/
def getAll (reg : List Act) : List Act := sortBy actLe reg

/-- How the picker was left: the selected items (the one under the caret if none is marked) and whether with Esc. -/
structure Picked where
  items : List Str
  aborted : Bool

/-- What the palette does after the picker (command_palette/mod.rs:153-180): the history is searched, code runs, or nothing. -/
inductive Chosen where
  | history
  | runs (body : Nat)
  | nothing
deriving DecidableEq

def choose (reg : List Act) (p : Picked) : Chosen :=
  match p.items with
  | [] => .nothing
  | name :: _ =>
    if name = c!"Search History" then .history
    else match reg.find? fun a => a.name == name with
      | some a => .runs a.body
      | none => .nothing

/-- The end of an action. -/
inductive Outcome where
  | ok
  | err
deriving DecidableEq

/-- The loop of the shell as far as the palette is concerned: does it go on, and is the terminal in raw mode. -/
structure Loop where
  alive : Bool := true
  raw : Bool := true
deriving DecidableEq

/-- `handle_open_command_palette` (auxiliary.rs:17-34) and its caller (repl/mod.rs:978-992). -/
def openPalette (o : Outcome) (l : Loop) : Loop :=
  match o with
  | .ok => { l with raw := true }
  | .err => { alive := false, raw := false }

/-- A program that is started. -/
abbrev Cmd := List Str

/-- `GitCheckoutAction` (actions/git_checkout.rs:22-65): `branches` is `none` if git fails. -/
def checkout (branches : Option (List Str)) (p : Picked) : Outcome × List Cmd :=
  match branches with
  | none => (.err, [])
  | some [] => (.err, [])
  | some _ =>
    match p.items with
    | b :: _ => (.ok, [[c!"git", c!"checkout", b]])
    | [] => (.ok, [])

/-- `KillProcessAction` (actions/kill_process.rs:22-76). -/
def kill (p : Picked) : List Cmd :=
  match p.items with
  | line :: _ =>
    match (words line)[1]? with
    | some pid => [[c!"kill", pid]]
    | none => []
  | [] => []

/-- `GitStashAction` (actions/git_stash.rs:61-101). -/
def stash (p action : Picked) : List Cmd :=
  match p.items with
  | [] => []
  | entry :: _ =>
    match action.items with
    | a :: _ => [[c!"git", c!"stash", a, entry.takeWhile (· != ':')]]
    | [] => []

/-- `DockerContainersAction` (actions/docker_containers.rs:69-123). -/
def docker (p action : Picked) : List Cmd :=
  match p.items with
  | [] => []
  | line :: _ =>
    let name := line.takeWhile (· != '\t')
    if name.isEmpty then []
    else match action.items with
      | a :: _ => [[c!"docker"] ++ words a ++ [name]]
      | [] => []

/-- `PortCheckAction` (actions/port_check.rs:70-94); `yes` is the answer. -/
def port (p : Picked) (yes : Bool) : List Cmd :=
  match p.items with
  | line :: _ =>
    let parts := words line
    if parts.length ≥ 2 then (if yes then [[c!"kill", (parts[1]?).getD []]] else []) else []
  | [] => []

/-- The lines offered by `GitPushPullAction` (actions/git_push_pull.rs:43-48). -/
def pushLines (branch : Str) : List Str :=
  [c!"push (git push origin " ++ branch ++ c!")", c!"pull (git pull origin " ++ branch ++ c!")", c!"push --force-with-lease", c!"fetch --all"]

/-- `GitPushPullAction` (actions/git_push_pull.rs:65-86). -/
def push (branch : Str) (p : Picked) : List Cmd :=
  match p.items with
  | a :: _ =>
    if c!"push (".isPrefixOf a then [[c!"git", c!"push", c!"origin", branch]]
    else if c!"pull (".isPrefixOf a then [[c!"git", c!"pull", c!"origin", branch]]
    else if c!"push --force".isPrefixOf a then [[c!"git", c!"push", c!"--force-with-lease", c!"origin", branch]]
    else [[c!"git", c!"fetch", c!"--all"]]
  | [] => []

/-- `GitDiffAction` (actions/git_diff.rs:79-90). -/
def diff (p : Picked) : List Cmd :=
  match p.items with
  | f :: _ => [[c!"git", c!"diff", c!"--color=always", c!"--", f]]
  | [] => []

/-- `FindFileAction` (actions/find_file.rs:66-81): the program is the whole value of the variable. -/
def findFile (editor visual : Option Str) (p : Picked) : List Cmd :=
  match p.items with
  | f :: _ => [[(editor.or visual).getD c!"vim", f]]
  | [] => []

/-- The hosts of one line of the configuration, `parse_ssh_config` (actions/ssh_connect.rs:67-88). -/
def hostsOf (line : Str) : List Str :=
  let line := trim line
  if (line.take 5).map Char.toLower = c!"host " then
    let part := trim (line.drop 5)
    if part.any (fun c => c == '*' || c == '?') then []
    else (words part).filter fun h => !h.any fun c => c == '*' || c == '?'
  else []

/-- `SshConnectAction` (actions/ssh_connect.rs:24-64). -/
def ssh (p : Picked) : List Cmd :=
  match p.items with
  | h :: _ => [[c!"ssh", h]]
  | [] => []

/-- What a change of directory keeps in step. -/
structure Place where
  cwd : Str
  oldpwd : Option Str := none
  visits : List Str := []
  hooks : List Str := []
deriving DecidableEq

/-- `changepwd` (proxy/mod.rs:90-112) to a directory that exists. -/
def cdTo (d : Str) (s : Place) : Place := { cwd := d, oldpwd := some s.cwd, visits := s.visits ++ [d], hooks := s.hooks ++ [d] }

/-- `JumpDirectoryAction` (actions/jump_directory.rs:59-71). -/
def jump (p : Picked) (s : Place) : Place :=
  match p.items with
  | d :: _ => { s with cwd := d }
  | [] => s

end Dsh.Pal
