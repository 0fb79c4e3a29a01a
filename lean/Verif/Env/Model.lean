import Verif.Hist.Output
/-!
Variables, exported variables and the environment of programs
(dsh/src/environment/variables.rs, dsh/src/process/process.rs, dsh/src/proxy/mod.rs,
dsh-builtin/src/{set,export}.rs, dsh/src/proxy/builtin/var.rs).

A hash map is a list of pairs with distinct keys.  The order of the list stands for the order in
which Rust iterates over the map, which is arbitrary: theorems about a state hold for every order.
-/
namespace Dsh.Env

abbrev Str := List Char

/-- `HashMap<String, String>`. -/
abbrev Map := List (Str × Str)

/-- `HashMap::get`. -/
def Map.get (m : Map) (k : Str) : Option Str :=
  match m with
  | [] => none
  | (a, v) :: m => if a = k then some v else Map.get m k
/-- `HashMap::remove`. -/
def Map.erase (m : Map) (k : Str) : Map := m.filter fun p => !(p.1 == k)
/-- `HashMap::insert`. -/
def Map.insert (m : Map) (k v : Str) : Map := (k, v) :: m.erase k

/-- `HashSet::insert`. -/
def insertSet (s : List Str) (k : Str) : List Str := if k ∈ s then s else k :: s

/-- The name of the variable that holds the search path. -/
def PATH : Str := c!"PATH"
/-- The name of the variable that holds the kind of terminal. -/
def TERM : Str := c!"TERM"
/-- The kind of terminal programs are told when none is known (process.rs:211,
variables.rs:88). -/
def defaultTerm : Str := c!"xterm-256color"

/-- The parts of `Environment` (environment/mod.rs:75-103) read or written by the functions below.
`outs`, `errs` stand for the history of captured outputs (modelled in `Verif.Hist.Output`), the
numbers `mcp` for the three counts of `McpManager`. -/
structure State where
  /-- `variables`. -/
  vars : Map
  /-- `exported_vars`. -/
  exported : List Str
  /-- `system_env_vars`. -/
  sys : Map
  /-- `paths`. -/
  paths : List Str
  /-- `command_cache`. -/
  cache : List (Str × Option Str)
  /-- `executable_names`. -/
  names : List Str
  outs : Nat → Option Str
  errs : Nat → Option Str
  mcp : Nat × Nat × Nat

/-! ### Assigning -/

/-- `str::split` at one character. -/
def splitOn (c : Char) : Str → List Str
  | [] => [[]]
  | a :: s => if a = c then [] :: splitOn c s
    else match splitOn c s with
      | [] => [[a]]
      | w :: ws => (a :: w) :: ws

/-- The directories searched when there is no `PATH` (paths.rs:102-105). -/
def defaultPaths : List Str := [c!"/bin", c!"/usr/bin", c!"/sbin", c!"/usr/sbin"]

/-- `reload_path` (paths.rs:101-116). -/
def reloadPath (e : State) : State :=
  { e with
    paths := match e.sys.get PATH with
      | some v => splitOn ':' v
      | none => defaultPaths
    cache := []
    names := [] }

/-- `set_system_env_var` (variables.rs:56-64) without the exclusions of the directory history. -/
def setSys (e : State) (k v : Str) : State :=
  let e := { e with sys := e.sys.insert k v }
  if k = PATH then reloadPath e else e

/-- `unset_system_env_var` (variables.rs:67-75) without the exclusions of the directory history. -/
def unsetSys (e : State) (k : Str) : State :=
  let e := { e with sys := e.sys.erase k }
  if k = PATH then reloadPath e else e

/-- `set_var` (proxy/mod.rs:142-144). -/
def setVar (e : State) (k v : Str) : State := { e with vars := e.vars.insert k v }

/-- `export_var` (proxy/mod.rs:288-298). -/
def exportVar (e : State) (k : Str) : State := { e with exported := insertSet e.exported k }

/-- `set_and_export_var` (proxy/mod.rs:300-304). -/
def setAndExport (e : State) (k v : Str) : State :=
  { e with vars := e.vars.insert k v, exported := insertSet e.exported k }

/-- `str::split_once`. -/
def splitOnce (c : Char) : Str → Option (Str × Str)
  | [] => none
  | a :: s => if a = c then some ([], s)
    else match splitOnce c s with
      | some (x, y) => some (a :: x, y)
      | none => none

/-- One argument of `export` (export.rs:22-30). -/
def exportArg (e : State) (arg : Str) : State :=
  match splitOnce '=' arg with
  | some (k, v) => setAndExport e k v
  | none => exportVar e arg

/-- `execute_read` (proxy/builtin/var.rs:39-58) for input that is UTF-8: the newlines at its end are
dropped and the value is stored under the name with a `$` in front. -/
def readVar (e : State) (k input : Str) : State :=
  setVar e ('$' :: k) (input.reverse.dropWhile (· == '\n')).reverse

/-- The commands of the user that assign variables. -/
inductive Op
  /-- `set name value` (set.rs:51). -/
  | set (k v : Str)
  /-- `set -x name value` (set.rs:48). -/
  | setx (k v : Str)
  /-- `export argument` (export.rs:22-30). -/
  | exp (arg : Str)
  /-- `read name`. -/
  | read (k input : Str)
  /-- A variable dropped after `include` (include.rs:130). -/
  | unset (k : Str)

/-- One command. -/
def step (e : State) : Op → State
  | .set k v => setVar e k v
  | .setx k v => setSys e k v
  | .exp a => exportArg e a
  | .read k s => readVar e k s
  | .unset k => unsetSys e k

/-- A sequence of commands. -/
def run (e : State) (l : List Op) : State := l.foldl step e

/-! ### Reading -/

/-- The decimal digits of a number (`usize::to_string`). -/
def showNat (n : Nat) : Str := (toString n).toList

/-- `get_var` (variables.rs:9-44). -/
def getVar (e : State) (key : Str) : Option Str :=
  match OutHist.parseOutputVar key c!"OUT" with
  | some i => e.outs i
  | none =>
  match OutHist.parseOutputVar key c!"ERR" with
  | some i => e.errs i
  | none =>
  if key = c!"MCP_SERVERS" then some (showNat e.mcp.1)
  else if key = c!"MCP_CONNECTED" then some (showNat e.mcp.2.1)
  else if key = c!"MCP_TOOLS" then some (showNat e.mcp.2.2)
  else match e.vars.get key with
    | some v => some v
    | none => match key with
      | '$' :: n => e.sys.get n
      | _ => e.sys.get key

/-! ### What a program is given -/

/-- The text `name=value`. -/
def entry (k v : Str) : Str := k ++ '=' :: v

/-- `CString::new`: no text containing the character zero can be handed to a program. -/
def cstring (s : Str) : Option Str := if '\x00' ∈ s then none else some s

/-- The loop over the system variables (process.rs:149-159). -/
def sysEntries (e : State) : List Str :=
  e.sys.filterMap fun p =>
    if p.1 ∈ e.exported then none
    else if p.1 = TERM ∧ p.2 = [] then none
    else cstring (entry p.1 p.2)

/-- The loop over the exported names (process.rs:169-185). -/
def expEntries (e : State) : List Str :=
  e.exported.filterMap fun k =>
    match e.vars.get k with
    | none => none
    | some v => if k = TERM ∧ v = [] then none else cstring (entry k v)

/-- `term_set` after process.rs:198. -/
def termSet (e : State) : Bool :=
  if TERM ∈ e.exported then
    match e.vars.get TERM with
    | some v => !v.isEmpty
    | none => false
  else match e.sys.get TERM with
    | some v => !v.isEmpty
    | none => false

/-- `prepare_execution` (process.rs:125-225): the environment of a program started from the command
line. -/
def prepare (e : State) : List Str :=
  sysEntries e ++ expEntries e ++ (if termSet e then [] else [entry TERM defaultTerm])

/-- `child_process_env` (variables.rs:78-92): the environment of a program started by a builtin
(proxy/external.rs:32). -/
def childEnv (e : State) : Map :=
  let m := e.exported.foldl (fun m k => match e.vars.get k with
    | some v => m.insert k v
    | none => m) e.sys
  match m.get TERM with
  | some v => if v.isEmpty then m.insert TERM defaultTerm else m
  | none => m.insert TERM defaultTerm

end Dsh.Env
