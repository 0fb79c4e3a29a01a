import Verif.Completion.Live
import Verif.Prompt.Git
import Verif.Jobs.Record
/-!
What `doctor project` says about the project one is in: its root, the languages and the versions they are wanted in, the files to
activate (dsh-builtin/src/project_context.rs, doctor.rs): C198.

The current directory and those around it are a list, nearest first; a file is its place in that list and its name.  The library
for TOML is a parameter.
-/
namespace Dsh.Context

abbrev Str := List Char

open Dsh.Record (lines)
open Dsh.Prm (words)
open Dsh.Live (markers)

/-- What is under a name: a directory, or a file with its text if it can be read. -/
inductive Node where
  | dir
  | file (text : Option Str)
deriving DecidableEq, Repr

/-- A directory. -/
abbrev Level := Str → Option Node

/-- A value of TOML. -/
inductive Toml where
  | str (s : Str)
  | table (l : List (Str × Toml))
  | arr (l : List Toml)
  | other

/-- The file: which directory, and its name. -/
abbrev Place := Nat × Str

/-- `has_any_marker` (project_context.rs:93-97). -/
def marked (l : Level) : Bool := markers.any fun m => (l m).isSome

/-- `find_project_root` (project_context.rs:81-91). -/
def root (ls : List Level) : Nat := (ls.findIdx? marked).getD 0

/-- `find_path_upwards` (project_context.rs:376-384). -/
def upwards (ls : List Level) (n : Str) : Option Nat := ls.findIdx? fun l => (l n).isSome

/-- `root.join(n).exists()`. -/
def atRoot (ls : List Level) (n : Str) : Bool := ((ls[root ls]?).bind (· n)).isSome

/-- The text of a file (`fs::read_to_string`). -/
def text (ls : List Level) (i : Nat) (n : Str) : Option Str :=
  match (ls[i]?).bind (· n) with
  | some (.file t) => t
  | _ => none

/-- Lines left out: blank ones and comments. -/
def skipped (l : Str) : Bool := (trim l).isEmpty || (trim l).head? == some '#'

/-- `read_trimmed_file` (project_context.rs:386-393). -/
def firstLine (s : Str) : Option Str := ((lines s).map trim).find? fun l => !l.isEmpty && l.head? != some '#'

/-- `parse_tool_versions` (project_context.rs:330-346). -/
def toolLine (names : List Str) : List Str → Option Str
  | [] => none
  | l :: ls =>
    if skipped l then toolLine names ls
    else match words (trim l) with
      | [] => none
      | tool :: rest =>
        if names.contains tool then rest.head? else toolLine names ls

/-- `TomlValue::get` of a table. -/
def Toml.get (k : Str) : Toml → Option Toml
  | .table l => l.lookup k
  | _ => none

def Toml.text : Toml → Option Str
  | .str s => some s
  | _ => none

mutual
/-- `extract_version_from_toml` (project_context.rs:364-374). -/
def version : Toml → Option Str
  | .str s => some s
  | .table l => (l.lookup c!"version").bind Toml.text
  | .arr l => versions l
  | .other => none

def versions : List Toml → Option Str
  | [] => none
  | v :: l => (version v).or (versions l)
end

/-- `parse_mise_tool_version` (project_context.rs:348-362). -/
def miseVersion (toml : Str → Option Toml) (names : List Str) (s : Str) : Option Str :=
  (toml s).bind fun v => (v.get c!"tools").bind fun
    | .table l => names.findSome? fun n => (l.lookup n).bind version
    | _ => none

/-- `RuntimeContext` (project_context.rs:50-55). -/
structure Runtime where
  name : Str
  source : Str
  version : Option Str
  path : Place
deriving DecidableEq, Repr

/-- `detect_runtime_from_text_file` (project_context.rs:255-268). -/
def fromText (ls : List Level) (lang file : Str) : Option Runtime :=
  (upwards ls file).bind fun i => ((text ls i file).bind firstLine).map fun v => ⟨lang, file, some v, (i, file)⟩

/-- `detect_runtime_from_tool_versions` (project_context.rs:270-284). -/
def fromTools (ls : List Level) (lang : Str) (names : List Str) : Option Runtime :=
  (upwards ls c!".tool-versions").bind fun i =>
    ((text ls i c!".tool-versions").bind fun s => toolLine names (lines s)).map fun v => ⟨lang, c!".tool-versions", some v, (i, c!".tool-versions")⟩

/-- `detect_runtime_from_mise` (project_context.rs:286-300). -/
def fromMise (toml : Str → Option Toml) (ls : List Level) (lang : Str) (names : List Str) : Option Runtime :=
  (upwards ls c!"mise.toml").bind fun i =>
    ((text ls i c!"mise.toml").bind (miseVersion toml names)).map fun v => ⟨lang, c!"mise", some v, (i, c!"mise.toml")⟩

/-- `detect_runtime_from_directory` (project_context.rs:241-253). -/
def fromDir (ls : List Level) (lang name : Str) : Option Runtime :=
  (upwards ls name).bind fun i =>
    if (ls[i]?).bind (· name) = some .dir then some ⟨lang, name, none, (i, name)⟩ else none

/-- `detect_runtime_from_rust_toolchain` (project_context.rs:302-328). -/
def fromToolchain (toml : Str → Option Toml) (ls : List Level) : Option Runtime :=
  match upwards ls c!"rust-toolchain.toml" with
  | some i =>
    (((text ls i c!"rust-toolchain.toml").bind toml).bind fun v =>
      ((v.get c!"toolchain").bind (·.get c!"channel")).bind Toml.text).map fun v =>
        ⟨c!"rust", c!"rust-toolchain.toml", some v, (i, c!"rust-toolchain.toml")⟩
  | none => fromText ls c!"rust" c!"rust-toolchain"

/-- `detect_rust_runtime` (project_context.rs:145-164). -/
def rust (toml : Str → Option Toml) (ls : List Level) : Option Runtime :=
  if atRoot ls c!"Cargo.toml" || (upwards ls c!"rust-toolchain.toml").isSome || (upwards ls c!"rust-toolchain").isSome then
    (fromMise toml ls c!"rust" [c!"rust"]).or ((fromTools ls c!"rust" [c!"rust"]).or ((fromToolchain toml ls).or
      (some ⟨c!"rust", c!"Cargo.toml", none, (root ls, c!"Cargo.toml")⟩)))
  else none

/-- `detect_node_runtime` (project_context.rs:166-186). -/
def node (toml : Str → Option Toml) (ls : List Level) : Option Runtime :=
  if atRoot ls c!"package.json" || (upwards ls c!".node-version").isSome || (upwards ls c!".nvmrc").isSome then
    (fromMise toml ls c!"node" [c!"node", c!"nodejs"]).or ((fromTools ls c!"node" [c!"node", c!"nodejs"]).or
      ((fromText ls c!"node" c!".node-version").or ((fromText ls c!"node" c!".nvmrc").or
        (some ⟨c!"node", c!"package.json", none, (root ls, c!"package.json")⟩))))
  else none

/-- `detect_python_runtime` (project_context.rs:188-218). -/
def python (toml : Str → Option Toml) (ls : List Level) : Option Runtime :=
  if atRoot ls c!"pyproject.toml" || atRoot ls c!"requirements.txt" || atRoot ls c!"Pipfile" || atRoot ls c!".venv" ||
      atRoot ls c!"venv" || (upwards ls c!".python-version").isSome then
    (fromMise toml ls c!"python" [c!"python"]).or ((fromTools ls c!"python" [c!"python"]).or
      ((fromText ls c!"python" c!".python-version").or ((fromDir ls c!"python" c!".venv").or ((fromDir ls c!"python" c!"venv").or
        (([c!"pyproject.toml", c!"requirements.txt", c!"Pipfile"].find? (atRoot ls)).map fun n => ⟨c!"python", n, none, (root ls, n)⟩)))))
  else none

/-- `detect_go_runtime` (project_context.rs:220-239). -/
def go (toml : Str → Option Toml) (ls : List Level) : Option Runtime :=
  if atRoot ls c!"go.mod" || (upwards ls c!"go.mod").isSome then
    (fromMise toml ls c!"go" [c!"go"]).or ((fromTools ls c!"go" [c!"go", c!"golang"]).or
      (if atRoot ls c!"go.mod" then some ⟨c!"go", c!"go.mod", none, (root ls, c!"go.mod")⟩ else none))
  else none

/-- `detect_runtimes` (project_context.rs:107-122). -/
def runtimes (toml : Str → Option Toml) (ls : List Level) : List Runtime :=
  (rust toml ls).toList ++ (node toml ls).toList ++ (python toml ls).toList ++ (go toml ls).toList

/-- `detect_activations` (project_context.rs:124-143): the files; no two are the same, so that removing doubles does nothing. -/
def activations (ls : List Level) : List Place :=
  [c!".envrc", c!".env", c!".venv", c!"venv"].filterMap fun n =>
    match upwards ls n with
    | some i => if i ≤ root ls then some (i, n) else none
    | none => none

/-- The files `pm activate` uses (project.rs:385-436): those at the root. -/
def activated (ls : List Level) : List Place :=
  ([c!".env", c!".envrc"].filter (atRoot ls)).map (root ls, ·) ++
  (([c!".venv", c!"venv"].filter fun n => (ls[root ls]?).bind (· n) = some .dir).take 1).map (root ls, ·)

end Dsh.Context
