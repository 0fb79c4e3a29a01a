import Verif.Completion.Live
import Verif.Saved.Tasks
/-!
# Services, tasks, scripts and the external completer

`dsh/src/completion/dynamic.rs` (`find_compose_file`, `parse_compose_service_names`, the memories of
services and tasks, `run_external_completer_for_key`, `wait_and_collect_lines`),
`dsh/src/completion/generators/script.rs`.

Simplified: directories have no symbolic links, texts are UTF-8 and a file that cannot be read is one that
is not there. The texts `mise`, `turbo`, `nx`, `make` and `just` make of a project are a parameter, as in
`Verif/Saved/Tasks.lean`. Time counts milliseconds.
-/
namespace Dsh.Sources
open Dsh.CmdLine Dsh.Live

abbrev Str := List Char

/-! ## Services of a compose file -/

/-- The names looked for in a directory (dynamic.rs:872-877). -/
def composeNames : List Str := [c!"compose.yaml", c!"compose.yml", c!"docker-compose.yaml", c!"docker-compose.yml"]

/-- The file of this directory, if it has one. -/
def composeIn (entry : Dir → Str → Bool) (d : Dir) : Option (Dir × Str) := (composeNames.find? (entry d)).map (d, ·)

/-- `find_compose_file` (dynamic.rs:871-885). -/
def composeFile (entry : Dir → Str → Bool) : Dir → Option (Dir × Str)
  | [] => composeIn entry []
  | c :: d => match composeIn entry (c :: d) with
    | some f => some f
    | none => composeFile entry d

/-- Blanks at the beginning of a line (dynamic.rs:900). -/
def indent (line : Str) : Nat := (line.takeWhile rustWhitespace).length

/-- Nothing is read from the line (dynamic.rs:896-898). -/
def skipped (line : Str) : Bool := (trim line).isEmpty || decide ((trim line).head? = some '#')

/-- `trim_end_matches(':')`. -/
def noColons (s : Str) : Str := (s.reverse.dropWhile (fun c => decide (c = ':'))).reverse

/-- The key a line gives (dynamic.rs:913-924). -/
def keyOf (line : Str) : Option Str :=
  let t := trim line
  if t.head? = some '-' then none
  else if t.getLast? ≠ some ':' then none
  else
    let key := trim (noColons t)
    if key.isEmpty || key.contains ' ' then none else some key

/-- The loop, below `services:` (dynamic.rs:894-934): the indentation of `services:`, that of the first
key if there was one, and the lines left. -/
def servicesFrom (base : Nat) : Option Nat → List Str → List Str
  | _, [] => []
  | depth, line :: rest =>
    if skipped line then servicesFrom base depth rest
    else if indent line ≤ base then []
    else match keyOf line with
      | none => servicesFrom base depth rest
      | some key =>
        match depth with
        | none => key :: servicesFrom base (some (indent line)) rest
        | some n => if indent line = n then key :: servicesFrom base depth rest else servicesFrom base depth rest

/-- The loop, before `services:` (dynamic.rs:901-907). -/
def servicesBefore : List Str → List Str
  | [] => []
  | line :: rest =>
    if skipped line then servicesBefore rest
    else if trim line = c!"services:" then servicesFrom (indent line) none rest
    else servicesBefore rest

/-- `retain` of those not seen before (dynamic.rs:936-937). -/
def firsts (seen : List Str) : List Str → List Str
  | [] => []
  | n :: ns => if seen.contains n then firsts seen ns else n :: firsts (n :: seen) ns

/-- `parse_compose_service_names` (dynamic.rs:887-939). -/
def services (text : Str) : List Str := firsts [] (servicesBefore (Record.lines text))

/-! ## Remembering by signature -/

/-- `FileMetadataSignature` (dynamic.rs:20-24): time of the last change and length, if the file is there. -/
abbrev Sig := Option (Nat × Nat)

/-- What is on the disk: the text of a file and the time of its last change; the tasks of a directory. -/
structure Disk where
  file : Dir → Str → Option (Str × Nat)
  project : Dir → Saved.Project

/-- The directory has an entry of this name. -/
def Disk.entry (w : Disk) (d : Dir) (n : Str) : Bool := (w.file d n).isSome

/-- `file_metadata_signature` (dynamic.rs:837-850). -/
def Disk.sig (w : Disk) (d : Dir) (n : Str) : Sig := (w.file d n).map (fun f => (f.2, Editor.blen f.1))

/-- The files a change of which is noticed (dynamic.rs:852-869). -/
def watched : List Str :=
  [c!"mise.toml", c!"Taskfile.yml", c!"Taskfile.yaml", c!"turbo.json", c!"project.json", c!"package.json",
   c!"Cargo.toml", c!"Makefile", c!"makefile", c!"deno.json", c!"deno.jsonc"]

/-- `task_completion_signature` (dynamic.rs:852-869). -/
def Disk.taskSig (w : Disk) (d : Dir) : List Sig := watched.map (w.sig d)

/-- The root of the project, by the marks of `Live` (project_context.rs:81-91). -/
def Disk.root (w : Disk) (d : Dir) : Dir := Live.root ⟨w.entry, fun _ _ => .failed, fun _ => false⟩ d

/-- The two memories of `ProjectDynamicCache` (dynamic.rs:77-84). -/
structure Memory where
  services : Dir × Str → Option (Sig × List Str)
  tasks : Dir → Option (List Sig × List Saved.Task)

def Memory.empty : Memory := ⟨fun _ => none, fun _ => none⟩

/-- `load_compose_services` (dynamic.rs:615-636) on the file of this name. -/
def Memory.load (m : Memory) (w : Disk) (k : Dir × Str) : List Str × Memory :=
  let sig := w.sig k.1 k.2
  match m.services k with
  | some (s, names) => if s = sig then (names, m) else fresh sig
  | none => fresh sig
where
  /-- read, and remembered unless that fails (dynamic.rs:626-635) -/
  fresh (sig : Sig) : List Str × Memory :=
    match w.file k.1 k.2 with
    | none => ([], m)
    | some (text, _) => (Sources.services text, { m with services := fun x => if x = k then some (sig, Sources.services text) else m.services x })

/-- `collect_compose_service_candidates`: the names that fit the word. -/
def Memory.compose (fuzzy : Str → Str → Bool) (m : Memory) (w : Disk) (d : Dir) (word : Str) : List Str × Memory :=
  match composeFile w.entry d with
  | none => ([], m)
  | some k => let r := m.load w k; (r.1.filter (fits fuzzy word), r.2)

/-- `load_project_tasks` (dynamic.rs:582-599). -/
def Memory.list (m : Memory) (w : Disk) (d : Dir) : List Saved.Task × Memory :=
  let root := w.root d
  let sig := w.taskSig root
  match m.tasks root with
  | some (s, ts) => if s = sig then (ts, m) else fresh root sig
  | none => fresh root sig
where
  /-- looked for, and remembered unless that fails -/
  fresh (root : Dir) (sig : List Sig) : List Saved.Task × Memory :=
    match Saved.detect (w.project root) with
    | none => ([], m)
    | some ts => (ts, { m with tasks := fun x => if x = root then some (sig, ts) else m.tasks x })

/-- `collect_task_candidates` (dynamic.rs:135-157). -/
def Memory.task (fuzzy : Str → Str → Bool) (m : Memory) (w : Disk) (d : Dir) (word : Str) : List Str × Memory :=
  let r := m.list w d
  ((r.1.map (·.name)).filter (fits fuzzy word), r.2)

/-- What happens: the disk is changed, or Tab is pressed in a directory. -/
inductive Ev where
  | change (w : Disk) | compose (d : Dir) | task (d : Dir)

/-- Disk and memory after a history, the newest event first. What is offered at each press does not matter
for what follows. -/
def run (w : Disk) : List Ev → Disk × Memory
  | [] => (w, .empty)
  | .change w' :: h => (w', (run w h).2)
  | .compose d :: h => ((run w h).1, ((run w h).2.compose (fun _ _ => true) (run w h).1 d []).2)
  | .task d :: h => ((run w h).1, ((run w h).2.list (run w h).1 d).2)

/-! ## Scripts of the definitions -/

/-- `str::replace`: `skip` letters of an occurrence are still to be left out. -/
def replaceFrom (p new : Str) : Nat → Str → Str
  | _, [] => []
  | n + 1, _ :: s => replaceFrom p new n s
  | 0, c :: s => if p.isPrefixOf (c :: s) then new ++ replaceFrom p new (p.length - 1) s else c :: replaceFrom p new 0 s

/-- `str::replace` for a text that is not empty. -/
def replace (p new s : Str) : Str := replaceFrom p new 0 s

/-- The loop over the arguments (script.rs:130-133). -/
def replaceArgs (s : Str) : Nat → List Str → Str
  | _, [] => s
  | i, a :: as => replaceArgs (replace (c!"$ARG_" ++ (toString i).toList) a s) (i + 1) as

/-- The text given to `sh -c` (script.rs:115-133). -/
def script (template : Str) (p : Parsed) : Str :=
  replaceArgs (replace c!"$SUBCOMMAND" (p.path.headD []) (replace c!"$CURRENT_TOKEN" p.current (replace c!"$COMMAND" p.command template))) 0 p.args

/-- `split_once('\t')`. -/
def splitTab (l : Str) : Option (Str × Str) :=
  if l.contains '\t' then some (l.takeWhile (· ≠ '\t'), (l.dropWhile (· ≠ '\t')).tail) else none

/-- A candidate with its description. -/
abbrev Cand := Str × Option Str

/-- The candidates in the output of a script (script.rs:139-157). -/
def scriptCands (word out : Str) : List Cand :=
  ((textLines out).map (fun l => match splitTab l with
    | some (v, d) => (v, some d)
    | none => (l, none))).filter (fun c => word.isPrefixOf c.1)

/-! ## The external completer -/

/-- The candidates in its output (dynamic.rs:958-979). -/
def externalCands (fuzzy : Str → Str → Bool) (word out : Str) : List Cand :=
  ((textLines out).map (fun l => match splitTab l with
    | some (v, d) => (trim v, some (trim d))
    | none => (trim l, none))).filter (fun c => !c.1.isEmpty && fits fuzzy word c.1)

/-- A program that was started: how it would end and after how many milliseconds, when the last of the
processes that hold its output closes it, and what is written until then. -/
structure Child where
  ends : Option Nat
  ok : Bool
  closes : Option Nat
  output : Str

/-- `wait_and_collect_lines` and `run_with_timeout` (dynamic.rs:992-1026, script.rs:23-75): the text used,
and when the caller goes on, if it does. The program alone is killed at the limit; the text is read to its
end in both cases. -/
def collect (limit : Nat) (c : Child) : Option (Nat × Str) :=
  match c.ends with
  | some e =>
    if e ≤ limit then c.closes.map (fun t => (max e t, if c.ok then c.output else []))
    else c.closes.map (fun t => (max limit t, []))
  | none => c.closes.map (fun t => (max limit t, []))

end Dsh.Sources
