import Verif.Completion.Defs
import Verif.Jobs.Record
/-!
# Values that Tab asks other programs for

`dsh/src/completion/dynamic.rs` (`DynamicCompletionProvider`: the branches, remotes and working trees of
`git`, the contexts and namespaces of `kubectl`), `dsh-builtin/src/project_context.rs`
(`find_project_root`).

A program is asked in a thread of its own, and Tab answers with what is remembered from the last time.
The model has the presses of Tab, the moments at which a program looks at the repository, the moments at
which a thread stores the answer, the passing of time and changes of the world as separate events.

Simplified: directories are lists of names, the innermost first, without symbolic links. The clock counts
milliseconds. The fuzzy matcher is a parameter. Several spellings of the same answer (`Ok` with no lines
after a failure, after the time limit and without the program) are one. The counters of
`update_diagnostics_from_cache` are left out.
-/
namespace Dsh.Live
open Dsh.CmdLine

abbrev Str := List Char

/-- A directory: its name, the name of the directory around it, and so on. -/
abbrev Dir := List Str

/-- `DynamicCommandCacheKind` (dynamic.rs:51-57). -/
inductive Kind where
  | branch | remote | worktree | context | space
deriving DecidableEq, Repr

/-! ## Which question a line asks -/

/-- The second word of the path, or nothing. -/
def second (path : List Str) : Str := (path[1]?).getD []

/-- The first word wants a branch (dynamic.rs:173, 215). -/
def wantsBranch (s : Str) : Bool := [c!"checkout", c!"switch", c!"merge", c!"rebase"].contains s

/-- The first word wants a remote, then a branch (dynamic.rs:176, 218). -/
def wantsRemote (s : Str) : Bool := [c!"push", c!"pull", c!"fetch"].contains s

/-- The match on the first word (dynamic.rs:172-213, 214-255); `i` is the number of the argument. -/
def gitKind (path : List Str) (i : Nat) : Option Kind :=
  match path with
  | [] => none
  | s :: _ =>
    if wantsBranch s then some .branch
    else if wantsRemote s then (if i = 0 then some .remote else some .branch)
    else if s = c!"remote" then
      (if [c!"remove", c!"rename", c!"show", c!"get-url", c!"set-url"].contains (second path) then some .remote else none)
    else if s = c!"worktree" then
      (if [c!"remove", c!"move", c!"lock", c!"unlock", c!"repair"].contains (second path) then some .worktree
      else if second path = c!"add" ∧ 0 < i then some .branch else none)
    else none

/-- `collect_git_candidates` (dynamic.rs:159-258). -/
def gitAsk (p : Parsed) : Option Kind :=
  match p.ctx with
  | .arg i => gitKind p.path i
  | .sub => gitKind p.path (p.path.length - 2)
  | _ => none

/-- `collect_kubectl_candidates` (dynamic.rs:301-329). -/
def kubeAsk (p : Parsed) : Option Kind :=
  match p.ctx with
  | .value name =>
    if name = c!"--context" then some .context
    else if name = c!"-n" ∨ name = c!"--namespace" then some .space
    else none
  | .sub | .arg _ =>
    match p.path with
    | a :: b :: _ => if a = c!"config" ∧ b = c!"use-context" then some .context else none
    | _ => none
  | _ => none

/-- `collect_dynamic_candidates` (integrated.rs:478-507), for these two commands. -/
def ask (p : Parsed) : Option Kind :=
  if p.command = c!"git" then gitAsk p
  else if p.command = c!"kubectl" then kubeAsk p
  else none

/-! ## Asking the program -/

/-- What a program does when it is run. -/
inductive Reply where
  /-- it ends well, in time, with this text on its standard output -/
  | said (text : Str)
  /-- it fails, or needs more than 1.5 seconds (dynamic.rs:1003-1025) -/
  | failed
  /-- it cannot be started, or its text is no UTF-8 -/
  | error
deriving DecidableEq, Repr

/-- The lines of the output (dynamic.rs:1012-1017). -/
def textLines (t : Str) : List Str := ((Record.lines t).map trim).filter (fun l => !l.isEmpty)

/-- `strip_prefix`. -/
def stripPrefix (p s : Str) : Option Str := if p.isPrefixOf s then some (s.drop p.length) else none

/-- The values in the output (dynamic.rs:370-454, 483-542 and the others). -/
def values : Kind → Str → List Str
  | .worktree, t => (textLines t).filterMap (stripPrefix c!"worktree ")
  | _, t => textLines t

/-- `run_command_lines` (dynamic.rs:981-990): `none` for an error. -/
def answer (k : Kind) : Reply → Option (List Str)
  | .said t => some (values k t)
  | .failed => some []
  | .error => none

/-- The world outside of the shell. -/
structure World where
  /-- the directory has an entry of this name -/
  entry : Dir → Str → Bool
  /-- the program of this kind, run in this directory -/
  reply : Kind → Dir → Reply
  /-- the program of this kind is found on the path -/
  found : Kind → Bool

/-- `PROJECT_MARKERS` (project_context.rs:8-32). -/
def markers : List Str :=
  [c!"mise.toml", c!".tool-versions", c!"Cargo.toml", c!"rust-toolchain.toml", c!"rust-toolchain",
   c!"package.json", c!"turbo.json", c!"project.json", c!"pyproject.toml", c!"requirements.txt", c!"Pipfile",
   c!".python-version", c!".node-version", c!".nvmrc", c!"go.mod", c!"Taskfile.yml", c!"Taskfile.yaml",
   c!"Justfile", c!"justfile", c!".justfile", c!"Makefile", c!"makefile", c!".git"]

/-- The first of the directory and those around it with the property. -/
def nearest (f : Dir → Bool) : Dir → Option Dir
  | [] => if f [] then some [] else none
  | c :: l => if f (c :: l) then some (c :: l) else nearest f l

/-- `has_any_marker` (project_context.rs:93-97). -/
def marked (w : World) (d : Dir) : Bool := markers.any (w.entry d)

/-- `find_project_root` (project_context.rs:81-91). -/
def root (w : World) (d : Dir) : Dir := (nearest (marked w) d).getD d

/-- `scope_dir` of the cache key (dynamic.rs:375, 491, 519). -/
def scope (w : World) (k : Kind) (d : Dir) : Dir :=
  match k with
  | .branch | .remote | .worktree => root w d
  | .context | .space => d

/-- `DynamicCommandCacheKey` (dynamic.rs:60-63). -/
abbrev Key := Kind × Dir

/-- A thread that refreshes a value (dynamic.rs:760-788): where the program runs, whether it was found,
what it has answered. -/
structure Job where
  dir : Dir
  found : Bool
  heard : Option Reply

/-- `ProjectDynamicCache` (dynamic.rs:77-84), with the threads that belong to `command_pending`. -/
structure State where
  entries : Key → Option (List Str × Nat)
  running : Key → Option Job
  now : Nat
  world : World

/-- At the start of the shell. -/
def State.start (w : World) : State := ⟨fun _ => none, fun _ => none, 0, w⟩

/-- `DYNAMIC_COMMAND_CACHE_TTL_MS` (dynamic.rs:17). -/
def ttl : Nat := 1000

def put {α : Type} (f : Key → Option α) (k : Key) (v : Option α) : Key → Option α := fun x => if x = k then v else f x

/-- `load_command_values`, the answer (dynamic.rs:652-692). -/
def remembered (s : State) (key : Key) : List Str :=
  match s.entries key with
  | some (vs, _) => vs
  | none => []

/-- A refresh is wanted: nothing is known, or it is too old (dynamic.rs:669-673, 682-684). -/
def wanted (s : State) (key : Key) : Bool :=
  match s.entries key with
  | some (_, t) => decide (ttl ≤ s.now - t)
  | none => true

/-- `load_command_values`, the threads (dynamic.rs:652-692): only one for each key. -/
def launch (s : State) (k : Kind) (d : Dir) : State :=
  let key := (k, scope s.world k d)
  if wanted s key ∧ (s.running key).isNone then
    { s with running := put s.running key (some ⟨d, s.world.found k, none⟩) }
  else s

/-- `matches_prefix` (integrated.rs:909-911). -/
def fits (fuzzy : Str → Str → Bool) (word v : Str) : Bool := word.isEmpty || fuzzy v word

/-- `collect_cached_command_candidates` (dynamic.rs:544-565): what is offered for a word. -/
def offer (fuzzy : Str → Str → Bool) (s : State) (k : Kind) (d : Dir) (word : Str) : List Str :=
  (remembered s (k, scope s.world k d)).filter (fits fuzzy word)

/-- What happens. -/
inductive Ev where
  /-- Tab is pressed in this directory and the line asks for this kind -/
  | tab (k : Kind) (d : Dir)
  /-- the program started for this key looks at the world -/
  | look (key : Key)
  /-- the thread for this key comes to its end -/
  | done (key : Key)
  | pass (n : Nat)
  | change (w : World)

/-- What a thread stores: without the program it is no lines (dynamic.rs:385-387). -/
def Job.result (k : Kind) (j : Job) : Option (Option (List Str)) :=
  if j.found then j.heard.map (answer k) else some (some [])

/-- One event. A thread ends only after its program has answered. -/
def step (s : State) : Ev → State
  | .tab k d => launch s k d
  | .look key =>
    match s.running key with
    | some j =>
      if j.heard.isNone then
        { s with running := put s.running key (some { j with heard := some (s.world.reply key.1 j.dir) }) }
      else s
    | none => s
  | .done key =>
    match s.running key with
    | some j =>
      match j.result key.1 with
      | some (some vs) => { s with running := put s.running key none, entries := put s.entries key (some (vs, s.now)) }
      | some none => { s with running := put s.running key none }
      | none => s
    | none => s
  | .pass n => { s with now := s.now + n }
  | .change w => { s with world := w }

/-- The state after a history, the newest event first. -/
def run (w : World) : List Ev → State
  | [] => .start w
  | e :: h => step (run w h) e

/-- What a line offers: parsed and corrected with the definitions, then asked. -/
def offered (u : Tables) (db : Str → Option Defs.Def) (al : Str → Str) (fuzzy : Str → Str → Bool) (s : State) (d : Dir)
    (input : Str) (cursor : Nat) : List Str :=
  let p := (Defs.seen u db al input cursor).p
  match ask p with
  | some k => offer fuzzy s k d p.current
  | none => []

end Dsh.Live
