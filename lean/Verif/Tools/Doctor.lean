import Verif.Chat.SetupProps
import Verif.Jobs.Record
import Verif.Editor.Model
import Verif.Env.Path
/-!
# `doctor`

`dsh-builtin/src/doctor.rs: command, show_section, check_ai, check_runtimes, check_skills, check_dev`.

The sections are modelled as the lines they print; of `ai` the four lines on the service, of `skills` the states of the
skills with the last line, of `dev` the files and the commands. Not modelled: the sections `config`, `mcp`, `project` and
`performance`, the versions that are read from the tools, and the counts of installed skills.
-/
namespace Dsh.Doctor

abbrev Str := List Char

/-! ### Sections -/

/-- `is_known_section` (doctor.rs:99-114). -/
def known : List Str :=
  [c!"config", c!"ai", c!"mcp", c!"project", c!"runtime", c!"runtimes", c!"performance", c!"perf", c!"skills", c!"dev", c!"validate"]

/-- `show_section` (doctor.rs:116-124). -/
def shows (selected : Option Str) (current : Str) : Bool :=
  match selected with
  | none => true
  | some s =>
    if s = c!"runtime" ∧ current = c!"runtimes" then true
    else if s = c!"runtimes" ∧ current = c!"runtime" then true
    else if s = c!"validate" ∧ current = c!"dev" then true
    else s = current

/-- The headers printed and the status (doctor.rs:13-63); `none`: the help. -/
def sections (arg : Option Str) : Option (List Str × Nat) :=
  if arg = some c!"-h" ∨ arg = some c!"--help" ∨ arg = some c!"help" then none
  else if arg.any (fun a => !known.contains a) then some ([], 1)
  else some ((if shows arg c!"config" then [c!"config"] else [])
    ++ (if shows arg c!"ai" then [c!"ai"] else [])
    ++ (if shows arg c!"mcp" then [c!"mcp"] else [])
    ++ (if shows arg c!"project" then [c!"project"] else [])
    ++ (if shows arg c!"runtime" || shows arg c!"runtimes" then [c!"runtimes"] else [])
    ++ (if shows arg c!"performance" || shows arg c!"perf" then [c!"performance"] else [])
    ++ (if shows arg c!"skills" then [c!"skills"] else [])
    ++ (if shows arg c!"dev" || shows arg c!"validate" then [c!"dev"] else []), 0)

/-! ### `doctor ai` -/

/-- `mask_secret` (doctor.rs:795-804). -/
def mask : Option Str → Str
  | some s => if s.isEmpty then c!"missing" else c!"***" ++ (s.reverse.take 4).reverse
  | none => c!"missing"

/-- What is said of the service. -/
structure Ai where
  ok : Bool
  key : Str
  model : Str
  base : Str
deriving DecidableEq, Repr

/-- `check_ai` (doctor.rs:157-187); `shell` are the variables of the shell, which has taken over those of the environment
when it started. -/
def ai (shell : Str → Option Str) : Ai :=
  let key := ((shell c!"AI_CHAT_API_KEY").or (shell c!"OPENAI_API_KEY")).or (shell c!"OPEN_AI_API_KEY")
  { ok := key.any (fun k => !(trim k).isEmpty)
    key := mask key
    model := ((shell c!"AI_CHAT_MODEL").or (shell c!"OPENAI_MODEL")).getD c!"gpt-5-mini"
    base := ((shell c!"AI_CHAT_BASE_URL").or (shell c!"OPENAI_BASE_URL")).getD c!"https://api.openai.com/v1" }

/-! ### `doctor runtime` -/

/-- `resolve_in_path` (doctor.rs:821-830): `process` are the directories of `PATH` in the environment of the process, `exec` says
which files can be run. -/
def resolve (process : Option (List Str)) (exec : Str → Bool) (cmd : Str) : Option Str :=
  match process with
  | none => none
  | some dirs => (dirs.map (fun d => Env.join d cmd)).find? exec

/-! ### `doctor skills` -/

/-- A directory: its files with their names from the directory on, sorted; a file that cannot be read has no content. -/
abbrev Dir := List (Str × Option Str)

/-- `skill_dirs_match` (doctor.rs:752-771); `none`: a directory that cannot be read. -/
def dirsMatch (source dest : Option Dir) : Bool :=
  match source, dest with
  | some s, some d => s.map (·.1) = d.map (·.1) && (s.zip d).all (fun p => p.1.2.isSome && p.2.2.isSome && p.1.2 == p.2.2)
  | _, _ => false

inductive State where
  | sourceMissing | missing | ok | stale
deriving DecidableEq, Repr

/-- What a path is: no directory, or one with its files if they can be read. -/
abbrev Place := Option (Option Dir)

/-- One skill (doctor.rs:549-568). -/
def skill (source dest : Place) : State :=
  match source with
  | none => .sourceMissing
  | some s =>
    match dest with
    | none => .missing
    | some d => if dirsMatch s d then .ok else .stale

/-- `check_skill_profile` (doctor.rs:532-581): the states, and whether the last line begins with `ok`. -/
def profile (skills : List (Place × Place)) : List State × Bool :=
  let states := skills.map (fun p => skill p.1 p.2)
  (states, !(states.contains .stale) && !(states.contains .missing))

/-! ### `doctor dev` -/

/-- The text before and behind the last `pat` (`rsplit_once`). -/
def rsplit (pat : Str) : Str → Option (Str × Str)
  | [] => none
  | c :: s =>
    match rsplit pat s with
    | some (a, b) => some (c :: a, b)
    | none => if pat.isPrefixOf (c :: s) then some ([], (c :: s).drop pat.length) else none

/-- `trim_matches('"')`. -/
def noQuotes (s : Str) : Str :=
  ((s.dropWhile (fun c => decide (c = '"'))).reverse.dropWhile (fun c => decide (c = '"'))).reverse

/-- One line of `git status --short` (doctor.rs:644-655). -/
def fileOf (line : Str) : Option Str :=
  match Editor.splitByte line 3 with
  | none => none
  | some (_, rest) =>
    let path := trim rest
    if path.isEmpty then none
    else some (noQuotes (match rsplit c!" -> " path with | some (_, new) => new | none => path))

/-- `parse_git_status_short` (doctor.rs:642-657). -/
def changed (out : Str) : List Str := (Record.lines out).filterMap fileOf

/-- Backslashes are slashes (doctor.rs:667). -/
def slashes (p : Str) : Str := p.map (fun c => if c = '\\' then '/' else c)

/-- The package of a file (doctor.rs:681-691). -/
def package (p : Str) : Option Str :=
  if c!"dsh-builtin/".isPrefixOf p then some c!"dsh-builtin"
  else if c!"dsh-openai/".isPrefixOf p then some c!"dsh-openai"
  else if c!"dsh-types/".isPrefixOf p then some c!"dsh-types"
  else if c!"dsh-frecency/".isPrefixOf p then some c!"dsh-frecency"
  else if c!"dsh/".isPrefixOf p then some c!"doge-shell"
  else none

/-- Files of the guidance (doctor.rs:674-679). -/
def guidance (p : Str) : Bool :=
  p = c!"AGENTS.md" || c!"docs/ai/".isPrefixOf p || p = c!"scripts/install-runtime-skills.sh"

/-- The packages in the order they are tested (doctor.rs:697-703). -/
def order : List Str := [c!"dsh-builtin", c!"doge-shell", c!"dsh-openai", c!"dsh-types", c!"dsh-frecency"]

/-- `add_command` (doctor.rs:726-730). -/
def addTo (commands : List Str) (c : Str) : List Str := if commands.contains c then commands else commands ++ [c]

/-- `validation_commands_for_paths` (doctor.rs:659-724). -/
def commands (paths : List Str) : List Str :=
  let ps := paths.map slashes
  let found := order.filter (fun k => ps.any (fun p => package p == some k))
  let all := (if ps.any (fun p => c!".rs".isSuffixOf p) then [c!"cargo fmt --check"] else [])
    ++ found.map (fun k => c!"cargo test -p " ++ k)
    ++ (if ps.any (fun p => p = c!"Cargo.toml" || p = c!"Cargo.lock") || decide (1 < found.length) then [c!"cargo check --workspace"] else [])
    ++ (if found.contains c!"doge-shell" then [c!"cargo clippy -p doge-shell -- -D warnings"] else [])
    ++ (if ps.any guidance then [c!"scripts/check-ai-guidance.sh", c!"scripts/install-runtime-skills.sh --list",
          c!"scripts/install-runtime-skills.sh --status --target codex --profile codex-core"] else [])
  all.foldl addTo []

end Dsh.Doctor
