import Verif.Jobs.Record
import Verif.Prompt.Git
/-!
# Where the AI service is, and the skills it is told of

`dsh-openai/src/config.rs`, `dsh-builtin/src/chatgpt.rs` (`load_openai_config`),
`dsh-builtin/src/chatgpt/skills.rs`.

Simplified: what HTTP does with the address is not modelled; texts of skills are UTF-8; the fragment of the
system prompt is the list of names and summaries in it, the fixed sentences around it are left out; the
directory of the skills can be read or is not there.
-/
namespace Dsh.Setup

abbrev Str := List Char

/-! ## The service -/

/-- `DEFAULT_BASE_URL` without the slash at its end (config.rs:5, config.rs:90). -/
def openai : Str := c!"https://api.openai.com/v1"

/-- `trim_end_matches('/')`. -/
def noSlashes (s : Str) : Str := (s.reverse.dropWhile (fun c => decide (c = '/'))).reverse

/-- Values of `AI_CHAT_ALLOW_INSECURE_HTTP` that allow it (config.rs:71-79). -/
def allows (v : Option Str) : Bool :=
  match v with
  | none => false
  | some v => [c!"1", c!"true", c!"yes", c!"on"].contains ((trim v).map Char.toLower)

/-- The address wanted (config.rs:81-90). -/
def wish : Option Str → Str
  | none => openai
  | some v => if (trim v).isEmpty then openai else noSlashes (trim v)

/-- `sanitize_base_url` (config.rs:70-97). -/
def sanitize (allow : Option Str) (url : Option Str) : Str :=
  if allows allow || c!"https://".isPrefixOf (wish url) then wish url else openai

/-- `build_chat_endpoint` (config.rs:99-106). -/
def endpoint (base : Str) : Str :=
  if c!"chat/completions".isSuffixOf (noSlashes base) then noSlashes base else noSlashes base ++ c!"/chat/completions"

/-- `OpenAiConfig` (config.rs:12-16). -/
structure Config where
  key : Option Str
  base : Str
  model : Str

/-- A shell variable, else a variable of the environment (chatgpt.rs:236). -/
def lookup (shell env : Str → Option Str) (name : Str) : Option Str := (shell name).or (env name)

/-- `load_openai_config` (chatgpt.rs:235-237): `from_getter` (config.rs:36-46) and `new` (config.rs:19-34). The
permission is read from the environment alone (config.rs:71). -/
def config (shell env : Str → Option Str) : Config :=
  let get := lookup shell env
  let model := (get c!"AI_CHAT_MODEL").or (get c!"OPENAI_MODEL")
  { key := ((get c!"AI_CHAT_API_KEY").or (get c!"OPENAI_API_KEY")).or (get c!"OPEN_AI_API_KEY")
    base := sanitize (env c!"AI_CHAT_ALLOW_INSECURE_HTTP") ((get c!"AI_CHAT_BASE_URL").or (get c!"OPENAI_BASE_URL"))
    model := (model.filter (fun m => !(trim m).isEmpty)).getD c!"gpt-5-mini" }

/-- A request: where it goes, with which key (client.rs:296-300); none if there is no key (chatgpt.rs:253-256). -/
def request (shell env : Str → Option Str) : Option (Str × Str) :=
  (config shell env).key.map (fun k => (endpoint (config shell env).base, k))

/-! ## Skills -/

/-- The lines up to one with `---`, and those behind it (skills.rs:107-114). -/
def cut : List Str → Option (List Str × List Str)
  | [] => none
  | l :: ls => if trim l = c!"---" then some ([], ls) else (cut ls).map (fun r => (l :: r.1, r.2))

/-- `split_frontmatter` (skills.rs:94-117), on lines. -/
def splitFront : List Str → Option (List Str) × List Str
  | [] => (none, [])
  | f :: rest =>
    if trim f ≠ c!"---" then (none, f :: rest)
    else match cut rest with
      | some (front, body) => (some front, body)
      | none => (none, f :: rest)

/-- `split_once(':')`. -/
def splitColon (l : Str) : Option (Str × Str) :=
  if l.contains ':' then some (l.takeWhile (· ≠ ':'), (l.dropWhile (· ≠ ':')).tail) else none

/-- `strip_matching_quotes` (skills.rs:144-155). -/
def unquote (v : Str) : Str :=
  if 2 ≤ v.length ∧ ((v.head? = some '"' ∧ v.getLast? = some '"') ∨ (v.head? = some '\'' ∧ v.getLast? = some '\'')) then
    (v.drop 1).dropLast
  else v

/-- `frontmatter_field` (skills.rs:119-142). -/
def field (key : Str) : List Str → Option Str
  | [] => none
  | l :: ls =>
    let t := trim l
    if t.isEmpty || t.head? = some '#' then field key ls
    else match splitColon t with
      | none => field key ls
      | some (f, v) => if trim f = key then (if (trim v).isEmpty then none else some (unquote (trim v))) else field key ls

/-- `collapse_whitespace` (skills.rs:157-159). -/
def collapse (s : Str) : Str := joinWith [' '] (Prm.words s)

/-- `truncate_chars` (skills.rs:161-173). -/
def truncate (s : Str) (n : Nat) : Str := if s.length ≤ n then s else s.take n ++ c!"..."

/-- `extract_skill_summary` (skills.rs:79-92). -/
def summary (text : Str) : Str :=
  let p := splitFront (Record.lines text)
  match p.1.bind (field c!"description") with
  | some d => truncate (collapse d) 140
  | none =>
    let body := (p.2.map trim).find? (fun l => !l.isEmpty && decide (l.head? ≠ some '#'))
    truncate (collapse (body.getD c!"No description available.")) 140

/-- An entry of the directory of the skills: a directory, with its `SKILL.md` if it has one; a file `name.md`;
another file. The time of the last change is with the file. -/
inductive Entry where
  | folder (name : Str) (skill : Option (Str × Nat))
  | note (name : Str) (text : Str) (time : Nat)
  | other (time : Nat)
deriving DecidableEq

/-- The skill of an entry (skills.rs:15-48, 201-213). -/
def Entry.skill : Entry → Option (Str × Str)
  | .folder n (some (t, _)) => some (n, summary t)
  | .folder _ none => none
  | .note n t _ => some (n, summary t)
  | .other _ => none

/-- The order of names (skills.rs:221). -/
def nameLe (a b : Str × Str) : Bool := decide (a.1 ≤ b.1)

/-- `load_skills` (skills.rs:191-223). -/
def load (d : Option (List Entry)) : List (Str × Str) := sortBy nameLe ((d.getD []).filterMap Entry.skill)

/-- The time looked at (skills.rs:285-299). -/
def Entry.time : Entry → Nat
  | .folder _ s => (s.map (·.2)).getD 0
  | .note _ _ t => t
  | .other t => t

/-- `skills_dir_signature` (skills.rs:269-309): is it there, number of entries, newest time. -/
def signature (d : Option (List Entry)) : Bool × Nat × Nat :=
  match d with
  | none => (false, 0, 0)
  | some es => (true, es.length, es.foldl (fun n e => max n e.time) 0)

/-- `SKILLS_FRAGMENT_CACHE` (skills.rs:62-77). -/
abbrev Memory := Option ((Bool × Nat × Nat) × List (Str × Str))

/-- `get_system_prompt_fragment` (skills.rs:225-267). -/
def fragment (m : Memory) (d : Option (List Entry)) : List (Str × Str) × Memory :=
  match m with
  | some (s, f) => if s = signature d then (f, m) else (load d, some (signature d, load d))
  | none => (load d, some (signature d, load d))

/-- The memory after conversations with these states of the directory, the newest first. -/
def after : List (Option (List Entry)) → Memory
  | [] => none
  | d :: ds => (fragment (after ds) d).2

/-- The file the service is told to read for a skill (skills.rs:250-252), below the directory of the skills. -/
def told (s : Str × Str) : Str × Str := (s.1, c!"SKILL.md")

/-- There is such a file in such a directory. -/
def present (d : Option (List Entry)) (p : Str × Str) : Bool :=
  (d.getD []).any (fun e => match e with
    | .folder n (some _) => decide (n = p.1 ∧ p.2 = c!"SKILL.md")
    | _ => false)

end Dsh.Setup
