import Verif.Jobs.Eval
/-!
The safety guard (dsh/src/safety/mod.rs), its call in `eval_str` (shell/eval.rs) and in the tool
loop of the AI service (ai_features/service.rs), the suggestions of the AI (ai_features/command.rs)
and the `execute` tool of the chat (dsh-builtin/src/chatgpt/tool/execute.rs).

Simplifications: the texts of messages are left out; reading and printing JSON and splitting a
command line with the crate `shell_words` are parameters.
-/
namespace Dsh.Safety
open Dsh.Shell Dsh.Eval

/-- Text. -/
abbrev Str := List Char

/-! ### Helpers of the standard library -/

/-- `str::split_whitespace`. -/
def splitWs : Str → List Str
  | [] => []
  | c :: cs =>
    if rustWhitespace c then splitWs cs
    else match cs with
      | [] => [[c]]
      | d :: _ =>
        if rustWhitespace d then [c] :: splitWs cs
        else match splitWs cs with
          | [] => [[c]]
          | w :: ws => (c :: w) :: ws

/-- `str::contains` for a non-empty pattern. -/
def hasSub (pat : Str) : Str → Bool
  | [] => pat.isEmpty
  | c :: cs => pat.isPrefixOf (c :: cs) || hasSub pat cs

/-- The pieces of a text between slashes. -/
def slashParts : Str → List Str
  | [] => [[]]
  | c :: cs =>
    if c = '/' then [] :: slashParts cs
    else match slashParts cs with
      | [] => [[c]]
      | w :: ws => (c :: w) :: ws

/-- `Path::file_name` as text: the last component unless it is `..`; empty pieces and `.` are no
components (a leading `.` is one, but has no file name either). -/
def fileName (p : Str) : Option Str :=
  match ((slashParts p).filter (fun w => w ≠ [] && w ≠ c!".")).getLast? with
  | none => none
  | some w => if w = c!".." then none else some w

/-! ### Guard -/

/-- `SafetyLevel` (safety/mod.rs:12-16). -/
inductive Level where | strict | normal | loose
deriving DecidableEq, Repr

/-- `SafetyResult` (safety/mod.rs:5-9) without the texts. -/
inductive Answer where | allowed | denied | confirm
deriving DecidableEq, Repr

/-- `get_command_name` (safety/mod.rs:348-354). -/
def commandName (cmd : Str) : Str := (fileName cmd).getD cmd

/-- Commands of the constructor that always warn (safety/mod.rs:48-52). -/
def alwaysWarn : List Str :=
  [c!"dd", c!"mkfs", c!"format", c!"reboot", c!"shutdown", c!"poweroff", c!"mkswap"]

/-- `is_network_tool` (safety/mod.rs:356-358). -/
def networkTool (n : Str) : Bool := n ∈ [c!"curl", c!"wget", c!"fetch", c!"scp"]

/-- `is_execution_tool` (safety/mod.rs:360-365). -/
def executionTool (n : Str) : Bool :=
  n ∈ [c!"sh", c!"bash", c!"zsh", c!"fish", c!"python", c!"perl", c!"ruby", c!"sudo"]

/-- `check_rm` (safety/mod.rs:369-408): all three messages require `recursive`. -/
def checkRm (args : List Str) : Bool :=
  args.any (fun a => a = c!"-r" || a = c!"-R" || a = c!"--recursive" ||
    c!"-rx".isPrefixOf a || c!"-rf".isPrefixOf a || c!"-fr".isPrefixOf a)

/-- `check_git` (safety/mod.rs:410-445). -/
def checkGit : List Str → Bool
  | [] => false
  | sub :: rest =>
    if sub = c!"push" then
      rest.any (fun a => a = c!"--force" || a = c!"-f" || a = c!"--force-with-lease")
    else if sub = c!"clean" then rest.any (fun a => a.contains 'x')
    else if sub = c!"reset" then rest.any (fun a => a = c!"--hard")
    else false

/-- `check_recursive` (safety/mod.rs:447-454). -/
def checkRecursive (args : List Str) : Bool := args.any (fun a => a = c!"-R" || a = c!"--recursive")

/-- `check_cp` (safety/mod.rs:456-483). -/
def checkCp (args : List Str) : Bool :=
  args.any (fun a => a = c!"-r" || a = c!"-R" || a = c!"--recursive" ||
    (c!"-".isPrefixOf a && a.contains 'r')) &&
  args.any (fun a => a = c!"-f" || a = c!"--force")

/-- `check_data_exfiltration` (safety/mod.rs:497-519). -/
def checkUpload (args : List Str) : Bool :=
  args.any (fun a => a ∈ [c!"-d", c!"--data", c!"-F", c!"--form", c!"-T", c!"--upload-file",
    c!"--post-data", c!"--post-file"])

/-- `check_sensitive_file_access` (safety/mod.rs:521-557). -/
def checkSensitive (args : List Str) : Bool :=
  args.any (fun a => hasSub c!".ssh" a || hasSub c!"id_rsa" a || hasSub c!"id_ed25519" a ||
    hasSub c!".aws/credentials" a || hasSub c!".config/gcloud" a || hasSub c!".azure" a ||
    a = c!"/etc/shadow" || a = c!"/etc/passwd" || hasSub c!".env" a || c!"_history".isSuffixOf a)

/-- The table of checkers (safety/mod.rs:54-77).  `check_mv` and `check_package_manager`
(safety/mod.rs:485-495, 559-571) never object. -/
def checker (n : Str) (args : List Str) : Bool :=
  if n = c!"rm" then checkRm args
  else if n = c!"git" then checkGit args
  else if n = c!"chmod" || n = c!"chown" then checkRecursive args
  else if n = c!"cp" then checkCp args
  else if n = c!"curl" || n = c!"wget" then checkUpload args
  else if n ∈ [c!"cat", c!"less", c!"more", c!"head", c!"tail", c!"grep", c!"awk", c!"sed"] then
    checkSensitive args
  else false

/-- Always-warn list and checker for one command (safety/mod.rs:148-163, 201-216). -/
def objects (n : Str) (args : List Str) : Bool := alwaysWarn.contains n || checker n args

/-- First word of a text, or the empty text (safety/mod.rs:127, 133). -/
def firstWord (s : Str) : Str := (splitWs s).head?.getD []

/-- Whether the guard objects to one job (safety/mod.rs:121-164); `prev` is the job before. -/
def jobObjects (allow : List Str) (prev : Option Str) (cmd : Str) : Bool :=
  if allow.contains cmd then false
  else
    (match prev with
     | none => false
     | some p => networkTool (commandName (firstWord p)) &&
         executionTool (commandName (firstWord cmd))) ||
    (match splitWs cmd with
     | [] => false
     | w :: args => objects (commandName w) args)

/-- The loop of `check_jobs` at the normal level (safety/mod.rs:121-165). -/
def anyObjects (allow : List Str) : Option Str → List Str → Bool
  | _, [] => false
  | prev, cmd :: rest => jobObjects allow prev cmd || anyObjects allow (some cmd) rest

/-- `check_jobs` (safety/mod.rs:92-170) on the texts of the jobs. -/
def checkJobs (level : Level) (allow : List Str) (cmds : List Str) : Answer :=
  match level with
  | .loose => .allowed
  | .strict =>
    if !cmds.isEmpty && cmds.all (fun c => allow.contains c) then .allowed
    else if cmds.isEmpty then .allowed else .confirm
  | .normal => if anyObjects allow none cmds then .confirm else .allowed

/-- `full_cmd` (safety/mod.rs:182-186) and the text handed to the command line
(ai_features/command.rs:61-63). -/
def fullCmd (cmd : Str) (args : List Str) : Str := joinWith c!" " (cmd :: args)

/-- `check_command` (safety/mod.rs:174-223). -/
def checkCommand (level : Level) (cmd : Str) (args : List Str) (allow : List Str) : Answer :=
  if allow.contains (fullCmd cmd args) then .allowed
  else if allow.contains cmd then .allowed
  else match level with
    | .loose => .allowed
    | .strict => .confirm
    | .normal => if objects (commandName cmd) args then .confirm else .allowed

/-! ### The guard in `eval_str` -/

/-- `ConfirmationAction` (repl/confirmation.rs:13-17); an error counts as `no` (eval.rs:165). -/
inductive Choice where | yes | no | always
deriving DecidableEq, Repr

/-- The safety block of `eval_str` (eval.rs:120-183): the verdict and the new allowlist. -/
def guardLine (level : Level) (allow : List Str) (choice : Choice) (jobs : List Job) :
    Verdict × List Str :=
  match checkJobs level allow (jobs.map Job.cmd) with
  | .allowed => (.go, allow)
  | .denied => (.denied, allow)
  | .confirm => match choice with
    | .yes => (.go, allow)
    | .always => (.go, allow ++ jobs.map Job.cmd)
    | .no => (.cancelled, allow)

/-! ### Suggestions of the AI -/

/-- What becomes of a command proposed by the AI (ai_features/command.rs:52-75, 124-147, 207-230):
the text put on the command line, or `none` (blocked). -/
def suggest (level : Level) (allow : List Str) (cmd : Str) (args : List Str) : Option Str :=
  match checkCommand level cmd args allow with
  | .allowed => some (fullCmd cmd args)
  | _ => none

/-! ### Tool calls -/

/-- The parts of the JSON library used: normal form of a text (safety/mod.rs:275-278) and the
`command` member (safety/mod.rs:303-309). -/
structure Json where
  norm : Str → Str
  command : Str → Option Str

/-- `mcp_allowlist_entry` (safety/mod.rs:274-280). -/
def mcpEntry (J : Json) (tool args : Str) : Str := c!"mcp:" ++ (tool ++ (':' :: J.norm args))

/-- `mcp_allowlist_prefix` (safety/mod.rs:282-284). -/
def mcpWildcard (tool : Str) : Str := c!"mcp:" ++ tool

/-- `is_allowlisted_mcp_call` (safety/mod.rs:286-294). -/
def mcpListed (J : Json) (tool args : Str) (allow : List Str) : Bool :=
  allow.contains (mcpEntry J tool args) || allow.contains (mcpWildcard tool)

/-- `is_mcp_command_execution_tool` (safety/mod.rs:296-301). -/
def mcpRuns (tool : Str) : Bool :=
  tool ∈ [c!"bash", c!"run_command", c!"execute_command", c!"execute", c!"terminal"]

/-- ASCII lower case. -/
def asciiLower (s : Str) : Str := s.map Char.toLower

/-- Markers of tools with effects (safety/mod.rs:314-337). -/
def mutating : List Str :=
  [c!"write", c!"edit", c!"update", c!"delete", c!"remove", c!"create", c!"execute", c!"run",
   c!"apply", c!"install", c!"set", c!"post", c!"put", c!"patch", c!"push", c!"kill", c!"start",
   c!"stop", c!"restart", c!"connect", c!"disconnect", c!"submit"]

/-- Markers of tools that only read (safety/mod.rs:342-345). -/
def reading : List Str :=
  [c!"list", c!"get", c!"read", c!"search", c!"find", c!"show", c!"status", c!"describe",
   c!"fetch", c!"query", c!"view", c!"ls", c!"stat"]

/-- `is_read_only_mcp_tool` (safety/mod.rs:311-346). -/
def mcpReadOnly (tool : Str) : Bool :=
  let n := asciiLower tool
  !mutating.any (fun m => hasSub m n) && reading.any (fun m => hasSub m n)

/-- `check_mcp_tool` (safety/mod.rs:226-272). -/
def checkTool (J : Json) (tool args : Str) (level : Level) (allow : List Str) : Answer :=
  if level = .loose then .allowed
  else if mcpListed J tool args allow then .allowed
  else if mcpRuns tool then
    match J.command args with
    | none => .confirm
    | some s => match splitWs s with
      | [] => .confirm
      | c :: a => checkCommand level c a allow
  else if level = .strict then .confirm
  else if mcpReadOnly tool then .allowed
  else .confirm

/-- One tool call in the loop of the AI service (ai_features/service.rs:164-235): whether the tool
is executed, whether the user was asked, and the new allowlist.  `handler` says what the user would
answer; `none` if there is nobody to ask. -/
def toolCall (J : Json) (level : Level) (handler : Option Choice) (allow : List Str)
    (tool args : Str) : Bool × Bool × List Str :=
  match checkTool J tool args level allow with
  | .allowed => (true, false, allow)
  | .denied => (false, false, allow)
  | .confirm => match handler with
    | none => (false, false, allow)
    | some .yes => (true, true, allow)
    | some .always =>
      (true, true, if allow.contains (mcpEntry J tool args) then allow
        else allow ++ [mcpEntry J tool args])
    | some .no => (false, true, allow)

/-! ### The `execute` tool of the chat -/

/-- `contains_shell_expression` (execute.rs:144-153). -/
def shellExpression (tokens : List Str) : Bool :=
  tokens.any (fun t => hasSub c!"$(" t || t.contains '`' || t.contains '\n' ||
    t.any (fun c => c ∈ ['|', '&', ';', '>', '<']))

/-- `program_name` (execute.rs:155-161). -/
def programName (p : Str) : Str := (fileName p).getD p

/-- `is_path_qualified` (execute.rs:163-165); an absolute path contains a slash. -/
def pathQualified (p : Str) : Bool := p.contains '/' || p.contains '\\'

/-- `invokes_string_eval` (execute.rs:167-181). -/
def stringEval (program : Str) (args : List Str) : Bool :=
  let n := programName program
  if n ∈ [c!"sh", c!"bash", c!"zsh", c!"fish", c!"ksh"] then
    args.any (fun a => a = c!"-c" || a = c!"-lc")
  else if n ∈ [c!"python", c!"python3", c!"perl", c!"ruby", c!"node"] then
    args.any (fun a => a = c!"-c" || a = c!"-e")
  else if n ∈ [c!"pwsh", c!"powershell"] then
    args.any (fun a => asciiLower a = c!"-c" || asciiLower a = c!"-command")
  else false

/-- `allowlist_program_matches` (execute.rs:183-194). -/
def programMatches (entry program : Str) : Bool :=
  if pathQualified entry then entry = program
  else if pathQualified program then false
  else programName entry = programName program

/-- `allowlist_entry_matches` (execute.rs:196-211); `split` is `shell_words::split`. -/
def entryMatches (split : Str → Option (List Str)) (entry program : Str) (args : List Str) : Bool :=
  match split entry with
  | some (p :: rest) => programMatches p program && (rest.isEmpty || rest = args)
  | _ => false

/-- `command_is_allowlisted` (execute.rs:213-217). -/
def listed (split : Str → Option (List Str)) (program : Str) (args allow : List Str) : Bool :=
  allow.any (fun e => entryMatches split e program args)

/-- Split a text at commas and newlines (execute.rs:288). -/
def splitEnv : Str → List Str
  | [] => [[]]
  | c :: cs =>
    if c = ',' || c = '\n' then [] :: splitEnv cs
    else match splitEnv cs with
      | [] => [[c]]
      | w :: ws => (c :: w) :: ws

/-- Trimmed non-empty items (execute.rs:276-282, 289-291). -/
def items (l : List Str) : List Str := (l.map trim).filter (fun x => !x.isEmpty)

/-- `load_allowed_commands` (execute.rs:235-253) without sorting and removing duplicates (only
membership matters).  `env` is AI_CHAT_EXECUTE_ALLOWLIST, `file` the entries of the file. -/
def loadAllowed (env : Option Str) (runtime file : List Str) : List Str :=
  match env with
  | some raw => if (items (splitEnv raw)).isEmpty then runtime ++ items file else items (splitEnv raw)
  | none => runtime ++ items file

/-- Result of the tool: an error message, cancelled by the user, or the program started (and whether
the user was asked before). -/
inductive ToolOut where
  | error
  | cancelled
  | ran (program : Str) (args : List Str) (asked : Bool)
deriving DecidableEq, Repr

/-- `run` (execute.rs:42-128) up to the start of the program.  `skill` is `is_skill_script_program`
(execute.rs:219-233), `confirm` the answer of the user. -/
def execTool (split : Str → Option (List Str)) (skill : Str → Bool) (confirm : Bool) (allow : List Str)
    (command : Str) : ToolOut :=
  if (trim command).isEmpty then .error
  else match split command with
    | none => .error
    | some [] => .error
    | some (program :: args) =>
      if shellExpression (program :: args) then .error
      else if stringEval program args then .error
      else if !listed split program args allow && !skill program then .error
      else if skill program then (if confirm then .ran program args true else .cancelled)
      else .ran program args false

/-! ### Text sent to the AI -/

/-- `char::is_control` (general category Cc). -/
def isControl (c : Char) : Bool := c.toNat < 32 || (127 ≤ c.toNat && c.toNat < 160)

/-- Invisible characters that are removed (safety/mod.rs:699-704). -/
def isInvisible (c : Char) : Bool :=
  let n := c.toNat
  (0x200B ≤ n && n ≤ 0x200F) || (0x2028 ≤ n && n ≤ 0x2029) || (0x202A ≤ n && n ≤ 0x202E) ||
  (0x2060 ≤ n && n ≤ 0x206F)

/-- Length in bytes. -/
def bytes (s : Str) : Nat := (s.map Char.utf8Size).sum

/-- `String::truncate`: `none` is the panic inside a character. -/
def truncate : Nat → Str → Option Str
  | _, [] => some []
  | 0, _ => some []
  | n + 1, c :: cs =>
    if c.utf8Size ≤ n + 1 then (truncate (n + 1 - c.utf8Size) cs).map (c :: ·) else none

/-- `sanitize_ai_input` (safety/mod.rs:687-716); `none` is a panic. -/
def sanitize (input : Str) (max : Nat) : Option Str :=
  let s := input.filter (fun c => !isControl c || c = '\n' || c = '\r' || c = '\t')
  let s := s.filter (fun c => !isInvisible c)
  if bytes s > max then (truncate max s).map (· ++ c!"...(truncated)") else some s

end Dsh.Safety
