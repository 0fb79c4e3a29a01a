import Verif.Env.Vars
import Verif.Safety.Model
import Verif.Secrets.Model
/-!
The functions configuration code calls (dsh/src/lisp/builtin.rs, registered in lisp/mod.rs:299-374):
`setenv`, `vset`, `alias`, `abbr`, `add_path`, `command`, `safety-level`, `pref-…`, `secret-…`.

Left out: `allow-direnv` (Verif.Env.Direnv), `sh`, `sh!` (Verif.Lisp.Sh), `edit`, what is written to the
log, the expansion of `~` in `add_path`, the texts of errors.  `to_lowercase` is the one of ASCII.
-/
namespace Dsh.Settings
open Dsh.Env (Map)
open Dsh.Safety (Level Answer)
open Dsh.Secrets (Mode)

abbrev Str := List Char

/-- An argument, as far as these functions look at it: a text, the empty list, `F`, or anything else
with the text it is shown as. -/
inductive Arg where
  | str (s : Str)
  | nil
  | no
  | other (shown : Str)
deriving DecidableEq, Repr

/-- `Display` of `Value` (lisp/model/value.rs:288-320) and of the empty list (lisp/model/list.rs:77-85). -/
def Arg.shown : Arg → Str
  | .str s => s
  | .nil => c!"NIL"
  | .no => c!"F"
  | .other s => s

/-- `bool::from` (lisp/model/value.rs:107-109). -/
def Arg.truth : Arg → Bool
  | .nil => false
  | .no => false
  | _ => true

/-- What a call answers. -/
inductive Res where
  | err
  | nil
  | str (s : Str)
  | bool (b : Bool)
  | list (l : List Str)
deriving DecidableEq, Repr

/-- What the functions read and write. -/
structure St where
  env : Env.State
  alias_ : Map
  abbr : Map
  level : Level
  /-- `execute_allowlist` -/
  allow : List Str
  autoPair : Bool
  autoNotify : Bool
  aiExplanation : Bool
  /-- `session_secrets` -/
  secrets : Map
  mode : Mode
  /-- `additional_keywords` -/
  extra : List Str
  /-- the texts of `custom_patterns` -/
  patterns : List Str

/-! ### Variables -/

/-- The names of `check_environment_modification` (safety/mod.rs:586-594). -/
def dangerous : List Str :=
  [c!"LD_PRELOAD", c!"LD_LIBRARY_PATH", c!"DYLD_INSERT_LIBRARIES", c!"PYTHONPATH", c!"PERL5LIB",
   c!"RUBYLIB", c!"NODE_OPTIONS"]

/-- `check_environment_modification` (safety/mod.rs:580-607). -/
def checkEnv (key : Str) (level : Level) : Answer :=
  if dangerous.contains key then
    match level with
    | .loose => .allowed
    | _ => .confirm
  else .allowed

/-- The value `setenv` stores under `PATH` (builtin.rs:70-77). -/
def pathValue (vals : List Arg) : Str := joinWith c!":" (vals.flatMap fun a => Env.splitOn ':' a.shown)

/-- `set_env` (builtin.rs:40-95). -/
def setenv (st : St) : List Arg → Res × St
  | key :: val :: rest =>
    match checkEnv key.shown st.level with
    | .allowed =>
      if key.shown = c!"PATH" then
        (.nil, { st with env := Env.setSys st.env c!"PATH" (pathValue (val :: rest)) })
      else (.nil, { st with env := Env.setSys st.env key.shown val.shown })
    | _ => (.err, st)
  | _ => (.err, st)

/-- `set_variable` (builtin.rs:97-127). -/
def vset (st : St) : List Arg → Res × St
  | key :: val :: _ =>
    match checkEnv key.shown st.level with
    | .allowed => (.nil, { st with env := Env.setVar st.env key.shown val.shown })
    | _ => (.err, st)
  | _ => (.err, st)

/-! ### Aliases, abbreviations, search path -/

/-- `alias` (builtin.rs:129-144). -/
def setAlias (st : St) : List Arg → Res × St
  | name :: cmd :: _ => (.nil, { st with alias_ := st.alias_.insert name.shown cmd.shown })
  | _ => (.err, st)

/-- `abbr` (builtin.rs:149-164). -/
def setAbbr (st : St) : List Arg → Res × St
  | [name, text] => (.nil, { st with abbr := st.abbr.insert name.shown text.shown })
  | _ => (.err, st)

/-- `add_path` (builtin.rs:183-194). -/
def addPath (st : St) (args : List Arg) : Res × St :=
  (.nil, { st with env := { st.env with
    paths := args.foldl (fun ps a => a.shown :: ps) st.env.paths } })

/-! ### Settings -/

/-- `to_lowercase`. -/
def lower (s : Str) : Str := s.map Char.toLower

/-- `SafetyLevel::from_str` (safety/mod.rs:21-31). -/
def parseLevel (s : Str) : Option Level :=
  if lower s = c!"strict" then some .strict
  else if lower s = c!"normal" then some .normal
  else if lower s = c!"loose" then some .loose
  else none

/-- `format!("{:?}", level).to_lowercase()` (builtin.rs:340, 357). -/
def showLevel : Level → Str
  | .strict => c!"strict"
  | .normal => c!"normal"
  | .loose => c!"loose"

/-- `safety_level` (builtin.rs:339-362). -/
def safetyLevel (st : St) : List Arg → Res × St
  | [] => (.str (showLevel st.level), st)
  | a :: _ =>
    match parseLevel a.shown with
    | none => (.err, st)
    | some l => (.nil, { st with level := l, env := Env.setVar st.env c!"SAFETY_LEVEL" (showLevel l) })

/-- `pref_auto_pair` (builtin.rs:364-379). -/
def prefPair (st : St) : List Arg → Res × St
  | [] => (.bool st.autoPair, st)
  | a :: _ => (.nil, { st with autoPair := a.truth })

/-- `pref_auto_notify` (builtin.rs:381-400). -/
def prefNotify (st : St) : List Arg → Res × St
  | [] => (.bool st.autoNotify, st)
  | a :: _ => (.nil, { st with autoNotify := a.truth })

/-- `pref_ai_explanation` (builtin.rs:402-421). -/
def prefExplain (st : St) : List Arg → Res × St
  | [] => (.bool st.aiExplanation, st)
  | a :: _ => (.nil, { st with aiExplanation := a.truth })

/-! ### Secrets -/

/-- `SecretHistoryMode::from_str` (secrets.rs:25-35). -/
def parseMode (s : Str) : Option Mode :=
  if lower s = c!"skip" then some .skip
  else if lower s = c!"redact" then some .redact
  else if lower s = c!"none" then some .none
  else none

/-- The text of a mode (builtin.rs:558-562). -/
def showMode : Mode → Str
  | .skip => c!"skip"
  | .redact => c!"redact"
  | .none => c!"none"

/-- `secret_history_mode` (builtin.rs:553-580). -/
def historyMode (st : St) : List Arg → Res × St
  | [] => (.str (showMode st.mode), st)
  | a :: _ =>
    match parseMode a.shown with
    | none => (.err, st)
    | some m => (.nil, { st with mode := m })

/-- `secret_add_pattern` (builtin.rs:500-517); `valid`: the text is a regular expression. -/
def addPattern (valid : Str → Bool) (st : St) : List Arg → Res × St
  | [] => (.err, st)
  | a :: _ =>
    if valid a.shown then (.nil, { st with patterns := st.patterns ++ [a.shown] }) else (.err, st)

/-- `secret_add_keyword` (builtin.rs:521-537). -/
def addKeyword (st : St) : List Arg → Res × St
  | [] => (.err, st)
  | a :: _ => (.nil, { st with extra := Env.insertSet st.extra a.shown })

/-- `secret_list_patterns` (builtin.rs:541-549). -/
def listPatterns (st : St) (_ : List Arg) : Res × St := (.list st.patterns, st)

/-- `secret_set` (builtin.rs:584-602). -/
def secretSet (st : St) : List Arg → Res × St
  | key :: val :: _ => (.nil, { st with secrets := st.secrets.insert key.shown val.shown })
  | _ => (.err, st)

/-- The answer of `secret-get` (builtin.rs:622-625). -/
def asRes : Option Str → Res
  | some v => .str v
  | none => .nil

/-- `secret_get` (builtin.rs:606-624). -/
def secretGet (st : St) : List Arg → Res × St
  | [] => (.err, st)
  | a :: _ => (asRes (st.secrets.get a.shown), st)

/-- `secret_clear` (builtin.rs:628-637). -/
def secretClear (st : St) (_ : List Arg) : Res × St := (.nil, { st with secrets := [] })

/-! ### Calls -/

/-- The functions. -/
inductive Fn where
  | setenv | vset | alias_ | abbr | addPath | safetyLevel | prefPair | prefNotify | prefExplain
  | historyMode | addPattern | addKeyword | listPatterns | secretSet | secretGet | secretClear
deriving DecidableEq, Repr

/-- The table of names (lisp/mod.rs:303-374). -/
def call (valid : Str → Bool) (st : St) (f : Fn) (args : List Arg) : Res × St :=
  match f with
  | .setenv => setenv st args
  | .vset => vset st args
  | .alias_ => setAlias st args
  | .abbr => setAbbr st args
  | .addPath => addPath st args
  | .safetyLevel => safetyLevel st args
  | .prefPair => prefPair st args
  | .prefNotify => prefNotify st args
  | .prefExplain => prefExplain st args
  | .historyMode => historyMode st args
  | .addPattern => addPattern valid st args
  | .addKeyword => addKeyword st args
  | .listPatterns => listPatterns st args
  | .secretSet => secretSet st args
  | .secretGet => secretGet st args
  | .secretClear => secretClear st args

/-- A sequence of calls; the first that fails does not keep the later ones from being made
(each is an expression of its own). -/
def calls (valid : Str → Bool) (st : St) (l : List (Fn × List Arg)) : St :=
  l.foldl (fun st c => (call valid st c.1 c.2).2) st

/-- The manager of secrets as the history sees it (secrets.rs:83-92); `matcher` gives the texts a regular
expression matches. -/
def manager (U : Secrets.Uni) (matcher : Str → Str → Bool) (st : St) : Secrets.Manager :=
  ⟨U, st.patterns.map matcher, st.mode, st.extra⟩

/-! ### Running a program -/

/-- What a program run with an environment does: `none` if it cannot be started, otherwise its standard
output, its standard error and its exit status. -/
abbrev Exec := (Str → Option Str) → Str → List Str → Option (Str × Str × Nat)

/-- The arguments `command` keeps: the texts (builtin.rs:198-203). -/
def texts (args : List Arg) : List Str := args.filterMap fun a => match a with
  | .str s => some s
  | _ => none

/-- The answer made of the two outputs (builtin.rs:238-252). -/
def answer : Option (Str × Str × Nat) → Res
  | none => .err
  | some (out, err, _) => if trimEnd out ≠ [] then .str (trimEnd out) else .str (trimEnd err)

/-- `command` (builtin.rs:196-258): the answer, and the program that was run with its arguments and its
environment.  `Command::new` hands on the environment of the process of the shell, `own`, which the shell
does not change (no call of `std::env::set_var` outside of tests). -/
def command (exec : Exec) (own : Str → Option Str) (st : St) (args : List Arg) :
    Res × Option (Str × List Str × (Str → Option Str)) :=
  match texts args with
  | [] => (.err, none)
  | cmd :: rest =>
    match Safety.checkCommand st.level cmd rest st.allow with
    | .allowed => (answer (exec own cmd rest), some (cmd, rest, own))
    | _ => (.err, none)

end Dsh.Settings
