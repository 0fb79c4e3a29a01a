import Verif.Hist.Store
/-!
The builtin `history` (dsh/src/proxy/builtin/history.rs): C137, on top of the search of `Verif.Hist.Store`.

The time of an entry as text is a parameter.  The output of the help is left out.
-/
namespace Dsh.HistCmd
open Dsh.HistStore (Entry Mem Query Status Scope)

abbrev Str := List Char

/-- `HistoryOptions` with its defaults (history.rs:50-58). -/
structure Options where
  help : Bool := false
  verbose : Bool := false
  query : Option Str := none
  scope : Scope := .global
  status : Status := .any
  slow : Option Nat := none
  limit : Nat := 200
deriving DecidableEq

/-- `parse_scope` (history.rs:133-140). -/
def parseScope (v : Str) : Scope :=
  if v = c!"session" then .session else if v = c!"cwd" then .cwd else if v = c!"project" then .project else .global

/-- `parse_status` (history.rs:142-148). -/
def parseStatus (v : Str) : Status :=
  if v = c!"success" then .success else if v = c!"failure" ∨ v = c!"failed" then .failure else .any

/-- Decimal digits. -/
def digits (s : Str) : Option Nat :=
  if s.isEmpty || s.any (fun c => !c.isDigit) then none else some (s.foldl (fun n c => 10 * n + (c.toNat - 48)) 0)

/-- Without a plus in front. -/
def unplus : Str → Str
  | '+' :: s => s
  | s => s

/-- `u64::from_str` and `usize::from_str` (64 bits): a plus is allowed. -/
def parseNat (s : Str) : Option Nat :=
  (digits (unplus s)).bind fun n => if n < 2 ^ 64 then some n else none

/-- The options with a value (history.rs:82-113). -/
inductive Key where
  | query
  | scope
  | status
  | slow
  | limit
deriving DecidableEq

/-- Words of the command line (history.rs:79-113). -/
inductive Word where
  | help
  | verbose
  | key (k : Key)
  | other
deriving DecidableEq

def word (a : Str) : Word :=
  if a = c!"-h" ∨ a = c!"--help" then .help
  else if a = c!"-v" ∨ a = c!"--verbose" then .verbose
  else if a = c!"-q" ∨ a = c!"--query" then .key .query
  else if a = c!"-s" ∨ a = c!"--scope" then .key .scope
  else if a = c!"--status" then .key .status
  else if a = c!"--slow" then .key .slow
  else if a = c!"-n" ∨ a = c!"--limit" then .key .limit
  else .other

/-- An option with its value (history.rs:82-113). -/
def put (o : Options) (v : Str) : Key → Options
  | .query => { o with query := some v }
  | .scope => { o with scope := parseScope v }
  | .status => { o with status := parseStatus v }
  | .slow => { o with slow := parseNat v }
  | .limit => match parseNat v with | some n => { o with limit := max n 1 } | none => o

/-- `HistoryOptions::parse` (history.rs:75-123). -/
def parse : List Str → Options → Options
  | [], o => o
  | a :: rest, o =>
    match word a with
    | .help => parse rest { o with help := true }
    | .verbose => parse rest { o with verbose := true }
    | .key k =>
      match rest with
      | [] => o
      | v :: rest => parse rest (put o v k)
    | .other => parse rest (if o.query = none then { o with query := some a } else o)

/-- `has_filters` (history.rs:125-130). -/
def hasFilters (o : Options) : Bool :=
  o.query.isSome || o.scope != .global || o.status != .any || o.slow.isSome

/-- Where the shell is: directory, project, session (history.rs:24-37). -/
structure Place where
  cwd : Option Str
  project : Option Str
  session : Str

def toQuery (p : Place) (o : Options) : Query :=
  { text := o.query, status := o.status, minDuration := o.slow, scope := o.scope, session := some p.session,
    cwd := p.cwd, project := p.project, limit := some o.limit }

def showNat (n : Nat) : Str := Nat.toDigits 10 n

def showInt : Int → Str
  | .ofNat n => showNat n
  | .negSucc n => '-' :: showNat (n + 1)

/-- `format_entry` (history.rs:150-167). -/
def format (stamp : Int → Str) (e : Entry) : Str :=
  let status := match e.info.code with
    | some 0 => c!"ok"
    | some c => c!"err:" ++ showInt c
    | none => c!"-"
  let duration := match e.info.duration with
    | some ms => showNat ms ++ c!"ms"
    | none => c!"-"
  stamp e.time ++ '\t' :: status ++ '\t' :: duration ++ '\t' :: (e.info.cwd.getD c!"-") ++ '\t' :: e.cmd

/-- `execute` (history.rs:12-47): the entries shown, and the lines; `none` if the help is shown. -/
def listing (lower : Str → Str) (stamp : Int → Str) (p : Place) (m : Mem) (args : List Str) :
    Option (List Entry × List Str) :=
  let o := parse args {}
  if o.help then none
  else
    let es := m.search lower (toQuery p o)
    some (es, es.map fun e => if o.verbose || hasFilters o then format stamp e else e.cmd)

end Dsh.HistCmd
