import Verif.Env.Model
import Verif.Safety.Model
import Verif.Completion.Generated
/-!
# Notifications of GitHub: the counts in the prompt and `gh-notify`

`dsh/src/github.rs` (here github.rs), the part of the prompt in `dsh/src/prompt/mod.rs` (prompt/mod.rs), its settings in
`dsh/src/repl/mod.rs` (repl/mod.rs) and `dsh-builtin/src/gh_notify.rs` (gh_notify.rs).

Simplified: the service is a value: what is unread, how many of these it sends at once, and what it answers to further
questions. Colours, signs and the time between checks are left out; lower case is that of ASCII. The requests for single
notifications run beside each other; nothing here depends on their order.
-/
namespace Dsh.GitHub
open Dsh.CompGen (J)

abbrev Str := List Char

/-- A notification as far as it is read by the prompt (github.rs:120-137): a missing reason is the empty one. -/
structure Note where
  reason : Str
  url : Option Str
  id : Option Str
deriving DecidableEq, Repr

/-- The service. `page`: how many it sends if it is not asked for more (it is not, github.rs:104-105); `closed`: the pull
request at an address is closed or merged (github.rs:48-75); `marks`: it lets itself be marked as read (github.rs:77-101). -/
structure Service where
  unread : List Note
  page : Nat
  closed : Str → Bool
  marks : Str → Bool

/-- `GitHubStatus` (github.rs:12-17). -/
structure Status where
  review : Nat
  mention : Nat
  other : Nat
  error : Bool
deriving DecidableEq, Repr

abbrev review : Str := c!"review_requested"

/-- Which thread is asked to be marked as read for a notification (github.rs:121-134). -/
def toMark (v : Service) (n : Note) : Option Str :=
  if n.reason = review then
    match n.url with
    | some u => if v.closed u then n.id else none
    | none => none
  else none

/-- Notifications left out (github.rs:125-135). -/
def dropped (v : Service) (n : Note) : Bool :=
  match toMark v n with
  | some i => v.marks i
  | none => false

/-- The reasons a setting allows (github.rs:160-167); nothing: all. -/
def allowed (filter : Option Str) : Option (List Str) :=
  match filter with
  | some f => if (c!"reason:").isPrefixOf f then some ((Env.splitOn ',' (f.drop 7)).map trim) else none
  | none => none

/-- The reason is not among those allowed (github.rs:178-183). -/
def skipped (al : Option (List Str)) (n : Note) : Bool :=
  match al with
  | some l => !l.contains n.reason
  | none => false

/-- One round of the loop (github.rs:171-190). -/
def count (al : Option (List Str)) (s : Status) (n : Note) : Status :=
  if skipped al n then s
  else if n.reason = review then { s with review := s.review + 1 }
  else if n.reason = c!"mention" ∨ n.reason = c!"assign" then { s with mention := s.mention + 1 }
  else { s with other := s.other + 1 }

/-- `parse_notifications` (github.rs:159-197). -/
def parse (notes : List Note) (filter : Option Str) : Status :=
  notes.foldl (count (allowed filter)) ⟨0, 0, 0, false⟩

/-- `fetch_notifications` (github.rs:103-156): the status and the threads asked to be marked as read. -/
def fetch (v : Service) (filter : Option Str) : Status × List Str :=
  let got := v.unread.take v.page
  (parse (got.filter (!dropped v ·)) filter, got.filterMap (toMark v))

/-- The settings of the user: the Lisp variables `*github-pat*` and `*github-notifications-filter*`. -/
structure Cfg where
  token : Option Str
  filter : Option Str
deriving DecidableEq, Repr

/-- The shell: the settings there are now, those the task in the background has (repl/mod.rs:191-229, copied when the shell
starts), the status, and the threads marked. -/
structure St where
  cfg : Cfg
  task : Cfg
  status : Status
  marked : List Str
  used : List Str

/-- `Repl::new` (repl/mod.rs:157-330). -/
def start (c : Cfg) : St := ⟨c, c, ⟨0, 0, 0, false⟩, [], []⟩

/-- One check of the task (github.rs:209-251): in a repository and with a token the service is asked; nothing: it cannot
be asked. `used` are the tokens it was asked with. -/
def check (s : St) (git : Bool) (v : Option Service) : St :=
  match s.task.token with
  | none => s
  | some k =>
    if git then
      match v with
      | some v =>
        let r := fetch v s.task.filter
        { s with status := r.1, marked := s.marked ++ r.2, used := s.used ++ [k] }
      | none => { s with status := { s.status with error := true }, used := s.used ++ [k] }
    else s

inductive Ev where
  | check (git : Bool) (v : Option Service)
  | set (c : Cfg)

def ev (s : St) : Ev → St
  | .check git v => check s git v
  | .set c => { s with cfg := c }

def evs (s : St) (l : List Ev) : St := l.foldl ev s

inductive Kind where
  | review | mention | other
deriving DecidableEq, Repr

/-- What the prompt shows: nothing, numbers, or an error. -/
inductive Shown where
  | nothing
  | counts (l : List (Kind × Nat))
  | error
deriving DecidableEq, Repr

/-- The part of the prompt (prompt/mod.rs:413-457). -/
def shown (git : Bool) (s : Status) : Shown :=
  if git then
    if s.review + s.mention + s.other > 0 then
      .counts ((if s.review > 0 then [(.review, s.review)] else []) ++ (if s.mention > 0 then [(.mention, s.mention)] else []) ++
        (if s.other > 0 then [(.other, s.other)] else []))
    else if s.error then .error
    else .nothing
  else .nothing

/-! ### `gh-notify` -/

/-- `Notification` (gh_notify.rs:19-27) with its subject and repository (gh_notify.rs:33-45). -/
structure Full where
  id : Str
  title : Str
  url : Option Str
  repo : Str
  html : Str
  reason : Str
  unread : Bool
deriving DecidableEq, Repr

/-- A field of a struct as `serde` reads it: there once (a second one is an error). -/
def field (m : List (Str × J)) (k : Str) : Option J :=
  match m.filter (·.1 == k) with
  | [(_, j)] => some j
  | _ => none

/-- A field that must be a text. -/
def text (m : List (Str × J)) (k : Str) : Option Str :=
  match field m k with
  | some (.str s) => some s
  | _ => none

/-- A text that may be missing or null; the outer nothing is an error. -/
def text? (m : List (Str × J)) (k : Str) : Option (Option Str) :=
  match m.filter (·.1 == k) with
  | [] => some none
  | [(_, .null)] => some none
  | [(_, .str s)] => some (some s)
  | _ => none

/-- A truth value that is false if it is missing. -/
def flag (m : List (Str × J)) (k : Str) : Option Bool :=
  match m.filter (·.1 == k) with
  | [] => some false
  | [(_, .bool b)] => some b
  | _ => none

/-- A field that must be an object. -/
def object (m : List (Str × J)) (k : Str) : Option (List (Str × J)) :=
  match field m k with
  | some (.obj l) => some l
  | _ => none

/-- Reading one notification: every field of the struct under its own name, unless another is given. The field for the
time is named `_updated_at`. -/
def full : J → Option Full
  | .obj m => do
    let id ← text m c!"id"
    let sub ← object m c!"subject"
    let title ← text sub c!"title"
    let _ ← text sub c!"type"
    let url ← text? sub c!"url"
    let rep ← object m c!"repository"
    let repo ← text rep c!"full_name"
    let html ← text rep c!"html_url"
    let reason ← text m c!"reason"
    let _ ← text m c!"_updated_at"
    let unread ← flag m c!"unread"
    pure ⟨id, title, url, repo, html, reason, unread⟩
  | _ => none

/-- `fetch_notifications` (gh_notify.rs:264-282) of an answer that is a list. -/
def listing (answer : List J) : Option (List Full) := (answer.mapM full).map (·.filter (·.unread))

def lower (s : Str) : Str := s.map Char.toLower

/-- `filter_notifications` (gh_notify.rs:284-303). -/
def filtered (l : List Full) (pats : List Str) : List Full :=
  if pats.isEmpty then l else l.filter fun n => pats.any fun p => Safety.hasSub (lower p) (lower n.repo)

/-- `format_notification_display` (gh_notify.rs:344-356). -/
def line (n : Full) : Str :=
  (if n.reason = review then c!"🔍" else if n.reason = c!"mention" ∨ n.reason = c!"assign" then c!"🔔"
   else if n.reason = c!"ci_activity" then c!"🚦" else c!"📬") ++
  c!" [" ++ n.repo ++ c!"] " ++ n.title ++ c!" (" ++ n.reason ++ c!")"

/-- The map from lines to notifications (gh_notify.rs:156-164): a later one replaces an earlier one. -/
def byLine (l : List Full) (t : Str) : Option Full := l.reverse.find? (line · == t)

/-- What one run does: its status, the lines it offers, the address it opens, the thread it asks to be marked as read, and
whether it says that this is done. -/
structure Run where
  status : Nat
  offered : List Str
  opened : Option Str
  marked : Option Str
  said : Bool
deriving DecidableEq, Repr

/-- `command` (gh_notify.rs:64-262) in a terminal and with a token. `page` is the web address the service gives for an
address (gh_notify.rs:305-325), `opens` whether a browser can be started. What the service says to the marking is not
looked at (gh_notify.rs:243-258). -/
def run (answer : Option (List J)) (pats : List Str) (mark : Bool) (choose : List Str → Option Str) (page : Str → Option Str)
    (opens : Bool) : Run :=
  match answer.bind listing with
  | none => ⟨1, [], none, none, false⟩
  | some l =>
    let l := filtered l pats
    if l.isEmpty then ⟨0, [], none, none, false⟩
    else
      let texts := l.map line
      match (choose texts).bind (byLine l) with
      | none => ⟨0, texts, none, none, false⟩
      | some n =>
        let to := (n.url.bind page).getD n.html
        if opens then ⟨0, texts, some to, if mark then some n.id else none, mark⟩
        else ⟨1, texts, none, none, false⟩

end Dsh.GitHub
