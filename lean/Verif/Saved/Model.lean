import Verif.Util
/-!
Saved commands: the built-ins `bookmark` (dsh-builtin/src/bookmark.rs) and `snippet`
(dsh-builtin/src/snippet.rs), their tables (dsh/src/proxy/mod.rs:447-668, dsh/src/snippet.rs, both
SQLite with a UNIQUE name), and how a built-in has a program executed: `dispatch`
(dsh/src/proxy/mod.rs:118-126) and `external::execute` (dsh/src/proxy/external.rs).

Simplified: the database opens and every statement succeeds unless the name is taken; times of creation
and use are left out; texts printed are values of `Say`; a table is printed as its rows.
-/
namespace Dsh.Saved

abbrev Str := List Char

/-! ### Executing a program for a built-in -/

/-- A program executed: `std::process::Command::new(prog).args(args)`. The name the program sees as its
argument 0 is `prog`; `args` follow it. -/
structure Exec where
  prog : Str
  args : List Str
  deriving DecidableEq, Repr

/-- `external::execute` (external.rs:15-48). -/
def external (cmd : Str) (argv : List Str) : Exec :=
  if argv.isEmpty && (cmd.contains ' ' || cmd.contains '|' || cmd.contains '>' || cmd.contains '&') then
    ⟨c!"sh", [c!"-c", cmd]⟩
  else ⟨cmd, argv⟩

/-- What `dispatch` does with a name and its words. -/
inductive Disp
  /-- the handler of a built-in of the registry; handlers read their arguments from position 1 on
  (var.rs:42, z.rs:19, jobs.rs) -/
  | builtin (name : Str) (argv : List Str)
  | exec (e : Exec)
  deriving DecidableEq, Repr

/-- The names of the registry (registry.rs:27-51). -/
def registry : List Str := [c!"exit", c!"history", c!"reload", c!"z", c!"jobs", c!"fg", c!"bg", c!"lisp", c!"lisp-run",
  c!"var", c!"read"]

/-- `dispatch` (proxy/mod.rs:118-126). -/
def dispatch (cmd : Str) (argv : List Str) : Disp :=
  if registry.contains cmd then .builtin cmd argv else .exec (external cmd argv)

/-! ### The table -/

/-- A saved command. -/
structure Row where
  name : Str
  cmd : Str
  desc : Option Str := none
  uses : Nat := 0
  deriving DecidableEq, Repr

abbrev Table := List Row

/-- `get_bookmark`, `get_snippet` (proxy/mod.rs:640-656, snippet.rs:77-104). -/
def get (t : Table) (n : Str) : Option Row := t.find? (·.name = n)

/-- INSERT (proxy/mod.rs:578-593, snippet.rs:56-66); `none`: the name is taken. -/
def insertRow (t : Table) (n c : Str) : Option Table :=
  if t.any (·.name = n) then none else some (t ++ [⟨n, c, none, 0⟩])

/-- DELETE (proxy/mod.rs:595-611, snippet.rs:69-76): the table, and whether a row was deleted. -/
def deleteRow (t : Table) (n : Str) : Table × Bool := (t.filter (·.name ≠ n), t.any (·.name = n))

/-- UPDATE of the number of uses (proxy/mod.rs:658-668, snippet.rs:135-146). -/
def recordUse (t : Table) (n : Str) : Table := t.map fun r => if r.name = n then { r with uses := r.uses + 1 } else r

/-- UPDATE of the command (snippet.rs:149-159). -/
def updateRow (t : Table) (n c : Str) : Table := t.map fun r => if r.name = n then { r with cmd := c } else r

/-- Order of names: SQLite compares the bytes of UTF-8, which is the order of the code points. -/
def nameLe : Str → Str → Bool
  | [], _ => true
  | _ :: _, [] => false
  | a :: as, b :: bs => a.toNat < b.toNat || (a.toNat = b.toNat && nameLe as bs)

/-- `ORDER BY use_count DESC, name ASC` (proxy/mod.rs:619, snippet.rs:113-115). -/
def rowLe (a b : Row) : Bool := b.uses < a.uses || (a.uses = b.uses && nameLe a.name b.name)

/-- `list_bookmarks`, `list_snippets` (proxy/mod.rs:613-638, snippet.rs:107-132). -/
def listed (t : Table) : Table := sortBy rowLe t

/-! ### The built-ins -/

/-- Length in bytes (`str::len`). -/
def bytes (s : Str) : Nat := (s.map Char.utf8Size).sum

/-- `&s[..n]`; `none`: a panic, byte `n` is within a character or past the end. -/
def prefixBytes : Nat → Str → Option Str
  | 0, _ => some []
  | _ + 1, [] => none
  | n + 1, c :: cs => if c.utf8Size ≤ n + 1 then (prefixBytes (n + 1 - c.utf8Size) cs).map (c :: ·) else none
termination_by _ s => s.length

/-- The command as listed (bookmark.rs:107-111, snippet.rs:115-119); `none`: a panic. -/
def shorten (s : Str) : Option Str := if 50 < bytes s then (prefixBytes 47 s).map (· ++ c!"...") else some s

/-- What is printed. -/
inductive Say
  | help | noneDefined | table (rows : List (Str × Str × Nat))
  | name (n : Str) | command (c : Str) | description (d : Str) | uses (k : Nat)
  | running (c : Str) | added (n : Str) | removed (n : Str) | updated (n : Str) | unchanged
  | noSuch (n : Str) | badName | emptyCommand | taken (n : Str) | unknownSub (s : Str) | invalid | noHistory
  | needsCommand | failed (n : Str) | executionFailed | editorFailed
  deriving DecidableEq, Repr

/-- What an invocation does. -/
structure Res where
  status : Nat
  say : List Say := []
  did : List Disp := []
  deriving DecidableEq, Repr

/-- What an invocation finds around it. -/
structure World where
  /-- the in-memory history of commands: loaded `ORDER BY timestamp ASC`, new ones pushed at the end
  (command_history.rs:201-236, 508) -/
  history : List Str
  /-- whether what is dispatched succeeds -/
  ok : Disp → Bool
  /-- what the editor leaves for a text it is given; `none`: it could not be opened -/
  editor : Str → Option Str

/-- `get_last_command` (proxy/mod.rs:670-677): `history.iter().next()`. -/
def getLastCommand (W : World) : Option Str := W.history.head?

inductive Kind | bookmark | snippet
  deriving DecidableEq, Repr

/-- `list_all_bookmarks`, `list_all_snippets` (bookmark.rs:94-121, snippet.rs:102-130). -/
def listAll (t : Table) : Option Res :=
  if t.isEmpty then some ⟨0, [.noneDefined], []⟩
  else ((listed t).mapM fun r => (shorten r.cmd).map fun c => (r.name, c, r.uses)).map fun rows => ⟨0, [.table rows], []⟩

/-- `show_specific_bookmark`, `show_specific_snippet` (bookmark.rs:123-134, snippet.rs:133-151). -/
def showOne (t : Table) (n : Str) : Res :=
  match get t n with
  | some r => ⟨0, [.name r.name, .command r.cmd] ++ r.desc.toList.map .description ++ [.uses r.uses], []⟩
  | none => ⟨1, [.noSuch n], []⟩

/-- `add_bookmark`, `add_snippet` (bookmark.rs:136-172, snippet.rs:154-194). -/
def addOne (t : Table) (n c : Str) : Res × Table :=
  if n.isEmpty || n.contains ' ' || n.contains '\t' then (⟨1, [.badName], []⟩, t)
  else if c.isEmpty then (⟨1, [.emptyCommand], []⟩, t)
  else if (get t n).isSome then (⟨1, [.taken n], []⟩, t)
  else match insertRow t n c with
    | some t' => (⟨0, [.added n], []⟩, t')
    | none => (⟨1, [.failed n], []⟩, t)

/-- `remove_bookmark`, `remove_snippet` (bookmark.rs:174-184, snippet.rs:197-206). -/
def removeOne (t : Table) (n : Str) : Res × Table :=
  if (deleteRow t n).2 then (⟨0, [.removed n], []⟩, (deleteRow t n).1) else (⟨1, [.noSuch n], []⟩, (deleteRow t n).1)

/-- `run_bookmark`, `run_snippet` (bookmark.rs:186-203, snippet.rs:209-235). -/
def runOne (W : World) (t : Table) (n : Str) : Res × Table :=
  match get t n with
  | some r =>
    let d := dispatch c!"sh" [c!"sh", c!"-c", r.cmd]
    (if W.ok d then ⟨0, [.running r.cmd], [d]⟩ else ⟨1, [.running r.cmd, .executionFailed], [d]⟩, recordUse t n)
  | none => (⟨1, [.noSuch n], []⟩, t)

/-- `edit_snippet` (snippet.rs:236-270). -/
def editOne (W : World) (t : Table) (n : Str) : Res × Table :=
  match get t n with
  | none => (⟨1, [.noSuch n], []⟩, t)
  | some r => match W.editor r.cmd with
    | none => (⟨1, [.editorFailed], []⟩, t)
    | some e =>
      if (trim e).isEmpty then (⟨1, [.emptyCommand], []⟩, t)
      else if trim e ≠ r.cmd then (⟨0, [.updated n], []⟩, updateRow t n (trim e))
      else (⟨0, [.unchanged], []⟩, t)

/-- `command` (bookmark.rs:27-75, snippet.rs:29-80). `none`: a panic (`argv` is never empty). -/
def command (k : Kind) (W : World) (t : Table) (argv : List Str) : Option (Res × Table) :=
  match argv with
  | [] => some (⟨1, [.invalid, .help], []⟩, t)
  | [_] => (listAll t).map (·, t)
  | [_, arg] =>
    if [c!"list", c!"-l", c!"--list"].contains arg then (listAll t).map (·, t)
    else if [c!"help", c!"-h", c!"--help"].contains arg then some (⟨0, [.help], []⟩, t)
    else some (showOne t arg, t)
  | [_, sub, n] =>
    if [c!"remove", c!"rm", c!"-r"].contains sub then some (removeOne t n)
    else if [c!"run", c!"exec", c!"-x"].contains sub then some (runOne W t n)
    else if k = .snippet && [c!"edit", c!"-e"].contains sub then some (editOne W t n)
    else if [c!"add", c!"-a"].contains sub then
      match k with
      | .bookmark => match getLastCommand W with
        | some c => some (addOne t n c)
        | none => some (⟨1, [.noHistory], []⟩, t)
      | .snippet => some (⟨1, [.needsCommand], []⟩, t)
    else some (⟨0, [.unknownSub sub, .help], []⟩, t)
  | _ :: sub :: n :: words =>
    if [c!"add", c!"-a"].contains sub then some (addOne t n (joinWith c!" " words))
    else some (⟨0, [.invalid, .help], []⟩, t)

/-- A session: invocations one after another; it ends at a panic. -/
def session (k : Kind) : Table → List (World × List Str) → Option Table
  | t, [] => some t
  | t, (W, argv) :: rest => match command k W t argv with
    | none => none
    | some (_, t') => session k t' rest

end Dsh.Saved
