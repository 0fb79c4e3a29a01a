import Verif.Dirs.FrecencyProps
/-!
The builtin `z` (dsh/src/proxy/builtin/z.rs) with its directory aliases (dsh/src/proxy/mod.rs:679-750,
the table `dir_aliases`): C131, C132.

The fuzzy matcher is a parameter (its score for a name and a pattern), and so is the menu.  The clock
stands still during one command.  Left out: `prune` of `z -c` looks at the file system (`exist`), its
saving is that of `Verif.Dirs.Frecency`; hooks of a change of directory; the decimal scores in a list.
-/
namespace Dsh.Jump
open Dsh.Frec

/-- The file system: where one ends up by changing to a path in a directory (canonical). -/
structure Disk where
  enter : Str → Str → Option Str
  exist : Str → Bool

/-- The state of the shell: working directory, `OLDPWD`, the alias table, the directory history, and whether
the database can be opened. -/
structure World where
  cwd : Str
  old : Option Str
  aliases : List (Str × Str)
  hist : Option (List Item)
  db : Bool

/-- What surrounds one command: floating point, the time, the project, the score of the matcher for a name
and a pattern, and the choice in a menu. -/
structure Env where
  I : Ieee
  now : Rat
  ctx : Option Str
  score : Str → Str → Option Int
  choose : List Str → Option Str

/-- The lines written to the two streams, and whether the status is 0 (dsh-builtin/src/z.rs:13-25, whose message
is kept without the cause). -/
structure Reply where
  out : List Str
  err : List Str
  ok : Bool
deriving DecidableEq, Repr

/-- `changepwd` (proxy/mod.rs:90-112); the visit is recorded by the caller's model of the history. -/
def changepwd (D : Disk) (w : World) (path : Str) : World × Bool :=
  let w := { w with old := some w.cwd }
  match D.enter w.cwd path with
  | some c => ({ w with cwd := c }, true)
  | none => (w, false)

/-! ### The alias table -/

/-- `add_dir_alias` (proxy/mod.rs:679-694): `INSERT OR REPLACE`. -/
def addAlias (w : World) (name path : Str) : World × Bool :=
  if w.db then ({ w with aliases := w.aliases.filter (fun a => a.1 != name) ++ [(name, path)] }, true) else (w, false)

/-- `remove_dir_alias` (proxy/mod.rs:696-712). -/
def removeAlias (w : World) (name : Str) : World × Bool :=
  if w.db then ({ w with aliases := w.aliases.filter (fun a => a.1 != name) }, w.aliases.any (fun a => a.1 == name))
  else (w, false)

/-- `list_dir_aliases` (proxy/mod.rs:714-734): `ORDER BY name`. -/
def listAliases (w : World) : List (Str × Str) :=
  if w.db then sortBy (fun a b => cmpStr a.1 b.1 != .gt) w.aliases else []

/-- `get_dir_alias` (proxy/mod.rs:736-752). -/
def getAlias (w : World) (name : Str) : Option Str :=
  if w.db then (w.aliases.find? (fun a => a.1 == name)).map (·.2) else none

/-! ### Matches -/

/-- `cmp_match_score_with_context` (stats.rs:91-102) for items with their scores. -/
def cmpMatch (E : Env) (a b : Int × Item) : Ordering :=
  match cmpInt a.1 b.1 with
  | .eq => fcmp (effective E.I E.now E.ctx a.2) (effective E.I E.now E.ctx b.2)
  | o => o

/-- `sort_by_match` (frecency_history.rs:389-419). -/
def byMatch (E : Env) (l : List Item) (pattern : Str) : List Str :=
  (sortBy (fun a b => (cmpMatch E a b).swap != .gt)
    (l.filterMap fun i => (E.score i.name pattern).bind fun s => if s > 25 then some (s, i) else none)).map (·.2.name)

/-! ### The command -/

/-- Interactive, list, clean, and the other words. -/
structure Args where
  interactive : Bool
  list : Bool
  clean : Bool
  words : List Str
deriving DecidableEq, Repr

/-- `parse_z_args` (z.rs:12-31) before the words are joined. -/
def parseArgs : List Str → Args
  | [] => ⟨false, false, false, []⟩
  | a :: l =>
    let r := parseArgs l
    if a = c!"-i" ∨ a = c!"--interactive" then { r with interactive := true }
    else if a = c!"-l" ∨ a = c!"--list" then { r with list := true }
    else if a = c!"-c" ∨ a = c!"--clean" then { r with clean := true }
    else { r with words := a :: r.words }

/-- Joined with blanks. -/
def query (r : Args) : Str := joinWith [' '] r.words

/-- A change of directory with a line in front; an error makes the status 1, and `z` says so. -/
def jump (D : Disk) (w : World) (path : Str) (line : List Str) : World × Reply :=
  let r := changepwd D w path
  (r.1, ⟨line, if r.2 then [] else [c!"z: failed to change directory"], r.2⟩)

/-- Lines 126-196 of `execute`: the directory history. -/
def fromHistory (D : Disk) (E : Env) (w : World) (r : Args) : World × Reply :=
  match w.hist with
  | none => (w, ⟨[], [c!"z: history not available"], true⟩)
  | some items =>
    let results := if query r = [] then (sorted .recent items).map (·.name) else byMatch E items (query r)
    if r.list then
      if results.isEmpty then (w, ⟨[], [c!"z: no matching history found"], true⟩)
      else (w, ⟨results.take 20, [], true⟩)
    else if r.interactive || (query r).isEmpty then
      if results.isEmpty then (w, ⟨[], [c!"z: no matching history found"], true⟩)
      else match E.choose results with
        | some s => jump D w s []
        | none => (w, ⟨[], [], true⟩)
    else match results with
      | t :: _ => jump D w t [c!"z: jumping to " ++ t ++ c!"\n"]
      | [] => (w, ⟨[], [c!"z: no matching history found", c!"z: failed to change directory"], false⟩)

/-- Lines 91-199 of `execute`, behind the subcommands. -/
def visitDir (D : Disk) (E : Env) (w : World) (args : List Str) : World × Reply :=
  let r := parseArgs args
  let w := if r.clean then { w with hist := w.hist.map fun l => l.filter (fun i => D.exist i.name) } else w
  if r.clean && (query r).isEmpty && !r.interactive && !r.list then (w, ⟨[], [], true⟩)
  else
    match (if query r = [] then none else getAlias w (query r)) with
    | some p => jump D w p [c!"z: jumping to " ++ p ++ c!" (alias)"]
    | none =>
      if query r = c!"-" then
        match w.old with
        | some o => jump D w o [c!"z: jumping to " ++ o ++ c!"\n"]
        | none => (w, ⟨[], [c!"z: OLDPWD not set", c!"z: failed to change directory"], false⟩)
      else fromHistory D E w r

/-- `z add` (z.rs:40-60). -/
def zAdd (w : World) : List Str → World × Reply
  | [] => (w, ⟨[], [c!"z add: usage: z add <alias> [path]", c!"z: failed to change directory"], false⟩)
  | name :: rest =>
    let path := rest.headD w.cwd
    let r := addAlias w name path
    (r.1, if r.2 then ⟨[c!"✓ Added alias: " ++ name ++ c!" → " ++ path], [], true⟩
      else ⟨[], [c!"z add: failed to add alias '" ++ name ++ c!"'"], true⟩)

/-- `z remove` (z.rs:61-73). -/
def zRemove (w : World) : List Str → World × Reply
  | [] => (w, ⟨[], [c!"z remove: usage: z remove <alias>", c!"z: failed to change directory"], false⟩)
  | name :: _ =>
    let r := removeAlias w name
    (r.1, if r.2 then ⟨[c!"✓ Removed alias: " ++ name], [], true⟩
      else ⟨[], [c!"z remove: no alias named '" ++ name ++ c!"'"], true⟩)

/-- `z aliases` (z.rs:74-88). -/
def zAliases (w : World) : World × Reply :=
  (w, ⟨if (listAliases w).isEmpty then [c!"No directory aliases defined. Use 'z add <alias> [path]' to create one."]
    else c!"Directory aliases:" :: (listAliases w).map fun a => c!"  " ++ a.1 ++ c!" → " ++ a.2, [], true⟩)

/-- `execute` (z.rs:36-199) with the arguments behind `z`. -/
def z (D : Disk) (E : Env) (w : World) : List Str → World × Reply
  | [] => visitDir D E w []
  | a :: l =>
    if a = c!"add" then zAdd w l
    else if a = c!"remove" ∨ a = c!"rm" then zRemove w l
    else if a = c!"aliases" ∨ a = c!"alias" then zAliases w
    else visitDir D E w (a :: l)

/-- Commands one after the other, each in its surroundings. -/
def run (D : Disk) : World → List (Env × List Str) → World
  | w, [] => w
  | w, (E, args) :: l => run D (z D E w args).1 l

end Dsh.Jump
