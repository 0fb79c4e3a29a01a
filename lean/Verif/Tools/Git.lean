import Verif.Jobs.Record
import Verif.Prompt.Git
import Verif.Fs.Model
/-!
# `ga`, `gco`, `gwt` and `glog`

`dsh-builtin/src/ga.rs`, `gco.rs`, `gwt.rs`, `glog.rs`: each asks `git` for a list, lets the user choose (crate skim), and runs `git` on
the choice.

Part of the specification, written from the manual pages of git: the texts `git status --porcelain`, `git branch --all`,
`git worktree list --porcelain` and `git log` print, and what `git add` and `git checkout` do with their arguments. What the user
chose is a parameter: positions in the list, and whether the choice was broken off; skim gives both (`SkimOutput`).
-/
namespace Dsh.Git
open Dsh.Record (lines)
open Dsh.Prm (words)

abbrev Str := List Char

/-- What skim returns (`SkimOutput`): broken off or not, and the lines marked. -/
structure Picked where
  abort : Bool
  rows : List Nat
deriving DecidableEq, Repr

/-- The rows of a list. -/
def rowsOf {α : Type} (l : List α) (p : Picked) : List α := p.rows.filterMap fun i => l[i]?

/-! ## `ga` -/

/-- One entry of the list: the path given to `git add` and the text shown. -/
structure Item where
  path : Str
  display : Str
deriving DecidableEq, Repr

/-- `line.len() < 4`, in bytes. -/
def short (l : Str) : Bool := decide ((l.map Char.utf8Size).sum < 4)

/-- `get_git_status` (ga.rs:148-175). `&line[3..]` is the text behind the first three characters, which are ASCII in the output of git. -/
def status (out : Str) : List Item :=
  ((lines out).filter fun l => !short l).map fun l => ⟨l.drop 3, l⟩

/-- `command` (ga.rs:41-136): the arguments of `git`, `none` if it is not run. The result of the choice is used whether it was broken off
or not (ga.rs:95-97). -/
def ga (out : Str) (p : Picked) : Option (List Str) :=
  let items := status out
  if items.isEmpty then none
  else
    let chosen := rowsOf items p
    if chosen.isEmpty then none else some (c!"add" :: chosen.map Item.path)

/-! ## `gco` -/

/-- `get_git_branches` (gco.rs:157-178). -/
def branches (out : Str) : List Str :=
  ((lines out).map fun l => trim (l.filter (· ≠ '*'))).filter fun l => !l.isEmpty

/-- `str::find` of a text, and what is behind it. -/
def afterText (needle : Str) : Str → Option Str
  | [] => if needle.isEmpty then some [] else none
  | c :: s => if needle.isPrefixOf (c :: s) then some ((c :: s).drop needle.length) else afterText needle s

/-- What is behind the first `/`. -/
def afterSlash : Str → Option Str
  | [] => none
  | c :: s => if c = '/' then some s else afterSlash s

/-- `extract_branch_name` (gco.rs:180-201). -/
def branchName (b : Str) : Str :=
  let b := trim b
  match afterText c!" -> " b with
  | some target => (afterSlash target).getD target
  | none =>
    if c!"remotes/".isPrefixOf b then (afterSlash (b.drop 8)).getD b else b

/-- `command` (gco.rs:26-143): the argument of `git checkout`; a single branch is not asked for. -/
def gco (out : Str) (p : Picked) : Option Str :=
  match branches out with
  | [] => none
  | [b] => some (branchName b)
  | bs => if p.abort then none else ((rowsOf bs p).head?).map branchName

/-! ## `gwt` -/

/-- `Action` (gwt.rs:131-138). -/
inductive Action where
  | list | remove (force : Bool) | prune | add (branch : Str) (new : Bool) | fromPr | usage
deriving DecidableEq, Repr

/-- `CommandOptions` (gwt.rs:124-128). -/
structure Options where
  action : Action
  cd : Bool := false
  editor : Bool := false
deriving DecidableEq, Repr

/-- The variables of the loop (gwt.rs:151-158). -/
structure Flags where
  cd : Bool := true
  editor : Bool := false
  new : Bool := false
  branch : Option Str := none
  remove : Bool := false
  prune : Bool := false
  force : Bool := false
  pr : Bool := false
deriving DecidableEq, Repr

/-- One argument (gwt.rs:162-209); `none` is an error. -/
def flag (f : Flags) (a : Str) : Option Flags :=
  if a = c!"-r" then some { f with remove := true }
  else if a = c!"-P" ∨ a = c!"--pr" then some { f with pr := true }
  else if a = c!"-p" then some { f with prune := true }
  else if a = c!"-f" ∨ a = c!"--force" then some { f with force := true }
  else if a = c!"-rf" ∨ a = c!"-fr" then some { f with remove := true, force := true }
  else if a = c!"-n" then some { f with cd := false }
  else if a = c!"-b" then some { f with new := true }
  else if a = c!"-e" then some { f with editor := true }
  else if a = c!"-be" ∨ a = c!"-eb" then some { f with new := true, editor := true }
  else if a = c!"-bn" ∨ a = c!"-nb" then some { f with new := true, cd := false }
  else if a = c!"-en" ∨ a = c!"-ne" then some { f with editor := true, cd := false }
  else if a = c!"-ben" ∨ a = c!"-bne" ∨ a = c!"-ebn" ∨ a = c!"-enb" ∨ a = c!"-nbe" ∨ a = c!"-neb" then
    some { f with new := true, editor := true, cd := false }
  else if a.head? = some '-' then none
  else if f.branch.isSome then none
  else some { f with branch := some a }

/-- The loop over the arguments (gwt.rs:161-211). -/
def flags : Flags → List Str → Option Flags
  | f, [] => some f
  | f, a :: as => (flag f a).bind fun f => flags f as

/-- The action (gwt.rs:213-246). -/
def decideAction (f : Flags) : Option Options :=
  if f.remove then some { action := .remove f.force }
  else if f.prune then some { action := .prune }
  else if f.pr then some { action := .fromPr, cd := f.cd, editor := f.editor }
  else match f.branch with
    | some b => some { action := .add b f.new, cd := f.cd, editor := f.editor }
    | none => if f.editor || f.new then none else some { action := .usage }

/-- `parse_options` (gwt.rs:141-247). -/
def options (args : List Str) : Option Options :=
  if args.isEmpty then some { action := .list } else (flags {} args).bind decideAction

/-- The loop of `get_linked_worktrees` (gwt.rs:485-511): the current entry, main or not, and what is found further on. -/
def linkedGo : Option Str → Bool → List Str → List Str
  | cur, main, [] => if main then [] else cur.toList
  | cur, main, l :: ls =>
    if c!"worktree ".isPrefixOf l then (if main then [] else cur.toList) ++ linkedGo (some (l.drop 9)) false ls
    else if l = c!"bare" then linkedGo cur true ls
    else linkedGo cur main ls

/-- `get_linked_worktrees` (gwt.rs:473-519). -/
def linked (out : Str) : List Str := (linkedGo none false (lines out)).drop 1

/-- `remove_worktree_interactive` and `remove_worktree` (gwt.rs:407-470, 522-532): the arguments of `git`. -/
def gwtRemove (out : Str) (force : Bool) (p : Picked) : Option (List Str) :=
  let args := fun w : Str => [c!"worktree", c!"remove"] ++ (if force then [c!"--force"] else []) ++ [w]
  match linked out with
  | [] => none
  | [w] => some (args w)
  | ws => if p.abort then none else ((rowsOf ws p).head?).map args

/-- `sanitize_branch_name` (gwt.rs:328-330). -/
def sanitize (b : Str) : Str := b.map fun c => if c ∈ c!"/\\:*?\"<>|" then '-' else c

/-- `format_worktree_dir` (gwt.rs:348-351). -/
def dirName (project branch : Str) : Str := project ++ '-' :: sanitize branch

/-- `add_worktree` (gwt.rs:354-404): the arguments of `git`; `none` if the directory exists. `parent` is the directory of the work tree
with a slash at its end. -/
def gwtAdd (there : Str → Bool) (parent project branch : Str) (new : Bool) : Option (List Str) :=
  let path := parent ++ dirName project branch
  if there path then none
  else some ([c!"worktree", c!"add"] ++ (if new then [c!"-b", branch] else []) ++ [path] ++ (if new then [] else [branch]))

/-! ## `glog` -/

/-- `strip_ansi_codes` (glog.rs:301-320); the flag says whether a sequence is being skipped. -/
def stripAnsi : Bool → Str → Str
  | _, [] => []
  | true, c :: s => if c.isAlpha then stripAnsi false s else stripAnsi true s
  | false, '\x1b' :: '[' :: s => stripAnsi true s
  | false, c :: s => c :: stripAnsi false s

/-- `char::is_ascii_hexdigit`. -/
def hex (c : Char) : Bool := c.isDigit || ('a' ≤ c && c ≤ 'f') || ('A' ≤ c && c ≤ 'F')

/-- Characters of the drawing of the history that are taken off (glog.rs:291). -/
def graph (c : Char) : Bool := decide (c ∈ c!"*|\\/- ")

/-- `extract_commit_hash` (glog.rs:285-298). -/
def commitHash (l : Str) : Option Str :=
  ((words (stripAnsi false l)).map (·.dropWhile graph)).find? fun w => decide (7 ≤ w.length) && w.all hex

/-- The answer to the question before a checkout (glog.rs:374-387): `to_lowercase` is given for ASCII. -/
def agreed (answer : Str) : Bool :=
  let a := (trim answer).map Char.toLower
  decide (a = c!"y") || decide (a = c!"yes")

/-- `command` (glog.rs:20-59) on the line chosen: the commit that is checked out. -/
def glog (line : Option Str) (answer : Str) : Option Str :=
  match line.bind commitHash with
  | some h => if agreed answer then some h else none
  | none => none

end Dsh.Git
