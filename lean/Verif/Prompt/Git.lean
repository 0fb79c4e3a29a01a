import Verif.Prompt.Where
/-!
The git part of the prompt: reading the report of git (dsh/src/prompt/mod.rs) and writing it (dsh/src/prompt/modules/git.rs): C140.

Colours are left out.  The counters are unbounded.
-/
namespace Dsh.Prm

/-- `GitStatus` (prompt/mod.rs:57-69). -/
structure Status where
  branch : Str := []
  oid : Option Str := none
  ahead : Nat := 0
  behind : Nat := 0
  staged : Nat := 0
  modified : Nat := 0
  untracked : Nat := 0
  conflicted : Nat := 0
  renamed : Nat := 0
  deleted : Nat := 0
deriving DecidableEq

/-- `split_whitespace`, with the letters read of the current word. -/
def wordsGo : Str → Str → List Str
  | cur, [] => if cur.isEmpty then [] else [cur.reverse]
  | cur, c :: cs =>
    if rustWhitespace c then (if cur.isEmpty then wordsGo [] cs else cur.reverse :: wordsGo [] cs)
    else wordsGo (c :: cur) cs

/-- `split_whitespace`. -/
def words (s : Str) : List Str := wordsGo [] s

/-- Decimal digits. -/
def digits (s : Str) : Option Nat :=
  if s.isEmpty || s.any (fun c => !c.isDigit) then none else some (s.foldl (fun n c => 10 * n + (c.toNat - 48)) 0)

/-- `u32::from_str`; a plus in front is left out, it does not occur. -/
def parse32 (s : Str) : Option Nat := (digits s).bind fun n => if n < 2 ^ 32 then some n else none

/-- A header (prompt/mod.rs:890-912). -/
def header (line : Str) (st : Status) : Status :=
  let w := words line
  if c!"# branch.oid".isPrefixOf line then
    match w[2]? with
    | some o => { st with oid := some o }
    | none => st
  else if c!"# branch.head".isPrefixOf line then
    match w[2]? with
    | some b => { st with branch := b }
    | none => st
  else if c!"# branch.ab".isPrefixOf line then
    let st := match (w[2]?).bind fun v => parse32 (v.filter (· != '+')) with
      | some n => { st with ahead := n }
      | none => st
    match (w[3]?).bind fun v => parse32 (v.filter (· != '-')) with
    | some n => { st with behind := n }
    | none => st
  else st

/-- The two letters of a changed file (prompt/mod.rs:931-963). -/
def entry (x y : Char) (st : Status) : Status :=
  { st with
    renamed := if x = 'R' then st.renamed + 1 else st.renamed
    deleted := if x = 'D' ∨ y = 'D' then st.deleted + 1 else st.deleted
    staged := if x ≠ '.' ∧ x ≠ '?' then st.staged + 1 else st.staged
    modified := if y = 'M' then st.modified + 1 else st.modified }

/-- `list_stats` (prompt/mod.rs:889-967). -/
def listStats (line : Str) (st : Status) : Status :=
  match line with
  | '#' :: _ => header line st
  | '?' :: _ => { st with untracked := st.untracked + 1 }
  | 'u' :: _ => { st with conflicted := st.conflicted + 1 }
  | c :: rest =>
    if c = '1' ∨ c = '2' then
      match rest with
      | [] => st
      | _ :: xy => entry (xy[0]?.getD '.') (xy[1]?.getD '.') st
    else st
  | [] => st

/-- `parse_git_status_output` (prompt/mod.rs:868-887): a line that is not UTF-8 (`none`) ends the reading. -/
def parse : List (Option Str) → Status → Status
  | [], st => st
  | none :: _, st => st
  | some l :: ls, st => parse ls (listStats (trim l) st)

/-- A mark with a number, if the number is not 0. -/
def mark (front m : Str) (n : Nat) : Str := if n > 0 then front ++ m ++ Nat.toDigits 10 n else []

/-- `status_content` (modules/git.rs:26-57). -/
def content (st : Status) : Str :=
  mark [] ['='] st.conflicted ++
  (if st.ahead > 0 ∧ st.behind > 0 then [' ', '⇕', ' ']
   else mark [' '] ['⇡'] st.ahead ++ mark [' '] ['⇣'] st.behind) ++
  mark [' '] ['+'] st.staged ++ mark [' '] ['»'] st.renamed ++ mark [' '] ['✘'] st.deleted ++
  mark [' '] ['!'] st.modified ++ mark [' '] ['?'] st.untracked

/-- What the module shows (modules/git.rs:59-72). -/
def gitPart (st : Status) : Str :=
  c!" on 🐾 " ++ st.branch ++ (if (content st).isEmpty then [] else c!" [" ++ trim (content st) ++ [']'])

end Dsh.Prm
