import Verif.Util
/-!
What the tools of the AI do about files ignored by git, and how long their answers may be.
-/
namespace Dsh.Ign

abbrev Str := List Char
/-- A path below the top of the work tree, as its components. -/
abbrev Path := List Str

/-- What one ignore file says about a path. -/
inductive Verdict where
  | none | ignore | keep
deriving DecidableEq

/-- A `.gitignore`: what its good lines say about a path below its directory (`true` for directories), and whether it has a line that is no pattern. -/
structure Rules where
  says : Path → Bool → Verdict
  bad : Bool

/-- A work tree: the ignore file of each directory, what the user's other ignore lists (`.git/info/exclude`, `core.excludesFile`) say, and which paths are directories. -/
structure Tree where
  rules : Path → Option Rules
  exclude : Path → Bool → Verdict
  isDir : Path → Bool

/-- The proper initial parts of a path that are below its start. -/
def inner : Path → List Path
  | [] => []
  | [_] => []
  | a :: b :: r => [a] :: (inner (b :: r)).map (a :: ·)

/-- `is_gitignored` (chatgpt/tool/gitignore.rs:6-53) for the path `rel` below the directory `base`; what the file says about a path is a parameter (crate ignore). -/
def isIgnored (t : Tree) (base rel : Path) : Bool :=
  match t.rules base with
  | none => false
  | some r =>
    if r.bad then false
    else if rel = [] then false
    else if r.says rel (t.isDir (base ++ rel)) = .ignore then true
    else (inner rel).any fun q => decide (r.says q true = .ignore)

/-- The `read_file` and `edit` tools refuse a path (chatgpt/tool/read.rs:51-55, chatgpt/tool/edit.rs:59-63). -/
def refuses (t : Tree) (cwd rel : Path) : Bool := isIgnored t cwd rel

/-- The entries shown by the `ls` tool (chatgpt/tool/ls.rs:49-59) in the order the directory gives them; they are sorted afterwards (not modelled). `none` if it refuses. -/
def shown (t : Tree) (cwd rel : Path) (entries : List Str) : Option (List Str) :=
  if isIgnored t cwd rel then none
  else some (entries.filter fun n => !isIgnored t cwd (rel ++ [n]))

/-- A name the walker skips as hidden (crate ignore, `hidden(true)` by default). -/
def hidden (n : Str) : Bool := n.head? == some '.'

/-- The parts of a path at which it can be cut in front of its last component, deepest first. -/
def cuts : Path → List (Path × Path)
  | [] => []
  | a :: r => (cuts r).map (fun x => (a :: x.1, x.2)) ++ [([], a :: r)]

/-- What the ignore file of the first directory with an opinion says. -/
def firstSay (t : Tree) (b : Bool) : List (Path × Path) → Verdict
  | [] => .none
  | (d, s) :: l =>
    match t.rules d with
    | none => firstSay t b l
    | some r => if r.says s b = .none then firstSay t b l else r.says s b

/-- What all the ignore files together say about one path: the deepest file with an opinion wins, then the other lists (gitignore(5)). -/
def gitVerdict (t : Tree) (p : Path) (b : Bool) : Verdict :=
  if firstSay t b (cuts p) = .none then t.exclude p b else firstSay t b (cuts p)

/-- The entry `rest` below the directory `d` is reached by the walker, which asks at every step (crate ignore, `Walk`). -/
def reach (t : Tree) : Path → Path → Bool
  | _, [] => true
  | d, n :: rest =>
    !hidden n && decide (gitVerdict t (d ++ [n]) (if rest = [] then t.isDir (d ++ [n]) else true) ≠ .ignore)
      && reach t (d ++ [n]) rest

/-- The `search` tool looks at the entry `rest` below its starting path (chatgpt/tool/search.rs:77-114); the starting path itself is given to the walker unasked. The walker is the one of the crate ignore, inside a git work tree. -/
def searched (t : Tree) (start rest : Path) : Bool := reach t start rest

/-! ### Length -/

/-- The number of bytes of a text. -/
def bytes (s : Str) : Nat := (s.map Char.utf8Size).sum

/-- The longest initial part of at most `n` bytes (`floor_char_boundary`). -/
def floorTake (n : Nat) : Str → Str
  | [] => []
  | c :: cs => if c.utf8Size ≤ n then c :: floorTake (n - c.utf8Size) cs else []

/-- `truncate_output` (chatgpt/tool/mod.rs:87-96); `max` is `MAX_OUTPUT_LENGTH`. -/
def truncate (max : Nat) (s : Str) : Str :=
  if bytes s > max then
    floorTake max s ++ c!"\n... (truncated " ++ (toString (bytes s - bytes (floorTake max s))).toList ++ c!" characters)"
  else s

/-- `truncate_args` (chatgpt/tool/mod.rs:77-85). -/
def truncateArgs (s : Str) : Str := if bytes s > 80 then floorTake 80 s ++ c!"..." else s

end Dsh.Ign
