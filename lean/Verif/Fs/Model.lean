import Verif.Util
/-!
A file system with symbolic links, the path functions of the Rust standard library and the system
calls used by the file tools, the file server and `dmv`.

Simplifications: no permissions and no hard links (a call that the operating system would refuse
for lack of permission succeeds here); the text of a symbolic link does not end in a slash; `.`
components are dropped when a path is read; one process (nothing else changes the file system
between two calls).
-/
namespace Dsh.Fs

/-- A file name. -/
abbrev Name := List Char

/-- A component of a path: a name or `..`. -/
inductive Comp where
  | name (n : Name)
  | up
  deriving DecidableEq, Repr

/-- `std::path::PathBuf`: absolute or not, its components, and whether the text ends in a
separator. -/
structure Path where
  abs : Bool
  comps : List Comp
  slash : Bool
  deriving DecidableEq, Repr

/-- What a directory entry holds. -/
inductive Node where
  | file (data : List Char)
  | dir
  | link (abs : Bool) (target : List Comp)
  deriving DecidableEq, Repr

/-- A location: the names from the root. -/
abbrev Loc := List Name

/-- The file system: what is at a location. -/
abbrev FS := Loc → Option Node

/-- A file system given by a list (for concrete cases); the root is always a directory. -/
def FS.ofList (es : List (Loc × Node)) : FS := fun l =>
  if l = [] then some .dir else es.lookup l

/-- `fs` with the entry at `l` set. -/
def FS.set (fs : FS) (l : Loc) (n : Option Node) : FS := fun l' => if l' = l then n else fs l'

/-- The outcome of path resolution: an existing entry; everything but the last component exists;
ENOENT; ENOTDIR; ELOOP. -/
inductive Res where
  | at (l : Loc) (n : Node)
  | missing (dir : Loc) (name : Name)
  | notFound
  | notDir
  | loop
  deriving DecidableEq, Repr

/-- Kernel path resolution between two symbolic links (path_resolution(7)).  `next` continues after
a link; `follow` says whether a link in last position is followed. -/
def walkStep (fs : FS) (follow : Bool) (next : Loc → List Comp → Res) : Loc → List Comp → Res
  | l, [] => match fs l with
    | some n => .at l n
    | none => .notFound
  | l, .up :: cs => walkStep fs follow next l.dropLast cs
  | l, .name n :: cs =>
    match fs (l ++ [n]) with
    | none => if cs.isEmpty then .missing l n else .notFound
    | some (.file d) => if cs.isEmpty then .at (l ++ [n]) (.file d) else .notDir
    | some .dir => walkStep fs follow next (l ++ [n]) cs
    | some (.link abs t) =>
      if cs.isEmpty && !follow then .at (l ++ [n]) (.link abs t)
      else next (if abs then [] else l) (t ++ cs)

/-- Resolution following at most so many links (Linux: 40, then ELOOP). -/
def walk (fs : FS) (follow : Bool) : Nat → Loc → List Comp → Res
  | 0 => walkStep fs follow (fun _ _ => .loop)
  | n + 1 => walkStep fs follow (walk fs follow n)

/-- The result of a lookup that demanded a directory. -/
def demandDir : Res → Res
  | .at l .dir => .at l .dir
  | .at _ _ => .notDir
  | r => r

/-- Resolution of an absolute path; a trailing slash follows a link and demands a directory. -/
def resolve (fs : FS) (lim : Nat) (follow : Bool) (p : Path) : Res :=
  if p.slash then demandDir (walk fs true lim [] p.comps) else walk fs follow lim [] p.comps

/-! ### `std::path` -/

/-- The path of a location. -/
def Path.ofLoc (l : Loc) : Path := { abs := true, comps := l.map .name, slash := false }

/-- `Path::parent`. -/
def Path.parent (p : Path) : Option Path :=
  if p.comps.isEmpty then none else some { p with comps := p.comps.dropLast, slash := false }

/-- `Path::file_name`. -/
def Path.fileName (p : Path) : Option Name :=
  match p.comps.getLast? with
  | some (.name n) => some n
  | _ => none

/-- `Path::join`: an absolute argument replaces; an empty one appends a separator. -/
def Path.join (p q : Path) : Path :=
  if q.abs then q
  else { p with comps := p.comps ++ q.comps, slash := q.slash || q.comps.isEmpty }

/-- `Path::starts_with`. -/
def Path.startsWith (p root : Path) : Bool := p.abs == root.abs && root.comps.isPrefixOf p.comps

/-- Splitting at `/`. -/
def splitSlash : List Char → List (List Char)
  | [] => [[]]
  | c :: cs =>
    if c = '/' then [] :: splitSlash cs
    else match splitSlash cs with
      | [] => [[c]]
      | w :: ws => (c :: w) :: ws

/-- One piece of the text of a path. -/
def compOf (w : List Char) : Option Comp :=
  if w = [] then none else if w = c!"." then none else if w = c!".." then some .up else some (.name w)

/-- `Path::new`: empty pieces and `.` are dropped. -/
def Path.parse (s : List Char) : Path :=
  { abs := s.head? = some '/',
    comps := (splitSlash s).filterMap compOf,
    slash := s ≠ [] && ((splitSlash s).getLast?.bind compOf).isNone }

/-! ### Calls -/

/-- `Path::exists`: follows links. -/
def exists? (fs : FS) (lim : Nat) (p : Path) : Bool :=
  match resolve fs lim true p with
  | .at _ _ => true
  | _ => false

/-- `Path::is_dir`. -/
def isDir (fs : FS) (lim : Nat) (p : Path) : Bool :=
  match resolve fs lim true p with
  | .at _ .dir => true
  | _ => false

/-- `Path::is_file`. -/
def isFile (fs : FS) (lim : Nat) (p : Path) : Bool :=
  match resolve fs lim true p with
  | .at _ (.file _) => true
  | _ => false

/-- `fs::canonicalize`. -/
def canonicalize (fs : FS) (lim : Nat) (p : Path) : Option Path :=
  match resolve fs lim true p with
  | .at l _ => some (Path.ofLoc l)
  | _ => none

/-- `fs::read`/`File::open` for reading: the location opened and its contents. -/
def readFile (fs : FS) (lim : Nat) (p : Path) : Option (Loc × List Char) :=
  match resolve fs lim true p with
  | .at l (.file d) => some (l, d)
  | _ => none

/-- `fs::read_dir`: the location opened. -/
def readDir (fs : FS) (lim : Nat) (p : Path) : Option Loc :=
  match resolve fs lim true p with
  | .at l .dir => some l
  | _ => none

/-- `fs::write` (`open` with `O_CREAT|O_TRUNC`): creates through a dangling link; with a trailing
slash it fails (EISDIR). -/
def writeFile (fs : FS) (lim : Nat) (p : Path) (d : List Char) : Option FS :=
  if p.slash then none
  else match resolve fs lim true p with
    | .at l (.file _) => some (fs.set l (some (.file d)))
    | .missing l n => some (fs.set (l ++ [n]) (some (.file d)))
    | _ => none

/-- `mkdir(2)`: the last component is not followed.  `error true` is ENOENT. -/
def mkdir (fs : FS) (lim : Nat) (p : Path) : Except Bool FS :=
  match walk fs false lim [] p.comps with
  | .missing l n => .ok (fs.set (l ++ [n]) (some .dir))
  | .notFound => .error true
  | _ => .error false

/-- `fs::create_dir_all` (std: mkdir, on ENOENT the parents first, an existing directory is
success).  The file system is returned also on failure, because parents may have been made. -/
def createDirAll (fs : FS) (lim : Nat) : Nat → Path → FS × Bool
  | 0, _ => (fs, false)
  | fuel + 1, p =>
    match mkdir fs lim p with
    | .ok fs1 => (fs1, true)
    | .error false => (fs, isDir fs lim p)
    | .error true =>
      match p.parent with
      | none => (fs, false)
      | some q =>
        match createDirAll fs lim fuel q with
        | (fs1, false) => (fs1, false)
        | (fs1, true) =>
          match mkdir fs1 lim p with
          | .ok fs2 => (fs2, true)
          | .error _ => (fs1, isDir fs1 lim p)

/-- The depth of the recursion is bounded by the number of components. -/
def createDirs (fs : FS) (lim : Nat) (p : Path) : FS × Bool := createDirAll fs lim (p.comps.length + 1) p

end Dsh.Fs
