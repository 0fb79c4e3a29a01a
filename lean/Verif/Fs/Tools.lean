import Verif.Fs.Model
/-!
The file tools offered to the AI (dsh-builtin/src/chatgpt/tool) over the file-system model.

Simplifications: reading the JSON arguments is left out (the tools get the path and the contents);
`shellexpand::full` is a parameter; the `.gitignore` check is a parameter (it can only refuse).
-/
namespace Dsh.Fs.Tools

open Dsh.Fs

/-- `normalize_path` (chatgpt/tool/mod.rs:98-114), on absolute paths. -/
def normalizePath (p : Path) : Path :=
  { abs := p.abs, slash := false,
    comps := p.comps.foldl (fun acc c => match c with
      | .up => acc.dropLast
      | .name n => acc ++ [.name n]) [] }

/-- `canonicalize_or_normalize` (chatgpt/tool/mod.rs:123-125). -/
def canonicalizeOrNormalize (fs : FS) (lim : Nat) (p : Path) : Path :=
  (canonicalize fs lim p).getD (normalizePath p)

/-- The empty path `PathBuf::new()`. -/
def emptyPath : Path := { abs := false, comps := [], slash := false }

/-- The loop of `resolve_with_existing_ancestor` (chatgpt/tool/mod.rs:127-161). -/
def ancestorLoop (fs : FS) (lim : Nat) : Nat → Path → Path → Option Path
  | 0, _, _ => none
  | fuel + 1, cur, suffix =>
    if exists? fs lim cur then
      (canonicalize fs lim cur).map (fun c => if suffix = emptyPath then c else c.join suffix)
    else
      match cur.fileName with
      | none => none
      | some n =>
        match cur.parent with
        | none => none
        | some up => ancestorLoop fs lim fuel up
            (({ abs := false, comps := [.name n], slash := false } : Path).join suffix)

/-- `resolve_with_existing_ancestor` (chatgpt/tool/mod.rs:127-161). -/
def resolveWithExistingAncestor (fs : FS) (lim : Nat) (p : Path) : Option Path :=
  ancestorLoop fs lim (p.comps.length + 1) p emptyPath

/-- `allowed_tool_roots` (chatgpt/tool/mod.rs:163-168) and `is_path_within_tool_roots`
(chatgpt/tool/mod.rs:170-173). -/
def withinRoots (fs : FS) (lim : Nat) (cwd skills p : Path) : Bool :=
  p.startsWith (canonicalizeOrNormalize fs lim cwd) || p.startsWith (canonicalizeOrNormalize fs lim skills)

/-- What surrounds a tool call: shell-style expansion of the path text, the working directory, the
skills directory, the `.gitignore` check, and the limit of links in one resolution. -/
structure Env where
  expand : List Char → Option (List Char)
  cwd : Path
  skills : Path
  ignored : FS → Path → Bool
  lim : Nat

/-- The path of a request, made absolute (chatgpt/tool/mod.rs:179-192). -/
def Env.absolute (e : Env) (s : List Char) : Option Path :=
  (e.expand s).map (fun t => if (Path.parse t).abs then Path.parse t else e.cwd.join (Path.parse t))

/-- `resolve_tool_path` (chatgpt/tool/mod.rs:175-210). -/
def resolveToolPath (e : Env) (fs : FS) (s : List Char) : Option Path :=
  match e.absolute s with
  | none => none
  | some p =>
    match (if exists? fs e.lim p then canonicalize fs e.lim p else resolveWithExistingAncestor fs e.lim p) with
    | none => none
    | some r => if withinRoots fs e.lim e.cwd e.skills r then some r else none

/-- The `read_file` tool: `run` (chatgpt/tool/read.rs:28-61).  The location read and its contents. -/
def readTool (e : Env) (fs : FS) (s : List Char) : Option (Loc × List Char) :=
  if (trim s).isEmpty then none
  else match resolveToolPath e fs s with
    | none => none
    | some p => if e.ignored fs p then none else readFile fs e.lim p

/-- The `ls` tool: `run` (chatgpt/tool/ls.rs:28-95).  The directory listed. -/
def lsTool (e : Env) (fs : FS) (s : List Char) : Option Loc :=
  match resolveToolPath e fs s with
  | none => none
  | some p =>
    if !exists? fs e.lim p then none
    else if !isDir fs e.lim p then none
    else if e.ignored fs p then none
    else readDir fs e.lim p

/-- The `search` tool: `run` (chatgpt/tool/search.rs:39-174).  The place where the search starts;
the walker descends from there without following links. -/
def searchTool (e : Env) (fs : FS) (s : List Char) : Option Loc :=
  match resolveToolPath e fs s with
  | none => none
  | some p =>
    match resolve fs e.lim true p with
    | .at l _ => some l
    | _ => none

/-- The outcome of the `edit` tool. -/
inductive EditRes where
  | error | cancelled | written
  deriving DecidableEq, Repr

/-- Making the parent directories (chatgpt/tool/edit.rs:65-70). -/
def makeParents (fs : FS) (lim : Nat) (p : Path) : FS × Bool :=
  match p.parent with
  | none => (fs, true)
  | some q => createDirs fs lim q

/-- The `edit` tool: `run` (chatgpt/tool/edit.rs:33-89).  `yes` is the user's answer. -/
def editTool (e : Env) (fs : FS) (s contents : List Char) (yes : Bool) : FS × EditRes :=
  if (trim s).isEmpty then (fs, .error)
  else match resolveToolPath e fs s with
    | none => (fs, .error)
    | some p =>
      if e.ignored fs p then (fs, .error)
      else
        match makeParents fs e.lim p with
        | (fs1, false) => (fs1, .error)
        | (fs1, true) =>
          if !yes then (fs1, .cancelled)
          else match writeFile fs1 e.lim p contents with
            | none => (fs1, .error)
            | some fs2 => (fs2, .written)

end Dsh.Fs.Tools
