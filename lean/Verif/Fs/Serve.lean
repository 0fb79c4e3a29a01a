import Verif.Fs.Model
/-!
The file server of the `serve` builtin (dsh-builtin/src/serve) over the file-system model.

Simplifications: a response is the file it streams or the directory it lists, or an error; headers,
MIME types and the HTML around the entries are left out; `axum` routes `/` to `serveRoot` and every
other path to `serveFile`; the served directory is an absolute path.
-/
namespace Dsh.Fs.Serve

open Dsh.Fs

/-- A response. -/
inductive Response where
  /-- 200 with the contents of the file at a location -/
  | file (l : Loc) (data : List Char)
  /-- 200 with the listing of the directory at a location -/
  | listing (l : Loc)
  | forbidden
  | notFound
  | serverError
  deriving DecidableEq, Repr

/-- `serve_file` (serve/handlers.rs:560-588). -/
def serveFilePath (fs : FS) (lim : Nat) (p : Path) : Response :=
  match readFile fs lim p with
  | some (l, d) => .file l d
  | none => .serverError

/-- `serve_directory` (serve/handlers.rs:591-674). -/
def serveDirectory (fs : FS) (lim : Nat) (p : Path) : Response :=
  match readDir fs lim p with
  | some l => .listing l
  | none => .serverError

/-- The index page, else the listing (serve/handlers.rs:482-491 and 533-550). -/
def serveDirOrIndex (fs : FS) (lim : Nat) (index : Bool) (p : Path) : Response :=
  if index && exists? fs lim (p.join (Path.parse c!"index.html")) &&
      isFile fs lim (p.join (Path.parse c!"index.html")) then
    serveFilePath fs lim (p.join (Path.parse c!"index.html"))
  else serveDirectory fs lim p

/-- `serve_root_handler` (serve/handlers.rs:479-492). -/
def serveRoot (fs : FS) (lim : Nat) (dir : Path) (index : Bool) : Response :=
  serveDirOrIndex fs lim index dir

/-- `strip_prefix('/')` (serve/handlers.rs:505). -/
def stripSlash : List Char → List Char
  | '/' :: s => s
  | s => s

/-- `serve_file_handler` (serve/handlers.rs:495-557); `url` is the path of the request as sent (it
is not percent-decoded). -/
def serveFile (fs : FS) (lim : Nat) (dir : Path) (index : Bool) (url : List Char) : Response :=
  match canonicalize fs lim (dir.join (Path.parse (stripSlash url))) with
  | none => .notFound
  | some p =>
    match canonicalize fs lim dir with
    | none => .serverError
    | some root =>
      if !p.startsWith root then .forbidden
      else if isFile fs lim p then serveFilePath fs lim p
      else if isDir fs lim p then serveDirOrIndex fs lim index p
      else .notFound

/-- The router (serve/server.rs:40-54). -/
def serve (fs : FS) (lim : Nat) (dir : Path) (index : Bool) (url : List Char) : Response :=
  if url = c!"/" then serveRoot fs lim dir index else serveFile fs lim dir index url

/-- The `href` of an entry in a listing (serve/handlers.rs:640-650): the bare file name. -/
def href (name : Name) : List Char := name

end Dsh.Fs.Serve
