import Verif.Fs.Serve
import Verif.Suggest.Model
import Verif.Safety.Model
import Verif.Prompt.Git
/-!
The pages the `serve` builtin makes of directories, its options and its way of starting: C196 and C197.

What the code asks of the machine is a `World`; names are texts; the log is left out.  `serve/scanner.rs` is not used by the
program (only by its tests) and not modelled.
-/
namespace Dsh.ServePage

abbrev Str := List Char

open Dsh.Suggest (strLe)

/-! ### Pages of directories -/

/-- An entry of a directory: its name, and whether it is a directory, links followed. -/
structure Entry where
  name : Str
  dir : Bool
deriving DecidableEq, Repr

/-- The order of the entries (handlers.rs:621-631). -/
def entryLe (a b : Entry) : Bool :=
  match a.dir, b.dir with
  | true, false => true
  | false, true => false
  | _, _ => strLe a.name b.name

/-- The line of an entry (handlers.rs:634-648). -/
def item (e : Entry) : Str :=
  if e.dir then c!"<li><a href=\"" ++ e.name ++ c!"\" class=\"dir\">📁 " ++ e.name ++ c!"/</a></li>"
  else c!"<li><a href=\"" ++ e.name ++ c!"\" class=\"file\">📄 " ++ e.name ++ c!"</a></li>"

/-- The beginning of the page (handlers.rs:596-607). -/
def top : Str :=
  c!"<!DOCTYPE html>\n<html><head><title>Directory Listing</title><style>" ++
  c!"body { font-family: Arial, sans-serif; margin: 40px; }h1 { color: #333; border-bottom: 1px solid #ccc; }" ++
  c!"ul { list-style: none; padding: 0; }li { margin: 5px 0; }a { text-decoration: none; color: #0066cc; }" ++
  c!"a:hover { text-decoration: underline; }.dir { font-weight: bold; }.file { color: #666; }" ++
  c!"</style></head><body><h1>🐕 Directory: "

/-- The line of the directory above (handlers.rs:613-617). -/
def above : Str := c!"<li><a href=\"../\" class=\"dir\">📁 ../</a></li>"

/-- The end of the page (handlers.rs:651-653). -/
def bottom : Str := c!"</ul><hr><p><em>Served by 🐕 doge-shell</em></p></body></html>"

/-- `serve_directory` (handlers.rs:591-674): `path` is the directory as shown, `up` whether it has one above; the entries
come in the order of the file system. -/
def page (path : Str) (up : Bool) (es : List Entry) : Str :=
  top ++ path ++ c!"</h1><ul>" ++ (if up then above else []) ++ ((sortBy entryLe es).map item).flatten ++ bottom

/-! ### Options -/

/-- An option: its letter, its name, whether it takes a value (config.rs:77-92). -/
structure Opt where
  short : Option Char
  long : Str
  arg : Bool
deriving DecidableEq, Repr

def opts : List Opt :=
  [⟨some 'p', c!"port", true⟩, ⟨some 'v', c!"verbose", false⟩, ⟨some 'o', c!"open", false⟩, ⟨none, c!"cors", false⟩,
   ⟨none, c!"no-index", false⟩, ⟨some 'h', c!"help", false⟩]

/-- What the option parser (crate getopts, whose source is not in the repository) refuses. -/
inductive Fail where
  | unknown (s : Str)
  | missing (s : Str)
  | twice (s : Str)
  | unexpected (s : Str)
deriving DecidableEq, Repr

/-- The text of a failure (crate getopts). -/
def Fail.text : Fail → Str
  | .unknown s => c!"Unrecognized option: '" ++ s ++ c!"'"
  | .missing s => c!"Argument to option '" ++ s ++ c!"' missing"
  | .twice s => c!"Option '" ++ s ++ c!"' given more than once"
  | .unexpected s => c!"Option '" ++ s ++ c!"' does not take an argument"

/-- An option by its letter or name. -/
def find (n : Str) : Option Opt := opts.find? fun o => o.long = n || o.short.any (fun c => n = [c])

/-- One argument: no option, the end of the options, refused, options with their values, or an option that wants the next
argument as its value. -/
inductive Word where
  | free
  | stop
  | bad (f : Fail)
  | given (l : List (Str × Option Str))
  | wants (l : List (Str × Option Str)) (long shown : Str)
deriving DecidableEq, Repr

/-- Letters behind one dash. -/
def cluster : Str → List (Str × Option Str) → Word
  | [], l => .given l
  | c :: cs, l =>
    match find [c] with
    | none => .bad (.unknown [c])
    | some o =>
      if o.arg then (if cs.isEmpty then .wants l o.long [c] else .given (l ++ [(o.long, some cs)]))
      else cluster cs (l ++ [(o.long, none)])

/-- A name behind two dashes, and the value behind `=`. -/
def long (n : Str) (v : Option Str) : Word :=
  match find n with
  | none => .bad (.unknown n)
  | some o =>
    if o.arg then
      match v with
      | some v => .given [(o.long, some v)]
      | none => .wants [] o.long n
    else if v.isSome then .bad (.unexpected n)
    else .given [(o.long, none)]

def word : Str → Word
  | ['-', '-'] => .stop
  | '-' :: '-' :: t => long (t.takeWhile (· != '=')) (if t.contains '=' then some ((t.dropWhile (· != '=')).drop 1) else none)
  | '-' :: c :: cs => cluster (c :: cs) []
  | _ => .free

abbrev Found := List (Str × Option Str) × List Str

/-- Options in front of those found behind. -/
def more (l : List (Str × Option Str)) : Except Fail Found → Except Fail Found
  | .ok (o, f) => .ok (l ++ o, f)
  | .error e => .error e

/-- A word that is no option. -/
def keep (a : Str) : Except Fail Found → Except Fail Found
  | .ok (o, f) => .ok (o, a :: f)
  | .error e => .error e

def scan : List Str → Except Fail Found
  | [] => .ok ([], [])
  | a :: as =>
    match word a with
    | .free => keep a (scan as)
    | .stop => .ok ([], as)
    | .bad f => .error f
    | .given l => more l (scan as)
    | .wants l n shown =>
      match as with
      | [] => .error (.missing shown)
      | v :: as => more (l ++ [(n, some v)]) (scan as)

/-- `Options::parse`: no option twice. -/
def getopts (args : List Str) : Except Fail Found :=
  match scan args with
  | .error e => .error e
  | .ok (o, f) =>
    match opts.find? fun p => decide (2 ≤ (o.filter (·.1 = p.long)).length) with
    | some p => .error (.twice p.long)
    | none => .ok (o, f)

/-! ### Starting -/

/-- What is at a path. -/
inductive Kind where
  | missing | file | closed | dir
deriving DecidableEq, Repr

/-- The machine: the current directory, what is where, which ports are free. -/
structure World where
  cwd : Str
  kind : Str → Kind
  free : Nat → Bool

/-- `ServeConfig` (config.rs:8-23); the address is always that of this machine. -/
structure Config where
  port : Nat
  dir : Str
  verbose : Bool
  browser : Bool
  cors : Bool
  index : Bool
deriving DecidableEq, Repr

inductive Err where
  | arg (s : Str)
  | port (n : Nat)
  | missing (d : Str)
  | notDir (d : Str)
  | closed (d : Str)
deriving DecidableEq, Repr

/-- `u32::from_str`: a plus may stand in front. -/
def u32 : Str → Option Nat
  | '+' :: s => Prm.parse32 s
  | s => Prm.parse32 s

/-- `ServeConfig::validate` (config.rs:46-69). -/
def validate (w : World) (c : Config) : Except Err Config :=
  if c.port = 0 then .error (.port 0)
  else match w.kind c.dir with
    | .missing => .error (.missing c.dir)
    | .file => .error (.notDir c.dir)
    | .closed => .error (.closed c.dir)
    | .dir => .ok c

/-- `Path::join` of a relative path. -/
def absolute (cwd d : Str) : Str :=
  if d.head? = some '/' then d
  else if cwd.getLast? = some '/' then cwd ++ d
  else cwd ++ c!"/" ++ d

/-- The directory (config.rs:137-152). -/
def target (cwd : Str) : List Str → Str
  | [] => cwd
  | d :: _ => absolute cwd d

/-- The port (config.rs:113-128). -/
def portOf (o : List (Str × Option Str)) : Except Err Nat :=
  match (o.find? (·.1 = c!"port")).bind (·.2) with
  | none => .ok 8000
  | some s =>
    match u32 s with
    | none => .error (.arg (c!"Invalid port number: '" ++ s ++ c!"'. Port must be a number between 1 and 65535"))
    | some n => if n = 0 ∨ n > 65535 then .error (.port n) else .ok n

def has (o : List (Str × Option Str)) (n : Str) : Bool := o.any (·.1 = n)

/-- The text shown for `-h`; only its beginning matters (config.rs:106-109). -/
def usage : Str := c!"Usage: serve [OPTIONS] [DIRECTORY]"

/-- `parse_arguments` (config.rs:74-158). -/
def parseArguments (w : World) (args : List Str) : Except Err Config :=
  match getopts args with
  | .error f => .error (.arg (c!"Error parsing arguments: " ++ f.text))
  | .ok (o, free) =>
    if has o c!"help" then .error (.arg usage)
    else match portOf o with
      | .error e => .error e
      | .ok p => validate w
          { port := p
            dir := target w.cwd free
            verbose := has o c!"verbose", browser := has o c!"open", cors := has o c!"cors", index := !has o c!"no-index" }

/-- What can be observed of the command: its status, whether something was written to the two channels, and what was served
until it was stopped. -/
structure Ran where
  status : Nat
  out : List Str
  err : List Str
  served : Option (Nat × Str × Bool × Bool)
deriving DecidableEq, Repr

/-- The message of an error (error.rs:47-95), shortened to its first line. -/
def Err.text : Err → Str
  | .arg s => s
  | .port n => c!"Invalid port number: " ++ Nat.toDigits 10 n ++ c!"."
  | .missing d => c!"Directory not found: " ++ d
  | .notDir d => c!"Path is not a directory: " ++ d
  | .closed d => c!"Permission denied: " ++ d

/-- `run_server_async` (server.rs:145-196): the task of the server ends with a message to the log if the port cannot be had;
the command ends well either way. -/
def start (w : World) (c : Config) : Ran :=
  { status := 0
    out := [c!"🐕 doge-shell HTTP server starting...", c!"  Directory: " ++ c.dir, c!"  Port: " ++ Nat.toDigits 10 c.port,
      c!"  Press Ctrl+C to stop the server", []]
    err := []
    served := if w.free c.port then some (c.port, c.dir, c.index, c.cors) else none }

/-- `command` (serve/mod.rs:21-53, 75-84). -/
def command (w : World) (args : List Str) : Ran :=
  match parseArguments w args with
  | .ok c => start w c
  | .error (.arg m) =>
    if Safety.hasSub c!"Usage:" m then ⟨0, [m], [], none⟩ else ⟨1, [], [c!"serve: " ++ m], none⟩
  | .error e => ⟨1, [], [c!"serve: " ++ e.text], none⟩

/-! ### Answers to pages of other servers -/

open Dsh.Fs Dsh.Fs.Serve in
/-- The handlers (handlers.rs:479-557): the answer, and whether scripts of other servers may read it. -/
def answer (fs : FS) (lim : Nat) (dir : Path) (index cors : Bool) (url : Str) : Response × Bool :=
  if url = c!"/" then (serveRoot fs lim dir index, false)
  else match canonicalize fs lim (dir.join (Path.parse (stripSlash url))) with
    | none => (.notFound, false)
    | some p =>
      match canonicalize fs lim dir with
      | none => (.serverError, false)
      | some root =>
        if !p.startsWith root then (.forbidden, false)
        else if isFile fs lim p then (serveFilePath fs lim p, cors)
        else if isDir fs lim p then (serveDirOrIndex fs lim index p, cors)
        else (.notFound, false)

end Dsh.ServePage
