import Verif.Env.Model
/-!
The commands `read`, `set` and `export` as typed, and what builtins do with the descriptors they are given.
-/
namespace Dsh.EnvCmd
open Dsh.Env

/-! ### `read` -/

/-- How `read` ends; a panic ends the shell. -/
inductive Done where
  | stored (e : State)
  | failed (e : State)
  | panic

/-- `execute_read` (proxy/builtin/var.rs:39-58): the input is read to its end, `none` if it is not UTF-8, then the name is taken from
the arguments (the first is `read` itself). -/
def execRead (e : State) (argv : List Str) (input : Option Str) : Done :=
  match argv[1]? with
  | none => .panic
  | some name =>
    match input with
    | some s => .stored (readVar e name s)
    | none => .failed e

/-! ### Descriptors -/

/-- Where a builtin reads from: the input of the shell (0), a file opened for `<`, a pipe, or the terminal made for the job. -/
inductive Source where
  | shell
  | file (fd : Nat)
  | pipe (fd : Nat)
  | pty (fd : Nat)
deriving DecidableEq

def Source.fd : Source → Nat
  | .shell => 0
  | .file n => n
  | .pipe n => n
  | .pty n => n

/-- What the builtin itself closes: `read` makes a `File` of the descriptor (proxy/builtin/var.rs:41-45), which closes it. -/
def bodyCloses (isRead : Bool) (s : Source) : List Nat := if isRead then [s.fd] else []

/-- What `launch_process` closes afterwards (process/job.rs:302-312). -/
def launchCloses : Source → List Nat
  | .pipe n => if n ≠ 0 then [n] else []
  | _ => []

/-- The file opened for `<` is dropped at the end (process/job.rs:227-237). -/
def guardCloses : Source → List Nat
  | .file n => [n]
  | _ => []

/-- All descriptors closed on behalf of the input of one builtin, in order. -/
def closes (isRead : Bool) (s : Source) : List Nat := bodyCloses isRead s ++ launchCloses s ++ guardCloses s

/-- `write_stdout` and `write_stderr` (dsh-types/src/lib.rs:194-206): the descriptor is closed if the text cannot be written. -/
def writeCloses (fd : Nat) (ok : Bool) : List Nat := if ok then [] else [fd]

/-- A builtin that writes several texts and goes on after errors, as most do (`.ok()`). -/
def writesClose (fd : Nat) (oks : List Bool) : List Nat := oks.flatMap (writeCloses fd)

/-! ### `set` -/

/-- One flag of a command line for `set` (set.rs:25-26). -/
inductive Flag where
  | x | h
deriving DecidableEq

/-- The letters known to the option parser (set.rs:25-26). -/
def flagOf : Char → Option Flag
  | 'x' => some .x
  | 'h' => some .h
  | _ => none

/-- The letters after one dash: all must be known. -/
def cluster : Str → Option (List Flag)
  | [] => some []
  | c :: cs =>
    match flagOf c, cluster cs with
    | some f, some fs => some (f :: fs)
    | _, _ => none

/-- The long names. -/
def longFlag (s : Str) : Option Flag :=
  if s = c!"export" then some .x else if s = c!"help" then some .h else none

/-- What an argument is to the option parser (crate getopts, whose source is not in the repository). -/
inductive Arg where
  | free
  | stop
  | flags (l : List Flag)
  | bad
deriving DecidableEq

def shortArg : Option (List Flag) → Arg
  | some l => .flags l
  | none => .bad

def longArg : Option Flag → Arg
  | some f => .flags [f]
  | none => .bad

def classify : Str → Arg
  | ['-', '-'] => .stop
  | '-' :: '-' :: n => longArg (longFlag n)
  | '-' :: c :: cs => shortArg (cluster (c :: cs))
  | _ => .free

/-- `Options::parse`: the flags and the free arguments in order, `none` for an error. -/
def parseArgs : List Str → Option (List Flag × List Str)
  | [] => some ([], [])
  | a :: as =>
    match classify a with
    | .stop => some ([], as)
    | .bad => none
    | .free => (parseArgs as).map fun p => (p.1, a :: p.2)
    | .flags l => (parseArgs as).map fun p => (l ++ p.1, p.2)

/-- A flag given twice is an error too. -/
def getopts (args : List Str) : Option (List Flag × List Str) :=
  match parseArgs args with
  | some (fs, free) => if fs.Nodup then some (fs, free) else none
  | none => none

/-- `set` (set.rs:20-54): the status and the state. -/
def setCmd (e : State) (args : List Str) : Int × State :=
  match getopts args with
  | none => (1, e)
  | some (fs, free) =>
    if .h ∈ fs then (0, e)
    else match free with
      | [k, v] => if .x ∈ fs then (0, setSys e k v) else (0, setVar e k v)
      | _ => (0, e)

/-! ### `export` -/

/-- `list_exported_vars` (proxy/mod.rs:276-286). -/
def exportedVars (e : State) : List (Str × Str) :=
  e.exported.filterMap fun k => (e.vars.get k).map fun v => (k, v)

/-- One line of the listing (export.rs:10). -/
def declLine (p : Str × Str) : Str := c!"declare -x " ++ p.1 ++ c!"=\"" ++ p.2 ++ c!"\"\n"

/-- `export` without arguments (export.rs:6-19): what is printed; the newline dropped is written again by `write_stdout`. -/
def listing (e : State) : Str := (exportedVars e).flatMap declLine

end Dsh.EnvCmd
