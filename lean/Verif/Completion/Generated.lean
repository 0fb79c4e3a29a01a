import Verif.Util
/-!
# Definitions for Tab that are made by the AI, and how definitions are read

`dsh-builtin/src/comp_gen.rs` (here comp_gen.rs), `dsh/src/completion/json_loader.rs` (json_loader.rs),
`dsh/src/completion/command.rs` (command.rs), `dsh/src/completion/integrated.rs` (integrated.rs).

Simplified: texts are JSON already, with the entries of objects in the order of the text; a text that is not JSON is
refused by both sides. What `serde` derives for the types of command.rs is written down here; that it takes an array
for a struct is left out. Numbers are natural numbers, and messages are left out.
-/
namespace Dsh.CompGen

abbrev Str := List Char

/-- JSON as it is written; an object can have a key twice. -/
inductive J where
  | null
  | bool (b : Bool)
  | num (n : Nat)
  | str (s : Str)
  | arr (l : List J)
  | obj (m : List (Str × J))

mutual
/-- How deep arrays and objects are nested. -/
def J.depth : J → Nat
  | .arr l => depths l + 1
  | .obj m => depthm m + 1
  | _ => 0
def depths : List J → Nat
  | [] => 0
  | j :: l => max j.depth (depths l)
def depthm : List (Str × J) → Nat
  | [] => 0
  | (_, j) :: m => max j.depth (depthm m)
end

/-! ### The check of `comp-gen` -/

/-- `Map::get` of a `serde_json::Value`: the last of several entries. -/
def get (m : List (Str × J)) (k : Str) : Option J := m.reverse.lookup k

/-- `require_non_empty_string` (comp_gen.rs:239-247). -/
def needText : J → Option Str
  | .str s => if (trim s).isEmpty then none else some s
  | _ => none

/-- `optional_string` (comp_gen.rs:249-267); the outer nothing is an error. -/
def optText (m : List (Str × J)) (k : Str) : Option (Option Str) :=
  match get m k with
  | none => some none
  | some .null => some none
  | some j => (needText j).map some

def isBool : J → Bool
  | .bool _ => true
  | _ => false

def isStr : J → Bool
  | .str _ => true
  | _ => false

/-- A check of an entry that may be absent. -/
def ifThere (m : List (Str × J)) (k : Str) (p : J → Bool) : Bool :=
  match get m k with
  | none => true
  | some j => p j

/-- An array, each element checked. -/
def all (p : J → Bool) : J → Bool
  | .arr l => l.all p
  | _ => false

/-- An object, its entries checked. -/
def object (p : List (Str × J) → Bool) : J → Bool
  | .obj m => p m
  | _ => false

/-- `validate_argument_type` (comp_gen.rs:351-396). -/
def checkType : J → Bool := object fun m =>
  match (get m c!"type").bind needText with
  | none => false
  | some n =>
    if n = c!"Script" then false
    else
      (if n = c!"Choice" then (match get m c!"data" with | none => false | some d => all isStr d) else true) &&
      (if n = c!"File" then ifThere m c!"data" (object fun d => ifThere d c!"extensions" (all isStr)) else true)

/-- An option (comp_gen.rs:273-291). -/
def checkOpt : J → Bool := object fun m =>
  match optText m c!"short", optText m c!"long" with
  | some s, some l => (s.isSome || l.isSome) && ifThere m c!"takes_value" isBool && ifThere m c!"value_type" checkType
  | _, _ => false

/-- An argument (comp_gen.rs:299-321). -/
def checkArg : J → Bool := object fun m =>
  ((get m c!"name").bind needText).isSome && ifThere m c!"type" checkType && ifThere m c!"required" isBool && ifThere m c!"multiple" isBool

/-- A subcommand (comp_gen.rs:329-347); the number is larger than the depth. -/
def checkSub : Nat → J → Bool
  | 0, _ => false
  | n + 1, j => object (fun m =>
    ((get m c!"name").bind needText).isSome && ifThere m c!"options" (all checkOpt) && ifThere m c!"arguments" (all checkArg) &&
      ifThere m c!"subcommands" (all (checkSub n))) j

/-- `validate_completion_json` (comp_gen.rs:208-237). -/
def check (cmd : Str) (j : J) : Bool := object (fun m =>
  decide ((get m c!"command").bind needText = some cmd) && ifThere m c!"global_options" (all checkOpt) &&
    ifThere m c!"arguments" (all checkArg) && ifThere m c!"subcommands" (all (checkSub (j.depth + 1)))) j

/-! ### Reading a definition -/

/-- `ArgumentType` (command.rs:98-135); `other` are those without data. -/
inductive Ty where
  | file (ext : Option (List Str))
  | choice (l : List Str)
  | script (s : Str)
  | other (name : Str)
deriving DecidableEq

def others : List Str :=
  [c!"Directory", c!"String", c!"Number", c!"Command", c!"Environment", c!"Url", c!"Regex", c!"Process", c!"CommandWithArgs", c!"User", c!"Group",
    c!"Signal", c!"Interface"]

/-- `Argument` (command.rs:82-93). -/
structure Arg where
  name : Str
  desc : Option Str
  multiple : Bool
  ty : Option Ty
deriving DecidableEq

/-- `CommandOption` (command.rs:45-61). -/
structure Opt where
  short : Option Str
  long : Option Str
  desc : Option Str
  takes : Bool
  valueTy : Option Ty
  argument : Option Arg
deriving DecidableEq

/-- `SubCommand` (command.rs:24-41). -/
inductive Sub where
  | mk (name : Str) (desc : Option Str) (aliases : List Str) (options : List Opt) (arguments : List Arg) (subs : List Sub)

/-- `CommandCompletion` (command.rs:6-20). -/
structure Def where
  command : Str
  desc : Option Str
  subs : List Sub
  options : List Opt
  arguments : List Arg

/-- A field of a derived struct: the outer nothing is the error of a key given twice. -/
def field (m : List (Str × J)) (k : Str) : Option (Option J) :=
  match m.filter (fun e => decide (e.1 = k)) with
  | [] => some none
  | [e] => some (some e.2)
  | _ => none

/-- A field that must be there. -/
def must {α : Type} (m : List (Str × J)) (k : Str) (d : J → Option α) : Option α := (field m k).bind (fun f => f.bind d)

/-- `Option<T>`: absent and `null` are nothing. -/
def may {α : Type} (m : List (Str × J)) (k : Str) (d : J → Option α) : Option (Option α) :=
  match field m k with
  | none => none
  | some none => some none
  | some (some .null) => some none
  | some (some j) => (d j).map some

/-- `#[serde(default)]`. -/
def orElse {α : Type} (m : List (Str × J)) (k : Str) (a : α) (d : J → Option α) : Option α :=
  match field m k with
  | none => none
  | some none => some a
  | some (some j) => d j

def toStr : J → Option Str
  | .str s => some s
  | _ => none

def toBool : J → Option Bool
  | .bool b => some b
  | _ => none

/-- `Vec<T>`. -/
def toList {α : Type} (d : J → Option α) : J → Option (List α)
  | .arr l => l.mapM d
  | _ => none

/-- A struct. -/
def toStruct {α : Type} (d : List (Str × J) → Option α) : J → Option α
  | .obj m => d m
  | _ => none

/-- An `ArgumentType` (command.rs:97: `tag = "type", content = "data"`): types without data take none or `null`, the
others need theirs. -/
def toTy : J → Option Ty := toStruct fun m =>
  (must m c!"type" toStr).bind fun n =>
    if n = c!"File" then must m c!"data" (toStruct fun d => (may d c!"extensions" (toList toStr)).map .file)
    else if n = c!"Choice" then (must m c!"data" (toList toStr)).map .choice
    else if n = c!"Script" then (must m c!"data" toStr).map .script
    else if n ∈ others then
      match field m c!"data" with
      | some none => some (.other n)
      | some (some .null) => some (.other n)
      | _ => none
    else none

def toArg : J → Option Arg := toStruct fun m =>
  (must m c!"name" toStr).bind fun n =>
    (may m c!"description" toStr).bind fun e =>
      (orElse m c!"multiple" false toBool).bind fun b =>
        (may m c!"type" toTy).map fun t => ⟨n, e, b, t⟩

def toOpt : J → Option Opt := toStruct fun m =>
  (may m c!"short" toStr).bind fun s =>
    (may m c!"long" toStr).bind fun l =>
      (may m c!"description" toStr).bind fun e =>
        (orElse m c!"takes_value" false toBool).bind fun b =>
          (may m c!"value_type" toTy).bind fun v =>
            (may m c!"argument" toArg).map fun a => ⟨s, l, e, b, v, a⟩

/-- A subcommand; the number is larger than the depth. -/
def toSub : Nat → J → Option Sub
  | 0, _ => none
  | n + 1, j => toStruct (fun m =>
    (must m c!"name" toStr).bind fun s =>
      (may m c!"description" toStr).bind fun e =>
        (orElse m c!"aliases" [] (toList toStr)).bind fun al =>
          (orElse m c!"options" [] (toList toOpt)).bind fun os =>
            (orElse m c!"arguments" [] (toList toArg)).bind fun as =>
              (orElse m c!"subcommands" [] (toList (toSub n))).map fun ss => .mk s e al os as ss) j

def toDef (j : J) : Option Def := toStruct (fun m =>
  (must m c!"command" toStr).bind fun c =>
    (may m c!"description" toStr).bind fun e =>
      (orElse m c!"subcommands" [] (toList (toSub (j.depth + 1)))).bind fun ss =>
        (orElse m c!"global_options" [] (toList toOpt)).bind fun os =>
          (orElse m c!"arguments" [] (toList toArg)).map fun as => ⟨c, e, ss, os, as⟩) j

/-- A name without white space. -/
def oneWord (s : Str) : Bool := !s.isEmpty && !s.any rustWhitespace

/-- `validate_option` (json_loader.rs:289-313); `len` counts bytes, but all it has to tell is `-` and nothing else. -/
def okOpt (o : Opt) : Bool :=
  (o.short.isSome || o.long.isSome) &&
    (match o.short with | none => true | some s => c!"-".isPrefixOf s && !c!"--".isPrefixOf s) &&
    (match o.long with | none => true | some l => c!"-".isPrefixOf l && decide (l ≠ c!"-") && decide (l ≠ c!"--"))

mutual
/-- `validate_subcommand` (json_loader.rs:252-286). -/
def okSub : Sub → Bool
  | .mk n _ _ os _ ss => oneWord n && os.all okOpt && okSubs ss
def okSubs : List Sub → Bool
  | [] => true
  | s :: ss => okSub s && okSubs ss
end

/-- `validate_completion` (json_loader.rs:212-241). -/
def okDef (d : Def) : Bool :=
  oneWord d.command && okSubs d.subs && d.options.all okOpt && d.arguments.all (fun a => !a.name.isEmpty)

/-- `load_completion_from_content` (json_loader.rs:170-209). -/
def read (j : J) : Option Def := (toDef j).bind (fun d => if okDef d then some d else none)

/-! ### Which definition is used -/

/-- The definitions there are: those built in, and those in the user's directory and in `completions` of the current
directory (json_loader.rs:37-58), by the names of their files without `.json`. -/
structure World where
  builtin : Str → Option J
  user : Str → Option J
  here : Str → Option J

/-- `load_command_completion` (json_loader.rs:316-368). -/
def World.find (w : World) (name : Str) : Option Def :=
  match (w.builtin name).bind read with
  | some d => some d
  | none =>
    match (w.user name).bind read with
    | some d => some d
    | none => (w.here name).bind read

/-- `CommandCompletionDatabase` (command.rs:139-142): a map by the command named in the definition. -/
abbrev Db := List (Str × Def)

def Db.add (db : Db) (d : Def) : Db := (d.command, d) :: db.filter (fun e => decide (e.1 ≠ d.command))

/-- `ensure_command_completion_loaded` (integrated.rs:244-270). -/
def Db.ensure (w : World) (db : Db) (name : Str) : Db :=
  if name.isEmpty then db
  else if (db.lookup name).isSome then db
  else
    match w.find name with
    | none => db
    | some d => db.add d

/-- Tab for a command: the definition that is used, and what is remembered. -/
def tab (w : World) (db : Db) (name : Str) : Option Def × Db := ((db.ensure w name).lookup name, db.ensure w name)

/-- `save_completion_json` (comp_gen.rs:151-168) for a name without `/`. -/
def World.save (w : World) (name : Str) (j : J) : World := { w with user := fun n => if n = name then some j else w.user n }

/-- `comp-gen` without options (comp_gen.rs:20-67, 117-149) with the answer of the AI: exit status and definitions. -/
def compGen (w : World) (name : Str) (j : J) : Nat × World := if check name j then (0, w.save name j) else (1, w)

end Dsh.CompGen
