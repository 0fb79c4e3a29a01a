import Verif.Completion.CmdLine
/-!
# Subcommands, options and values offered from the definition of a command

`dsh/src/completion/context.rs` (`ContextCorrector`), `dsh/src/completion/generator.rs`
(`CompletionGenerator`), `dsh/src/completion/generators/{subcommand,option,argument,command}.rs`,
`dsh/src/completion/command.rs` (the definitions), `dsh/src/completion/integrated.rs:222-242`.

The parser of `Verif.Completion.CmdLine` guesses from the look of the words which of them are
subcommands. The definition of the command corrects the guess, twice: once before the range to replace
is determined, once more before the candidates are collected.

Simplified: descriptions, priorities and the errors of reading a directory are left out. Names of files,
users, processes, the answers of scripts and the fuzzy matcher are parameters. The definitions are a
table of what can be loaded; a command without one is reported as missing (the caller then tries to load
it and falls back to file names). The candidates added by other sources (history, `git` branches, Lisp)
and the ranking are elsewhere or not modelled. `format!("{:?}")` of a word with blanks is a parameter.
-/
namespace Dsh.Defs
open Dsh.Tokens Dsh.CmdLine Dsh.Editor

abbrev Str := List Char

/-! ## Definitions -/

/-- `ArgumentType` (command.rs:98-135). `plain` stands for the four types that offer nothing (`String`,
`Number`, `Url`, `Regex`), `other` for those answered by the system. -/
inductive Ty where
  | choice (l : List Str) | withArgs | plain
  | other (n : Nat)
deriving DecidableEq, Repr

/-- `Argument` (command.rs:82-93). -/
structure Arg where
  multiple : Bool
  ty : Option Ty

/-- `CommandOption` (command.rs:45-61). -/
structure Opt where
  short : Option Str
  long : Option Str
  takesValue : Bool := false
  valueTy : Option Ty := none
  argument : Option Arg := none

/-- `CommandOption::matches_name` (command.rs:64-66). -/
def Opt.named (o : Opt) (n : Str) : Bool := decide (o.short = some n) || decide (o.long = some n)

/-- `CommandOption::value_type` (command.rs:68-73). -/
def Opt.valueType (o : Opt) : Option Ty :=
  match o.argument.bind (·.ty) with
  | some t => some t
  | none => o.valueTy

/-- `CommandOption::expects_value` (command.rs:75-77). -/
def Opt.expects (o : Opt) : Bool := o.argument.isSome || o.valueTy.isSome || o.takesValue

/-- `SubCommand` (command.rs:24-41). -/
inductive Sub where
  | mk (name : Str) (aliases : List Str) (options : List Opt) (arguments : List Arg) (subs : List Sub)

def Sub.name : Sub → Str | .mk n _ _ _ _ => n
def Sub.aliases : Sub → List Str | .mk _ a _ _ _ => a
def Sub.options : Sub → List Opt | .mk _ _ o _ _ => o
def Sub.arguments : Sub → List Arg | .mk _ _ _ a _ => a
def Sub.subs : Sub → List Sub | .mk _ _ _ _ s => s

/-- `CommandCompletion` (command.rs:6-20). -/
structure Def where
  subs : List Sub
  options : List Opt
  arguments : List Arg

/-- `subcommand_matches` (context.rs:507-509). -/
def Sub.is (b : Sub) (n : Str) : Bool := decide (b.name = n) || b.aliases.contains n

/-- `subcommand_starts_with` (context.rs:511-517). -/
def Sub.starts (b : Sub) (p : Str) : Bool := p.isPrefixOf b.name || b.aliases.any (fun a => p.isPrefixOf a)

/-- `find_matching_subcommand` (context.rs:498-505, argument.rs:277-284). -/
def findSub (subs : List Sub) (n : Str) : Option Sub := subs.find? (·.is n)

/-! ## Correction with the definition -/

/-- A parsed line, with the type of the value when that is what is completed. -/
structure Line where
  p : Parsed
  ty : Option Ty

/-- The longest beginning of the path that consists of subcommands: their proper names, the subcommands
possible behind them, the rest (context.rs:64-78). -/
def walk (subs : List Sub) : List Str → List Str × List Sub × List Str
  | [] => ([], subs, [])
  | s :: l =>
    match findSub subs s with
    | some b => (b.name :: (walk b.subs l).1, (walk b.subs l).2.1, (walk b.subs l).2.2)
    | none => ([], subs, s :: l)

/-- The options of the subcommands along a path (context.rs:484-493). -/
def optsDown (subs : List Sub) : List Str → List Opt
  | [] => []
  | s :: l =>
    match findSub subs s with
    | some b => b.options ++ optsDown b.subs l
    | none => []

/-- `ContextCorrector::collect_available_options` (context.rs:476-496). -/
def optsAlong (d : Def) (path : List Str) : List Opt := d.options ++ optsDown d.subs path

/-- `normalize_specified_option` (context.rs:8-23). -/
def normalize (options : List Str) (raw name : Str) : List Str :=
  let l := options.map (fun o => if o = raw then name else o)
  if l.contains name then l else l ++ [name]

/-- `split_attached_short_option_value` (context.rs:25-46). -/
def attached (raw : Str) : List Opt → Option (Str × Option Ty × Str)
  | [] => none
  | o :: l =>
    if !isOpt raw || isLong raw then none
    else match o.short with
      | none => attached raw l
      | some s =>
        if blen s ≠ 2 || !o.expects || !s.isPrefixOf raw then attached raw l
        else
          let value := raw.drop s.length
          if value = [] ∨ value.head? = some '=' then attached raw l
          else some (s, o.valueType, value)

/-- `iter().rposition`. -/
def rposition (f : Str → Bool) (l : List Str) : Option Nat :=
  match l.reverse.findIdx? f with
  | some i => some (l.length - 1 - i)
  | none => none

/-- The value behind the `=` of a long option is this one. -/
def inlineIs (v t : Str) : Bool :=
  match splitInline t with
  | some (_, x) => decide (x = v)
  | none => false

/-- `current_raw_index` (context.rs:431-461). -/
def rawIndex (p : Parsed) : Option Nat :=
  if p.raw = [] then none
  else
    let i :=
      if p.current = [] then
        match rposition (inlineIs []) p.raw with
        | some i => some i
        | none => rposition (fun t => decide (t = [])) p.raw
      else rposition (fun t => decide (t = p.current) || inlineIs p.current t) p.raw
    match i with
    | some i => some i
    | none => some p.raw.length

/-- `current_raw_token` (context.rs:426-429). -/
def rawToken (p : Parsed) : Option Str := (rawIndex p).bind (fun i => p.raw[i]?)

/-- `previous_raw_token` (context.rs:463-474). -/
def rawPrevious (p : Parsed) : Option Str :=
  if p.raw = [] then none
  else match (rawIndex p).getD p.raw.length with
    | 0 => none
    | i + 1 => p.raw[i]?

/-- `remove_current_value_from_arguments` (context.rs:411-424). -/
def dropCurrent (args : List Str) (current : Str) : List Str :=
  if current = [] then args
  else match rposition (fun a => decide (a = current)) args with
    | some i => args.eraseIdx i
    | none => args

/-- `correct_option_value_context` (context.rs:337-409). -/
def optValue (d : Def) (p : Parsed) : Option Line :=
  let options := optsAlong d p.path
  let inline : Option (Option Line) :=
    match rawToken p with
    | none => none
    | some raw =>
      match splitInline raw with
      | none => none
      | some (name, value) =>
        match options.find? (·.named name) with
        | none => none
        | some o =>
          if o.expects then
            some (some ⟨{ p with current := value, ctx := .value name, options := normalize p.options raw name }, o.valueType⟩)
          else some (some ⟨{ p with current := raw, ctx := .long }, none⟩)
  match inline with
  | some r => r
  | none =>
    match (rawToken p).bind (fun raw => (attached raw options).map (fun x => (raw, x))) with
    | some (raw, name, ty, value) =>
      some ⟨{ p with current := value, ctx := .value name, options := normalize p.options raw name }, ty⟩
    | none =>
      if isOpt p.current then none
      else
        match rawPrevious p with
        | none => none
        | some previous =>
          match options.find? (fun o => o.named previous && o.expects) with
          | none => none
          | some o => some ⟨{ p with ctx := .value previous, args := dropCurrent p.args p.current }, o.valueType⟩

/-- The option a value is expected for behind combined short options (context.rs:181-222). -/
def combined (d : Def) (p : Parsed) : Option Str :=
  let back := if p.current = [] then 1 else 2
  if p.raw.length < back then none
  else match p.raw[p.raw.length - back]? with
    | none => none
    | some prev =>
      if isOpt prev && !isLong prev && decide (2 < blen prev) then
        match prev.getLast? with
        | none => none
        | some c =>
          match (optsAlong d p.path).find? (fun o => decide (o.short = some ['-', c])) with
          | some o => if o.expects then some ['-', c] else none
          | none => none
      else none

/-- The loop over the remaining words (context.rs:234-270): whether it returned, the names found, the
subcommands possible behind them, how many words were consumed. -/
def scanRaw (current : Str) (subs : List Sub) : List Str → Bool × List Str × List Sub × Nat
  | [] => (false, [], subs, 0)
  | t :: l =>
    match findSub subs t with
    | some b =>
      if t = current then (true, [], subs, 0)
      else
        let r := scanRaw current b.subs l
        (r.1, b.name :: r.2.1, r.2.2.1, r.2.2.2 + 1)
    | none => if t = current ∧ subs.any (·.starts t) then (true, [], subs, 0) else (false, [], subs, 0)

/-- The fourth step and the end (context.rs:234-335); `q` is the line after the third step. -/
def finishScan (d : Def) (l q : Line) (valid : List Str) (subs : List Sub) : Line :=
  let r := scanRaw q.p.current subs l.p.raw
  if r.1 then ⟨{ q.p with ctx := .sub, path := valid ++ r.2.1 }, none⟩
  else
    let n := r.2.2.2
    let q' : Line :=
      if n = 0 then q
      else
        let ctx :=
          if isOpt q.p.current && !r.2.2.1.any (·.is q.p.current) && (decide (l.p.ctx = .short) || decide (l.p.ctx = .long))
          then l.p.ctx
          else if n < l.p.raw.length then
            (if l.p.raw.length = n + 1 ∧ l.p.raw[n]? = some q.p.current then .arg 0 else .arg q.p.args.length)
          else .arg 0
        ⟨{ q.p with path := valid ++ r.2.1, ctx := ctx }, none⟩
    match optValue d q'.p with
    | some c => c
    | none => q'

/-- `correct_parsed_command_line` (context.rs:59-335) for a command with the definition `d`. -/
def correct (d : Def) (l : Line) : Line :=
  let p := l.p
  let (valid, subs, invalid) := walk d.subs p.path
  match invalid with
  | first :: more =>
    if more = [] ∧ first = p.current ∧ subs.any (·.starts first) ∧ isOpt first = false then
      ⟨{ p with path := valid, ctx := .sub }, none⟩
    else if more = [] ∧ first = p.current ∧ isOpt first then
      ⟨{ p with path := valid, ctx := if p.ctx = .short then .short else .long }, none⟩
    else
      let args := invalid ++ p.args
      let q := { p with path := valid, args := args, raw := invalid ++ p.raw }
      if p.ctx = .short ∨ p.ctx = .long then ⟨q, none⟩
      else ⟨{ q with ctx := .arg (argIndex args p.current) }, none⟩
  | [] =>
    match optValue d p with
    | some c => c
    | none =>
      if p.ctx = .sub ∧ subs.isEmpty then ⟨{ p with ctx := .arg 0 }, none⟩
      else
        match p.ctx with
        | .arg i =>
          match combined d p with
          | some name => ⟨{ p with ctx := .value name }, none⟩
          | none =>
            let ctx := if subs.any (·.starts p.current) then .sub else .arg i
            finishScan d l ⟨{ p with ctx := ctx }, none⟩ valid subs
        | _ => finishScan d l l valid subs

/-! ## Candidates -/

/-- `CompletionType` (command.rs:191-206), the last for what the system answers. -/
inductive Kind where
  | sub | short | long | arg | other
deriving DecidableEq, Repr

/-- `CompletionCandidate` (command.rs:210-219). -/
structure Cand where
  text : Str
  kind : Kind
deriving DecidableEq, Repr

/-- What is outside of the definitions. -/
structure World where
  /-- names of files (`FileSystemGenerator`) -/
  files : Str → List Cand
  /-- names of commands (`SystemCommandGenerator`) -/
  commands : Str → List Cand
  /-- the same with those that have a definition (generators/command.rs:18-39) -/
  names : Str → List Cand
  /-- users, processes, scripts … -/
  system : Nat → Parsed → List Cand
  /-- the fuzzy matcher, for a pattern that is not empty -/
  fuzzy : Str → Str → Bool
  /-- `format!("{:?}")` -/
  quoted : Str → Str

/-- `generate_candidates_for_type` (argument.rs:216-267). -/
def forType (W : World) (p : Parsed) : Ty → List Cand
  | .choice l => (l.filter (fun x => p.current.isEmpty || W.fuzzy x p.current)).map (⟨·, .arg⟩)
  | .withArgs => W.commands p.current
  | .plain => []
  | .other n => W.system n p

/-- `find_current_subcommand` (subcommand.rs:71-95, option.rs:83-107). -/
def currentSub (subs : List Sub) : List Str → Option Sub
  | [] => none
  | [s] => findSub subs s
  | s :: t :: l =>
    match findSub subs s with
    | some b => currentSub b.subs (t :: l)
    | none => none

/-- `matched_subcommand_text` (subcommand.rs:97-107). -/
def matched (b : Sub) (current : Str) : Option Str :=
  if current.isPrefixOf b.name then some b.name else b.aliases.find? (fun a => current.isPrefixOf a)

/-- The subcommands that fit (subcommand.rs:28-35, 38-46). -/
def subCands (subs : List Sub) (current : Str) : List Cand := subs.filterMap (fun b => (matched b current).map (⟨·, .sub⟩))

/-- `SubCommandGenerator::generate_candidates` (subcommand.rs:16-69). -/
def genSub (W : World) (d : Def) (p : Parsed) : List Cand :=
  let l := match currentSub d.subs p.path with
    | some b => subCands b.subs p.current
    | none =>
      subCands d.subs p.current ++
        (match d.arguments[p.args.length]? with
        | some a => forType W p (a.ty.getD .plain)
        | none => [])
  if l.isEmpty then W.files p.current else l

/-- `OptionGenerator::collect_available_options` (option.rs:65-81). -/
def optsAt (d : Def) (path : List Str) : List Opt :=
  d.options ++ (match currentSub d.subs path with
    | some b => b.options
    | none => [])

/-- One spelling of an option is offered if it begins with the word and was not given. -/
def offer (p : Parsed) (k : Kind) : Option Str → List Cand
  | some s => if p.current.isPrefixOf s && !p.options.contains s then [⟨s, k⟩] else []
  | none => []

/-- `generate_short_option_candidates` (option.rs:10-30). -/
def genShort (d : Def) (p : Parsed) : List Cand := (optsAt d p.path).flatMap (fun o => offer p .short o.short)

/-- `generate_long_option_candidates` (option.rs:32-63). -/
def genLong (d : Def) (p : Parsed) : List Cand :=
  (optsAt d p.path).flatMap (fun o => offer p .long o.long ++ offer p .short o.short)

/-- The arguments of the command a path leads to (argument.rs:52-63). -/
def argsAt (subs : List Sub) (arguments : List Arg) : List Str → List Arg
  | [] => arguments
  | s :: l =>
    match findSub subs s with
    | some b => argsAt b.subs b.arguments l
    | none => arguments

/-- `resolve_argument_definition` (argument.rs:269-275). -/
def argDef (arguments : List Arg) (i : Nat) : Option Arg :=
  match arguments[i]? with
  | some a => some a
  | none => arguments.getLast?.filter (·.multiple)

/-- `find_command_with_args_arg` (context.rs:519-534). -/
def wrapped (d : Def) (args : List Str) : Option (Nat × Str) :=
  go 0 args d.arguments
where
  go (i : Nat) : List Str → List Arg → Option (Nat × Str)
  | x :: l, a :: m => if a.ty = some .withArgs then some (i, x) else go (i + 1) l m
  | _, _ => none

/-- `reparse_inner_command` (context.rs:536-576). -/
def inner (u : Tables) (W : World) (p : Parsed) (i : Nat) (name : Str) : Parsed :=
  let target := (p.args[i]?).getD []
  let rest := match p.raw.findIdx? (fun t => decide (t = target)) with
    | some j => (p.raw.drop (j + 1)).map (fun a => if a.contains ' ' || a.contains '\t' then W.quoted a else a)
    | none => []
  let parts := name :: rest ++ (if p.current = [] then [[]] else [])
  let input := joinWith [' '] parts
  parse u input (blen input)

/-- What the generator answers. -/
inductive Out where
  | ok (l : List Cand)
  /-- the definition of this command has to be loaded first -/
  | missing (c : Str)
  /-- the recursion of the model was not deep enough -/
  | deep
deriving DecidableEq, Repr

def Out.pre (l : List Cand) : Out → Out
  | .ok m => .ok (l ++ m)
  | o => o

/-- `ContextCorrector::correct_parsed_command_line` (context.rs:59-335): without a definition nothing changes. -/
def correctWith (db : Str → Option Def) (l : Line) : Line :=
  match db l.p.command with
  | some d => correct d l
  | none => l

/-- The values offered for an option (argument.rs:95-149). -/
def genValue (W : World) (db : Str → Option Def) (l : Line) (name : Str) : List Cand :=
  let ty := match l.ty with
    | some t => some t
    | none => (db l.p.command).bind (fun d => ((optsAlong d l.p.path).find? (·.named name)).bind (·.valueType))
  let r := match ty with
    | some t => forType W l.p t
    | none => []
  if r.isEmpty then W.files l.p.current else r

/-- The candidates for an argument, before the inner command is looked at (argument.rs:40-80). -/
def genArg (W : World) (db : Str → Option Def) (p : Parsed) (i : Nat) : List Cand :=
  let r := match (db p.command).bind (fun d => (argDef (argsAt d.subs d.arguments p.path) i).bind (·.ty)) with
    | some t => forType W p t
    | none => []
  if r.isEmpty then W.files p.current else r

/-- `generate_candidates_impl` (generator.rs:72-104) and what it calls. Each inner command needs one more
unit of the first argument. -/
def generate (u : Tables) (W : World) (db : Str → Option Def) : Nat → Line → Out
  | 0, _ => .deep
  | f + 1, l0 =>
    let l := correctWith db l0
    let p := l.p
    match p.ctx with
    | .command => .ok (W.names p.current)
    | .sub =>
      match db p.command with
      | some d => .ok (genSub W d p)
      | none => .missing p.command
    | .short =>
      match db p.command with
      | some d =>
        match wrapped d p.args with
        | some (i, c) => Out.pre (genShort d p) (generate u W db f ⟨inner u W p i c, none⟩)
        | none => .ok (genShort d p)
      | none => .missing p.command
    | .long =>
      match db p.command with
      | some d =>
        match wrapped d p.args with
        | some (i, c) => Out.pre (genLong d p) (generate u W db f ⟨inner u W p i c, none⟩)
        | none => .ok (genLong d p)
      | none => .missing p.command
    | .value name => .ok (genValue W db l name)
    | .arg i =>
      match (db p.command).bind (fun d => wrapped d p.args) with
      | some (j, c) => if j < i then generate u W db f ⟨inner u W p j c, none⟩ else .ok (genArg W db p i)
      | none => .ok (genArg W db p i)

/-- The line as Tab first sees it: parsed, the command replaced by the text of its alias, corrected
(`convert_to_parsed_command_line`, integrated.rs:222-242). -/
def seen (u : Tables) (db : Str → Option Def) (al : Str → Str) (input : Str) (cursor : Nat) : Line :=
  let p := parse u input cursor
  correctWith db ⟨{ p with command := al p.command }, none⟩

/-- The candidates from the definitions (integrated.rs:288, 376-401). -/
def tab (u : Tables) (W : World) (db : Str → Option Def) (al : Str → Str) (f : Nat) (input : Str) (cursor : Nat) : Out :=
  generate u W db f (seen u db al input cursor)

/-- The text a chosen candidate replaces (integrated.rs:289-290). -/
def range (u : Tables) (db : Str → Option Def) (al : Str → Str) (input : Str) (cursor : Nat) : Option Range :=
  replacement input cursor (seen u db al input cursor).p.ctx

end Dsh.Defs
