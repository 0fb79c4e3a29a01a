import Verif.Parse.Jobs
/-!
Expansion of a typed line before it is parsed into jobs: `dsh/src/parser/expansion.rs`.

The environment is a parameter: the alias table, the variable lookup (`get_var`, modelled in
`Verif/Env`), the home directory used by `shellexpand::tilde` (third party) and the file names
matched by a glob pattern (`globmatch`, third party, together with `find_glob_root`).
-/
namespace Dsh.Shell
open Dsh.Peg

/-! ### Braces -/

/-- Splitting the content of a brace pair at its top-level commas (expansion.rs:71-92). `prev` is
the character before, `depth` the signed nesting, `cur` the part so far. -/
def splitParts (prev : Option Char) (depth : Int) (cur : List Char) : List Char → List (List Char)
  | [] => [cur]
  | c :: cs =>
    if c = '{' ∧ prev ≠ some '\\' then splitParts (some c) (depth + 1) (cur ++ [c]) cs
    else if c = '}' ∧ prev ≠ some '\\' then splitParts (some c) (depth - 1) (cur ++ [c]) cs
    else if c = ',' ∧ depth = 0 ∧ prev ≠ some '\\' then cur :: splitParts (some c) depth [] cs
    else splitParts (some c) depth (cur ++ [c]) cs

/-- The scan for the first outermost brace pair (expansion.rs:56-65): `before` is what has been
read (reversed), `stack` the positions of open braces. Yields (prefix, content, suffix). -/
def findBrace (before : List Char) (stack : List Nat) :
    List Char → Option (List Char × List Char × List Char)
  | [] => none
  | c :: cs =>
    if c = '{' ∧ before.head? ≠ some '\\' then findBrace (c :: before) (before.length :: stack) cs
    else if c = '}' ∧ before.head? ≠ some '\\' then
      match stack with
      | [] => findBrace (c :: before) [] cs
      | [start] =>
        let whole := before.reverse
        some (whole.take start, whole.drop (start + 1), cs)
      | _ :: st => findBrace (c :: before) st cs
    else findBrace (c :: before) stack cs

/-- `expand_braces` (expansion.rs:48-102); fuel bounds the recursion (one outermost pair
disappears per level). -/
def expandBracesN : Nat → List Char → List (List Char)
  | 0, s => [s]
  | n + 1, s => match findBrace [] [] s with
    | none => [s]
    | some (pre, content, suf) =>
      (splitParts none 0 [] content).flatMap (fun part => expandBracesN n (pre ++ part ++ suf))

/-- `expand_braces`: every level removes an unescaped brace pair, so the length is enough. -/
def expandBraces (s : List Char) : List (List Char) := expandBracesN (s.length + 1) s

/-! ### Aliases, tildes, globs, variables -/

/-- What expansion asks of the environment. -/
structure Env where
  aliasOf : List Char → Option (List Char)
  /-- the alias table is empty -/
  noAlias : Bool
  getVar : List Char → Option (List Char)
  home : Option (List Char)
  /-- file names matched by a pattern, in order -/
  glob : List Char → List (List Char)

/-- `shellexpand::tilde`: only a leading `~` alone or before `/`. -/
def tilde (E : Env) : List Char → List Char
  | '~' :: rest => match rest, E.home with
    | [], some h => h
    | '/' :: r, some h => h ++ '/' :: r
    | rest, _ => '~' :: rest
  | s => s

/-- A brace-expanded pattern (expansion.rs:115-156). -/
def globOne (E : Env) (pat : List Char) : List (List Char) :=
  if pat.contains '*' || pat.contains '?' || pat.contains '[' then
    match E.glob pat with
    | [] => [pat]
    | fs => fs.map (fun f => '"' :: f ++ ['"'])
  else [pat]

/-- Alias lookup of the first word of a command, the others trimmed (expansion.rs:177-188). -/
def aliasFirst (E : Env) : List (List Char) → List (List Char)
  | [] => []
  | a :: as => (match E.aliasOf a with | some v => trim v | none => trim a) :: as.map trim

mutual
/-- `expand_alias_tilde` (expansion.rs:104-308). -/
def expandT (E : Env) : Pair R → List (List Char)
  | .mk r t ps => match r with
    | .glob_word | .brace_word => (expandBraces (tilde E t)).flatMap (globOne E)
    | .word | .variable | .s_quoted | .d_quoted | .literal_s_quoted | .literal_d_quoted
    | .stdout_redirect_direction | .stderr_redirect_direction | .stdouterr_redirect_direction
    | .stdin_redirect_direction | .stdin_redirect_direction_in | .command_subst => [tilde E t]
    | .argv0 => expandArgv0 E ps
    | .pipe_command | .redirect => expandAll E ps
    | _ => expandInner E ps
/-- Concatenation over a list of pairs. -/
def expandAll (E : Env) : List (Pair R) → List (List Char)
  | [] => []
  | p :: ps => expandT E p ++ expandAll E ps
/-- The pairs of an `argv0` (expansion.rs:175-190, 240-255). -/
def expandArgv0 (E : Env) : List (Pair R) → List (List Char)
  | [] => []
  | p :: ps => aliasFirst E (expandT E p) ++ expandArgv0 E ps
/-- Concatenation where one operator rule is copied (expansion.rs:211-219, 257-266). -/
def expandOp (E : Env) (op : R) : List (Pair R) → List (List Char)
  | [] => []
  | .mk r t qs :: ps => (if r = op then [t] else expandT E (.mk r t qs)) ++ expandOp E op ps
/-- The default arm (expansion.rs:207-305). -/
def expandInner (E : Env) : List (Pair R) → List (List Char)
  | [] => []
  | .mk r t qs :: ps => (match r with
    | .simple_command_bg => expandOp E .background_op qs
    | .proc_subst => c!"<(" :: expandAll E qs ++ [c!")"]
    | .command_subst => [t]
    | .subshell => c!"(" :: expandAll E qs ++ [c!")"]
    | .argv0 => expandArgv0 E qs
    | .pipe_command => expandOp E .pipeline_op qs
    | .commands | .command | .simple_command | .args | .span => expandAll E qs
    | .word | .glob_word | .brace_word | .variable | .s_quoted | .d_quoted | .literal_s_quoted
    | .literal_d_quoted | .proc_subst_direction_in | .stdout_redirect_direction
    | .stderr_redirect_direction | .stdouterr_redirect_direction => expandT E (.mk r t qs)
    | _ => []) ++ expandInner E ps
end

/-- `val.replace('"', "\\\"")`. -/
def escapeDq (v : List Char) : List Char := v.flatMap (fun c => if c = '"' then c!"\\\"" else [c])

/-- What `expand_var_args` pushes for an argument, given the result of the variable lookup
(expansion.rs:438-456). -/
def splice (arg : List Char) : Option (List Char) → List Char
  | none => arg
  | some [] => c!"\"\""
  | some v =>
    if v.contains '\n' || v.contains ' ' || v.contains '\t' then '"' :: escapeDq v ++ ['"']
    else trim v

/-- `expand_var_args` (expansion.rs:438-456) on one argument. -/
def expandVarArg (E : Env) (arg : List Char) : List Char := splice arg (E.getVar arg)

/-- `expand_command_alias` (expansion.rs:458-505). -/
def expandCommand (E : Env) (p : Pair R) : List (List Char) :=
  match p.rule with
  | .command => p.inner.flatMap (fun q => match q.rule with
    | .simple_command => (expandT E q).map (expandVarArg E)
    | .simple_command_bg => (expandT E q).map (expandVarArg E) ++ [c!"&"]
    | .pipe_command => c!"|" :: (expandT E q).map (expandVarArg E)
    | .struct_pipe_command => [q.text]
    | .capture_suffix => [q.text]
    | _ => [])
  | .command_list_sep => [p.text]
  | _ => []

mutual
/-- `check_expansion_needed` (expansion.rs:369-421). -/
def needsExpansion (E : Env) : Pair R → Bool
  | .mk r t ps => match r with
    | .glob_word | .brace_word => t.contains '*' || t.contains '?' || t.contains '[' ||
        t.contains '~' || t.contains '$' || t.contains '{'
    | .word | .variable | .s_quoted | .d_quoted => t.contains '~' || t.contains '$'
    | .argv0 => (match ps with
        | q :: _ => (E.aliasOf (getString q)).isSome
        | [] => false) || needsAny E ps
    | _ => needsAny E ps
/-- Some pair of the list needs expansion. -/
def needsAny (E : Env) : List (Pair R) → Bool
  | [] => false
  | p :: ps => needsExpansion E p || needsAny E ps
end

/-- `has_meta` (expansion.rs:325-331). -/
def hasMeta (line : List Char) : Bool :=
  line.contains '~' || line.contains '$' || line.contains '{' || line.contains '*' ||
  line.contains '?' || line.contains '['

/-- `expand_alias_from_pairs` (expansion.rs:423-436). -/
def expandPairs (E : Env) (ps : List (Pair R)) : List Char :=
  joinWith c!" " (ps.flatMap (fun p => p.inner.flatMap (expandCommand E)))

/-- `parse_with_expansion` (expansion.rs:316-367): the line to be parsed into jobs. `none`: the
line is rejected by the grammar. -/
def expandLine (E : Env) (line : List Char) : Option (List Char) :=
  match parseCommands line with
  | .fail => none
  | .ok ps _ _ =>
    if !hasMeta line && E.noAlias then some line
    else if needsAny E ps then some (expandPairs E ps) else some line

/-- `get_jobs` (eval.rs:504-519) with expansion. -/
def lineJobs (E : Env) (W : World) (id : Nat) (line : List Char) : Option (List Job × Nat) :=
  match expandLine E line with
  | none => none
  | some l => getJobs W { foreground := true } id l

end Dsh.Shell
