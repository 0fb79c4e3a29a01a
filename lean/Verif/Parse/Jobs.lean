import Verif.Parse.Grammar
/-!
From parse tree to jobs: `dsh/src/parser/ast.rs` (`get_string`) and `dsh/src/shell/parse.rs`
(`parse_argv`, `parse_commands`, `parse_command`, `parse_jobs`).

What the shell asks of the outside world while building jobs is a parameter (`World`): how a
command name resolves, and which words a substitution produces.  Job numbers are threaded as a
counter.  `none` is an error return (`bail!("unknown command …")`) or, for the recursion through
substitutions, running out of nesting fuel.
-/
namespace Dsh.Shell
open Dsh.Peg

/-- Backslash removal loop of `get_string` (ast.rs:29-52). -/
def unescape : List Char → List Char
  | [] => []
  | '\\' :: c :: cs => c :: unescape cs
  | ['\\'] => ['\\']
  | c :: cs => c :: unescape cs

/-- `get_string` (ast.rs:7-56) on a pair that is not a `span`. -/
def getStringAtom (p : Pair R) : List Char :=
  match p.rule with
  | .s_quoted | .d_quoted => match p.inner with
    | q :: _ => q.text
    | [] => []
  | .word | .glob_word => unescape p.text
  | _ => p.text

/-- `get_string` (ast.rs:7-56).  A `span` never contains a `span` directly, so one level of the
recursion of the code suffices. -/
def getString (p : Pair R) : List Char :=
  match p.rule with
  | .span => match p.inner with
    | q :: _ => getStringAtom q
    | [] => []
  | _ => getStringAtom p

/-- `SubshellType` without `None` (state.rs). -/
inductive Sub where | subshell | procSubst | commandSubst
deriving DecidableEq, Repr

/-- `ListOp` (state.rs). -/
inductive ListOp where | none | and | or
deriving DecidableEq, Repr

/-- Constructors of `Redirect` (redirect.rs). -/
inductive RKind where
  | stdoutOutput | stdoutAppend | stderrOutput | stderrAppend | stdouterrOutput | stdouterrAppend
  | input
deriving DecidableEq, Repr

/-- A process of a job: builtin or external command, with its argument vector. -/
structure Proc where
  builtin : Bool
  argv : List (List Char)
deriving DecidableEq, Repr

/-- The fields of `Job` (job.rs:22-47) that parsing sets. `procs` is the chain built by
`set_process`/`link`. -/
structure Job where
  cmd : List Char
  jobId : Nat
  procs : List Proc := []
  foreground : Bool := true
  subshell : Option Sub := .none
  redirect : Option (RKind × List Char) := .none
  listOp : ListOp := .none
  capture : Bool := false
  structExprs : List (List Char) := []
  disablePty : Bool := false
deriving DecidableEq, Repr

/-- How a command name resolves in `parse_command` (parse.rs:372-393). -/
inductive Kind where | builtin | external | directory
deriving DecidableEq, Repr

/-- Outside world consulted while parsing. -/
structure World where
  /-- Lookup of a command name: builtin table and exported Lisp functions, PATH, directories. -/
  kind : List Char → Option Kind
  /-- Words produced by running the jobs of a substitution (parse.rs:298-349). -/
  subst : Sub → List Job → List (List Char)

/-- `ParseContext` (parse.rs:31-35). -/
structure Ctx where
  foreground : Bool
  subshell : Bool := false
  procSubst : Bool := false
deriving DecidableEq, Repr

/-- An element of the vector returned by `parse_argv`. -/
abbrev Item := List Char × Option (Sub × List Job)

/-- Threads the job counter through a list, concatenating results. -/
def mapSt {α β : Type} (f : α → Nat → Option (List β × Nat)) : List α → Nat → Option (List β × Nat)
  | [], id => some ([], id)
  | a :: as, id => match f a id with
    | none => none
    | some (x, id) => match mapSt f as id with
      | none => none
      | some (y, id) => some (x ++ y, id)

/-- The match on the content of a span inside `argv0` (parse.rs:57-109, `skipDir = false`) or
`args` (parse.rs:163-218, `skipDir = true`). `rec` is `parse_commands`. -/
def parseSpanItem (rec : Ctx → Pair R → Nat → Option (List Job × Nat)) (skipDir : Bool) (ctx : Ctx)
    (p : Pair R) (id : Nat) : Option (List Item × Nat) :=
  let go (s : Sub) (c : Ctx) (q : Pair R) (id : Nat) : Option (List Item × Nat) :=
    match rec c q id with
    | none => none
    | some (jobs, id) => some ([(q.text, some (s, jobs))], id)
  match p.rule with
  | .subshell => mapSt (go .subshell { foreground := ctx.foreground, subshell := true }) p.inner id
  | .proc_subst =>
    mapSt (go .procSubst { foreground := ctx.foreground, procSubst := true })
      (if skipDir then p.inner.filter (fun q => q.rule ≠ .proc_subst_direction) else p.inner) id
  | .command_subst =>
    mapSt (go .commandSubst { foreground := ctx.foreground, subshell := true }) p.inner id
  | _ => some ([(getString p, none)], id)

/-- Redirect kind of a direction rule (parse.rs:130-155). -/
def redirKind : R → Option RKind
  | .stdout_redirect_direction_out => some .stdoutOutput
  | .stdout_redirect_direction_append => some .stdoutAppend
  | .stderr_redirect_direction_out => some .stderrOutput
  | .stderr_redirect_direction_append => some .stderrAppend
  | .stdouterr_redirect_direction_out => some .stdouterrOutput
  | .stdouterr_redirect_direction_append => some .stdouterrAppend
  | .stdin_redirect_direction_in => some .input
  | _ => none

/-- The loop over the inner pairs of a `redirect` (parse.rs:117-158): `rr` is `redirect_rule`. The
destination is the raw text of the span. -/
def parseRedirect (rr : Option R) (cur : Option (RKind × List Char)) :
    List (Pair R) → Option (RKind × List Char)
  | [] => cur
  | p :: ps => match p.rule with
    | .stdout_redirect_direction | .stderr_redirect_direction | .stdouterr_redirect_direction
    | .stdin_redirect_direction =>
      match p.inner with
      | q :: _ => parseRedirect (some q.rule) cur ps
      | [] => parseRedirect rr cur ps
    | .span =>
      parseRedirect rr (match rr with
        | some r => (redirKind r).map (fun k => (k, p.text))
        | none => none) ps
    | _ => parseRedirect rr cur ps

/-- One inner pair of an `args` pair (parse.rs:114-220). -/
def parseArgsItem (rec : Ctx → Pair R → Nat → Option (List Job × Nat)) (ctx : Ctx)
    (q : Pair R) (id : Nat) : Option (List Item × Nat) :=
  match q.rule with
  | .redirect => some ([], id)
  | _ => mapSt (parseSpanItem rec true ctx) q.inner id

/-- Redirect after the inner pairs of an `args` pair: the last one wins (parse.rs:115-160). -/
def argsRedirect (cur : Option (RKind × List Char)) (qs : List (Pair R)) :
    Option (RKind × List Char) :=
  qs.foldl (fun cur q => match q.rule with
    | .redirect => parseRedirect none cur q.inner
    | _ => cur) cur

/-- `parse_argv` on the inner pairs of a `simple_command` (parse.rs:47-231): items … -/
def parseArgv1 (rec : Ctx → Pair R → Nat → Option (List Job × Nat)) (ctx : Ctx)
    (q : Pair R) (id : Nat) : Option (List Item × Nat) :=
  match q.rule with
  | .argv0 => mapSt (fun s => mapSt (parseSpanItem rec false ctx) s.inner) q.inner id
  | .args => mapSt (parseArgsItem rec ctx) q.inner id
  | _ => some ([], id)

/-- … and its effect on `current_job.redirect`. -/
def argvRedirect1 (cur : Option (RKind × List Char)) (q : Pair R) : Option (RKind × List Char) :=
  match q.rule with
  | .args => argsRedirect cur q.inner
  | _ => cur

/-- `parse_argv` (parse.rs:47-238) on a `simple_command` or `simple_command_bg` pair. -/
def parseArgv (rec : Ctx → Pair R → Nat → Option (List Job × Nat)) (ctx : Ctx)
    (p : Pair R) (id : Nat) : Option (List Item × Nat) :=
  mapSt (fun q id => match q.rule with
    | .simple_command => mapSt (parseArgv1 rec ctx) q.inner id
    | _ => parseArgv1 rec ctx q id) p.inner id

/-- Redirect effect of `parse_argv`. -/
def argvRedirect (cur : Option (RKind × List Char)) (p : Pair R) : Option (RKind × List Char) :=
  p.inner.foldl (fun cur q => match q.rule with
    | .simple_command => q.inner.foldl argvRedirect1 cur
    | _ => argvRedirect1 cur q) cur

/-- The argument vector after running substitutions (parse.rs:283-352): an empty job list
contributes nothing. -/
def itemWords (W : World) : Item → List (List Char)
  | (s, none) => [s]
  | (_, some (_, [])) => []
  | (_, some (k, j :: js)) => W.subst k (j :: js)

/-- `parse_command` (parse.rs:277-438) on the current job. Simplifications: running the
substitutions and looking up names are `World` queries; the message of the error is dropped. -/
def parseCommand (W : World) (rec : Ctx → Pair R → Nat → Option (List Job × Nat)) (ctx : Ctx)
    (job : Job) (p : Pair R) (id : Nat) : Option (Job × Nat) :=
  match parseArgv rec ctx p id with
  | none => none
  | some (items, id) =>
    let job := { job with redirect := argvRedirect job.redirect p }
    let argv := (items.map (itemWords W)).flatten
    match argv with
    | [] => some (job, id)
    | a0 :: rest =>
      let (job, argv) := if a0 = c!"nopty" ∧ rest ≠ [] then ({ job with disablePty := true }, rest)
        else (job, argv)
      match argv with
      | [] => some (job, id)
      | cmd :: _ => match W.kind cmd with
        | some .builtin => some ({ job with procs := job.procs ++ [⟨true, argv⟩] }, id)
        | some .external => some ({ job with
            procs := job.procs ++ [⟨false, argv⟩], foreground := ctx.foreground }, id)
        | some .directory =>
          some ({ job with procs := job.procs ++ [⟨true, [c!"cd", cmd]⟩] }, id)
        | none => none

/-- Mark the job as part of a subshell / process substitution (parse.rs:461-466). -/
def markSub (ctx : Ctx) (job : Job) : Job :=
  let job := if ctx.subshell then { job with subshell := some .subshell } else job
  if ctx.procSubst then { job with subshell := some .procSubst } else job

/-- `jobs.last_mut()` update. -/
def modifyLast (f : Job → Job) : List Job → List Job
  | [] => []
  | [j] => [f j]
  | j :: js => j :: modifyLast f js

/-- State of `parse_jobs`: context (its `foreground` is mutated), jobs so far, job counter. -/
structure PJ where
  ctx : Ctx
  jobs : List Job
  id : Nat
deriving DecidableEq, Repr

/-- The stages of a `pipe_command` added to the last job (parse.rs:509-522). -/
def pipeStages (W : World) (rec : Ctx → Pair R → Nat → Option (List Job × Nat)) (job : Job) :
    List (Pair R) → Ctx → Nat → Option (Job × Ctx × Nat)
  | [], ctx, id => some (job, ctx, id)
  | q :: qs, ctx, id => match q.rule with
    | .simple_command =>
      let ctx := { ctx with foreground := true }
      match parseCommand W rec ctx job q id with
      | none => none
      | some (job, id) => pipeStages W rec job qs ctx id
    | .simple_command_bg =>
      let ctx := { ctx with foreground := false }
      match parseCommand W rec ctx job q id with
      | none => none
      | some (job, id) => pipeStages W rec job qs ctx id
    | _ => pipeStages W rec job qs ctx id

/-- One inner pair of a `command` in `parse_jobs` (parse.rs:450-552). `jobStr` is the text of the
whole command. `get_next_job_id` increments the counter and returns it (shell/job.rs:7-11). -/
def parseJobsStep (W : World) (rec : Ctx → Pair R → Nat → Option (List Job × Nat))
    (jobStr : List Char) (s : PJ) (q : Pair R) : Option PJ :=
  match q.rule with
  | .simple_command =>
    let id := s.id + 1
    match parseCommand W rec s.ctx { cmd := jobStr, jobId := id } q id with
    | none => none
    | some (job, id) =>
      if job.procs = [] then some { s with id := id }
      else some { s with jobs := s.jobs ++ [markSub s.ctx job], id := id }
  | .simple_command_bg =>
    let id := s.id + 1
    match q.inner.find? (fun x => x.rule = .simple_command) with
    | none => some { s with id := id }
    | some sc => match parseCommand W rec s.ctx { cmd := q.text, jobId := id } sc id with
      | none => none
      | some (job, id) =>
        if job.procs = [] then some { s with id := id }
        else some { s with jobs := s.jobs ++ [{ markSub s.ctx job with foreground := false }],
                           id := id }
  | .pipe_command =>
    let (jobs, id) := if s.jobs = [] then
        ([markSub s.ctx { cmd := jobStr, jobId := s.id + 1 }], s.id + 1) else (s.jobs, s.id)
    match jobs.getLast? with
    | none => some { s with jobs := jobs, id := id }
    | some job => match pipeStages W rec job q.inner s.ctx id with
      | none => none
      | some (job, ctx, id) => some ⟨ctx, modifyLast (fun _ => job) jobs, id⟩
  | .capture_suffix =>
    some { s with jobs := modifyLast (fun j => { j with capture := true }) s.jobs }
  | .struct_pipe_command =>
    some (q.inner.foldl (fun s x => match x.rule with
      | .lisp_expr => if s.jobs = [] then
          { s with jobs := [{ cmd := jobStr, jobId := s.id + 1, structExprs := [x.text] }],
                   id := s.id + 1 }
        else
          let f : Job → Job := fun j => { j with structExprs := j.structExprs ++ [x.text] }
          { s with jobs := modifyLast f s.jobs }
      | _ => s) s)
  | _ => some s

/-- `parse_jobs` (parse.rs:440-556). -/
def parseJobs (W : World) (rec : Ctx → Pair R → Nat → Option (List Job × Nat)) (p : Pair R)
    (s : PJ) : Option PJ :=
  p.inner.foldl (fun s q => s.bind (fun s => parseJobsStep W rec p.text s q)) (some s)

/-- One inner pair of `commands` in `parse_commands` (parse.rs:240-263). -/
def parseCommandsStep (W : World) (rec : Ctx → Pair R → Nat → Option (List Job × Nat)) (s : PJ)
    (q : Pair R) : Option PJ :=
  match q.rule with
  | .command => parseJobs W rec q s
  | .command_list_sep => match q.inner with
    | sep :: _ => match sep.rule with
      | .and_op => some { s with jobs := modifyLast (fun j => { j with listOp := .and }) s.jobs }
      | .or_op => some { s with jobs := modifyLast (fun j => { j with listOp := .or }) s.jobs }
      | _ => some s
    | [] => some s
  | _ => some s

/-- `parse_commands` (parse.rs:240-275); the first argument bounds the nesting of
substitutions. -/
def parseCommandsPair (W : World) : Nat → Ctx → Pair R → Nat → Option (List Job × Nat)
  | 0, _, _, _ => none
  | n + 1, ctx, p, id => match p.rule with
    | .commands =>
      (p.inner.foldl (fun s q => s.bind (fun s => parseCommandsStep W (parseCommandsPair W n) s q))
        (some ⟨ctx, [], id⟩)).map (fun s => (s.jobs, s.id))
    | _ => some ([], id)

/-- `get_jobs` (eval.rs:504-519) on an already expanded line: parse and build the jobs. The
nesting of substitutions is at most the length of the line. -/
def getJobs (W : World) (ctx : Ctx) (id : Nat) (line : List Char) : Option (List Job × Nat) :=
  match parseCommands line with
  | .fail => none
  | .ok [] _ _ => some ([], id)
  | .ok (p :: _) _ _ => parseCommandsPair W (line.length + 1) ctx p id

end Dsh.Shell
