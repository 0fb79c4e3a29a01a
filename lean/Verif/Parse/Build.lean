import Verif.Parse.Command
/-!
The jobs that `parse_commands` builds from a well-formed line.
-/
namespace Dsh.Shell
open Dsh.Peg PExp Dsh.Syn

variable {rec : Ctx → Pair R → Nat → Option (List Job × Nat)} {W : World}

theorem rule_mk (r : R) (t ps) : (Pair.mk r t ps).rule = r := rfl
theorem text_mk (r : R) (t ps) : (Pair.mk r t ps).text = t := rfl
theorem inner_mk (r : R) (t ps) : (Pair.mk r t ps).inner = ps := rfl

/-- Items of an argument. -/
def argItems : Arg → List Item
  | .word _ w => [(w.value, none)]
  | .redir .. => []

theorem argsItem_ok {a : Arg} {q : Pair R} (h : ArgDen a q) (ctx id) :
    parseArgsItem rec ctx q id = some (argItems a, id) := by
  cases a with
  | word sep w =>
    obtain ⟨x, rfl, hv, -, hr⟩ := h
    simp only [parseArgsItem, Pair.rule, Pair.inner, mapSt]
    rw [parseSpanItem_plain rec true ctx id hr]
    simp [argItems, hv]
  | redir sep k gap w =>
    have hq := h.1
    unfold parseArgsItem
    rw [hq]
    rfl

theorem argsItems_ok {as : List Arg} {qs : List (Pair R)} (h : ArgsDen as qs) (ctx id) :
    mapSt (parseArgsItem rec ctx) qs id = some ((as.map argItems).flatten, id) := by
  induction h with
  | nil => rfl
  | cons h _ ih => simp [mapSt, argsItem_ok h, ih]

/-- Redirect of the code for a redirect of the specification. -/
def toRedir (r : Redir × List Char) : RKind × List Char := (kindOf r.1, r.2)

/-- Redirects written in a list of arguments. -/
def redirsOf (as : List Arg) : List (Redir × List Char) :=
  as.filterMap Arg.redirVal

theorem getLast?_cons_or {α} (a : α) (l : List α) : (a :: l).getLast? = some (l.getLast?.getD a) := by
  cases l with
  | nil => rfl
  | cons b l => rw [List.getLast?_cons_cons]; cases h : (b :: l).getLast? with
    | none => simp at h
    | some x => rfl

theorem argsRedirect_ok {as : List Arg} {qs : List (Pair R)} (h : ArgsDen as qs) (cur) :
    argsRedirect cur qs = (((redirsOf as).getLast?).map toRedir).or cur := by
  unfold argsRedirect
  induction h generalizing cur with
  | nil => simp [redirsOf]
  | @cons a q as qs h _ ih =>
    rw [List.foldl_cons, ih]
    cases a with
    | word sep w =>
      obtain ⟨x, rfl, hv, -, hr⟩ := h
      simp [redirsOf, Pair.rule, Arg.redirVal]
    | redir sep k gap w =>
      rw [h.1]
      simp only [h.2.1]
      simp only [redirsOf, List.filterMap_cons, Arg.redirVal]
      rw [getLast?_cons_or]
      cases h9 : (List.filterMap Arg.redirVal as).getLast? with
      | none => simp [toRedir]
      | some y => simp

theorem argItems_filterMap (as : List Arg) :
    (as.map argItems).flatten = (as.filterMap Arg.wordVal).map (fun s => ((s, none) : Item)) := by
  induction as with
  | nil => rfl
  | cons a as ih =>
    cases a with
    | word sep w => simp [argItems, ih, Arg.wordVal]
    | redir sep r g w => rw [List.filterMap_cons_none rfl]; simp [argItems, ih]

theorem simple_argv {s : Simple} {p : Pair R} (h : SimpleDen s p) (ctx id) :
    parseArgv rec ctx p id = some (s.argv.map (fun x => ((x, none) : Item)), id) := by
  obtain ⟨t, x, rest, hi, hv, -, -, hr, qs, hqs, hrest⟩ := h.inner
  have h0 : parseArgv1 rec ctx (.mk .argv0 t [.mk .span t [x]]) id = some ([(s.name.value, none)], id) := by
    simp only [parseArgv1, Pair.rule, Pair.inner, mapSt]
    rw [parseSpanItem_plain rec false ctx id hr]
    simp [hv]
  unfold parseArgv
  rw [hi]
  rcases hrest with ⟨ha, rfl⟩ | ⟨t', rfl⟩
  · simp only [mapSt, Pair.rule]
    rw [h0]
    simp [Simple.argv, ha]
  · have h1 : parseArgv1 rec ctx (.mk .args t' qs) id = some ((s.args.map argItems).flatten, id) := by
      simp only [parseArgv1, Pair.rule, Pair.inner]
      exact argsItems_ok hqs ctx id
    simp only [mapSt, Pair.rule]
    rw [h0]
    simp only [h1]
    rw [argItems_filterMap]
    simp [Simple.argv]

theorem simple_redirect {s : Simple} {p : Pair R} (h : SimpleDen s p) (cur) :
    argvRedirect cur p = (s.redirect.map toRedir).or cur := by
  obtain ⟨t, x, rest, hi, hv, -, -, hr, qs, hqs, hrest⟩ := h.inner
  unfold argvRedirect
  rw [hi]
  rcases hrest with ⟨ha, rfl⟩ | ⟨t', rfl⟩
  · simp [Pair.rule, argvRedirect1, Simple.redirect, ha]
  · simp only [List.foldl_cons, List.foldl_nil, Pair.rule, argvRedirect1, Pair.inner]
    rw [argsRedirect_ok hqs]
    rfl

/-- The command name is one the shell can run as it is. -/
def Runs (W : World) (s : Simple) : Prop :=
  (W.kind s.name.value = some .builtin ∨ W.kind s.name.value = some .external) ∧
  s.name.value ≠ c!"nopty"

/-- The process for a simple command. -/
def procOf (W : World) (s : Simple) : Proc :=
  ⟨W.kind s.name.value = some .builtin, s.argv⟩

theorem words_items (W : World) (l : List (List Char)) :
    ((l.map (fun x => ((x, none) : Item))).map (itemWords W)).flatten = l := by
  induction l with
  | nil => rfl
  | cons a l ih =>
    simp only [List.map_cons, List.flatten_cons, ih]
    rfl

theorem simple_command_job {s : Simple} {p : Pair R} (h : SimpleDen s p) (hr : Runs W s) (ctx job id) :
    parseCommand W rec ctx job p id = some ({ job with
      procs := job.procs ++ [procOf W s]
      redirect := (s.redirect.map toRedir).or job.redirect
      foreground := if W.kind s.name.value = some .external then ctx.foreground else job.foreground }, id) := by
  unfold parseCommand
  rw [simple_argv h, simple_redirect h]
  simp only [words_items]
  have hn : ¬ (s.name.value = c!"nopty" ∧
      s.args.filterMap Arg.wordVal ≠ []) :=
    fun hh => hr.2 hh.1
  simp only [Simple.argv]
  simp only [if_neg hn]
  rcases hr.1 with hk | hk
  · simp [hk, procOf, Simple.argv]
  · simp [hk, procOf, Simple.argv]

/-! ### What a job is to be -/

/-- Operator of the code. -/
def opOf : Sep → ListOp
  | .seq => .none
  | .and => .and
  | .or => .or

/-- Job `j` is what entry `w` asks for. -/
structure Realizes (j : Job) (w : Want) : Prop where
  argv : j.procs.map Proc.argv = w.stages
  foreground : j.foreground = !w.background
  redirect : j.redirect = w.redirect.map toRedir
  listOp : j.listOp = opOf w.op
  subshell : j.subshell = none
  capture : j.capture = false
  structExprs : j.structExprs = []
  disablePty : j.disablePty = false

/-- Pointwise. -/
inductive RealizesAll : List Job → List Want → Prop
  | nil : RealizesAll [] []
  | cons {j w js ws} : Realizes j w → RealizesAll js ws → RealizesAll (j :: js) (w :: ws)

theorem RealizesAll.append {a b : List Job} {c d : List Want} (h1 : RealizesAll a c) (h2 : RealizesAll b d) :
    RealizesAll (a ++ b) (c ++ d) := by
  induction h1 with
  | nil => exact h2
  | cons h _ ih => exact .cons h ih

/-- The context of a line typed at the prompt. -/
def Top (ctx : Ctx) : Prop := ctx.foreground = true ∧ ctx.subshell = false ∧ ctx.procSubst = false

theorem Top.fg {ctx : Ctx} (h : Top ctx) : { ctx with foreground := true } = ctx := by
  cases ctx; simp [Top] at h; simp [h]

theorem markSub_top {ctx : Ctx} (h : Top ctx) (j : Job) : markSub ctx j = j := by
  simp [markSub, h.2.1, h.2.2]

/-! ### Background part -/

/-- A job with one process. -/
def job1 (t : List Char) (id : Nat) (p : Proc) (r : Option (RKind × List Char)) (fg : Bool) : Job :=
  { cmd := t, jobId := id, procs := [p], redirect := r, foreground := fg }

theorem foldl_bind_none {α β} (f : β → α → Option β) (l : List α) :
    l.foldl (fun s q => s.bind (fun s => f s q)) none = none := by
  induction l with
  | nil => rfl
  | cons a l ih => simpa using ih

theorem bgs_jobs {jobStr} {bs : List (Simple × List Char × List Char)} {ps : List (Pair R)}
    (h : BgsDen bs ps) (hr : ∀ b ∈ bs, Runs W b.1) {s : PJ} (ht : Top s.ctx) :
    ∃ js id, ps.foldl (fun s q => s.bind (fun s => parseJobsStep W rec jobStr s q)) (some s) =
        some ⟨s.ctx, s.jobs ++ js, id⟩ ∧
      RealizesAll js (bs.map (fun b => ⟨[b.1.argv], true, b.1.redirect, .seq⟩)) ∧
      js.map Job.cmd = bs.map (fun b => b.1.text ++ (b.2.1 ++ ['&'])) := by
  induction h generalizing s with
  | nil => exact ⟨[], s.id, by simp, .nil, rfl⟩
  | @cons b p t o bs ps hp _ htx ih =>
    have hrb := hr b (by simp)
    have hpr := hp.rule
    have hj := simple_command_job (rec := rec) hp hrb s.ctx { cmd := t, jobId := s.id + 1 } (s.id + 1)
    have hstep : parseJobsStep W rec jobStr s (.mk .simple_command_bg t [p, .mk .background_op o []]) =
        some { s with
          jobs := s.jobs ++ [job1 t (s.id + 1) (procOf W b.1) (b.1.redirect.map toRedir) false]
          id := s.id + 1 } := by
      unfold parseJobsStep
      simp only [rule_mk, inner_mk, text_mk]
      have hf : List.find? (fun x => decide (x.rule = R.simple_command)) [p, .mk .background_op o []] = some p := by
        simp [hpr]
      rw [hf]
      simp only [hj]
      simp [markSub_top ht, job1]
    rw [List.foldl_cons, Option.bind_some, hstep]
    obtain ⟨js, id, h1, h2, h3⟩ := ih (fun b hb => hr b (List.mem_cons_of_mem _ hb))
      (s := { s with
          jobs := s.jobs ++ [job1 t (s.id + 1) (procOf W b.1) (b.1.redirect.map toRedir) false]
          id := s.id + 1 }) ht
    rw [h1]
    refine ⟨job1 t (s.id + 1) (procOf W b.1) (b.1.redirect.map toRedir) false :: js, id, by simp, ?_, ?_⟩
    · exact .cons ⟨rfl, rfl, rfl, rfl, rfl, rfl, rfl, rfl⟩ h2
    · simp only [List.map_cons, h3]; rw [← htx]; rfl

/-! ### Pipelines -/

theorem modifyLast_append (f : Job → Job) (l : List Job) (j : Job) :
    modifyLast f (l ++ [j]) = l ++ [f j] := by
  induction l with
  | nil => rfl
  | cons a l ih =>
    cases l with
    | nil => rfl
    | cons b l => simpa [modifyLast] using ih

theorem lastRedir_cons (s : Simple) (l : List Simple) :
    lastRedir (s :: l) = (lastRedir l).or s.redirect := by
  unfold lastRedir
  cases hs : s.redirect with
  | none => simp [hs]
  | some r =>
    rw [List.filterMap_cons_some hs, getLast?_cons_or]
    cases (List.filterMap Simple.redirect l).getLast? <;> simp

theorem pipes_jobs {jobStr} {st : List (List Char × List Char × Simple)} {ps : List (Pair R)}
    (h : PipesDen st ps) (hr : ∀ b ∈ st, Runs W b.2.2) {ctx : Ctx} (ht : Top ctx) (js : List Job)
    (j : Job) (hfg : j.foreground = true) (id : Nat) :
    ∃ j', ps.foldl (fun s q => s.bind (fun s => parseJobsStep W rec jobStr s q))
        (some ⟨ctx, js ++ [j], id⟩) = some ⟨ctx, js ++ [j'], id⟩ ∧
      j' = { j with procs := j.procs ++ st.map (fun b => procOf W b.2.2)
                    redirect := ((lastRedir (st.map (fun b => b.2.2))).map toRedir).or j.redirect } := by
  induction h generalizing j with
  | nil => exact ⟨j, rfl, by simp [lastRedir]⟩
  | @cons b p t o st ps hp _ ih =>
    have hrb := hr b (by simp)
    have hpr := hp.rule
    have hj := simple_command_job (rec := rec) hp hrb ctx j id
    have hfg' : (if W.kind b.2.2.name.value = some Kind.external then ctx.foreground else j.foreground) = true := by
      split
      · exact ht.1
      · exact hfg
    rw [hfg'] at hj
    have hstep : parseJobsStep W rec jobStr ⟨ctx, js ++ [j], id⟩ (.mk .pipe_command t [.mk .pipeline_op o [], p]) =
        some ⟨ctx, js ++ [{ j with
          procs := j.procs ++ [procOf W b.2.2]
          redirect := (b.2.2.redirect.map toRedir).or j.redirect
          foreground := true }], id⟩ := by
      unfold parseJobsStep
      simp only [Pair.rule, Pair.inner]
      have hne : js ++ [j] ≠ [] := by simp
      rw [if_neg hne]
      simp only [List.getLast?_append, List.getLast?_singleton, Option.some_or]
      have : pipeStages W rec j [.mk .pipeline_op o [], p] ctx id = some ({ j with
          procs := j.procs ++ [procOf W b.2.2]
          redirect := (b.2.2.redirect.map toRedir).or j.redirect
          foreground := true }, ctx, id) := by
        have h1 : pipeStages W rec j [.mk .pipeline_op o [], p] ctx id = pipeStages W rec j [p] ctx id := by
          simp [pipeStages, Pair.rule]
        rw [h1]
        unfold pipeStages
        rw [hpr]
        simp only [ht.fg, hj]
        rfl
      rw [this]
      simp [modifyLast_append]
    rw [List.foldl_cons, Option.bind_some, hstep]
    obtain ⟨j', h1, h2⟩ := ih (fun b hb => hr b (List.mem_cons_of_mem _ hb)) { j with
          procs := j.procs ++ [procOf W b.2.2]
          redirect := (b.2.2.redirect.map toRedir).or j.redirect
          foreground := true } rfl
    refine ⟨j', h1, ?_⟩
    rw [h2]
    simp only [List.map_cons, lastRedir_cons, hfg, List.append_assoc, List.cons_append, List.nil_append]
    congr 1
    cases lastRedir (st.map (fun b => b.2.2)) <;> simp

/-! ### Commands and lists -/

/-- The texts by which the jobs of a command are known to the user and to the safety guard: a
background job by its own text, the pipeline by the text `t` of the whole command. -/
def labels (c : Cmd) (t : List Char) : List (List Char) :=
  c.bgs.map (fun b => b.1.text ++ (b.2.1 ++ ['&'])) ++ (if c.main.isSome then [t] else [])

/-- The texts of the jobs of several commands. -/
inductive LabelsAll : List Cmd → List (List Char) → Prop
  | nil : LabelsAll [] []
  | cons {c t cs ts} : CmdText c t → LabelsAll cs ts → LabelsAll (c :: cs) (labels c t ++ ts)

theorem cmd_jobs {t : List Char} {c : Cmd} {ps : List (Pair R)} (h : CmdDen c ps)
    (hr : ∀ s ∈ Cmd.simples c, Runs W s) {s : PJ} (ht : Top s.ctx) :
    ∃ js id, parseJobs W rec (.mk .command t ps) s = some ⟨s.ctx, s.jobs ++ js, id⟩ ∧
      RealizesAll js c.want ∧ js.map Job.cmd = labels c t := by
  unfold parseJobs
  simp only [Pair.inner, Pair.text]
  cases h with
  | @bgOnly bs ps hb =>
    obtain ⟨js, id, h1, h2, h5⟩ := bgs_jobs (rec := rec) (jobStr := t) hb (fun b hb => hr _ (by
      simp only [Cmd.simples, List.append_nil, List.mem_map]
      exact ⟨b, hb, rfl⟩)) ht
    exact ⟨js, id, h1, by simpa [Cmd.want] using h2, by simpa [labels] using h5⟩
  | @main bs ps s0 p st qs hb hs hp =>
    obtain ⟨js, id, h1, h2, h5⟩ := bgs_jobs (rec := rec) (jobStr := t) hb (fun b hb => hr _ (by
      simp only [Cmd.simples, List.mem_append, List.mem_map]
      exact .inl ⟨b, hb, rfl⟩)) ht
    rw [List.foldl_append, h1, List.foldl_cons, Option.bind_some]
    have hr0 : Runs W s0 := hr _ (by simp [Cmd.simples])
    have hj := simple_command_job (rec := rec) hs hr0 s.ctx { cmd := t, jobId := id + 1 } (id + 1)
    have hfg' : (if W.kind s0.name.value = some Kind.external then s.ctx.foreground else true) = true := by
      split
      · exact ht.1
      · rfl
    have hstep : parseJobsStep W rec t ⟨s.ctx, s.jobs ++ js, id⟩ p =
        some ⟨s.ctx, (s.jobs ++ js) ++ [job1 t (id + 1) (procOf W s0) (s0.redirect.map toRedir) true], id + 1⟩ := by
      unfold parseJobsStep
      rw [hs.rule]
      simp only [hj]
      simp [markSub_top ht, hfg', job1]
    rw [hstep]
    obtain ⟨j', h3, h4⟩ := pipes_jobs (rec := rec) (jobStr := t) hp (fun b hb => hr _ (by
      simp only [Cmd.simples, List.mem_append, List.mem_cons, List.mem_map]
      exact .inr (.inr ⟨b, hb, rfl⟩))) ht (s.jobs ++ js)
      (job1 t (id + 1) (procOf W s0) (s0.redirect.map toRedir) true) rfl (id + 1)
    rw [h3]
    refine ⟨js ++ [j'], id + 1, by simp, ?_, by simp [labels, h5, h4, job1]⟩
    rw [h4]
    refine RealizesAll.append h2 (.cons ⟨?_, rfl, ?_, rfl, rfl, rfl, rfl, rfl⟩ .nil)
    · simp [procOf, Function.comp_def, job1]
    · rw [lastRedir_cons]
      cases lastRedir (st.map (fun b => b.2.2)) <;> simp [job1]

theorem RealizesAll.ne_nil {js : List Job} {w ws} (h : RealizesAll js (w :: ws)) : js ≠ [] := by
  cases h; simp

theorem RealizesAll.snoc {js : List Job} {ws : List Want} {w : Want} (h : RealizesAll js (ws ++ [w])) :
    ∃ js' j, js = js' ++ [j] ∧ RealizesAll js' ws ∧ Realizes j w := by
  induction ws generalizing js with
  | nil =>
    cases h with
    | cons h1 h2 => cases h2; exact ⟨[], _, rfl, .nil, h1⟩
  | cons a ws ih =>
    cases h with
    | cons h1 h2 =>
      obtain ⟨js', j, rfl, h3, h4⟩ := ih h2
      exact ⟨_ :: js', j, rfl, .cons h1 h3, h4⟩

theorem want_snoc {c : Cmd} (h : c.ok = true) : ∃ ws w, c.want = ws ++ [w] ∧ w.op = .seq := by
  obtain ⟨bs, m⟩ := c
  cases m with
  | none =>
    simp only [Cmd.ok, Bool.and_eq_true] at h
    have hne : bs ≠ [] := by simpa using h.1.1
    refine ⟨bs.dropLast.map (fun b => ⟨[b.1.argv], true, b.1.redirect, .seq⟩),
      ⟨[(bs.getLast hne).1.argv], true, (bs.getLast hne).1.redirect, .seq⟩, ?_, rfl⟩
    conv_lhs => rw [Cmd.want]
    simp only [List.append_nil]
    conv_lhs => rw [← List.dropLast_concat_getLast hne]
    simp
  | some m => obtain ⟨s, st⟩ := m; exact ⟨_, _, rfl, rfl⟩

theorem sep_step {js js0 : List Job} {c : Cmd} (h : c.ok = true) (hj : RealizesAll js c.want) (s : Sep)
    {ctx id t t'} :
    ∃ js', parseCommandsStep W rec ⟨ctx, js0 ++ js, id⟩ (.mk .command_list_sep t' [.mk (sepRule s) t []]) =
      some ⟨ctx, js0 ++ js', id⟩ ∧ RealizesAll js' (setLastOp s c.want) ∧
      js'.map Job.cmd = js.map Job.cmd := by
  obtain ⟨ws, w, hw, hop⟩ := want_snoc h
  rw [hw] at hj
  obtain ⟨js1, j, rfl, h1, h2⟩ := hj.snoc
  have hset : setLastOp s c.want = ws ++ [{ w with op := s }] := by
    rw [hw]; simp [setLastOp]
  rw [hset]
  cases s with
  | seq =>
    refine ⟨js1 ++ [j], rfl, h1.append (.cons ?_ .nil), rfl⟩
    have : ({ w with op := Syn.Sep.seq } : Want) = w := by cases w; simp at hop; simp [hop]
    rw [this]; exact h2
  | and =>
    refine ⟨js1 ++ [{ j with listOp := .and }], ?_, h1.append (.cons ?_ .nil), by simp⟩
    · simp only [parseCommandsStep, Pair.rule, Pair.inner, sepRule]
      rw [← List.append_assoc, modifyLast_append]
      simp
    · exact ⟨h2.argv, h2.foreground, h2.redirect, rfl, h2.subshell, h2.capture, h2.structExprs, h2.disablePty⟩
  | or =>
    refine ⟨js1 ++ [{ j with listOp := .or }], ?_, h1.append (.cons ?_ .nil), by simp⟩
    · simp only [parseCommandsStep, Pair.rule, Pair.inner, sepRule]
      rw [← List.append_assoc, modifyLast_append]
      simp
    · exact ⟨h2.argv, h2.foreground, h2.redirect, rfl, h2.subshell, h2.capture, h2.structExprs, h2.disablePty⟩

theorem rest_jobs {c : Cmd} {l : List (List Char × Sep × List Char × Cmd)} {ps : List (Pair R)}
    (h : RestDen l ps) (hc : c.ok = true) (hl : restOk c l = true)
    (hr : ∀ s ∈ (l.map (fun r => Cmd.simples r.2.2.2)).flatten, Runs W s)
    {ctx : Ctx} (ht : Top ctx) (js0 js : List Job) (hj : RealizesAll js c.want) (id : Nat) :
    ∃ js' id', ps.foldl (fun s q => s.bind (fun s => parseCommandsStep W rec s q))
        (some ⟨ctx, js0 ++ js, id⟩) = some ⟨ctx, js0 ++ js', id'⟩ ∧
      RealizesAll js' (restWant c l) ∧
      ∃ ts, js'.map Job.cmd = js.map Job.cmd ++ ts ∧ LabelsAll (l.map (fun r => r.2.2.2)) ts := by
  induction h generalizing c js0 js id with
  | nil => exact ⟨js, id, rfl, hj, [], by simp, .nil⟩
  | @cons g s g' c' t t' ps rest qs hcd _ htx ih =>
    simp only [restOk, Bool.and_eq_true] at hl
    obtain ⟨js1, h1, h2, hl1⟩ := sep_step (rec := rec) (W := W) hc hj s (js0 := js0) (ctx := ctx) (id := id) (t := t) (t' := s.text)
    rw [List.foldl_cons, Option.bind_some, h1, List.foldl_cons, Option.bind_some]
    obtain ⟨js2, id2, h3, h4, hl2⟩ := cmd_jobs (rec := rec) (t := t') hcd (fun s hs => hr s (by simp [hs]))
      (s := ⟨ctx, js0 ++ js1, id⟩) ht
    have h5 : parseCommandsStep W rec ⟨ctx, js0 ++ js1, id⟩ (.mk .command t' ps) =
        some ⟨ctx, (js0 ++ js1) ++ js2, id2⟩ := by
      simpa only [parseCommandsStep, Pair.rule] using h3
    rw [h5]
    obtain ⟨js3, id3, h6, h7, ts, hl3, hl4⟩ := ih hl.1.2 hl.2 (fun s hs => hr s (by simp [hs])) (js0 ++ js1) js2 h4 id2
    rw [h6]
    refine ⟨js1 ++ js3, id3, by simp, h2.append h7, labels c' t' ++ ts, ?_, .cons htx hl4⟩
    rw [List.map_append, hl1, hl3, hl2]

theorem line_jobs {l : Line} (h : l.ok = true) (hr : ∀ s ∈ Line.simples l, Runs W s) {ctx : Ctx}
    (ht : Top ctx) (id : Nat) :
    ∃ js id', getJobs W ctx id l.text = some (js, id') ∧ RealizesAll js l.want ∧
      LabelsAll l.cmds (js.map Job.cmd) := by
  obtain ⟨t, ps, qs, h1, h2, h3, htx⟩ := line_ok h (fin := []) (.inl rfl)
  unfold PE at h1
  rw [List.append_nil] at h1
  unfold getJobs parseCommands
  rw [parse_eq wf h1]
  simp only [parseCommandsPair, Pair.rule, Pair.inner, List.foldl_cons, Option.bind_some]
  have hok := h
  simp only [Line.ok, Bool.and_eq_true] at hok
  obtain ⟨js1, id1, h4, h5, hl1⟩ := cmd_jobs (rec := parseCommandsPair W l.text.length) (t := t) h2
    (fun s hs => hr s (by simp [Line.simples, Line.cmds, hs])) (s := ⟨ctx, [], id⟩) ht
  have h6 : parseCommandsStep W (parseCommandsPair W l.text.length) ⟨ctx, [], id⟩ (.mk .command t ps) =
      some ⟨ctx, [] ++ js1, id1⟩ := by
    simpa only [parseCommandsStep, Pair.rule] using h4
  rw [h6]
  obtain ⟨js2, id2, h7, h8, ts, hl2, hl3⟩ := rest_jobs (rec := parseCommandsPair W l.text.length) h3 hok.1.1.2 hok.1.2
    (fun s hs => hr s (by
      simp only [Line.simples, Line.cmds, List.flatMap_cons, List.mem_append]
      refine .inr ?_
      rw [List.flatMap_map]
      exact hs)) ht [] js1 h5 id1
  rw [h7]
  refine ⟨js2, id2, by simp, h8, ?_⟩
  rw [hl2, hl1]
  exact .cons htx hl3

end Dsh.Shell
