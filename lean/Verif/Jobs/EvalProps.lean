import Verif.Jobs.Eval
import Verif.Parse.Props
/-!
C11, C12, C13: which commands of a line are run.
-/
namespace Dsh.Eval
open Dsh.Shell Dsh.Syn

/-! ### Specification -/

/-- Status of the last command that ran, as recorded (0 if there is none). -/
def lastStatus (tr : List Step) : Nat :=
  ((tr.filterMap (fun | .ran (.status c) => some c | _ => none)).getLast?).getD 0

/-- Whether the command at position `i` has to run, given the separators and what happened before. -/
def HasToRun (seps : List Sep) (tr : List Step) (i : Nat) : Prop :=
  i = 0 ∨ seps[i - 1]? = some .seq ∨ (seps[i - 1]? = some .and ∧ lastStatus (tr.take i) = 0) ∨
    (seps[i - 1]? = some .or ∧ lastStatus (tr.take i) ≠ 0)

/-- The effects of a record: the commands that ran, in order, each started in the state left by its
predecessors; nothing for the others. -/
def replay {σ} (run : St σ → Job → St σ) : List (Job × Step) → St σ → St σ
  | [], s => s
  | (_, .skipped) :: l, s => replay run l s
  | (j, .ran _) :: l, s => replay run l (run s j)

/-- The separator a job carries. -/
def sepOf : ListOp → Sep
  | .none => .seq
  | .and => .and
  | .or => .or

/-! ### Proofs -/

/-- `lastStatus` with another start value. -/
def lastFrom (d : Nat) (tr : List Step) : Nat :=
  ((tr.filterMap (fun | .ran (.status c) => some c | _ => none)).getLast?).getD d

theorem lastFrom_status (d c tr) : lastFrom d (.ran (.status c) :: tr) = lastFrom c tr := by
  unfold lastFrom
  simp only [List.filterMap_cons]
  cases h : (List.filterMap (fun x => match x with | .ran (.status c) => some c | _ => none) tr) with
  | nil => simp [h]
  | cons a l => rw [List.getLast?_cons_cons]; simp [List.getLast?_cons]

theorem lastFrom_skip (d tr) : lastFrom d (.skipped :: tr) = lastFrom d tr := rfl
theorem lastFrom_nothing (d tr) : lastFrom d (.ran .nothing :: tr) = lastFrom d tr := rfl
theorem lastFrom_stopped (d tr) : lastFrom d (.ran .stopped :: tr) = lastFrom d tr := rfl

/-- The condition for the command at position `i` when the loop is entered with operator `gate` and
status `last`. -/
def Cond (gate : ListOp) (last : Nat) (js : List Job) (tr : List Step) (i : Nat) : Prop :=
  shouldRun ((gate :: js.map Job.listOp)[i]?.getD .none) (lastFrom last (tr.take i)) = true

theorem Cond_succ_status {g l c} {j : Job} {js tr i} :
    Cond g l (j :: js) (.ran (.status c) :: tr) (i + 1) ↔ Cond j.listOp c js tr i := by
  unfold Cond
  rw [List.take_succ_cons, lastFrom_status]
  simp

theorem Cond_succ {g l st} {j : Job} {js tr i} (h : ∀ d t, lastFrom d (st :: t) = lastFrom d t) :
    Cond g l (j :: js) (st :: tr) (i + 1) ↔ Cond j.listOp l js tr i := by
  unfold Cond
  rw [List.take_succ_cons, h]
  simp

theorem loop_trace {σ V} (M : Machine σ V) (fb : Bool) (js : List Job) (g : ListOp) (l : Nat) (s : St σ) :
    let o := evalLoop M fb js g l s
    (∀ i, i < o.trace.length → (o.trace[i]? ≠ some .skipped ↔ Cond g l js o.trace i)) ∧
    (∀ r, o.result = some r → r = lastFrom l o.trace) ∧
    (o.result ≠ none → .ran .stopped ∉ o.trace → o.trace.length = js.length) ∧
    (o.result = none ↔ .ran .error ∈ o.trace) ∧
    o.trace.length ≤ js.length ∧
    o.st = replay (fun s j => (runJob M fb s j).1) (js.zip o.trace) s := by
  induction js generalizing g l s with
  | nil => simp [evalLoop, lastFrom, replay]
  | cons j js ih =>
    unfold evalLoop
    split
    · next hsr =>
      have h0 : ∀ (st : Step) tr, st ≠ .skipped → ((st :: tr)[0]? ≠ some .skipped ↔ Cond g l (j :: js) (st :: tr) 0) := by
        intro st tr hst
        simp [Cond, lastFrom, hsr, hst]
      split
      · next s' c hr =>
        obtain ⟨h1, h2, h3, h4, h5, h6⟩ := ih j.listOp c s'
        refine ⟨?_, ?_, ?_, ?_, ?_, ?_⟩
        · intro i hi
          cases i with
          | zero => exact h0 _ _ (by simp)
          | succ i =>
            rw [Cond_succ_status]
            simpa using h1 i (by simpa using hi)
        · intro r hr'; rw [lastFrom_status]; exact h2 r hr'
        · intro a b; simp only [List.length_cons]; rw [h3 a (fun hb => b (List.mem_cons_of_mem _ hb))]
        · rw [List.mem_cons, h4]; simp
        · simpa using h5
        · simp only [List.zip_cons_cons, replay, hr]; exact h6
      · next s' hr =>
        obtain ⟨h1, h2, h3, h4, h5, h6⟩ := ih j.listOp l s'
        refine ⟨?_, ?_, ?_, ?_, ?_, ?_⟩
        · intro i hi
          cases i with
          | zero => exact h0 _ _ (by simp)
          | succ i =>
            rw [Cond_succ (fun _ _ => rfl)]
            simpa using h1 i (by simpa using hi)
        · intro r hr'; rw [lastFrom_nothing]; exact h2 r hr'
        · intro a b; simp only [List.length_cons]; rw [h3 a (fun hb => b (List.mem_cons_of_mem _ hb))]
        · rw [List.mem_cons, h4]; simp
        · simpa using h5
        · simp only [List.zip_cons_cons, replay, hr]; exact h6
      · next s' hr =>
        refine ⟨?_, ?_, ?_, ?_, ?_, ?_⟩
        · intro i hi
          have : i = 0 := by simpa using hi
          subst this
          exact h0 _ _ (by simp)
        · intro r hr'; simp at hr'; simp [lastFrom, hr']
        · intro _ b; simp at b
        · simp
        · simp
        · simp [replay, hr]
      · next s' hr =>
        refine ⟨?_, ?_, ?_, ?_, ?_, ?_⟩
        · intro i hi
          have : i = 0 := by simpa using hi
          subst this
          exact h0 _ _ (by simp)
        · simp
        · simp
        · simp
        · simp
        · simp [replay, hr]
    · next hsr =>
      obtain ⟨h1, h2, h3, h4, h5, h6⟩ := ih j.listOp l s
      refine ⟨?_, ?_, ?_, ?_, ?_, ?_⟩
      · intro i hi
        cases i with
        | zero => simp [Cond, lastFrom, hsr]
        | succ i =>
          rw [Cond_succ (fun _ _ => rfl)]
          simpa using h1 i (by simpa using hi)
      · intro r hr'; rw [lastFrom_skip]; exact h2 r hr'
      · intro a b; simp only [List.length_cons]; rw [h3 a (fun hb => b (List.mem_cons_of_mem _ hb))]
      · rw [List.mem_cons, h4]; simp
      · simpa using h5
      · simp only [List.zip_cons_cons, replay]; exact h6

theorem Cond_iff {js : List Job} {tr : List Step} {i : Nat} (hi : i < js.length) :
    Cond .none 0 js tr i ↔ HasToRun (js.map (sepOf ·.listOp)) tr i := by
  unfold Cond HasToRun
  cases i with
  | zero => simp [shouldRun]
  | succ i =>
    have hj : i < js.length := by omega
    simp only [List.getElem?_cons_succ, Nat.add_sub_cancel, List.getElem?_map]
    rw [List.getElem?_eq_getElem hj]
    simp only [Option.map_some, Option.getD_some, Nat.add_eq_zero_iff, Nat.one_ne_zero, and_false, false_or]
    have hl : ∀ t, lastFrom 0 t = lastStatus t := fun _ => rfl
    rw [hl]
    cases js[i].listOp <;> simp [shouldRun, sepOf]

/-! ### C11 -/

/-- **C11, the part that holds.** For every list of jobs and every behaviour of the commands: the
commands that run are exactly those the operators call for, the state changes are those of the
commands that ran in order, a skipped command leaves no trace, the returned status is that of the
last command that ended, and unless a command is stopped or cannot be started the whole list is
worked through.  Missing: a command that cannot be started ends the line instead of counting as
failed, see `C11_error_violated`. -/
theorem C11_list_partial {σ V} (M : Machine σ V) (fb : Bool) (js : List Job) (s : St σ) :
    let o := evalJobs M fb js s
    (∀ i, i < o.trace.length →
      (o.trace[i]? ≠ some .skipped ↔ HasToRun (js.map (sepOf ·.listOp)) o.trace i)) ∧
    (∀ r, o.result = some r → r = lastStatus o.trace) ∧
    (.ran .error ∉ o.trace → .ran .stopped ∉ o.trace → o.trace.length = js.length ∧ o.result.isSome) ∧
    o.st = replay (fun s j => (runJob M fb s j).1) (js.zip o.trace) s := by
  obtain ⟨h1, h2, h3, h4, h5, h6⟩ := loop_trace M fb js .none 0 s
  refine ⟨?_, h2, ?_, h6⟩
  · intro i hi
    rw [← Cond_iff (Nat.lt_of_lt_of_le hi h5)]
    exact h1 i hi
  · intro a b
    have : (evalLoop M fb js .none 0 s).result ≠ none := by rw [Ne, h4]; exact a
    exact ⟨h3 this b, Option.isSome_iff_ne_none.2 this⟩

/-- A machine for the examples: the name of the program says what happens. -/
def demo : Machine (List (List Char)) Unit where
  launch s j :=
    let n := (j.procs.head?.bind (·.argv.head?)).getD []
    ({ s with world := s.world ++ [n] },
      if n = c!"true" then some (.completed 0 none)
      else if n = c!"false" then some (.completed 1 none)
      else if n = c!"vi" then some (.stopped 7 20)
      else if n = c!"nofile" then none
      else some (.completed 0 none))
  capture s j := (s, some (.stopped 7 20, []))
  lisp s _ _ := (s, some ())
  str _ := ()

/-- A job for the examples. -/
def dj (n : List Char) (op : ListOp) : Job :=
  { cmd := n, jobId := 0, procs := [⟨false, [n]⟩], listOp := op }

-- `false && a || b && c ; d`
example : (evalJobs demo false [dj c!"false" .and, dj c!"a" .or, dj c!"b" .and, dj c!"c" .none, dj c!"d" .none]
      ⟨[], []⟩).st.world = [c!"false", c!"b", c!"c", c!"d"] := by decide

/-- **C11 fails** for a command that cannot be started (e.g. its input file is missing): in
`nofile || b` the second command is not run and the line has no status. -/
theorem C11_error_violated :
    let o := evalJobs demo false [dj c!"nofile" .or, dj c!"b" .none] ⟨[], []⟩
    o.st.world = [c!"nofile"] ∧ o.trace = [.ran .error] ∧ o.result = none := by decide

/-- The separators of the jobs of a line are the ones written. -/
theorem realizes_seps {js : List Job} {ws : List Want} (h : RealizesAll js ws) :
    js.map (sepOf ·.listOp) = ws.map Want.op := by
  induction h with
  | nil => rfl
  | cons hj _ ih =>
    simp only [List.map_cons, ih, List.cons.injEq, and_true]
    rw [hj.listOp]
    rename_i w _ _ _
    cases w.op <;> rfl

/-- **C11 for typed lines.** A line in the syntax of `Verif/Parse/Syntax.lean` that is not refused
runs its commands as the separators written in it demand: command `i` of what the line means runs
iff it is first, follows `;` or `&`, follows `&&` after a success, or `||` after a failure. -/
theorem C11_line_partial {σ V} {E : Env} {W : World} (M : Machine σ V) {l : Line} (h : l.ok = true)
    (hf : FitLine E l) (hr : ∀ s ∈ (l.mapW (Word.fill (valOf E))).simples, Runs W s)
    (h1 : (trimStart l.text).head? ≠ some '!') (h2 : (trimStart l.text).head? ≠ some '|')
    (verdict : List Job → Verdict) (hv : ∀ js, verdict js = .go) (id : Nat) (s : St σ) :
    ∃ js o, evalLine E W M verdict false id s l.text = .ran o ∧
      RealizesAll js (l.mapW (Word.fill (valOf E))).want ∧
      (∀ i, i < o.trace.length → (o.trace[i]? ≠ some .skipped ↔
        HasToRun ((l.mapW (Word.fill (valOf E))).want.map Want.op) o.trace i)) ∧
      (.ran .error ∉ o.trace → .ran .stopped ∉ o.trace →
        o.trace.length = (l.mapW (Word.fill (valOf E))).want.length ∧ o.result = some (lastStatus o.trace)) ∧
      o.st = replay (fun s j => (runJob M false s j).1) (js.zip o.trace) s := by
  obtain ⟨js, id', hj, hre⟩ := C03_line_meaning_partial (W := W) h hf hr id
  refine ⟨js, evalJobs M false js s, ?_, hre, ?_⟩
  · have hsp : smartPipe l.text = l.text := by
      unfold smartPipe
      split
      · rfl
      · rfl
      · next hh => rw [hh] at h2; simp at h2
      · rfl
    unfold evalLine
    split
    · next hh => rw [hh] at h1; simp at h1
    · rw [hsp, hj]; simp only [hv]
  · obtain ⟨a, b, c, d⟩ := C11_list_partial M false js s
    rw [realizes_seps hre] at a
    refine ⟨a, ?_, d⟩
    intro e f
    obtain ⟨c1, c2⟩ := c e f
    have hlen : js.length = (l.mapW (Word.fill (valOf E))).want.length := by
      have := congrArg List.length (realizes_seps hre)
      simpa using this
    refine ⟨by rw [c1, hlen], ?_⟩
    obtain ⟨r, hr'⟩ := Option.isSome_iff_exists.1 c2
    rw [hr', b r hr']

example (s : St (List (List Char))) : ∃ o, evalLine E0 W0 demo (fun _ => .go) false 0 s exLine.text = .ran o := by
  obtain ⟨_, o, h, _⟩ := C11_line_partial demo (l := exLine) (W := W0) (by decide) exLine_fit
    (fun s hs => ⟨.inr rfl, by revert s; decide⟩) (by decide) (by decide) (fun _ => .go) (fun _ => rfl) 0 s
  exact ⟨o, h⟩

/-! ### C12 -/

/-- A machine in which the jobs that consist of one foreground builtin end as `res` says. -/
def RunsBuiltins {σ V} (M : Machine σ V) (res : Job → Exit) : Prop :=
  ∀ s j p, j.procs = [p] → p.builtin = true → j.foreground = true →
    (M.launch s j).2 = some (builtinState (res j))

/-- A plain foreground job of one builtin. -/
def BuiltinJob (j : Job) : Prop :=
  (∃ p, j.procs = [p] ∧ p.builtin = true) ∧ j.foreground = true ∧ j.capture = false ∧ j.structExprs = []

theorem runJob_builtin {σ V} {M : Machine σ V} {res} (h : RunsBuiltins M res) {j : Job} (hj : BuiltinJob j)
    (s : St σ) (c : Nat) (sg : Option Nat)
    (hc : builtinState (res { j with jobId := nextId s.table }) = .completed c sg) :
    (runJob M false s j).2 = .status c := by
  obtain ⟨⟨p, hp, hb⟩, hf, hcap, hs⟩ := hj
  unfold runJob
  have e : ({ j with foreground := j.foreground && !false, jobId := nextId s.table } : Job) =
      { j with jobId := nextId s.table } := by
    cases j; simp
  rw [e]
  have hl := h s { j with jobId := nextId s.table } p hp hb hf
  rw [if_neg (by simp [hcap]), if_neg (by simp [hs])]
  simp only [hl, hc, launchRan]

/-- **C12, the part that holds.** A builtin that fails with a positive code has a non-zero status:
after it `&&` skips and `||` runs.  Missing: everything about success, see
`C12_success_violated`. -/
theorem C12_failure_partial {σ V} {M : Machine σ V} {res} (h : RunsBuiltins M res) {j : Job}
    (hj : BuiltinJob j) (s : St σ) (code : Int) (hc : 0 < code)
    (hres : res { j with jobId := nextId s.table } = .exitedWith code) :
    ∃ c, (runJob M false s j).2 = .status c ∧ c ≠ 0 ∧ shouldRun .and c = false ∧ shouldRun .or c = true := by
  refine ⟨1, ?_, by decide, by decide, by decide⟩
  refine runJob_builtin h hj s 1 none ?_
  rw [hres]
  simp [builtinState, Int.le_of_lt hc]

/-- **C12 fails** in every case of success: whatever the builtin, whatever follows, a builtin that
returns 0 has status 1, so that `builtin && k` does not run `k` and `builtin || k` runs it. -/
theorem C12_success_violated {σ V} {M : Machine σ V} {res} (h : RunsBuiltins M res) {j k : Job}
    (hj : BuiltinJob j) (s : St σ) (hres : res { j with jobId := nextId s.table } = .exitedWith 0) :
    (j.listOp = .and → (evalJobs M false [j, k] s).trace = [.ran (.status 1), .skipped] ∧
      (evalJobs M false [j, k] s).result = some 1) ∧
    (j.listOp = .or → ∃ r, (evalJobs M false [j, k] s).trace = [.ran (.status 1), .ran r]) := by
  have hr := runJob_builtin h hj s 1 none (by rw [hres]; rfl)
  have hr' : runJob M false s j = ((runJob M false s j).1, .status 1) := by rw [← hr]
  constructor
  · intro ho
    unfold evalJobs evalLoop
    rw [hr', ho]
    simp [evalLoop, shouldRun]
  · intro ho
    unfold evalJobs evalLoop
    rw [hr', ho]
    simp only [shouldRun]
    unfold evalLoop
    simp only [shouldRun, if_true]
    cases hk : runJob M false (runJob M false s j).1 k with
    | mk s2 r => cases r <;> simp [evalLoop]

/-- The mapping is the wrong way round, and a background builtin always counts as successful. -/
theorem C12_mapping_violated :
    builtinState (.exitedWith 0) = .completed 1 none ∧ builtinState (.exitedWith (-1)) = .completed 0 none ∧
    (∀ r, forkedBuiltinCode r = 0) := ⟨rfl, rfl, fun _ => rfl⟩

/-- A machine whose builtins do what the examples need. -/
def demoBuiltin : Machine Unit Unit where
  launch s j := (s, some (builtinState (if j.cmd = c!"cd /" then .exitedWith 0 else .exitedWith 1)))
  capture s _ := (s, none)
  lisp s _ _ := (s, none)
  str _ := ()

example : (evalJobs demoBuiltin false [{ dj c!"cd /" .and with procs := [⟨true, [c!"cd", c!"/"]⟩] }, dj c!"ls" .none]
    ⟨(), []⟩).trace = [.ran (.status 1), .skipped] :=
  ((C12_success_violated (res := fun j => if j.cmd = c!"cd /" then .exitedWith 0 else .exitedWith 1)
    (fun _ _ _ _ _ _ => rfl) ⟨⟨_, rfl, rfl⟩, rfl, rfl, rfl⟩ _ rfl).1 rfl).1

/-! ### C13 -/

/-- **C13, the part that holds.** For every list and every position: if the job at that position is
not a `|>` or `|:` job, its turn comes and it is stopped, then it is appended to the job table once
and no later job of the line is started.  Missing: `|>` and `|:` jobs, see
`C13_capture_violated`. -/
theorem C13_stopped_partial {σ V} (M : Machine σ V) (fb : Bool) (pre : List Job) (j : Job) (post : List Job)
    (s : St σ) (hcap : j.capture = false) (hst : j.structExprs = [])
    (o : Out σ) (ho : o = evalJobs M fb pre s) (hrun : .ran .error ∉ o.trace) (hstop : .ran .stopped ∉ o.trace)
    (hgo : HasToRun ((pre ++ j :: post).map (sepOf ·.listOp)) o.trace pre.length)
    (pid sg : Nat) (s' : St σ)
    (hl : M.launch o.st { j with foreground := j.foreground && !fb, jobId := nextId o.st.table } =
      (s', some (.stopped pid sg))) :
    (evalJobs M fb (pre ++ j :: post) s).st =
        ⟨s'.world, s'.table ++ [{ j with foreground := j.foreground && !fb, jobId := nextId o.st.table }]⟩ ∧
    (evalJobs M fb (pre ++ j :: post) s).trace = o.trace ++ [.ran .stopped] := by
  have main : ∀ (pre : List Job) (g : ListOp) (l : Nat) (s : St σ) (o : Out σ), o = evalLoop M fb pre g l s →
      .ran .error ∉ o.trace → .ran .stopped ∉ o.trace →
      Cond g l (pre ++ j :: post) o.trace pre.length →
      M.launch o.st { j with foreground := j.foreground && !fb, jobId := nextId o.st.table } =
        (s', some (.stopped pid sg)) →
      (evalLoop M fb (pre ++ j :: post) g l s).st =
        ⟨s'.world, s'.table ++ [{ j with foreground := j.foreground && !fb, jobId := nextId o.st.table }]⟩ ∧
      (evalLoop M fb (pre ++ j :: post) g l s).trace = o.trace ++ [.ran .stopped] := by
    intro pre
    induction pre with
    | nil =>
      intro g l s o ho _ _ hc hl
      simp only [evalLoop] at ho
      subst ho
      simp only [Cond, List.length_nil, List.nil_append, List.getElem?_cons_zero, Option.getD_some,
        List.take_nil, lastFrom, List.filterMap_nil, List.getLast?_nil, Option.getD_none] at hc
      have hr : runJob M fb s j = (⟨s'.world, s'.table ++
          [{ j with foreground := j.foreground && !fb, jobId := nextId s.table }]⟩, .stopped) := by
        unfold runJob
        rw [if_neg (by simp [hcap]), if_neg (by simp [hst])]
        simp only [hl, launchRan]
      simp only [List.nil_append]
      unfold evalLoop
      rw [hc, hr]
      simp
    | cons p ps ih =>
      intro g l s o ho he hs hc hl
      simp only [List.cons_append]
      unfold evalLoop at ho ⊢
      split
      · next hsr =>
        rw [if_pos hsr] at ho
        split
        · next s1 c hr =>
          rw [hr] at ho
          subst ho
          simp only [List.mem_cons, not_or] at he hs
          have hc' := Cond_succ_status.1 hc
          obtain ⟨i1, i2⟩ := ih p.listOp c s1 _ rfl he.2 hs.2 hc' hl
          exact ⟨i1, by simp only [i2, List.cons_append]⟩
        · next s1 hr =>
          rw [hr] at ho
          subst ho
          simp only [List.mem_cons, not_or] at he hs
          have hc' := (Cond_succ (fun _ _ => rfl)).1 hc
          obtain ⟨i1, i2⟩ := ih p.listOp l s1 _ rfl he.2 hs.2 hc' hl
          exact ⟨i1, by simp only [i2, List.cons_append]⟩
        · next s1 hr =>
          rw [hr] at ho
          subst ho
          simp at hs
        · next s1 hr =>
          rw [hr] at ho
          subst ho
          simp at he
      · next hsr =>
        rw [if_neg hsr] at ho
        subst ho
        simp only [List.mem_cons, not_or] at he hs
        have hc' := (Cond_succ (fun _ _ => rfl)).1 hc
        obtain ⟨i1, i2⟩ := ih p.listOp l s _ rfl he.2 hs.2 hc' hl
        exact ⟨i1, by simp only [i2, List.cons_append]⟩
  refine main pre .none 0 s o ho hrun hstop ?_ hl
  rw [Cond_iff (by simp)]
  exact hgo

example : (evalJobs demo false ([dj c!"true" .and] ++ dj c!"vi" .none :: [dj c!"b" .none]) ⟨[], []⟩).trace =
    [.ran (.status 0), .ran .stopped] := by decide

/-- **C13 fails** for `vi |> ; b` (capture): the stopped job is in no table and `b` is started. -/
theorem C13_capture_violated :
    let o := evalJobs demo false [{ dj c!"vi" .none with capture := true }, dj c!"b" .none] ⟨[], []⟩
    o.st.table = [] ∧ o.trace = [.ran (.status 130), .ran (.status 0)] ∧ o.st.world = [c!"b"] := by decide

end Dsh.Eval
