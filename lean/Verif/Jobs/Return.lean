import Verif.Util
import Mathlib.Data.List.Induction
/-!
When the prompt comes back (C221): `launch` (dsh/src/process/job.rs:143-196), `manage_execution` (dsh/src/process/job_pty.rs:140-163),
`capture_output_and_history` (job_pty.rs:165-187), `process_output` (dsh/src/process/io.rs:174-260), for a command of one process in the
foreground of an interactive shell.

Processes are numbered; number 0 is the command.  A process that is forked has the streams of the one that forks it.  Reading the
pseudo terminal ends when no process has it open any more (the shell closes its own end at the beginning of
`capture_output_and_history`, job_pty.rs:173).  What the shell does takes no time.
-/
namespace Dsh.Return

inductive Life where
  | runs | stopped | gone
deriving DecidableEq

/-- A process: how it is, and whether it has the pseudo terminal open. -/
structure Proc where
  life : Life := .runs
  holds : Bool
deriving DecidableEq

inductive Ev where
  /-- the process ends -/
  | exit (p : Nat)
  /-- the process is stopped -/
  | stop (p : Nat)
  /-- the process is continued -/
  | cont (p : Nat)
  /-- the process closes or redirects its streams -/
  | close (p : Nat)
  /-- the process forks -/
  | fork (p : Nat)
deriving DecidableEq

/-- What the system does. -/
def procStep (w : List Proc) : Ev → List Proc
  | .exit p => w.modify p fun x => { x with life := .gone }
  | .stop p => w.modify p fun x => if x.life = .runs then { x with life := .stopped } else x
  | .cont p => w.modify p fun x => if x.life = .stopped then { x with life := .runs } else x
  | .close p => w.modify p fun x => { x with holds := false }
  | .fork p => match w[p]? with
    | some x => if x.life = .runs then w ++ [⟨.runs, x.holds⟩] else w
    | none => w

/-- The command runs. -/
def busy (w : List Proc) : Bool := w[0]?.map Proc.life == some .runs

/-- A process that has not ended has the pseudo terminal open. -/
def held (w : List Proc) : Bool := w.any fun x => x.life ≠ .gone && x.holds

/-- Where `launch` is: it waits for the command (job_pty.rs:157), for the end of the output (job_pty.rs:176), or it is done. -/
inductive Phase where
  | waiting | reading | prompt
deriving DecidableEq

/-- The shell goes on as far as it can: the wait ends when the command has ended or is stopped (job_wait.rs:335-365); the output is waited
for only with a pseudo terminal. -/
def settle (pty : Bool) (w : List Proc) : Phase → Phase
  | .waiting => if busy w then .waiting else if pty && held w then .reading else .prompt
  | .reading => if held w then .reading else .prompt
  | .prompt => .prompt

structure St where
  procs : List Proc
  phase : Phase

def step (pty : Bool) (s : St) (e : Ev) : St := let w := procStep s.procs e; ⟨w, settle pty w s.phase⟩

/-- The command is started: it has the pseudo terminal, if there is one (`setup_pty`, job_pty.rs:64-106). -/
def begin_ (pty : Bool) : St := ⟨[⟨.runs, pty⟩], .waiting⟩

def run (pty : Bool) (l : List Ev) : St := l.foldl (step pty) (begin_ pty)

/-! ### Spec -/

/-- The processes after these events. -/
def procs (pty : Bool) (l : List Ev) : List Proc := l.foldl procStep [⟨.runs, pty⟩]

/-- The command has ended or is stopped. -/
def Over (w : List Proc) : Prop := ∃ x : Proc, w[0]? = some x ∧ x.life ≠ .runs

/-- Some process still has the pseudo terminal. -/
def Used (w : List Proc) : Prop := ∃ (q : Nat) (x : Proc), w[q]? = some x ∧ x.life ≠ .gone ∧ x.holds = true

/-! ### Lemmas -/

theorem run_procs (pty : Bool) (l : List Ev) : (run pty l).procs = procs pty l := by
  have : ∀ (l : List Ev) (s : St), (l.foldl (step pty) s).procs = l.foldl procStep s.procs := by
    intro l
    induction l with
    | nil => intro s; rfl
    | cons e l ih => intro s; rw [List.foldl_cons, ih]; rfl
  exact this l _

theorem run_snoc (pty : Bool) (l : List Ev) (e : Ev) : run pty (l ++ [e]) = step pty (run pty l) e := by simp [run, List.foldl_append]

theorem run_app (pty : Bool) (l m : List Ev) : run pty (l ++ m) = m.foldl (step pty) (run pty l) := by simp [run, List.foldl_append]

theorem step_length (w : List Proc) (e : Ev) : w.length ≤ (procStep w e).length := by
  cases e <;> simp only [procStep, List.length_modify, Nat.le_refl]
  split
  · split <;> simp
  · simp

theorem procs_pos (pty : Bool) (l : List Ev) : 0 < (procs pty l).length := by
  have : ∀ (l : List Ev) (w : List Proc), w.length ≤ (l.foldl procStep w).length := by
    intro l
    induction l with
    | nil => intro w; exact Nat.le_refl _
    | cons e l ih => intro w; exact Nat.le_trans (step_length w e) (ih _)
  exact this l [⟨.runs, pty⟩]

theorem busy_iff {w : List Proc} (h : 0 < w.length) : busy w = false ↔ Over w := by
  unfold busy Over
  cases hw : w[0]? with
  | none => rw [List.getElem?_eq_none_iff] at hw; omega
  | some x => simp

theorem held_iff (w : List Proc) : held w = true ↔ Used w := by
  simp only [held, Used, List.any_eq_true, Bool.and_eq_true, decide_eq_true_eq]
  constructor
  · rintro ⟨x, hx, h⟩
    obtain ⟨q, hq⟩ := List.mem_iff_getElem?.1 hx
    exact ⟨q, x, hq, h⟩
  · rintro ⟨q, x, hq, h⟩
    exact ⟨x, List.mem_of_getElem? hq, h⟩

theorem prompt_stays (pty : Bool) (m : List Ev) (s : St) (h : s.phase = .prompt) : (m.foldl (step pty) s).phase = .prompt := by
  induction m generalizing s with
  | nil => exact h
  | cons e l ih => exact ih _ (by simp [step, h, settle])

theorem never_held (l : List Ev) : ∀ x ∈ procs false l, x.holds = false := by
  have : ∀ (l : List Ev) (w : List Proc), (∀ x ∈ w, x.holds = false) → ∀ x ∈ l.foldl procStep w, x.holds = false := by
    intro l
    induction l with
    | nil => intro w h; exact h
    | cons e l ih =>
      intro w h
      refine ih _ ?_
      have hm : ∀ (f : Proc → Proc) (p : Nat), (∀ x, x.holds = false → (f x).holds = false) → ∀ x ∈ w.modify p f, x.holds = false := by
        intro f p hf x hx
        obtain ⟨i, hi⟩ := List.mem_iff_getElem?.1 hx
        rw [List.getElem?_modify] at hi
        cases hw : w[i]? with
        | none => rw [hw] at hi; simp at hi
        | some y =>
          have hy := h y (List.mem_of_getElem? hw)
          rw [hw] at hi
          split at hi
          · cases hi; exact hf y hy
          · cases hi; exact hy
      cases e with
      | exit p => exact hm _ p (by intro x hx; exact hx)
      | stop p => exact hm _ p (by intro x hx; split <;> exact hx)
      | cont p => exact hm _ p (by intro x hx; split <;> exact hx)
      | close p => exact hm _ p (by intro x hx; rfl)
      | fork p =>
        simp only [procStep]
        cases hw : w[p]? with
        | none => exact h
        | some y =>
          dsimp only
          split
          · intro x hx
            rcases List.mem_append.1 hx with hx | hx
            · exact h x hx
            · rw [List.mem_singleton] at hx; subst hx; exact h y (List.mem_of_getElem? hw)
          · exact h
  exact this l _ (by simp)

/-! ### C221 -/

/-- The phase tells what has happened. -/
theorem phase_spec (pty : Bool) (l : List Ev) :
    ((run pty l).phase = .waiting → ∀ m, m <+: l → ¬ Over (procs pty m)) ∧
    ((run pty l).phase = .reading → Used (procs pty l) ∧ ∃ m, m <+: l ∧ Over (procs pty m)) ∧
    ((run pty l).phase = .prompt → ∃ m m', m <+: m' ∧ m' <+: l ∧ Over (procs pty m) ∧ ¬ (pty = true ∧ Used (procs pty m'))) := by
  induction l using List.reverseRecOn with
  | nil =>
    refine ⟨?_, by simp [run, begin_], by simp [run, begin_]⟩
    intro _ m hm
    rw [List.prefix_nil] at hm
    subst hm
    simp [Over, procs]
  | append_singleton l e ih =>
    obtain ⟨h1, h2, h3⟩ := ih
    have hw : procStep (run pty l).procs e = procs pty (l ++ [e]) := by
      rw [run_procs]; simp [procs, List.foldl_append]
    have hp : (run pty (l ++ [e])).phase = settle pty (procs pty (l ++ [e])) (run pty l).phase := by
      rw [run_snoc]; simp only [step]; rw [hw]
    have hb := busy_iff (procs_pos pty (l ++ [e]))
    have hh := held_iff (procs pty (l ++ [e]))
    have pre : ∀ {m : List Ev}, m <+: l → m <+: l ++ [e] := fun h => h.trans (List.prefix_append _ _)
    rw [hp]
    cases hs : (run pty l).phase with
    | waiting =>
      simp only [settle]
      cases hbb : busy (procs pty (l ++ [e])) with
      | true =>
        refine ⟨?_, by simp, by simp⟩
        intro _ m hm
        rcases List.prefix_concat_iff.1 hm with rfl | hm
        · intro ho; rw [hb.2 ho] at hbb; cases hbb
        · exact h1 hs m hm
      | false =>
        have ho := hb.1 hbb
        simp only [Bool.false_eq_true, if_false]
        split
        · next hc =>
          simp only [Bool.and_eq_true] at hc
          refine ⟨by simp, fun _ => ⟨hh.1 hc.2, _, List.prefix_refl _, ho⟩, by simp⟩
        · next hc =>
          refine ⟨by simp, by simp, fun _ => ⟨_, _, List.prefix_refl _, List.prefix_refl _, ho, ?_⟩⟩
          rintro ⟨hpt, hu⟩
          exact hc (by rw [hh.2 hu, hpt]; rfl)
    | reading =>
      obtain ⟨hu, m, hm, ho⟩ := h2 hs
      simp only [settle]
      split
      · next hc => exact ⟨by simp, fun _ => ⟨hh.1 hc, m, pre hm, ho⟩, by simp⟩
      · next hc =>
        refine ⟨by simp, by simp, fun _ => ⟨m, _, pre hm, List.prefix_refl _, ho, ?_⟩⟩
        rintro ⟨-, hu⟩
        exact hc (hh.2 hu)
    | prompt =>
      obtain ⟨m, m', hm, hm', ho, hn⟩ := h3 hs
      exact ⟨by simp [settle], by simp [settle], fun _ => ⟨m, m', hm, pre hm', ho, hn⟩⟩

/-- **C221, it comes back.** When the command has ended or was stopped at some moment, and from then on there was a moment at which no process had the
pseudo terminal open, the prompt is there and stays. -/
theorem C221_back_partial (pty : Bool) (l m n : List Ev) (ho : Over (procs pty l)) (hu : ¬ Used (procs pty (l ++ m))) :
    (run pty (l ++ m ++ n)).phase = .prompt := by
  have h : (run pty (l ++ m)).phase = .prompt := by
    obtain ⟨h1, h2, -⟩ := phase_spec pty (l ++ m)
    cases hp : (run pty (l ++ m)).phase with
    | waiting => exact absurd ho (h1 hp l (List.prefix_append _ _))
    | reading => exact absurd (h2 hp).1 hu
    | prompt => rfl
  rw [run_app]
  exact prompt_stays pty n _ h

/-- **C221, not too early.** The prompt is there only after the command has ended or was stopped. -/
theorem C221_only_partial (pty : Bool) (l : List Ev) (h : (run pty l).phase = .prompt) : ∃ m, m <+: l ∧ Over (procs pty m) := by
  obtain ⟨m, m', hm, hm', ho, -⟩ := (phase_spec pty l).2.2 h
  exact ⟨m, hm.trans hm', ho⟩

/-- **C221, without a pseudo terminal.** (`DSH_NO_PTY`, or a command that is to have none.)  The prompt is there exactly if the command has ended or was
stopped at some moment, whatever processes it leaves behind. -/
theorem C221_plain_partial (l : List Ev) : (run false l).phase = .prompt ↔ ∃ m, m <+: l ∧ Over (procs false m) := by
  refine ⟨C221_only_partial false l, ?_⟩
  rintro ⟨m, ⟨n, rfl⟩, ho⟩
  have := C221_back_partial false m [] n ho (by
    rintro ⟨q, x, hq, -, hx⟩
    rw [List.append_nil] at hq
    rw [never_held m x (List.mem_of_getElem? hq)] at hx
    cases hx)
  simpa using this

/-- A process goes on using the terminal. -/
theorem used_stays (q : Nat) (m : List Ev) (hm : ∀ e ∈ m, e ≠ .exit q ∧ e ≠ .close q) (w : List Proc)
    (h : ∃ x, w[q]? = some x ∧ x.life ≠ .gone ∧ x.holds = true) :
    ∃ x, (m.foldl procStep w)[q]? = some x ∧ x.life ≠ .gone ∧ x.holds = true := by
  induction m generalizing w with
  | nil => exact h
  | cons e l ih =>
    refine ih (fun e he => hm e (by simp [he])) _ ?_
    obtain ⟨x, hx, h1, h2⟩ := h
    obtain ⟨he, hc⟩ := hm e (by simp)
    cases e with
    | exit p =>
      have : p ≠ q := by rintro rfl; exact he rfl
      exact ⟨x, by simp [procStep, this, hx], h1, h2⟩
    | close p =>
      have : p ≠ q := by rintro rfl; exact hc rfl
      exact ⟨x, by simp [procStep, this, hx], h1, h2⟩
    | stop p =>
      by_cases hp : p = q
      · subst hp
        refine ⟨_, by simp only [procStep, List.getElem?_modify, hx, if_true, Option.map_eq_map, Option.map_some]; rfl, ?_, ?_⟩ <;> split <;> simp_all
      · exact ⟨x, by simp [procStep, hp, hx], h1, h2⟩
    | cont p =>
      by_cases hp : p = q
      · subst hp
        refine ⟨_, by simp only [procStep, List.getElem?_modify, hx, if_true, Option.map_eq_map, Option.map_some]; rfl, ?_, ?_⟩ <;> split <;> simp_all
      · exact ⟨x, by simp [procStep, hp, hx], h1, h2⟩
    | fork p =>
      refine ⟨x, ?_, h1, h2⟩
      simp only [procStep]
      split
      · split
        · rw [List.getElem?_append_left (by exact (List.getElem?_eq_some_iff.1 hx).1)]; exact hx
        · exact hx
      · exact hx

/-- **C221 fails: left behind.** As long as one process the command started runs on with its streams, there is no prompt, though the
command has long ended. -/
theorem C221_left_violated (l m : List Ev) (q : Nat) (x : Proc) (hx : (procs true l)[q]? = some x) (hl : x.life ≠ .gone) (hh : x.holds = true)
    (hp : (run true l).phase ≠ .prompt) (hm : ∀ e ∈ m, e ≠ .exit q ∧ e ≠ .close q) : (run true (l ++ m)).phase ≠ .prompt := by
  induction m using List.reverseRecOn with
  | nil => rw [List.append_nil]; exact hp
  | append_singleton m e ih =>
    have ih := ih fun e he => hm e (by simp [he])
    rw [← List.append_assoc, run_snoc]
    obtain ⟨y, hy⟩ := used_stays q (m ++ [e]) hm (procs true l) ⟨x, hx, hl, hh⟩
    have hw : procStep (run true (l ++ m)).procs e = (m ++ [e]).foldl procStep (procs true l) := by
      rw [run_procs]; simp [procs, List.foldl_append]
    have hu : held (procStep (run true (l ++ m)).procs e) = true := by
      rw [held_iff, hw]; exact ⟨q, y, hy⟩
    simp only [step]
    cases hs : (run true (l ++ m)).phase with
    | waiting => simp only [settle, hu, Bool.and_self, if_true]; split <;> simp
    | reading => simp [settle, hu]
    | prompt => exact absurd hs ih

/-- **C221 fails: stopped.** A command that is stopped, and neither ends nor closes its streams, does not give the prompt back, whatever
else happens: it can be neither continued nor ended from this shell. -/
theorem C221_stopped_violated (m : List Ev) (hm : ∀ e ∈ m, e ≠ .exit 0 ∧ e ≠ .close 0) :
    Over (procs true [.stop 0]) ∧ (run true ([.stop 0] ++ m)).phase ≠ .prompt :=
  ⟨⟨⟨.stopped, true⟩, rfl, by decide⟩, C221_left_violated [.stop 0] m 0 ⟨.stopped, true⟩ rfl (by decide) rfl (by decide) hm⟩

/-! ### Examples -/

/-- A command that starts a server and ends: the prompt comes only when the server closes its streams. -/
example : (run true [.fork 0, .exit 0]).phase = .reading ∧ (run true [.fork 0, .exit 0, .stop 1, .cont 1]).phase = .reading ∧
    (run true [.fork 0, .exit 0, .close 1]).phase = .prompt ∧ (run false [.fork 0, .exit 0]).phase = .prompt := by decide

example : Over (procs true [.fork 0, .exit 1, .exit 0]) ∧ ¬ Used (procs true ([.fork 0, .exit 1, .exit 0] ++ [])) :=
  ⟨⟨⟨.gone, true⟩, by decide, by decide⟩, fun h => absurd ((held_iff _).2 h) (by decide)⟩

end Dsh.Return
