/-!
# C225: the modes of the terminal

The prompt reads keys in raw mode; commands run in the mode in which the shell was started.
crossterm (not in /repo) keeps one saved mode per process: `enable_raw_mode` saves the present mode
and sets the raw one unless a mode is saved already; `disable_raw_mode` puts the saved mode back and
forgets it, and does nothing if none is saved.  That is taken from its documented behaviour.

Simplified: `M` is any type of modes, `raw` any function; a program is what it does to the mode of
the terminal it is given.  Jobs of a line skipped because of `&&` and `||` do not touch the terminal
and are left out of the line; a job after which the rest of the line is not run is its last.
Failing `tcsetattr` calls are not modelled.
-/

namespace Dsh.TtyModes

variable {M : Type}

/-- The terminal: its mode, and the mode crossterm has saved. -/
structure Tty (M : Type) where
  mode : M
  saved : Option M

/-- crossterm's `enable_raw_mode` (called from repl/mod.rs:421). -/
def enable (raw : M → M) (t : Tty M) : Tty M :=
  match t.saved with
  | some _ => t
  | none => { mode := raw t.mode, saved := some t.mode }

/-- crossterm's `disable_raw_mode` (called from repl/mod.rs:145). -/
def disable (t : Tty M) : Tty M :=
  match t.saved with
  | some m => { mode := m, saved := none }
  | none => t

/-- How a job of a line is run: as it is, with `|>`, or with `|:`. -/
inductive Kind
  | plain
  | capture
  /-- `proc`: there is a command before `|:`. -/
  | structPipe (proc : Bool)
deriving DecidableEq

/-- A job: what it does to the mode of the terminal it is given, whether a pseudo terminal could be
had for it, whether it is a built-in, whether launching it succeeds. -/
structure Job (M : Type) where
  kind : Kind := .plain
  pty : Bool := true
  builtin : Bool := false
  touch : M → M := id
  ok : Bool := true

/-- Whether the job gets a pseudo terminal (`should_create_pty`, process/job_pty.rs:50-52;
`disable_pty` is set for captured jobs, shell/eval.rs:470-474). -/
def Job.ownPty (interactive : Bool) (j : Job M) : Bool :=
  interactive && j.pty && (j.kind == .plain)

/-- `Job::launch` as far as the mode is concerned (process/job.rs:143-175) with the guard of
process/job_pty.rs:18-48.  Returns the modes in which programs on the terminal itself started. -/
def launch (raw : M → M) (interactive : Bool) (j : Job M) (t : Tty M) : Tty M × List M :=
  if !j.ok then (t, [])
  else if j.ownPty interactive then
    if j.builtin then (t, []) else (disable (enable raw t), [])
  else ({ t with mode := j.touch t.mode }, [t.mode])

/-- One job of the loop of `eval_str` (shell/eval.rs:215-404): the terminal, the modes programs
started in, and whether the loop goes on. -/
def runJob (raw : M → M) (interactive : Bool) (j : Job M) (t : Tty M) : Tty M × List M × Bool :=
  let t := disable t
  let back (t : Tty M) := if interactive then enable raw t else t
  match j.kind with
  | .structPipe false => (t, [], true)
  | .plain =>
    let r := launch raw interactive j t
    (back r.1, r.2, j.ok)
  | _ =>
    let r := launch raw interactive j t
    if j.ok then (back r.1, r.2, true) else (r.1, r.2, false)

/-- The loop over the jobs (shell/eval.rs:183-411). -/
def runJobs (raw : M → M) (interactive : Bool) : List (Job M) → Tty M → Tty M × List M
  | [], t => (t, [])
  | j :: js, t =>
    match runJob raw interactive j t with
    | (t', ms, true) => let r := runJobs raw interactive js t'; (r.1, ms ++ r.2)
    | (t', ms, false) => (t', ms)

/-- A substitution of a line: what its command does, and whether it could be started. -/
structure Sub (M : Type) where
  touch : M → M := id
  ok : Bool := true

/-- `launch_subshell` (shell/eval.rs:521-535), called while the line is parsed
(shell/parse.rs:310-347).  The last part: whether parsing goes on. -/
def runSubs (raw : M → M) : List (Sub M) → Tty M → Tty M × List M × Bool
  | [], t => (t, [], true)
  | s :: ss, t =>
    let t := disable t
    if s.ok then
      let r := runSubs raw ss (enable raw { t with mode := s.touch t.mode })
      (r.1, t.mode :: r.2.1, r.2.2)
    else (t, [], false)

/-- What becomes of a line after its substitutions (shell/eval.rs:118-182): it does not parse, it is
denied, it is asked about and refused, or it is run, after a question or not. -/
inductive Verdict
  | noParse
  | denied
  | refused
  | asked
  | run
deriving DecidableEq

/-- `confirm_action` (repl/confirmation.rs:20-84). -/
def confirm (raw : M → M) (t : Tty M) : Tty M :=
  if t.saved.isSome then t else disable (enable raw t)

/-- A line of a user. -/
structure Line (M : Type) where
  subs : List (Sub M) := []
  verdict : Verdict := .run
  jobs : List (Job M) := []

/-- `eval_str` (shell/eval.rs:43-413) for a line that is no message to the assistant. -/
def evalLine (raw : M → M) (interactive : Bool) (l : Line M) (t : Tty M) : Tty M × List M :=
  match runSubs raw l.subs t with
  | (t, ms, false) => (t, ms)
  | (t, ms, true) =>
    match l.verdict with
    | .noParse => (t, ms)
    | .denied => (t, ms)
    | .refused => (confirm raw t, ms)
    | .asked => let r := runJobs raw interactive l.jobs (confirm raw t); (r.1, ms ++ r.2)
    | .run => let r := runJobs raw interactive l.jobs t; (r.1, ms ++ r.2)

/-- `AiChatUi::run` (ai_features/ui.rs:58-66) and the guard dropped at its end
(ai_features/ui.rs:24-31). -/
def window (raw : M → M) (t : Tty M) : Tty M := disable (enable raw t)

/-- What happens at the prompt. -/
inductive Ev (M : Type)
  /-- Enter (key_handlers/execution.rs:125-140). -/
  | line (l : Line M)
  /-- A message to the assistant (shell/eval.rs:69-113). -/
  | chat
  /-- A finder, by Ctrl-R or Tab (repl/mod.rs:993-1034): any effect on the terminal. -/
  | finder (touch : M → M)
  /-- Alt-d (key_handlers/ai.rs:96-180): so many windows are opened, one per question. -/
  | diagnose (windows : Nat)

/-- One event of an interactive session; `isig` switches Ctrl-C on (shell/eval.rs:76-90). -/
def step (raw isig : M → M) (e : Ev M) (t : Tty M) : Tty M × List M :=
  match e with
  | .line l => evalLine raw true l t
  | .chat => let t := disable t; (enable raw { t with mode := isig t.mode }, [])
  | .finder f => let t := disable t; (enable raw { t with mode := f t.mode }, [])
  | .diagnose n => (Nat.repeat (window raw) n t, [])

/-- Events in order. -/
def steps (raw isig : M → M) : List (Ev M) → Tty M → Tty M × List M
  | [], t => (t, [])
  | e :: es, t =>
    let r := step raw isig e t
    let q := steps raw isig es r.1
    (q.1, r.2 ++ q.2)

/-- A session from its start in mode `m` (repl/mod.rs:407-424) to the prompt after the events. -/
def session (raw isig : M → M) (m : M) (es : List (Ev M)) : Tty M × List M :=
  steps raw isig es (enable raw { mode := m, saved := none })

/-- The mode the terminal has after the shell is gone (`Drop for Repl`, repl/mod.rs:134-145). -/
def left (raw isig : M → M) (m : M) (es : List (Ev M)) : M :=
  (disable (session raw isig m es).1).mode

/-- The mode left by `dsh -c` (lib.rs:530-587): nothing is done at the end. -/
def commandMode (raw : M → M) (m : M) (l : Line M) : M :=
  (evalLine raw false l { mode := m, saved := none }).1.mode

/-! ## Specification -/

/-- A line none of whose programs leaves the terminal itself changed. -/
def Tidy (interactive : Bool) (m : M) (l : Line M) : Prop :=
  (∀ s ∈ l.subs, s.touch m = m) ∧
    ∀ j ∈ l.jobs, (interactive = true ∧ j.pty = true ∧ j.kind = .plain) ∨ j.touch m = m

/-- A line without the failures named in the refutations. -/
def Sound (l : Line M) : Prop :=
  (∀ s ∈ l.subs, s.ok = true) ∧
    ∀ j ∈ l.jobs, j.kind ≠ .structPipe false ∧ (j.kind ≠ .plain → j.ok = true)

/-- Events that leave the terminal as it was given to them. -/
def TidyEv (isig : M → M) (m : M) : Ev M → Prop
  | .line l => Tidy true m l
  | .chat => isig m = m
  | .finder f => f m = m
  | .diagnose _ => True

/-- Events without the failures named in the refutations. -/
def SoundEv : Ev M → Prop
  | .line l => Sound l
  | .diagnose n => n = 0
  | _ => True

/-! ## Proofs -/

/-- The prompt as it should be. -/
def atPrompt (raw : M → M) (m : M) : Tty M := { mode := raw m, saved := some m }

/-- The terminal as it was at the start. -/
def plainTty (m : M) : Tty M := { mode := m, saved := none }

/-- One of the two. -/
def Known (raw : M → M) (m : M) (t : Tty M) : Prop := t = atPrompt raw m ∨ t = plainTty m

theorem disable_known {raw : M → M} {m : M} {t : Tty M} (h : Known raw m t) :
    disable t = plainTty m := by
  rcases h with rfl | rfl <;> rfl

theorem enable_plain (raw : M → M) (m : M) : enable raw (plainTty m) = atPrompt raw m := rfl

theorem enable_known {raw : M → M} {m : M} {t : Tty M} (h : Known raw m t) :
    enable raw t = atPrompt raw m := by
  rcases h with rfl | rfl <;> rfl

theorem launch_plain (raw : M → M) (i : Bool) (j : Job M) (m : M)
    (h : (i = true ∧ j.pty = true ∧ j.kind = .plain) ∨ j.touch m = m) :
    (launch raw i j (plainTty m)).1 = plainTty m ∧ ∀ x ∈ (launch raw i j (plainTty m)).2, x = m := by
  unfold launch Job.ownPty
  split
  · simp
  · split
    · split
      · simp
      · rw [enable_plain]; exact ⟨rfl, by simp⟩
    · rename_i hp
      rcases h with ⟨h1, h2, h3⟩ | h
      · simp [h1, h2, h3] at hp
      · simp [plainTty, h]

theorem runJob_known (raw : M → M) (i : Bool) (j : Job M) (m : M) (t : Tty M)
    (ht : Known raw m t)
    (h : (i = true ∧ j.pty = true ∧ j.kind = .plain) ∨ j.touch m = m) :
    Known raw m (runJob raw i j t).1 ∧ (∀ x ∈ (runJob raw i j t).2.1, x = m) ∧
      (i = true → j.kind ≠ .structPipe false → (j.kind ≠ .plain → j.ok = true) →
        (runJob raw i j t).1 = atPrompt raw m) ∧
      (i = false → (runJob raw i j t).1 = plainTty m) := by
  obtain ⟨hl1, hl2⟩ := launch_plain raw i j m h
  have hb : Known raw m (if i then enable raw (plainTty m) else plainTty m) := by
    cases i
    · exact Or.inr rfl
    · exact Or.inl rfl
  unfold runJob
  rw [disable_known ht]
  simp only
  split
  · rename_i hk
    exact ⟨Or.inr rfl, by simp, fun _ hn => absurd hk hn, fun _ => rfl⟩
  · refine ⟨?_, hl2, ?_, ?_⟩
    · rw [hl1]; exact hb
    · intro hi _ _; rw [hl1, hi]; rfl
    · intro hi; rw [hl1, hi]; rfl
  · rename_i hk1 hk2
    split
    · refine ⟨?_, hl2, ?_, ?_⟩
      · simp only [hl1]; exact hb
      · intro hi _ _; subst hi; simp only [hl1]; rfl
      · intro hi; subst hi; simp only [hl1]; rfl
    · rename_i ho
      refine ⟨Or.inr hl1, hl2, ?_, fun _ => hl1⟩
      intro _ _ hok
      exact absurd (hok hk2) ho

theorem runJobs_known (raw : M → M) (i : Bool) (m : M) (js : List (Job M))
    (h : ∀ j ∈ js, (i = true ∧ j.pty = true ∧ j.kind = .plain) ∨ j.touch m = m) :
    ∀ t, Known raw m t → Known raw m (runJobs raw i js t).1 ∧
      (∀ x ∈ (runJobs raw i js t).2, x = m) ∧
      (i = true → t = atPrompt raw m →
        (∀ j ∈ js, j.kind ≠ .structPipe false ∧ (j.kind ≠ .plain → j.ok = true)) →
        (runJobs raw i js t).1 = atPrompt raw m) ∧
      (i = false → (js ≠ [] ∨ t = plainTty m) → (runJobs raw i js t).1 = plainTty m) := by
  induction js with
  | nil =>
    intro t ht
    refine ⟨ht, by simp [runJobs], fun _ h _ => h, ?_⟩
    intro _ h
    rcases h with h | h
    · exact absurd rfl h
    · exact h
  | cons j js ih =>
    intro t ht
    obtain ⟨h1, h2, h3, h4⟩ := runJob_known raw i j m t ht (h j (by simp))
    have ih' := ih (fun k hk => h k (by simp [hk]))
    unfold runJobs
    split
    · rename_i t' ms he
      rw [he] at h1 h2 h3 h4
      obtain ⟨i1, i2, i3, i4⟩ := ih' t' h1
      refine ⟨i1, ?_, ?_, ?_⟩
      · intro x hx
        rcases List.mem_append.1 hx with hx | hx
        · exact h2 x hx
        · exact i2 x hx
      · intro hi _ hs
        exact i3 hi (h3 hi (hs j (by simp)).1 (hs j (by simp)).2) fun k hk => hs k (by simp [hk])
      · intro hi _
        exact i4 hi (Or.inr (h4 hi))
    · rename_i t' ms he
      rw [he] at h1 h2 h3 h4
      refine ⟨h1, h2, ?_, fun hi _ => h4 hi⟩
      intro hi _ hs
      exact h3 hi (hs j (by simp)).1 (hs j (by simp)).2

theorem runSubs_known (raw : M → M) (m : M) (ss : List (Sub M)) (h : ∀ s ∈ ss, s.touch m = m) :
    ∀ t, Known raw m t → Known raw m (runSubs raw ss t).1 ∧
      (∀ x ∈ (runSubs raw ss t).2.1, x = m) ∧
      ((∀ s ∈ ss, s.ok = true) → (runSubs raw ss t).2.2 = true ∧
        (t = atPrompt raw m ∨ ss ≠ [] → (runSubs raw ss t).1 = atPrompt raw m)) := by
  induction ss with
  | nil =>
    intro t ht
    refine ⟨ht, by simp [runSubs], fun _ => ⟨rfl, ?_⟩⟩
    rintro (h | h)
    · exact h
    · exact absurd rfl h
  | cons s ss ih =>
    intro t ht
    have hs : s.touch m = m := h s (by simp)
    have ih' := ih (fun k hk => h k (by simp [hk])) (atPrompt raw m) (Or.inl rfl)
    unfold runSubs
    rw [disable_known ht]
    have he : enable raw { plainTty m with mode := s.touch (plainTty m).mode } = atPrompt raw m := by
      simp only [plainTty, hs]; rfl
    cases ho : s.ok
    · simp only [Bool.false_eq_true, if_false]
      refine ⟨Or.inr rfl, by simp, ?_⟩
      intro hall
      have := hall s (by simp)
      rw [ho] at this; cases this
    · simp only [if_true, he]
      obtain ⟨i1, i2, i3⟩ := ih'
      refine ⟨i1, ?_, ?_⟩
      · intro x hx
        rcases List.mem_cons.1 hx with hx | hx
        · rw [hx]; rfl
        · exact i2 x hx
      · intro hall
        obtain ⟨a, b⟩ := i3 fun k hk => hall k (by simp [hk])
        exact ⟨a, fun _ => b (Or.inl rfl)⟩

theorem confirm_known {raw : M → M} {m : M} {t : Tty M} (h : Known raw m t) : confirm raw t = t := by
  rcases h with rfl | rfl <;> rfl

theorem evalLine_known (raw : M → M) (i : Bool) (m : M) (l : Line M) (h : Tidy i m l) (t : Tty M)
    (ht : Known raw m t) : Known raw m (evalLine raw i l t).1 ∧
      (∀ x ∈ (evalLine raw i l t).2, x = m) ∧
      (i = true → t = atPrompt raw m → Sound l → (evalLine raw i l t).1 = atPrompt raw m) ∧
      (i = false → (l.verdict = .run ∨ l.verdict = .asked) → l.jobs ≠ [] →
        (∀ s ∈ l.subs, s.ok = true) → (evalLine raw i l t).1 = plainTty m) := by
  obtain ⟨s1, s2, s3⟩ := runSubs_known raw m l.subs h.1 t ht
  unfold evalLine
  split
  · rename_i t' ms he
    rw [he] at s1 s2 s3
    refine ⟨s1, s2, ?_, ?_⟩
    · intro _ _ hs
      have := (s3 hs.1).1
      cases this
    · intro _ _ _ hs
      have := (s3 hs).1
      cases this
  · rename_i t' ms he
    rw [he] at s1 s2 s3
    simp only at s1 s2 s3
    obtain ⟨j1, j2, j3, j4⟩ := runJobs_known raw i m l.jobs h.2 t' s1
    have hm : ∀ x ∈ ms ++ (runJobs raw i l.jobs t').2, x = m := by
      intro x hx
      rcases List.mem_append.1 hx with hx | hx
      · exact s2 x hx
      · exact j2 x hx
    cases hv : l.verdict <;> simp only [confirm_known s1]
    · exact ⟨s1, s2, fun _ ha hs => (s3 hs.1).2 (Or.inl ha), fun _ h => by simp at h⟩
    · exact ⟨s1, s2, fun _ ha hs => (s3 hs.1).2 (Or.inl ha), fun _ h => by simp at h⟩
    · exact ⟨s1, s2, fun _ ha hs => (s3 hs.1).2 (Or.inl ha), fun _ h => by simp at h⟩
    · exact ⟨j1, hm, fun hi ha hs => j3 hi ((s3 hs.1).2 (Or.inl ha)) hs.2,
        fun hi _ hj _ => j4 hi (Or.inl hj)⟩
    · exact ⟨j1, hm, fun hi ha hs => j3 hi ((s3 hs.1).2 (Or.inl ha)) hs.2,
        fun hi _ hj _ => j4 hi (Or.inl hj)⟩

theorem window_known {raw : M → M} {m : M} {t : Tty M} (h : Known raw m t) :
    window raw t = plainTty m := by
  unfold window; rw [enable_known h]; rfl

theorem windows_known {raw : M → M} {m : M} {t : Tty M} (h : Known raw m t) (n : Nat) :
    Known raw m (Nat.repeat (window raw) n t) ∧
      (n ≠ 0 → Nat.repeat (window raw) n t = plainTty m) := by
  induction n with
  | zero => exact ⟨h, fun hn => absurd rfl hn⟩
  | succ n ih =>
    have := window_known (raw := raw) ih.1
    exact ⟨Or.inr this, fun _ => this⟩

theorem step_known (raw isig : M → M) (m : M) (e : Ev M) (h : TidyEv isig m e) (t : Tty M)
    (ht : Known raw m t) : Known raw m (step raw isig e t).1 ∧
      (∀ x ∈ (step raw isig e t).2, x = m) ∧
      (t = atPrompt raw m → SoundEv e → (step raw isig e t).1 = atPrompt raw m) := by
  cases e with
  | line l =>
    obtain ⟨a, b, c, _⟩ := evalLine_known raw true m l h t ht
    exact ⟨a, b, fun h1 h2 => c rfl h1 h2⟩
  | chat =>
    have : (step raw isig .chat t).1 = atPrompt raw m := by
      have h' : isig m = m := h
      simp only [step, disable_known ht, plainTty, h']; rfl
    exact ⟨Or.inl this, by simp [step], fun _ _ => this⟩
  | finder f =>
    have : (step raw isig (.finder f) t).1 = atPrompt raw m := by
      have h' : f m = m := h
      simp only [step, disable_known ht, plainTty, h']; rfl
    exact ⟨Or.inl this, by simp [step], fun _ _ => this⟩
  | diagnose n =>
    refine ⟨(windows_known ht n).1, by simp [step], ?_⟩
    intro h1 h2
    have h2' : n = 0 := h2
    subst h2'
    exact h1

theorem steps_known (raw isig : M → M) (m : M) (es : List (Ev M)) (h : ∀ e ∈ es, TidyEv isig m e) :
    ∀ t, Known raw m t → Known raw m (steps raw isig es t).1 ∧
      (∀ x ∈ (steps raw isig es t).2, x = m) ∧
      (t = atPrompt raw m → (∀ e ∈ es, SoundEv e) → (steps raw isig es t).1 = atPrompt raw m) := by
  induction es with
  | nil => intro t ht; exact ⟨ht, by simp [steps], fun h _ => h⟩
  | cons e es ih =>
    intro t ht
    obtain ⟨a, b, c⟩ := step_known raw isig m e (h e (by simp)) t ht
    obtain ⟨a', b', c'⟩ := ih (fun k hk => h k (by simp [hk])) _ a
    refine ⟨a', ?_, ?_⟩
    · intro x hx
      rcases List.mem_append.1 hx with hx | hx
      · exact b x hx
      · exact b' x hx
    · intro h1 h2
      exact c' (c h1 (h2 e (by simp))) fun k hk => h2 k (by simp [hk])

/-- C225: after any events, also after lines that fail, are denied, cannot be parsed or end early,
the mode at the start is put back when the shell ends and every program that is given the terminal
itself starts in that mode, as long as the programs before it left the terminal as they found it.
`_partial`: programs that leave it changed are in `C225_changed_violated`. -/
theorem C225_left_partial (raw isig : M → M) (m : M) (es : List (Ev M))
    (h : ∀ e ∈ es, TidyEv isig m e) :
    left raw isig m es = m ∧ ∀ x ∈ (session raw isig m es).2, x = m := by
  obtain ⟨a, b, _⟩ := steps_known raw isig m es h (atPrompt raw m) (Or.inl rfl)
  have hs : session raw isig m es = steps raw isig es (atPrompt raw m) := rfl
  refine ⟨?_, by rw [hs]; exact b⟩
  unfold left
  rw [hs, disable_known a]; rfl

/-- C225: the prompt reads its keys in raw mode after any such events without the failures of
`C225_prompt_violated`; plain jobs may fail, and lines be denied, refused or wrong. -/
theorem C225_prompt_partial (raw isig : M → M) (m : M) (es : List (Ev M))
    (h : ∀ e ∈ es, TidyEv isig m e) (hs : ∀ e ∈ es, SoundEv e) :
    (session raw isig m es).1.mode = raw m :=
  congrArg Tty.mode ((steps_known raw isig m es h (atPrompt raw m) (Or.inl rfl)).2.2 rfl hs)

/-- C225: whatever was before, a line of one tidy plain job brings the raw mode back. -/
theorem C225_again_partial (raw isig : M → M) (m : M) (es : List (Ev M))
    (h : ∀ e ∈ es, TidyEv isig m e) (j : Job M) (hk : j.kind = .plain)
    (ht : j.pty = true ∨ j.touch m = m) :
    (step raw isig (.line { jobs := [j] }) (session raw isig m es).1).1.mode = raw m := by
  obtain ⟨a, _, _⟩ := steps_known raw isig m es h (atPrompt raw m) (Or.inl rfl)
  have hj : (true = true ∧ j.pty = true ∧ j.kind = .plain) ∨ j.touch m = m := by
    rcases ht with ht | ht
    · exact Or.inl ⟨rfl, ht, hk⟩
    · exact Or.inr ht
  have := (runJob_known raw true j m _ a hj).2.2.1 rfl (by simp [hk]) (by simp [hk])
  show (runJobs raw true [j] (steps raw isig es (atPrompt raw m)).1).1.mode = raw m
  unfold runJobs
  split
  · rename_i he
    rw [he] at this
    simp only [runJobs]
    exact congrArg Tty.mode this
  · rename_i he
    rw [he] at this
    exact congrArg Tty.mode this

/-- The modes of the examples: cooked, raw, and what a killed editor leaves. -/
inductive Mode
  | cooked | raw | broken
deriving DecidableEq

/-- The raw mode of the examples. -/
def toRaw (_ : Mode) : Mode := .raw

/-- A session with a pipeline that fails, a substitution, a refused line and a captured command. -/
def someEvents : List (Ev Mode) :=
  [.line { jobs := [{ ok := false }, {}] },
   .line { subs := [{}], jobs := [{ touch := fun _ => .broken }] },
   .line { verdict := .refused, jobs := [{}] },
   .line { jobs := [{ kind := .capture }] }, .chat, .finder id]

example : (∀ e ∈ someEvents, TidyEv id .cooked e) ∧ (∀ e ∈ someEvents, SoundEv e) ∧
    (session toRaw id .cooked someEvents).2 = [.cooked, .cooked] := by
  refine ⟨?_, ?_, by decide⟩
  · intro e he
    simp only [someEvents, List.mem_cons, List.not_mem_nil, or_false] at he
    rcases he with rfl | rfl | rfl | rfl | rfl | rfl <;> simp [TidyEv, Tidy]
  · intro e he
    simp only [someEvents, List.mem_cons, List.not_mem_nil, or_false] at he
    rcases he with rfl | rfl | rfl | rfl | rfl | rfl <;> simp [SoundEv, Sound]

/-- C225 refuted: the prompt is left in the mode of commands, where keys are shown by the terminal
and only arrive after Enter, by a captured command (`|>`) whose launch fails, by a
Lisp pipe (`|:`) whose launch fails, by one without a command, by a substitution that cannot be
started, and by any use of the window of Alt-d. -/
theorem C225_prompt_violated (raw isig : M → M) (m : M) :
    (∀ (js : List (Job M)) (t : M → M) (p b : Bool) (k : Kind), k = .capture ∨ k = .structPipe true →
      (step raw isig (.line { jobs := ⟨k, p, b, t, false⟩ :: js }) (atPrompt raw m)).1.mode = m) ∧
    (∀ (t : M → M) (p b ok : Bool),
      (step raw isig (.line { jobs := [⟨.structPipe false, p, b, t, ok⟩] })
        (atPrompt raw m)).1.mode = m) ∧
    (∀ (l : Line M) (ss : List (Sub M)) (t : M → M),
      (step raw isig (.line { l with subs := ⟨t, false⟩ :: ss }) (atPrompt raw m)).1.mode = m) ∧
    (∀ n, n ≠ 0 → (step raw isig (.diagnose n) (atPrompt raw m)).1.mode = m) := by
  refine ⟨?_, ?_, ?_, ?_⟩
  · rintro js t p b k (rfl | rfl) <;> rfl
  · intros; rfl
  · intros; rfl
  · intro n hn
    show (Nat.repeat (window raw) n (atPrompt raw m)).mode = m
    rw [(windows_known (Or.inl rfl) n).2 hn]; rfl

/-- C225 refuted: a program without a pseudo terminal of its own (`DSH_NO_PTY`, `|>`, `|:`, a
substitution) that leaves the terminal changed, for example because it was killed, changes the mode
for good: the next program on the terminal starts in it, and the shell leaves it behind. -/
theorem C225_changed_violated (raw isig : M → M) (m : M) (f : M → M) :
    (∀ b, left raw isig m [.line { jobs := [⟨.plain, false, b, f, true⟩] }] = f m) ∧
    (∀ p b, left raw isig m [.line { jobs := [⟨.capture, p, b, f, true⟩] }] = f m) ∧
    left raw isig m [.line { subs := [⟨f, true⟩], jobs := [{}] }] = f m ∧
    (session raw isig m [.line { jobs := [⟨.plain, false, false, f, true⟩] },
      .line { jobs := [⟨.plain, false, false, id, true⟩] }]).2 = [m, f m] := by
  refine ⟨?_, ?_, rfl, rfl⟩
  · intros; rfl
  · intro p b; cases p <;> rfl

/-- C225 refuted: with a pseudo terminal a change that is meant to last (`stty -echo`) does not:
what the program does has no effect on anything after it. -/
theorem C225_stty_violated (raw isig : M → M) (m : M) (f g : M → M) (b : Bool) (es : List (Ev M)) :
    session raw isig m (.line { jobs := [⟨.plain, true, b, f, true⟩] } :: es) =
      session raw isig m (.line { jobs := [⟨.plain, true, b, g, true⟩] } :: es) := by
  cases b <;> rfl

/-- C225: `dsh -c` leaves the terminal as it was if at least one job of the line is run. -/
theorem C225_command_partial (raw : M → M) (m : M) (l : Line M) (h : Tidy false m l)
    (hv : l.verdict = .run ∨ l.verdict = .asked) (hj : l.jobs ≠ [])
    (hs : ∀ s ∈ l.subs, s.ok = true) : commandMode raw m l = m := by
  unfold commandMode
  have := (evalLine_known raw false m l h (plainTty m) (Or.inr rfl)).2.2.2 rfl hv hj hs
  show (evalLine raw false l (plainTty m)).1.mode = m
  rw [this]; rfl

example : Tidy false Mode.cooked { subs := [{}], jobs := [{}, { ok := false }] } := by simp [Tidy]

/-- C225 refuted: `dsh -c` switches the raw mode on after a substitution, although it does not read
keys, and leaves the terminal of the user in it if the line is then denied or refused or does not
parse, for example because of an unknown command (`dsh -c 'echo $(date); nosuch'`;
shell/parse.rs:425-435 fails while the line is parsed). -/
theorem C225_command_violated (raw : M → M) (m : M) (ss : List (Sub M)) (js : List (Job M))
    (v : Verdict) (hne : ss ≠ []) (ht : ∀ s ∈ ss, s.touch m = m) (hs : ∀ s ∈ ss, s.ok = true)
    (hv : v = .denied ∨ v = .refused ∨ v = .noParse) :
    commandMode raw m { subs := ss, verdict := v, jobs := js } = raw m := by
  obtain ⟨_, _, s3⟩ := runSubs_known raw m ss ht (plainTty m) (Or.inr rfl)
  obtain ⟨s4, s5⟩ := s3 hs
  have s5 := s5 (Or.inr hne)
  unfold commandMode evalLine
  show (match runSubs raw ss (plainTty m) with
    | (t, ms, false) => (t, ms)
    | (t, ms, true) => _).1.mode = raw m
  split
  · rename_i he
    rw [he] at s4; cases s4
  · rename_i he
    rw [he] at s5
    simp only at s5
    subst s5
    rcases hv with rfl | rfl | rfl <;> rfl

example : commandMode toRaw .cooked { subs := [{}], verdict := .denied, jobs := [{}] } = .raw := by
  decide

end Dsh.TtyModes
