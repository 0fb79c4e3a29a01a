import Verif.Hist.Fish

/-!
# The statistics of commands

`dsh/src/command_timing.rs` with `dsh-builtin/src/command_timing.rs`, and its use in `dsh/src/repl/key_handlers/execution.rs:147-158` and
`dsh/src/repl/mod.rs:146-151, 718-722`.

Simplified: the hash map is a function; numbers are unbounded (`u64` in the code); the time of the last
execution and purging (which nobody calls) are not modelled; saving succeeds unless the shell is killed meanwhile.
-/

namespace Dsh.Timing

abbrev Str := List Char

/-- `CommandStats` (command_timing.rs:22-37). -/
structure Stats where
  calls : Nat
  total : Nat
  max : Nat
  min : Nat
  failures : Nat
  deriving DecidableEq, Repr

/-- `CommandStats::new` (command_timing.rs:41-51). -/
def Stats.new (ms : Nat) (ok : Bool) : Stats := ⟨1, ms, ms, ms, if ok then 0 else 1⟩

/-- `CommandStats::record` (command_timing.rs:54-63). -/
def Stats.record (s : Stats) (ms : Nat) (ok : Bool) : Stats :=
  { calls := s.calls + 1, total := s.total + ms, max := Nat.max s.max ms, min := Nat.min s.min ms,
    failures := if ok then s.failures else s.failures + 1 }

/-- `average_duration_ms` (command_timing.rs:66-70). -/
def Stats.average (s : Stats) : Nat := if s.calls = 0 then 0 else s.total / s.calls

abbrev Map := Str → Option Stats

/-- One shell's `CommandTiming` (command_timing.rs:84-96); times in milliseconds. -/
structure Shell where
  stats : Map := fun _ => none
  dirty : Bool := false
  records : Nat := 0
  saved : Option Nat := none

/-- The file: missing, not readable (cut off), or with its contents. -/
inductive File
  | missing
  | bad
  | ok (m : Map)

/-- What a starting shell sees: `create_shared_timing` (command_timing.rs:296-303) with `load_from_file`
(command_timing.rs:111-136). -/
def File.view : File → Map
  | .ok m => m
  | _ => fun _ => none

/-- `record` (command_timing.rs:192-206). -/
def Shell.record (s : Shell) (name : Str) (ok : Bool) (ms : Nat) : Shell :=
  { s with
    stats := fun n => if n = name then
      (match s.stats n with
       | some st => some (st.record ms ok)
       | none => some (Stats.new ms ok)) else s.stats n
    dirty := true, records := s.records + 1 }

/-- All shells of the user and the file. -/
structure World where
  file : File := .missing
  shells : Nat → Option Shell := fun _ => none

def World.set (w : World) (i : Nat) (s : Option Shell) : World :=
  { w with shells := fun j => if j = i then s else w.shells j }

/-- `save_to_file` (command_timing.rs:139-155). -/
def World.save (w : World) (i : Nat) (s : Shell) (now : Nat) : World :=
  if s.dirty then { w.set i (some { s with dirty := false, records := 0, saved := some now }) with file := .ok s.stats }
  else w.set i (some s)

/-- The interval of five seconds: `interval_elapsed` (command_timing.rs:163-165). -/
def due : Option Nat → Nat → Bool
  | none, _ => true
  | some t, now => decide (5000 ≤ now - t)

/-- `save_to_file_if_due` (command_timing.rs:158-174): five seconds or ten records. -/
def World.saveIfDue (w : World) (i : Nat) (s : Shell) (now : Nat) : World :=
  if s.dirty && (due s.saved now || decide (10 ≤ s.records)) then w.save i s now else w.set i (some s)

/-- What happens. -/
inductive Ev
  | start (i now : Nat)
  /-- a command was run: its name, whether it succeeded, how long it took -/
  | run (i : Nat) (name : Str) (ok : Bool) (ms now : Nat)
  /-- every 30 seconds -/
  | tick (i now : Nat)
  | quit (i now : Nat)
  /-- the shell is killed, or the machine stops -/
  | kill (i : Nat)
  /-- the same while the file is written: it was truncated by `File::create` -/
  | killWriting (i : Nat)
  /-- the builtin `timing --clear` in some shell, which is a command run there itself -/
  | clear (i now : Nat)

def World.ev (w : World) : Ev → World
  | .start i now => w.set i (some { stats := w.file.view, saved := match w.file with | .ok _ => some now | _ => none })
  | .run i name ok ms now =>
    match w.shells i with
    | some s => w.saveIfDue i (s.record name ok ms) now
    | none => w
  | .tick i now =>
    match w.shells i with
    | some s => w.saveIfDue i s now
    | none => w
  | .quit i now =>
    match w.shells i with
    | some s => (w.save i s now).set i none
    | none => w
  | .kill i => w.set i none
  | .killWriting i => { w.set i none with file := .bad }
  -- `command` (dsh-builtin/src/command_timing.rs:184-231) works on the file alone
  | .clear i now =>
    let w := { w with file := .ok (fun _ => none) }
    match w.shells i with
    | some s => w.saveIfDue i (s.record c!"timing" true 0) now
    | none => w

def World.evs (w : World) (l : List Ev) : World := l.foldl World.ev w

/-! ## C111 -/

/-- A command that was run. -/
structure Run where
  name : Str
  ok : Bool
  ms : Nat
  deriving DecidableEq, Repr

/-- The numbers are those of the runs. -/
def Right (s : Stats) (l : List Run) : Prop :=
  s.calls = l.length ∧ s.total = (l.map (·.ms)).sum ∧ s.failures = (l.filter (! ·.ok)).length ∧
  (∀ r ∈ l, s.min ≤ r.ms ∧ r.ms ≤ s.max) ∧ (∃ r ∈ l, r.ms = s.max) ∧ (∃ r ∈ l, r.ms = s.min)

/-- The statistics hold exactly the commands run, each with its numbers. -/
def Agrees (m : Map) (runs : List Run) : Prop :=
  ∀ n, match m n with
    | some s => Right s (runs.filter (·.name = n))
    | none => ∀ r ∈ runs, r.name ≠ n

/-- What a shell does in a session. -/
inductive Op
  | run (r : Run) (now : Nat)
  | tick (now : Nat)

def Op.ev : Op → Ev
  | .run r now => .run 0 r.name r.ok r.ms now
  | .tick now => .tick 0 now

def Op.runs : List Op → List Run
  | [] => []
  | .run r _ :: l => r :: Op.runs l
  | .tick _ :: l => Op.runs l

/-- A session: from starting to leaving the shell. -/
structure Session where
  began : Nat
  ops : List Op
  ended : Nat

def Session.evs (s : Session) : List Ev := [.start 0 s.began] ++ s.ops.map Op.ev ++ [.quit 0 s.ended]

theorem right_record {s : Stats} {l : List Run} (h : Right s l) (r : Run) : Right (s.record r.ms r.ok) (l ++ [r]) := by
  obtain ⟨h1, h2, h3, h4, ⟨a, ha, ha'⟩, b, hb, hb'⟩ := h
  refine ⟨by simp [Stats.record, h1], by simp [Stats.record, h2], ?_, ?_, ?_, ?_⟩
  · simp only [Stats.record, List.filter_append, List.length_append, ← h3]
    cases hr : r.ok <;> simp [hr]
  · intro x hx
    have e1 : (s.record r.ms r.ok).min = Nat.min s.min r.ms := rfl
    have e2 : (s.record r.ms r.ok).max = Nat.max s.max r.ms := rfl
    rw [e1, e2]
    rcases List.mem_append.1 hx with hx | hx
    · have := h4 x hx
      exact ⟨Nat.le_trans (Nat.min_le_left _ _) this.1, Nat.le_trans this.2 (Nat.le_max_left _ _)⟩
    · simp only [List.mem_singleton] at hx
      subst hx
      exact ⟨Nat.min_le_right _ _, Nat.le_max_right _ _⟩
  · have e2 : (s.record r.ms r.ok).max = Nat.max s.max r.ms := rfl
    rw [e2]
    by_cases hle : s.max ≤ r.ms
    · exact ⟨r, by simp, (Nat.max_eq_right hle).symm⟩
    · exact ⟨a, by simp [ha], by rw [ha']; exact (Nat.max_eq_left (by omega)).symm⟩
  · have e1 : (s.record r.ms r.ok).min = Nat.min s.min r.ms := rfl
    rw [e1]
    by_cases hle : r.ms ≤ s.min
    · exact ⟨r, by simp, (Nat.min_eq_right hle).symm⟩
    · exact ⟨b, by simp [hb], by rw [hb']; exact (Nat.min_eq_left (by omega)).symm⟩

theorem right_new (r : Run) : Right (Stats.new r.ms r.ok) [r] := by
  refine ⟨rfl, by simp [Stats.new], ?_, ?_, ⟨r, by simp, rfl⟩, r, by simp, rfl⟩
  · cases hr : r.ok <;> simp [Stats.new, hr]
  · intro x hx
    simp only [List.mem_singleton] at hx
    subst hx
    exact ⟨Nat.le_refl _, Nat.le_refl _⟩

theorem agrees_record {s : Shell} {runs : List Run} (h : Agrees s.stats runs) (r : Run) :
    Agrees (s.record r.name r.ok r.ms).stats (runs ++ [r]) := by
  intro n
  have hn := h n
  by_cases he : n = r.name
  · subst he
    simp only [Shell.record, ↓reduceIte, List.filter_append]
    cases hs : s.stats r.name with
    | some st =>
      rw [hs] at hn
      simpa using right_record hn r
    | none =>
      rw [hs] at hn
      have : runs.filter (·.name = r.name) = [] := by
        rw [List.filter_eq_nil_iff]
        intro x hx
        simpa using hn x hx
      dsimp only
      rw [this]
      simpa using right_new r
  · simp only [Shell.record, he, ↓reduceIte, List.filter_append]
    have hne : [r].filter (fun x => decide (x.name = n)) = [] := by
      simp only [List.filter_cons, List.filter_nil]
      rw [if_neg (by simpa using fun h : r.name = n => he h.symm)]
    rw [hne, List.append_nil]
    cases hs : s.stats n with
    | some st => rw [hs] at hn; exact hn
    | none =>
      rw [hs] at hn
      intro x hx
      rcases List.mem_append.1 hx with hx | hx
      · exact hn x hx
      · simp only [List.mem_singleton] at hx; subst hx; exact fun h => he h.symm

/-- In a session: the shell knows all runs, the file all but the last few. -/
def Inv (w : World) (runs : List Run) : Prop :=
  ∃ s, w.shells 0 = some s ∧ Agrees s.stats runs ∧ s.records ≤ 9 ∧ s.records ≤ runs.length ∧
    Agrees w.file.view (runs.take (runs.length - s.records)) ∧ (s.dirty = false → Agrees w.file.view runs)

theorem inv_saveIfDue {w : World} {s : Shell} {runs : List Run} {now : Nat} (h1 : Agrees s.stats runs)
    (h2 : s.records ≤ 10) (h3 : s.records ≤ runs.length) (h4 : Agrees w.file.view (runs.take (runs.length - s.records)))
    (h5 : s.dirty = false → Agrees w.file.view runs) (h6 : s.dirty = false → s.records ≤ 9) :
    Inv (w.saveIfDue 0 s now) runs := by
  unfold World.saveIfDue World.save
  split
  · rename_i hd
    simp only [Bool.and_eq_true] at hd
    rw [if_pos hd.1]
    refine ⟨{ s with dirty := false, records := 0, saved := some now }, by simp [World.set], h1, by simp, by simp, ?_, fun _ => h1⟩
    simpa [File.view] using h1
  · rename_i hd
    refine ⟨s, by simp [World.set], h1, ?_, h3, h4, h5⟩
    cases hdd : s.dirty with
    | false => exact h6 hdd
    | true =>
      rw [hdd] at hd
      simp only [Bool.true_and, Bool.or_eq_true, decide_eq_true_eq, not_or] at hd
      omega

theorem inv_op {w : World} {runs : List Run} (h : Inv w runs) (o : Op) : Inv (w.ev o.ev) (runs ++ Op.runs [o]) := by
  obtain ⟨s, hs, h1, h2, h3, h4, h5⟩ := h
  cases o with
  | run r now =>
    simp only [Op.ev, World.ev, hs, Op.runs]
    refine inv_saveIfDue (agrees_record h1 r) ?_ ?_ ?_ ?_ ?_
    · show s.records + 1 ≤ 10; omega
    · show s.records + 1 ≤ _; simp; omega
    · have : (runs ++ [r]).length - (s.record r.name r.ok r.ms).records = runs.length - s.records := by
        show (runs ++ [r]).length - (s.records + 1) = _
        simp
      rw [this, List.take_append_of_le_length (by omega)]
      exact h4
    · intro h; cases h
    · intro h; cases h
  | tick now =>
    simp only [Op.ev, World.ev, hs, Op.runs, List.append_nil]
    exact inv_saveIfDue h1 (by omega) h3 h4 h5 (fun _ => h2)

theorem inv_ops {w : World} {runs : List Run} (h : Inv w runs) (ops : List Op) :
    Inv (w.evs (ops.map Op.ev)) (runs ++ Op.runs ops) := by
  induction ops generalizing w runs with
  | nil => simpa [World.evs, Op.runs] using h
  | cons o ops ih =>
    have := ih (inv_op h o)
    have e : Op.runs (o :: ops) = Op.runs [o] ++ Op.runs ops := by cases o <;> simp [Op.runs]
    rw [e, ← List.append_assoc]
    exact this

theorem inv_start {w : World} {runs : List Run} (h : Agrees w.file.view runs) (now : Nat) :
    Inv (w.ev (.start 0 now)) runs := by
  refine ⟨_, by simp [World.ev, World.set]; rfl, h, by simp, by simp, ?_, fun _ => h⟩
  have : Agrees w.file.view (runs.take (runs.length - 0)) := by simpa using h
  exact this

theorem evs_append (w : World) (a b : List Ev) : w.evs (a ++ b) = (w.evs a).evs b := by simp [World.evs]

theorem session_agrees {w : World} {runs : List Run} (h : Agrees w.file.view runs) (s : Session) :
    Agrees (w.evs s.evs).file.view (runs ++ Op.runs s.ops) := by
  unfold Session.evs
  rw [evs_append, evs_append]
  have hinv := inv_ops (inv_start h s.began) s.ops
  have e : World.evs (w.ev (.start 0 s.began)) (s.ops.map Op.ev) =
    (w.evs [.start 0 s.began]).evs (s.ops.map Op.ev) := rfl
  rw [e] at hinv
  generalize (w.evs [.start 0 s.began]).evs (s.ops.map Op.ev) = w' at hinv ⊢
  obtain ⟨sh, hs, h1, -, -, -, h5⟩ := hinv
  simp only [World.evs, List.foldl_cons, List.foldl_nil, World.ev, hs, World.save]
  cases hd : sh.dirty with
  | false => simpa [World.set] using h5 hd
  | true => simpa [World.set, File.view] using h1

/-- All commands run in some sessions. -/
def allRuns (l : List Session) : List Run := l.flatMap (fun s => Op.runs s.ops)

theorem sessions_agree {w : World} {runs : List Run} (h : Agrees w.file.view runs) (l : List Session) :
    Agrees (w.evs (l.flatMap Session.evs)).file.view (runs ++ allRuns l) := by
  induction l generalizing w runs with
  | nil => simpa [World.evs, allRuns] using h
  | cons s l ih =>
    have := ih (session_agrees h s)
    rw [List.append_assoc] at this
    simp only [List.flatMap_cons, evs_append, allRuns] at this ⊢
    exact this

theorem agrees_nil : Agrees (fun _ => none) [] := by
  intro n r hr
  cases hr

/-- **C111, partial (what holds).** When one shell follows the other and each is left properly, the file
holds, for every command name, exactly the commands run in all sessions: how often, how long together,
the longest, the shortest, and how many failed. -/
theorem C111_sessions_partial (l : List Session) :
    Agrees (World.evs {} (l.flatMap Session.evs)).file.view (allRuns l) := by
  have := sessions_agree (w := {}) (runs := []) agrees_nil l
  simpa using this

example : (World.evs {} (List.flatMap Session.evs
    [⟨0, [.run ⟨c!"make", false, 7000⟩ 1, .run ⟨c!"ls", true, 3⟩ 2], 9⟩, ⟨10, [.run ⟨c!"make", true, 4000⟩ 11], 12⟩])).file.view
    c!"make" = some ⟨2, 11000, 7000, 4000, 1⟩ := by decide +kernel

/-- **C111, partial (a killed shell).** A shell that is killed while it is not writing loses at most the
nine last commands. -/
theorem C111_kill_partial (l : List Session) (began : Nat) (ops : List Op) :
    ∃ k ≤ 9, Agrees (World.evs {} (l.flatMap Session.evs ++ ([.start 0 began] ++ ops.map Op.ev) ++ [.kill 0])).file.view
      ((allRuns l ++ Op.runs ops).take ((allRuns l ++ Op.runs ops).length - k)) := by
  have hi := inv_ops (inv_start (C111_sessions_partial l) began) ops
  obtain ⟨s, -, -, h2, -, h4, -⟩ := hi
  refine ⟨s.records, h2, ?_⟩
  rw [evs_append, evs_append, evs_append]
  exact h4

/-- **C111, partial (the average).** The average shown lies between the shortest and the longest run. -/
theorem C111_average_partial (s : Stats) (l : List Run) (h : Right s l) (hne : l ≠ []) :
    s.min ≤ s.average ∧ s.average ≤ s.max := by
  obtain ⟨h1, h2, -, h4, -, -⟩ := h
  have hb : ∀ l : List Run, (∀ r ∈ l, s.min ≤ r.ms ∧ r.ms ≤ s.max) →
      s.min * l.length ≤ (l.map (·.ms)).sum ∧ (l.map (·.ms)).sum ≤ s.max * l.length := by
    intro l
    induction l with
    | nil => intro _; simp
    | cons r l ih =>
      intro hl
      have hr := hl r (by simp)
      have := ih (fun x hx => hl x (by simp [hx]))
      simp only [List.map_cons, List.sum_cons, List.length_cons, Nat.mul_add, Nat.mul_one]
      omega
  have hl : 0 < l.length := List.length_pos_iff.2 hne
  have := hb l h4
  unfold Stats.average
  rw [if_neg (by omega), h1, h2]
  refine ⟨(Nat.le_div_iff_mul_le hl).2 this.1, ?_⟩
  have := Nat.div_le_div_right (c := l.length) this.2
  rwa [Nat.mul_div_cancel _ hl] at this

/-- The name a line is counted under: `extract_command_name` (command_timing.rs:266-284). -/
def commandName (line : Str) : Option Str :=
  let word := (trim line).takeWhile (fun c => ! rustWhitespace c)
  let name := (word.reverse.takeWhile (· ≠ '/')).reverse
  if name = [] ∨ name.head? = some '!' ∨ name.head? = some '?' then none else some name

/-- **C111, partial (the name).** A line that begins with the command, indented or not, with or without a path, is counted
under the command's file name, whatever follows. -/
theorem C111_name_partial (blank dir name rest : Str) (hb : ∀ c ∈ blank, rustWhitespace c = true) (hd : dir = [] ∨ dir.getLast? = some '/')
    (hws : ∀ c ∈ dir ++ name, rustWhitespace c = false) (hne : name ≠ []) (hsl : '/' ∉ name)
    (h1 : name.head? ≠ some '!') (h2 : name.head? ≠ some '?') (hr : ∀ c, rest.head? = some c → rustWhitespace c = true) :
    commandName (blank ++ (dir ++ name ++ rest)) = some name := by
  have hlast : ∃ q c, dir ++ name = q ++ [c] := by
    refine ⟨_, _, (List.dropLast_concat_getLast (l := dir ++ name) (by simp [hne])).symm⟩
  obtain ⟨q, c, hq⟩ := hlast
  have hc : rustWhitespace c = false := hws c (by rw [hq]; simp)
  have ht : trimStart (blank ++ (dir ++ name ++ rest)) = dir ++ name ++ rest := by
    unfold trimStart
    rw [List.dropWhile_append_of_pos hb]
    cases hdn : dir ++ name with
    | nil => simp at hdn; exact absurd hdn.2 hne
    | cons a l =>
      have := hws a (by rw [hdn]; simp)
      simp [this]
  have hte : trim (blank ++ (dir ++ name ++ rest)) = dir ++ name ++ trimEnd rest := by
    unfold trim
    rw [ht, hq, List.append_assoc, List.append_assoc]
    exact Fish.trimEnd_behind hc rest
  have hw : (dir ++ name ++ trimEnd rest).takeWhile (fun c => ! rustWhitespace c) = dir ++ name := by
    rw [List.takeWhile_append_of_pos (by intro x hx; simp [hws x hx])]
    have : (trimEnd rest).takeWhile (fun c => ! rustWhitespace c) = [] := by
      obtain ⟨t, hpre⟩ : trimEnd rest <+: rest := by
        unfold trimEnd
        rw [← List.reverse_suffix, List.reverse_reverse]
        exact List.dropWhile_suffix _
      cases he : trimEnd rest with
      | nil => rfl
      | cons a l =>
        have := hr a (by rw [← hpre, he]; rfl)
        simp [this]
    rw [this, List.append_nil]
  have hn : (((dir ++ name).reverse.takeWhile (· ≠ '/')).reverse) = name := by
    rw [List.reverse_append, List.takeWhile_append_of_pos
      (by intro x hx; simp only [List.mem_reverse] at hx; simp; rintro rfl; exact hsl hx)]
    have : dir.reverse.takeWhile (· ≠ '/') = [] := by
      rcases hd with rfl | hd
      · rfl
      · rw [← List.head?_reverse] at hd
        cases hx : dir.reverse with
        | nil => rfl
        | cons a l =>
          rw [hx] at hd
          simp only [List.head?_cons, Option.some.injEq] at hd
          subst hd
          rfl
    rw [this, List.append_nil, List.reverse_reverse]
  unfold commandName
  simp only [hte, hw, hn, hne, h1, h2, or_self, if_false]

example : commandName c!" /usr/bin/make -C src/x" = some c!"make" :=
  C111_name_partial c!" " c!"/usr/bin/" c!"make" c!" -C src/x" (by decide) (by decide) (by decide) (by decide) (by decide) (by decide)
    (by decide) (by intro c h; cases h; rfl)

/-- **C111, negation (two shells).** Whatever a shell ran and saved is forgotten when another shell, started
before, saves: here for every command and every duration. -/
theorem C111_violated (a b : Str) (hab : a ≠ b) (x y : Nat) :
    let w := World.evs {} [.start 0 0, .start 1 0, .run 0 a true x 1, .quit 0 2, .run 1 b true y 3, .quit 1 4]
    w.file.view a = none ∧ (World.evs {} [.start 0 0, .start 1 0, .run 0 a true x 1, .quit 0 2]).file.view a ≠ none := by
  constructor <;>
  simp [World.evs, World.ev, World.set, World.save, World.saveIfDue, Shell.record, File.view, due, hab]

/-- **C111, negation (clearing).** `timing --clear` clears nothing: when the shell it was typed in is left,
everything this shell knew is in the file again. -/
theorem C111_clear_violated (w : World) (i : Nat) (s : Shell) (t t' : Nat) (n : Str) (st : Stats)
    (hs : w.shells i = some s) (hn : n ≠ c!"timing") (hst : s.stats n = some st) :
    ((w.ev (.clear i t)).ev (.quit i t')).file.view n = some st := by
  simp only [World.ev, hs, World.saveIfDue]
  cases hb : ((s.record c!"timing" true 0).dirty && (due (s.record c!"timing" true 0).saved t ||
    decide (10 ≤ (s.record c!"timing" true 0).records)))
  · simp [World.save, World.set, Shell.record, File.view, hn, hst]
  · simp [World.save, World.set, Shell.record, File.view, hn, hst]

example : (World.evs {} [.start 0 0, .run 0 c!"make" false 7000 1, .clear 0 2, .quit 0 3]).file.view c!"make"
    = some ⟨1, 7000, 7000, 7000, 1⟩ := by decide +kernel

/-- **C111, negation (killed while writing).** After any sessions, a shell killed while it writes the file
leaves nothing: the next shell starts with no statistics. -/
theorem C111_writing_violated (w : World) (i : Nat) : (w.ev (.killWriting i)).file.view = fun _ => none := rfl

/-- **C111, negation (the name).** A line with an assignment before the command is counted under the
assignment. -/
theorem C111_name_violated : commandName c!"CC=gcc make -j4" = some c!"CC=gcc" := by decide +kernel

end Dsh.Timing
