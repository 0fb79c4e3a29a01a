import Verif.Util
/-!
The descriptors of the shell while built-ins write and read (C216): what built-ins write with
(dsh-types/src/lib.rs:193-205), `read` (dsh/src/proxy/builtin/var.rs:39-58), `eview` (dsh-builtin/src/eview.rs:23-61), and the
descriptors closed after a stage (dsh/src/process/job.rs:301-326).

A `File` made from a number closes it when it goes out of scope, unless it is forgotten.  Whether a write is taken by the system
is given with the event; a write is taken as a whole or not at all.  What stands in variables is C148, which descriptor a stage
gets is C44.
-/
namespace Dsh.Streams

abbrev Str := List Char

/-- Something open: the terminal, a file, a pipe. -/
abbrev Obj := Str

/-- The table of descriptors; the number is the place. -/
abbrev Table := List (Option Obj)

/-- What a number stands for. -/
def Table.obj (t : Table) (f : Nat) : Option Obj := (t[f]?).join

/-- `open(2)`: the lowest free number. -/
def openObj (o : Obj) : Table → Table × Nat
  | [] => ([some o], 0)
  | none :: t => (some o :: t, 0)
  | some p :: t => (some p :: (openObj o t).1, (openObj o t).2 + 1)

/-- `close(2)`. -/
def close (t : Table) (f : Nat) : Table := t.set f none

/-- The table and what was written where, in order. -/
structure St where
  table : Table
  written : List (Obj × Str)
deriving DecidableEq

/-- `write_stdout` and the same for errors (lib.rs:193-205): the text and an end of line; if the write fails, `?` leaves the function before
`forget`, and the file is closed. -/
def write (s : St) (f : Nat) (msg : Str) (taken : Bool) : St :=
  match s.table.obj f with
  | some o => if taken then { s with written := s.written ++ [(o, msg ++ ['\n'])] } else { s with table := close s.table f }
  | none => s

/-- `execute_read` (var.rs:41-45): the file is never forgotten.  The object read from. -/
def read (s : St) (f : Nat) : St × Option Obj := ({ s with table := close s.table f }, s.table.obj f)

/-- `pipe_to_editor` (eview.rs:23-61): what the editor gives back goes to the output, both descriptors stay. -/
def eview (s : St) (out : Nat) (edited : Str) (taken : Bool) : St :=
  match s.table.obj out with
  | some o =>
    if taken then { s with written := s.written ++ [(o, if edited.getLast? = some '\n' then edited else edited ++ ['\n'])] } else s
  | none => s

/-- The input of a stage is closed by the job if it is not the one of the job itself nor one the job opened or the
pseudo terminal, here `input` (job.rs:302-312). -/
def afterStage (s : St) (stdin jobStdin : Nat) (input : Option Nat) : St :=
  if stdin ≠ jobStdin ∧ input ≠ some stdin then { s with table := close s.table stdin } else s

/-- Built-ins that write, one after the other: number, text, taken. -/
def writes (s : St) (l : List (Nat × Str × Bool)) : St := l.foldl (fun s w => write s w.1 w.2.1 w.2.2) s

/-! ### Lemmas -/

theorem obj_close (t : Table) (f g : Nat) : (close t f).obj g = if f = g then none else t.obj g := by
  unfold close Table.obj
  rw [List.getElem?_set]
  split
  · subst_vars; split <;> simp
  · rfl

theorem open_low (o : Obj) : ∀ (t : Table) (f : Nat), t.obj f = none → (∀ g < f, (t.obj g).isSome) → (openObj o t).2 = f
  | [], f, _, hl => by
    cases f with
    | zero => rfl
    | succ f => have := hl 0 (by omega); simp [Table.obj] at this
  | none :: t, f, _, hl => by
    cases f with
    | zero => rfl
    | succ f => have := hl 0 (by omega); simp [Table.obj] at this
  | some p :: t, f, h, hl => by
    cases f with
    | zero => simp [Table.obj] at h
    | succ f =>
      have := open_low o t f (by simpa [Table.obj] using h) fun g hg => by
        have := hl (g + 1) (by omega)
        simpa [Table.obj] using this
      simp [openObj, this]

theorem obj_open (o : Obj) : ∀ (t : Table) (g : Nat), (openObj o t).1.obj g = if g = (openObj o t).2 then some o else t.obj g
  | [], g => by cases g <;> simp [openObj, Table.obj]
  | none :: t, g => by cases g <;> simp [openObj, Table.obj]
  | some p :: t, g => by
    cases g with
    | zero => simp [openObj, Table.obj]
    | succ g =>
      have := obj_open o t g
      simp only [Table.obj] at this
      simp [openObj, Table.obj, this]

/-! ### C216 -/

/-- **C216, what is written.** As long as the system takes what built-ins write, every text arrives once, in order, with an end of
line, where the number stood for at the beginning, and no descriptor changes. -/
theorem C216_written_partial (s : St) (l : List (Nat × Str × Bool)) (h : ∀ w ∈ l, w.2.2 = true) :
    writes s l = { s with written := s.written ++ l.filterMap fun w => (s.table.obj w.1).map fun o => (o, w.2.1 ++ ['\n']) } := by
  induction l generalizing s with
  | nil => simp [writes]
  | cons w l ih =>
    have hw := h w (by simp)
    have hl : ∀ x ∈ l, x.2.2 = true := fun x hx => h x (List.mem_cons_of_mem _ hx)
    show writes (write s w.1 w.2.1 w.2.2) l = _
    rw [ih _ hl, List.filterMap_cons]
    cases ho : s.table.obj w.1 with
    | none => simp [write, ho]
    | some o => simp [write, ho, hw]

/-- **C216, eview.** Whether or not the system takes the text, the descriptors stay; what arrives is the text, ending with one end of
line added only if there is none. -/
theorem C216_eview_partial (s : St) (out : Nat) (edited : Str) (taken : Bool) :
    (eview s out edited taken).table = s.table ∧ ∀ o, s.table.obj out = some o → taken = true →
      ∃ x, (eview s out edited taken).written = s.written ++ [(o, x)] ∧ x.getLast? = some '\n' ∧
        (x = edited ∨ (x = edited ++ ['\n'] ∧ edited.getLast? ≠ some '\n')) := by
  refine ⟨?_, ?_⟩
  · unfold eview
    split
    · split <;> rfl
    · rfl
  · intro o ho ht
    refine ⟨if edited.getLast? = some '\n' then edited else edited ++ ['\n'], by simp [eview, ho, ht], ?_, ?_⟩
    · split
      · assumption
      · simp
    · split
      · exact .inl rfl
      · exact .inr ⟨rfl, by assumption⟩

/-- **C216, the end of a pipeline.** A `read` behind a pipe, and the job after it, close the end of the pipe and nothing else, if
nothing is opened meanwhile. -/
theorem C216_pipe_partial (s : St) (f jobStdin : Nat) (g : Nat) :
    (afterStage (read s f).1 f jobStdin none).table.obj g = if f = g then none else s.table.obj g := by
  unfold afterStage read
  split
  · simp only [obj_close]; split <;> rfl
  · simp only [obj_close]

/-- **C216 fails: a refused write.** When the system does not take what a built-in writes to a descriptor (a full disk, a terminal
gone), the descriptor of the shell is closed; the next file the shell opens gets its number, and what built-ins write from then on goes
into that file. -/
theorem C216_refused_violated (s : St) (f : Nat) (o : Obj) (msg later : Str) (file : Obj) (hf : s.table.obj f = some o)
    (hl : ∀ g < f, (s.table.obj g).isSome) :
    let s₁ := write s f msg false
    let t₂ := (openObj file s₁.table)
    s₁.table.obj f = none ∧ t₂.2 = f ∧
      (write { s₁ with table := t₂.1 } f later true).written = s.written ++ [(file, later ++ ['\n'])] := by
  have h1 : write s f msg false = { s with table := close s.table f } := by simp [write, hf]
  simp only [h1]
  have hc : (close s.table f).obj f = none := by simp [obj_close]
  have hl' : ∀ g < f, ((close s.table f).obj g).isSome := by
    intro g hg
    rw [obj_close, if_neg (by omega)]
    exact hl g hg
  have ho := open_low file _ f hc hl'
  refine ⟨hc, ho, ?_⟩
  have : (openObj file (close s.table f)).1.obj f = some file := by rw [obj_open, ho]; simp
  simp [write, this]

/-- **C216 fails: silence.** After a refused write, nothing a built-in writes to that descriptor arrives, even if the disk has room
again. -/
theorem C216_silent_violated (s : St) (f : Nat) (o : Obj) (msg : Str) (l : List (Nat × Str × Bool)) (hf : s.table.obj f = some o)
    (hl : ∀ w ∈ l, w.1 = f) : writes (write s f msg false) l = write s f msg false := by
  have h1 : (write s f msg false).table.obj f = none := by simp [write, hf, obj_close]
  generalize write s f msg false = s' at h1
  induction l with
  | nil => rfl
  | cons w l ih =>
    have hw : write s' w.1 w.2.1 w.2.2 = s' := by rw [hl w (by simp)]; simp [write, h1]
    show writes (write s' w.1 w.2.1 w.2.2) l = s'
    rw [hw]
    exact ih fun x hx => hl x (List.mem_cons_of_mem _ hx)

/-- **C216 fails: `read` closes its input.** Also the input of the shell itself, where the job has no pseudo
terminal (scripts, `-c`): a second `read` has none, and the next file opened
becomes the input of the shell. -/
theorem C216_read_violated (s : St) (f : Nat) (file : Obj) (hl : ∀ g < f, (s.table.obj g).isSome) :
    (read (read s f).1 f).2 = none ∧ (openObj file (read s f).1.table).2 = f ∧
      (read { (read s f).1 with table := (openObj file (read s f).1.table).1 } f).2 = some file := by
  have hc : (close s.table f).obj f = none := by simp [obj_close]
  have hl' : ∀ g < f, ((close s.table f).obj g).isSome := by
    intro g hg
    rw [obj_close, if_neg (by omega)]
    exact hl g hg
  have ho := open_low file _ f hc hl'
  refine ⟨hc, ho, ?_⟩
  show (openObj file (close s.table f)).1.obj f = some file
  rw [obj_open, ho]
  simp

/-- **C216 fails: closed twice.** `read` behind a pipe closes its end and the job closes it again: a file another thread has opened
meanwhile is closed under its hands. -/
theorem C216_twice_violated (s : St) (f jobStdin : Nat) (file : Obj) (hj : f ≠ jobStdin) (hl : ∀ g < f, (s.table.obj g).isSome) :
    let t := openObj file (read s f).1.table
    t.1.obj t.2 = some file ∧ (afterStage { (read s f).1 with table := t.1 } f jobStdin none).table.obj t.2 = none := by
  have ho := (C216_read_violated s f file hl).2.1
  refine ⟨?_, ?_⟩
  · simp [obj_open]
  · simp only [afterStage, ho]
    rw [if_pos ⟨hj, by simp⟩]
    simp [obj_close]

/-! ### Examples -/

def shell : St := ⟨[some c!"tty", some c!"tty", some c!"tty", some c!"db"], []⟩

theorem refused_run : (write shell 1 c!"hi" false).table = [some c!"tty", none, some c!"tty", some c!"db"] ∧
    openObj c!"notes" (write shell 1 c!"hi" false).table = ([some c!"tty", some c!"notes", some c!"tty", some c!"db"], 1) := by
  decide +kernel

theorem written_run : (writes shell [(1, c!"a", true), (2, c!"b", true)]).written = [(c!"tty", c!"a\n"), (c!"tty", c!"b\n")] := by
  decide +kernel

theorem shell_low : ∀ g < 1, (shell.table.obj g).isSome := by decide +kernel

end Dsh.Streams
