import Verif.Util
/-!
The directory history while it is loaded and written (C214): the thread of the start (dsh/src/lib.rs:176-191), the writer
thread (dsh/src/history/frecency_history.rs:118-141), what is sent to it (frecency_history.rs:291-302, 327-345), the
visit of a directory (dsh/src/proxy/mod.rs:65-83), the end of a session (dsh/src/repl/mod.rs:146, 481-510).

A store is here the number of visits of each directory it knows; scores, times and the order are `Verif/Dirs/Frecency.lean`
(C24, C75 to C78).  Excluded directories are left out.  The rows the start can read are any (C75 tells which).
-/
namespace Dsh.DirStart

abbrev Str := List Char
/-- The directories known and the count of each. -/
abbrev Counts := Str → Option Nat

/-- `FrecencyMsg` (frecency_history.rs:20-23). -/
inductive Msg
  | save (c : Counts)
  | log (d : Str)

/-- Where the loading thread is (lib.rs:182-191). -/
inductive Thread
  | start
  | fetched (c : Counts)
  | done

/-- The shell and the database: the store of the session and whether it has changed, whether it has a database and a writer
(`FrecencyHistory::new` has none: frecency_history.rs:57-69), the messages not yet taken, the tables `directory_snapshot` and
`directory_visits`, the loading thread. -/
structure St where
  mem : Counts
  changed : Bool
  linked : Bool
  queue : List Msg
  db : Counts
  visits : List Str
  thread : Thread

inductive Ev
  /-- a directory is entered -/
  | visit (d : Str)
  /-- the writer takes a message; whether the database lets it write -/
  | writer (ok : Bool)
  /-- the start reads the table; which rows can be read -/
  | fetch (readable : Str → Bool)
  /-- the start cannot open the database -/
  | fail
  /-- the store read takes the place of the other (lib.rs:186) -/
  | swap
  /-- the table is looked at again (every 30 seconds) -/
  | reload
  /-- another session saves its store -/
  | other (c : Counts)

/-- `INSERT OR REPLACE` for every directory of a store (frecency_history.rs:143-168). -/
def replace (db c : Counts) : Counts := fun d => (c d).or (db d)

/-- `FrecencyStore::add` (dsh-frecency/src/store.rs:67-76). -/
def add (c : Counts) (d : Str) : Counts := fun x => if x = d then some ((c d).getD 0 + 1) else c x

/-- `save_background` (frecency_history.rs:291-302); without a database `save` does nothing (frecency_history.rs:203-206). -/
def saveBackground (s : St) : St :=
  if s.changed && s.linked then { s with queue := s.queue ++ [.save s.mem], changed := false } else s

/-- What happens: `save_path_history` (proxy/mod.rs:79-83) with `add` (frecency_history.rs:327-345), the writer
(frecency_history.rs:124-139; errors are dropped), `from_file` (frecency_history.rs:72-115: counts begin again), `reload`
(frecency_history.rs:240-288). -/
def step (s : St) : Ev → St
  | .visit d =>
    saveBackground { s with mem := add s.mem d, changed := true, queue := if s.linked then s.queue ++ [.log d] else s.queue }
  | .writer ok =>
    match s.queue with
    | [] => s
    | .save c :: q => { s with db := if ok then replace s.db c else s.db, queue := q }
    | .log d :: q => { s with visits := if ok then s.visits ++ [d] else s.visits, queue := q }
  | .fetch r =>
    match s.thread with
    | .start => { s with thread := .fetched fun d => if r d && (s.db d).isSome then some 0 else none }
    | _ => s
  | .fail =>
    match s.thread with
    | .start => { s with thread := .done }
    | _ => s
  | .swap =>
    match s.thread with
    | .fetched c => { s with mem := c, changed := false, linked := true, thread := .done }
    | _ => s
  | .reload => if s.linked then { s with mem := fun d => (s.mem d).or ((s.db d).map fun _ => 0) } else s
  | .other c => { s with db := replace s.db c }

/-- A session from a state on. -/
def run (s : St) (l : List Ev) : St := l.foldl step s

/-- A shell that starts with a database (lib.rs:177-180). -/
def begin (db : Counts) (visits : List Str) : St :=
  ⟨fun _ => none, false, false, [], db, visits, .start⟩

/-- The end of the session: what is not saved is saved at once (repl/mod.rs:481-510); the writer thread is not waited for, what
it has not taken is lost. -/
def finish (s : St) : St :=
  if s.changed && s.linked then { s with db := replace s.db s.mem, changed := false, queue := [] } else { s with queue := [] }

/-! ### Spec -/

/-- What the writer, if it can write, makes of the database. -/
def written (s : St) : Counts := (s.queue.foldl (fun db m => match m with | .save c => replace db c | .log _ => db) s.db)

/-- The visits the writer will have logged. -/
def logged (s : St) : List Str := s.visits ++ s.queue.filterMap fun m => match m with | .log d => some d | .save _ => none

/-- Events of this shell in which nothing goes wrong. -/
def Ev.Good : Ev → Prop
  | .visit _ | .writer true | .reload => True
  | _ => False

/-- The directories entered. -/
def visited (l : List Ev) : List Str := l.filterMap fun e => match e with | .visit d => some d | _ => none

/-! ### Lemmas -/

theorem run_cons (s : St) (e : Ev) (l : List Ev) : run s (e :: l) = run (step s e) l := rfl

theorem run_append (s : St) (l m : List Ev) : run s (l ++ m) = run (run s l) m := List.foldl_append ..

/-- The invariant of a shell whose history is loaded. -/
structure Inv (s : St) : Prop where
  linked : s.linked = true
  clean : s.changed = false
  kept : ∀ d, (s.mem d).isSome → (written s d).isSome
  less : ∀ c, Msg.save c ∈ s.queue → ∀ d, (c d).isSome → (s.mem d).isSome

theorem written_snoc (s : St) (q : List Msg) (m : Msg) (h : s.queue = q ++ [m]) :
    written s = match m with
      | .save c => replace (written { s with queue := q }) c
      | .log _ => written { s with queue := q } := by
  simp only [written, h, List.foldl_append, List.foldl_cons, List.foldl_nil]
  cases m <;> rfl

theorem step_visit {s : St} (hl : s.linked = true) (d : Str) : step s (.visit d) =
    { s with mem := add s.mem d, changed := false, queue := s.queue ++ [.log d] ++ [.save (add s.mem d)] } := by
  simp [step, saveBackground, hl]

theorem written_visit {s : St} (hl : s.linked = true) (d x : Str) :
    written (step s (.visit d)) x = (add s.mem d x).or (written s x) := by
  rw [step_visit hl]
  simp only [written, List.foldl_append, List.foldl_cons, List.foldl_nil, replace]

theorem written_writer (s : St) : written (step s (.writer true)) = written s := by
  unfold step written
  cases hq : s.queue with
  | nil => simp [hq]
  | cons m q => cases m <;> rfl

theorem replace_isSome {db c : Counts} {d : Str} : (replace db c d).isSome = true ↔ (c d).isSome = true ∨ (db d).isSome = true := by
  simp [replace, Option.isSome_or]

theorem db_written (s : St) (d : Str) (h : (s.db d).isSome) : (written s d).isSome := by
  unfold written
  generalize s.db = db at h
  induction s.queue generalizing db with
  | nil => exact h
  | cons m q ih =>
    apply ih
    cases m with
    | save c => exact replace_isSome.2 (.inr h)
    | log _ => exact h

theorem Inv.step {s : St} (h : Inv s) {e : Ev} (he : e.Good) : Inv (step s e) := by
  cases e with
  | visit d =>
    have hs := step_visit h.linked d
    refine ⟨by rw [hs]; exact h.linked, by rw [hs], ?_, ?_⟩
    · intro x hx
      rw [hs] at hx
      rw [written_visit h.linked]
      simp only at hx
      simp [Option.isSome_or, hx]
    · intro c hc x hx
      rw [hs] at hc ⊢
      simp only [List.append_assoc, List.mem_append, List.mem_cons, List.not_mem_nil, or_false, reduceCtorEq, false_or,
        List.cons_append, List.nil_append, Msg.save.injEq] at hc
      show (add s.mem d x).isSome
      rcases hc with hc | rfl
      · unfold add
        split
        · rfl
        · exact h.less c hc x hx
      · exact hx
  | writer ok =>
    cases ok with
    | false => exact he.elim
    | true =>
      have hw := written_writer s
      have hm : (DirStart.step s (.writer true)).mem = s.mem ∧ (DirStart.step s (.writer true)).linked = s.linked ∧
          (DirStart.step s (.writer true)).changed = s.changed ∧ ∀ m ∈ (DirStart.step s (.writer true)).queue, m ∈ s.queue := by
        simp only [DirStart.step]
        cases hq : s.queue with
        | nil => simp [hq]
        | cons m q => cases m <;> simp +contextual
      refine ⟨hm.2.1.trans h.linked, hm.2.2.1.trans h.clean, ?_, ?_⟩
      · rw [hw, hm.1]; exact h.kept
      · intro c hc; rw [hm.1]; exact h.less c (hm.2.2.2 _ hc)
  | reload =>
    have hs : DirStart.step s .reload = { s with mem := fun d => (s.mem d).or ((s.db d).map fun _ => 0) } := by
      simp [DirStart.step, h.linked]
    refine ⟨by rw [hs]; exact h.linked, by rw [hs]; exact h.clean, ?_, ?_⟩
    · intro d hd
      rw [hs] at hd ⊢
      show (written s d).isSome
      simp only [Option.isSome_or, Option.isSome_map, Bool.or_eq_true] at hd
      rcases hd with hd | hd
      · exact h.kept d hd
      · exact db_written s d hd
    · intro c hc d hd
      rw [hs] at hc ⊢
      simp only [Option.isSome_or, Bool.or_eq_true]
      exact .inl (h.less c hc d hd)
  | _ => exact he.elim

theorem Inv.run {s : St} (h : Inv s) : ∀ {l : List Ev}, (∀ e ∈ l, e.Good) → Inv (run s l)
  | [], _ => h
  | e :: l, hl => Inv.run (h.step (hl e (by simp))) fun x hx => hl x (List.mem_cons_of_mem _ hx)

/-- In a shell whose history has just been loaded, without other visits. -/
theorem inv_loaded (db : Counts) (vs : List Str) (r : Str → Bool) : Inv (run (begin db vs) [.fetch r, .swap]) := by
  refine ⟨rfl, rfl, ?_, ?_⟩
  · intro d hd
    show (db d).isSome
    have hd : (if r d && (db d).isSome then some 0 else none : Option Nat).isSome = true := hd
    split at hd
    · rename_i h; simp at h; simp [h.2]
    · cases hd
  · intro c hc; cases hc

theorem mem_visit (c : Counts) (d x : Str) : (add c d x).isSome = true ↔ x = d ∨ (c x).isSome = true := by
  unfold add
  split <;> simp_all

/-! ### C214 -/

/-- **C214, kept.** Once the history is loaded, every directory entered is known to the session, and it is in the table when the
writer has done its work, whatever else is done in this shell and whenever the writer works. -/
theorem C214_kept_partial (s : St) (l : List Ev) (d : Str) (h : Inv s) (hl : ∀ e ∈ l, e.Good) (hd : d ∈ visited l) :
    ((run s l).mem d).isSome ∧ (written (run s l) d).isSome := by
  have hm : ((run s l).mem d).isSome := by
    clear h
    have keep : ∀ (l : List Ev) (s : St), (∀ e ∈ l, e.Good) → (s.mem d).isSome → ((run s l).mem d).isSome := by
      intro l
      induction l with
      | nil => intro s _ h; exact h
      | cons e l ih =>
        intro s hl h
        refine ih _ (fun x hx => hl x (List.mem_cons_of_mem _ hx)) ?_
        cases e with
        | visit x =>
          have : (step s (.visit x)).mem = add s.mem x := by simp only [step, saveBackground]; split <;> rfl
          rw [this]
          exact (mem_visit _ _ _).2 (.inr h)
        | writer ok =>
          have : (step s (.writer ok)).mem = s.mem := by simp only [step]; split <;> rfl
          rw [this]; exact h
        | reload =>
          simp only [step]
          split
          · simp [Option.isSome_or, h]
          · exact h
        | _ => exact (hl _ (List.mem_cons_self ..)).elim
    induction l generalizing s with
    | nil => cases hd
    | cons e l ih =>
      by_cases he : e = .visit d
      · subst he
        refine keep l _ (fun x hx => hl x (List.mem_cons_of_mem _ hx)) ?_
        have : (step s (.visit d)).mem = add s.mem d := by simp only [step, saveBackground]; split <;> rfl
        rw [this]
        exact (mem_visit _ _ _).2 (.inl rfl)
      · refine ih _ (fun x hx => hl x (List.mem_cons_of_mem _ hx)) ?_
        unfold visited at hd ⊢
        rw [List.filterMap_cons] at hd
        split at hd
        · exact hd
        · rename_i x hx
          rcases List.mem_cons.1 hd with rfl | hd
          · cases e <;> simp at hx
            subst hx
            exact absurd rfl he
          · exact hd
  exact ⟨hm, (h.run hl).kept d hm⟩

theorem mem_count {s : St} (h : Inv s) (d : Str) {e : Ev} (he : e.Good) :
    ((step s e).mem d).getD 0 = (s.mem d).getD 0 + (visited [e]).count d := by
  cases e with
  | visit x =>
    rw [step_visit h.linked]
    by_cases hx : d = x
    · subst hx; simp [add, visited]
    · have : x ≠ d := fun h => hx h.symm
      simp [add, visited, hx, this]
  | writer ok =>
    have : (step s (.writer ok)).mem = s.mem := by simp only [step]; split <;> rfl
    rw [this]; simp [visited]
  | reload =>
    simp only [step, h.linked, if_true, visited]
    cases s.mem d <;> cases s.db d <;> simp
  | _ => exact he.elim

theorem visited_cons (e : Ev) (l : List Ev) : visited (e :: l) = visited [e] ++ visited l := by
  cases e <;> simp [visited]

/-- Once the table will have the count of the session, it stays so. -/
theorem written_mem {s : St} (h : Inv s) {d : Str} {n : Nat} (hm : s.mem d = some n) (hw : written s d = some n) :
    ∀ {l : List Ev}, (∀ e ∈ l, e.Good) → written (run s l) d = some (n + (visited l).count d)
  | [], _ => by simpa [run, visited] using hw
  | e :: l, hl => by
    have he := hl e (by simp)
    have hc := mem_count h d he
    rw [run_cons, visited_cons, List.count_append, ← Nat.add_assoc]
    have hm' : (step s e).mem d = some (n + (visited [e]).count d) ∧ written (step s e) d = some (n + (visited [e]).count d) := by
      cases e with
      | visit x =>
        have : (step s (.visit x)).mem d = some (n + (visited [.visit x]).count d) := by
          have hs : ((step s (.visit x)).mem d).isSome := by rw [step_visit h.linked]; exact (mem_visit _ _ _).2 (.inr (by simp [hm]))
          rw [hm] at hc
          cases hx : (step s (.visit x)).mem d with
          | none => rw [hx] at hs; cases hs
          | some k => rw [hx] at hc; simpa using hc
        refine ⟨this, ?_⟩
        rw [step_visit h.linked] at this
        rw [written_visit h.linked]
        rw [show add s.mem x d = _ from this]; rfl
      | writer ok =>
        cases ok with
        | false => exact he.elim
        | true =>
          have : (step s (.writer true)).mem = s.mem := by simp only [step]; split <;> rfl
          rw [this, written_writer, hm, hw]; simp [visited]
      | reload =>
        have : written (step s .reload) = written s := by simp [step, h.linked, written]
        rw [this, hw]; simp [step, h.linked, hm, visited]
      | _ => exact he.elim
    exact written_mem (h.step he) hm'.1 hm'.2 fun x hx => hl x (List.mem_cons_of_mem _ hx)

/-- **C214, counted.** When the writer has done its work, the table has for every directory entered the count the session began
with and every visit since. -/
theorem C214_counted_partial (s : St) (l : List Ev) (d : Str) (h : Inv s) (hl : ∀ e ∈ l, e.Good) (hd : d ∈ visited l) :
    written (run s l) d = some ((s.mem d).getD 0 + (visited l).count d) := by
  induction l generalizing s with
  | nil => cases hd
  | cons e l ih =>
    have he := hl e (by simp)
    have hl' : ∀ x ∈ l, x.Good := fun x hx => hl x (List.mem_cons_of_mem _ hx)
    by_cases hv : e = .visit d
    · subst hv
      have hm : (step s (.visit d)).mem d = some ((s.mem d).getD 0 + 1) := by rw [step_visit h.linked]; simp [add]
      have hw : written (step s (.visit d)) d = some ((s.mem d).getD 0 + 1) := by
        rw [written_visit h.linked]; simp [add]
      rw [run_cons, written_mem (h.step he) hm hw hl', visited_cons]
      simp [visited, Nat.add_assoc, Nat.add_comm 1]
    · have hn : (visited [e]).count d = 0 ∧ d ∈ visited l := by
        rw [visited_cons] at hd
        cases e with
        | visit x =>
          have hx : x ≠ d := by rintro rfl; exact hv rfl
          refine ⟨by simp [visited, hx], ?_⟩
          rcases List.mem_append.1 hd with hd | hd
          · simp [visited] at hd; exact absurd hd.symm hx
          · exact hd
        | _ => exact ⟨by simp [visited], by simpa [visited] using hd⟩
      rw [run_cons, ih _ (h.step he) hl' hn.2, mem_count h d he, visited_cons e l, List.count_append, hn.1]
      simp

/-- **C214, the log.** Once the history is loaded, the table of visits gets every visit, once and in order. -/
theorem C214_log_partial (s : St) (l : List Ev) (h : Inv s) (hl : ∀ e ∈ l, e.Good) :
    logged (run s l) = logged s ++ visited l := by
  induction l generalizing s with
  | nil => simp [run, visited]
  | cons e l ih =>
    have he := hl e (by simp)
    rw [run_cons, ih _ (h.step he) fun x hx => hl x (List.mem_cons_of_mem _ hx)]
    cases e with
    | visit d => rw [step_visit h.linked]; simp [logged, visited]
    | writer ok =>
      have : logged (step s (.writer ok)) = logged s := by
        cases ok with
        | false => exact he.elim
        | true =>
          simp only [step, logged]
          cases hq : s.queue with
          | nil => simp [hq]
          | cons m q => cases m <;> simp
      rw [this]; simp [visited]
    | reload =>
      have : logged (step s .reload) = logged s := by simp [step, h.linked, logged]
      rw [this]; simp [visited]
    | _ => exact he.elim

/-- Not in the store, the messages, the table, what is loaded. -/
structure Never (d : Str) (s : St) : Prop where
  mem : s.mem d = none
  queue : ∀ c, Msg.save c ∈ s.queue → c d = none
  db : s.db d = none
  thread : ∀ c, s.thread = .fetched c → c d = none

theorem Never.step {d : Str} {s : St} (h : Never d s) {e : Ev} (hv : e ≠ .visit d) (ho : ∀ c, e = .other c → c d = none) :
    Never d (step s e) := by
  obtain ⟨h1, h2, h3, h4⟩ := h
  cases e with
  | visit x =>
    have hx : d ≠ x := by rintro rfl; exact hv rfl
    have ha : add s.mem x d = none := by simp [add, hx, h1]
    simp only [DirStart.step, saveBackground]
    cases hl : s.linked
    · simpa using ⟨ha, h2, h3, h4⟩
    · refine ⟨ha, ?_, h3, h4⟩
      intro c hc
      simp only [Bool.true_and, if_true, List.append_assoc, List.mem_append, List.mem_cons, List.not_mem_nil, or_false,
        reduceCtorEq, false_or, List.cons_append, List.nil_append, Msg.save.injEq] at hc
      rcases hc with hc | rfl
      · exact h2 c hc
      · exact ha
  | writer ok =>
    simp only [DirStart.step]
    split
    · exact ⟨h1, h2, h3, h4⟩
    · rename_i c q hq
      refine ⟨h1, fun c' hc' => h2 c' (by rw [hq]; exact List.mem_cons_of_mem _ hc'), ?_, h4⟩
      have := h2 c (by rw [hq]; exact List.mem_cons_self ..)
      cases ok <;> simp [replace, this, h3]
    · rename_i x q hq
      exact ⟨h1, fun c' hc' => h2 c' (by rw [hq]; exact List.mem_cons_of_mem _ hc'), h3, h4⟩
  | fetch r =>
    simp only [DirStart.step]
    split
    · exact ⟨h1, h2, h3, fun c hc => by cases hc; simp [h3]⟩
    · exact ⟨h1, h2, h3, h4⟩
  | fail =>
    simp only [DirStart.step]
    split
    · exact ⟨h1, h2, h3, fun c hc => by cases hc⟩
    · exact ⟨h1, h2, h3, h4⟩
  | swap =>
    simp only [DirStart.step]
    split
    · rename_i c hc
      exact ⟨h4 c hc, h2, h3, fun c hc => by cases hc⟩
    · exact ⟨h1, h2, h3, h4⟩
  | reload =>
    simp only [DirStart.step]
    split
    · exact ⟨by simp [h1, h3], h2, h3, h4⟩
    · exact ⟨h1, h2, h3, h4⟩
  | other c => exact ⟨h1, h2, by simp [DirStart.step, replace, ho c rfl, h3], h4⟩

/-- **C214 fails: the first moments.** A directory entered before the history has been loaded, any number of times, is unknown
to `z`, to the suggestions and to the table afterwards, until it is entered again. -/
theorem C214_first_violated (db : Counts) (vs ds : List Str) (r : Str → Bool) (l : List Ev) (d : Str) (hd : db d = none)
    (hl : ∀ e ∈ l, e ≠ .visit d ∧ ∀ c, e = .other c → c d = none) :
    let s := run (begin db vs) (.fetch r :: ds.map .visit ++ .swap :: l)
    s.mem d = none ∧ (finish s).db d = none ∧ (∀ x ∈ ds, r x = false ∨ db x = none → (run (begin db vs)
      (.fetch r :: ds.map .visit ++ [.swap])).mem x = none) := by
  have early : ∀ (ds : List Str) (s : St), s.linked = false → ∃ m b, run s (ds.map .visit) = { s with mem := m, changed := b } := by
    intro ds
    induction ds with
    | nil => intro s _; exact ⟨s.mem, s.changed, rfl⟩
    | cons x ds ih =>
      intro s hs
      have : step s (.visit x) = { s with mem := add s.mem x, changed := true } := by simp [step, saveBackground, hs]
      rw [List.map_cons, run_cons, this]
      obtain ⟨m, b, h⟩ := ih { s with mem := add s.mem x, changed := true } hs
      exact ⟨m, b, h⟩
  obtain ⟨m, b, he⟩ := early ds (step (begin db vs) (.fetch r)) rfl
  have hsw : run (begin db vs) (.fetch r :: ds.map .visit ++ [.swap]) =
      ⟨fun d => if r d && (db d).isSome then some 0 else none, false, true, [], db, vs, .done⟩ := by
    rw [List.cons_append, run_cons, run_append, he]
    rfl
  have hn : Never d (run (begin db vs) (.fetch r :: ds.map .visit ++ [.swap])) := by
    rw [hsw]
    refine ⟨by simp [hd], ?_, hd, ?_⟩
    · intro c hc; cases hc
    · intro c hc; cases hc
  have hall : ∀ (l : List Ev) (s : St), Never d s → (∀ e ∈ l, e ≠ .visit d ∧ ∀ c, e = .other c → c d = none) → Never d (run s l) := by
    intro l
    induction l with
    | nil => intro s h _; exact h
    | cons e l ih =>
      intro s h hl
      obtain ⟨h1, h2⟩ := hl e (by simp)
      exact ih _ (h.step h1 h2) fun x hx => hl x (List.mem_cons_of_mem _ hx)
  have hs : Never d (run (begin db vs) (.fetch r :: ds.map .visit ++ .swap :: l)) := by
    have : (.fetch r :: ds.map .visit ++ .swap :: l : List Ev) = (.fetch r :: ds.map .visit ++ [.swap]) ++ l := by simp
    rw [this, run_append]
    exact hall l _ hn hl
  refine ⟨hs.mem, ?_, ?_⟩
  · simp only [finish]
    split
    · show ((run _ _).mem d).or ((run _ _).db d) = none
      rw [hs.mem, hs.db]; rfl
    · exact hs.db
  · intro x _ hx
    rw [hsw]
    rcases hx with hx | hx <;> simp [hx]

/-- **C214 fails: no database.** If the database could not be opened at the start, nothing of the session is ever written. -/
theorem C214_failed_violated (db : Counts) (vs : List Str) (l : List Ev) (hl : ∀ e ∈ l, ∀ c, e ≠ .other c) :
    (finish (run (begin db vs) (.fail :: l))).db = db ∧ (run (begin db vs) (.fail :: l)).visits = vs := by
  have key : ∀ (l : List Ev) (s : St), s.linked = false → s.queue = [] → s.thread = .done → (∀ e ∈ l, ∀ c, e ≠ .other c) →
      (run s l).db = s.db ∧ (run s l).visits = s.visits ∧ (run s l).linked = false := by
    intro l
    induction l with
    | nil => intro s h _ _ _; exact ⟨rfl, rfl, h⟩
    | cons e l ih =>
      intro s h1 h2 h3 hl
      have hl' : ∀ e ∈ l, ∀ c, e ≠ .other c := fun x hx => hl x (List.mem_cons_of_mem _ hx)
      rw [run_cons]
      cases e with
      | visit x =>
        have : step s (.visit x) = { s with mem := add s.mem x, changed := true } := by simp [step, saveBackground, h1]
        rw [this]
        exact ih _ h1 h2 h3 hl'
      | writer ok =>
        have : step s (.writer ok) = s := by simp [step, h2]
        rw [this]; exact ih _ h1 h2 h3 hl'
      | fetch r =>
        have : step s (.fetch r) = s := by simp [step, h3]
        rw [this]; exact ih _ h1 h2 h3 hl'
      | fail =>
        have : step s .fail = s := by simp [step, h3]
        rw [this]; exact ih _ h1 h2 h3 hl'
      | swap =>
        have : step s .swap = s := by simp [step, h3]
        rw [this]; exact ih _ h1 h2 h3 hl'
      | reload =>
        have : step s .reload = s := by simp [step, h1]
        rw [this]; exact ih _ h1 h2 h3 hl'
      | other c => exact absurd rfl (hl _ (List.mem_cons_self ..) c)
  obtain ⟨h1, h2, h3⟩ := key l (step (begin db vs) .fail) rfl rfl rfl hl
  refine ⟨?_, h2⟩
  rw [run_cons]
  simp only [finish, h3, Bool.and_false, Bool.false_eq_true, if_false]
  exact h1

/-- **C214 fails: refused writes.** When the database is busy while the writer works, the visit is lost although the shell goes
on and ends in order: it holds itself for saved. -/
theorem C214_refused_violated (s : St) (d : Str) (h : Inv s) (hq : s.queue = []) :
    (finish (run s [.visit d, .writer false, .writer false])).db = s.db ∧
      (run s [.visit d, .writer false, .writer false]).changed = false := by
  have : run s [.visit d, .writer false, .writer false] = { s with mem := add s.mem d, changed := false, queue := [] } := by
    rw [run_cons, step_visit h.linked, hq]
    rfl
  rw [this]
  exact ⟨rfl, rfl⟩

/-- **C214 fails: leaving at once.** A directory entered just before the end is not in the table: the writer is not waited for,
and the save at the end does nothing. -/
theorem C214_exit_violated (s : St) (d : Str) (h : Inv s) : (finish (step s (.visit d))).db = s.db ∧
    (finish (step s (.visit d))).visits = s.visits := by
  rw [step_visit h.linked]
  exact ⟨rfl, rfl⟩

/-- **C214 fails: two sessions.** All visits of a directory in this session are counted in the table, the other session saves, and
the table holds only the count of that one. -/
theorem C214_sessions_violated (s : St) (l : List Ev) (d : Str) (h : Inv s) (hl : ∀ e ∈ l, e.Good) (hd : d ∈ visited l)
    (hq : (run s l).queue = []) (c : Counts) (n : Nat) (hc : c d = some n) :
    (run s l).db d = some ((s.mem d).getD 0 + (visited l).count d) ∧ (run s (l ++ [.other c])).db d = some n := by
  refine ⟨?_, ?_⟩
  · rw [← C214_counted_partial s l d h hl hd]
    simp [written, hq]
  · rw [run_append]
    simp [run, step, replace, hc]

/-- **C214 fails: counts after a restart.** A directory loaded at the start and entered again has one visit in the table,
however many it had. -/
theorem C214_counts_violated (db : Counts) (vs : List Str) (r : Str → Bool) (d : Str) (n : Nat) (hn : db d = some n) (hr : r d = true) :
    (run (begin db vs) [.fetch r, .swap, .visit d, .writer true, .writer true]).db d = some 1 := by
  have h : run (begin db vs) [.fetch r, .swap, .visit d, .writer true, .writer true] =
      run (step (run (begin db vs) [.fetch r, .swap]) (.visit d)) [.writer true, .writer true] := rfl
  have hq : (run (begin db vs) [.fetch r, .swap]).queue = [] := rfl
  have hm : (run (begin db vs) [.fetch r, .swap]).mem d = some 0 := by
    show (if r d && (db d).isSome then some 0 else none) = some 0
    simp [hr, hn]
  rw [h, step_visit (inv_loaded db vs r).linked, hq]
  generalize run (begin db vs) [.fetch r, .swap] = s at hm
  simp [run, step, replace, add, hm]

/-! ### Examples -/

def demo : St := run (begin (fun d => if d = c!"/a" then some 7 else none) []) [.fetch fun _ => true, .swap]

theorem demo_inv : Inv demo := inv_loaded _ _ _

theorem kept_run : (run demo [.visit c!"/b", .writer true, .writer true]).db c!"/b" = some 1 ∧
    (run demo [.visit c!"/b", .writer true, .writer true]).visits = [c!"/b"] := by decide +kernel

theorem first_run : (run (begin (fun _ => none) []) [.fetch fun _ => true, .visit c!"/b", .swap]).mem c!"/b" = none ∧
    (run (begin (fun _ => none) []) [.visit c!"/b"]).mem c!"/b" = some 1 := by decide +kernel

end Dsh.DirStart
