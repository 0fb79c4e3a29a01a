import Verif.Util
/-!
Opening a database (C219): dsh/src/db.rs:12-165, used for the history of commands, of directories, snippets and bookmarks.

What SQLite does is modelled for the statements used here: tables with columns and rows in order, indexes by name.  A statement can be
refused because another session holds the lock (`busy`, by the number of the statement).  Of types, keys and defaults only the
default of a new column is kept.  The three `PRAGMA`s (db.rs:28-32) always succeed.
-/
namespace Dsh.DbOpen

abbrev Str := List Char

/-- A value in a table. -/
inductive Val where
  | null | int (n : Int) | text (s : Str)
deriving DecidableEq

/-- A table: its columns, and its rows by column. -/
structure Table where
  cols : List String
  rows : List (String → Val)

/-- A database file: permissions, tables, indexes. -/
structure File where
  mode : Nat
  tables : String → Option Table
  indexes : List String

/-- The statements of `init_schema`. -/
inductive Stmt where
  /-- `CREATE TABLE IF NOT EXISTS` -/
  | table (t : String) (cols : List String)
  /-- `ALTER TABLE t ADD COLUMN c DEFAULT d` -/
  | column (t c : String) (d : Val)
  /-- `CREATE INDEX IF NOT EXISTS n ON t(c)` -/
  | index (n t c : String)
  /-- `CREATE UNIQUE INDEX IF NOT EXISTS n ON t(c)` -/
  | unique (n t c : String)
deriving DecidableEq

def setTable (f : File) (t : String) (tb : Table) : File := { f with tables := fun x => if x = t then some tb else f.tables x }

/-- No value stands twice in the column. -/
def distinct (tb : Table) (c : String) : Bool := decide ((tb.rows.map (· c)).filter (· ≠ .null)).Nodup

/-- A statement; `none` is an error. -/
def exec (f : File) : Stmt → Option File
  | .table t cols => match f.tables t with
    | some _ => some f
    | none => some (setTable f t ⟨cols, []⟩)
  | .column t c d => match f.tables t with
    | none => none
    | some tb => if c ∈ tb.cols then none
      else some (setTable f t ⟨tb.cols ++ [c], tb.rows.map fun r x => if x = c then d else r x⟩)
  | .index n t c => if n ∈ f.indexes then some f else match f.tables t with
    | none => none
    | some tb => if c ∈ tb.cols then some { f with indexes := n :: f.indexes } else none
  | .unique n t c => if n ∈ f.indexes then some f else match f.tables t with
    | none => none
    | some tb => if c ∈ tb.cols && distinct tb c then some { f with indexes := n :: f.indexes } else none

/-- `init_schema` (db.rs:43-165); `true` where an error is ignored (`let _ =`). -/
def schema : List (Stmt × Bool) := [
  (.table "command_history" ["id", "command", "timestamp", "context", "exit_code", "duration_ms", "cwd", "session_id", "hostname",
    "count"], false),
  (.column "command_history" "count" (.int 1), true),
  (.column "command_history" "exit_code" .null, true),
  (.column "command_history" "duration_ms" .null, true),
  (.column "command_history" "cwd" .null, true),
  (.column "command_history" "session_id" .null, true),
  (.column "command_history" "hostname" .null, true),
  (.table "directory_visits" ["id", "path", "timestamp", "context"], false),
  (.table "directory_snapshot" ["path", "score", "last_accessed", "access_count", "half_life", "context"], false),
  (.index "idx_command_history_timestamp" "command_history" "timestamp", false),
  (.unique "idx_command_history_command" "command_history" "command", false),
  (.index "idx_directory_visits_timestamp" "directory_visits" "timestamp", false),
  (.table "snippets" ["id", "name", "command", "description", "tags", "created_at", "last_used", "use_count"], false),
  (.index "idx_snippets_name" "snippets" "name", false),
  (.table "bookmarks" ["id", "name", "command", "created_at", "use_count"], false),
  (.table "dir_aliases" ["name", "path"], false)]

/-- The statements one after the other, from number `i`; each is a transaction of its own. -/
def run (busy : Nat → Bool) : Nat → List (Stmt × Bool) → File → File × Bool
  | _, [], f => (f, true)
  | i, (s, ign) :: l, f =>
    match (if busy i then none else exec f s) with
    | some f' => run busy (i + 1) l f'
    | none => if ign then run busy (i + 1) l f else (f, false)

/-- The file SQLite makes: `SQLITE_DEFAULT_FILE_PERMISSIONS` (0644) without the bits of the mask. -/
def create (umask : Nat) : File := ⟨0o644 ^^^ (0o644 &&& umask), fun _ => none, []⟩

/-- What is left after opening: the file, the permissions it had one after the other, and whether it is open. -/
structure Res where
  file : File
  modes : List Nat
  ok : Bool

/-- `Db::new` (db.rs:12-41) by the owner of the file. -/
def openDb (busy : Nat → Bool) (umask : Nat) (f : Option File) : Res :=
  let f0 := f.getD (create umask)
  let r := run busy 0 schema { f0 with mode := 0o600 }
  ⟨r.1, [f0.mode, 0o600], r.2⟩

/-! ### Spec -/

/-- Nobody else has the database open. -/
def alone : Nat → Bool := fun _ => false

/-- Everything in the table is in the other one, row by row. -/
def Kept (a b : Table) : Prop :=
  a.rows.length = b.rows.length ∧ ∀ c ∈ a.cols, c ∈ b.cols ∧ b.rows.map (· c) = a.rows.map (· c)

/-- The columns an index needs. -/
def need : String → List String
  | "command_history" => ["command", "timestamp", "context"]
  | "directory_visits" => ["timestamp"]
  | "snippets" => ["name"]
  | _ => []

/-- A database an index can be made for: the columns are there, and no command stands twice. -/
def Fit (f : File) : Prop :=
  ∀ t tb, f.tables t = some tb → (∀ c ∈ need t, c ∈ tb.cols) ∧ (t = "command_history" → distinct tb "command" = true)

/-- What a statement is there for is there. -/
def Done (f : File) : Stmt → Prop
  | .table t _ => (f.tables t).isSome
  | .column t c _ => ∃ tb, f.tables t = some tb ∧ c ∈ tb.cols
  | .index n _ _ => n ∈ f.indexes
  | .unique n _ _ => n ∈ f.indexes

/-- What the shell needs of a database: the tables, the columns of the history, and the index `ON CONFLICT(command)` needs. -/
def Ready (f : File) : Prop :=
  (∀ t ∈ ["command_history", "directory_visits", "directory_snapshot", "snippets", "bookmarks", "dir_aliases"], (f.tables t).isSome) ∧
  (∃ tb, f.tables "command_history" = some tb ∧
    ∀ c ∈ ["command", "timestamp", "context", "count", "exit_code", "duration_ms", "cwd", "session_id", "hostname"], c ∈ tb.cols) ∧
  "idx_command_history_command" ∈ f.indexes

/-- A command stands twice in the history, which has no unique index yet. -/
def Twice (f : File) : Prop :=
  "idx_command_history_command" ∉ f.indexes ∧ ∃ tb, f.tables "command_history" = some tb ∧ "command" ∈ tb.cols ∧
    distinct tb "command" = false

/-! ### Lemmas -/

theorem kept_refl (a : Table) : Kept a a := ⟨rfl, fun _ h => ⟨h, rfl⟩⟩

theorem kept_trans {a b c : Table} (h : Kept a b) (h' : Kept b c) : Kept a c :=
  ⟨h.1.trans h'.1, fun x hx => ⟨(h'.2 x (h.2 x hx).1).1, ((h'.2 x (h.2 x hx).1).2).trans (h.2 x hx).2⟩⟩

theorem exec_kept {f f' : File} {s : Stmt} (h : exec f s = some f') (t : String) (tb : Table) (ht : f.tables t = some tb) :
    ∃ tb', f'.tables t = some tb' ∧ Kept tb tb' := by
  cases s with
  | table t' cols =>
    simp only [exec] at h
    cases h1 : f.tables t' with
    | some _ => rw [h1] at h; cases h; exact ⟨tb, ht, kept_refl tb⟩
    | none =>
      rw [h1] at h; cases h
      refine ⟨tb, ?_, kept_refl tb⟩
      have : t ≠ t' := by rintro rfl; rw [h1] at ht; cases ht
      simp [setTable, this, ht]
  | column t' c d =>
    simp only [exec] at h
    cases h1 : f.tables t' with
    | none => rw [h1] at h; cases h
    | some tb1 =>
      rw [h1] at h
      simp only at h
      split at h
      · cases h
      · next hc =>
        cases h
        by_cases e : t = t'
        · subst e
          rw [ht] at h1; cases h1
          refine ⟨_, by simp [setTable]; rfl, by simp, ?_⟩
          intro x hx
          have : x ≠ c := by rintro rfl; exact hc hx
          exact ⟨by simp [hx], by simp [this]⟩
        · exact ⟨tb, by simp [setTable, e, ht], kept_refl tb⟩
  | index n t' c =>
    simp only [exec] at h
    split at h
    · cases h; exact ⟨tb, ht, kept_refl tb⟩
    · cases h1 : f.tables t' with
      | none => rw [h1] at h; cases h
      | some tb1 =>
        rw [h1] at h
        simp only at h
        split at h
        · cases h; exact ⟨tb, ht, kept_refl tb⟩
        · cases h
  | unique n t' c =>
    simp only [exec] at h
    split at h
    · cases h; exact ⟨tb, ht, kept_refl tb⟩
    · cases h1 : f.tables t' with
      | none => rw [h1] at h; cases h
      | some tb1 =>
        rw [h1] at h
        simp only at h
        split at h
        · cases h; exact ⟨tb, ht, kept_refl tb⟩
        · cases h

theorem exec_indexes {f f' : File} {s : Stmt} (h : exec f s = some f') :
    (∀ n ∈ f.indexes, n ∈ f'.indexes) ∧ f'.mode = f.mode ∧
    ∀ n ∈ f'.indexes, n ∈ f.indexes ∨ (∃ t c, s = .index n t c) ∨ ∃ t c tb, s = .unique n t c ∧ f.tables t = some tb ∧ distinct tb c = true := by
  cases s with
  | table t' cols =>
    simp only [exec] at h
    cases h1 : f.tables t' <;> (rw [h1] at h; cases h; exact ⟨fun n hn => hn, rfl, fun n hn => .inl hn⟩)
  | column t' c d =>
    simp only [exec] at h
    cases h1 : f.tables t' with
    | none => rw [h1] at h; cases h
    | some tb1 =>
      rw [h1] at h
      simp only at h
      split at h
      · cases h
      · cases h; exact ⟨fun n hn => hn, rfl, fun n hn => .inl hn⟩
  | index n t' c =>
    simp only [exec] at h
    split at h
    · cases h; exact ⟨fun n hn => hn, rfl, fun n hn => .inl hn⟩
    · cases h1 : f.tables t' with
      | none => rw [h1] at h; cases h
      | some tb1 =>
        rw [h1] at h
        simp only at h
        split at h
        · cases h
          refine ⟨fun n hn => by simp [hn], rfl, ?_⟩
          intro m hm
          rcases List.mem_cons.1 hm with rfl | hm
          · exact .inr (.inl ⟨_, _, rfl⟩)
          · exact .inl hm
        · cases h
  | unique n t' c =>
    simp only [exec] at h
    split at h
    · cases h; exact ⟨fun n hn => hn, rfl, fun n hn => .inl hn⟩
    · cases h1 : f.tables t' with
      | none => rw [h1] at h; cases h
      | some tb1 =>
        rw [h1] at h
        simp only at h
        split at h
        · next hd =>
          cases h
          refine ⟨fun n hn => by simp [hn], rfl, ?_⟩
          intro m hm
          rcases List.mem_cons.1 hm with rfl | hm
          · exact .inr (.inr ⟨_, _, _, rfl, h1, by simp at hd; exact hd.2⟩)
          · exact .inl hm
        · cases h

theorem exec_done {f f' : File} {s s' : Stmt} (h : exec f s = some f') (hd : Done f s') : Done f' s' := by
  cases s' with
  | table t cols =>
    obtain ⟨tb, ht⟩ := Option.isSome_iff_exists.1 hd
    obtain ⟨tb', h1, _⟩ := exec_kept h t tb ht
    simp [Done, h1]
  | column t c d =>
    obtain ⟨tb, ht, hc⟩ := hd
    obtain ⟨tb', h1, h2⟩ := exec_kept h t tb ht
    exact ⟨tb', h1, (h2.2 c hc).1⟩
  | index n t c => exact (exec_indexes h).1 n hd
  | unique n t c => exact (exec_indexes h).1 n hd

theorem exec_self {f f' : File} {s : Stmt} (h : exec f s = some f') : Done f' s := by
  cases s with
  | table t' cols =>
    simp only [exec] at h
    cases h1 : f.tables t' <;> (rw [h1] at h; cases h; simp [Done, setTable, h1])
  | column t' c d =>
    simp only [exec] at h
    cases h1 : f.tables t' with
    | none => rw [h1] at h; cases h
    | some tb1 =>
      rw [h1] at h
      simp only at h
      split at h
      · cases h
      · cases h; exact ⟨_, by simp [setTable]; rfl, by simp⟩
  | index n t' c =>
    simp only [exec] at h
    split at h
    · cases h; assumption
    · cases h1 : f.tables t' with
      | none => rw [h1] at h; cases h
      | some tb1 =>
        rw [h1] at h
        simp only at h
        split at h
        · cases h; simp [Done]
        · cases h
  | unique n t' c =>
    simp only [exec] at h
    split at h
    · cases h; assumption
    · cases h1 : f.tables t' with
      | none => rw [h1] at h; cases h
      | some tb1 =>
        rw [h1] at h
        simp only at h
        split at h
        · cases h; simp [Done]
        · cases h

/-- The statements, checked one by one, with the tables made before. -/
def fine : List String → List (Stmt × Bool) → Bool
  | _, [] => true
  | seen, (.table t cols, _) :: l => (need t).all (cols.contains ·) && fine (t :: seen) l
  | seen, (.column t _ _, ign) :: l => ign && seen.contains t && fine seen l
  | seen, (.index _ t c, _) :: l => seen.contains t && (need t).contains c && fine seen l
  | seen, (.unique _ t c, _) :: l => seen.contains t && (t == "command_history") && (c == "command") && fine seen l

theorem fit_exec {f f' : File} {s : Stmt} (hf : Fit f) (h : exec f s = some f')
    (hs : ∀ t cols, s = .table t cols → ∀ c ∈ need t, c ∈ cols) : Fit f' := by
  intro t tb' ht'
  cases ht : f.tables t with
  | some tb =>
    obtain ⟨tb1, h1, h2⟩ := exec_kept h t tb ht
    rw [h1] at ht'; cases ht'
    obtain ⟨h3, h4⟩ := hf t tb ht
    refine ⟨fun c hc => (h2.2 c (h3 c hc)).1, ?_⟩
    rintro rfl
    have h5 := h4 rfl
    unfold distinct at h5 ⊢
    rw [(h2.2 "command" (h3 _ (by simp [need]))).2]
    exact h5
  | none =>
    have hnew : ∃ cols, s = .table t cols ∧ tb' = ⟨cols, []⟩ := by
      cases s with
      | table t' cols =>
        simp only [exec] at h
        cases h1 : f.tables t' with
        | some _ => rw [h1] at h; cases h; rw [ht] at ht'; cases ht'
        | none =>
          rw [h1] at h; cases h
          by_cases e : t = t'
          · subst e
            simp [setTable] at ht'
            exact ⟨cols, rfl, ht'.symm⟩
          · simp [setTable, e, ht] at ht'
      | column t' c d =>
        simp only [exec] at h
        cases h1 : f.tables t' with
        | none => rw [h1] at h; cases h
        | some tb1 =>
          rw [h1] at h
          simp only at h
          split at h
          · cases h
          · cases h
            have : t ≠ t' := by rintro rfl; rw [ht] at h1; cases h1
            simp [setTable, this, ht] at ht'
      | index n t' c =>
        simp only [exec] at h
        split at h
        · cases h; rw [ht] at ht'; cases ht'
        · cases h1 : f.tables t' with
          | none => rw [h1] at h; cases h
          | some tb1 =>
            rw [h1] at h
            simp only at h
            split at h
            · cases h; rw [ht] at ht'; cases ht'
            · cases h
      | unique n t' c =>
        simp only [exec] at h
        split at h
        · cases h; rw [ht] at ht'; cases ht'
        · cases h1 : f.tables t' with
          | none => rw [h1] at h; cases h
          | some tb1 =>
            rw [h1] at h
            simp only at h
            split at h
            · cases h; rw [ht] at ht'; cases ht'
            · cases h
    obtain ⟨cols, rfl, rfl⟩ := hnew
    exact ⟨hs t cols rfl, fun _ => by simp [distinct]⟩

theorem run_fine (l : List (Stmt × Bool)) : ∀ (seen : List String) (i : Nat) (f : File), fine seen l = true → Fit f →
    (∀ t ∈ seen, (f.tables t).isSome) →
    (run alone i l f).2 = true ∧ (∀ s, Done f s → Done (run alone i l f).1 s) ∧ ∀ s ∈ l, Done (run alone i l f).1 s.1 := by
  induction l with
  | nil => intro seen i f _ _ _; simp [run]
  | cons p l ih =>
    intro seen i f hl hf hs
    obtain ⟨s, ign⟩ := p
    have hsome : ∀ f' seen', exec f s = some f' → fine seen' l = true → Fit f' → (∀ t ∈ seen', (f'.tables t).isSome) →
        (run alone i ((s, ign) :: l) f).2 = true ∧ (∀ s', Done f s' → Done (run alone i ((s, ign) :: l) f).1 s') ∧
          ∀ s' ∈ (s, ign) :: l, Done (run alone i ((s, ign) :: l) f).1 s'.1 := by
      intro f' seen' he h1 h2 h3
      have hr : run alone i ((s, ign) :: l) f = run alone (i + 1) l f' := by simp [run, alone, he]
      rw [hr]
      obtain ⟨a, b, c⟩ := ih seen' (i + 1) f' h1 h2 h3
      refine ⟨a, fun s' hd => b s' (exec_done he hd), ?_⟩
      intro s' hs'
      rcases List.mem_cons.1 hs' with rfl | hs'
      · exact b _ (exec_self he)
      · exact c s' hs'
    have still : ∀ (f' : File) (seen' : List String), exec f s = some f' → (∀ t ∈ seen', (f.tables t).isSome) → ∀ t ∈ seen', (f'.tables t).isSome := by
      intro f' seen' he h t ht
      have h0 : Done f (.table t []) := h t ht
      exact exec_done he h0
    cases s with
    | table t cols =>
      simp only [fine, Bool.and_eq_true, List.all_eq_true, List.contains_iff_mem] at hl
      obtain ⟨f', he⟩ : ∃ f', exec f (.table t cols) = some f' := by
        simp only [exec]; cases f.tables t <;> exact ⟨_, rfl⟩
      refine hsome f' (t :: seen) he hl.2 (fit_exec hf he ?_) ?_
      · intro t' cols' e c hc; cases e; exact hl.1 c hc
      · intro x hx
        rcases List.mem_cons.1 hx with rfl | hx
        · exact exec_self (s := .table x cols) he
        · exact still f' seen he hs x hx
    | column t c d =>
      simp only [fine, Bool.and_eq_true, List.contains_iff_mem] at hl
      obtain ⟨⟨h1, h2⟩, h3⟩ := hl
      subst h1
      cases he : exec f (.column t c d) with
      | some f' => exact hsome f' seen he h3 (fit_exec hf he (by intro _ _ e; cases e)) (still f' seen he hs)
      | none =>
        have hr : run alone i ((Stmt.column t c d, true) :: l) f = run alone (i + 1) l f := by simp [run, alone, he]
        rw [hr]
        obtain ⟨a, b, e⟩ := ih seen (i + 1) f h3 hf hs
        refine ⟨a, b, ?_⟩
        intro s' hs'
        rcases List.mem_cons.1 hs' with rfl | hs'
        · refine b _ ?_
          obtain ⟨tb, htb⟩ := Option.isSome_iff_exists.1 (hs t h2)
          refine ⟨tb, htb, ?_⟩
          by_contra hc
          simp [exec, htb, hc] at he
        · exact e s' hs'
    | index n t c =>
      simp only [fine, Bool.and_eq_true, List.contains_iff_mem] at hl
      obtain ⟨⟨h1, h2⟩, h3⟩ := hl
      obtain ⟨tb, htb⟩ := Option.isSome_iff_exists.1 (hs t h1)
      have hc := (hf t tb htb).1 c h2
      obtain ⟨f', he⟩ : ∃ f', exec f (.index n t c) = some f' := by
        simp only [exec, htb, hc, if_true]; split <;> exact ⟨_, rfl⟩
      exact hsome f' seen he h3 (fit_exec hf he (by intro _ _ e; cases e)) (still f' seen he hs)
    | unique n t c =>
      simp only [fine, Bool.and_eq_true, List.contains_iff_mem, beq_iff_eq] at hl
      obtain ⟨⟨⟨h1, rfl⟩, rfl⟩, h3⟩ := hl
      obtain ⟨tb, htb⟩ := Option.isSome_iff_exists.1 (hs _ h1)
      have hc := (hf _ tb htb).1 "command" (by simp [need])
      have hd := (hf _ tb htb).2 rfl
      obtain ⟨f', he⟩ : ∃ f', exec f (.unique n "command_history" "command") = some f' := by
        simp only [exec, htb, hc, hd, decide_true, Bool.and_self, if_true]; split <;> exact ⟨_, rfl⟩
      exact hsome f' seen he h3 (fit_exec hf he (by intro _ _ e; cases e)) (still f' seen he hs)

theorem run_kept (busy : Nat → Bool) (l : List (Stmt × Bool)) : ∀ (i : Nat) (f : File) (t : String) (tb : Table), f.tables t = some tb →
    ∃ tb', (run busy i l f).1.tables t = some tb' ∧ Kept tb tb' := by
  induction l with
  | nil => intro i f t tb h; exact ⟨tb, h, kept_refl tb⟩
  | cons p l ih =>
    intro i f t tb h
    obtain ⟨s, ign⟩ := p
    simp only [run]
    cases he : (if busy i then none else exec f s) with
    | some f' =>
      have he' : exec f s = some f' := by split at he; cases he; exact he
      obtain ⟨tb1, h1, h2⟩ := exec_kept he' t tb h
      obtain ⟨tb2, h3, h4⟩ := ih (i + 1) f' t tb1 h1
      exact ⟨tb2, h3, kept_trans h2 h4⟩
    | none =>
      dsimp only
      split
      · exact ih (i + 1) f t tb h
      · exact ⟨tb, h, kept_refl tb⟩

theorem run_mode (busy : Nat → Bool) (l : List (Stmt × Bool)) : ∀ (i : Nat) (f : File), (run busy i l f).1.mode = f.mode := by
  induction l with
  | nil => intro i f; rfl
  | cons p l ih =>
    intro i f
    obtain ⟨s, ign⟩ := p
    simp only [run]
    cases he : (if busy i then none else exec f s) with
    | some f' =>
      have he' : exec f s = some f' := by split at he; cases he; exact he
      dsimp only
      rw [ih, (exec_indexes he').2.1]
    | none =>
      dsimp only
      split
      · exact ih (i + 1) f
      · rfl

theorem run_congr (b b' : Nat → Bool) (l : List (Stmt × Bool)) : ∀ (i : Nat) (f : File), (∀ j, i ≤ j → b j = b' j) →
    run b i l f = run b' i l f := by
  induction l with
  | nil => intro i f _; rfl
  | cons p l ih =>
    intro i f h
    obtain ⟨s, ign⟩ := p
    have hn := fun g => ih (i + 1) g fun j hj => h j (by omega)
    simp only [run, h i (Nat.le_refl i), hn]

theorem run_cols (busy : Nat → Bool) (t c : String) (l : List (Stmt × Bool))
    (hl : (l.all fun p => match p.1 with | .column t' c' _ => !(t' == t && c' == c) | _ => true) = true) :
    ∀ (i : Nat) (f : File) (tb : Table), f.tables t = some tb → c ∉ tb.cols →
      ∃ tb', (run busy i l f).1.tables t = some tb' ∧ c ∉ tb'.cols := by
  induction l with
  | nil => intro i f tb h hc; exact ⟨tb, h, hc⟩
  | cons p l ih =>
    intro i f tb h hc
    obtain ⟨s, ign⟩ := p
    simp only [List.all_cons, Bool.and_eq_true] at hl
    have ih := ih hl.2
    simp only [run]
    cases he : (if busy i then none else exec f s) with
    | none =>
      dsimp only
      split
      · exact ih (i + 1) f tb h hc
      · exact ⟨tb, h, hc⟩
    | some f' =>
      have he' : exec f s = some f' := by split at he; cases he; exact he
      have hx : ∃ tb1, f'.tables t = some tb1 ∧ c ∉ tb1.cols := by
        cases s with
        | table t' cols =>
          simp only [exec] at he'
          cases h1 : f.tables t' with
          | some _ => rw [h1] at he'; cases he'; exact ⟨tb, h, hc⟩
          | none =>
            rw [h1] at he'; cases he'
            have : t ≠ t' := by rintro rfl; rw [h1] at h; cases h
            exact ⟨tb, by simp [setTable, this, h], hc⟩
        | column t' c' d =>
          simp only [exec] at he'
          cases h1 : f.tables t' with
          | none => rw [h1] at he'; cases he'
          | some tb1 =>
            rw [h1] at he'
            simp only at he'
            split at he'
            · cases he'
            · cases he'
              by_cases e : t = t'
              · subst e
                rw [h] at h1; cases h1
                refine ⟨_, by simp [setTable]; rfl, ?_⟩
                have : c ≠ c' := by rintro rfl; simp at hl
                simp [hc, this]
              · exact ⟨tb, by simp [setTable, e, h], hc⟩
        | index n t' c' =>
          simp only [exec] at he'
          split at he'
          · cases he'; exact ⟨tb, h, hc⟩
          · cases h1 : f.tables t' with
            | none => rw [h1] at he'; cases he'
            | some tb1 =>
              rw [h1] at he'
              simp only at he'
              split at he'
              · cases he'; exact ⟨tb, h, hc⟩
              · cases he'
        | unique n t' c' =>
          simp only [exec] at he'
          split at he'
          · cases he'; exact ⟨tb, h, hc⟩
          · cases h1 : f.tables t' with
            | none => rw [h1] at he'; cases he'
            | some tb1 =>
              rw [h1] at he'
              simp only at he'
              split at he'
              · cases he'; exact ⟨tb, h, hc⟩
              · cases he'
      obtain ⟨tb1, h1, h2⟩ := hx
      exact ih (i + 1) f' tb1 h1 h2

/-- Whoever names the index means that of the commands. -/
def onlyHere (l : List (Stmt × Bool)) : Bool := l.all fun p => match p.1 with
  | .index n _ _ => n != "idx_command_history_command"
  | .unique n t c => n != "idx_command_history_command" || (t == "command_history" && c == "command")
  | _ => true

theorem run_twice (busy : Nat → Bool) (l : List (Stmt × Bool)) (h0 : onlyHere l = true) : ∀ (i : Nat) (f : File), Twice f →
    Twice (run busy i l f).1 ∧
      ((.unique "idx_command_history_command" "command_history" "command", false) ∈ l → (run busy i l f).2 = false) := by
  induction l with
  | nil => intro i f h; exact ⟨h, by simp⟩
  | cons p l ih =>
    intro i f h
    obtain ⟨s, ign⟩ := p
    simp only [onlyHere, List.all_cons, Bool.and_eq_true] at h0
    have ih := ih h0.2
    simp only [run]
    cases he : (if busy i then none else exec f s) with
    | some f' =>
      have he' : exec f s = some f' := by split at he; cases he; exact he
      obtain ⟨hi, tb, h1, h2, h3⟩ := h
      have hne : s ≠ .unique "idx_command_history_command" "command_history" "command" := by
        rintro rfl
        simp [exec, hi, h1, h3] at he'
      have ht' : Twice f' := by
        obtain ⟨tb', h4, h5⟩ := exec_kept he' _ tb h1
        refine ⟨?_, tb', h4, (h5.2 _ h2).1, ?_⟩
        · intro hm
          rcases (exec_indexes he').2.2 _ hm with h6 | ⟨t, c, rfl⟩ | ⟨t, c, tb1, rfl, h6, h7⟩
          · exact hi h6
          · simp at h0
          · simp at h0
            obtain ⟨rfl, rfl⟩ := h0.1
            exact hne rfl
        · unfold distinct at h3 ⊢
          rw [(h5.2 _ h2).2]
          exact h3
      obtain ⟨a, b⟩ := ih (i + 1) f' ht'
      refine ⟨a, ?_⟩
      intro hm
      rcases List.mem_cons.1 hm with e | hm
      · cases e; exact absurd rfl hne
      · exact b hm
    | none =>
      dsimp only
      split
      · next hg =>
        obtain ⟨a, b⟩ := ih (i + 1) f h
        refine ⟨a, ?_⟩
        intro hm
        rcases List.mem_cons.1 hm with e | hm
        · cases e; cases hg
        · exact b hm
      · exact ⟨h, fun _ => rfl⟩

theorem run_fit (busy : Nat → Bool) (l : List (Stmt × Bool)) (hl : ∀ s ∈ l, ∀ t cols, s.1 = .table t cols → ∀ c ∈ need t, c ∈ cols) :
    ∀ (i : Nat) (f : File), Fit f → Fit (run busy i l f).1 := by
  induction l with
  | nil => intro i f h; exact h
  | cons p l ih =>
    intro i f h
    obtain ⟨s, ign⟩ := p
    have ih := ih fun s hs => hl s (by simp [hs])
    simp only [run]
    cases he : (if busy i then none else exec f s) with
    | some f' =>
      have he' : exec f s = some f' := by split at he; cases he; exact he
      exact ih (i + 1) f' (fit_exec h he' (hl _ List.mem_cons_self))
    | none =>
      dsimp only
      split
      · exact ih (i + 1) f h
      · exact h

theorem schema_need : ∀ s ∈ schema, ∀ t cols, s.1 = .table t cols → ∀ c ∈ need t, c ∈ cols := by
  have hb : schema.all (fun s => match s.1 with | .table t cols => (need t).all (cols.contains ·) | _ => true) = true := by decide +kernel
  rw [List.all_eq_true] at hb
  intro s hs t cols e c hc
  have := hb s hs
  rw [e] at this
  simp only [List.all_eq_true, List.contains_iff_mem] at this
  exact this c hc

theorem ready_of_done {f : File} (hf : Fit f) (h : ∀ s ∈ schema, Done f s.1) : Ready f := by
  have ht : ∀ t, (schema.any fun s => match s.1 with | .table t' _ => t' == t | _ => false) = true → (f.tables t).isSome := by
    intro t ha
    rw [List.any_eq_true] at ha
    obtain ⟨s, hs, hb⟩ := ha
    have hd := h s hs
    obtain ⟨s, ign⟩ := s
    cases s with
    | table t' cols => simp only [beq_iff_eq] at hb; subst hb; exact hd
    | _ => simp at hb
  have hc : ∀ c, (schema.any fun s => match s.1 with | .column t' c' _ => t' == "command_history" && c' == c | _ => false) = true →
      ∃ tb, f.tables "command_history" = some tb ∧ c ∈ tb.cols := by
    intro c ha
    rw [List.any_eq_true] at ha
    obtain ⟨s, hs, hb⟩ := ha
    have hd := h s hs
    obtain ⟨s, ign⟩ := s
    cases s with
    | column t' c' d => simp only [Bool.and_eq_true, beq_iff_eq] at hb; obtain ⟨rfl, rfl⟩ := hb; exact hd
    | _ => simp at hb
  refine ⟨?_, ?_, ?_⟩
  · intro t hm
    apply ht
    revert t
    decide +kernel
  · obtain ⟨tb, htb⟩ := Option.isSome_iff_exists.1 (ht "command_history" (by decide +kernel))
    refine ⟨tb, htb, ?_⟩
    intro c hm
    by_cases hn : c ∈ need "command_history"
    · exact (hf _ tb htb).1 c hn
    · have : (schema.any fun s => match s.1 with | .column t' c' _ => t' == "command_history" && c' == c | _ => false) = true := by
        revert c
        decide +kernel
      obtain ⟨tb', h1, h2⟩ := hc c this
      rw [htb] at h1; cases h1; exact h2
  · exact h (.unique "idx_command_history_command" "command_history" "command", false) (by decide +kernel)

/-! ### C219 -/

/-- **C219, nothing is lost.** Whatever the file holds, whether or not it can be opened and whoever else uses it: every table is still
there with every row, and every column reads as before. -/
theorem C219_kept_partial (busy : Nat → Bool) (umask : Nat) (f : File) (t : String) (tb : Table) (h : f.tables t = some tb) :
    ∃ tb', (openDb busy umask (some f)).file.tables t = some tb' ∧ Kept tb tb' :=
  run_kept busy schema 0 _ t tb h

/-- **C219, opened.** A file of any earlier version in which no command stands twice is opened, if no other session writes meanwhile; then every
table, column and index the shell needs is there. -/
theorem C219_open_partial (umask : Nat) (f : File) (h : Fit f) :
    (openDb alone umask (some f)).ok = true ∧ Ready (openDb alone umask (some f)).file := by
  obtain ⟨a, -, b⟩ := run_fine schema [] 0 { f with mode := 0o600 } (by decide +kernel) h (by simp)
  exact ⟨a, ready_of_done (run_fit alone schema schema_need 0 { f with mode := 0o600 } h) b⟩

/-- **C219, the first time.** Where there is no file, it is made and opened, with every table, column and index. -/
theorem C219_new_partial (umask : Nat) : (openDb alone umask none).ok = true ∧ Ready (openDb alone umask none).file := by
  have h : Fit { create umask with mode := 0o600 } := by intro t tb h; simp [create] at h
  obtain ⟨a, -, b⟩ := run_fine schema [] 0 { create umask with mode := 0o600 } (by decide +kernel) h (by simp)
  exact ⟨a, ready_of_done (run_fit alone schema schema_need 0 _ h) b⟩

theorem open_done (umask : Nat) (f : File) (h : ∀ s ∈ schema, Done f s.1) :
    openDb alone umask (some f) = ⟨{ f with mode := 0o600 }, [f.mode, 0o600], true⟩ := by
  have key : ∀ (l : List (Stmt × Bool)) (i : Nat) (g : File), (∀ s ∈ l, Done g s.1) →
      (∀ s ∈ l, ∀ t c d, s.1 = .column t c d → s.2 = true) → run alone i l g = (g, true) := by
    intro l
    induction l with
    | nil => intro i g _ _; rfl
    | cons p l ih =>
      intro i g hd hc
      obtain ⟨s, ign⟩ := p
      have hn := ih (i + 1) g (fun s hs => hd s (by simp [hs])) (fun s hs => hc s (by simp [hs]))
      have h1 := hd _ List.mem_cons_self
      simp only [run, alone, Bool.false_eq_true, if_false]
      cases s with
      | table t cols =>
        obtain ⟨tb, ht⟩ := Option.isSome_iff_exists.1 h1
        simp only [exec, ht]; exact hn
      | column t c d =>
        obtain ⟨tb, ht, hcc⟩ := h1
        have : ign = true := hc _ List.mem_cons_self t c d rfl
        simp only [exec, ht, hcc, if_true, this]; exact hn
      | index n t c =>
        have h1 : n ∈ g.indexes := h1
        simp only [exec, if_pos h1]; exact hn
      | unique n t c =>
        have h1 : n ∈ g.indexes := h1
        simp only [exec, if_pos h1]; exact hn
  have hk := key schema 0 { f with mode := 0o600 } (fun s hs => by
    have := h s hs
    revert this
    cases s.1 <;> exact id) (by
      have hb : schema.all (fun s => match s.1 with | .column _ _ _ => s.2 | _ => true) = true := by decide +kernel
      rw [List.all_eq_true] at hb
      intro s hs t c d e
      have := hb s hs
      rw [e] at this
      exact this)
  simp only [openDb, Option.getD_some, hk]

/-- **C219, again.** Opening a file once more changes nothing in it. -/
theorem C219_again_partial (umask umask' : Nat) (f : File) (h : Fit f) :
    let g := (openDb alone umask (some f)).file
    openDb alone umask' (some g) = ⟨g, [0o600, 0o600], true⟩ := by
  intro g
  obtain ⟨-, -, b⟩ := run_fine schema [] 0 { f with mode := 0o600 } (by decide +kernel) h (by simp)
  have hm : g.mode = 0o600 := run_mode alone schema 0 _
  have := open_done umask' g b
  rw [this, hm]
  congr 1
  rw [← hm]

/-- **C219, for the owner.** An opened file can be read and written by its owner, and by nobody else. -/
theorem C219_mode_partial (busy : Nat → Bool) (umask : Nat) (f : Option File) :
    (openDb busy umask f).file.mode = 0o600 ∧ (openDb busy umask f).modes.getLast? = some 0o600 :=
  ⟨run_mode busy schema 0 _, rfl⟩

/-- **C219 fails: a command twice.** A history in which a command stands twice, as versions without the unique index wrote it, cannot be
opened, however often one tries: the shell has no history from then on. -/
theorem C219_twice_violated (f : File) (h : Twice f) (tries : List ((Nat → Bool) × Nat)) (busy : Nat → Bool) (umask : Nat) :
    (openDb busy umask (some (tries.foldl (fun g t => (openDb t.1 t.2 (some g)).file) f))).ok = false := by
  have step : ∀ (b : Nat → Bool) (u : Nat) (g : File), Twice g → Twice (openDb b u (some g)).file := by
    intro b u g hg
    exact (run_twice b schema (by decide +kernel) 0 { g with mode := 0o600 } hg).1
  have hall : ∀ (tries : List ((Nat → Bool) × Nat)) (g : File), Twice g →
      Twice (tries.foldl (fun g t => (openDb t.1 t.2 (some g)).file) g) := by
    intro tries
    induction tries with
    | nil => intro g hg; exact hg
    | cons t l ih => intro g hg; exact ih _ (step _ _ _ hg)
  have h1 := hall tries f h
  generalize tries.foldl (fun g t => (openDb t.1 t.2 (some g)).file) f = g at h1 ⊢
  exact (run_twice busy schema (by decide +kernel) 0 { g with mode := 0o600 } h1).2 (by decide +kernel)

/-- A history of a version that did not know the columns added later. -/
def old (rows : List (String → Val)) : File :=
  ⟨0o600, fun t => if t = "command_history" then some ⟨["id", "command", "timestamp", "context"], rows⟩ else none, []⟩

/-- **C219 fails: locked.** If another session holds the lock while the column `count` is added, the error is not seen: the file counts as
opened, without the column every command is written with. -/
theorem C219_locked_violated (umask : Nat) (f : File) (h : Fit f) (tb : Table) (ht : f.tables "command_history" = some tb)
    (hc : "count" ∉ tb.cols) :
    let r := openDb (fun i => i == 1) umask (some f)
    r.ok = true ∧ ∃ tb', r.file.tables "command_history" = some tb' ∧ "count" ∉ tb'.cols := by
  intro r
  obtain ⟨g, hg⟩ : ∃ g : File, g = { f with mode := 0o600 } := ⟨_, rfl⟩
  have ht' : g.tables "command_history" = some tb := by rw [hg]; exact ht
  have hf : Fit g := by rw [hg]; exact h
  have h1 : run (fun i => i == 1) 0 schema g = run (fun i => i == 1) 2 (schema.drop 2) g := by
    have hs : schema = (.table "command_history" ["id", "command", "timestamp", "context", "exit_code", "duration_ms", "cwd",
      "session_id", "hostname", "count"], false) :: (.column "command_history" "count" (.int 1), true) :: schema.drop 2 := rfl
    generalize schema.drop 2 = l at hs ⊢
    rw [hs]
    simp [run, exec, ht']
  have h2 : run (fun i => i == 1) 2 (schema.drop 2) g = run alone 2 (schema.drop 2) g :=
    run_congr _ _ _ 2 g fun i hi => by simp [alone]; omega
  have h3 := run_fine (schema.drop 2) ["command_history"] 2 g (by decide +kernel) hf (by simp [ht'])
  have h4 := run_cols alone "command_history" "count" (schema.drop 2) (by decide +kernel) 2 g tb ht' hc
  have hr : r = ⟨(run alone 2 (schema.drop 2) g).1, [f.mode, 0o600], (run alone 2 (schema.drop 2) g).2⟩ := by
    rw [← h2, ← h1, hg]; rfl
  rw [hr]
  exact ⟨h3.1, h4⟩

/-- **C219 fails: open to others.** A new file can be read by everybody until its permissions are set, unless the mask forbids it. -/
theorem C219_public_violated (busy : Nat → Bool) (umask : Nat) (h : umask.testBit 2 = false) :
    ∃ m ∈ (openDb busy umask none).modes, m.testBit 2 = true := by
  refine ⟨_, List.mem_cons_self, ?_⟩
  simp only [Option.getD_none, create, Nat.testBit_xor, Nat.testBit_and, h]
  decide

/-- **C219 fails: made writable.** A file its owner has protected against writing is made writable. -/
theorem C219_protected_violated (busy : Nat → Bool) (umask : Nat) (f : File) (h : f.mode = 0o400) :
    (openDb busy umask (some f)).modes = [0o400, 0o600] := by simp [openDb, h]

/-! ### Examples -/

def row (c : Str) : String → Val := fun x => if x = "command" then .text c else .null

example : Fit (old [row c!"ls", row c!"make"]) := by
  intro t tb h
  simp only [old] at h
  split at h
  · next e =>
    subst e; cases h
    exact ⟨by simp [need], fun _ => by decide +kernel⟩
  · cases h

example : Twice (old [row c!"ls", row c!"make", row c!"ls"]) :=
  ⟨by simp [old], _, rfl, by simp, by decide +kernel⟩

example : (openDb alone 0o022 (some (old [row c!"ls", row c!"ls"]))).ok = false ∧
    (openDb alone 0o022 (some (old [row c!"ls", row c!"make"]))).ok = true ∧ (openDb alone 0o022 none).modes = [0o644, 0o600] := by
  decide +kernel

end Dsh.DbOpen
