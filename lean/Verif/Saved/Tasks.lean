import Verif.Saved.Props
/-!
The built-in `task` (dsh-builtin/src/task.rs) and the detection of tasks (task.rs:375-493,
dsh-builtin/src/project_context.rs:395-563).

Parameters: the names the JSON and TOML readers find, the output of `make -pRrq :` and `just --summary`.
The `Taskfile` is read line by line by the shell itself and is modelled. Not modelled: finding the project
root, comments in `deno.jsonc`.
-/
namespace Dsh.Saved

structure Task where
  source : Str
  name : Str
  command : Str
  deriving DecidableEq, Repr

/-! ### Detection -/

/-- `str::split_once(':')`. -/
def splitColon : Str → Option (Str × Str)
  | [] => none
  | c :: cs => if c = ':' then some ([], cs) else (splitColon cs).map fun p => (c :: p.1, p.2)

/-- Keys of a task that are not taken for tasks (project_context.rs:471-479). -/
def taskKeys : List Str := [c!"desc", c!"cmd", c!"cmds", c!"deps", c!"vars", c!"env"]

/-- The scan of a `Taskfile` (project_context.rs:450-488): the names found. -/
def taskfileNames : Bool → List Str → List Str
  | _, [] => []
  | inTasks, l :: ls =>
    let t := trim l
    if t.isEmpty || t.head? = some '#' then taskfileNames inTasks ls
    else if !inTasks then taskfileNames (t = c!"tasks:") ls
    else if l.head? ≠ some ' ' && l.head? ≠ some '\t' then []
    else match splitColon t with
      | none => taskfileNames true ls
      | some (raw, _) =>
        if !(c!"  ").isPrefixOf l && l.head? ≠ some '\t' then taskfileNames true ls
        else
          let name := trim raw
          if name.isEmpty || name.head? = some '{' || taskKeys.contains name then taskfileNames true ls
          else name :: taskfileNames true ls

/-- A target in a line of `make`'s database (task.rs:424-430). -/
def makeTarget (line : Str) : Option Str :=
  if line.getLast? = some ':' then
    let t := line.dropLast
    if t.head? = some '.' || t.head? = some '#' || t.head? = some '%' || t.contains '%' || t.contains ' ' then none else some t
  else none

/-- The program that manages JavaScript packages (task.rs:495-505). -/
inductive Manager | npm | yarn | pnpm | bun
  deriving DecidableEq, Repr

def Manager.text : Manager → Str
  | .npm => c!"npm" | .yarn => c!"yarn" | .pnpm => c!"pnpm" | .bun => c!"bun"

/-- What is found in the project. -/
structure Project where
  /-- names in `mise.toml`; `none`: the file is there and cannot be read -/
  mise : Option (List Str) := some []
  /-- lines of the `Taskfile` -/
  taskfile : List Str := []
  turbo : Option (List Str) := some []
  /-- project name and targets of `project.json` -/
  nx : Option (Str × List Str) := some ([], [])
  manager : Manager := .npm
  scripts : List Str := []
  cargo : Bool := false
  makeDb : List Str := []
  deno : List Str := []
  just : List Str := []

/-- Commands of cargo (task.rs:406). -/
def cargoNames : List Str := [c!"build", c!"run", c!"test", c!"check", c!"clippy", c!"fmt", c!"doc"]

/-- `dedup_task_infos` (task.rs:516-526). -/
def dedupFrom (seen : List Task) : List Task → List Task
  | [] => []
  | t :: ts => if seen.contains t then dedupFrom seen ts else t :: dedupFrom (t :: seen) ts

/-- `detect_tasks_in_dir` (task.rs:373-493); `none`: an error. -/
def detect (P : Project) : Option (List Task) :=
  match P.mise, P.turbo, P.nx with
  | some mise, some turbo, some (project, targets) => some (dedupFrom [] (
      mise.map (fun n => ⟨c!"mise", n, c!"mise run " ++ n⟩) ++
      (taskfileNames false P.taskfile).map (fun n => ⟨c!"taskfile", n, c!"task " ++ n⟩) ++
      turbo.map (fun n => ⟨c!"turbo", n, c!"turbo run " ++ n⟩) ++
      targets.map (fun n => ⟨c!"nx", n, c!"nx run " ++ project ++ c!":" ++ n⟩) ++
      P.scripts.map (fun n => ⟨P.manager.text, n, P.manager.text ++ c!" run " ++ n⟩) ++
      (if P.cargo then cargoNames.map (fun n => ⟨c!"cargo", n, c!"cargo " ++ n⟩) else []) ++
      (P.makeDb.filterMap makeTarget).map (fun n => ⟨c!"make", n, c!"make " ++ n⟩) ++
      P.deno.map (fun n => ⟨c!"deno", n, c!"deno task " ++ n⟩) ++
      P.just.map (fun n => ⟨c!"just", n, c!"just " ++ n⟩)))
  | _, _, _ => none

/-! ### Choosing -/

/-- `split_qualified_task` (task.rs:247-250). -/
def splitQualified (target : Str) : Option (Str × Str) :=
  match splitColon target with
  | some (s, n) => if !s.isEmpty && !n.isEmpty then some (s, n) else none
  | none => none

/-- `split_qualified_task_for_known_source` (task.rs:252-265). -/
def resolveTarget (tasks : List Task) (source : Option Str) (target : Str) : Option Str × Str :=
  match source, splitQualified target with
  | none, some (s, n) => if tasks.any (·.source = s) then (some s, n) else (source, target)
  | _, _ => (source, target)

/-- `filtered_tasks` (task.rs:267-277). -/
def filtered (tasks : List Task) (source target : Option Str) : List Task :=
  (tasks.filter fun t => source.all (t.source = ·)).filter fun t => target.all (t.name = ·)

/-- `filtered_tasks_for_request` (task.rs:279-290). -/
def filteredFor (tasks : List Task) (source target : Option Str) : List Task :=
  match target with
  | some t => filtered tasks (resolveTarget tasks source t).1 (some (resolveTarget tasks source t).2)
  | none => filtered tasks source none

inductive Selection
  | selected (t : Task)
  | ambiguous (l : List Task)
  | notFound
  deriving DecidableEq, Repr

/-- `select_task` (task.rs:304-318). -/
def selectTask (tasks : List Task) (source : Option Str) (target : Str) : Selection :=
  match filtered tasks (resolveTarget tasks source target).1 (some (resolveTarget tasks source target).2) with
  | [] => .notFound
  | [t] => .selected t
  | l => .ambiguous l

/-! ### The built-in -/

structure Options where
  list : Bool := false
  json : Bool := false
  help : Bool := false
  source : Option Str := none
  target : Option Str := none
  deriving DecidableEq, Repr

/-- `parse_options` (task.rs:189-225); `none`: an error. -/
def parseOptions : Options → List Str → Option Options
  | o, [] => some o
  | o, a :: rest =>
    if a = c!"-h" ∨ a = c!"--help" ∨ a = c!"help" then parseOptions { o with help := true } rest
    else if a = c!"-l" ∨ a = c!"--list" ∨ a = c!"list" then parseOptions { o with list := true } rest
    else if a = c!"--json" then parseOptions { o with json := true, list := true } rest
    else if a = c!"-s" ∨ a = c!"--source" then
      match rest with
      | [] => none
      | s :: rest' => parseOptions { o with source := some s } rest'
    else if a.head? = some '-' then none
    else if o.target.isSome then none
    else parseOptions { o with target := some a } rest

inductive TaskOut
  | usage | help | detectFailed | noTasks
  | listed (l : List Task)
  | ran (t : Task) (d : Disp) (status : Nat)
  | notFound
  | ambiguous (l : List Task)
  /-- nothing chosen in the menu -/
  | nothing
  deriving DecidableEq, Repr

/-- `execute_task` and the end of the menu (task.rs:345-361, 161-174). -/
def executeTask (ok : Disp → Bool) (t : Task) : TaskOut :=
  let d := dispatch c!"sh" [c!"sh", c!"-c", t.command]
  .ran t d (if ok d then 0 else 1)

/-- `command` (task.rs:58-178). `menu`: what the user picks in the menu of an interactive shell. -/
def task (ok : Disp → Bool) (interactive : Bool) (menu : List Task → Option Task) (P : Project) (args : List Str) : TaskOut :=
  match parseOptions {} args with
  | none => .usage
  | some o =>
    if o.help then .help
    else match detect P with
      | none => .detectFailed
      | some tasks =>
        if tasks.isEmpty then .noTasks
        else if o.list || o.json then .listed (filteredFor tasks o.source o.target)
        else match o.target with
          | some target => match selectTask tasks o.source target with
            | .selected t => executeTask ok t
            | .notFound => .notFound
            | .ambiguous l => .ambiguous l
          | none =>
            let l := filtered tasks o.source none
            if l.isEmpty then .noTasks
            else if !interactive then .listed l
            else match menu l with
              | some t => executeTask ok t
              | none => .nothing

/-! ### Properties -/

theorem splitColon_some {s a b : Str} (h : splitColon s = some (a, b)) : s = a ++ ':' :: b ∧ ':' ∉ a := by
  induction s generalizing a with
  | nil => cases h
  | cons c cs ih =>
    simp only [splitColon] at h
    split at h
    · next hc => simp only [Option.some.injEq, Prod.mk.injEq] at h; simp [← h.1, ← h.2, hc]
    · next hc =>
      simp only [Option.map_eq_some_iff, Prod.mk.injEq] at h
      obtain ⟨⟨a', b'⟩, h1, h2, h3⟩ := h
      dsimp only at h2 h3
      subst h2 h3
      obtain ⟨h4, h5⟩ := ih h1
      refine ⟨by rw [h4]; rfl, ?_⟩
      simp only [List.mem_cons, not_or]
      exact ⟨fun h => hc h.symm, h5⟩

theorem splitColon_mk {a b : Str} (h : ':' ∉ a) : splitColon (a ++ ':' :: b) = some (a, b) := by
  induction a with
  | nil => simp [splitColon]
  | cons c cs ih =>
    simp only [List.mem_cons, not_or] at h
    rw [List.cons_append, splitColon, if_neg (fun hc => h.1 hc.symm), ih h.2]; rfl

theorem dedupFrom_mem (seen l : List Task) : ∀ t, t ∈ dedupFrom seen l ↔ t ∈ l ∧ t ∉ seen := by
  induction l generalizing seen with
  | nil => simp [dedupFrom]
  | cons a l ih =>
    intro t
    simp only [dedupFrom]
    split
    · next h =>
      have h : a ∈ seen := by simpa using h
      rw [ih, List.mem_cons]
      constructor
      · rintro ⟨h1, h2⟩; exact ⟨.inr h1, h2⟩
      · rintro ⟨h1 | h1, h2⟩
        · subst h1; exact (h2 h).elim
        · exact ⟨h1, h2⟩
    · next h =>
      have h : a ∉ seen := by simpa using h
      simp only [List.mem_cons, ih, not_or]
      constructor
      · rintro (rfl | ⟨h1, h2⟩)
        · exact ⟨.inl rfl, h⟩
        · exact ⟨.inr h1, h2.2⟩
      · rintro ⟨h1, h2⟩
        by_cases hta : t = a
        · exact .inl hta
        · exact .inr ⟨h1.resolve_left hta, hta, h2⟩

theorem dedupFrom_nodup (seen l : List Task) : (dedupFrom seen l).Nodup := by
  induction l generalizing seen with
  | nil => exact List.nodup_nil
  | cons a l ih =>
    simp only [dedupFrom]
    split
    · exact ih seen
    · rw [List.nodup_cons]
      refine ⟨fun h => ?_, ih _⟩
      exact ((dedupFrom_mem _ _ _).1 h).2 (List.mem_cons_self ..)

/-- The command of a task follows from its source and name. -/
def commandOf (P : Project) (s n : Str) : Str :=
  if s = c!"mise" then c!"mise run " ++ n
  else if s = c!"taskfile" then c!"task " ++ n
  else if s = c!"turbo" then c!"turbo run " ++ n
  else if s = c!"nx" then c!"nx run " ++ (P.nx.map (·.1)).getD [] ++ c!":" ++ n
  else if s = P.manager.text then P.manager.text ++ c!" run " ++ n
  else if s = c!"cargo" then c!"cargo " ++ n
  else if s = c!"make" then c!"make " ++ n
  else if s = c!"deno" then c!"deno task " ++ n
  else c!"just " ++ n

theorem detect_mem {P : Project} {tasks : List Task} (h : detect P = some tasks) (t : Task) (ht : t ∈ tasks) :
    t.command = commandOf P t.source t.name ∧ t.source ≠ [] ∧ ':' ∉ t.source ∧ t.source.head? ≠ some '-' := by
  unfold detect at h
  split at h
  · next mise turbo project targets h1 h2 h3 =>
    simp only [Option.some.injEq] at h
    subst h
    have ht := ((dedupFrom_mem _ _ _).1 ht).1
    have hman : ∀ m : Manager, m.text ≠ c!"mise" ∧ m.text ≠ c!"taskfile" ∧ m.text ≠ c!"turbo" ∧ m.text ≠ c!"nx" ∧
        m.text ≠ c!"cargo" ∧ m.text ≠ c!"make" ∧ m.text ≠ c!"deno" ∧ m.text ≠ c!"just" ∧ m.text ≠ [] ∧ ':' ∉ m.text ∧ m.text.head? ≠ some '-' := by
      intro m; cases m <;> decide
    obtain ⟨m1, m2, m3, m4, m5, m6, m7, m8, m9, m10, m11⟩ := hman P.manager
    simp only [List.mem_append, List.mem_map] at ht
    rcases ht with (((((((⟨n, -, rfl⟩ | ⟨n, -, rfl⟩) | ⟨n, -, rfl⟩) | ⟨n, -, rfl⟩) | ⟨n, -, rfl⟩) | ht) | ⟨n, -, rfl⟩) | ⟨n, -, rfl⟩) | ⟨n, -, rfl⟩
    · exact ⟨rfl, by simp, by simp, by simp⟩
    · exact ⟨rfl, by simp, by simp, by simp⟩
    · exact ⟨rfl, by simp, by simp, by simp⟩
    · refine ⟨?_, by simp, by simp, by simp⟩
      simp [commandOf, h3]
    · refine ⟨?_, m9, m10, m11⟩
      simp [commandOf, m1, m2, m3, m4]
    · split at ht
      · obtain ⟨n, -, rfl⟩ := List.mem_map.1 ht
        refine ⟨?_, by simp, by simp, by simp⟩
        have := Ne.symm m5
        simp [commandOf, this]
      · cases ht
    · refine ⟨?_, by simp, by simp, by simp⟩
      have := Ne.symm m6
      simp [commandOf, this]
    · refine ⟨?_, by simp, by simp, by simp⟩
      have := Ne.symm m7
      simp [commandOf, this]
    · refine ⟨?_, by simp, by simp, by simp⟩
      have := Ne.symm m8
      simp [commandOf, this]
  · cases h

theorem filter_unique {l : List Task} (hn : l.Nodup) {t : Task} (ht : t ∈ l) (p : Task → Bool) (hp : ∀ x ∈ l, p x = true ↔ x = t) :
    l.filter p = [t] := by
  induction l with
  | nil => cases ht
  | cons a l ih =>
    rw [List.nodup_cons] at hn
    by_cases ha : a = t
    · subst ha
      rw [List.filter_cons, if_pos ((hp a (by simp)).2 rfl), List.filter_eq_nil_iff.2]
      intro x hx hpx
      rw [(hp x (by simp [hx])).1 hpx] at hx
      exact hn.1 hx
    · rw [List.filter_cons, if_neg (fun h => ha ((hp a (by simp)).1 h))]
      exact ih hn.2 (by simpa [Ne.symm ha] using ht) (fun x hx => hp x (by simp [hx]))

theorem filtered_eq (tasks : List Task) (source target : Option Str) :
    filtered tasks source target = tasks.filter fun t => source.all (t.source = ·) && target.all (t.name = ·) := by
  rw [filtered, List.filter_filter]
  congr 1
  funext t
  exact Bool.and_comm ..

/-- **C123 (partial)**: every detected task is reached by the qualified name the shell proposes,
`source:name`. -/
theorem C123_qualified_partial (P : Project) (tasks : List Task) (h : detect P = some tasks) (t : Task) (ht : t ∈ tasks)
    (hn : t.name ≠ []) : selectTask tasks none (t.source ++ c!":" ++ t.name) = .selected t := by
  obtain ⟨h1, h2, h3, -⟩ := detect_mem h t ht
  have hnd : tasks.Nodup := by
    unfold detect at h
    split at h
    · simp only [Option.some.injEq] at h; subst h; exact dedupFrom_nodup _ _
    · cases h
  have hr : resolveTarget tasks none (t.source ++ c!":" ++ t.name) = (some t.source, t.name) := by
    have hs : splitColon (t.source ++ c!":" ++ t.name) = some (t.source, t.name) := by
      rw [List.append_assoc]; exact splitColon_mk h3
    have ha : tasks.any (·.source = t.source) = true := List.any_eq_true.2 ⟨t, ht, by simp⟩
    simp only [resolveTarget, splitQualified, hs]
    have : (!t.source.isEmpty && !t.name.isEmpty) = true := by simp [h2, hn]
    rw [if_pos this]
    simp only [ha, if_true]
  unfold selectTask
  rw [hr, filtered_eq, filter_unique hnd ht]
  intro x hx
  simp only [Option.all_some, Bool.and_eq_true, decide_eq_true_eq]
  constructor
  · rintro ⟨hx1, hx2⟩
    have hc := (detect_mem h x hx).1
    have : x.command = t.command := by rw [hc, h1, hx1, hx2]
    cases x; cases t; simp_all
  · rintro rfl; exact ⟨rfl, rfl⟩

/-- **C123 (partial)**: so typing `task source:name` runs that task and no other. -/
theorem C123_run_partial (ok : Disp → Bool) (i : Bool) (menu : List Task → Option Task) (P : Project) (tasks : List Task)
    (h : detect P = some tasks) (t : Task) (ht : t ∈ tasks) (hn : t.name ≠ []) :
    ∃ d st, task ok i menu P [t.source ++ c!":" ++ t.name] = .ran t d st := by
  obtain ⟨-, h2, h3, hm⟩ := detect_mem h t ht
  have hcolon : ':' ∈ t.source ++ c!":" ++ t.name := by simp
  have hne : ∀ w : Str, ':' ∉ w → t.source ++ c!":" ++ t.name ≠ w := fun w hw he => hw (he ▸ hcolon)
  have hp : parseOptions {} [t.source ++ c!":" ++ t.name] = some { target := some (t.source ++ c!":" ++ t.name) } := by
    rw [parseOptions, if_neg, if_neg, if_neg (hne _ (by decide)), if_neg, if_neg, if_neg (by simp)]
    · rfl
    · cases hs : t.source with
      | nil => exact (h2 hs).elim
      | cons a l => rw [hs] at hm; simpa using hm
    · rintro (h | h) <;> exact hne _ (by decide) h
    · rintro (h | h | h) <;> exact hne _ (by decide) h
    · rintro (h | h | h) <;> exact hne _ (by decide) h
  have htn : tasks.isEmpty = false := by cases tasks with | nil => cases ht | cons => rfl
  refine ⟨dispatch c!"sh" [c!"sh", c!"-c", t.command], if ok (dispatch c!"sh" [c!"sh", c!"-c", t.command]) then 0 else 1, ?_⟩
  unfold task
  rw [hp]
  simp only [h, htn, C123_qualified_partial P tasks h t ht hn, executeTask]
  simp

/-- **C123 (partial)**: a task that is run bears the name asked for, and is the only one that does: with a
source, of that source; without, of the part after the colon if the part before it is a source, and of the
whole otherwise. -/
theorem C123_chosen_partial (tasks : List Task) (source : Option Str) (target : Str) (t : Task)
    (h : selectTask tasks source target = .selected t) :
    t ∈ tasks ∧ ((t.name = target ∧ (source = none ∨ source = some t.source) ∧
        ∀ x ∈ tasks, x.name = target → (source = none ∨ source = some x.source) → x = t) ∨
      (source = none ∧ target = t.source ++ c!":" ++ t.name ∧ ∀ x ∈ tasks, x.source = t.source → x.name = t.name → x = t)) := by
  unfold selectTask at h
  split at h
  · cases h
  · next x hx =>
    simp only [Selection.selected.injEq] at h
    subst h
    rw [filtered_eq] at hx
    have hmem : ∀ y, y ∈ tasks.filter (fun t => (resolveTarget tasks source target).1.all (t.source = ·) && Option.all (t.name = ·) (some (resolveTarget tasks source target).2)) ↔ y = x := by
      intro y; rw [hx]; simp
    have hx0 := (hmem x).2 rfl
    rw [List.mem_filter] at hx0
    refine ⟨hx0.1, ?_⟩
    simp only [Option.all_some, Bool.and_eq_true, decide_eq_true_eq] at hx0
    have plain : (resolveTarget tasks source target) = (source, target) →
        (x.name = target ∧ (source = none ∨ source = some x.source) ∧
        ∀ y ∈ tasks, y.name = target → (source = none ∨ source = some y.source) → y = x) := by
      intro he
      rw [he] at hx0
      refine ⟨hx0.2.2, ?_, ?_⟩
      · cases source with
        | none => exact .inl rfl
        | some s => right; have := hx0.2.1; simp at this; rw [this]
      · intro y hy hyn hys
        apply (hmem y).1
        rw [List.mem_filter, he]
        refine ⟨hy, ?_⟩
        rcases hys with hys | hys <;> simp [hys, hyn]
    unfold resolveTarget at plain hx0 hmem
    split at plain
    · next s n hs =>
      split at plain
      · next hany =>
        right
        simp only [hs, hany, if_true] at hx0 hmem
        refine ⟨rfl, ?_, ?_⟩
        · simp only [splitQualified] at hs
          split at hs
          · next s' n' hsc =>
            split at hs
            · simp only [Option.some.injEq, Prod.mk.injEq] at hs
              obtain ⟨rfl, rfl⟩ := hs
              have h1 := hx0.2.1
              simp only [Option.all_some, decide_eq_true_eq] at h1
              rw [(splitColon_some hsc).1, h1, hx0.2.2, List.append_assoc]; rfl
            · cases hs
          · cases hs
        · intro y hy hys hyn
          apply (hmem y).1
          rw [List.mem_filter]
          refine ⟨hy, ?_⟩
          have h1 := hx0.2.1
          simp only [Option.all_some, decide_eq_true_eq] at h1
          simp [hys, hyn, h1, hx0.2.2]
      · exact .inl (plain rfl)
    · exact .inl (plain rfl)
  · cases h

/-- A word that is no option of `task`. -/
def PlainWord (a : Str) : Prop := a.head? ≠ some '-' ∧ a ∉ [c!"help", c!"list"]

/-- **C123 (partial)**: two names at once are refused and nothing runs. -/
theorem C123_two_partial (ok : Disp → Bool) (i : Bool) (menu : List Task → Option Task) (P : Project) (a b : Str) (rest : List Str)
    (ha : PlainWord a) (hb : PlainWord b) : task ok i menu P (a :: b :: rest) = .usage := by
  have word : ∀ (x : Str), PlainWord x → ∀ o r, parseOptions o (x :: r) =
      if o.target.isSome then none else parseOptions { o with target := some x } r := by
    rintro x ⟨h1, h2⟩ o r
    simp only [List.mem_cons, List.not_mem_nil, or_false, not_or] at h2
    have hd : ∀ w : Str, w.head? = some '-' → x ≠ w := fun w hw he => h1 (he ▸ hw)
    rw [parseOptions.eq_def]
    dsimp only
    rw [if_neg, if_neg, if_neg (hd _ rfl), if_neg, if_neg h1]
    · rintro (h | h) <;> exact hd _ rfl h
    · rintro (h | h | h)
      · exact hd _ rfl h
      · exact hd _ rfl h
      · exact h2.2 h
    · rintro (h | h | h)
      · exact hd _ rfl h
      · exact hd _ rfl h
      · exact h2.1 h
  have : parseOptions {} (a :: b :: rest) = none := by
    rw [word a ha, if_neg (by simp), word b hb, if_pos (by simp)]
  unfold task
  rw [this]

example : PlainWord c!"build" ∧ PlainWord c!"npm:test" := ⟨⟨by decide, by decide⟩, ⟨by decide, by decide⟩⟩

/-- A project with tasks of the same name, where the qualified name is needed and works. -/
example : detect { scripts := [c!"build", c!"build:prod"], cargo := true } ≠ none ∧
    (∃ l, task (fun _ => true) false (fun _ => none) { scripts := [c!"build", c!"build:prod"], cargo := true } [c!"build"] = .ambiguous l ∧ l.length = 2) ∧
    (∃ d, task (fun _ => true) false (fun _ => none) { scripts := [c!"build", c!"build:prod"], cargo := true } [c!"npm:build:prod"] =
      .ran ⟨c!"npm", c!"build:prod", c!"npm run build:prod"⟩ d 0) := by
  refine ⟨by decide, ⟨_, rfl, rfl⟩, ⟨_, rfl⟩⟩

/-- **C123 is violated**: a task that is listed cannot always be run by its name: the part before its first
colon is taken for a source. -/
theorem C123_colon_violated : ¬ ∀ (P : Project) (tasks : List Task) (t : Task), detect P = some tasks → t ∈ tasks →
    (∀ x ∈ tasks, x.name = t.name → x = t) → selectTask tasks none t.name = .selected t := by
  intro H
  have := H { scripts := [c!"cargo:lint"], cargo := true } _ ⟨c!"npm", c!"cargo:lint", c!"npm run cargo:lint"⟩ rfl (by decide) (by decide)
  exact absurd this (by decide)

/-- **C123 is violated**: a task named `list` or `help` is not run by its name. -/
theorem C123_list_violated : ∃ (P : Project) (tasks : List Task) (t : Task), detect P = some tasks ∧ t ∈ tasks ∧ t.name = c!"list" ∧
    ∀ ok i menu, task ok i menu P [t.name] = .listed tasks :=
  ⟨{ makeDb := [c!"list:"] }, _, ⟨c!"make", c!"list", c!"make list"⟩, rfl, by decide, rfl, fun _ _ _ => rfl⟩

/-- **C123 is violated**: one file that cannot be read hides the tasks of all others. -/
theorem C123_broken_violated (P : Project) (h : P.mise = none ∨ P.turbo = none ∨ P.nx = none) (ok : Disp → Bool) (i : Bool)
    (menu : List Task → Option Task) : task ok i menu P [] = .detectFailed ∧ task ok i menu P [c!"--list"] = .detectFailed := by
  have : detect P = none := by
    unfold detect
    split
    · next h1 h2 h3 => rw [h1, h2, h3] at h; simp at h
    · rfl
  constructor <;> simp [task, parseOptions, this]

/-- **C123 is violated**: the name is put into the command as it is: a script `a b` is run as `a`. -/
theorem C123_blank_violated : ∃ t, detect { scripts := [c!"a b"] } = some [t] ∧ t.name = c!"a b" ∧ t.command = c!"npm run a b" :=
  ⟨_, rfl, rfl, rfl⟩

/-- **C123 is violated**: of the targets of a makefile only those without prerequisites are found: their
lines end with the colon. -/
theorem C123_make_violated (target deps : Str) (h : deps.getLast? ≠ some ':') (hd : deps ≠ []) :
    makeTarget (target ++ c!": " ++ deps) = none := by
  unfold makeTarget
  rw [if_neg]
  rw [List.getLast?_append]
  cases hl : deps.getLast? with
  | none => exact (hd (List.getLast?_eq_none_iff.1 hl)).elim
  | some c => rw [hl] at h; simpa using h

/-- Such a line: `all: main.o`. -/
example : makeTarget c!"all: main.o" = none ∧ makeTarget c!"all:" = some c!"all" := by decide

/-- **C123 is violated**: in a `Taskfile`, keys the shell does not know and lines of commands are taken for
tasks, and a name with a colon is cut. -/
theorem C123_taskfile_violated :
    taskfileNames false [c!"version: '3'", c!"tasks:", c!"  docker:build:", c!"    silent: true", c!"    cmds:", c!"      - echo done: ok"] =
      [c!"docker", c!"silent", c!"- echo done"] := by decide

/-- The keys of a task the shell knows. -/
def knownKeys : List Str := [c!"desc", c!"cmd", c!"cmds", c!"deps", c!"vars", c!"env"]

/-- A line of a task's body that is read as such: a known key, or a text without a colon, indented. -/
def BodyLine (l : Str) : Prop :=
  ∃ t, (c!"  ").isPrefixOf l = true ∧ trim l = t ∧
    ((':' ∉ t) ∨ ∃ k v, k ∈ knownKeys ∧ t = k ++ c!":" ++ v)

/-- A name that is read as such. -/
def TaskName (n : Str) : Prop := n ≠ [] ∧ ':' ∉ n ∧ trim n = n ∧ n.head? ≠ some '#' ∧ n.head? ≠ some '{' ∧ n ∉ knownKeys

theorem taskfile_body {l : Str} (h : BodyLine l) (ls : List Str) : taskfileNames true (l :: ls) = taskfileNames true ls := by
  obtain ⟨t, h1, h2, h3⟩ := h
  rw [taskfileNames]
  dsimp only
  rw [h2]
  split
  · rfl
  · rw [if_neg (by simp)]
    rw [if_neg (by
      cases l with
      | nil => simp at h1
      | cons a l => simp at h1; simp [← h1.1])]
    rcases h3 with h3 | ⟨k, v, hk, rfl⟩
    · cases hs : splitColon t with
      | none => rfl
      | some p => exact (h3 (by rw [(splitColon_some hs).1]; simp)).elim
    · have hk' : ':' ∉ k ∧ trim k = k := by
        simp only [knownKeys, List.mem_cons, List.not_mem_nil, or_false] at hk
        rcases hk with rfl | rfl | rfl | rfl | rfl | rfl <;> decide
      have hk : k ∈ taskKeys := hk
      rw [show k ++ c!":" ++ v = k ++ ':' :: v by simp, splitColon_mk hk'.1]
      dsimp only
      rw [hk'.2, if_neg (by simp [h1]), if_pos (by simp [hk])]

theorem trim_name {n : Str} (hn : n ≠ []) (ht : trim n = n) : trim (c!"  " ++ n ++ c!":") = n ++ c!":" := by
  have hs : trimStart n = n := by
    have : trimStart (trimStart n) = trimStart n := by
      unfold trimStart
      clear hn ht
      induction n with
      | nil => rfl
      | cons a n ih =>
        rw [List.dropWhile_cons]
        split
        · exact ih
        · next h => rw [List.dropWhile_cons, if_neg h]
    cases hx : trimStart n with
    | nil => rw [trim, hx] at ht; exact (hn ht.symm).elim
    | cons a l =>
      have hle : (trimStart n).length ≤ n.length := by
        unfold trimStart
        exact List.Sublist.length_le (List.dropWhile_sublist _)
      have hle2 : (trimEnd (trimStart n)).length ≤ (trimStart n).length := by
        unfold trimEnd
        rw [List.length_reverse]
        refine Nat.le_trans (List.Sublist.length_le (List.dropWhile_sublist _)) (by simp)
      rw [← hx]
      have hlen : (trimStart n).length = n.length := by
        have : (trimEnd (trimStart n)).length = n.length := by
          rw [show trimEnd (trimStart n) = trim n from rfl, ht]
        omega
      unfold trimStart at hlen ⊢
      exact (List.dropWhile_sublist _).eq_of_length hlen
  have h1 : trimStart (c!"  " ++ n ++ c!":") = n ++ c!":" := by
    unfold trimStart at hs ⊢
    cases n with
    | nil => exact (hn rfl).elim
    | cons a n =>
      have ha : ¬ rustWhitespace a = true := by
        intro ha
        rw [List.dropWhile_cons, if_pos ha] at hs
        have := List.Sublist.length_le (List.dropWhile_sublist (l := n) rustWhitespace)
        rw [hs, List.length_cons] at this
        exact absurd this (Nat.not_succ_le_self _)
      show List.dropWhile rustWhitespace (' ' :: ' ' :: (a :: n ++ c!":")) = _
      rw [List.dropWhile_cons, if_pos (by decide), List.dropWhile_cons, if_pos (by decide), List.cons_append,
        List.dropWhile_cons, if_neg ha]
  unfold trim
  rw [h1]
  unfold trimEnd
  rw [List.reverse_append]
  show (List.dropWhile rustWhitespace (':' :: n.reverse)).reverse = _
  rw [List.dropWhile_cons, if_neg (by decide)]
  simp

/-- **C123 (partial)**: in a `Taskfile` whose tasks stand at two blanks and use only the keys the shell
knows, exactly the tasks are found, in order. -/
theorem C123_taskfile_partial (header : List Str) (hh : ∀ l ∈ header, trim l ≠ c!"tasks:") (tasks : List (Str × List Str))
    (ht : ∀ p ∈ tasks, TaskName p.1 ∧ ∀ l ∈ p.2, BodyLine l) :
    taskfileNames false (header ++ c!"tasks:" :: tasks.flatMap fun p => (c!"  " ++ p.1 ++ c!":") :: p.2) = tasks.map (·.1) := by
  have h1 : ∀ (ls : List Str), taskfileNames false (header ++ c!"tasks:" :: ls) = taskfileNames true ls := by
    intro ls
    induction header with
    | nil =>
      have : trim c!"tasks:" = c!"tasks:" := by decide
      simp only [List.nil_append, taskfileNames, this]
      simp
    | cons l header ih =>
      rw [List.cons_append, taskfileNames]
      dsimp only
      have ih := ih (fun l hl => hh l (by simp [hl]))
      split
      · exact ih
      · rw [if_pos (by simp), decide_eq_false (hh l (by simp))]; exact ih
  rw [h1]
  have hbody : ∀ (b : List Str) (ls : List Str), (∀ l ∈ b, BodyLine l) → taskfileNames true (b ++ ls) = taskfileNames true ls := by
    intro b ls hb
    induction b with
    | nil => rfl
    | cons l b ih => rw [List.cons_append, taskfile_body (hb l (by simp)), ih (fun x hx => hb x (by simp [hx]))]
  clear h1 hh
  induction tasks with
  | nil => rfl
  | cons p tasks ih =>
    obtain ⟨⟨n1, n2, n3, n4, n5, n6⟩, hp⟩ := ht p (by simp)
    have n6 : p.1 ∉ taskKeys := n6
    rw [List.flatMap_cons, List.map_cons, List.cons_append, taskfileNames]
    dsimp only
    rw [trim_name n1 n3]
    have hhead : (p.1 ++ c!":").head? = p.1.head? := by
      cases hx : p.1 with
      | nil => exact (n1 hx).elim
      | cons a l => rfl
    rw [if_neg (by simp [n4, hhead]), if_neg (by simp), if_neg (by simp), show p.1 ++ c!":" = p.1 ++ ':' :: [] from rfl, splitColon_mk n2]
    dsimp only
    rw [if_neg (by simp), n3, if_neg (by simp [n1, n5, n6])]
    rw [hbody _ _ hp, ih (fun q hq => ht q (by simp [hq]))]

/-- The hypotheses are met by a usual file. -/
example : taskfileNames false ([c!"version: '3'", []] ++ c!"tasks:" ::
    [(c!"build", [c!"    desc: Build", c!"    cmds:", c!"      - go build"]), (c!"test", [c!"    cmd: go test"])].flatMap
      fun p => (c!"  " ++ p.1 ++ c!":") :: p.2) = [c!"build", c!"test"] := by
  refine C123_taskfile_partial _ (by decide) _ ?_
  intro p hp
  simp only [List.mem_cons, List.not_mem_nil, or_false] at hp
  rcases hp with rfl | rfl
  · refine ⟨by unfold TaskName; decide, ?_⟩
    intro l hl
    simp only [List.mem_cons, List.not_mem_nil, or_false] at hl
    rcases hl with rfl | rfl | rfl
    · exact ⟨_, by decide, rfl, .inr ⟨c!"desc", c!" Build", by decide, by decide⟩⟩
    · exact ⟨_, by decide, rfl, .inr ⟨c!"cmds", [], by decide, by decide⟩⟩
    · exact ⟨_, by decide, rfl, .inl (by decide)⟩
  · refine ⟨by unfold TaskName; decide, ?_⟩
    intro l hl
    simp only [List.mem_cons, List.not_mem_nil, or_false] at hl
    subst hl
    exact ⟨_, by decide, rfl, .inr ⟨c!"cmd", c!" go test", by decide, by decide⟩⟩

/-- **C120 is violated** for tasks too: whatever the task, `sh` is asked for a file named `sh`. -/
theorem C120_task_violated (ok : Disp → Bool) (i : Bool) (menu : List Task → Option Task) (P : Project) (args : List Str)
    (t : Task) (d : Disp) (st : Nat) (h : task ok i menu P args = .ran t d st) :
    d = .exec ⟨c!"sh", [c!"sh", c!"-c", t.command]⟩ ∧ (∀ line, ¬ RunsLine d line) ∧ (st = 0 ↔ ok d = true) := by
  have key : executeTask ok t = .ran t d st → d = .exec ⟨c!"sh", [c!"sh", c!"-c", t.command]⟩ ∧ (∀ line, ¬ RunsLine d line) ∧ (st = 0 ↔ ok d = true) := by
    intro h
    simp only [executeTask, TaskOut.ran.injEq, true_and] at h
    obtain ⟨hd, hst⟩ := h
    rw [hd] at hst
    have hd : d = .exec ⟨c!"sh", [c!"sh", c!"-c", t.command]⟩ := hd.symm
    refine ⟨hd, ?_, ?_⟩
    · rintro line ⟨e, he, -, ps, hps⟩
      rw [hd] at he
      simp only [Disp.exec.injEq] at he
      subst he
      have h1 : shDoes [c!"sh", c!"-c", t.command] = .script c!"sh" [c!"-c", t.command] := rfl
      rw [h1] at hps
      cases hps
    · rw [← hst]
      by_cases hk : ok d = true
      · rw [if_pos hk]; simp [hk]
      · rw [if_neg hk]; simp [hk]
  have ex : ∀ x, executeTask ok x = .ran t d st → x = t := by
    intro x hx
    simp only [executeTask, TaskOut.ran.injEq] at hx
    exact hx.1
  unfold task at h
  split at h
  · cases h
  · split at h
    · cases h
    · split at h
      · cases h
      · split at h
        · cases h
        · split at h
          · cases h
          · split at h
            · split at h
              · next x _ => exact key (ex x h ▸ h)
              · cases h
              · cases h
            · dsimp only at h
              split at h
              · cases h
              · split at h
                · cases h
                · split at h
                  · next x _ => exact key (ex x h ▸ h)
                  · cases h

end Dsh.Saved
