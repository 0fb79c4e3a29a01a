import Verif.Env.Path
/-!
Environments of directories (dsh/src/direnv.rs): C35, C94, C95.

Absolute paths are lists of components, so that `Path::starts_with` is the prefix relation.
`to_uppercase` is modelled for ASCII letters only.
-/
namespace Dsh.Env

/-! ### Model -/

/-- One line of an environment file (direnv.rs:9-25); `old` is never read. -/
inductive Entry
  | env (k v : Str)
  | pathAdd (p : Str)
deriving DecidableEq

/-- `DirEnvironment` (direnv.rs:28-33). -/
structure Root where
  path : List Str
  entries : List Entry
  /-- The `PATH` of the shell's own process when the directory was allowed. -/
  envPath : Str
  loaded : Bool

/-- A file: missing, not readable as text, or a text. -/
inductive File
  | absent | bad | text (s : Str)

/-- The files `.env` and `.envrc` of a directory. -/
structure EnvFiles where
  env : File
  envrc : File

/-- A result, an error, or the end of the shell by a panic. -/
inductive Res (α : Type) where
  | ok (a : α) | err | panic
deriving DecidableEq

/-- `str::lines`; a carriage return at the end of a line is kept, every value is trimmed anyway. -/
def lines (s : Str) : List Str :=
  let l := splitOn '\n' s
  if l.getLast? = some [] then l.dropLast else l

/-- `to_uppercase` for ASCII. -/
def upper (s : Str) : Str := s.map Char.toUpper

/-- Stop at the first line that is not understood. -/
def collectLines {α : Type} (f : Str → Option (List α)) : List Str → Res (List α)
  | [] => .ok []
  | l :: ls => match f l, collectLines f ls with
    | none, _ => .panic
    | some _, .panic => .panic
    | some _, .err => .err
    | some a, .ok b => .ok (a ++ b)

/-- One line of `.env` (direnv.rs:122-125): without `=` the access to `parts[1]` panics. -/
def envLine (l : Str) : Option (List Entry) :=
  match splitOnce '=' l with
  | some (k, v) => some [.env (upper (trim k)) (trim v)]
  | none => none

/-- Strip one pair of quotes (direnv.rs:151-156). -/
def unquote (v : Str) : Str :=
  if ((v.head? = some '"' ∧ v.getLast? = some '"') ∨ (v.head? = some '\'' ∧ v.getLast? = some '\'')) ∧ 2 ≤ v.length then
    (v.drop 1).dropLast
  else v

/-- One line of `.envrc` (direnv.rs:136-161): without a space, or with `export` but without `=`, the
access to `parts[1]` panics. -/
def envrcLine (l : Str) : Option (List Entry) :=
  match splitOnce ' ' l with
  | none => none
  | some (c, v) =>
    if upper (trim c) = c!"PATH_ADD" then some [.pathAdd (trim v)]
    else if upper (trim c) = c!"EXPORT" then
      match splitOnce '=' (trim v) with
      | some (k, x) => some [.env (upper (trim k)) (unquote (trim x))]
      | none => none
    else some []

/-- `read_env_file` (direnv.rs:91-115) for a process that has a `PATH`. -/
def readFiles (f : EnvFiles) : Res (List Entry) :=
  match f.env with
  | .text s => collectLines envLine (lines s)
  | .bad => .err
  | .absent => match f.envrc with
    | .text s => collectLines envrcLine (lines s)
    | .bad => .err
    | .absent => .ok []

/-- The loop of `set_env` (direnv.rs:52-64). -/
def setEntries (e : State) (p : Str) : List Entry → State × Str
  | [] => (e, p)
  | .env k v :: l => setEntries (setSys e k v) p l
  | .pathAdd q :: l => setEntries e (q ++ p) l

/-- `set_env` (direnv.rs:46-68). -/
def setEnv (e : State) (l : List Entry) : State :=
  let r := setEntries e ((e.sys.get PATH).getD []) l
  setSys r.1 PATH r.2

/-- The loop of `remove_env` (direnv.rs:75-84). -/
def unsetEntries (e : State) : List Entry → State
  | [] => e
  | .env k _ :: l => unsetEntries (unsetSys e k) l
  | .pathAdd _ :: l => unsetEntries e l

/-- Is there a `PATH_ADD` among the entries? -/
def hasPathAdd (l : List Entry) : Bool := l.any fun x => match x with
  | .pathAdd _ => true
  | _ => false

/-- `remove_env` (direnv.rs:70-89). -/
def removeEnv (e : State) (r : Root) : State :=
  let e' := unsetEntries e r.entries
  if hasPathAdd r.entries then setSys e' PATH r.envPath else e'

/-- Outcome of `check_path`. -/
structure Checked where
  status : Res Unit
  e : State
  roots : List Root

/-- `check_path` (direnv.rs:166-206): the directories are looked at in order; an error ends the
function when the directory is out of the list and before `reload_path`. -/
def checkRoots (files : List Str → EnvFiles) (pwd : List Str) (e : State) : List Root → Checked
  | [] => ⟨.ok (), reloadPath e, []⟩
  | r :: rs =>
    if r.path.isPrefixOf pwd && !r.loaded then
      match readFiles (files r.path) with
      | .ok es =>
        let r' := { r with entries := r.entries ++ es, loaded := true }
        let o := checkRoots files pwd (setEnv e r'.entries) rs
        { o with roots := r' :: o.roots }
      | .err => ⟨.err, e, rs⟩
      | .panic => ⟨.panic, e, rs⟩
    else if !r.path.isPrefixOf pwd && r.loaded then
      let o := checkRoots files pwd (removeEnv e r) rs
      { o with roots := { r with entries := [], loaded := false } :: o.roots }
    else
      let o := checkRoots files pwd e rs
      { o with roots := r :: o.roots }

/-- The shell as far as variables are concerned. -/
structure Sh where
  e : State
  roots : List Root

/-- A path as text. -/
def showPath (p : List Str) : Str := if p = [] then c!"/" else p.flatMap fun c => '/' :: c

/-- A successful change of directory (proxy/mod.rs:90-112, shell/hooks.rs:10-14). -/
def cdSh (files : List Str → EnvFiles) (s : Sh) (old new : List Str) : Res Sh :=
  let e := setSys (setVar s.e c!"OLDPWD" (showPath old)) c!"PWD" (showPath new)
  let o := checkRoots files new e s.roots
  match o.status with
  | .ok _ => .ok ⟨o.e, o.roots⟩
  | .err => .err
  | .panic => .panic

/-- What the user does: a change of directory, with the files as they are at that moment, or a
command about variables. -/
inductive Act
  | cd (files : List Str → EnvFiles) (old new : List Str)
  | op (o : Op)

/-- A walk through directories; it ends with the first error. -/
def walk (s : Sh) : List Act → Res Sh
  | [] => .ok s
  | .cd files old new :: l => match cdSh files s old new with
    | .ok s => walk s l
    | .err => .err
    | .panic => .panic
  | .op o :: l => walk { s with e := step s.e o } l

/-- `allow_direnv` for a directory (lisp/builtin.rs:166-181). -/
def allow (path : List Str) (processPath : Str) : Root := ⟨path, [], processPath, false⟩

/-! ### Effects of loading and unloading -/

/-- The entry assigns this variable. -/
def Entry.assigns (k : Str) : Entry → Prop
  | .env k' _ => k' = k
  | .pathAdd _ => False

theorem setSys_sys (e : State) (k v : Str) : (setSys e k v).sys = e.sys.insert k v := by
  simp only [setSys]; split <;> rfl
theorem unsetSys_sys (e : State) (k : Str) : (unsetSys e k).sys = e.sys.erase k := by
  simp only [unsetSys]; split <;> rfl

theorem setSys_rest (e : State) (k v : Str) : (setSys e k v).vars = e.vars ∧ (setSys e k v).exported = e.exported := by
  simp only [setSys]; split <;> exact ⟨rfl, rfl⟩
theorem unsetSys_rest (e : State) (k : Str) : (unsetSys e k).vars = e.vars ∧ (unsetSys e k).exported = e.exported := by
  simp only [unsetSys]; split <;> exact ⟨rfl, rfl⟩

theorem setEntries_rest (l : List Entry) : ∀ (e : State) (p : Str),
    (setEntries e p l).1.vars = e.vars ∧ (setEntries e p l).1.exported = e.exported := by
  induction l with
  | nil => intro e p; exact ⟨rfl, rfl⟩
  | cons x l ih =>
    intro e p
    cases x with
    | env k v =>
      rw [setEntries, (ih _ p).1, (ih _ p).2]
      exact setSys_rest e k v
    | pathAdd q => exact ih e _

theorem unsetEntries_rest (l : List Entry) : ∀ (e : State),
    (unsetEntries e l).vars = e.vars ∧ (unsetEntries e l).exported = e.exported := by
  induction l with
  | nil => intro e; exact ⟨rfl, rfl⟩
  | cons x l ih =>
    intro e
    cases x with
    | env k v =>
      rw [unsetEntries, (ih _).1, (ih _).2]
      exact unsetSys_rest e k
    | pathAdd q => exact ih e

theorem setEntries_get (l : List Entry) : ∀ (e : State) (p k : Str), (∀ x ∈ l, ¬ x.assigns k) →
    (setEntries e p l).1.sys.get k = e.sys.get k := by
  induction l with
  | nil => intros; rfl
  | cons x l ih =>
    intro e p k h
    have hx := h x (by simp)
    have hl : ∀ y ∈ l, ¬ y.assigns k := fun y hy => h y (by simp [hy])
    cases x with
    | env k' v =>
      rw [setEntries, ih _ p k hl, setSys_sys, Map.get_insert, if_neg]
      exact fun hk => hx hk.symm
    | pathAdd q => exact ih e _ k hl

theorem setEntries_path (l : List Entry) : ∀ (e : State) (p : Str), hasPathAdd l = false → (setEntries e p l).2 = p := by
  induction l with
  | nil => intros; rfl
  | cons x l ih =>
    intro e p h
    cases x with
    | env k' v => exact ih _ p (by simpa [hasPathAdd] using h)
    | pathAdd q => simp [hasPathAdd] at h

theorem unsetEntries_get (l : List Entry) : ∀ (e : State) (k : Str), (∀ x ∈ l, ¬ x.assigns k) →
    (unsetEntries e l).sys.get k = e.sys.get k := by
  induction l with
  | nil => intros; rfl
  | cons x l ih =>
    intro e k h
    have hx := h x (by simp)
    have hl : ∀ y ∈ l, ¬ y.assigns k := fun y hy => h y (by simp [hy])
    cases x with
    | env k' v =>
      rw [unsetEntries, ih _ k hl, unsetSys_sys, Map.get_erase, if_neg]
      exact fun hk => hx hk.symm
    | pathAdd q => exact ih e k hl

theorem unsetEntries_none (l : List Entry) : ∀ (e : State) (k : Str), e.sys.get k = none →
    (unsetEntries e l).sys.get k = none := by
  induction l with
  | nil => intro e k h; exact h
  | cons x l ih =>
    intro e k h
    cases x with
    | env k' v =>
      refine ih _ k ?_
      rw [unsetSys_sys, Map.get_erase, h]
      split <;> rfl
    | pathAdd q => exact ih e k h

theorem unsetEntries_unset (l : List Entry) : ∀ (e : State) (k : Str), (∃ x ∈ l, x.assigns k) →
    (unsetEntries e l).sys.get k = none := by
  induction l with
  | nil => intro e k h; simp at h
  | cons x l ih =>
    intro e k h
    by_cases hl : ∃ y ∈ l, y.assigns k
    · cases x with
      | env k' v => exact ih _ k hl
      | pathAdd q => exact ih e k hl
    · obtain ⟨y, hy, hk⟩ := h
      rcases List.mem_cons.1 hy with rfl | hy
      · cases y with
        | env k' v =>
          refine unsetEntries_none l _ k ?_
          rw [unsetSys_sys, Map.get_erase, if_pos]
          exact hk.symm
        | pathAdd q => exact absurd hk (by simp [Entry.assigns])
      · exact absurd ⟨y, hy, hk⟩ hl

/-! ### C35: leaving restores -/

/-- What the theorem asks of the entries of a directory: the variables assigned are those described by
`K`, and `path_add` only occurs if the search path to be restored is `v`. -/
def EntryOk (K : Str → Prop) (v envPath : Str) : Entry → Prop
  | .env k _ => K k
  | .pathAdd _ => envPath = v

/-- The shell compared with one that does not know the directories. -/
structure Like (K : Str → Prop) (v : Str) (e : State) (roots : List Root) (t : State) : Prop where
  vars : e.vars = t.vars
  exported : e.exported = t.exported
  other : ∀ k, ¬ K k → k ≠ PATH → e.sys.get k = t.sys.get k
  fresh : ∀ k, K k → t.sys.get k = none
  key : ∀ k, K k → e.sys.get k ≠ none → ∃ r ∈ roots, r.loaded = true ∧ ∃ x ∈ r.entries, x.assigns k
  path0 : t.sys.get PATH = some v
  path : e.sys.get PATH = some v ∨ ∃ r ∈ roots, r.loaded = true ∧ hasPathAdd r.entries = true
  idle : ∀ r ∈ roots, r.loaded = false → r.entries = []
  ok : ∀ r ∈ roots, ∀ x ∈ r.entries, EntryOk K v r.envPath x

theorem Like.notPath {K v e roots t} (h : Like K v e roots t) : ¬ K PATH := by
  intro hk
  have := h.fresh _ hk
  rw [h.path0] at this
  simp at this

theorem not_assigns {K : Str → Prop} {v p : Str} {l : List Entry} (h : ∀ x ∈ l, EntryOk K v p x) {k : Str} (hk : ¬ K k) :
    ∀ x ∈ l, ¬ x.assigns k := by
  intro x hx ha
  cases x with
  | env k' w =>
    have := h _ hx
    simp only [Entry.assigns] at ha
    subst ha
    exact hk this
  | pathAdd q => exact ha

theorem hasPathAdd_envPath {K : Str → Prop} {v p : Str} {l : List Entry} (h : ∀ x ∈ l, EntryOk K v p x)
    (hp : hasPathAdd l = true) : p = v := by
  simp only [hasPathAdd, List.any_eq_true] at hp
  obtain ⟨x, hx, h2⟩ := hp
  cases x with
  | env k w => simp at h2
  | pathAdd q => exact h _ hx

theorem like_reload {K v e roots t} (h : Like K v e roots t) : Like K v (reloadPath e) roots (reloadPath t) :=
  ⟨h.vars, h.exported, h.other, h.fresh, h.key, h.path0, h.path, h.idle, h.ok⟩

theorem like_load {K v e t} {done rs : List Root} {r : Root} {es : List Entry}
    (h : Like K v e (done ++ r :: rs) t) (hr : r.loaded = false) (hes : ∀ x ∈ es, EntryOk K v r.envPath x) :
    Like K v (setEnv e (r.entries ++ es)) (done ++ { r with entries := r.entries ++ es, loaded := true } :: rs) t := by
  have he : r.entries = [] := h.idle r (by simp) hr
  simp only [he, List.nil_append]
  have hrest := setEntries_rest es e ((e.sys.get PATH).getD [])
  have hset := setSys_rest (setEntries e ((e.sys.get PATH).getD []) es).1 PATH (setEntries e ((e.sys.get PATH).getD []) es).2
  refine ⟨?_, ?_, ?_, h.fresh, ?_, h.path0, ?_, ?_, ?_⟩
  · rw [setEnv, hset.1, hrest.1]; exact h.vars
  · rw [setEnv, hset.2, hrest.2]; exact h.exported
  · intro k hk hp
    rw [setEnv, setSys_sys, Map.get_insert, if_neg hp, setEntries_get es _ _ k (not_assigns hes hk)]
    exact h.other k hk hp
  · intro k hk hne
    by_cases ha : ∃ x ∈ es, x.assigns k
    · exact ⟨{ r with entries := es, loaded := true }, by simp, rfl, ha⟩
    · have hkp : k ≠ PATH := fun hkp => h.notPath (hkp ▸ hk)
      rw [setEnv, setSys_sys, Map.get_insert, if_neg hkp,
        setEntries_get es _ _ k (fun x hx hxa => ha ⟨x, hx, hxa⟩)] at hne
      obtain ⟨r', hr', hl, hx⟩ := h.key k hk hne
      refine ⟨r', ?_, hl, hx⟩
      simp only [List.mem_append, List.mem_cons] at hr' ⊢
      rcases hr' with h1 | rfl | h1
      · exact .inl h1
      · rw [hr] at hl; simp at hl
      · exact .inr (.inr h1)
  · by_cases hp : hasPathAdd es = true
    · exact .inr ⟨{ r with entries := es, loaded := true }, by simp, rfl, hp⟩
    · rw [Bool.not_eq_true] at hp
      rcases h.path with h1 | ⟨r', hr', hl, hx⟩
      · refine .inl ?_
        rw [setEnv, setSys_sys, Map.get_insert, if_pos rfl, setEntries_path es _ _ hp, h1]
        rfl
      · refine .inr ⟨r', ?_, hl, hx⟩
        simp only [List.mem_append, List.mem_cons] at hr' ⊢
        rcases hr' with h1 | rfl | h1
        · exact .inl h1
        · rw [hr] at hl; simp at hl
        · exact .inr (.inr h1)
  · intro r' hr' hl
    simp only [List.mem_append, List.mem_cons] at hr'
    rcases hr' with h1 | rfl | h1
    · exact h.idle r' (by simp [h1]) hl
    · simp at hl
    · exact h.idle r' (by simp [h1]) hl
  · intro r' hr'
    simp only [List.mem_append, List.mem_cons] at hr'
    rcases hr' with h1 | rfl | h1
    · exact h.ok r' (by simp [h1])
    · exact hes
    · exact h.ok r' (by simp [h1])

theorem like_unload {K v e t} {done rs : List Root} {r : Root} (h : Like K v e (done ++ r :: rs) t) :
    Like K v (removeEnv e r) (done ++ { r with entries := [], loaded := false } :: rs) t := by
  have hes := h.ok r (by simp)
  have hrest := unsetEntries_rest r.entries e
  have hstep : ∀ k, k ≠ PATH → (removeEnv e r).sys.get k = (unsetEntries e r.entries).sys.get k := by
    intro k hk
    simp only [removeEnv]
    split
    · rw [setSys_sys, Map.get_insert, if_neg hk]
    · rfl
  refine ⟨?_, ?_, ?_, h.fresh, ?_, h.path0, ?_, ?_, ?_⟩
  · simp only [removeEnv]; split
    · rw [(setSys_rest _ _ _).1, hrest.1]; exact h.vars
    · rw [hrest.1]; exact h.vars
  · simp only [removeEnv]; split
    · rw [(setSys_rest _ _ _).2, hrest.2]; exact h.exported
    · rw [hrest.2]; exact h.exported
  · intro k hk hp
    rw [hstep k hp, unsetEntries_get _ _ k (not_assigns hes hk)]
    exact h.other k hk hp
  · intro k hk hne
    have hkp : k ≠ PATH := fun hkp => h.notPath (hkp ▸ hk)
    rw [hstep k hkp] at hne
    have hna : ¬ ∃ x ∈ r.entries, x.assigns k := fun ha => hne (unsetEntries_unset _ _ k ha)
    rw [unsetEntries_get _ _ k (fun x hx ha => hna ⟨x, hx, ha⟩)] at hne
    obtain ⟨r', hr', hl, hx⟩ := h.key k hk hne
    refine ⟨r', ?_, hl, hx⟩
    simp only [List.mem_append, List.mem_cons] at hr' ⊢
    rcases hr' with h1 | rfl | h1
    · exact .inl h1
    · exact absurd hx hna
    · exact .inr (.inr h1)
  · by_cases hp : hasPathAdd r.entries = true
    · refine .inl ?_
      simp only [removeEnv, if_pos hp]
      rw [setSys_sys, Map.get_insert, if_pos rfl, hasPathAdd_envPath hes hp]
    · have hg : (removeEnv e r).sys.get PATH = e.sys.get PATH := by
        simp only [removeEnv, if_neg hp]
        exact unsetEntries_get _ _ _ (not_assigns hes h.notPath)
      rcases h.path with h1 | ⟨r', hr', hl, hx⟩
      · exact .inl (hg.trans h1)
      · refine .inr ⟨r', ?_, hl, hx⟩
        simp only [List.mem_append, List.mem_cons] at hr' ⊢
        rcases hr' with h1 | rfl | h1
        · exact .inl h1
        · exact absurd hx hp
        · exact .inr (.inr h1)
  · intro r' hr' hl
    simp only [List.mem_append, List.mem_cons] at hr'
    rcases hr' with h1 | rfl | h1
    · exact h.idle r' (by simp [h1]) hl
    · rfl
    · exact h.idle r' (by simp [h1]) hl
  · intro r' hr'
    simp only [List.mem_append, List.mem_cons] at hr'
    rcases hr' with h1 | rfl | h1
    · exact h.ok r' (by simp [h1])
    · simp
    · exact h.ok r' (by simp [h1])

theorem like_check {K v} (files : List Str → EnvFiles) (pwd : List Str) (t : State) : ∀ (rs done : List Root) (e : State),
    (∀ r ∈ rs, ∀ es, readFiles (files r.path) = .ok es → ∀ x ∈ es, EntryOk K v r.envPath x) →
    Like K v e (done ++ rs) t → (checkRoots files pwd e rs).status = .ok () →
    Like K v (checkRoots files pwd e rs).e (done ++ (checkRoots files pwd e rs).roots) (reloadPath t) := by
  intro rs
  induction rs with
  | nil => intro done e _ h _; exact like_reload h
  | cons r rs ih =>
    intro done e hf h hok
    have hf' : ∀ r ∈ rs, ∀ es, readFiles (files r.path) = .ok es → ∀ x ∈ es, EntryOk K v r.envPath x :=
      fun r' hr' => hf r' (by simp [hr'])
    rw [checkRoots] at hok ⊢
    by_cases h1 : (r.path.isPrefixOf pwd && !r.loaded) = true
    · rw [if_pos h1] at hok ⊢
      have hl : r.loaded = false := by simp at h1; exact h1.2
      cases hr : readFiles (files r.path) with
      | ok es =>
        simp only [hr] at hok ⊢
        have := like_load h hl (hf r (by simp) es hr)
        have := ih (done ++ [{ r with entries := r.entries ++ es, loaded := true }]) _ hf' (by simpa using this) hok
        simpa using this
      | err => simp [hr] at hok
      | panic => simp [hr] at hok
    · rw [if_neg h1] at hok ⊢
      by_cases h2 : (!r.path.isPrefixOf pwd && r.loaded) = true
      · rw [if_pos h2] at hok ⊢
        have := like_unload h
        have := ih (done ++ [{ r with entries := [], loaded := false }]) _ hf' (by simpa using this) hok
        simpa using this
      · rw [if_neg h2] at hok ⊢
        have := ih (done ++ [r]) e hf' (by simpa using h) hok
        simpa using this

/-- Afterwards exactly the directories that contain the working directory are loaded. -/
theorem check_loaded (files : List Str → EnvFiles) (pwd : List Str) : ∀ (rs : List Root) (e : State),
    (checkRoots files pwd e rs).status = .ok () →
    (∀ r ∈ (checkRoots files pwd e rs).roots, r.loaded = r.path.isPrefixOf pwd) ∧
    (checkRoots files pwd e rs).roots.map (fun r => (r.path, r.envPath)) = rs.map fun r => (r.path, r.envPath) := by
  intro rs
  induction rs with
  | nil => intro e _; simp [checkRoots]
  | cons r rs ih =>
    intro e hok
    rw [checkRoots] at hok ⊢
    by_cases h1 : (r.path.isPrefixOf pwd && !r.loaded) = true
    · rw [if_pos h1] at hok ⊢
      simp only [Bool.and_eq_true, Bool.not_eq_true'] at h1
      cases hr : readFiles (files r.path) with
      | ok es =>
        simp only [hr] at hok ⊢
        obtain ⟨ih1, ih2⟩ := ih _ hok
        refine ⟨?_, by simp [ih2]⟩
        intro r' hr'
        rcases List.mem_cons.1 hr' with rfl | hr'
        · exact h1.1.symm
        · exact ih1 r' hr'
      | err => simp [hr] at hok
      | panic => simp [hr] at hok
    · rw [if_neg h1] at hok ⊢
      by_cases h2 : (!r.path.isPrefixOf pwd && r.loaded) = true
      · rw [if_pos h2] at hok ⊢
        simp only [Bool.and_eq_true, Bool.not_eq_true'] at h2
        obtain ⟨ih1, ih2⟩ := ih _ hok
        refine ⟨?_, by simp [ih2]⟩
        intro r' hr'
        rcases List.mem_cons.1 hr' with rfl | hr'
        · exact h2.1.symm
        · exact ih1 r' hr'
      · rw [if_neg h2] at hok ⊢
        obtain ⟨ih1, ih2⟩ := ih _ hok
        refine ⟨?_, by simp [ih2]⟩
        intro r' hr'
        rcases List.mem_cons.1 hr' with rfl | hr'
        · revert h1 h2
          cases r'.path.isPrefixOf pwd <;> cases r'.loaded <;> simp
        · exact ih1 r' hr'

/-- What the theorem asks of an action: nothing about `K`, about `PATH` as a system variable, and the
files of the known directories assign variables of `K` only. -/
def ActOk (K : Str → Prop) (v : Str) (roots : List Root) : Act → Prop
  | .op (.setx k _) => ¬ K k ∧ k ≠ PATH
  | .op (.unset k) => ¬ K k ∧ k ≠ PATH
  | .op _ => True
  | .cd files _ _ => ∀ r ∈ roots, ∀ es, readFiles (files r.path) = .ok es → ∀ x ∈ es, EntryOk K v r.envPath x

theorem like_op {K v e roots t} (h : Like K v e roots t) {o : Op} (ho : ActOk K v roots (.op o)) :
    Like K v (step e o) roots (step t o) := by
  cases o with
  | set k x => exact ⟨by simp [step, setVar, h.vars], h.exported, h.other, h.fresh, h.key, h.path0, h.path, h.idle, h.ok⟩
  | read k x => exact ⟨by simp [step, readVar, setVar, h.vars], h.exported, h.other, h.fresh, h.key, h.path0, h.path, h.idle, h.ok⟩
  | exp a =>
    simp only [step, exportArg]
    split
    · exact ⟨by simp [setAndExport, h.vars], by simp [setAndExport, h.exported], h.other, h.fresh, h.key, h.path0, h.path, h.idle, h.ok⟩
    · exact ⟨h.vars, by simp [exportVar, h.exported], h.other, h.fresh, h.key, h.path0, h.path, h.idle, h.ok⟩
  | setx k x =>
    obtain ⟨h1, h2⟩ := ho
    simp only [step, setSys, if_neg h2]
    have hg : ∀ (m : Map) k', k' ≠ k → (m.insert k x).get k' = m.get k' := fun m k' hk => by rw [Map.get_insert, if_neg hk]
    have hK : ∀ k', K k' → k' ≠ k := fun k' hk' e => h1 (e ▸ hk')
    refine ⟨h.vars, h.exported, ?_, ?_, ?_, ?_, ?_, h.idle, h.ok⟩
    · intro k' hk' hp
      show (e.sys.insert k x).get k' = (t.sys.insert k x).get k'
      by_cases hkk : k' = k
      · rw [Map.get_insert, Map.get_insert, if_pos hkk, if_pos hkk]
      · rw [hg _ _ hkk, hg _ _ hkk]; exact h.other k' hk' hp
    · intro k' hk'
      exact (hg _ _ (hK k' hk')).trans (h.fresh k' hk')
    · intro k' hk' hne
      exact h.key k' hk' (fun hn => hne ((hg _ _ (hK k' hk')).trans hn))
    · exact (hg _ _ (Ne.symm h2)).trans h.path0
    · rcases h.path with hp | hp
      · exact .inl ((hg _ _ (Ne.symm h2)).trans hp)
      · exact .inr hp
  | unset k =>
    obtain ⟨h1, h2⟩ := ho
    simp only [step, unsetSys, if_neg h2]
    have hg : ∀ (m : Map) k', k' ≠ k → (m.erase k).get k' = m.get k' := fun m k' hk => by rw [Map.get_erase, if_neg hk]
    have hK : ∀ k', K k' → k' ≠ k := fun k' hk' e => h1 (e ▸ hk')
    refine ⟨h.vars, h.exported, ?_, ?_, ?_, ?_, ?_, h.idle, h.ok⟩
    · intro k' hk' hp
      show (e.sys.erase k).get k' = (t.sys.erase k).get k'
      by_cases hkk : k' = k
      · rw [Map.get_erase, Map.get_erase, if_pos hkk, if_pos hkk]
      · rw [hg _ _ hkk, hg _ _ hkk]; exact h.other k' hk' hp
    · intro k' hk'
      exact (hg _ _ (hK k' hk')).trans (h.fresh k' hk')
    · intro k' hk' hne
      exact h.key k' hk' (fun hn => hne ((hg _ _ (hK k' hk')).trans hn))
    · exact (hg _ _ (Ne.symm h2)).trans h.path0
    · rcases h.path with hp | hp
      · exact .inl ((hg _ _ (Ne.symm h2)).trans hp)
      · exact .inr hp

theorem actOk_congr {K v} {r₁ r₂ : List Root} (h : r₁.map (fun r => (r.path, r.envPath)) = r₂.map fun r => (r.path, r.envPath))
    {a : Act} (ha : ActOk K v r₁ a) : ActOk K v r₂ a := by
  cases a with
  | op o => cases o <;> exact ha
  | cd files old new =>
    intro r hr es he
    have : (r.path, r.envPath) ∈ r₁.map (fun r => (r.path, r.envPath)) := by
      rw [h]; exact List.mem_map.2 ⟨r, hr, rfl⟩
    obtain ⟨r', hr', heq⟩ := List.mem_map.1 this
    simp only [Prod.mk.injEq] at heq
    have := ha r' hr' es (by rw [heq.1]; exact he)
    rw [heq.2] at this
    exact this

theorem like_walk {K v} (hpwd : ¬ K c!"PWD") : ∀ (l : List Act) (s s' : Sh) (t : State), Like K v s.e s.roots t →
    (∀ a ∈ l, ActOk K v s.roots a) → walk s l = .ok s' →
    ∃ t', walk ⟨t, []⟩ l = .ok ⟨t', []⟩ ∧ Like K v s'.e s'.roots t' ∧
      s'.roots.map (fun r => (r.path, r.envPath)) = s.roots.map fun r => (r.path, r.envPath) := by
  intro l
  induction l with
  | nil =>
    intro s s' t h _ hw
    simp only [walk, Res.ok.injEq] at hw ⊢
    subst hw
    exact ⟨t, rfl, h, rfl⟩
  | cons a l ih =>
    intro s s' t h ha hw
    cases a with
    | op o =>
      exact ih { s with e := step s.e o } s' (step t o) (like_op h (ha (.op o) (List.mem_cons_self ..)))
        (fun x hx => ha x (List.mem_cons_of_mem _ hx)) hw
    | cd files old new =>
      have ha0 := ha _ (List.mem_cons_self ..)
      simp only [walk, cdSh] at hw ⊢
      have hset : Like K v (setSys (setVar s.e c!"OLDPWD" (showPath old)) c!"PWD" (showPath new)) s.roots
          (setSys (setVar t c!"OLDPWD" (showPath old)) c!"PWD" (showPath new)) := by
        have h1 : Like K v (step s.e (.set c!"OLDPWD" (showPath old))) s.roots (step t (.set c!"OLDPWD" (showPath old))) :=
          like_op h trivial
        exact like_op (o := .setx c!"PWD" (showPath new)) h1 ⟨hpwd, by decide⟩
      obtain ⟨e1, he1⟩ : ∃ e1, e1 = setSys (setVar s.e c!"OLDPWD" (showPath old)) c!"PWD" (showPath new) := ⟨_, rfl⟩
      rw [← he1] at hset hw
      cases hst : (checkRoots files new e1 s.roots).status with
      | ok u =>
        have hc := like_check files new _ s.roots [] e1 ha0 (by simpa using hset) hst
        have hl := check_loaded files new s.roots e1 hst
        simp only [hst] at hw
        obtain ⟨t', h1, h2, h3⟩ := ih ⟨(checkRoots files new e1 s.roots).e, (checkRoots files new e1 s.roots).roots⟩ s' _
          (by simpa using hc) (fun x hx => actOk_congr hl.2.symm (ha x (by simp [hx]))) hw
        exact ⟨t', h1, h2, h3.trans hl.2⟩
      | err => simp [hst] at hw
      | panic => simp [hst] at hw

theorem walk_append (s : Sh) (l₁ l₂ : List Act) : walk s (l₁ ++ l₂) = match walk s l₁ with
    | .ok s => walk s l₂
    | .err => .err
    | .panic => .panic := by
  induction l₁ generalizing s with
  | nil => rfl
  | cons a l ih =>
    cases a with
    | op o => exact ih _
    | cd files old new =>
      simp only [List.cons_append, walk]
      cases cdSh files s old new with
      | ok s' => exact ih s'
      | err => rfl
      | panic => rfl

/-- C35, what holds: take any walk through directories, with assignments in between, in a shell with
any number of allowed directories, nested or not, whose files may change on the way.  If the files
assign only variables that were not set before and that nobody else assigns, if `PATH` is set and not
assigned on the way, if the directories with `path_add` were allowed when the shell's own process had
that same `PATH`, and if no file is misread, then after a change to a directory outside all of them
the variables are those of a shell that never knew the directories — and so is the list of
directories searched for commands. -/
theorem C35_restored_partial (K : Str → Prop) (v : Str) (s s' : Sh) (l : List Act) (files : List Str → EnvFiles)
    (old new : List Str) (hK : ∀ k, K k → s.e.sys.get k = none ∧ k ≠ c!"PWD") (hv : s.e.sys.get PATH = some v)
    (hidle : ∀ r ∈ s.roots, r.loaded = false ∧ r.entries = []) (ha : ∀ a ∈ l ++ [.cd files old new], ActOk K v s.roots a)
    (hw : walk s (l ++ [.cd files old new]) = .ok s') (hout : ∀ r ∈ s.roots, ¬ r.path <+: new) :
    ∃ t', walk ⟨s.e, []⟩ (l ++ [.cd files old new]) = .ok ⟨t', []⟩ ∧ (∀ k, s'.e.sys.get k = t'.sys.get k) ∧
      s'.e.vars = t'.vars ∧ s'.e.exported = t'.exported ∧ s'.e.paths = t'.paths ∧ ∀ r ∈ s'.roots, r.loaded = false := by
  have h0 : Like K v s.e s.roots s.e :=
    ⟨rfl, rfl, fun _ _ _ => rfl, fun k hk => (hK k hk).1, fun k hk hne => absurd (hK k hk).1 hne, hv, .inl hv,
      fun r hr _ => (hidle r hr).2, fun r hr x hx => by rw [(hidle r hr).2] at hx; simp at hx⟩
  obtain ⟨t', h1, h2, h3⟩ := like_walk (fun hk => (hK _ hk).2 rfl) _ s s' s.e h0 ha hw
  have hfinal : (∀ r ∈ s'.roots, r.loaded = r.path.isPrefixOf new) ∧ s'.e.paths = pathDirs s'.e.sys := by
    rw [walk_append] at hw
    cases hm : walk s l with
    | ok m =>
      rw [hm] at hw
      simp only [walk, cdSh] at hw
      obtain ⟨e1, he1⟩ : ∃ e1, e1 = setSys (setVar m.e c!"OLDPWD" (showPath old)) c!"PWD" (showPath new) := ⟨_, rfl⟩
      rw [← he1] at hw
      cases hst : (checkRoots files new e1 m.roots).status with
      | ok u =>
        simp only [hst, Res.ok.injEq] at hw
        subst hw
        refine ⟨(check_loaded files new m.roots e1 hst).1, ?_⟩
        have hp : ∀ (rs : List Root) (e : State), (checkRoots files new e rs).status = .ok () →
            (checkRoots files new e rs).e.paths = pathDirs (checkRoots files new e rs).e.sys := by
          intro rs
          induction rs with
          | nil => intro e _; rfl
          | cons r rs ih =>
            intro e hok
            rw [checkRoots] at hok ⊢
            split at hok
            · next hc =>
              rw [if_pos hc]
              split at hok
              · next es hes => exact ih _ hok
              · simp at hok
              · simp at hok
            · next hc =>
              rw [if_neg hc]
              split at hok
              · next hc2 => rw [if_pos hc2]; exact ih _ hok
              · next hc2 => rw [if_neg hc2]; exact ih _ hok
        exact hp m.roots e1 hst
      | err => simp [hst] at hw
      | panic => simp [hst] at hw
    | err => rw [hm] at hw; simp at hw
    | panic => rw [hm] at hw; simp at hw
  have hun : ∀ r ∈ s'.roots, r.loaded = false := by
    intro r hr
    rw [hfinal.1 r hr, Bool.eq_false_iff]
    intro hp
    have : (r.path, r.envPath) ∈ s.roots.map (fun r => (r.path, r.envPath)) := by
      rw [← h3]; exact List.mem_map.2 ⟨r, hr, rfl⟩
    obtain ⟨r', hr', heq⟩ := List.mem_map.1 this
    simp only [Prod.mk.injEq] at heq
    exact hout r' hr' (by rw [heq.1]; exact List.isPrefixOf_iff_prefix.1 hp)
  have hpath : s'.e.sys.get PATH = some v := by
    rcases h2.path with h | ⟨r, hr, hl, _⟩
    · exact h
    · rw [hun r hr] at hl; simp at hl
  have hpaths' : t'.paths = pathDirs t'.sys := by
    rw [walk_append] at h1
    cases hm : walk ⟨s.e, []⟩ l with
    | ok m =>
      have hroots : m.roots = [] := by
        have : ∀ (l : List Act) (m₀ m : Sh), m₀.roots = [] → walk m₀ l = .ok m → m.roots = [] := by
          intro l
          induction l with
          | nil => intro m₀ m h hw; simp only [walk, Res.ok.injEq] at hw; exact hw ▸ h
          | cons a l ih =>
            intro m₀ m h hw
            cases a with
            | op o => exact ih _ m (by simpa using h) hw
            | cd f o n =>
              simp only [walk, cdSh, h, checkRoots] at hw
              exact ih _ m rfl hw
        exact this l _ m rfl hm
      rw [hm] at h1
      simp only [walk, cdSh, hroots, checkRoots, Res.ok.injEq, Sh.mk.injEq, and_true] at h1
      rw [← h1]
      rfl
    | err => rw [hm] at h1; simp at h1
    | panic => rw [hm] at h1; simp at h1
  refine ⟨t', h1, ?_, h2.vars, h2.exported, ?_, hun⟩
  · intro k
    by_cases hk : K k
    · rw [h2.fresh k hk]
      rcases Option.eq_none_or_eq_some (s'.e.sys.get k) with h | ⟨w, h⟩
      · exact h
      · obtain ⟨r, hr, hl, _⟩ := h2.key k hk (by rw [h]; simp)
        rw [hun r hr] at hl; simp at hl
    · by_cases hp : k = PATH
      · subst hp; rw [hpath, h2.path0]
      · exact h2.other k hk hp
  · rw [hfinal.2, hpaths', pathDirs, pathDirs, hpath, h2.path0]

/-- A project whose `.envrc` assigns a variable and adds a directory. -/
def exFiles : List Str → EnvFiles := fun p =>
  if p = [c!"work", c!"app"] then ⟨.absent, .text c!"export API=\"http://x\"\npath_add /opt/bin:"⟩ else ⟨.absent, .absent⟩

/-- The shell at home, with the project allowed. -/
def exSh : Sh := ⟨ex0, [allow [c!"work", c!"app"] c!"/bin:/usr/bin"]⟩

example : readFiles (exFiles [c!"work", c!"app"]) = .ok [.env c!"API" c!"http://x", .pathAdd c!"/opt/bin:"] := by
  decide +kernel

/-- What can be seen after a walk that succeeded. -/
def after {α : Type} (r : Res Sh) (f : Sh → α) : Option α := match r with
  | .ok s => some (f s)
  | _ => none

/-- The walk into the project and out again meets the conditions of the theorem, and inside the
variables are those of the project. -/
example :
    after (walk exSh [.cd exFiles [] [c!"work", c!"app", c!"src"]]) (fun s => (s.e.sys.get c!"API", s.e.sys.get PATH)) =
      some (some c!"http://x", some c!"/opt/bin:/bin:/usr/bin") ∧
    after (walk exSh [.cd exFiles [] [c!"work", c!"app", c!"src"], .cd exFiles [c!"work", c!"app", c!"src"] []])
      (fun s => (s.e.sys.get c!"API", s.e.sys.get PATH)) = some (none, some c!"/bin:/usr/bin") ∧
    exSh.e.sys.get PATH = some c!"/bin:/usr/bin" ∧ exSh.e.sys.get c!"API" = none := by decide +kernel

/-- Entering and leaving one directory. -/
def inOut (files : List Str → EnvFiles) (e : State) (r : Root) (out inside : List Str) : Res Sh :=
  walk ⟨e, [r]⟩ [.cd files out inside, .cd files inside out]

/-- C35, what does not hold: a variable that was set before and that the directory assigns too is
gone after leaving, for all states, values and directories; after leaving a directory with `path_add`
the search path is the one the shell was started with, whatever `set -x PATH` made of it; a missing
`PATH` becomes an empty one; and a file that cannot be read makes the shell forget the directory. -/
theorem C35_violated :
    (∀ (e : State) (r : Root) (k : Str), (∃ x ∈ r.entries, x.assigns k) → k ≠ PATH → (removeEnv e r).sys.get k = none) ∧
    (∀ (e : State) (r : Root), hasPathAdd r.entries = true → (removeEnv e r).sys.get PATH = some r.envPath) ∧
    (let files : List Str → EnvFiles := fun _ => ⟨.text c!"EDITOR=vi", .absent⟩
     after (inOut files (step ex0 (.setx c!"EDITOR" c!"nano")) (allow [c!"w"] c!"/bin") [] [c!"w"])
       (fun s => s.e.sys.get c!"EDITOR") = some none ∧
     (step ex0 (.setx c!"EDITOR" c!"nano")).sys.get c!"EDITOR" = some c!"nano") ∧
    (let files : List Str → EnvFiles := fun _ => ⟨.absent, .text c!"path_add /opt:"⟩
     after (inOut files (step ex0 (.setx PATH c!"/my/bin")) (allow [c!"w"] c!"/bin") [] [c!"w"])
       (fun s => s.e.sys.get PATH) = some (some c!"/bin") ∧
     (step ex0 (.setx PATH c!"/my/bin")).sys.get PATH = some c!"/my/bin") ∧
    (let files : List Str → EnvFiles := fun _ => ⟨.text c!"A=1", .absent⟩
     after (inOut files (step ex0 (.unset PATH)) (allow [c!"w"] c!"/bin") [] [c!"w"])
       (fun s => (s.e.sys.get PATH, s.e.paths)) = some (some [], [[]]) ∧
     (step ex0 (.unset PATH)).paths = defaultPaths) ∧
    (∀ (e : State) (r : Root) (pwd : List Str), r.path <+: pwd → r.loaded = false →
      (checkRoots (fun _ => ⟨.bad, .absent⟩) pwd e [r]).roots = []) := by
  refine ⟨?_, ?_, by decide +kernel, by decide +kernel, by decide +kernel, ?_⟩
  · intro e r k h hk
    simp only [removeEnv]
    split
    · rw [setSys_sys, Map.get_insert, if_neg hk]; exact unsetEntries_unset _ _ k h
    · exact unsetEntries_unset _ _ k h
  · intro e r h
    simp only [removeEnv, if_pos h]
    rw [setSys_sys, Map.get_insert, if_pos rfl]
  · intro e r pwd h1 h2
    have hc : (r.path.isPrefixOf pwd && !r.loaded) = true := by
      rw [h2, List.isPrefixOf_iff_prefix.2 h1]; rfl
    rw [checkRoots, if_pos hc]
    rfl

/-! ### C94: what a file says -/

/-- An assignment as it is written in a `.env` file. -/
structure Asg where
  name : Str
  value : Str
  /-- White space on both sides of the `=`. -/
  pad : Str := []

/-- The text of a file with these assignments. -/
def envText (l : List Asg) : Str := l.flatMap fun a => a.name ++ a.pad ++ '=' :: (a.pad ++ a.value) ++ ['\n']
/-- The same for `.envrc`. -/
def envrcText (l : List Asg) : Str := l.flatMap fun a => c!"export " ++ a.name ++ a.pad ++ '=' :: (a.pad ++ a.value) ++ ['\n']

/-- A name of capital letters, digits and `_`. -/
def CapName (k : Str) : Prop := ∀ c ∈ k, c.isUpper = true ∨ c.isDigit = true ∨ c = '_'

/-- White space within a line. -/
def Blank (s : Str) : Prop := ∀ c ∈ s, rustWhitespace c = true ∧ c ≠ '\n'

/-- No white space at the ends and no line break. -/
def Trimmed (v : Str) : Prop := trim v = v ∧ '\n' ∉ v

theorem splitOn_append {c : Char} : ∀ (a b : Str), c ∉ a → splitOn c (a ++ c :: b) = a :: splitOn c b
  | [], b, _ => by simp [splitOn]
  | x :: a, b, h => by
    have hx : x ≠ c := fun h' => h (by simp [h'])
    have := splitOn_append a b (fun h' => h (List.mem_cons_of_mem _ h'))
    simp [splitOn, hx, this]

theorem splitOn_ne_nil (c : Char) (s : Str) : splitOn c s ≠ [] := by
  cases s with
  | nil => simp [splitOn]
  | cons a s =>
    simp only [splitOn]
    split
    · simp
    · split <;> simp

theorem lines_cons {a b : Str} (h : '\n' ∉ a) : lines (a ++ '\n' :: b) = a :: lines b := by
  simp only [lines, splitOn_append a b h]
  obtain ⟨x, xs, hx⟩ := List.exists_cons_of_ne_nil (splitOn_ne_nil '\n' b)
  rw [hx, List.getLast?_cons_cons]
  split
  · rw [List.dropLast_cons_of_ne_nil (by simp)]
  · rfl

theorem capName_not {k : Str} (h : CapName k) {c : Char} (hc : c.isUpper = false ∧ c.isDigit = false ∧ c ≠ '_') : c ∉ k := by
  intro hm
  rcases h c hm with h' | h' | h'
  · rw [hc.1] at h'; simp at h'
  · rw [hc.2.1] at h'; simp at h'
  · exact hc.2.2 h'

theorem trimStart_id {s : Str} (h : ∀ c ∈ s, rustWhitespace c = false) : trimStart s = s := by
  cases s with
  | nil => rfl
  | cons a s => simp [trimStart, h a (by simp)]

theorem capName_upper {k : Str} (h : CapName k) : upper k = k := by
  induction k with
  | nil => rfl
  | cons c k ih =>
    have hc := h c (by simp)
    simp only [upper, List.map_cons, List.cons.injEq]
    refine ⟨?_, ih fun x hx => h x (by simp [hx])⟩
    unfold Char.toUpper
    split
    · next hlow =>
      exfalso
      simp only [Char.isUpper, Char.isDigit, Bool.and_eq_true, decide_eq_true_eq] at hc
      have h1 := hlow.1
      have h2 := hlow.2
      rcases hc with hc | hc | hc
      · have := hc.2
        simp only [UInt32.le_iff_toNat_le] at *
        simp at *
        omega
      · have := hc.2
        simp only [UInt32.le_iff_toNat_le] at *
        simp at *
        omega
      · subst hc
        revert h1 h2
        decide
    · rfl

theorem upper_not_ws {c : Char} (h : c.isUpper = true ∨ c.isDigit = true ∨ c = '_') : rustWhitespace c = false := by
  have hn : (65 ≤ c.toNat ∧ c.toNat ≤ 90) ∨ (48 ≤ c.toNat ∧ c.toNat ≤ 57) ∨ c.toNat = 95 := by
    rcases h with h | h | h
    · simp only [Char.isUpper, decide_eq_true_eq, UInt32.le_iff_toNat_le, ge_iff_le] at h
      exact .inl h
    · simp only [Char.isDigit, Bool.and_eq_true, decide_eq_true_eq, UInt32.le_iff_toNat_le, ge_iff_le] at h
      exact .inr (.inl h)
    · subst h; exact .inr (.inr rfl)
  rw [Bool.eq_false_iff]
  intro hw
  simp only [rustWhitespace, Bool.or_eq_true, Bool.and_eq_true, decide_eq_true_eq] at hw
  omega

theorem trimEnd_append {a v : Str} (ha : ∀ c ∈ a, rustWhitespace c = false) (hv : trimEnd v = v) :
    trimEnd (a ++ v) = a ++ v := by
  have hv' : v.reverse.dropWhile rustWhitespace = v.reverse := by
    rw [← List.reverse_inj, List.reverse_reverse]; exact hv
  simp only [trimEnd, List.reverse_append]
  rw [← List.reverse_inj, List.reverse_reverse, List.reverse_append]
  cases hr : v.reverse with
  | nil =>
    simp only [List.nil_append]
    exact trimStart_id (s := a.reverse) (by simpa using ha)
  | cons x xs =>
    rw [hr] at hv'
    rw [List.dropWhile_cons] at hv'
    split at hv'
    · have := congrArg List.length hv'
      have hle := (List.dropWhile_suffix (p := rustWhitespace) (l := xs)).length_le
      simp only [List.length_cons] at this
      omega
    · next hx => simp [hx]

theorem trimStart_append {a v : Str} (ha : ∀ c ∈ a, rustWhitespace c = false) (hne : a ≠ []) :
    trimStart (a ++ v) = a ++ v := by
  cases a with
  | nil => exact absurd rfl hne
  | cons x a => simp [trimStart, ha x (by simp)]

theorem trim_append {a v : Str} (ha : ∀ c ∈ a, rustWhitespace c = false) (hne : a ≠ []) (hv : trim v = v) :
    trim (a ++ v) = a ++ v := by
  rw [trim, trimStart_append ha hne, trimEnd_append ha]
  have : trimEnd v = v := by
    have h1 : (trimStart v).length ≤ v.length := (List.dropWhile_suffix _).length_le
    have hle : ∀ s : Str, (trimEnd s).length ≤ s.length := fun s => by
      simp only [trimEnd, List.length_reverse]
      have := (List.dropWhile_suffix (p := rustWhitespace) (l := s.reverse)).length_le
      simpa using this
    have h2 := hle (trimStart v)
    rw [show trimEnd (trimStart v) = v from hv] at h2
    have h3 : trimStart v = v := (List.dropWhile_suffix (p := rustWhitespace) (l := v)).eq_of_length (by
      show (trimStart v).length = v.length; omega)
    rw [← h3]
    show trim v = trimStart v
    rw [hv, h3]
  exact this

theorem trim_cap {k : Str} (h : CapName k) : trim k = k := by
  have := fun c hc => upper_not_ws (h c hc)
  rw [trim, trimStart_id this]
  have := trimEnd_append (a := k) (v := []) this rfl
  simpa using this

theorem collectLines_map {α β : Type} {f : Str → Option (List α)} {g : β → Str} {a : β → α} {l : List β}
    (h : ∀ x ∈ l, f (g x) = some [a x]) : collectLines f (l.map g) = .ok (l.map a) := by
  induction l with
  | nil => rfl
  | cons x l ih =>
    simp only [List.map_cons, collectLines, h x (by simp), ih fun y hy => h y (by simp [hy])]
    rfl

theorem lines_flatMap {β : Type} {g : β → Str} {l : List β} (h : ∀ x ∈ l, '\n' ∉ g x) :
    lines (l.flatMap fun x => g x ++ ['\n']) = l.map g := by
  induction l with
  | nil => rfl
  | cons x l ih =>
    simp only [List.flatMap_cons, List.map_cons, List.append_assoc, List.singleton_append]
    rw [lines_cons (h x (by simp)), ih fun y hy => h y (by simp [hy])]

/-- The value of an `.envrc` line does not start with a quote. -/
def Unquoted (v : Str) : Prop := v.head? ≠ some '"' ∧ v.head? ≠ some '\''

theorem trimStart_blank {ws s : Str} (h : Blank ws) : trimStart (ws ++ s) = trimStart s := by
  induction ws with
  | nil => rfl
  | cons c ws ih =>
    simp only [trimStart, List.cons_append, List.dropWhile_cons, (h c (by simp)).1, if_true]
    exact ih fun x hx => h x (by simp [hx])

theorem trim_blank {ws s : Str} (h : Blank ws) : trim (ws ++ s) = trim s := by
  rw [trim, trim, trimStart_blank h]

theorem trim_blank_end {ws s : Str} (h : Blank ws) (hs : ∀ c ∈ s, rustWhitespace c = false) : trim (s ++ ws) = s := by
  have hw : trimEnd (s ++ ws) = trimEnd s := by
    simp only [trimEnd, List.reverse_append]
    congr 1
    exact trimStart_blank (ws := ws.reverse) (s := s.reverse) (fun c hc => h c (by simpa using hc))
  have he : trimEnd s = s := by simpa using trimEnd_append (a := s) (v := []) hs rfl
  cases s with
  | nil =>
    have : trimStart ws = [] := by
      have := trimStart_blank (ws := ws) (s := []) h
      simpa [trimStart] using this
    simp [trim, this, trimEnd]
  | cons c s =>
    rw [trim, trimStart_append hs (by simp), hw, he]

/-- C94, what holds: a file of lines `NAME=value` with names of capital letters, values without white
space at their ends, and any white space around the `=`, is loaded as written; in `.envrc`, with
`export` in front, too, provided the values are not quoted. -/
theorem C94_assignments_partial (l : List Asg) (hn : ∀ a ∈ l, a.name ≠ [] ∧ CapName a.name) (hv : ∀ a ∈ l, Trimmed a.value)
    (hb : ∀ a ∈ l, Blank a.pad) :
    (∀ rc, readFiles ⟨.text (envText l), rc⟩ = .ok (l.map fun a => .env a.name a.value)) ∧
    ((∀ a ∈ l, Unquoted a.value) →
      readFiles ⟨.absent, .text (envrcText l)⟩ = .ok (l.map fun a => .env a.name a.value)) := by
  have hnl : ∀ a ∈ l, '\n' ∉ a.name := fun a ha => capName_not (hn a ha).2 (by decide)
  have hpl : ∀ a ∈ l, '\n' ∉ a.pad := fun a ha hm => (hb a ha _ hm).2 rfl
  have heq : ∀ a ∈ l, '=' ∉ a.name ++ a.pad := by
    intro a ha
    rw [List.mem_append, not_or]
    refine ⟨capName_not (hn a ha).2 (by decide), fun hm => ?_⟩
    have := (hb a ha _ hm).1
    revert this
    decide
  have hname : ∀ a ∈ l, ∀ c ∈ a.name, rustWhitespace c = false := fun a ha c hc => upper_not_ws ((hn a ha).2 c hc)
  have hk : ∀ a ∈ l, upper (trim (a.name ++ a.pad)) = a.name := by
    intro a ha
    rw [trim_blank_end (hb a ha) (hname a ha), capName_upper (hn a ha).2]
  have hval : ∀ a ∈ l, trim (a.pad ++ a.value) = a.value := fun a ha => (trim_blank (hb a ha)).trans (hv a ha).1
  constructor
  · intro rc
    simp only [readFiles]
    have h1 : lines (envText l) = l.map fun a => a.name ++ a.pad ++ '=' :: (a.pad ++ a.value) := by
      refine lines_flatMap fun a ha => ?_
      simp [hnl a ha, (hv a ha).2, hpl a ha]
    rw [h1]
    refine collectLines_map (g := fun a : Asg => a.name ++ a.pad ++ '=' :: (a.pad ++ a.value)) (a := fun a => Entry.env a.name a.value) ?_
    intro a ha
    simp only [envLine, splitOnce_of _ (heq a ha), hk a ha, hval a ha]
  · intro hq
    simp only [readFiles]
    have h1 : lines (envrcText l) = l.map fun a => c!"export " ++ a.name ++ a.pad ++ '=' :: (a.pad ++ a.value) := by
      refine lines_flatMap fun a ha => ?_
      simp [hnl a ha, (hv a ha).2, hpl a ha]
    rw [h1]
    refine collectLines_map (g := fun a : Asg => c!"export " ++ a.name ++ a.pad ++ '=' :: (a.pad ++ a.value)) (a := fun a => Entry.env a.name a.value) ?_
    intro a ha
    have hs : splitOnce ' ' (c!"export " ++ a.name ++ a.pad ++ '=' :: (a.pad ++ a.value)) =
        some (c!"export", a.name ++ a.pad ++ '=' :: (a.pad ++ a.value)) := by
      have := splitOnce_of (c := ' ') (x := c!"export") (a.name ++ a.pad ++ '=' :: (a.pad ++ a.value)) (by decide)
      simpa using this
    have hu : unquote a.value = a.value := by
      rw [unquote, if_neg]
      rintro ⟨h | h, _⟩
      · exact (hq a ha).1 h.1
      · exact (hq a ha).2 h.1
    obtain ⟨y, hy, hy2⟩ : ∃ y, trim (a.name ++ a.pad ++ '=' :: (a.pad ++ a.value)) = a.name ++ a.pad ++ '=' :: y ∧ trim y = a.value := by
      rw [trim, List.append_assoc, trimStart_append (hname a ha) (hn a ha).1, ← List.append_assoc]
      by_cases hz : a.value = []
      · refine ⟨[], ?_, by rw [hz]; rfl⟩
        rw [hz, List.append_nil]
        have : trimEnd (a.name ++ a.pad ++ '=' :: a.pad) = a.name ++ a.pad ++ ['='] := by
          simp only [trimEnd, List.reverse_append, List.reverse_cons, List.append_assoc]
          have := trimStart_blank (ws := a.pad.reverse) (s := ['='] ++ (a.pad.reverse ++ a.name.reverse)) (fun c hc => hb a ha c (by simpa using hc))
          rw [trimStart] at this
          rw [this]
          simp only [trimStart, List.cons_append, List.nil_append, List.dropWhile_cons]
          rw [if_neg (by decide)]
          simp
        exact this
      · refine ⟨a.pad ++ a.value, ?_, hval a ha⟩
        have hE : trimEnd a.value = a.value := by
          have h0 := (hv a ha).1
          have hts : trimStart a.value = a.value := by
            refine (List.dropWhile_suffix (p := rustWhitespace) (l := a.value)).eq_of_length ?_
            have h1 : (trimStart a.value).length ≤ a.value.length := (List.dropWhile_suffix _).length_le
            have h2 : (trimEnd (trimStart a.value)).length ≤ (trimStart a.value).length := by
              simp only [trimEnd, List.length_reverse]
              have := (List.dropWhile_suffix (p := rustWhitespace) (l := (trimStart a.value).reverse)).length_le
              simpa using this
            rw [show trimEnd (trimStart a.value) = a.value from h0] at h2
            show (trimStart a.value).length = a.value.length
            omega
          rw [trim, hts] at h0
          exact h0
        have hE' : a.value.reverse.dropWhile rustWhitespace = a.value.reverse := by
          rw [← List.reverse_inj, List.reverse_reverse]; exact hE
        rw [show a.name ++ a.pad ++ '=' :: (a.pad ++ a.value) = (a.name ++ a.pad ++ '=' :: a.pad) ++ a.value from by simp]
        rw [trimEnd, List.reverse_append, List.dropWhile_append, hE', if_neg (by simpa using hz)]
        simp
    have hc1 : upper (trim c!"export") = c!"EXPORT" := by decide
    simp only [envrcLine, hs, hc1, hy, splitOnce_of _ (heq a ha), hk a ha, hy2, hu]
    rfl

example : let l : List Asg := [⟨c!"API_URL", c!"http://x/?a=b c", c!" "⟩, ⟨c!"EMPTY", [], []⟩]
    (∀ a ∈ l, a.name ≠ [] ∧ CapName a.name) ∧ (∀ a ∈ l, Trimmed a.value) ∧ (∀ a ∈ l, Unquoted a.value) ∧ (∀ a ∈ l, Blank a.pad) ∧
    envText l = c!"API_URL = http://x/?a=b c\nEMPTY=\n" := by
  refine ⟨?_, ?_, ?_, ?_, by decide +kernel⟩
  · simp only [CapName]; decide +kernel
  · simp only [Trimmed]; decide +kernel
  · simp only [Unquoted]; decide +kernel
  · simp only [Blank]; decide +kernel

theorem collectLines_panic {α : Type} {f : Str → Option (List α)} {l : List Str} {x : Str} (hx : x ∈ l) (h : f x = none) :
    collectLines f l = .panic := by
  induction l with
  | nil => simp at hx
  | cons y l ih =>
    simp only [collectLines]
    rcases List.mem_cons.1 hx with rfl | hx
    · simp [h]
    · rw [ih hx]
      cases f y <;> rfl

/-- C94, what does not hold: a line of `.env` without `=` — a blank line, a comment — and a line of
`.envrc` without a space end the shell when the directory is entered, whatever else the file says; a
name with small letters is never assigned; and quotes in `.env` become part of the value. -/
theorem C94_violated :
    (∀ (s : Str) (rc : File), (∃ l ∈ lines s, '=' ∉ l) → readFiles ⟨.text s, rc⟩ = .panic) ∧
    (∀ s : Str, (∃ l ∈ lines s, ' ' ∉ l) → readFiles ⟨.absent, .text s⟩ = .panic) ∧
    (∀ (s : Sh) (r : Root) (rest : List Root) (f : EnvFiles) (old new : List Str), s.roots = r :: rest → r.path <+: new →
      r.loaded = false → readFiles f = .panic → cdSh (fun _ => f) s old new = .panic) ∧
    readFiles ⟨.text c!"A=1\n\nB=2\n", .absent⟩ = .panic ∧
    readFiles ⟨.text c!"# settings\nA=1\n", .absent⟩ = .panic ∧
    readFiles ⟨.text c!"http_proxy=localhost", .absent⟩ = .ok [.env c!"HTTP_PROXY" c!"localhost"] ∧
    readFiles ⟨.text c!"A=\"x y\"", .absent⟩ = .ok [.env c!"A" c!"\"x y\""] ∧
    readFiles ⟨.absent, .text c!"export A=\"x y\""⟩ = .ok [.env c!"A" c!"x y"] := by
  refine ⟨?_, ?_, ?_, by decide +kernel, by decide +kernel, by decide +kernel, by decide +kernel, by decide +kernel⟩
  · rintro s rc ⟨l, hl, h⟩
    exact collectLines_panic hl (by simp [envLine, splitOnce_of_not_mem h])
  · rintro s ⟨l, hl, h⟩
    exact collectLines_panic hl (by simp [envrcLine, splitOnce_of_not_mem h])
  · intro s r rest f old new hs hp hl hf
    have hc : (r.path.isPrefixOf new && !r.loaded) = true := by
      rw [hl, List.isPrefixOf_iff_prefix.2 hp]; rfl
    simp only [cdSh, hs, checkRoots, if_pos hc, hf]

/-! ### C95: `path_add` -/

theorem setSys_paths (e : State) (v : Str) : (setSys e PATH v).paths = pathDirs (setSys e PATH v).sys := by
  simp only [setSys, if_pos]
  rfl

/-- C95, what holds: if the argument ends with a colon, the directory is searched first and the others
as before. -/
theorem C95_path_add_partial (e : State) (p v : Str) (hv : e.sys.get PATH = some v) (hp : ':' ∉ p) :
    (setEnv e [.pathAdd (p ++ [':'])]).sys.get PATH = some (p ++ ':' :: v) ∧
    (setEnv e [.pathAdd (p ++ [':'])]).paths = p :: pathDirs e.sys := by
  have h1 : (setEnv e [.pathAdd (p ++ [':'])]).sys.get PATH = some (p ++ ':' :: v) := by
    simp only [setEnv, setEntries, hv, setSys_sys, Map.get_insert]
    simp
  refine ⟨h1, ?_⟩
  have h2 : (setEnv e [.pathAdd (p ++ [':'])]).paths = pathDirs (setEnv e [.pathAdd (p ++ [':'])]).sys := by
    exact setSys_paths _ _
  rw [h2, pathDirs, h1, pathDirs, hv]
  exact splitOn_append p v hp

theorem splitOn_glue {c : Char} : ∀ (p v : Str), c ∉ p → ∀ d ds, splitOn c v = d :: ds → splitOn c (p ++ v) = (p ++ d) :: ds
  | [], v, _, d, ds, h => h
  | x :: p, v, hp, d, ds, h => by
    have hx : x ≠ c := fun h' => hp (by simp [h'])
    have := splitOn_glue p v (fun h' => hp (List.mem_cons_of_mem _ h')) d ds h
    simp [splitOn, hx, this]

/-- C95, what does not hold: written as usual, without a colon at the end, the directory is glued to
the first directory of `PATH`: for all states and directories, neither the new directory nor the first
old one is searched — only the two names written without anything between them. -/
theorem C95_violated :
    (∀ (e : State) (p v d : Str) (ds : List Str), e.sys.get PATH = some v → ':' ∉ p → pathDirs e.sys = d :: ds →
      (setEnv e [.pathAdd p]).paths = (p ++ d) :: ds) ∧
    (let e := setEnv ex0 [.pathAdd c!"/work/bin"]
     e.paths = [c!"/work/bin/bin", c!"/usr/bin"] ∧ c!"/work/bin" ∉ e.paths ∧ c!"/bin" ∉ e.paths ∧
     c!"/bin" ∈ pathDirs ex0.sys) := by
  refine ⟨?_, by decide +kernel⟩
  intro e p v d ds hv hp hd
  have h1 : (setEnv e [.pathAdd p]).sys.get PATH = some (p ++ v) := by
    simp [setEnv, setEntries, hv, setSys_sys, Map.get_insert]
  have h2 : (setEnv e [.pathAdd p]).paths = pathDirs (setEnv e [.pathAdd p]).sys := by
    exact setSys_paths _ _
  rw [h2, pathDirs, h1]
  rw [pathDirs, hv] at hd
  exact splitOn_glue p v hp d ds hd

end Dsh.Env
