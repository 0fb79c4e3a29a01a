import Verif.Env.Vars
import Verif.Dirs.FrecencyProps
/-!
Finding commands (dsh/src/environment/paths.rs, dsh/src/environment/mod.rs, dsh/src/dirs.rs,
dsh-builtin/src/add_path.rs): C36, C37, C92, C93.

The file system is given by three questions; it may change between two commands in any way.
-/
namespace Dsh.Env

/-! ### Model -/

/-- What `DirEntry::file_type` tells (links are not followed). -/
inductive Kind
  | file | link | other
deriving DecidableEq

/-- One entry of a directory: its name, its kind and whether its own mode has an execute bit. -/
structure DirEnt where
  name : Str
  kind : Kind
  exec : Bool

/-- The file system as seen from the working directory. -/
structure Fs where
  /-- `path.exists() && path.is_file()`: links are followed. -/
  isFile : Str → Bool
  /-- The file (links followed) is a regular file that may be executed. -/
  isExec : Str → Bool
  /-- `read_dir`, in the order of the system. -/
  list : Str → List DirEnt

/-- `Path::join`. -/
def join (dir name : Str) : Str :=
  if name.head? = some '/' then name
  else if dir = [] then name
  else if dir.getLast? = some '/' then dir ++ name
  else dir ++ '/' :: name

/-- `lookup_path_uncached` (paths.rs:61-69). -/
def uncached (paths : List Str) (fs : Fs) (cmd : Str) : Option Str :=
  match paths with
  | [] => none
  | p :: ps => if fs.isFile (join p cmd) then some (join p cmd) else uncached ps fs cmd

/-- The table of commands already looked up. -/
def cacheGet (c : List (Str × Option Str)) (cmd : Str) : Option (Option Str) :=
  match c with
  | [] => none
  | (k, r) :: c => if k = cmd then some r else cacheGet c cmd

/-- `is_absolute_command_path(cmd) || is_relative_command_path(cmd)` (paths.rs:9-16). -/
def direct (cmd : Str) : Bool := cmd.head? == some '/' || (c!"./").isPrefixOf cmd

/-- `lookup` (paths.rs:20-53): the answer and the state afterwards. -/
def lookup (e : State) (fs : Fs) (cmd : Str) : Option Str × State :=
  if direct cmd then (if fs.isFile cmd then some cmd else none, e)
  else match cacheGet e.cache cmd with
    | some r => (r, e)
    | none =>
      let r := uncached e.paths fs cmd
      (r, { e with cache := (cmd, r) :: e.cache })

/-- `insert_path` at the front (proxy/mod.rs:114-116, called by add_path.rs:17 and by
lisp/builtin.rs:183-194). -/
def addPath (e : State) (p : Str) : State := { e with paths := p :: e.paths }

/-- The part of `changepwd` (proxy/mod.rs:90-112) and of its hooks (shell/hooks.rs:66-70,
direnv.rs:204) that concerns variables, for a shell without `.envrc` roots. -/
def changeDir (e : State) (old new : Str) : State :=
  reloadPath (setSys (setVar e c!"OLDPWD" old) c!"PWD" new)

/-- The world: the state of the shell and the file system. -/
structure World where
  e : State
  fs : Fs

/-- What happens: commands of the user, lookups, and changes of the file system. -/
inductive Ev
  | op (o : Op)
  | look (cmd : Str)
  | addPath (p : Str)
  | cd (old new : Str)
  /-- Somebody changes the file system. -/
  | disk (fs : Fs)

/-- One event. -/
def World.step (w : World) : Ev → World
  | .op o => { w with e := Env.step w.e o }
  | .look cmd => { w with e := (lookup w.e w.fs cmd).2 }
  | .addPath p => { w with e := Env.addPath w.e p }
  | .cd a b => { w with e := changeDir w.e a b }
  | .disk fs => { w with fs := fs }

/-- A sequence of events. -/
def World.run (w : World) (l : List Ev) : World := l.foldl World.step w

/-- The answer to a lookup now. -/
def World.answer (w : World) (cmd : Str) : Option Str := (lookup w.e w.fs cmd).1

/-! ### Specification -/

/-- The directories named by the variable `PATH`. -/
def pathDirs (sys : Map) : List Str :=
  match sys.get PATH with
  | some v => splitOn ':' v
  | none => defaultPaths

/-- `r` is the first of the directories' entries named `cmd` that satisfies `p`. -/
def First (p : Str → Bool) (dirs : List Str) (cmd : Str) (r : Option Str) : Prop :=
  (∃ a d b, dirs = a ++ d :: b ∧ r = some (join d cmd) ∧ p (join d cmd) = true ∧ ∀ x ∈ a, p (join x cmd) = false) ∨
  (r = none ∧ ∀ x ∈ dirs, p (join x cmd) = false)

/-! ### Lookups -/

theorem uncached_first (fs : Fs) (cmd : Str) : ∀ dirs, First fs.isFile dirs cmd (uncached dirs fs cmd)
  | [] => .inr ⟨rfl, by simp⟩
  | d :: ds => by
    rw [uncached]
    by_cases h : fs.isFile (join d cmd) = true
    · rw [if_pos h]
      exact .inl ⟨[], d, ds, rfl, rfl, h, by simp⟩
    · rw [if_neg h]
      rw [Bool.not_eq_true] at h
      rcases uncached_first fs cmd ds with ⟨a, x, b, h1, h2, h3, h4⟩ | ⟨h1, h2⟩
      · refine .inl ⟨d :: a, x, b, by rw [h1]; rfl, h2, h3, ?_⟩
        intro y hy
        rcases List.mem_cons.1 hy with rfl | hy
        exacts [h, h4 y hy]
      · refine .inr ⟨h1, ?_⟩
        intro y hy
        rcases List.mem_cons.1 hy with rfl | hy
        exacts [h, h2 y hy]

/-- The list of directories is that of `PATH`, and the table agrees with the file system. -/
def Fresh (w : World) : Prop :=
  w.e.paths = pathDirs w.e.sys ∧ ∀ c r, cacheGet w.e.cache c = some r → r = uncached w.e.paths w.fs c

theorem fresh_reload (e : State) (fs : Fs) : Fresh ⟨reloadPath e, fs⟩ := by
  refine ⟨rfl, ?_⟩
  intro c r h
  simp [reloadPath, cacheGet] at h

/-- Events that keep the table and the directories in agreement. -/
def quiet : Ev → Bool
  | .disk _ => false
  | .addPath _ => false
  | _ => true

/-- Events after which they agree. -/
def refreshes : Ev → Bool
  | .cd _ _ => true
  | .op (.setx k _) => k == PATH
  | .op (.unset k) => k == PATH
  | _ => false

theorem fresh_of_refresh (w : World) {ev : Ev} (h : refreshes ev = true) : Fresh (w.step ev) := by
  cases ev with
  | cd a b => exact fresh_reload _ _
  | look c => simp [refreshes] at h
  | addPath p => simp [refreshes] at h
  | disk fs => simp [refreshes] at h
  | op o =>
    cases o with
    | setx k v =>
      simp only [refreshes, beq_iff_eq] at h
      simp only [World.step, Env.step, setSys, if_pos h]
      exact fresh_reload _ _
    | unset k =>
      simp only [refreshes, beq_iff_eq] at h
      simp only [World.step, Env.step, unsetSys, if_pos h]
      exact fresh_reload _ _
    | set k v => simp [refreshes] at h
    | exp a => simp [refreshes] at h
    | read k s => simp [refreshes] at h

theorem fresh_quiet {w : World} (hw : Fresh w) {ev : Ev} (h : quiet ev = true) : Fresh (w.step ev) := by
  by_cases hr : refreshes ev = true
  · exact fresh_of_refresh w hr
  · cases ev with
    | cd a b => simp [refreshes] at hr
    | disk fs => simp [quiet] at h
    | addPath p => simp [quiet] at h
    | look c =>
      simp only [World.step, lookup]
      split
      · exact hw
      · split
        · exact hw
        · next hc =>
          refine ⟨hw.1, ?_⟩
          intro c' r hcr
          simp only [cacheGet] at hcr
          split at hcr
          · next hk =>
            simp only [Option.some.injEq] at hcr
            rw [← hcr, hk]
          · exact hw.2 c' r hcr
    | op o =>
      cases o with
      | setx k v =>
        simp only [refreshes, beq_iff_eq] at hr
        simp only [World.step, Env.step, setSys, if_neg hr]
        refine ⟨?_, hw.2⟩
        rw [show pathDirs (Map.insert w.e.sys k v) = pathDirs w.e.sys from by
          simp only [pathDirs, Map.get_insert]; rw [if_neg (fun x => hr x.symm)]]
        exact hw.1
      | unset k =>
        simp only [refreshes, beq_iff_eq] at hr
        simp only [World.step, Env.step, unsetSys, if_neg hr]
        refine ⟨?_, hw.2⟩
        rw [show pathDirs (Map.erase w.e.sys k) = pathDirs w.e.sys from by
          simp only [pathDirs, Map.get_erase]; rw [if_neg (fun x => hr x.symm)]]
        exact hw.1
      | set k v => exact hw
      | read k s => exact hw
      | exp a =>
        simp only [World.step, Env.step, exportArg]
        split <;> exact hw

theorem fresh_run {w : World} (hw : Fresh w) : ∀ {l : List Ev}, (∀ ev ∈ l, quiet ev = true) → Fresh (w.run l) := by
  intro l
  induction l generalizing w with
  | nil => intro _; exact hw
  | cons ev l ih =>
    intro h
    exact ih (fresh_quiet hw (h ev (by simp))) fun x hx => h x (by simp [hx])

theorem answer_fresh {w : World} (hw : Fresh w) {cmd : Str} (hc : direct cmd = false) :
    w.answer cmd = uncached (pathDirs w.e.sys) w.fs cmd := by
  simp only [World.answer, lookup, hc]
  cases h : cacheGet w.e.cache cmd with
  | none => simp [hw.1]
  | some r => simp [hw.2 cmd r h, hw.1]

/-- C36, what holds: after a `cd` or an assignment of `PATH` with `set -x`, and as long as neither
the file system changes nor `add_path` is used, every lookup finds the first directory of `PATH` with
a regular file of that name — the first executable one if all such files are executable —, whatever
else was looked up or assigned before and since. -/
theorem C36_lookup_partial (w : World) (l₁ l₂ : List Ev) {r : Ev} (hr : refreshes r = true)
    (hq : ∀ ev ∈ l₂, quiet ev = true) {cmd : Str} (hc : direct cmd = false) :
    let w' := w.run (l₁ ++ r :: l₂)
    First w'.fs.isFile (pathDirs w'.e.sys) cmd (w'.answer cmd) ∧
    ((∀ d ∈ pathDirs w'.e.sys, w'.fs.isFile (join d cmd) = w'.fs.isExec (join d cmd)) →
      First w'.fs.isExec (pathDirs w'.e.sys) cmd (w'.answer cmd)) := by
  have hw : Fresh (w.run (l₁ ++ r :: l₂)) := by
    simp only [World.run, List.foldl_append, List.foldl_cons]
    exact fresh_run (fresh_of_refresh (l₁.foldl World.step w) hr) hq
  dsimp only
  rw [answer_fresh hw hc]
  have h1 := uncached_first (w.run (l₁ ++ r :: l₂)).fs cmd (pathDirs (w.run (l₁ ++ r :: l₂)).e.sys)
  refine ⟨h1, ?_⟩
  intro hx
  rcases h1 with ⟨a, d, b, h1, h2, h3, h4⟩ | ⟨h1, h2⟩
  · refine .inl ⟨a, d, b, h1, h2, ?_, ?_⟩
    · rw [← hx d (by rw [h1]; simp)]; exact h3
    · intro x hxa
      rw [← hx x (by rw [h1]; simp [hxa])]
      exact h4 x hxa
  · refine .inr ⟨h1, ?_⟩
    intro x hxd
    rw [← hx x hxd]
    exact h2 x hxd

/-- A file system with two directories; the first holds a text file named `tool` that cannot be
executed. -/
def exFs : Fs where
  isFile p := p == c!"/bin/tool" || p == c!"/usr/bin/tool"
  isExec p := p == c!"/usr/bin/tool"
  list _ := []

/-- The same without any file. -/
def emptyFs : Fs where
  isFile _ := false
  isExec _ := false
  list _ := []

example : let w := (World.mk ex0 emptyFs).run [.look c!"tool", .disk exFs, .cd c!"/" c!"/tmp", .look c!"ls"]
    w.answer c!"tool" = some c!"/bin/tool" := by decide

theorem cache_keeps {w : World} {cmd : Str} {r : Option Str} (h : cacheGet w.e.cache cmd = some r) {ev : Ev}
    (hr : refreshes ev = false) : cacheGet (w.step ev).e.cache cmd = some r := by
  cases ev with
  | cd a b => simp [refreshes] at hr
  | disk fs => exact h
  | addPath p => exact h
  | look c =>
    simp only [World.step, lookup]
    split
    · exact h
    · split
      · exact h
      · next hc =>
        simp only [cacheGet]
        split
        · next hk => subst hk; rw [hc] at h; simp at h
        · exact h
  | op o =>
    cases o with
    | setx k v =>
      simp only [refreshes, beq_eq_false_iff_ne] at hr
      simp only [World.step, Env.step, setSys, if_neg hr]
      exact h
    | unset k =>
      simp only [refreshes, beq_eq_false_iff_ne] at hr
      simp only [World.step, Env.step, unsetSys, if_neg hr]
      exact h
    | set k v => exact h
    | read k s => exact h
    | exp a =>
      simp only [World.step, Env.step, exportArg]
      split <;> exact h

theorem cached_after_look (w : World) {cmd : Str} (hc : direct cmd = false) :
    cacheGet (w.step (.look cmd)).e.cache cmd = some (w.answer cmd) := by
  simp only [World.step, World.answer, lookup, hc, Bool.false_eq_true, if_false]
  split
  · next r hr => exact hr
  · simp [cacheGet]

/-- C36, what does not hold: once a name has been looked up, the answer stays the same until the next
`cd` or `set -x PATH`, whatever happens to the files, to the directories added with `add_path` and to
a `PATH` assigned with `export` — for all worlds, names and events.  So a command installed after it
was first mistyped is not found; `export PATH=…` does not change where commands are found at all; and
a file that cannot be executed hides an executable one. -/
theorem C36_violated :
    (∀ (w : World) (l : List Ev) (cmd : Str), direct cmd = false → (∀ ev ∈ l, refreshes ev = false) →
      ((w.step (.look cmd)).run l).answer cmd = w.answer cmd) ∧
    (∀ (e : State) (fs : Fs) (a cmd : Str), (World.mk (step e (.exp a)) fs).answer cmd = (World.mk e fs).answer cmd) ∧
    (let w := (World.mk ex0 emptyFs).run [.look c!"tool", .disk exFs]
     w.answer c!"tool" = none ∧ w.fs.isExec (join c!"/usr/bin" c!"tool") = true ∧ c!"/usr/bin" ∈ pathDirs w.e.sys) ∧
    (let w := World.mk (step ex0 (.exp c!"PATH=/opt")) exFs
     getenv (prepare w.e) PATH = some c!"/opt" ∧ w.answer c!"tool" = some c!"/bin/tool") ∧
    ((World.mk ex0 exFs).answer c!"tool" = some c!"/bin/tool" ∧ exFs.isExec c!"/bin/tool" = false ∧
      exFs.isExec (join c!"/usr/bin" c!"tool") = true ∧ c!"/usr/bin" ∈ pathDirs ex0.sys) := by
  refine ⟨?_, ?_, by decide, by decide, by decide⟩
  · intro w l cmd hc hl
    have key : ∀ (l : List Ev) (w' : World), (∀ ev ∈ l, refreshes ev = false) →
        cacheGet w'.e.cache cmd = some (w.answer cmd) → cacheGet (w'.run l).e.cache cmd = some (w.answer cmd) := by
      intro l
      induction l with
      | nil => intro w' _ h; exact h
      | cons ev l ih =>
        intro w' hl h
        exact ih _ (fun x hx => hl x (by simp [hx])) (cache_keeps h (hl ev (by simp)))
    have := key l _ hl (cached_after_look w hc)
    simp only [World.answer] at this ⊢
    rw [lookup, if_neg (by simp [hc])]
    simp [this]
  · intro e fs a cmd
    have h : (step e (.exp a)).cache = e.cache ∧ (step e (.exp a)).paths = e.paths := by
      simp only [step, exportArg]
      split <;> exact ⟨rfl, rfl⟩
    simp only [World.answer, lookup, h.1, h.2]
    split
    · rfl
    · split <;> rfl

/-! ### C92: `add_path` -/

/-- C92, what holds: a name not looked up yet is searched in the added directory first, until the
next `cd` or assignment of `PATH`. -/
theorem C92_add_path_partial (w : World) (p : Str) {cmd : Str} (hc : direct cmd = false)
    (hn : cacheGet w.e.cache cmd = none) (hf : w.fs.isFile (join p cmd) = true) (l : List Ev)
    (hl : ∀ ev ∈ l, refreshes ev = false ∧ (∀ fs, ev ≠ .disk fs) ∧ ∀ q, ev ≠ .addPath q) :
    ((w.step (.addPath p)).run l).answer cmd = some (join p cmd) := by
  have key : ∀ (l : List Ev) (w' : World),
      (∀ ev ∈ l, refreshes ev = false ∧ (∀ fs, ev ≠ .disk fs) ∧ ∀ q, ev ≠ .addPath q) →
      w'.fs.isFile (join p cmd) = true → (∃ ps, w'.e.paths = p :: ps) →
      (cacheGet w'.e.cache cmd = none ∨ cacheGet w'.e.cache cmd = some (some (join p cmd))) →
      (w'.run l).answer cmd = some (join p cmd) := by
    intro l
    induction l with
    | nil =>
      intro w' _ hf hp hcache
      obtain ⟨ps, hps⟩ := hp
      simp only [World.run, List.foldl_nil, World.answer, lookup, hc, Bool.false_eq_true, if_false]
      rcases hcache with h | h
      · simp [h, hps, uncached, hf]
      · simp [h]
    | cons ev l ih =>
      intro w' hl hf hp hcache
      obtain ⟨h1, h2, h3⟩ := hl ev (by simp)
      have hfs : (w'.step ev).fs = w'.fs := by
        cases ev with
        | disk fs => exact absurd rfl (h2 fs)
        | _ => rfl
      have hps : (w'.step ev).e.paths = w'.e.paths := by
        cases ev with
        | disk fs => rfl
        | addPath q => exact absurd rfl (h3 q)
        | cd a b => simp [refreshes] at h1
        | look c =>
          simp only [World.step, lookup]
          split
          · rfl
          · split <;> rfl
        | op o =>
          cases o with
          | setx k v =>
            simp only [refreshes, beq_eq_false_iff_ne] at h1
            simp [World.step, Env.step, setSys, h1]
          | unset k =>
            simp only [refreshes, beq_eq_false_iff_ne] at h1
            simp [World.step, Env.step, unsetSys, h1]
          | set k v => rfl
          | read k s => rfl
          | exp a => simp only [World.step, Env.step, exportArg]; split <;> rfl
      refine ih _ (fun x hx => hl x (by simp [hx])) (hfs ▸ hf) (by rw [hps]; exact hp) ?_
      rcases hcache with h | h
      · by_cases hlook : ev = .look cmd
        · subst hlook
          obtain ⟨ps, hps'⟩ := hp
          refine .inr ?_
          rw [cached_after_look w' hc]
          simp [World.answer, lookup, hc, h, hps', uncached, hf]
        · refine .inl ?_
          cases ev with
          | disk fs => exact h
          | addPath q => exact h
          | cd a b => simp [refreshes] at h1
          | look c =>
            simp only [World.step, lookup]
            split
            · exact h
            · split
              · exact h
              · simp only [cacheGet]
                rw [if_neg]
                · exact h
                · rintro rfl; exact hlook rfl
          | op o =>
            cases o with
            | setx k v =>
              simp only [refreshes, beq_eq_false_iff_ne] at h1
              simp only [World.step, Env.step, setSys, if_neg h1]
              exact h
            | unset k =>
              simp only [refreshes, beq_eq_false_iff_ne] at h1
              simp only [World.step, Env.step, unsetSys, if_neg h1]
              exact h
            | set k v => exact h
            | read k s => exact h
            | exp a => simp only [World.step, Env.step, exportArg]; split <;> exact h
      · exact .inr (cache_keeps h h1)
  exact key l _ hl hf ⟨w.e.paths, rfl⟩ (.inl hn)

/-- C92, what does not hold: the next `cd`, to wherever, forgets every directory added with
`add_path`; and no program started from the command line is ever told about it — for all states and
directories. -/
theorem C92_violated :
    (∀ (e : State) (p a b : Str), changeDir (addPath e p) a b = changeDir e a b) ∧
    (∀ (e : State) (p : Str), prepare (addPath e p) = prepare e ∧ childEnv (addPath e p) = childEnv e) ∧
    (∃ fs : Fs, let w := (World.mk ex0 fs).step (.addPath c!"/opt")
      w.answer c!"tool" = some c!"/opt/tool" ∧ ((World.mk ex0 fs).run [.addPath c!"/opt", .cd c!"/" c!"/tmp"]).answer c!"tool" = none) := by
  refine ⟨?_, fun e p => ⟨rfl, rfl⟩, ⟨⟨fun p => p == c!"/opt/tool", fun _ => true, fun _ => []⟩, by decide⟩⟩
  intro e p a b
  simp only [changeDir, setSys, setVar, addPath, reloadPath]
  split <;> rfl

example : direct c!"tool" = false ∧ cacheGet ex0.cache c!"tool" = none ∧ exFs.isFile (join c!"/usr/bin" c!"tool") = true ∧
    (((World.mk ex0 exFs).step (.addPath c!"/usr/bin")).run [.look c!"tool", .op (.set c!"a" c!"b")]).answer c!"tool" =
      some c!"/usr/bin/tool" := by decide

/-! ### C93: commands named by a path -/

/-- C93, what holds: a command that starts with `/` or `./` is that file. -/
theorem C93_path_partial (w : World) {cmd : Str} (hc : direct cmd = true) :
    w.answer cmd = if w.fs.isFile cmd then some cmd else none := by
  simp [World.answer, lookup, hc]

/-- C93, what does not hold: any other command with a `/` in it, like `../build` or `bin/tool`, is
looked for in the directories of `PATH` instead of in the working directory: the file in the working
directory is never found when no directory is empty, and another one may be run. -/
theorem C93_violated :
    (∀ (w : World) (cmd : Str), Fresh w → direct cmd = false → (∀ d ∈ pathDirs w.e.sys, w.fs.isFile (join d cmd) = false) →
      w.answer cmd = none) ∧
    (∃ fs : Fs, fs.isFile c!"../build" = true ∧ fs.isExec c!"../build" = true ∧
      (World.mk ex0 fs).answer c!"../build" = none) ∧
    (∃ fs : Fs, fs.isFile c!"../build" = true ∧ fs.isExec c!"../build" = true ∧
      (World.mk ex0 fs).answer c!"../build" = some c!"/bin/../build") := by
  refine ⟨?_, ⟨⟨fun p => p == c!"../build", fun p => p == c!"../build", fun _ => []⟩, by decide⟩,
    ⟨⟨fun p => p == c!"../build" || p == c!"/bin/../build", fun p => p == c!"../build", fun _ => []⟩, by decide⟩⟩
  intro w cmd hw hc h
  rw [answer_fresh hw hc]
  rcases uncached_first w.fs cmd (pathDirs w.e.sys) with ⟨a, d, b, h1, h2, h3, h4⟩ | ⟨h1, h2⟩
  · rw [h d (by rw [h1]; simp)] at h3; simp at h3
  · exact h1

example : direct c!"./configure" = true ∧ direct c!"/bin/ls" = true ∧ direct c!"bin/tool" = false := by decide

/-! ### C37: names with a prefix -/

/-- The names of a directory offered as commands (environment/mod.rs:293-306). -/
def offered (fs : Fs) (dir : Str) : List Str :=
  (fs.list dir).filterMap fun d => if (d.kind = .file ∨ d.kind = .link) ∧ d.exec = true then some d.name else none

/-- Keep one of equal names (`HashSet`). -/
def dedup : List Str → List Str
  | [] => []
  | a :: l => if a ∈ l then dedup l else a :: dedup l

/-- `collect_executables` (environment/mod.rs:288-311). -/
def collect (fs : Fs) (paths : List Str) : List Str :=
  sortBy (fun a b => !(Frec.cmpStr b a == .lt)) (dedup (paths.flatMap (offered fs)))

/-- `search_file` (dirs.rs:5-35): the loop over the entries with the best match so far. -/
def searchFile (name : Str) (best : Option Str) : List DirEnt → Option Str
  | [] => best
  | d :: ds =>
    if name.isPrefixOf d.name ∧ d.kind = .file ∧ d.exec = true then
      if d.name = name then some d.name
      else match best with
        | some b => if Frec.cmpStr d.name b == .lt then searchFile name (some d.name) ds else searchFile name (some b) ds
        | none => searchFile name (some d.name) ds
    else searchFile name best ds

/-- The last loop of `search` (paths.rs:92-96). -/
def searchDirs (fs : Fs) (cmd : Str) : List Str → Option Str
  | [] => none
  | p :: ps => match searchFile cmd none (fs.list p) with
    | some f => some f
    | none => searchDirs fs cmd ps

/-- `search` (paths.rs:72-98). -/
def search (e : State) (fs : Fs) (cmd : Str) : Option Str :=
  if direct cmd then (if fs.isFile cmd then some cmd else none)
  else if (uncached e.paths fs cmd).isSome then some cmd
  else searchDirs fs cmd e.paths

/-- `search_prefix` (paths.rs:168-181). -/
def searchPrefix (e : State) (fs : Fs) (pre : Str) : Option Str :=
  if e.names = [] then search e fs pre
  else
    match e.names[Frec.partitionPoint (fun n => Frec.cmpStr n pre == .lt) e.names]? with
    | some n => if pre.isPrefixOf n then some n else none
    | none => none

/-- `r` is the alphabetically first of the names with that prefix. -/
def FirstWith (names : List Str) (pre : Str) (r : Option Str) : Prop :=
  (∃ n, r = some n ∧ n ∈ names ∧ pre <+: n ∧ ∀ m ∈ names, pre <+: m → m = n ∨ Frec.Before n m) ∨
  (r = none ∧ ∀ m ∈ names, ¬ pre <+: m)

theorem mem_dedup {l : List Str} {a : Str} : a ∈ dedup l ↔ a ∈ l := by
  induction l with
  | nil => simp [dedup]
  | cons b l ih =>
    simp only [dedup]
    split
    · next h => rw [ih]; constructor
                · exact List.mem_cons_of_mem _
                · intro h'; rcases List.mem_cons.1 h' with rfl | h'; exacts [h, h']
    · simp [ih]

theorem nodup_dedup (l : List Str) : (dedup l).Nodup := by
  induction l with
  | nil => simp [dedup]
  | cons b l ih =>
    simp only [dedup]
    split
    · exact ih
    · next h => exact List.nodup_cons.2 ⟨fun hm => h (mem_dedup.1 hm), ih⟩

theorem mem_collect {fs : Fs} {paths : List Str} {n : Str} :
    n ∈ collect fs paths ↔ ∃ p ∈ paths, n ∈ offered fs p := by
  rw [collect, (sortBy_perm _ _).mem_iff, mem_dedup, List.mem_flatMap]

theorem sorted_collect (fs : Fs) (paths : List Str) : (collect fs paths).Pairwise Frec.Before := by
  have hs := sortBy_sorted (fun a b => !(Frec.cmpStr b a == .lt)) ?_ ?_ (dedup (paths.flatMap (offered fs)))
  · have hn : (collect fs paths).Nodup := ((sortBy_perm _ _).nodup_iff).2 (nodup_dedup _)
    rw [collect] at hn ⊢
    refine List.Pairwise.imp₂ ?_ hs hn
    intro a b hab hne
    rcases Frec.before_total a b with h | h | h
    · exact h
    · exact absurd h hne
    · rw [← Frec.cmpStr_lt] at h
      simp [h] at hab
  · intro a b c h1 h2
    simp only [Bool.not_eq_true', beq_eq_false_iff_ne, ne_eq, Frec.cmpStr_lt] at *
    intro hca
    rcases Frec.before_total a b with h | rfl | h
    · rcases Frec.before_total b c with h' | rfl | h'
      · exact Frec.before_irrefl _ (Frec.before_trans (Frec.before_trans h h') hca)
      · exact h1 hca
      · exact h2 h'
    · exact h2 hca
    · exact h1 h
  · intro a b
    simp only [Bool.or_eq_true, Bool.not_eq_true', beq_eq_false_iff_ne, ne_eq, Frec.cmpStr_lt]
    rcases Frec.before_total a b with h | rfl | h
    · exact .inl fun h' => Frec.before_irrefl _ (Frec.before_trans h h')
    · exact .inl (Frec.before_irrefl _)
    · exact .inr fun h' => Frec.before_irrefl _ (Frec.before_trans h h')

theorem firstWith_sorted {names : List Str} (hs : names.Pairwise Frec.Before) (pre : Str) :
    FirstWith names pre (match names[Frec.partitionPoint (fun n => Frec.cmpStr n pre == .lt) names]? with
      | some n => if pre.isPrefixOf n then some n else none
      | none => none) := by
  obtain ⟨q, hq⟩ : ∃ q : Str → Bool, q = fun n => Frec.cmpStr n pre == .lt := ⟨_, rfl⟩
  rw [← hq]
  have hlt : ∀ n, q n = true ↔ Frec.Before n pre := by
    intro n; rw [hq]; dsimp only; rw [beq_iff_eq, Frec.cmpStr_lt]
  have h1 : names.Pairwise (fun a b => q b = true → q a = true) := by
    refine hs.imp ?_
    intro a b hab
    simp only [hlt]
    exact Frec.before_trans hab
  rw [Frec.partitionPoint_eq _ _ h1]
  have key : ∀ l : List Str, l.Pairwise Frec.Before →
      FirstWith l pre (match l[(l.takeWhile q).length]? with
        | some n => if pre.isPrefixOf n then some n else none
        | none => none) := by
    intro l
    induction l with
    | nil => intro _; exact .inr ⟨by simp, by simp⟩
    | cons a l ih =>
      intro hl
      rw [List.pairwise_cons] at hl
      by_cases ha : q a = true
      · have hna : ¬ pre <+: a := by
          rintro ⟨t, rfl⟩
          exact Frec.not_before_prefix pre t ((hlt _).1 ha)
        simp only [List.takeWhile_cons_of_pos ha, List.length_cons, List.getElem?_cons_succ]
        rcases ih hl.2 with ⟨n, h2, h3, h4, h5⟩ | ⟨h2, h3⟩
        · refine .inl ⟨n, h2, by simp [h3], h4, ?_⟩
          intro m hm hpm
          rcases List.mem_cons.1 hm with rfl | hm
          · exact absurd hpm hna
          · exact h5 m hm hpm
        · refine .inr ⟨h2, ?_⟩
          intro m hm
          rcases List.mem_cons.1 hm with rfl | hm
          · exact hna
          · exact h3 m hm
      · rw [List.takeWhile_cons_of_neg ha]
        simp only [List.length_nil, List.getElem?_cons_zero]
        by_cases hp : pre.isPrefixOf a = true
        · rw [if_pos hp]
          refine .inl ⟨a, rfl, by simp, List.isPrefixOf_iff_prefix.1 hp, ?_⟩
          intro m hm _
          rcases List.mem_cons.1 hm with rfl | hm
          · exact .inl rfl
          · exact .inr (hl.1 m hm)
        · rw [if_neg hp]
          refine .inr ⟨rfl, ?_⟩
          intro m hm hpm
          rcases List.mem_cons.1 hm with rfl | hm
          · exact hp (List.isPrefixOf_iff_prefix.2 hpm)
          · exact hp (List.isPrefixOf_iff_prefix.2
              (Frec.prefix_between pre a m (fun hb => ha ((hlt a).2 hb)) (hl.1 m hm) hpm))
  exact key names hs

/-- C37, what holds: as long as the names collected at the start of the shell are there, the name
offered for a prefix is the alphabetically first of the names collected from the directories, and
there is one exactly if one of these names has the prefix. -/
theorem C37_prefix_partial (e : State) (fs fs' : Fs) (paths : List Str) (pre : Str) (hn : e.names = collect fs paths)
    (hne : e.names ≠ []) :
    ∃ names, (∀ n, n ∈ names ↔ ∃ p ∈ paths, n ∈ offered fs p) ∧ FirstWith names pre (searchPrefix e fs' pre) := by
  refine ⟨collect fs paths, fun n => mem_collect, ?_⟩
  rw [hn] at hne
  simp only [searchPrefix, hn, if_neg hne]
  exact firstWith_sorted (sorted_collect fs paths) pre

/-- A file system with two directories of executable files. -/
def exDirs : Fs where
  isFile _ := false
  isExec _ := true
  list p := if p = c!"/bin" then [⟨c!"gzip", .file, true⟩, ⟨c!"zz", .link, true⟩]
    else if p = c!"/usr/bin" then [⟨c!"git", .file, true⟩, ⟨c!"gcc", .file, true⟩] else []

/-- C37, what does not hold: every `cd` and every assignment of `PATH` drops the names, and nothing
collects them again; from then on the first directory with a match decides, not the alphabet, and
links are not offered at all — so after changing directory the offered name differs. -/
theorem C37_violated :
    (∀ (e : State) (fs : Fs) (a b pre : Str), (changeDir e a b).names = [] ∧
      searchPrefix (changeDir e a b) fs pre = search (changeDir e a b) fs pre) ∧
    (∀ (e : State) (v : Str), (setSys e PATH v).names = []) ∧
    (let names := collect exDirs (pathDirs ex0.sys)
     let e := { ex0 with names := names }
     let e' := changeDir e c!"/" c!"/tmp"
     searchPrefix e exDirs c!"g" = some c!"gcc" ∧ searchPrefix e' exDirs c!"g" = some c!"gzip" ∧
     searchPrefix e exDirs c!"z" = some c!"zz" ∧ searchPrefix e' exDirs c!"z" = none) := by
  refine ⟨fun e fs a b pre => ⟨rfl, rfl⟩, fun e v => by simp [setSys, reloadPath], by decide +kernel⟩

end Dsh.Env
