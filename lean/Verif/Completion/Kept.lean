import Verif.Env.Path
/-!
The list of commands kept between sessions (C220): dsh/src/environment/mod.rs:288-383 and its use at the start (dsh/src/lib.rs:221-246).

The directories are those of `Verif/Env/Path.lean` with a time and a length.  The file is what was written (JSON is read back as
written), or cannot be read (`none`).  A reading of all directories takes place in one moment, writing the list in another.
-/
namespace Dsh.Kept
open Dsh.Env (DirEnt)

abbrev Str := List Char

/-- A directory: its time of change in nanoseconds, its length, its entries. -/
structure Dir where
  mtime : Int
  len : Nat
  entries : List DirEnt

/-- The directories there are. -/
abbrev World := Str → Option Dir

/-- The entries of a directory. -/
def entries (w : World) (p : Str) : List DirEnt := match w p with
  | some d => d.entries
  | none => []

/-- The same as a file system. -/
def fs (w : World) : Env.Fs := ⟨fun _ => false, fun _ => false, entries w⟩

/-- `collect_executables` (environment/mod.rs:288-311). -/
def collect (w : World) (paths : List Str) : List Str := Env.collect (fs w) paths

/-- `PathCacheSignature` (environment/mod.rs:314-319). -/
structure Sig where
  path : Str
  there : Bool
  secs : Option Nat
  len : Nat
deriving DecidableEq

/-- The signature of a directory (environment/mod.rs:332-351). -/
def sigOf (w : World) (p : Str) : Sig := match w p with
  | some d => ⟨p, true, if d.mtime < 0 then none else some (d.mtime.toNat / 1000000000), d.len⟩
  | none => ⟨p, false, none, 0⟩

/-- `executable_cache_signature` (environment/mod.rs:328-353). -/
def signature (w : World) (paths : List Str) : List Sig := paths.map (sigOf w)

/-- `ExecutableNamesCache` (environment/mod.rs:322-326). -/
structure Saved where
  version : Nat
  paths : List Sig
  names : List Str

/-- `save_cached_executables` (environment/mod.rs:370-383): the signature is taken now. -/
def save (w : World) (paths names : List Str) : Saved := ⟨1, signature w paths, names⟩

/-- `load_cached_executables` (environment/mod.rs:359-368). -/
def load (w : World) (paths : List Str) (file : Option Saved) : Option (List Str) :=
  match file with
  | none => none
  | some c => if c.version = 1 ∧ c.paths = signature w paths then some c.names else none

/-- The running shell: its search path, the names it knows, the search path of the reading under way, and the file. -/
structure St where
  path : List Str
  names : List Str
  reading : Option (List Str)
  file : Option Saved

/-- The start (lib.rs:222-230): the list kept, if it counts; the reading begins. -/
def start (w : World) (path : List Str) (file : Option Saved) : St :=
  ⟨path, (load w path file).getD [], some path, file⟩

inductive Ev where
  /-- the reading ends: it was made in the first world and is written in the second (lib.rs:231-245); `written` if that succeeds -/
  | ends (read write : World) (written : Bool)
  /-- `PATH` is set, also by `cd` with the same path: `reload_path` (environment/paths.rs:101-116) -/
  | path (v : List Str)

def step (s : St) : Ev → St
  | .ends r w written => match s.reading with
    | none => s
    | some p => { s with names := collect r p, reading := none, file := if written then some (save w p (collect r p)) else s.file }
  | .path v => { s with path := v, names := [] }

def run (s : St) (l : List Ev) : St := l.foldl step s

/-! ### Spec -/

/-- The command is a program of a directory of the search path. -/
def There (w : World) (paths : List Str) (n : Str) : Prop :=
  ∃ p ∈ paths, ∃ d, w p = some d ∧ ∃ e ∈ d.entries, e.name = n ∧ (e.kind = .file ∨ e.kind = .link) ∧ e.exec = true

/-- What has changed in a directory between two moments shows in its time, in whole seconds, or in its length. -/
def Shows (w w' : World) (paths : List Str) : Prop :=
  ∀ p ∈ paths, (w p).map (fun d => (d.mtime / 1000000000, d.len)) = (w' p).map (fun d => (d.mtime / 1000000000, d.len)) →
    (w p).map Dir.entries = (w' p).map Dir.entries

/-- Times are not before 1970. -/
def Modern (w : World) (paths : List Str) : Prop := ∀ p ∈ paths, ∀ d, w p = some d → 0 ≤ d.mtime

/-! ### Lemmas -/

theorem mem_collect (w : World) (paths : List Str) (n : Str) : n ∈ collect w paths ↔ There w paths n := by
  rw [collect, Env.mem_collect]
  constructor
  · rintro ⟨p, hp, h⟩
    simp only [Env.offered, List.mem_filterMap, fs, entries] at h
    obtain ⟨e, he, h⟩ := h
    cases hw : w p with
    | none => rw [hw] at he; cases he
    | some d =>
      rw [hw] at he
      split at h
      · next hk => cases h; exact ⟨p, hp, d, hw, e, he, rfl, hk.1, hk.2⟩
      · cases h
  · rintro ⟨p, hp, d, hw, e, he, rfl, hk, hx⟩
    exact ⟨p, hp, by simp only [Env.offered, List.mem_filterMap, fs, entries, hw]; exact ⟨e, he, by simp [hk, hx]⟩⟩

theorem collect_congr {w w' : World} {paths : List Str} (h : ∀ p ∈ paths, (w p).map Dir.entries = (w' p).map Dir.entries) :
    collect w paths = collect w' paths := by
  have : paths.flatMap (Env.offered (fs w)) = paths.flatMap (Env.offered (fs w')) := by
    induction paths with
    | nil => rfl
    | cons p l ih =>
      have hp := h p (by simp)
      have he : entries w p = entries w' p := by
        unfold entries
        cases h1 : w p <;> cases h2 : w' p <;> simp_all
      simp only [List.flatMap_cons]
      rw [ih fun q hq => h q (by simp [hq])]
      simp [Env.offered, fs, he]
  rw [collect, collect, Env.collect, Env.collect, this]

theorem load_save (w w' : World) (paths names : List Str) (h : signature w paths = signature w' paths) :
    load w' paths (some (save w paths names)) = some names := by simp [load, save, h]

/-! ### C220 -/

/-- **C220, true.** If changes show, and nothing changed while the list was written, a list taken at a start names, in order, exactly the
programs there are. -/
theorem C220_true_partial (w w' : World) (paths : List Str) (written : Bool) (s : St) (hr : s.reading = some paths) (l : List Str)
    (hw : written = true) (hs : Shows w w' paths) (hm : Modern w paths) (hm' : Modern w' paths)
    (h : load w' paths (step s (.ends w w written)).file = some l) :
    l = collect w' paths ∧ (∀ n, n ∈ l ↔ There w' paths n) ∧ l.Pairwise Frec.Before := by
  subst hw
  simp only [step, hr, if_true, load, save, true_and] at h
  split at h
  · next hsig =>
    cases h
    have hc : collect w paths = collect w' paths := by
      refine collect_congr fun p hp => hs p hp ?_
      have h1 : sigOf w p = sigOf w' p := by
        have := List.map_inj_left.1 hsig
        exact this p hp
      have e1 := hm p hp
      have e2 := hm' p hp
      unfold sigOf at h1
      cases hw : w p with
      | none =>
        cases hw' : w' p with
        | none => rfl
        | some d' => rw [hw, hw'] at h1; simp at h1
      | some d =>
        cases hw' : w' p with
        | none => rw [hw, hw'] at h1; simp at h1
        | some d' =>
          rw [hw, hw'] at h1
          have a := e1 d hw
          have b := e2 d' hw'
          simp only [Sig.mk.injEq, true_and, if_neg (Int.not_lt.2 a), if_neg (Int.not_lt.2 b), Option.some.injEq] at h1
          simp only [Option.map_some, Option.some.injEq, Prod.mk.injEq]
          exact ⟨by omega, h1.2⟩
    refine ⟨hc, ?_, ?_⟩
    · intro n; rw [hc]; exact mem_collect w' paths n
    · exact Env.sorted_collect _ _
  · cases h

/-- **C220, another search path.** A list kept for another search path, also one in another order, is not taken. -/
theorem C220_other_partial (w w' : World) (p q names : List Str) (h : p ≠ q) : load w' q (some (save w p names)) = none := by
  have : signature w p ≠ signature w' q := by
    intro hs
    have h1 : (signature w p).map Sig.path = (signature w' q).map Sig.path := by rw [hs]
    have h2 : ∀ (w : World) (l : List Str), (signature w l).map Sig.path = l := by
      intro w l
      simp only [signature, List.map_map]
      conv_rhs => rw [← List.map_id l]
      refine List.map_congr_left fun x _ => ?_
      simp only [Function.comp, sigOf]
      cases w x <;> rfl
    rw [h2, h2] at h1
    exact h h1
  simp [load, save, this]

/-- **C220, afterwards.** Whatever was kept, and whether or not it can be written: when the reading has ended, and the search path was not
set since the start, the names are exactly the programs there were at the reading. -/
theorem C220_settled_partial (w r k : World) (path : List Str) (file : Option Saved) (written : Bool) (n : Str) :
    n ∈ (run (start w path file) [.ends r k written]).names ↔ There r path n := by
  simp only [run, List.foldl_cons, List.foldl_nil, start, step]
  exact mem_collect r path n

/-- **C220, the first list.** What is known at the start comes from a list written before for this search path, or nothing is known. -/
theorem C220_first_partial (w : World) (path : List Str) (file : Option Saved) :
    (start w path file).names = [] ∨ ∃ c, file = some c ∧ (start w path file).names = c.names ∧ c.paths.map Sig.path = path := by
  simp only [start, load]
  cases file with
  | none => exact .inl rfl
  | some c =>
    dsimp only
    split
    · next h =>
      refine .inr ⟨c, rfl, rfl, ?_⟩
      rw [h.2]
      simp only [signature, List.map_map]
      conv_rhs => rw [← List.map_id path]
      refine List.map_congr_left fun x _ => ?_
      simp only [Function.comp, sigOf]
      cases w x <;> rfl
    · exact .inl rfl

/-- Change the execute bit of a file. -/
def chmod (name : Str) (x : Bool) (e : DirEnt) : DirEnt := if e.name = name then { e with exec := x } else e

/-- The world after `chmod` of a file in a directory: the directory itself does not change. -/
def afterChmod (w : World) (dir name : Str) (x : Bool) : World :=
  fun p => if p = dir then (w p).map fun d => { d with entries := d.entries.map (chmod name x) } else w p

/-- **C220 fails: chmod.** Making a file of the search path a program does not show: the next start takes the old list, in which it is
missing; and a program that is none any more is still offered. -/
theorem C220_chmod_violated (w : World) (paths : List Str) (dir name : Str) (x : Bool) :
    load (afterChmod w dir name x) paths (some (save w paths (collect w paths))) = some (collect w paths) ∧
    (x = true → ∀ d, dir ∈ paths → w dir = some d → (∃ e ∈ d.entries, e.name = name ∧ e.kind = .file) → ¬ There w paths name →
      There (afterChmod w dir name x) paths name ∧ name ∉ collect w paths) := by
  refine ⟨?_, ?_⟩
  · apply load_save
    apply List.map_congr_left
    intro p _
    unfold sigOf afterChmod
    by_cases hp : p = dir
    · simp only [hp, if_true]; cases w dir <;> rfl
    · simp only [hp, if_false]
  · rintro rfl d hd hw ⟨e, he, rfl, hk⟩ hn
    refine ⟨⟨dir, hd, { d with entries := d.entries.map (chmod e.name true) }, by simp [afterChmod, hw], chmod e.name true e, List.mem_map_of_mem he,
      by simp [chmod], by simp [chmod, hk], by simp [chmod]⟩, ?_⟩
    rw [mem_collect]; exact hn

/-- **C220 fails: the same second.** A program put into a directory in the second of its last change, while the directory does not
grow, is missing at the next start. -/
theorem C220_second_violated (w : World) (paths : List Str) (dir : Str) (d : Dir) (e : DirEnt) (later : Int) (hd : dir ∈ paths) (hw : w dir = some d)
    (h0 : 0 ≤ d.mtime) (h1 : 0 ≤ later) (hl : later / 1000000000 = d.mtime / 1000000000) (hk : e.kind = .file) (hx : e.exec = true) (hn : ¬ There w paths e.name) :
    let w' : World := fun p => if p = dir then some ⟨later, d.len, e :: d.entries⟩ else w p
    load w' paths (some (save w paths (collect w paths))) = some (collect w paths) ∧ There w' paths e.name ∧
      e.name ∉ collect w paths := by
  intro w'
  refine ⟨?_, ⟨dir, hd, ⟨later, d.len, e :: d.entries⟩, by simp [w'], e, by simp, rfl, .inl hk, hx⟩, by rw [mem_collect]; exact hn⟩
  apply load_save
  apply List.map_congr_left
  intro p _
  by_cases hp : p = dir
  · subst hp
    simp only [sigOf, hw, w', if_true, if_neg (Int.not_lt.2 h0), if_neg (Int.not_lt.2 h1), Sig.mk.injEq, true_and, and_true, Option.some.injEq]
    omega
  · simp [sigOf, w', hp]

/-- **C220 fails: while it is written.** The signature is taken after the reading: a program that arrives between the two is missing at
the next start, although nothing changes any more. -/
theorem C220_between_violated (s : St) (paths : List Str) (r k : World) (hr : s.reading = some paths) :
    (start k paths (step s (.ends r k true)).file).names = collect r paths ∧
      ∀ n, There k paths n → ¬ There r paths n → n ∉ (start k paths (step s (.ends r k true)).file).names := by
  have h : (start k paths (step s (.ends r k true)).file).names = collect r paths := by
    simp [start, step, hr, load_save]
  refine ⟨h, fun n _ hn => ?_⟩
  rw [h, mem_collect]; exact hn

/-- **C220 fails: a search path set early.** If `PATH` is set before the reading ends, the names of the old search path come back. -/
theorem C220_early_violated (w r k : World) (path v : List Str) (file : Option Saved) (written : Bool) :
    let s := run (start w path file) [.path v, .ends r k written]
    s.path = v ∧ ∀ n, n ∈ s.names ↔ There r path n := by
  refine ⟨rfl, fun n => ?_⟩
  simp only [run, List.foldl_cons, List.foldl_nil, start, step]
  exact mem_collect r path n

/-! ### Examples -/

def bin (es : List DirEnt) : World := fun p => if p = c!"/bin" then some ⟨1700000000500000000, 4096, es⟩ else none

def ls : DirEnt := ⟨c!"ls", .file, true⟩
def deploy (x : Bool) : DirEnt := ⟨c!"deploy", .file, x⟩

example : load (bin [ls, deploy true]) [c!"/bin"] (some (save (bin [ls, deploy false]) [c!"/bin"] (collect (bin [ls, deploy false]) [c!"/bin"]))) =
    some [c!"ls"] ∧ collect (bin [ls, deploy true]) [c!"/bin"] = [c!"deploy", c!"ls"] := by decide +kernel

example : Modern (bin [ls]) [c!"/bin"] ∧ Shows (bin [ls]) (bin [ls]) [c!"/bin"] := by
  refine ⟨?_, fun p _ _ => rfl⟩
  intro p hp d hd
  rw [List.mem_singleton] at hp
  subst hp
  simp only [bin, if_true, Option.some.injEq] at hd
  subst hd
  decide

end Dsh.Kept
