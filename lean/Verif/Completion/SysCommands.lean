import Verif.Completion.Cache
/-!
Commands offered on Tab (C210): dsh/src/completion/generators/system.rs, with `reload_path`
(dsh/src/environment/paths.rs:101-116), `add_path` (dsh/src/lisp/builtin.rs:183-194) and the first set of names
(dsh/src/lib.rs:222-246).

Parameters: the directories, `Path::is_file`, `fuzzy_match_score`.  The clock counts milliseconds.  The thread that
reads the directories ends before the names are looked at (`quick`) or at some later moment, and reads them all in one
moment.
-/
namespace Dsh.SysCmd
open Dsh.Cache (Tab lookup)

abbrev Str := List Char

/-- `file_type` of an entry. -/
inductive Kind where
  | file | link | other
deriving DecidableEq, Repr

/-- An entry of a directory.  For a link, `mode` is that of the link itself, and `leads` says whether it leads to a file
that can be run. -/
structure Ent where
  name : Str
  kind : Kind := .file
  mode : Bool := true
  leads : Bool := true
deriving DecidableEq, Repr

/-- What a request sees of the world; `proc` is `PATH` in the environment of the process, which the shell never changes. -/
structure World where
  fs : Str → List Ent
  isFile : Str → Bool
  fits : Str → Str → Bool
  proc : List Str

/-- The entries taken as commands (system.rs:80-90, 188-197; `is_executable`, dirs.rs:37-46: `metadata` of an entry does
not follow links). -/
def Ent.taken (e : Ent) : Bool := e.kind ≠ .other && e.mode

/-- The order of strings. -/
def le (a b : Str) : Bool := decide (a ≤ b)

def nub : List Str → List Str
  | [] => []
  | x :: l => if x ∈ l then nub l else x :: nub l

/-- A `BTreeSet` of strings, in its order. -/
def setOf (l : List Str) : List Str := sortBy le (nub l)

/-- The commands of a list of directories (system.rs:76-94; `collect_executables`). -/
def names (w : World) (path : List Str) : List Str := ((path.flatMap w.fs).filter Ent.taken).map Ent.name

/-- `MAX_RESULT` (completion.rs:49). -/
def maxResult : Nat := 500

/-- The loops that push candidates (system.rs:143-153, 201-208): up to the maximum, each once. -/
def addAll : List Str → List Str → List Str
  | acc, [] => acc
  | acc, c :: l =>
    if maxResult ≤ acc.length then acc else if c ∈ acc then addAll acc l else addAll (acc ++ [c]) l

/-- A typed path (system.rs:126-134). -/
def typed (w : World) (token : Str) : List Str :=
  if (c!"/".isPrefixOf token || c!"./".isPrefixOf token) && w.isFile token then [token] else []

/-- With the set of names (system.rs:139-158). -/
def fromSet (w : World) (set : List Str) (token : Str) : List Str :=
  addAll (typed w token) (set.filter (w.fits · token))

/-- Without it (system.rs:160-211): one directory after the other. -/
def fromDirs (w : World) (token : Str) : List Str :=
  w.proc.foldl (fun acc d =>
    addAll acc (sortBy le (((w.fs d).filter fun e => w.fits e.name token && !acc.contains e.name && e.taken).map Ent.name)))
    (typed w token)

/-- The three static caches (system.rs:14-25). -/
structure Sys where
  global : Option (List Str × Nat) := none
  inflight : Bool := false
  tok : Tab Str := fun _ => none

/-- `ensure_global_cache_populated` up to the start of the thread (system.rs:44-69). -/
def ensure (now : Nat) (s : Sys) : Sys :=
  let refresh := match s.global with
    | none => true
    | some (_, t) => decide (30000 < now - t)
  if refresh && !s.inflight then { s with inflight := true } else s

/-- `set_global_system_commands` (system.rs:26-31). -/
def setGlobal (l : List Str) (now : Nat) (s : Sys) : Sys := { s with global := some (l, now) }

/-- The end of the thread (system.rs:71-100). -/
def finish (w : World) (now : Nat) (s : Sys) : Sys := { setGlobal (setOf (names w w.proc)) now s with inflight := false }

/-- `clear_global_system_commands` (system.rs:33-39). -/
def clear (s : Sys) : Sys := { s with global := none, inflight := false }

/-- What is offered when the small cache has no answer. -/
def compute (w : World) (token : Str) (s : Sys) : List Str :=
  match s.global with
  | some (set, _) => fromSet w set token
  | none => fromDirs w token

/-- `generate_candidates` (system.rs:116-218). -/
def request (w : World) (now : Nat) (quick : Bool) (token : Str) (s : Sys) : List Str × Sys :=
  match (if token = [] then none else lookup id s.tok now token) with
  | some h => (h.cands, s)
  | none =>
    let s1 := ensure now s
    let s2 := if quick && s1.inflight then finish w now s1 else s1
    let r := compute w token s2
    (r, if token = [] then s2 else { s2 with tok := Cache.set 2000 s2.tok now token r })

/-- The shell: its search path and the caches. -/
structure Shell where
  path : List Str
  sys : Sys

inductive Op where
  /-- Tab on a command name -/
  | request (now : Nat) (quick : Bool) (token : Str)
  /-- the thread ends -/
  | finish (now : Nat)
  /-- `PATH` is set: `reload_path` (environment/paths.rs:101-116) -/
  | setPath (v : List Str)
  /-- `add_path` (lisp/builtin.rs:183-194) -/
  | addPath (d : Str)

/-- One step; what is offered. -/
def step (w : World) (s : Shell) : Op → List Str × Shell
  | .request now quick token => let r := request w now quick token s.sys; (r.1, { s with sys := r.2 })
  | .finish now => ([], { s with sys := finish w now s.sys })
  | .setPath v => ([], ⟨v, clear s.sys⟩)
  | .addPath d => ([], { s with path := d :: s.path })

/-- A session: everything that is offered. -/
def run : Shell → List (World × Op) → List (List Str) × Shell
  | s, [] => ([], s)
  | s, (w, o) :: l => let a := step w s o; let b := run a.2 l; (a.1 :: b.1, b.2)

/-- The first set of names (lib.rs:222-246), from the path after the configuration. -/
def prewarm (w : World) (now : Nat) (s : Shell) : Shell := { s with sys := setGlobal (setOf (names w s.path)) now s.sys }

/-! ### Spec -/

/-- The command can be run: it is a file, or a link that leads to one, in a directory of the search path. -/
def Runs (w : World) (path : List Str) (x : Str) : Prop :=
  ∃ d ∈ path, ∃ e ∈ w.fs d, e.name = x ∧ ((e.kind = .file ∧ e.mode = true) ∨ (e.kind = .link ∧ e.leads = true))

/-- Links have all bits set. -/
def LinksOpen (w : World) : Prop := ∀ d, ∀ e ∈ w.fs d, e.kind = .link → e.mode = true

/-! ### Lemmas -/

theorem le_trans' (a b c : Str) (h : le a b = true) (h' : le b c = true) : le a c = true := by
  simp only [le, decide_eq_true_eq] at *; exact List.le_trans h h'

theorem le_total' (a b : Str) : (le a b || le b a) = true := by
  simp only [le, Bool.or_eq_true, decide_eq_true_eq]; exact List.le_total a b

theorem mem_nub : ∀ {x : Str} {l : List Str}, x ∈ nub l ↔ x ∈ l
  | x, [] => Iff.rfl
  | x, y :: l => by
    rw [nub]; split
    · rename_i h; rw [mem_nub, List.mem_cons]
      exact ⟨Or.inr, fun | .inl e => e ▸ h | .inr h => h⟩
    · rw [List.mem_cons, List.mem_cons, mem_nub]

theorem nodup_nub : ∀ l : List Str, (nub l).Nodup
  | [] => List.nodup_nil
  | x :: l => by
    rw [nub]; split
    · exact nodup_nub l
    · rename_i h; exact List.nodup_cons.mpr ⟨fun m => h (mem_nub.mp m), nodup_nub l⟩

theorem mem_setOf {x : Str} {l : List Str} : x ∈ setOf l ↔ x ∈ l := by
  rw [setOf, (sortBy_perm le _).mem_iff, mem_nub]

theorem nodup_setOf (l : List Str) : (setOf l).Nodup := (sortBy_perm le _).nodup_iff.mpr (nodup_nub l)

theorem sorted_setOf (l : List Str) : (setOf l).Pairwise (fun a b => le a b = true) := sortBy_sorted le le_trans' le_total' _

theorem mem_names {w : World} {path : List Str} {x : Str} :
    x ∈ names w path ↔ ∃ d ∈ path, ∃ e ∈ w.fs d, e.taken = true ∧ e.name = x := by
  simp only [names, List.mem_map, List.mem_filter, List.mem_flatMap]
  constructor
  · rintro ⟨e, ⟨⟨d, hd, he⟩, ht⟩, hx⟩; exact ⟨d, hd, e, he, ht, hx⟩
  · rintro ⟨d, hd, e, he, ht, hx⟩; exact ⟨e, ⟨⟨d, hd, he⟩, ht⟩, hx⟩

theorem mem_addAll : ∀ {l acc : List Str} {x : Str}, x ∈ addAll acc l → x ∈ acc ∨ x ∈ l
  | [], _, _, h => .inl h
  | c :: l, acc, x, h => by
    rw [addAll] at h
    split at h
    · exact .inl h
    · split at h
      · rcases mem_addAll h with h | h
        · exact .inl h
        · exact .inr (List.mem_cons_of_mem _ h)
      · rcases mem_addAll h with h | h
        · rcases List.mem_append.mp h with h | h
          · exact .inl h
          · exact .inr (by rw [List.mem_singleton.mp h]; exact List.mem_cons_self)
        · exact .inr (List.mem_cons_of_mem _ h)

theorem addAll_keeps : ∀ {l acc : List Str} {x : Str}, x ∈ acc → x ∈ addAll acc l
  | [], _, _, h => h
  | c :: l, acc, x, h => by
    rw [addAll]; split
    · exact h
    · split
      · exact addAll_keeps h
      · exact addAll_keeps (List.mem_append_left _ h)

theorem addAll_full {l acc : List Str} (h : maxResult ≤ acc.length) : addAll acc l = acc := by
  cases l with
  | nil => rfl
  | cons c l => rw [addAll, if_pos h]

theorem addAll_append : ∀ (a b acc : List Str), addAll acc (a ++ b) = addAll (addAll acc a) b
  | [], _, _ => rfl
  | c :: a, b, acc => by
    rw [List.cons_append, addAll, addAll]
    split
    · rename_i h; rw [addAll_full h]
    · split <;> exact addAll_append a b _

/-- Either everything is in, or the list is full. -/
theorem addAll_or : ∀ (l acc : List Str), (∀ x ∈ l, x ∈ addAll acc l) ∨ maxResult ≤ (addAll acc l).length
  | [], _ => .inl (by simp)
  | c :: l, acc => by
    rw [addAll]
    split
    · rename_i h; exact .inr h
    · split
      · rename_i hc
        rcases addAll_or l acc with h | h
        · refine .inl fun x hx => ?_
          rcases List.mem_cons.mp hx with rfl | hx
          · exact addAll_keeps hc
          · exact h x hx
        · exact .inr h
      · rcases addAll_or l (acc ++ [c]) with h | h
        · refine .inl fun x hx => ?_
          rcases List.mem_cons.mp hx with rfl | hx
          · exact addAll_keeps (by simp)
          · exact h x hx
        · exact .inr h

theorem nodup_addAll : ∀ (l acc : List Str), acc.Nodup → (addAll acc l).Nodup
  | [], _, h => h
  | c :: l, acc, h => by
    rw [addAll]; split
    · exact h
    · split
      · exact nodup_addAll l acc h
      · rename_i hc
        refine nodup_addAll l _ (List.nodup_append.mpr ⟨h, by simp, ?_⟩)
        intro a ha b hb
        rw [List.mem_singleton.mp hb]
        rintro rfl; exact hc ha

theorem length_addAll : ∀ (l acc : List Str), (addAll acc l).length ≤ acc.length + l.length
  | [], _ => Nat.le_refl _
  | c :: l, acc => by
    rw [addAll]; split
    · simp
    · split
      · have := length_addAll l acc; simp; omega
      · have := length_addAll l (acc ++ [c]); simp at this ⊢; omega

theorem addAll_all {l acc : List Str} (h : acc.length + l.length ≤ maxResult) : ∀ x ∈ l, x ∈ addAll acc l := by
  induction l generalizing acc with
  | nil => simp
  | cons c l ih =>
    intro x hx
    have hl : ¬ maxResult ≤ acc.length := by simp at h; omega
    rw [addAll, if_neg hl]
    split
    · rename_i hc
      rcases List.mem_cons.mp hx with rfl | hx
      · exact addAll_keeps hc
      · exact ih (by simp at h; omega) x hx
    · rcases List.mem_cons.mp hx with rfl | hx
      · exact addAll_keeps (by simp)
      · exact ih (by simp at h ⊢; omega) x hx

theorem typed_nodup (w : World) (token : Str) : (typed w token).Nodup := by
  rw [typed]; split <;> simp

theorem typed_slash {w : World} {token x : Str} (h : x ∈ typed w token) : x = token ∧ '/' ∈ x ∧ w.isFile x = true := by
  rw [typed] at h
  split at h
  · rename_i hc
    have := List.mem_singleton.mp h
    subst this
    rw [Bool.and_eq_true, Bool.or_eq_true, List.isPrefixOf_iff_prefix, List.isPrefixOf_iff_prefix] at hc
    refine ⟨rfl, ?_, hc.2⟩
    rcases hc.1 with h | h
    · exact h.subset (by simp)
    · exact h.subset (by simp)
  · cases h

/-- The directories one after the other give names of commands only. -/
theorem mem_fromDirs {w : World} {token x : Str} (h : x ∈ fromDirs w token) :
    x ∈ typed w token ∨ (x ∈ names w w.proc ∧ w.fits x token = true) := by
  suffices ∀ (p acc : List Str), (∀ x ∈ acc, x ∈ typed w token ∨ (x ∈ names w w.proc ∧ w.fits x token = true)) →
      (∀ d ∈ p, d ∈ w.proc) → ∀ x ∈ p.foldl (fun acc d => addAll acc (sortBy le (((w.fs d).filter fun e =>
        w.fits e.name token && !acc.contains e.name && e.taken).map Ent.name))) acc,
        x ∈ typed w token ∨ (x ∈ names w w.proc ∧ w.fits x token = true) from
    this _ _ (fun x hx => .inl hx) (fun d hd => hd) x h
  intro p
  induction p with
  | nil => intro acc h _ x hx; exact h x hx
  | cons d p ih =>
    intro acc h hp x hx
    refine ih _ ?_ (fun d hd => hp d (by simp [hd])) x hx
    intro y hy
    rcases mem_addAll hy with hy | hy
    · exact h y hy
    · rw [(sortBy_perm le _).mem_iff, List.mem_map] at hy
      obtain ⟨e, he, rfl⟩ := hy
      rw [List.mem_filter, Bool.and_eq_true, Bool.and_eq_true] at he
      exact .inr ⟨mem_names.mpr ⟨d, hp d (by simp), e, he.1, he.2.2, rfl⟩, he.2.1.1⟩

theorem nodup_fromDirs (w : World) (token : Str) : (fromDirs w token).Nodup := by
  suffices ∀ (p acc : List Str), acc.Nodup → (p.foldl (fun acc d => addAll acc (sortBy le (((w.fs d).filter fun e =>
        w.fits e.name token && !acc.contains e.name && e.taken).map Ent.name))) acc).Nodup from this _ _ (typed_nodup w token)
  intro p
  induction p with
  | nil => intro acc h; exact h
  | cons d p ih => intro acc h; exact ih _ (nodup_addAll _ _ h)

/-- Nothing is left out while there is room. -/
theorem fromDirs_all {w : World} {token x : Str} (hx : x ∈ names w w.proc) (hf : w.fits x token = true)
    (hl : (fromDirs w token).length < maxResult) : x ∈ fromDirs w token := by
  obtain ⟨d, hd, e, he, ht, rfl⟩ := mem_names.mp hx
  suffices ∀ (p acc : List Str), (p.foldl (fun acc d => addAll acc (sortBy le (((w.fs d).filter fun e =>
        w.fits e.name token && !acc.contains e.name && e.taken).map Ent.name))) acc).length < maxResult → d ∈ p →
        e.name ∈ p.foldl (fun acc d => addAll acc (sortBy le (((w.fs d).filter fun e =>
        w.fits e.name token && !acc.contains e.name && e.taken).map Ent.name))) acc from this _ _ hl hd
  intro p
  have keep : ∀ (p acc : List Str), (∀ y ∈ acc, y ∈ p.foldl (fun acc d => addAll acc (sortBy le (((w.fs d).filter fun e =>
        w.fits e.name token && !acc.contains e.name && e.taken).map Ent.name))) acc) ∧ (maxResult ≤ acc.length →
        p.foldl (fun acc d => addAll acc (sortBy le (((w.fs d).filter fun e =>
        w.fits e.name token && !acc.contains e.name && e.taken).map Ent.name))) acc = acc) := by
    intro p
    induction p with
    | nil => intro acc; exact ⟨fun y hy => hy, fun _ => rfl⟩
    | cons d p ih =>
      intro acc
      refine ⟨fun y hy => (ih _).1 y (addAll_keeps hy), fun hm => ?_⟩
      rw [List.foldl_cons, addAll_full hm]
      exact (ih acc).2 hm
  induction p with
  | nil => intro acc _ h; cases h
  | cons c p ih =>
    intro acc hlen hm
    rw [List.foldl_cons] at hlen ⊢
    rcases List.mem_cons.mp hm with rfl | hm
    · refine (keep p _).1 _ ?_
      by_cases hc : e.name ∈ acc
      · exact addAll_keeps hc
      · rcases addAll_or (sortBy le (((w.fs d).filter fun e =>
          w.fits e.name token && !acc.contains e.name && e.taken).map Ent.name)) acc with h | h
        · apply h
          rw [(sortBy_perm le _).mem_iff, List.mem_map]
          refine ⟨e, List.mem_filter.mpr ⟨he, ?_⟩, rfl⟩
          simp [hf, ht, hc]
        · rw [(keep p _).2 h] at hlen; omega
    · exact ih _ hlen hm

theorem runs_names {w : World} {path : List Str} {x : Str} (hl : LinksOpen w) (h : Runs w path x) : x ∈ names w path := by
  obtain ⟨d, hd, e, he, hx, hk⟩ := h
  refine mem_names.mpr ⟨d, hd, e, he, ?_, hx⟩
  rcases hk with ⟨hk, hm⟩ | ⟨hk, -⟩
  · simp [Ent.taken, hk, hm]
  · simp [Ent.taken, hk, hl d e he hk]

/-! ### C210 -/

/-- A world without links that lead nowhere, and nothing with the bits but files. -/
def Sound (w : World) : Prop := ∀ d, ∀ e ∈ w.fs d, e.kind = .link → e.leads = true

theorem names_runs {w : World} {path : List Str} {x : Str} (hs : Sound w) (h : x ∈ names w path) : Runs w path x := by
  obtain ⟨d, hd, e, he, ht, hx⟩ := mem_names.mp h
  refine ⟨d, hd, e, he, hx, ?_⟩
  rw [Ent.taken, Bool.and_eq_true] at ht
  cases hk : e.kind with
  | file => exact .inl ⟨rfl, ht.2⟩
  | link => exact .inr ⟨rfl, hs d e he hk⟩
  | other => rw [hk] at ht; simp at ht

theorem shorter_empty (now : Nat) : ∀ r : Str, Cache.shorter (fun _ : Str => (none : Option (Cache.Entry Str))) now r = none
  | [] => rfl
  | _ :: r => by rw [Cache.shorter]; exact shorter_empty now r

theorem lookup_empty (now : Nat) (token : Str) : lookup id (fun _ : Str => (none : Option (Cache.Entry Str))) now token = none := by
  simp [lookup, Cache.longestLivePrefix, Cache.live, shorter_empty]

theorem request_fresh (w : World) (now : Nat) (quick : Bool) (token : Str) :
    (request w now quick token {}).1 = fromDirs w token ∨
      (request w now quick token {}).1 = fromSet w (setOf (names w w.proc)) token := by
  have hl : (if token = [] then none else lookup id (({} : Sys).tok) now token) = none := by
    split
    · rfl
    · exact lookup_empty now token
  rw [request, hl]
  cases quick
  · exact .inl rfl
  · exact .inr rfl

/-- **C210, only commands.** Without answers kept from before, on an unchanged path, what is offered is the file whose path is
typed, or a command of the search path that belongs to the word; each once. -/
theorem C210_only_partial (w : World) (now : Nat) (quick : Bool) (token x : Str) (hs : Sound w)
    (h : x ∈ (request w now quick token {}).1) :
    ((x = token ∧ w.isFile x = true) ∨ (Runs w w.proc x ∧ w.fits x token = true)) ∧
      (request w now quick token {}).1.Nodup := by
  have hreq := request_fresh w now quick token
  rcases hreq with e | e <;> rw [e] at h ⊢
  · refine ⟨?_, nodup_fromDirs w token⟩
    rcases mem_fromDirs h with h | h
    · exact .inl ⟨(typed_slash h).1, (typed_slash h).2.2⟩
    · exact .inr ⟨names_runs hs h.1, h.2⟩
  · refine ⟨?_, nodup_addAll _ _ (typed_nodup w token)⟩
    rcases mem_addAll h with h | h
    · exact .inl ⟨(typed_slash h).1, (typed_slash h).2.2⟩
    · rw [List.mem_filter, mem_setOf] at h
      exact .inr ⟨names_runs hs h.1, h.2⟩

/-- **C210, all commands.** Where fewer than the maximum are offered, every command of the path that belongs to the word is. -/
theorem C210_all_partial (w : World) (now : Nat) (quick : Bool) (token x : Str) (hl : LinksOpen w) (hr : Runs w w.proc x)
    (hf : w.fits x token = true) (h5 : (request w now quick token {}).1.length < maxResult) :
    x ∈ (request w now quick token {}).1 := by
  have hx := runs_names hl hr
  rcases request_fresh w now quick token with e | e <;> rw [e] at h5 ⊢
  · exact fromDirs_all hx hf h5
  · rcases addAll_or ((setOf (names w w.proc)).filter (w.fits · token)) (typed w token) with ha | ha
    · exact ha x (List.mem_filter.mpr ⟨mem_setOf.mpr hx, hf⟩)
    · rw [fromSet] at h5; omega

/-- The names that have been read last are used in full as well, until half a minute is over. -/
theorem C210_kept_partial (w : World) (now : Nat) (token x : Str) (s : Sys) (set : List Str) (t : Nat) (hg : s.global = some (set, t))
    (htok : s.tok = fun _ => none) (hx : x ∈ set) (hf : w.fits x token = true)
    (h5 : (request w now false token s).1.length < maxResult) : x ∈ (request w now false token s).1 := by
  have he : (ensure now s).global = some (set, t) := by
    simp only [ensure]; split <;> split <;> exact hg
  have hq : (request w now false token s).1 = fromSet w set token := by
    have hl : (if token = [] then none else lookup id s.tok now token) = none := by
      split
      · rfl
      · rw [htok]; exact lookup_empty now token
    rw [request, hl]
    simp only [Bool.false_and, Bool.false_eq_true, if_false, compute, he]
  rw [hq] at h5 ⊢
  rcases addAll_or (set.filter (w.fits · token)) (typed w token) with ha | ha
  · exact ha x (List.mem_filter.mpr ⟨hx, hf⟩)
  · rw [fromSet] at h5; omega

/-- **C210 fails: many commands.** A command in front of which, in the order of the alphabet, there are 500 others the word
fits is not offered, not even when its whole name is typed. -/
theorem C210_cut_violated (w : World) (token x : Str) (lows : List Str) (hn : lows.Nodup) (h5 : maxResult ≤ lows.length)
    (hlow : ∀ y ∈ lows, y ∈ names w w.proc ∧ w.fits y token = true ∧ y ≤ x ∧ y ≠ x) (hx : '/' ∉ x) :
    x ∉ fromSet w (setOf (names w w.proc)) token := by
  intro h
  rcases mem_addAll h with h' | h'
  · exact hx (typed_slash h').2.1
  obtain ⟨a, b, hab⟩ := List.append_of_mem h'
  have hs : ((setOf (names w w.proc)).filter (w.fits · token)).Pairwise (fun a b => le a b = true) :=
    (sorted_setOf _).sublist (List.filter_sublist)
  have hd : ((setOf (names w w.proc)).filter (w.fits · token)).Nodup := (nodup_setOf _).sublist List.filter_sublist
  rw [hab] at hs hd
  have hsub : ∀ y ∈ lows, y ∈ a := by
    intro y hy
    obtain ⟨h1, h2, h3, h4⟩ := hlow y hy
    have : y ∈ a ++ x :: b := by rw [← hab]; exact List.mem_filter.mpr ⟨mem_setOf.mpr h1, h2⟩
    rcases List.mem_append.mp this with m | m
    · exact m
    · rcases List.mem_cons.mp m with e | m
      · exact absurd e h4
      · rw [List.pairwise_append] at hs
        have := (List.pairwise_cons.mp hs.2.1).1 y m
        simp only [le, decide_eq_true_eq] at this
        exact absurd (List.le_antisymm h3 this) h4
  have hlen : maxResult ≤ a.length := Nat.le_trans h5 (List.Nodup.length_le_of_subset hn hsub)
  have hda : a.Nodup := (List.nodup_append.mp hd).1
  rw [fromSet, hab, addAll_append] at h
  have hfull : maxResult ≤ (addAll (typed w token) a).length := by
    rcases addAll_or a (typed w token) with ha | ha
    · exact Nat.le_trans hlen (List.Nodup.length_le_of_subset hda ha)
    · exact ha
  rw [addAll_full hfull] at h
  rcases mem_addAll h with h | h
  · exact hx (typed_slash h).2.1
  · exact (List.nodup_append.mp hd).2.2 x h x (by simp) rfl

/-- What is never offered, whatever the caches. -/
def Never (x : Str) (s : Sys) : Prop :=
  (∀ g, s.global = some g → x ∉ g.1) ∧ ∀ k e, s.tok k = some e → x ∉ e.cands

theorem lookup_never {x : Str} {s : Sys} {now : Nat} {token : Str} {h : Cache.Hit Str} (hn : Never x s)
    (hl : lookup id s.tok now token = some h) : x ∉ h.cands := by
  rw [lookup] at hl
  split at hl
  · cases hl
  · split at hl
    · cases hl
    · rename_i e he
      cases hl
      have := hn.2 _ _ he
      show x ∉ (if _ then _ else _)
      split
      · exact this
      · exact fun m => this (List.mem_filter.mp m).1

theorem finish_never {x : Str} {w : World} {now : Nat} {s : Sys} (hn : Never x s) (hx : x ∉ names w w.proc) :
    Never x (finish w now s) := by
  refine ⟨fun g hg => ?_, hn.2⟩
  simp only [finish, setGlobal, Option.some.injEq] at hg
  subst hg
  exact fun m => hx (mem_setOf.mp m)

theorem compute_never {x : Str} {w : World} {token : Str} {s : Sys} (hn : Never x s) (hx : x ∉ names w w.proc)
    (hs : '/' ∉ x) : x ∉ compute w token s := by
  rw [compute]
  split
  · rename_i set t hg
    intro m
    rcases mem_addAll m with m | m
    · exact hs (typed_slash m).2.1
    · exact hn.1 _ hg (List.mem_filter.mp m).1
  · intro m
    rcases mem_fromDirs m with m | m
    · exact hs (typed_slash m).2.1
    · exact hx m.1

theorem ensure_never {x : Str} {now : Nat} {s : Sys} (hn : Never x s) : Never x (ensure now s) := by
  simp only [ensure]; split <;> split <;> exact hn

theorem request_never {x : Str} {w : World} {now : Nat} {q : Bool} {token : Str} {s : Sys} (hn : Never x s)
    (hx : x ∉ names w w.proc) (hs : '/' ∉ x) :
    x ∉ (request w now q token s).1 ∧ Never x (request w now q token s).2 := by
  rw [request]
  split
  · rename_i h hl
    refine ⟨?_, hn⟩
    split at hl
    · cases hl
    · exact lookup_never hn hl
  · have h2 : Never x (if q && (ensure now s).inflight then finish w now (ensure now s) else ensure now s) := by
      split
      · exact finish_never (ensure_never hn) hx
      · exact ensure_never hn
    refine ⟨compute_never h2 hx hs, ?_⟩
    dsimp only
    split
    · exact h2
    · refine ⟨h2.1, fun k e he => ?_⟩
      simp only [Cache.set] at he
      split at he
      · cases he; exact compute_never h2 hx hs
      · rw [Cache.purge, Option.filter_eq_some_iff] at he
        exact h2.2 k e he.1

/-- **C210 fails: `PATH`.** However the search path of the shell is changed, with `export PATH=…` or `add_path`, a command that
is in no directory of the `PATH` the shell was started with is never offered. -/
theorem C210_path_violated (x : Str) (hs : '/' ∉ x) : ∀ (ops : List (World × Op)) (s : Shell), Never x s.sys →
    (∀ a ∈ ops, x ∉ names a.1 a.1.proc) → ∀ r ∈ (run s ops).1, x ∉ r
  | [], _, _, _ => by simp [run]
  | (w, o) :: l, s, hn, hx => by
    have hw := hx (w, o) (by simp)
    have : x ∉ (step w s o).1 ∧ Never x (step w s o).2.sys := by
      cases o with
      | request now q token => exact request_never hn hw hs
      | finish now => exact ⟨by simp [step], finish_never hn hw⟩
      | setPath v => exact ⟨by simp [step], ⟨fun g hg => (by cases hg), hn.2⟩⟩
      | addPath d => exact ⟨by simp [step], hn⟩
    intro r hr
    simp only [run, List.mem_cons] at hr
    rcases hr with rfl | hr
    · exact this.1
    · exact C210_path_violated x hs l _ this.2 (fun a ha => hx a (by simp [ha])) r hr

/-- **C210 fails: `add_path` in the configuration.** A command of such a directory is offered from the start and is gone half a
minute later, when the names have been read again. -/
theorem C210_vanish_violated (w : World) (s : Shell) (x token : Str) (t0 t1 t2 : Nat) (hs : '/' ∉ x) (ht : token ≠ [])
    (htok : s.sys.tok = fun _ => none) (hin : s.sys.inflight = false) (hx : x ∈ names w s.path) (hp : x ∉ names w w.proc)
    (hf : w.fits x token = true) (h5 : (fromSet w (setOf (names w s.path)) token).length < maxResult)
    (h1 : t0 + 30000 < t1) :
    x ∈ (request w t0 false token (prewarm w t0 s).sys).1 ∧ (ensure t1 (prewarm w t0 s).sys).inflight = true ∧
      ∀ q, x ∉ (request w t2 q token (finish w t1 (ensure t1 (prewarm w t0 s).sys))).1 := by
  refine ⟨?_, ?_, ?_⟩
  · have htok' : (prewarm w t0 s).sys.tok = fun _ => none := htok
    have he : ensure t0 (prewarm w t0 s).sys = (prewarm w t0 s).sys := by simp [ensure, prewarm, setGlobal]
    rw [request, if_neg ht, htok', lookup_empty]
    simp only [he]
    show x ∈ fromSet w _ token
    rcases addAll_or ((setOf (names w s.path)).filter (w.fits · token)) (typed w token) with ha | ha
    · exact ha x (List.mem_filter.mpr ⟨mem_setOf.mpr hx, hf⟩)
    · rw [fromSet] at h5; omega
  · have : decide (30000 < t1 - t0) = true := by simp; omega
    simp [ensure, prewarm, setGlobal, hin, this]
  · intro q
    refine (request_never ?_ hp hs).1
    refine ⟨fun g hg => ?_, fun k e he => ?_⟩
    · simp only [finish, setGlobal, Option.some.injEq] at hg
      subst hg
      exact fun m => hp (mem_setOf.mp m)
    · exfalso
      have : (finish w t1 (ensure t1 (prewarm w t0 s).sys)).tok = s.sys.tok := by
        have ht : ∀ n (s : Sys), (ensure n s).tok = s.tok := by
          intro n s; simp only [ensure]; split <;> split <;> rfl
        exact ht t1 (prewarm w t0 s).sys
      rw [this, htok] at he; cases he

/-- **C210 fails: new and removed commands.** For half a minute, and longer while they are read, the names do not depend on
what is in the directories. -/
theorem C210_stale_violated (w w' : World) (now : Nat) (token : Str) (s : Sys) (set : List Str) (t : Nat)
    (hg : s.global = some (set, t)) (hf : w.fits = w'.fits) (hi : w.isFile = w'.isFile) :
    request w now false token s = request w' now false token s := by
  have hc : ∀ s : Sys, s.global = some (set, t) → compute w token s = compute w' token s := by
    intro s h
    simp only [compute, h, fromSet, typed, hf, hi]
  have he : (ensure now s).global = some (set, t) := by
    simp only [ensure]; split <;> split <;> exact hg
  rw [request, request]
  split
  · rfl
  · simp only [Bool.false_and, Bool.false_eq_true, if_false]
    rw [hc _ he]

/-- **C210 fails: links.** A link that leads nowhere is offered like a command. -/
theorem C210_link_violated (w : World) (token : Str) (d : Str) (e : Ent) (hd : d ∈ w.proc) (he : e ∈ w.fs d)
    (hk : e.kind = .link) (hm : e.mode = true) (hf : w.fits e.name token = true)
    (h5 : (fromDirs w token).length < maxResult) : e.name ∈ fromDirs w token :=
  fromDirs_all (mem_names.mpr ⟨d, hd, e, he, by simp [Ent.taken, hk, hm], rfl⟩) hf h5

/-- **C210 fails: typing quickly.** Within two seconds after a request for the beginning `p`, only what was offered for `p` and
begins with the word is offered: neither what the first list had no room for, nor what fits in another way. -/
theorem C210_quick_violated (w w' : World) (now now' : Nat) (q q' : Bool) (p : Str) (c : Char) (hp : p ≠ [])
    (hc : ∀ d ∈ p ++ [c], rustWhitespace d = false) (ht : now ≤ now' ∧ now' < now + 2000) :
    let first := request w now q p {}
    (request w' now' q' (p ++ [c]) first.2).1 = first.1.filter fun x => (p ++ [c]).isPrefixOf x := by
  intro first
  have hl : lookup id (({} : Sys).tok) now p = none := lookup_empty now p
  have h1 : first.2.tok = Cache.set 2000 (fun _ => none) now p first.1 := by
    show (request w now q p {}).2.tok = Cache.set 2000 (fun _ => none) now p (request w now q p {}).1
    rw [request, if_neg hp, hl]
    simp only [if_neg hp]
    cases q <;> rfl
  have hlp : Cache.live first.2.tok now' p = true := by
    simp [h1, Cache.live, Cache.set, Cache.Entry.expired]; omega
  have hlt : Cache.live first.2.tok now' (p ++ [c]) = false := by
    simp [h1, Cache.live, Cache.set, Cache.purge]
  have hlook : lookup id first.2.tok now' (p ++ [c]) =
      some ⟨p, first.1.filter (Cache.fits id (p ++ [c])), false⟩ := by
    have : Cache.longestLivePrefix first.2.tok now' (p ++ [c]) = some (p, false) := by
      rw [Cache.longestLivePrefix, hlt]
      simp [Cache.shorter, hlp]
    rw [lookup, this]
    simp [h1, Cache.set]
  have hlast : Cache.lastToken (p ++ [c]) = p ++ [c] := by
    have htw : ∀ r : Str, (∀ d ∈ r, rustWhitespace d = false) → r.takeWhile (fun c => !rustWhitespace c) = r := by
      intro r; induction r with
      | nil => intro _; rfl
      | cons d r ih => intro h; rw [List.takeWhile_cons, h d (by simp), ih fun e he => h e (by simp [he])]; rfl
    rw [Cache.lastToken, htw _ fun d hd => hc d (List.mem_reverse.mp hd), List.reverse_reverse]
  rw [request, if_neg (by simp), hlook]
  show first.1.filter _ = _
  congr 1
  funext x
  simp [Cache.fits, hlast]

/-! ### Examples -/

/-- The letters in their order. -/
def fuzzy : Str → Str → Bool
  | _, [] => true
  | [], _ :: _ => false
  | a :: s, b :: t => if a = b then fuzzy s t else fuzzy s (b :: t)

def demo : World where
  fs d := if d = c!"/bin" then [⟨c!"ls", .file, true, true⟩, ⟨c!"false", .file, true, true⟩, ⟨c!"notes", .file, false, true⟩, ⟨c!"old", .link, true, false⟩]
    else if d = c!"/opt" then [⟨c!"tool", .file, true, true⟩] else []
  isFile p := p = c!"./run.txt"
  fits := fuzzy
  proc := [c!"/bin"]

theorem all_run : fromDirs demo c!"ls" = [c!"false", c!"ls"] ∧
    fromSet demo (setOf (names demo demo.proc)) c!"ls" = [c!"false", c!"ls"] := by decide

theorem runs_run : Runs demo demo.proc c!"ls" := ⟨c!"/bin", by decide, ⟨c!"ls", .file, true, true⟩, by decide, by decide⟩

/-- `export PATH=/opt:/bin`: `tool` can be run and is not offered. -/
theorem path_run : Runs demo [c!"/opt", c!"/bin"] c!"tool" ∧
    (run ⟨[c!"/bin"], {}⟩ [(demo, .setPath [c!"/opt", c!"/bin"]), (demo, .request 0 true c!"to"), (demo, .finish 10),
      (demo, .request 5000 false c!"too")]).1 = [[], [], [], []] :=
  ⟨⟨c!"/opt", by decide, ⟨c!"tool", .file, true, true⟩, by decide, by decide⟩, by decide⟩

/-- A file without the bits is offered when its path is typed, and a link that leads nowhere. -/
theorem link_run : fromDirs demo c!"./run.txt" = [c!"./run.txt"] ∧ fromDirs demo c!"old" = [c!"old"] := by decide

/-- `l` and then `ls` at once: `false` is not offered any more. -/
theorem quick_run : (request demo 100 false c!"ls" (request demo 0 false c!"l" {}).2).1 = [c!"ls"] ∧
    (request demo 100 false c!"ls" {}).1 = [c!"false", c!"ls"] := by decide

/-- Five hundred commands with an `s`: `zs` is not offered for `zs` when the word fits them all. -/
theorem cut_run (w : World) (hf : ∀ y t, w.fits y t = true)
    (hn : names w w.proc = c!"zs" :: (List.range 500).map fun n => 'a' :: List.replicate n 's') :
    c!"zs" ∉ fromSet w (setOf (names w w.proc)) c!"zs" := by
  refine C210_cut_violated w c!"zs" c!"zs" ((List.range 500).map fun n => 'a' :: List.replicate n 's') ?_ ?_ ?_ (by decide)
  · rw [List.Nodup, List.pairwise_map]
    refine List.Pairwise.imp ?_ (List.nodup_range (n := 500))
    intro a b h e
    have := congrArg List.length e
    simp at this; exact h this
  · simp [maxResult]
  · intro y hy
    refine ⟨by rw [hn]; exact List.mem_cons_of_mem _ hy, hf _ _, ?_, ?_⟩
    · obtain ⟨n, -, rfl⟩ := List.mem_map.mp hy
      exact List.le_of_lt (by rw [List.cons_lt_cons_iff]; exact .inl (by decide))
    · obtain ⟨n, -, rfl⟩ := List.mem_map.mp hy
      intro e; injection e with e _; revert e; decide

end Dsh.SysCmd
