import Verif.Dirs.Jump
/-!
C131 (directory aliases of `z`) and C132 (`z words` goes to the best match).
-/
namespace Dsh.Jump
open Dsh.Frec

/-! ### C131: aliases -/

/-- What a command does to the alias `n`: `some none` removes it, `some (some p)` gives it the path `p`; `none`
leaves it alone. -/
def sets (cwd n : Str) : List Str → Option (Option Str)
  | [a, m] => if m ≠ n then none else if a = c!"add" then some (some cwd)
      else if a = c!"remove" ∨ a = c!"rm" then some none else none
  | a :: m :: p :: _ => if m ≠ n then none else if a = c!"add" then some (some p)
      else if a = c!"remove" ∨ a = c!"rm" then some none else none
  | _ => none

theorem find_filter {l : List (Str × Str)} {m n : Str} : (l.filter (fun a => a.1 != m)).find? (fun a => a.1 == n) =
    if m = n then none else l.find? (fun a => a.1 == n) := by
  induction l with
  | nil => simp
  | cons x l ih =>
    rw [List.filter_cons, List.find?_cons]
    by_cases hx : x.1 = m
    · rw [if_neg (by simp [hx]), ih]
      by_cases hm : m = n
      · simp [hm]
      · rw [if_neg hm, if_neg hm]
        have : (x.1 == n) = false := by rw [hx]; simpa using hm
        rw [this]
    · rw [if_pos (by simpa using hx), List.find?_cons, ih]
      by_cases hm : m = n
      · subst hm
        have : (x.1 == m) = false := by simpa using hx
        simp [this]
      · rw [if_neg hm, if_neg hm]

theorem getAlias_add {w : World} (hdb : w.db = true) (m p n : Str) :
    getAlias (addAlias w m p).1 n = if m = n then some p else getAlias w n := by
  simp only [addAlias, getAlias, hdb, if_true, List.find?_append, find_filter]
  by_cases hm : m = n
  · simp [hm]
  · have : (m == n) = false := by simpa using hm
    simp [hm]

theorem getAlias_remove {w : World} (hdb : w.db = true) (m n : Str) :
    getAlias (removeAlias w m).1 n = if m = n then none else getAlias w n := by
  simp only [removeAlias, getAlias, hdb, if_true, find_filter]
  by_cases hm : m = n <;> simp [hm]

theorem changepwd_rest (D : Disk) (w : World) (p : Str) :
    (changepwd D w p).1.aliases = w.aliases ∧ (changepwd D w p).1.db = w.db := by
  simp only [changepwd]
  split <;> exact ⟨rfl, rfl⟩

theorem jump_rest (D : Disk) (w : World) (p : Str) (l : List Str) :
    (jump D w p l).1.aliases = w.aliases ∧ (jump D w p l).1.db = w.db := changepwd_rest D w p

theorem fromHistory_rest (D : Disk) (E : Env) (w : World) (r : Args) :
    (fromHistory D E w r).1.aliases = w.aliases ∧ (fromHistory D E w r).1.db = w.db := by
  unfold fromHistory
  split
  · exact ⟨rfl, rfl⟩
  · dsimp only
    generalize (if query r = [] then _ else _ : List Str) = results
    by_cases h1 : r.list = true
    · rw [if_pos h1]
      split <;> exact ⟨rfl, rfl⟩
    · rw [if_neg h1]
      by_cases h2 : (r.interactive || (query r).isEmpty) = true
      · rw [if_pos h2]
        split
        · exact ⟨rfl, rfl⟩
        · split
          · exact jump_rest D w _ _
          · exact ⟨rfl, rfl⟩
      · rw [if_neg h2]
        split
        · exact jump_rest D w _ _
        · exact ⟨rfl, rfl⟩

theorem visitDir_rest (D : Disk) (E : Env) (w : World) (args : List Str) :
    (visitDir D E w args).1.aliases = w.aliases ∧ (visitDir D E w args).1.db = w.db := by
  unfold visitDir
  dsimp only
  obtain ⟨w', hw'⟩ : ∃ w', w' = (if (parseArgs args).clean = true then
    { w with hist := w.hist.map fun l => l.filter (fun i => D.exist i.name) } else w) := ⟨_, rfl⟩
  have ha : w'.aliases = w.aliases ∧ w'.db = w.db := by rw [hw']; split <;> exact ⟨rfl, rfl⟩
  rw [← hw']
  split
  · exact ha
  · generalize (if query (parseArgs args) = [] then none else getAlias w' (query (parseArgs args))) = g
    cases g with
    | some p => exact ⟨(jump_rest D w' _ _).1.trans ha.1, (jump_rest D w' _ _).2.trans ha.2⟩
    | none =>
      dsimp only
      split
      · split
        · exact ⟨(jump_rest D w' _ _).1.trans ha.1, (jump_rest D w' _ _).2.trans ha.2⟩
        · exact ha
      · exact ⟨(fromHistory_rest D E w' _).1.trans ha.1, (fromHistory_rest D E w' _).2.trans ha.2⟩

theorem z_db (D : Disk) (E : Env) (w : World) (args : List Str) : (z D E w args).1.db = w.db := by
  cases args with
  | nil => exact (visitDir_rest D E w []).2
  | cons a l =>
    rw [z]
    by_cases h1 : a = c!"add"
    · rw [if_pos h1]
      cases l with
      | nil => rfl
      | cons m l => simp only [zAdd, addAlias]; split <;> rfl
    · rw [if_neg h1]
      by_cases h2 : a = c!"remove" ∨ a = c!"rm"
      · rw [if_pos h2]
        cases l with
        | nil => rfl
        | cons m l => simp only [zRemove, removeAlias]; split <;> rfl
      · rw [if_neg h2]
        by_cases h3 : a = c!"aliases" ∨ a = c!"alias"
        · rw [if_pos h3]; rfl
        · rw [if_neg h3]
          exact (visitDir_rest D E w _).2

/-- Every command, whatever it is: what it does to an alias is what its words say. -/
theorem z_alias (D : Disk) (E : Env) (w : World) (hdb : w.db = true) (args : List Str) (n : Str) :
    getAlias (z D E w args).1 n = (sets w.cwd n args).getD (getAlias w n) := by
  have hv : ∀ l, getAlias (visitDir D E w l).1 n = getAlias w n := by
    intro l
    rw [getAlias, getAlias, (visitDir_rest D E w l).1, (visitDir_rest D E w l).2]
  cases args with
  | nil => exact hv []
  | cons a l =>
    rw [z]
    by_cases h1 : a = c!"add"
    · rw [if_pos h1]
      subst h1
      cases l with
      | nil => rfl
      | cons m l =>
        rw [zAdd]
        dsimp only
        rw [getAlias_add hdb]
        by_cases hm : m = n
        · subst hm
          cases l <;> simp [sets]
        · cases l <;> simp [sets, hm]
    · rw [if_neg h1]
      by_cases h2 : a = c!"remove" ∨ a = c!"rm"
      · rw [if_pos h2]
        cases l with
        | nil => cases h2 <;> (subst_vars; rfl)
        | cons m l =>
          rw [zRemove]
          dsimp only
          rw [getAlias_remove hdb]
          by_cases hm : m = n
          · subst hm
            cases l <;> simp [sets, h1, h2]
          · cases l <;> simp [sets, hm]
      · rw [if_neg h2]
        have hs : sets w.cwd n (a :: l) = none := by
          cases l with
          | nil => rfl
          | cons m l => cases l <;> simp [sets, h1, h2]
        rw [hs]
        by_cases h3 : a = c!"aliases" ∨ a = c!"alias"
        · rw [if_pos h3]; rfl
        · rw [if_neg h3]
          exact hv _

theorem run_db (D : Disk) : ∀ (l : List (Env × List Str)) (w : World), (run D w l).db = w.db := by
  intro l
  induction l with
  | nil => intro w; rfl
  | cons x l ih => intro w; rw [run, ih, z_db]

/-- Does the command name the alias `n` to add or to remove it? -/
def Names (n : Str) : List Str → Prop
  | a :: m :: _ => m = n ∧ (a = c!"add" ∨ a = c!"remove" ∨ a = c!"rm")
  | _ => False

theorem sets_none {cwd n : Str} {args : List Str} (h : ¬ Names n args) : sets cwd n args = none := by
  match args with
  | [] => rfl
  | [a] => rfl
  | [a, m] => simp only [Names] at h; simp only [sets]; grind
  | a :: m :: p :: l => simp only [Names] at h; simp only [sets]; grind

theorem run_alias (D : Disk) (n : Str) : ∀ (l : List (Env × List Str)) (w : World), w.db = true →
    (∀ x ∈ l, ¬ Names n x.2) → getAlias (run D w l) n = getAlias w n := by
  intro l
  induction l with
  | nil => intro w _ _; rfl
  | cons x l ih =>
    intro w hdb h
    rw [run, ih _ (by rw [z_db]; exact hdb) (fun y hy => h y (List.mem_cons_of_mem _ hy)), z_alias D _ w hdb,
      sets_none (h x (List.mem_cons_self ..))]
    rfl

/-- A word that stands for itself behind `z`. -/
def Plain (n : Str) : Prop := n ≠ [] ∧ n ∉ [c!"add", c!"remove", c!"rm", c!"aliases", c!"alias", c!"-i", c!"--interactive",
  c!"-l", c!"--list", c!"-c", c!"--clean"]

instance (n : Str) : Decidable (Plain n) := by unfold Plain; infer_instance

theorem z_plain (D : Disk) (E : Env) (w : World) {n p : Str} (hn : Plain n) (hg : getAlias w n = some p) :
    z D E w [n] = jump D w p [c!"z: jumping to " ++ p ++ c!" (alias)"] := by
  obtain ⟨h0, h⟩ := hn
  simp only [List.mem_cons, List.not_mem_nil, or_false, not_or] at h
  obtain ⟨h1, h2, h3, h4, h5, h6, h7, h8, h9, h10, h11⟩ := h
  have hp : parseArgs [n] = ⟨false, false, false, [n]⟩ := by
    simp [parseArgs, h6, h7, h8, h9, h10, h11]
  have hq : query ⟨false, false, false, [n]⟩ = n := by simp [query, joinWith]
  rw [z, if_neg h1, if_neg (by simp [h2, h3]), if_neg (by simp [h4, h5]), visitDir]
  simp only [hp, hq, Bool.false_and, Bool.false_eq_true, if_false, h0, hg]

/-- **C131, an alias leads to its directory.** Behind `z add n p` (or `z add n` in the directory `p`) and any
commands that neither add nor remove `n`, `z n` changes to `p` and says so; if that fails, the status
is 1.  The path is taken from the directory one is in then. -/
theorem C131_jump_partial (D : Disk) (E E' : Env) (w : World) (hdb : w.db = true) (n p : Str) (hn : Plain n)
    (args : List Str) (ha : args = [c!"add", n, p] ∨ (args = [c!"add", n] ∧ p = w.cwd))
    (l : List (Env × List Str)) (hl : ∀ x ∈ l, ¬ Names n x.2) :
    let v := run D (z D E w args).1 l
    (∀ c, D.enter v.cwd p = some c → (z D E' v [n]).1.cwd = c ∧ (z D E' v [n]).1.old = some v.cwd ∧
      (z D E' v [n]).2 = ⟨[c!"z: jumping to " ++ p ++ c!" (alias)"], [], true⟩) ∧
    (D.enter v.cwd p = none → (z D E' v [n]).1.cwd = v.cwd ∧ (z D E' v [n]).2.ok = false) := by
  intro v
  have hg : getAlias v n = some p := by
    show getAlias (run D (z D E w args).1 l) n = _
    rw [run_alias D n l _ (by rw [z_db]; exact hdb) hl, z_alias D E w hdb]
    rcases ha with rfl | ⟨rfl, rfl⟩ <;> simp [sets]
  rw [z_plain D E' v hn hg, jump, changepwd]
  dsimp only
  constructor
  · intro c hc
    rw [hc]
    exact ⟨rfl, rfl, rfl⟩
  · intro hc
    rw [hc]
    exact ⟨rfl, rfl⟩

/-- A file system for the examples: `/h/src`, `/h`, `/t` and `/`. -/
def exDisk : Disk where
  enter c p :=
    let q := if p.head? = some '/' then p else c ++ '/' :: p
    if q = c!"/h/src" ∨ q = c!"/h" ∨ q = c!"/t" ∨ q = c!"/" then some q else none
  exist _ := true

/-- Nothing matches, nothing is chosen. -/
def exEnv : Env where
  I := I0
  now := 0
  ctx := none
  score _ _ := none
  choose _ := none

def exWorld : World := ⟨c!"/h", none, [], some [], true⟩

/-- `z add s /h/src ; cd /t ; z add t ; z s`. -/
example : (z exDisk exEnv (run exDisk (z exDisk exEnv exWorld [c!"add", c!"s", c!"/h/src"]).1
    [(exEnv, [c!"add", c!"t"]), (exEnv, [c!"remove", c!"x"])]) [c!"s"]).1.cwd = c!"/h/src" :=
  ((C131_jump_partial exDisk exEnv exEnv exWorld rfl c!"s" c!"/h/src" (by decide) _ (Or.inl rfl) _
    (by simp [Names])).1 _ (by decide +kernel)).1

/-- **C131 fails for relative paths.** `z add n p` takes any path, and what it means depends on the directory in
which `z n` is given. -/
theorem C131_relative_violated :
    let w := (z exDisk exEnv exWorld [c!"add", c!"s", c!"src"]).1
    exDisk.enter exWorld.cwd c!"src" = some c!"/h/src" ∧ (z exDisk exEnv w [c!"s"]).1.cwd = c!"/h/src" ∧
      (z exDisk exEnv { w with cwd := c!"/t" } [c!"s"]).1.cwd = c!"/t" ∧
      (z exDisk exEnv { w with cwd := c!"/t" } [c!"s"]).2.ok = false := by decide +kernel

/-- **C131 fails for some names.** `z add` takes the names of its own subcommands and options, but nothing leads
to them: whatever is in the table, `z n` is the same without it (and `z` with the options alone). -/
theorem C131_names_violated (D : Disk) (E : Env) (w : World) (hdb : w.db = true) (p : Str) :
    (∀ n ∈ [c!"add", c!"remove", c!"rm", c!"aliases", c!"alias"],
      getAlias (z D E w [c!"add", n, p]).1 n = some p ∧ (z D E (z D E w [c!"add", n, p]).1 [n]).1.cwd = w.cwd) ∧
    (∀ n ∈ [c!"-l", c!"--list", c!"-c", c!"--clean"],
      getAlias (z D E w [c!"add", n, p]).1 n = some p ∧ (z D E (z D E w [c!"add", n, p]).1 [n]).1.cwd = w.cwd) := by
  have hset : ∀ n, getAlias (z D E w [c!"add", n, p]).1 n = some p := by
    intro n
    rw [z_alias D E w hdb]
    simp [sets]
  have hcwd : ∀ n, (z D E w [c!"add", n, p]).1.cwd = w.cwd := by
    intro n
    rw [z, if_pos rfl]
    simp only [zAdd, addAlias]
    split <;> rfl
  have hlist : ∀ v : World, (fromHistory D E v ⟨false, true, false, []⟩).1.cwd = v.cwd := by
    intro v
    unfold fromHistory
    split
    · rfl
    · dsimp only
      generalize (if query _ = [] then _ else _ : List Str) = results
      rw [if_pos rfl]
      split <;> rfl
  constructor
  · intro n hn
    refine ⟨hset n, ?_⟩
    simp only [List.mem_cons, List.not_mem_nil, or_false] at hn
    rcases hn with rfl | rfl | rfl | rfl | rfl <;> exact hcwd _
  · intro n hn
    refine ⟨hset n, ?_⟩
    rw [← hcwd n]
    generalize (z D E w [c!"add", n, p]).1 = v
    simp only [List.mem_cons, List.not_mem_nil, or_false] at hn
    rcases hn with rfl | rfl | rfl | rfl
    · exact hlist v
    · exact hlist v
    · rfl
    · rfl

/-- **C131 fails with `-l` and `-i`.** `z -l n` (and `z -i n`) is asked to list (or to offer) directories, but
with an alias `n` it changes the directory. -/
theorem C131_list_violated (D : Disk) (E : Env) (w : World) {n p c : Str} (hn : Plain n) (hg : getAlias w n = some p)
    (hc : D.enter w.cwd p = some c) :
    (z D E w [c!"-l", n]).1.cwd = c ∧ (z D E w [c!"-i", n]).1.cwd = c := by
  obtain ⟨h0, h⟩ := hn
  simp only [List.mem_cons, List.not_mem_nil, or_false, not_or] at h
  obtain ⟨h1, h2, h3, h4, h5, h6, h7, h8, h9, h10, h11⟩ := h
  have hl : parseArgs [c!"-l", n] = ⟨false, true, false, [n]⟩ := by
    simp [parseArgs, h6, h7, h8, h9, h10, h11]
  have hi : parseArgs [c!"-i", n] = ⟨true, false, false, [n]⟩ := by
    simp [parseArgs, h6, h7, h8, h9, h10, h11]
  have hq : ∀ a b d, query ⟨a, b, d, [n]⟩ = n := by intro a b d; simp [query, joinWith]
  constructor
  · show (visitDir D E w [c!"-l", n]).1.cwd = c
    unfold visitDir
    simp only [hl, hq, Bool.false_and, Bool.false_eq_true, if_false, h0, hg, jump, changepwd, hc]
  · show (visitDir D E w [c!"-i", n]).1.cwd = c
    unfold visitDir
    simp only [hi, hq, Bool.false_and, Bool.false_eq_true, if_false, h0, hg, jump, changepwd, hc]

example : (z exDisk exEnv (z exDisk exEnv exWorld [c!"add", c!"s", c!"/h/src"]).1 [c!"-l", c!"s"]).1.cwd = c!"/h/src" :=
  (C131_list_violated exDisk exEnv _ (n := c!"s") (p := c!"/h/src") (by decide) (by decide +kernel) (by decide +kernel)).1

/-- **C131 fails for the status.** `z remove n` without such an alias, and `z add` when nothing can be stored,
say so, but the status is 0. -/
theorem C131_status_violated (D : Disk) (E : Env) (w : World) :
    (∀ n, getAlias w n = none → w.db = true →
      (z D E w [c!"remove", n]).2 = ⟨[], [c!"z remove: no alias named '" ++ n ++ c!"'"], true⟩) ∧
    (w.db = false → ∀ n p, (z D E w [c!"add", n, p]).2 = ⟨[], [c!"z add: failed to add alias '" ++ n ++ c!"'"], true⟩) := by
  constructor
  · intro n hn hdb
    have : w.aliases.any (fun a => a.1 == n) = false := by
      rw [getAlias, if_pos hdb, Option.map_eq_none_iff, List.find?_eq_none] at hn
      rw [List.any_eq_false]
      exact hn
    show (zRemove w [n]).2 = _
    simp only [zRemove, removeAlias, hdb, if_true, this, Bool.false_eq_true, if_false]
  · intro hdb n p
    show (zAdd w [n, p]).2 = _
    simp only [zAdd, addAlias, hdb, Bool.false_eq_true, if_false]

/-- The names in the table are different. -/
def Keyed (w : World) : Prop := w.aliases.Pairwise (fun a b => a.1 ≠ b.1)

theorem z_keyed (D : Disk) (E : Env) (w : World) (h : Keyed w) (args : List Str) : Keyed (z D E w args).1 := by
  unfold Keyed at *
  have hv : ∀ l, (visitDir D E w l).1.aliases.Pairwise (fun a b => a.1 ≠ b.1) := by
    intro l; rw [(visitDir_rest D E w l).1]; exact h
  cases args with
  | nil => exact hv []
  | cons a l =>
    rw [z]
    by_cases h1 : a = c!"add"
    · rw [if_pos h1]
      cases l with
      | nil => exact h
      | cons m l =>
        simp only [zAdd, addAlias]
        split
        · rw [List.pairwise_append]
          refine ⟨h.filter _, by simp, ?_⟩
          intro x hx y hy
          simp only [List.mem_filter, List.mem_singleton] at hx hy
          subst hy
          simpa using hx.2
        · exact h
    · rw [if_neg h1]
      by_cases h2 : a = c!"remove" ∨ a = c!"rm"
      · rw [if_pos h2]
        cases l with
        | nil => exact h
        | cons m l =>
          simp only [zRemove, removeAlias]
          split
          · exact h.filter _
          · exact h
      · rw [if_neg h2]
        by_cases h3 : a = c!"aliases" ∨ a = c!"alias"
        · rw [if_pos h3]; exact h
        · rw [if_neg h3]; exact hv _

theorem run_keyed (D : Disk) : ∀ (l : List (Env × List Str)) (w : World), Keyed w → Keyed (run D w l) := by
  intro l
  induction l with
  | nil => intro w h; exact h
  | cons x l ih => intro w h; exact ih _ (z_keyed D _ w h _)

/-- **C131, the list.** After any commands, `z aliases` has one line for each alias there is, with its path, in
the order of the names, and no others. -/
theorem C131_aliases_partial (D : Disk) (E : Env) (w : World) (hdb : w.db = true) (hk : Keyed w) (l : List (Env × List Str)) :
    let v := run D w l
    ∃ ps : List (Str × Str), ps.Pairwise (fun a b => Before a.1 b.1) ∧ (∀ n p, (n, p) ∈ ps ↔ getAlias v n = some p) ∧
      (z D E v [c!"aliases"]).2 = ⟨if ps = [] then [c!"No directory aliases defined. Use 'z add <alias> [path]' to create one."]
        else c!"Directory aliases:" :: ps.map fun a => c!"  " ++ a.1 ++ c!" → " ++ a.2, [], true⟩ := by
  intro v
  have hdb' : v.db = true := (run_db D l w).trans hdb
  have hk' : Keyed v := run_keyed D l w hk
  have hp := sortBy_perm (fun a b : Str × Str => cmpStr a.1 b.1 != .gt) v.aliases
  have hle : ∀ s t : Str, (cmpStr s t != .gt) = true ↔ ¬ Before t s := by
    intro s t
    rw [bne_iff_ne, Ne, cmpStr_gt]
  have hs := sortBy_sorted (fun a b : Str × Str => cmpStr a.1 b.1 != .gt)
    (by
      intro a b c hab hbc
      rw [hle] at *
      intro hca
      rcases before_total b.1 a.1 with h | h | h
      · exact hab h
      · rw [h] at hbc; exact hbc hca
      · exact hbc (before_trans hca h))
    (by
      intro a b
      rw [Bool.or_eq_true, hle, hle]
      by_cases h : Before b.1 a.1
      · exact Or.inr fun h' => before_irrefl _ (before_trans h h')
      · exact Or.inl h) v.aliases
  refine ⟨listAliases v, ?_, ?_, ?_⟩
  · rw [listAliases, if_pos hdb']
    have hne : (sortBy (fun a b : Str × Str => cmpStr a.1 b.1 != .gt) v.aliases).Pairwise (fun a b => a.1 ≠ b.1) :=
      (hp.pairwise_iff (fun h => h.symm)).2 hk'
    refine (hs.and hne).imp ?_
    rintro a b ⟨h1, h2⟩
    rw [hle] at h1
    rcases before_total a.1 b.1 with h | h | h
    · exact h
    · exact absurd h h2
    · exact absurd h h1
  · intro n p
    rw [listAliases, if_pos hdb', hp.mem_iff, getAlias, if_pos hdb']
    have hk'' : v.aliases.Pairwise (fun a b => a.1 ≠ b.1) := hk'
    generalize v.aliases = t at hk''
    induction t with
    | nil => simp
    | cons x t ih =>
      rw [List.pairwise_cons] at hk''
      rw [List.find?_cons, List.mem_cons]
      by_cases hx : x.1 = n
      · have : (x.1 == n) = true := by simpa using hx
        rw [this]
        simp only [Option.map_some, Option.some.injEq]
        constructor
        · rintro (h | h)
          · rw [← h]
          · exact absurd hx (hk''.1 _ h)
        · rintro rfl; left; rw [← hx]
      · have : (x.1 == n) = false := by simpa using hx
        rw [this]
        simp only
        refine Iff.trans ?_ (ih hk''.2)
        constructor
        · rintro (h | h)
          · rw [← h] at hx; exact absurd rfl hx
          · exact h
        · exact Or.inr
  · show (zAliases v).2 = _
    rw [zAliases]
    simp only [List.isEmpty_iff]

example : (z exDisk exEnv (run exDisk exWorld [(exEnv, [c!"add", c!"s", c!"/h/src"]), (exEnv, [c!"add", c!"a"]),
    (exEnv, [c!"add", c!"s", c!"/t"])]) [c!"aliases"]).2.out = [c!"Directory aliases:", c!"  a → /h", c!"  s → /t"] := by
  decide +kernel

/-! ### C132: the best match -/

/-- Words behind `z` that are a question: no subcommand in front, no option among them. -/
def Question (ws : List Str) : Prop :=
  (∀ a ∈ ws.head?, a ∉ [c!"add", c!"remove", c!"rm", c!"aliases", c!"alias"]) ∧
  (∀ a ∈ ws, a ∉ [c!"-i", c!"--interactive", c!"-l", c!"--list", c!"-c", c!"--clean"]) ∧ joinWith [' '] ws ≠ []

theorem parse_words : ∀ (ws : List Str), (∀ a ∈ ws, a ∉ [c!"-i", c!"--interactive", c!"-l", c!"--list", c!"-c", c!"--clean"]) →
    parseArgs ws = ⟨false, false, false, ws⟩ := by
  intro ws
  induction ws with
  | nil => intro _; rfl
  | cons a l ih =>
    intro h
    have ha := h a (List.mem_cons_self ..)
    simp only [List.mem_cons, List.not_mem_nil, or_false, not_or] at ha
    obtain ⟨h6, h7, h8, h9, h10, h11⟩ := ha
    rw [parseArgs, ih fun b hb => h b (List.mem_cons_of_mem _ hb)]
    simp [h6, h7, h8, h9, h10, h11]

theorem z_question (D : Disk) (E : Env) (w : World) {ws : List Str} (h : Question ws)
    (hg : getAlias w (joinWith [' '] ws) = none) (hq : joinWith [' '] ws ≠ c!"-") :
    z D E w ws = fromHistory D E w ⟨false, false, false, ws⟩ := by
  obtain ⟨h1, h2, h3⟩ := h
  have hv : z D E w ws = visitDir D E w ws := by
    cases ws with
    | nil => rfl
    | cons a l =>
      have ha := h1 a rfl
      simp only [List.mem_cons, List.not_mem_nil, or_false, not_or] at ha
      rw [z, if_neg ha.1, if_neg (by simp [ha]), if_neg (by simp [ha])]
  have hg' : getAlias w (query ⟨false, false, false, ws⟩) = none := hg
  have hq' : query ⟨false, false, false, ws⟩ ≠ c!"-" := hq
  rw [hv, visitDir]
  simp only [parse_words ws h2, Bool.false_and, Bool.false_eq_true, if_false, hg', ite_self, hq']

/-- The score of a directory for a question, if it is a match: above 25. -/
def Hit (E : Env) (q : Str) (i : Item) (s : Int) : Prop := E.score i.name q = some s ∧ 25 < s

/-- No better than: a lower score, or the same score and not visited more. -/
def NoBetter (E : Env) (a b : Int × Item) : Prop :=
  a.1 < b.1 ∨ (a.1 = b.1 ∧ FLe (effective E.I E.now E.ctx a.2) (effective E.I E.now E.ctx b.2))

/-- With a NaN counted as the lowest number. -/
def lowLe (E : Env) (a b : Int × Item) : Bool :=
  decide (b.1 < a.1 ∨ (b.1 = a.1 ∧ FLe (low (effective E.I E.now E.ctx b.2)) (low (effective E.I E.now E.ctx a.2))))

theorem cmpMatch_low (E : Env) {a b : Int × Item} (ha : effective E.I E.now E.ctx a.2 ≠ .nan)
    (hb : effective E.I E.now E.ctx b.2 ≠ .nan) : ((cmpMatch E a b).swap != .gt) = lowLe E a b := by
  have e1 : low (effective E.I E.now E.ctx a.2) = effective E.I E.now E.ctx a.2 := by
    cases h : effective E.I E.now E.ctx a.2 <;> simp_all [low]
  have e2 : low (effective E.I E.now E.ctx b.2) = effective E.I E.now E.ctx b.2 := by
    cases h : effective E.I E.now E.ctx b.2 <;> simp_all [low]
  have hf := fcmp_not_lt ha hb
  rw [Bool.eq_iff_iff, lowLe, decide_eq_true_iff, e1, e2, bne_iff_ne, cmpMatch, cmpInt]
  by_cases h1 : a.1 < b.1
  · rw [if_pos h1]
    simp only [Ordering.swap, ne_eq, not_true, false_iff]
    omega
  · rw [if_neg h1]
    by_cases h2 : b.1 < a.1
    · rw [if_pos h2]
      simp [Ordering.swap, h2]
    · rw [if_neg h2]
      have : b.1 = a.1 := by omega
      simp only [this, Int.lt_irrefl, true_and, false_or]
      rw [← hf]
      cases fcmp (effective E.I E.now E.ctx a.2) (effective E.I E.now E.ctx b.2) <;> simp [Ordering.swap]

/-- The matches, the best in front. -/
theorem byMatch_spec (E : Env) (l : List Item) (q : Str) (hn : ∀ i ∈ l, effective E.I E.now E.ctx i ≠ .nan) :
    ∃ ms : List (Int × Item), byMatch E l q = ms.map (·.2.name) ∧
      (∀ s i, (s, i) ∈ ms ↔ i ∈ l ∧ Hit E q i s) ∧ ms.Pairwise (fun a b => NoBetter E b a) := by
  obtain ⟨hits, hh⟩ : ∃ hits, hits = l.filterMap
    (fun i => (E.score i.name q).bind fun s => if s > 25 then some (s, i) else none) := ⟨_, rfl⟩
  have hmem : ∀ s i, (s, i) ∈ hits ↔ i ∈ l ∧ Hit E q i s := by
    intro s i
    rw [hh, List.mem_filterMap]
    constructor
    · rintro ⟨j, hj, h⟩
      rw [Option.bind_eq_some_iff] at h
      obtain ⟨t, ht, h⟩ := h
      by_cases h25 : t > 25
      · rw [if_pos h25] at h
        simp only [Option.some.injEq, Prod.mk.injEq] at h
        obtain ⟨rfl, rfl⟩ := h
        exact ⟨hj, ht, h25⟩
      · rw [if_neg h25] at h; cases h
    · rintro ⟨hi, hs, h25⟩
      exact ⟨i, hi, by rw [hs]; simp only [Option.bind_some]; rw [if_pos h25]⟩
  have hnan : ∀ x ∈ hits, effective E.I E.now E.ctx x.2 ≠ .nan := fun x hx => hn _ ((hmem x.1 x.2).1 hx).1
  have hc : sortBy (fun a b => (cmpMatch E a b).swap != .gt) hits = sortBy (lowLe E) hits :=
    sortBy_congr _ _ _ fun a ha b hb => cmpMatch_low E (hnan a ha) (hnan b hb)
  refine ⟨sortBy (lowLe E) hits, ?_, ?_, ?_⟩
  · rw [byMatch, ← hh, hc]
  · intro s i
    rw [(sortBy_perm _ _).mem_iff, hmem]
  · have hs := sortBy_sorted (lowLe E)
      (by
        intro a b c hab hbc
        simp only [lowLe, decide_eq_true_iff] at *
        rcases hab with h | ⟨h, h'⟩ <;> rcases hbc with g | ⟨g, g'⟩
        · exact Or.inl (by omega)
        · exact Or.inl (by omega)
        · exact Or.inl (by omega)
        · exact Or.inr ⟨by omega, fle_trans g' h'⟩)
      (by
        intro a b
        simp only [lowLe, Bool.or_eq_true, decide_eq_true_iff]
        rcases Int.lt_trichotomy a.1 b.1 with h | h | h
        · exact Or.inr (Or.inl h)
        · rcases fle_total (low_ne (effective E.I E.now E.ctx a.2)) (low_ne (effective E.I E.now E.ctx b.2)) with g | g
          · exact Or.inr (Or.inr ⟨h, g⟩)
          · exact Or.inl (Or.inr ⟨h.symm, g⟩)
        · exact Or.inl (Or.inl h)) hits
    refine List.Pairwise.imp_of_mem ?_ hs
    intro a b ha hb hab
    have h1 := hnan a ((sortBy_perm _ _).mem_iff.1 ha)
    have h2 := hnan b ((sortBy_perm _ _).mem_iff.1 hb)
    have e1 : low (effective E.I E.now E.ctx a.2) = effective E.I E.now E.ctx a.2 := by
      cases h : effective E.I E.now E.ctx a.2 <;> simp_all [low]
    have e2 : low (effective E.I E.now E.ctx b.2) = effective E.I E.now E.ctx b.2 := by
      cases h : effective E.I E.now E.ctx b.2 <;> simp_all [low]
    rw [lowLe, decide_eq_true_iff, e1, e2] at hab
    exact hab

/-- **C132, the best match.** Without an alias of that name, `z words` takes a visited directory that matches and
than which no match is better, says where it goes, and goes there (status 1 if it cannot).  If nothing matches it
says so, nothing changes, and the status is 1.  The score of the matcher is taken as it is; no frecency is NaN. -/
theorem C132_best_partial (D : Disk) (E : Env) (w : World) (items : List Item) (hh : w.hist = some items)
    (hn : ∀ i ∈ items, effective E.I E.now E.ctx i ≠ .nan) (ws : List Str) (hw : Question ws)
    (hg : getAlias w (joinWith [' '] ws) = none) (hq : joinWith [' '] ws ≠ c!"-") :
    ((∃ i ∈ items, ∃ s, Hit E (joinWith [' '] ws) i s) →
      ∃ i ∈ items, ∃ s, Hit E (joinWith [' '] ws) i s ∧
        (∀ j ∈ items, ∀ t, Hit E (joinWith [' '] ws) j t → (t, j) = (s, i) ∨ NoBetter E (t, j) (s, i)) ∧
        (z D E w ws).2.out = [c!"z: jumping to " ++ i.name ++ c!"\n"] ∧
        (z D E w ws).1.cwd = (D.enter w.cwd i.name).getD w.cwd ∧ (z D E w ws).1.old = some w.cwd ∧
        ((z D E w ws).2.ok = true ↔ ∃ c, D.enter w.cwd i.name = some c)) ∧
    ((¬ ∃ i ∈ items, ∃ s, Hit E (joinWith [' '] ws) i s) → (z D E w ws).1 = w ∧
      (z D E w ws).2 = ⟨[], [c!"z: no matching history found", c!"z: failed to change directory"], false⟩) := by
  obtain ⟨ms, h1, h2, h3⟩ := byMatch_spec E items (joinWith [' '] ws) hn
  have hq3 : joinWith [' '] ws ≠ [] := hw.2.2
  have hf : z D E w ws = match ms.map (·.2.name) with
      | t :: _ => jump D w t [c!"z: jumping to " ++ t ++ c!"\n"]
      | [] => (w, ⟨[], [c!"z: no matching history found", c!"z: failed to change directory"], false⟩) := by
    rw [z_question D E w hw hg hq, fromHistory, hh]
    have e : (joinWith [' '] ws).isEmpty = false := by
      rw [← Bool.not_eq_true, List.isEmpty_iff]; exact hq3
    simp only [query, hq3, if_false, h1, Bool.false_eq_true, Bool.false_or, e]
    cases ms <;> rfl
  cases ms with
  | nil =>
    constructor
    · rintro ⟨i, hi, s, hs⟩
      have := (h2 s i).2 ⟨hi, hs⟩
      cases this
    · intro _
      rw [hf]
      exact ⟨rfl, rfl⟩
  | cons m ms =>
    obtain ⟨s, i⟩ := m
    obtain ⟨hi, hs⟩ := (h2 s i).1 (List.mem_cons_self ..)
    constructor
    · intro _
      refine ⟨i, hi, s, hs, ?_, ?_⟩
      · intro j hj t ht
        rcases List.mem_cons.1 ((h2 t j).2 ⟨hj, ht⟩) with h | h
        · exact Or.inl h
        · exact Or.inr ((List.pairwise_cons.1 h3).1 _ h)
      · rw [hf]
        simp only [List.map_cons, jump, changepwd]
        cases D.enter w.cwd i.name <;> simp
    · intro h
      exact absurd ⟨i, hi, s, hs⟩ h

/-- A matcher for the examples: the length of the name, if it contains the letters in order. -/
def exScore (n q : Str) : Option Int := if q.isSublist n then some (30 + q.length) else none

def exItem (n : Str) (k : Rat) : Item := ⟨n, 43200, 0, .fin k, .fin k, 1, none⟩

def exEnv2 : Env := { exEnv with score := exScore }

def exWorld2 : World := ⟨c!"/t", none, [], some [exItem c!"/h" 1, exItem c!"/h/src" 5, exItem c!"/t" 2], true⟩

example : (z exDisk exEnv2 exWorld2 [c!"h"]).1.cwd = c!"/h/src" ∧ (z exDisk exEnv2 exWorld2 [c!"h"]).2.ok = true := by
  decide +kernel

/-- The theorem at work: `z h` takes a match, and none is better. -/
example : ∃ i ∈ [exItem c!"/h" 1, exItem c!"/h/src" 5, exItem c!"/t" 2], ∃ s, Hit exEnv2 c!"h" i s ∧
    (z exDisk exEnv2 exWorld2 [c!"h"]).1.cwd = (exDisk.enter c!"/t" i.name).getD c!"/t" := by
  obtain ⟨i, hi, s, hs, _, _, hc, _⟩ := (C132_best_partial exDisk exEnv2 exWorld2 _ rfl (by decide +kernel) [c!"h"]
    ⟨by simp, by simp, by decide⟩ (by decide +kernel) (by decide)).1
    ⟨exItem c!"/h" 1, by simp, 31, by decide +kernel, by decide⟩
  exact ⟨i, hi, s, hs, hc⟩

/-- **C132 fails for directories that are gone.** The best match no longer exists; another match does.  `z` stays
where it is, and the directory one came from is forgotten: `z -` no longer leads there. -/
theorem C132_gone_violated :
    let w : World := ⟨c!"/t", some c!"/", [], some [exItem c!"/h" 1, exItem c!"/h/old" 5], true⟩
    (z exDisk exEnv2 w [c!"h"]).1.cwd = c!"/t" ∧ (z exDisk exEnv2 w [c!"h"]).2.ok = false ∧
      exDisk.enter c!"/t" c!"/h" = some c!"/h" ∧ exScore c!"/h" c!"h" = some 31 ∧
      (z exDisk exEnv2 w [c!"-"]).1.cwd = c!"/" ∧
      (z exDisk exEnv2 (z exDisk exEnv2 w [c!"h"]).1 [c!"-"]).1.cwd = c!"/t" := by decide +kernel

/-- **C132 fails in the best match itself.** In the directory that matches best, `z` goes nowhere although
another one matches, and the directory one came from is forgotten. -/
theorem C132_here_violated :
    let w : World := ⟨c!"/h/src", some c!"/t", [], some [exItem c!"/h" 1, exItem c!"/h/src" 5], true⟩
    (z exDisk exEnv2 w [c!"h"]).1.cwd = c!"/h/src" ∧ (z exDisk exEnv2 w [c!"h"]).2.ok = true ∧
      (z exDisk exEnv2 w [c!"h"]).1.old = some c!"/h/src" := by decide +kernel

/-- **C132 fails for several words.** The words are joined with blanks into one pattern.  A matcher that wants
each letter of the pattern in the name, blanks too, finds no directory without a blank: `z a b` fails,
whatever was visited. -/
theorem C132_words_violated (D : Disk) (E : Env) (w : World) (items : List Item) (hh : w.hist = some items)
    (hm : ∀ n q s, E.score n q = some s → ' ' ∈ q → ' ' ∈ n) (hi : ∀ i ∈ items, ' ' ∉ i.name)
    (a b : Str) (l : List Str) (hw : Question (a :: b :: l)) (hg : getAlias w (joinWith [' '] (a :: b :: l)) = none) :
    (z D E w (a :: b :: l)).1 = w ∧ (z D E w (a :: b :: l)).2.ok = false := by
  have hb : ' ' ∈ joinWith [' '] (a :: b :: l) := by simp [joinWith]
  have hnone : byMatch E items (joinWith [' '] (a :: b :: l)) = [] := by
    have : items.filterMap (fun i => (E.score i.name (joinWith [' '] (a :: b :: l))).bind
        fun s => if s > 25 then some (s, i) else none) = [] := by
      rw [List.filterMap_eq_nil_iff]
      intro i hii
      cases hs : E.score i.name (joinWith [' '] (a :: b :: l)) with
      | none => rfl
      | some s => exact absurd (hm _ _ _ hs hb) (hi i hii)
    rw [byMatch, this]
    rfl
  have hq : joinWith [' '] (a :: b :: l) ≠ c!"-" := by
    intro h; rw [h] at hb; revert hb; decide
  have hq3 : joinWith [' '] (a :: b :: l) ≠ [] := hw.2.2
  have e : (joinWith [' '] (a :: b :: l)).isEmpty = false := by
    rw [← Bool.not_eq_true, List.isEmpty_iff]; exact hq3
  rw [z_question D E w hw hg hq, fromHistory, hh]
  simp only [query, hq3, if_false, hnone, Bool.false_eq_true, Bool.false_or, e, and_self]

/-- `z h src` with `/h/src` visited. -/
example : (z exDisk exEnv2 exWorld2 [c!"h", c!"src"]).2.ok = false :=
  (C132_words_violated exDisk exEnv2 exWorld2 _ rfl
    (by
      intro n q s h hq
      simp only [exEnv2, exScore] at h
      split at h
      · rename_i hs
        exact (List.isSublist_iff_sublist.1 hs).subset hq
      · cases h)
    (by decide +kernel) c!"h" c!"src" [] ⟨by decide, by decide, by decide⟩ (by decide +kernel)).2

/-- **C132, the list.** `z -l words` lists at most 20 of the directories that match, the best in front, and
changes nothing. -/
theorem C132_list_partial (D : Disk) (E : Env) (w : World) (items : List Item) (hh : w.hist = some items)
    (hn : ∀ i ∈ items, effective E.I E.now E.ctx i ≠ .nan) (ws : List Str) (hw : Question ws)
    (hg : getAlias w (joinWith [' '] ws) = none) (hq : joinWith [' '] ws ≠ c!"-") :
    ∃ ms : List (Int × Item), (∀ s i, (s, i) ∈ ms ↔ i ∈ items ∧ Hit E (joinWith [' '] ws) i s) ∧
      ms.Pairwise (fun a b => NoBetter E b a) ∧ (z D E w (c!"-l" :: ws)).1 = w ∧
      (z D E w (c!"-l" :: ws)).2 = ⟨(ms.map (·.2.name)).take 20,
        if ms = [] then [c!"z: no matching history found"] else [], true⟩ := by
  obtain ⟨ms, h1, h2, h3⟩ := byMatch_spec E items (joinWith [' '] ws) hn
  refine ⟨ms, h2, h3, ?_⟩
  have hp : parseArgs (c!"-l" :: ws) = ⟨false, true, false, ws⟩ := by
    rw [parseArgs, parse_words ws hw.2.1]
    rfl
  have hg' : getAlias w (query ⟨false, true, false, ws⟩) = none := hg
  have hq' : query ⟨false, true, false, ws⟩ ≠ c!"-" := hq
  have hz : z D E w (c!"-l" :: ws) = fromHistory D E w ⟨false, true, false, ws⟩ := by
    show visitDir D E w (c!"-l" :: ws) = _
    rw [visitDir]
    simp only [hp, Bool.false_and, Bool.false_eq_true, if_false, hg', ite_self, hq']
  rw [hz, fromHistory, hh]
  simp only [query, hw.2.2, if_false, h1, if_true]
  cases ms <;> exact ⟨rfl, rfl⟩

example : (z exDisk exEnv2 exWorld2 [c!"-l", c!"h"]).2.out = [c!"/h/src", c!"/h"] := by decide +kernel

/-- **C132 fails for the list.** Nothing matches and the status is 0, where `z words` has status 1. -/
theorem C132_status_violated :
    (z exDisk exEnv2 exWorld2 [c!"q"]).2.ok = false ∧ (z exDisk exEnv2 exWorld2 [c!"-l", c!"q"]).2.ok = true ∧
      (z exDisk exEnv2 exWorld2 [c!"-i", c!"q"]).2.ok = true := by decide +kernel

/-- **C132, back.** `z -` goes to the directory one came from, and again back. -/
theorem C132_back_partial (D : Disk) (E E' : Env) (w : World) (o : Str) (ho : w.old = some o)
    (hg : getAlias w c!"-" = none) (he : D.enter w.cwd o = some o) (hb : D.enter o w.cwd = some w.cwd) :
    (z D E w [c!"-"]).1.cwd = o ∧ (z D E w [c!"-"]).2.ok = true ∧
      (z D E' (z D E w [c!"-"]).1 [c!"-"]).1.cwd = w.cwd := by
  have hz : ∀ (E : Env) (v : World) (p : Str), v.old = some p → getAlias v c!"-" = none →
      z D E v [c!"-"] = jump D v p [c!"z: jumping to " ++ p ++ c!"\n"] := by
    intro E v p hp hgv
    show visitDir D E v [c!"-"] = _
    have hpa : parseArgs [c!"-"] = ⟨false, false, false, [c!"-"]⟩ := by decide
    have hqa : query ⟨false, false, false, [c!"-"]⟩ = c!"-" := by decide
    rw [visitDir]
    simp only [hpa, Bool.false_and, Bool.false_eq_true, if_false, hqa, hgv, ite_self, if_true, hp]
  have h1 : (z D E w [c!"-"]) = ({ w with old := some w.cwd, cwd := o }, ⟨[c!"z: jumping to " ++ o ++ c!"\n"], [], true⟩) := by
    rw [hz E w o ho hg, jump, changepwd]
    dsimp only
    rw [he]
    rfl
  rw [h1]
  refine ⟨rfl, rfl, ?_⟩
  rw [hz E' { w with old := some w.cwd, cwd := o } w.cwd rfl hg, jump, changepwd]
  dsimp only
  rw [hb]

example : (z exDisk exEnv { exWorld with old := some c!"/t" } [c!"-"]).1.cwd = c!"/t" :=
  (C132_back_partial exDisk exEnv exEnv { exWorld with old := some c!"/t" } c!"/t" rfl (by decide +kernel) (by decide +kernel)
    (by decide +kernel)).1

end Dsh.Jump
