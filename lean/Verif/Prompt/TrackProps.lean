import Verif.Prompt.Track
/-!
C141: the git part of the prompt is about the repository of the current directory, as it is now.
-/
namespace Dsh.Prm

/-- What should be shown in a directory: the report of git there, with the branch of its repository. -/
def wanted (D : Disk) (dir : Path) : Option Status :=
  (D.rootOf dir).bind fun r => (D.report dir).map fun s => { s with branch := (D.head r).getD s.branch }

/-- Roots lie above the directories, git reports where there is a repository, and no repository lies in another one. -/
structure Disk.Flat (D : Disk) : Prop where
  sound : ∀ p r, D.rootOf p = some r → r <+: p ∧ D.rootOf r = some r
  reports : ∀ p r, D.rootOf p = some r → (D.report p).isSome
  flat : ∀ r p, D.rootOf r = some r → r <+: p → D.rootOf p = some r

/-- What happens: the directory changes, a prompt is printed, the repository is looked at (undisturbed). -/
inductive Quiet where
  | cd (dir : Path)
  | print
  | check

def Pr.check (D : Disk) (p : Pr) : Pr := (((p.send).recv (p.last.getD 0 + 200)).step D).step D

def Pr.quiet (D : Disk) (p : Pr) : Quiet → Pr
  | .cd d => p.cd d
  | .print => (p.print D).2
  | .check => p.check D

structure Inv (D : Disk) (p : Pr) : Prop where
  idle : p.task = none
  known : ∀ k ∈ p.known, D.rootOf k = some k
  root : ∀ r, p.root = some r → D.rootOf r = some r ∧ r <+: p.dir
  found : p.needs = false → p.root = D.rootOf p.dir

theorem under_iff (p : Pr) : p.under = true ↔ ∃ r, p.root = some r ∧ r <+: p.dir := by
  unfold Pr.under
  cases p.root with
  | none => simp
  | some r => simp

theorem inv_cd {D : Disk} (hD : D.Flat) {p : Pr} (h : Inv D p) (d : Path) : Inv D (p.cd d) := by
  unfold Pr.cd
  dsimp only
  by_cases hu : ({ p with dir := d } : Pr).under = true
  · rw [if_pos hu]
    obtain ⟨r, hr, hp⟩ := (under_iff _).1 hu
    have hr' : p.root = some r := hr
    refine ⟨h.idle, h.known, ?_, ?_⟩
    · intro r' h'
      have : r' = r := Option.some.inj (h'.symm.trans hr)
      subst this
      exact ⟨(h.root r' hr').1, hp⟩
    · intro _
      show p.root = D.rootOf d
      rw [hr', hD.flat r d (h.root r hr').1 hp]
  · rw [if_neg hu]
    cases hf : p.known.find? (fun k => k.isPrefixOf d) with
    | some k =>
      have hk := List.mem_of_find?_eq_some hf
      have hp : k <+: d := by
        have := List.find?_some (p := fun k : Path => k.isPrefixOf d) hf
        exact List.isPrefixOf_iff_prefix.1 this
      refine ⟨h.idle, h.known, ?_, ?_⟩
      · intro r hr
        have : k = r := Option.some.inj hr
        subst this
        exact ⟨h.known _ hk, hp⟩
      · intro _
        exact (hD.flat k d (h.known k hk) hp).symm
    | none =>
      refine ⟨h.idle, h.known, ?_, ?_⟩
      · intro r hr; cases hr
      · intro hn; cases hn

theorem inv_print {D : Disk} {p : Pr} (h : Inv D p) : Inv D (p.print D).2 := by
  have key : ∀ q : Pr, q = p ∨ q = { p with cache := none, needs := true } → Inv D q := by
    rintro q (rfl | rfl)
    · exact h
    · exact ⟨h.idle, h.known, h.root, fun hn => by cases hn⟩
  apply key
  unfold Pr.print
  dsimp only
  split
  · split
    · split
      · split
        · exact Or.inr rfl
        · exact Or.inl rfl
      · exact Or.inr rfl
    · exact Or.inl rfl
  · exact Or.inl rfl

/-- What an undisturbed look at the repository leaves. -/
theorem check_spec {D : Disk} (hD : D.Flat) {p : Pr} (h : Inv D p) :
    Inv D (p.check D) ∧ (p.check D).dir = p.dir ∧ (p.check D).root = D.rootOf p.dir ∧
    ∀ r, D.rootOf p.dir = some r → ∃ s, D.report p.dir = some s ∧ (p.check D).cache = some (s, r) := by
  have hrecv : (p.send).recv (p.last.getD 0 + 200) =
      { p with last := some (p.last.getD 0 + 200), task := if p.needs then some (.finding p.dir) else if p.root.isSome then some (.fetching p.dir) else none } := by
    have ht : (p.last.any fun l => decide (p.last.getD 0 + 200 < l + 200)) = false := by
      cases hl : p.last with
      | none => rfl
      | some l => simp
    unfold Pr.recv Pr.send
    dsimp only
    rw [ht, h.idle]
    rfl
  unfold Pr.check
  rw [hrecv]
  by_cases hn : p.needs = true
  · rw [if_pos hn]
    cases hr : D.rootOf p.dir with
    | none =>
      simp only [Pr.step, Pr.setRoot, hr]
      refine ⟨⟨rfl, h.known, ?_, ?_⟩, rfl, rfl, ?_⟩
      · intro r h'; cases h'
      · intro _; exact hr.symm
      · intro r h'; cases h'
    | some r =>
      obtain ⟨s, hs⟩ := Option.isSome_iff_exists.1 (hD.reports _ _ hr)
      simp only [Pr.step, Pr.setRoot, Pr.setReport, hr, hs, Option.isSome_some, if_true]
      refine ⟨⟨rfl, ?_, ?_, ?_⟩, trivial, trivial, ?_⟩
      · intro k hk
        dsimp only at hk
        split at hk
        · exact h.known k hk
        · rcases List.mem_cons.1 hk with rfl | hk
          · exact (hD.sound _ _ hr).2
          · exact h.known k hk
      · intro r' h'
        have : r = r' := Option.some.inj h'
        subst this
        exact ⟨(hD.sound _ _ hr).2, (hD.sound _ _ hr).1⟩
      · intro _; exact hr.symm
      · intro r' h'
        have : r = r' := Option.some.inj h'
        subst this
        exact ⟨s, rfl, rfl⟩
  · have hn' : p.needs = false := by simpa using hn
    rw [if_neg hn]
    have hroot := h.found hn'
    cases hr : p.root with
    | none =>
      simp only [Pr.step, Option.isSome_none, Bool.false_eq_true, if_false]
      rw [hr] at hroot
      refine ⟨⟨rfl, h.known, ?_, fun _ => hroot⟩, trivial, hroot, ?_⟩
      · intro r h'; cases h'
      intro r h'
      rw [← hroot] at h'
      cases h'
    | some r =>
      rw [hr] at hroot
      obtain ⟨s, hs⟩ := Option.isSome_iff_exists.1 (hD.reports _ _ hroot.symm)
      simp only [Pr.step, Pr.setReport, hs, Option.isSome_some, if_true]
      refine ⟨⟨rfl, h.known, ?_, ?_⟩, trivial, hroot, ?_⟩
      · intro r' h'
        exact h.root r' (hr.trans h')
      · intro _; exact hroot
      · intro r' h'
        rw [← hroot] at h'
        have : r = r' := Option.some.inj h'
        subst this
        exact ⟨s, rfl, rfl⟩

/-- **C141, when nothing changes.** If no repository lies in another one and nothing on the disk changes: after any changes of directory, prompts
and looks at the repository, the prompt after one more undisturbed look shows the report of git for the current directory with the branch of its
repository, nothing outside repositories; and the place is shown relative to the root of that repository. -/
theorem C141_settled_partial (D : Disk) (hD : D.Flat) (dir : Path) (ops : List Quiet) :
    let p := (ops.foldl (Pr.quiet D) { dir := dir }).check D
    (p.print D).1 = wanted D p.dir ∧ p.root = D.rootOf p.dir ∧ p.dir = (ops.foldl (Pr.quiet D) { dir := dir }).dir := by
  intro p
  have hinv : ∀ (ops : List Quiet) (p : Pr), Inv D p → Inv D (ops.foldl (Pr.quiet D) p) := by
    intro ops
    induction ops with
    | nil => intro p h; exact h
    | cons o ops ih =>
      intro p h
      refine ih _ ?_
      cases o with
      | cd d => exact inv_cd hD h d
      | print => exact inv_print h
      | check => exact (check_spec hD h).1
  have h0 : Inv D { dir := dir } := ⟨rfl, fun k hk => (by cases hk), fun r hr => (by cases hr), fun hn => (by cases hn)⟩
  obtain ⟨hi, hdir, hroot, hcache⟩ := check_spec hD (hinv ops _ h0)
  refine ⟨?_, by rw [hdir]; exact hroot, hdir⟩
  have hroot' : p.root = D.rootOf p.dir := by rw [show p.dir = _ from hdir]; exact hroot
  have hcache' : ∀ r, D.rootOf p.dir = some r → ∃ s, D.report p.dir = some s ∧ p.cache = some (s, r) := by
    rw [show p.dir = _ from hdir]; exact hcache
  unfold wanted
  cases hr : D.rootOf p.dir with
  | none =>
    rw [hr] at hroot'
    simp [Pr.print, Pr.under, Pr.cached, hroot']
  | some r =>
    obtain ⟨s, hs, hc⟩ := hcache' r hr
    rw [hr] at hroot'
    have hu : p.under = true := (under_iff p).2 ⟨r, hroot', (hD.sound _ _ hr).1⟩
    have hca : p.cached = some s := by
      unfold Pr.cached
      rw [hroot', hc]
      simp
    unfold Pr.print
    dsimp only
    rw [if_pos hu, hca, hroot', hs]
    simp only [Option.bind_some, Option.map_some]
    cases hh : D.head r with
    | none => rfl
    | some b =>
      dsimp only
      by_cases hb : s.branch = b
      · rw [if_neg (by simpa using hb)]
        subst hb
        rfl
      · rw [if_pos hb]
        rfl

/-- Two repositories beside each other. -/
def exDisk : Disk where
  rootOf p := match p with
    | ['a'] :: _ => some [['a']]
    | ['b'] :: _ => some [['b']]
    | _ => none
  report p := match p with
    | ['a'] :: _ => some { branch := c!"main", modified := 2 }
    | ['b'] :: _ => some { branch := c!"dev" }
    | _ => none
  head r := match r with
    | [['a']] => some c!"main"
    | [['b']] => some c!"dev"
    | _ => none

example : exDisk.Flat := by
  have key : ∀ p r, exDisk.rootOf p = some r → ∃ c rest, p = c :: rest ∧ r = [c] ∧ (c = ['a'] ∨ c = ['b']) := by
    intro p r h
    unfold exDisk at h
    dsimp only at h
    split at h
    · exact ⟨_, _, rfl, (Option.some.inj h).symm, Or.inl rfl⟩
    · exact ⟨_, _, rfl, (Option.some.inj h).symm, Or.inr rfl⟩
    · cases h
  refine ⟨?_, ?_, ?_⟩
  · intro p r h
    obtain ⟨c, rest, rfl, rfl, hc⟩ := key p r h
    refine ⟨⟨rest, rfl⟩, ?_⟩
    rcases hc with rfl | rfl <;> rfl
  · intro p r h
    obtain ⟨c, rest, rfl, rfl, hc⟩ := key p r h
    rcases hc with rfl | rfl <;> rfl
  · intro r p h hp
    obtain ⟨c, rest, rfl, hr, hc⟩ := key r r h
    injection hr with _ hr
    subst hr
    obtain ⟨t, rfl⟩ := hp
    rcases hc with rfl | rfl <;> rfl

example : (((([Quiet.cd [['a'], ['x']], .check, .print, .cd [], .cd [['b']], .print] : List Quiet).foldl (Pr.quiet exDisk) { dir := [] }).check exDisk).print
    exDisk).1 = some { branch := c!"dev" } := by decide

/-- **C141, one look at a time.** While git is asked, messages and prompts do not start another look. -/
theorem C141_single_partial (D : Disk) (p : Pr) (t : Task) (ht : p.task = some t) (now : Nat) (d : Path) :
    (p.send.recv now).task = some t ∧ (p.recv now).task = some t ∧ (p.cd d).task = some t ∧ (p.print D).2.task = some t := by
  have hrecv : ∀ q : Pr, q.task = some t → (q.recv now).task = some t := by
    intro q hq
    unfold Pr.recv
    split
    · exact hq
    · dsimp only
      rw [hq]
      simp [hq]
  refine ⟨hrecv _ ht, hrecv _ ht, ?_, ?_⟩
  · unfold Pr.cd
    dsimp only
    split
    · exact ht
    · split <;> exact ht
  · unfold Pr.print
    dsimp only
    split
    · split
      · split
        · split <;> exact ht
        · exact ht
      · exact ht
    · exact ht

/-- **C141 fails after a command.** The prompt that follows a command shows the report from before, whatever git says now: the new report comes
from the background and is shown with the prompt after the next command. -/
theorem C141_late_violated (D : Disk) (p : Pr) (s : Status) (r : Path) (hr : p.root = some r) (hc : p.cache = some (s, r))
    (hh : D.head r = some s.branch) : ((p.send).print D).1 = some s := by
  have hca : (p.send).cached = some s := by
    unfold Pr.cached Pr.send
    dsimp only
    rw [hr, hc]
    simp
  have hb : (p.send).root.bind D.head = some s.branch := by
    show p.root.bind D.head = _
    rw [hr]
    exact hh
  unfold Pr.print
  dsimp only
  rw [hca, hb]
  by_cases hu : (p.send).under = true
  · rw [if_pos hu]; simp
  · rw [if_neg hu]

/-- The report said clean; now a file is modified. -/
example : (({ dir := [['a']], root := some [['a']], needs := false, cache := some ({ branch := c!"main" }, [['a']]) } : Pr).send.print exDisk).1 =
    some { branch := c!"main" } ∧ wanted exDisk [['a']] = some { branch := c!"main", modified := 2 } := by decide

/-- **C141 fails for a repository known before**: on return to it the prompt shows it without changes, whatever git says. -/
theorem C141_return_violated (D : Disk) (p : Pr) (k d : Path) (b : Str) (hu : ∀ r, p.root = some r → ¬ r <+: d)
    (hk : p.known.find? (fun k => k.isPrefixOf d) = some k) (hb : D.head k = some b) : ((p.cd d).print D).1 = some { branch := b } := by
  have hnu : ({ p with dir := d } : Pr).under = false := by
    cases h : ({ p with dir := d } : Pr).under with
    | false => rfl
    | true =>
      obtain ⟨r, hr, hp⟩ := (under_iff _).1 h
      exact absurd hp (hu r hr)
  have hp : k.isPrefixOf d = true := List.find?_some (p := fun k : Path => k.isPrefixOf d) hk
  have hcd : p.cd d = { p with dir := d, root := some k, cache := none, needs := false } := by
    unfold Pr.cd
    dsimp only
    rw [hnu, hk]
    rfl
  rw [hcd]
  simp [Pr.print, Pr.under, Pr.cached, hp, hb]

/-- **C141 fails in a repository inside another one.** Coming from the outer one, the inner one is not noticed: after a look at the repository the root is still the outer
one, and what is shown is the report of the inner one under the branch of the outer one. -/
theorem C141_nested_violated (D : Disk) (p : Pr) (r d : Path) (s : Status) (b : Str) (hi : p.task = none) (hn : p.needs = false) (hr : p.root = some r)
    (hd : r <+: d) (hs : D.report d = some s) (hb : D.head r = some b) :
    ((p.cd d).check D).root = some r ∧ (((p.cd d).check D).print D).1 = some { s with branch := b } := by
  have hu : ({ p with dir := d } : Pr).under = true := (under_iff _).2 ⟨r, hr, hd⟩
  have hcd : p.cd d = { p with dir := d } := by
    unfold Pr.cd
    dsimp only
    rw [if_pos hu]
  have ht : (p.last.any fun l => decide (p.last.getD 0 + 200 < l + 200)) = false := by
    cases hl : p.last with
    | none => rfl
    | some l => simp
  have hc : (p.cd d).check D = { p with dir := d, last := some (p.last.getD 0 + 200), cache := some (s, r) } := by
    rw [hcd]
    unfold Pr.check Pr.recv Pr.send
    dsimp only
    rw [ht, hi, hn, hr]
    simp only [Bool.or_self, Bool.false_eq_true, if_false, Option.isSome_none, Option.isSome_some, if_true, Pr.step, hs]
    simp [Pr.setReport]
  rw [hc]
  refine ⟨hr, ?_⟩
  have hp : r.isPrefixOf d = true := List.isPrefixOf_iff_prefix.2 hd
  simp only [Pr.print, Pr.under, Pr.cached, hr, hp, if_true, Option.bind_some, hb]
  by_cases hsb : s.branch = b
  · subst hsb; simp
  · simp [hsb]

/-- A module in `/a/sub` with its own branch, changed; the outer repository is clean. -/
example :
    let D : Disk := ⟨fun p => if [['a'], c!"sub"].isPrefixOf p then some [['a'], c!"sub"] else if [['a']].isPrefixOf p then some [['a']] else none,
      fun p => if [['a'], c!"sub"].isPrefixOf p then some { branch := c!"fix", modified := 3 } else some { branch := c!"main" },
      fun r => if r = [['a']] then some c!"main" else some c!"fix"⟩
    let p := (([Quiet.cd [['a']], .check, .print, .cd [['a'], c!"sub"]] : List Quiet).foldl (Pr.quiet D) { dir := [] }).check D
    (p.print D).1 = some { branch := c!"main", modified := 3 } ∧ wanted D p.dir = some { branch := c!"fix", modified := 3 } := by decide

/-- Looks at the repository and prompts. -/
theorem init_stays (D : Disk) (ops : List Quiet) (ho : ∀ o ∈ ops, ∀ d, o ≠ .cd d) : ∀ p : Pr, p.task = none → p.root = none → p.needs = false →
    (ops.foldl (Pr.quiet D) p).root = none ∧ ((ops.foldl (Pr.quiet D) p).print D).1 = none := by
  induction ops with
  | nil =>
    intro p _ hr _
    exact ⟨hr, by simp [Pr.print, Pr.under, Pr.cached, hr]⟩
  | cons o ops ih =>
    intro p ht hr hn
    have hp : p.quiet D o = p ∨ ∃ l, p.quiet D o = { p with last := l } := by
      cases o with
      | cd d => exact absurd rfl (ho _ (List.mem_cons_self ..) d)
      | print => left; simp [Pr.quiet, Pr.print, Pr.under, hr]
      | check =>
        right
        have hl : (p.last.any fun l => decide (p.last.getD 0 + 200 < l + 200)) = false := by
          cases hl : p.last with
          | none => rfl
          | some l => simp
        refine ⟨some (p.last.getD 0 + 200), ?_⟩
        unfold Pr.quiet Pr.check Pr.recv Pr.send
        dsimp only
        rw [hl, ht, hn, hr]
        simp [Pr.step]
    have ih' := ih fun x hx => ho x (List.mem_cons_of_mem _ hx)
    rw [List.foldl_cons]
    rcases hp with hp | ⟨l, hp⟩
    · rw [hp]; exact ih' p ht hr hn
    · rw [hp]; exact ih' _ ht hr hn

/-- **C141 fails after `git init`.** Where no repository was found, none is looked for until the directory changes: whatever is on the disk, any number of
looks and prompts show nothing. -/
theorem C141_init_violated (D : Disk) (p : Pr) (ht : p.task = none) (hr : p.root = none) (hn : p.needs = false) (ops : List Quiet)
    (ho : ∀ o ∈ ops, ∀ d, o ≠ .cd d) : ((ops.foldl (Pr.quiet D) p).print D).1 = none := (init_stays D ops ho p ht hr hn).2

/-- Nothing was there at the first look. -/
example : let p := ({ dir := [['a']] } : Pr).check ⟨fun _ => none, fun _ => none, fun _ => none⟩
    p.task = none ∧ p.root = none ∧ p.needs = false ∧ wanted exDisk p.dir ≠ none := by decide

/-- **C141 fails if the directory changes during the search.** The root that was searched for the old directory is set for the new one, and stays. -/
theorem C141_race_violated (D : Disk) (p : Pr) (old new r : Path) (hd : p.task = some (.finding old)) (hr : D.rootOf old = some r) :
    let q := ((p.cd new).step D).step D
    q.dir = new ∧ q.root = some r ∧ q.needs = false ∧ q.task = none ∧ ((q.send.check D).root = some r) := by
  have hcd : (p.cd new).task = some (.finding old) ∧ (p.cd new).dir = new := by
    unfold Pr.cd
    dsimp only
    split
    · exact ⟨hd, rfl⟩
    · split
      · exact ⟨hd, rfl⟩
      · exact ⟨hd, rfl⟩
  intro q
  have hstep : ((p.cd new).step D).root = some r ∧ ((p.cd new).step D).dir = new ∧ ((p.cd new).step D).needs = false ∧
      ((p.cd new).step D).task = some (.fetching new) := by
    unfold Pr.step
    rw [hcd.1]
    simp [Pr.setRoot, hr, hcd.2]
  have fetch : ∀ (x : Pr) path, x.task = some (.fetching path) →
      (x.step D).root = x.root ∧ (x.step D).dir = x.dir ∧ (x.step D).needs = x.needs ∧ (x.step D).task = none := by
    intro x path hx
    unfold Pr.step
    rw [hx]
    simp only [Pr.setReport]
    split <;> simp_all
  obtain ⟨h1, h2, h3, h4⟩ := hstep
  obtain ⟨f1, f2, f3, f4⟩ := fetch _ _ h4
  have hq : q.dir = new ∧ q.root = some r ∧ q.needs = false ∧ q.task = none := ⟨f2.trans h2, f1.trans h1, f3.trans h3, f4⟩
  refine ⟨hq.1, hq.2.1, hq.2.2.1, hq.2.2.2, ?_⟩
  have ht : (q.last.any fun l => decide (q.last.getD 0 + 200 < l + 200)) = false := by
    cases hl : q.last with
    | none => rfl
    | some l => simp
  have hrecv : ∃ x : Pr, (q.send.send).recv ((q.send).last.getD 0 + 200) = x ∧ x.root = some r ∧ x.task = some (.fetching new) := by
    refine ⟨_, rfl, ?_⟩
    unfold Pr.recv Pr.send
    dsimp only
    rw [ht, hq.2.2.2, hq.2.2.1, hq.2.1, hq.1]
    simp
  obtain ⟨x, hx, hxr, hxt⟩ := hrecv
  unfold Pr.check
  rw [hx]
  obtain ⟨g1, _, _, g4⟩ := fetch x new hxt
  have hidle : ∀ y : Pr, y.task = none → y.step D = y := by
    intro y hy
    unfold Pr.step
    rw [hy]
  rw [hidle _ g4, g1, hxr]

/-- `cd /a` and, before git has answered, `cd /b`. -/
example : let p := (({ dir := [] } : Pr).cd [['a']]).recv 0
    p.task = some (.finding [['a']]) ∧ (((p.cd [['b']]).step exDisk).step exDisk).root = some [['a']] ∧ exDisk.rootOf [['b']] = some [['b']] := by decide

/-- **C141 fails for commands in quick succession.** A message less than 200 ms after the last look is thrown away: nothing is left to do, and what is
shown stays old. -/
theorem C141_quick_violated (D : Disk) (p : Pr) (l now : Nat) (hl : p.last = some l) (ht : p.task = none) (hm : p.msgs = 0) (h : now < l + 200) :
    (p.send).recv now = p ∧ p.step D = p := by
  constructor
  · unfold Pr.recv Pr.send
    dsimp only
    rw [hl]
    simp only [Option.any_some, h, decide_true, Bool.true_or, if_true]
    cases p
    simp_all
  · unfold Pr.step
    rw [ht]

/-- **C141 fails for a detached head.** There git reports another name than the file `HEAD`; the first prompt throws the report away and the second one shows no
changes at all. -/
theorem C141_detached_violated (D : Disk) (p : Pr) (r : Path) (s : Status) (b : Str) (hr : p.root = some r) (hd : r <+: p.dir)
    (hc : p.cache = some (s, r)) (hb : D.head r = some b) (hne : s.branch ≠ b) :
    (p.print D).1 = some { s with branch := b } ∧ ((p.print D).2.print D).1 = some { branch := b } := by
  have hp : r.isPrefixOf p.dir = true := List.isPrefixOf_iff_prefix.2 hd
  have h1 : p.print D = (some { s with branch := b }, { p with cache := none, needs := true }) := by
    simp [Pr.print, Pr.under, Pr.cached, hr, hp, hc, hb, hne]
  rw [h1]
  refine ⟨rfl, ?_⟩
  simp [Pr.print, Pr.under, Pr.cached, hr, hp, hb]

example : let D : Disk := { exDisk with report := fun _ => some { branch := c!"(detached)", modified := 2 }, head := fun _ => some c!"4755b96" }
    let p := ({ dir := [['a']] } : Pr).check D
    (p.print D).1 = some { branch := c!"4755b96", modified := 2 } ∧ ((p.print D).2.print D).1 = some { branch := c!"4755b96" } := by decide

end Dsh.Prm
