import Verif.Fs.Dmv
import Verif.Fs.ToolProps
/-!
C41, C42, C62: batch renaming.
-/
namespace Dsh.Fs.Dmv

open Dsh.Fs Dsh.Fs.Tools

/-! ### Specification -/

/-- Nothing is lost from `fs` to `fs'`: every entry can be found, with its contents, at a place of
its own. -/
def Kept (fs fs' : FS) : Prop :=
  ∃ f : Loc → Loc, (∀ x y, fs x ≠ none → fs y ≠ none → f x = f y → x = y) ∧
    ∀ x n, fs x = some n → fs' (f x) = some n

theorem Kept.refl (fs : FS) : Kept fs fs := ⟨id, fun _ _ _ _ h => h, fun _ _ h => h⟩

theorem Kept.trans {a b c : FS} (h1 : Kept a b) (h2 : Kept b c) : Kept a c := by
  obtain ⟨f, hf, hf'⟩ := h1
  obtain ⟨g, hg, hg'⟩ := h2
  refine ⟨g ∘ f, ?_, fun x n h => hg' _ _ (hf' x n h)⟩
  intro x y hx hy e
  obtain ⟨nx, hx'⟩ := Option.ne_none_iff_exists'.1 hx
  obtain ⟨ny, hy'⟩ := Option.ne_none_iff_exists'.1 hy
  exact hf x y hx hy (hg _ _ (by rw [hf' x nx hx']; simp) (by rw [hf' y ny hy']; simp) e)

/-- The plan has been carried out: each source, with everything below it, is at its target, the
sources are gone, and everything else is as before. -/
def Moved (fs fs' : FS) (ops : List (Loc × Loc)) : Prop :=
  (∀ op ∈ ops, ∀ y, fs' (op.2 ++ y) = fs (op.1 ++ y)) ∧
  (∀ op ∈ ops, ∀ y, fs' (op.1 ++ y) = none) ∧
  ∀ x, (∀ op ∈ ops, ¬ op.1 <+: x ∧ ¬ op.2 <+: x) → fs' x = fs x

/-! ### What goes wrong -/

/-- A dangling link at the target. -/
def danglingFs : FS := FS.ofList [([c!"w"], .dir), ([c!"w", c!"a"], .file c!"A"),
  ([c!"w", c!"b"], .link false [.name c!"gone"])]

/-- Two files. -/
def twoFs : FS := FS.ofList [([c!"w"], .dir), ([c!"w", c!"x1"], .file c!"X"), ([c!"w", c!"y1"], .file c!"Y")]

/-- Two files, and one in the way of a directory. -/
def stopFs : FS := FS.ofList [([c!"w"], .dir), ([c!"w", c!"x1"], .file c!"X"), ([c!"w", c!"y1"], .file c!"Y"), ([c!"w", c!"y.d"], .file c!"Z")]

/-- `dmv '(*)1' '$1/../same'`: the targets differ as paths. -/
def samePlan : List (Loc × Path) :=
  [([c!"w", c!"x1"], Path.parse c!"/w/x/../same"), ([c!"w", c!"y1"], Path.parse c!"/w/y/../same")]

/-- `dmv '(*)1' '$1.d/f'`: the directory of the second target cannot be made. -/
def stopPlan : List (Loc × Path) :=
  [([c!"w", c!"x1"], Path.parse c!"/w/x.d/f"), ([c!"w", c!"y1"], Path.parse c!"/w/y.d/f")]

/-- **C41 fails.** (1) Without force a dangling link at the target is overwritten. (2) Targets that
are different texts for the same place are not noticed: the second file replaces the first. (3) A
target in a directory whose name is taken by a file stops the plan half-way. -/
theorem C41_violated :
    (¬ ∀ (fs : FS) (lim : Nat) (plan : List (Loc × Path)), fs [] = some .dir → Kept fs (executeDmv fs lim false false plan).1) ∧
    ((executeDmv danglingFs 40 false false [([c!"w", c!"a"], Path.parse c!"/w/b")]).2 = true ∧
      (executeDmv danglingFs 40 false false [([c!"w", c!"a"], Path.parse c!"/w/b")]).1 [c!"w", c!"b"] = some (.file c!"A")) ∧
    ((executeDmv twoFs 40 false false samePlan).2 = true ∧
      (executeDmv twoFs 40 false false samePlan).1 [c!"w", c!"same"] = some (.file c!"Y")) ∧
    ((executeDmv stopFs 40 false false stopPlan).2 = false ∧ (executeDmv stopFs 40 false false stopPlan).1 [c!"w", c!"x1"] = none ∧
      (executeDmv stopFs 40 false false stopPlan).1 [c!"w", c!"x.d", c!"f"] = some (.file c!"X") ∧
      (executeDmv stopFs 40 false false stopPlan).1 [c!"w", c!"y1"] = some (.file c!"Y")) := by
  refine ⟨?_, ⟨by decide +kernel, by decide +kernel⟩, ⟨by decide +kernel, by decide +kernel⟩,
    by decide +kernel, by decide +kernel, by decide +kernel, by decide +kernel⟩
  intro h
  obtain ⟨f, _, hf⟩ := h danglingFs 40 [([c!"w", c!"a"], Path.parse c!"/w/b")] rfl
  have hb := hf [c!"w", c!"b"] (.link false [.name c!"gone"]) (by decide +kernel)
  have e : (executeDmv danglingFs 40 false false [([c!"w", c!"a"], Path.parse c!"/w/b")]).1 =
      FS.move danglingFs [c!"w", c!"a"] [c!"w", c!"b"] := by
    have h1 : checkConflicts danglingFs 40 false [] [([c!"w", c!"a"], Path.parse c!"/w/b")] = true := by decide +kernel
    have h2 : makeParent danglingFs 40 (Path.parse c!"/w/b") = (danglingFs, true) := by
      have hp : (Path.parse c!"/w/b").parent = some (Path.parse c!"/w") := by decide +kernel
      have he : exists? danglingFs 40 (Path.parse c!"/w") = true := by decide +kernel
      simp only [makeParent, hp, he, if_true]
    have h3 : resolve danglingFs 40 false (Path.ofLoc [c!"w", c!"a"]) = .at [c!"w", c!"a"] (.file c!"A") := by decide +kernel
    have h4 : walk danglingFs false 40 [] (Path.parse c!"/w/b").comps = .at [c!"w", c!"b"] (.link false [.name c!"gone"]) := by
      decide +kernel
    have h5 : (Path.parse c!"/w/b").slash = false := by decide +kernel
    simp [executeDmv, h1, renameAll, renameOne, h2, rename, h3, h4, h5]
  rw [e] at hb
  have key : ∀ l, FS.move danglingFs [c!"w", c!"a"] [c!"w", c!"b"] l ≠ some (.link false [.name c!"gone"]) := by
    intro l
    unfold FS.move
    split
    · next hl =>
      intro h
      unfold danglingFs FS.ofList at h
      rw [if_neg (by simp)] at h
      simp only [List.lookup] at h
      repeat' split at h
      all_goals first | (simp at h; done) | skip
      next hm => have := beq_iff_eq.1 hm; simp at this
    · next hl =>
      split
      · simp
      · intro h
        unfold danglingFs FS.ofList at h
        split at h
        · simp at h
        · simp only [List.lookup] at h
          repeat' split at h
          all_goals first | (simp at h; done) | skip
          next hm => have := beq_iff_eq.1 hm; rw [this] at hl; simp at hl
  exact key _ hb

/-! ### What holds -/

/-- A step that only makes directories. -/
theorem kept_of_grow {fs fs' : FS} (h : ∀ x, fs' x = fs x ∨ fs x = none) : Kept fs fs' := by
  refine ⟨id, fun _ _ _ _ h => h, ?_⟩
  intro x n hx
  rcases h x with e | e
  · rw [id, e, hx]
  · rw [hx] at e; cases e

/-- Moving to a free place loses nothing. -/
theorem kept_move {fs : FS} {l t : Loc} (hfree : ∀ y, fs (t ++ y) = none) : Kept fs (FS.move fs l t) := by
  classical
  refine ⟨fun x => if l <+: x then t ++ x.drop l.length else x, ?_, ?_⟩
  · intro x y hx hy e
    dsimp only at e
    by_cases h1 : l <+: x <;> by_cases h2 : l <+: y
    · rw [if_pos h1, if_pos h2] at e
      obtain ⟨x', rfl⟩ := h1
      obtain ⟨y', rfl⟩ := h2
      simpa using e
    · rw [if_pos h1, if_neg h2] at e
      exact absurd (hfree _) (e ▸ hy)
    · rw [if_neg h1, if_pos h2] at e
      exact absurd (hfree _) (e ▸ hx)
    · rw [if_neg h1, if_neg h2] at e
      exact e
  · intro x n hx
    dsimp only
    unfold FS.move
    by_cases h1 : l <+: x
    · obtain ⟨x', rfl⟩ := h1
      simp [hx]
    · rw [if_neg h1]
      have ht : ¬ t <+: x := by
        rintro ⟨y, rfl⟩
        rw [hfree y] at hx; cases hx
      rw [if_neg (by simpa using ht), if_neg (by simpa using h1), hx]

/-- The names of a path without `..`. -/
def IsNames (cs : List Comp) : Prop := ∃ l : Loc, cs = l.map .name

/-- Every initial part of the location is a directory or missing (in particular no link). -/
def Plain (fs : FS) (d : Loc) : Prop := ∀ p, p <+: d → fs p = some .dir ∨ fs p = none

theorem Plain.prefix {fs : FS} {d p : Loc} (h : Plain fs d) (hp : p <+: d) : Plain fs p :=
  fun q hq => h q (hq.trans hp)

/-- Walking along a location without links: there, or some name is missing. -/
theorem walkStep_plain {fs : FS} {f : Bool} {next : Loc → List Comp → Res} :
    ∀ (m l : Loc) (n : Name), fs l = some .dir → Plain fs (l ++ m) →
      (Dirs fs l → Dirs fs (l ++ m) ∧ walkStep fs f next l ((m ++ [n]).map .name) = walkStep fs f next (l ++ m) [.name n]) ∨
      (walkStep fs f next l ((m ++ [n]).map .name) = .notFound ∧ ∃ p, p <+: l ++ m ∧ fs p = none)
  | [], l, n, _, _ => .inl (fun h => ⟨by simpa using h, by simp⟩)
  | a :: m, l, n, hl, hp => by
    have e : l ++ a :: m = (l ++ [a]) ++ m := by simp
    rcases hp (l ++ [a]) (by rw [e]; exact List.prefix_append _ _) with ha | ha
    · rcases walkStep_plain m (l ++ [a]) n ha (by rw [← e]; exact hp) with h | ⟨h, p, hp1, hp2⟩
      · refine .inl (fun hd => ?_)
        obtain ⟨h1, h2⟩ := h (hd.snoc ha)
        refine ⟨by rw [e]; exact h1, ?_⟩
        have e3 : walkStep fs f next l ((a :: m ++ [n]).map .name) = walkStep fs f next (l ++ [a]) ((m ++ [n]).map .name) := by
          simp only [List.cons_append, List.map_cons, walkStep, ha]
        rw [e3, h2, e]
      · refine .inr ⟨?_, p, by rw [e]; exact hp1, hp2⟩
        simp only [List.cons_append, List.map_cons, walkStep, ha]
        exact h
    · refine .inr ⟨?_, l ++ [a], by rw [e]; exact List.prefix_append _ _, ha⟩
      simp [walkStep, ha]

theorem walk_plain {fs : FS} {f : Bool} {lim : Nat} (h0 : fs [] = some .dir) {d : Loc} (n : Name) (hp : Plain fs d) :
    (Dirs fs d ∧ ∃ next, walk fs f lim [] ((d ++ [n]).map .name) = walkStep fs f next d [.name n]) ∨
    (walk fs f lim [] ((d ++ [n]).map .name) = .notFound ∧ ∃ p, p <+: d ∧ fs p = none) := by
  obtain ⟨next, e⟩ := walk_eq fs f lim
  rw [e]
  rcases walkStep_plain (f := f) (next := next) d [] n h0 (by simpa using hp) with h | h
  · obtain ⟨h1, h2⟩ := h (dirs_nil h0)
    exact .inl ⟨by simpa using h1, next, by simpa using h2⟩
  · exact .inr (by simpa using h)

/-- `mkdir` along a location without links: makes exactly that directory, or nothing. -/
theorem mkdir_plain {fs : FS} {lim : Nat} (h0 : fs [] = some .dir) {d : Loc} (hp : Plain fs d) :
    match mkdir fs lim (Path.ofLoc d) with
    | .ok fs' => fs d = none ∧ Dirs fs d.dropLast ∧ fs' = fs.set d (some .dir)
    | .error true => ∃ p, p <+: d.dropLast ∧ fs p = none
    | .error false => fs d = some .dir := by
  rcases List.eq_nil_or_concat d with rfl | ⟨d, n, rfl⟩
  · obtain ⟨next, e⟩ := walk_eq fs false lim
    simp [mkdir, Path.ofLoc, e, walkStep, h0]
  · rw [List.concat_eq_append] at hp ⊢
    unfold mkdir
    simp only [Path.ofLoc]
    rcases walk_plain (f := false) (lim := lim) h0 n (hp.prefix (List.prefix_append d [n])) with ⟨hd, next, e⟩ | ⟨e, h⟩
    · rw [e]
      simp only [walkStep]
      rcases hp (d ++ [n]) (List.prefix_refl _) with h | h
      · simp [h]
      · simp [h, hd]
    · rw [e]
      simpa using h

/-- Setting a directory entry whose parent exists. -/
theorem _root_.Dsh.Fs.WF.mk_dir {fs : FS} (h : WF fs) {d : Loc} (hd : Dirs fs d.dropLast) (hn : fs d = none) :
    WF (fs.set d (some .dir)) := by
  have hne : d ≠ [] := by rintro rfl; rw [h.root] at hn; cases hn
  refine ⟨?_, ?_⟩
  · unfold FS.set; rw [if_neg (fun e => hne e.symm)]; exact h.root
  · intro l n hx
    unfold FS.set at hx ⊢
    split
    · rfl
    · split at hx
      · next e => rw [← e] at hd; simpa using hd.self
      · exact h.parent l n hx

theorem Plain.mk_dir {fs : FS} {d p : Loc} (hp : Plain fs p) : Plain (fs.set d (some .dir)) p := by
  intro q hq
  unfold FS.set
  split
  · exact .inl rfl
  · exact hp q hq

/-- `create_dir_all` along a location without links makes missing initial parts of it. -/
theorem createDirAll_plain {lim : Nat} : ∀ (fuel : Nat) {fs : FS} {d : Loc}, WF fs → Plain fs d →
    WF (createDirAll fs lim fuel (Path.ofLoc d)).1 ∧
    ∀ x, (createDirAll fs lim fuel (Path.ofLoc d)).1 x = fs x ∨
      (x <+: d ∧ fs x = none ∧ (createDirAll fs lim fuel (Path.ofLoc d)).1 x = some .dir)
  | 0, fs, d, hwf, _ => ⟨hwf, fun x => .inl rfl⟩
  | fuel + 1, fs, d, hwf, hp => by
    have hset : ∀ {fs : FS} {d : Loc}, fs d = none → ∀ x, (fs.set d (some .dir)) x = fs x ∨
        (x <+: d ∧ fs x = none ∧ (fs.set d (some .dir)) x = some .dir) := by
      intro fs d h x
      unfold FS.set
      by_cases hx : x = d
      · subst hx; right; exact ⟨List.prefix_refl _, h, by simp⟩
      · left; simp [hx]
    have hm := mkdir_plain (lim := lim) hwf.root hp
    unfold createDirAll
    split
    · next fs' e =>
      rw [e] at hm
      obtain ⟨h1, h2, rfl⟩ := hm
      exact ⟨hwf.mk_dir h2 h1, hset h1⟩
    · exact ⟨hwf, fun x => .inl rfl⟩
    · next e =>
      rw [e] at hm
      split
      · exact ⟨hwf, fun x => .inl rfl⟩
      · next q hq =>
        have hq' : q = Path.ofLoc d.dropLast := by
          unfold Path.parent Path.ofLoc at hq
          split at hq
          · cases hq
          · injection hq with hq; rw [← hq]; simp [Path.ofLoc]
        subst hq'
        obtain ⟨iw, ih⟩ := createDirAll_plain (lim := lim) fuel hwf (hp.prefix (List.dropLast_prefix d))
        split
        · next fs1 e1 =>
          rw [e1] at iw ih
          refine ⟨iw, fun x => (ih x).imp id ?_⟩
          rintro ⟨h1, h2, h3⟩
          exact ⟨h1.trans (List.dropLast_prefix d), h2, h3⟩
        · next fs1 e1 =>
          rw [e1] at iw ih
          have hp1 : Plain fs1 d := by
            intro p hpd
            rcases ih p with h | ⟨_, _, h⟩
            · dsimp only at h; rw [h]; exact hp p hpd
            · exact .inl h
          have hm1 := mkdir_plain (lim := lim) iw.root hp1
          have step : ∀ x, fs1 x = fs x ∨ (x <+: d ∧ fs x = none ∧ fs1 x = some .dir) := by
            intro x
            refine (ih x).imp id ?_
            rintro ⟨h1, h2, h3⟩
            exact ⟨h1.trans (List.dropLast_prefix d), h2, h3⟩
          split
          · next fs2 e2 =>
            rw [e2] at hm1
            obtain ⟨h1, h2, rfl⟩ := hm1
            refine ⟨iw.mk_dir h2 h1, fun x => ?_⟩
            rcases hset h1 x with h | ⟨hx, hx1, hx2⟩
            · dsimp only at h ⊢; rw [h]; exact step x
            · right
              refine ⟨hx, ?_, hx2⟩
              rcases step x with h | ⟨_, h, _⟩
              · rw [← h]; exact hx1
              · exact h
          · exact ⟨iw, step⟩

/-- The state between two renames of a plan whose directories `ds` have no links and whose targets
`ts` are free. -/
structure Inv (fs : FS) (ds ts : List Loc) : Prop where
  wf : WF fs
  plain : ∀ d ∈ ds, Plain fs d
  free : ∀ t ∈ ts, fs t = none

/-- Moving within a well-formed file system. -/
theorem _root_.Dsh.Fs.WF.move {fs : FS} (h : WF fs) {l d : Loc} {m : Name} (hd : Dirs fs d) (hl : ¬ l <+: d ++ [m])
    (hne : l ≠ []) : WF (FS.move fs l (d ++ [m])) := by
  have hnil : ¬ (d ++ [m]) <+: ([] : Loc) := by
    intro h; have := List.prefix_nil.1 h; simp at this
  refine ⟨?_, ?_⟩
  · unfold FS.move
    rw [if_neg (by simpa using hnil), if_neg (by simpa using hne)]
    exact h.root
  · intro x n hx
    unfold FS.move at hx ⊢
    by_cases h1 : d ++ [m] <+: x
    · obtain ⟨y, rfl⟩ := h1
      rw [if_pos (by simp)] at hx
      rw [if_pos (by simp)]
      have e : (d ++ [m] ++ y ++ [n]).drop (d ++ [m]).length = y ++ [n] := by
        rw [List.append_assoc (d ++ [m]), List.drop_left]
      rw [e, ← List.append_assoc] at hx
      rw [List.drop_left]
      exact h.parent _ _ hx
    · by_cases h2 : d ++ [m] <+: x ++ [n]
      · rcases List.prefix_concat_iff.1 h2 with e | h'
        · have hxd : x = d := by
            have := congrArg List.dropLast e
            simpa using this.symm
          subst hxd
          rw [if_neg (by simpa using h1)]
          have hlx : ¬ l <+: x := fun hp => hl (hp.trans (List.prefix_append _ _))
          rw [if_neg (by simpa using hlx)]
          exact hd.self
        · exact absurd h' h1
      · rw [if_neg (by simpa using h2)] at hx
        rw [if_neg (by simpa using h1)]
        by_cases h3 : l <+: x ++ [n]
        · rw [if_pos (by simpa using h3)] at hx; exact absurd rfl hx
        · rw [if_neg (by simpa using h3)] at hx
          have hlx : ¬ l <+: x := fun hp => h3 (hp.trans (List.prefix_append _ _))
          rw [if_neg (by simpa using hlx)]
          exact h.parent _ _ hx

/-- A plan within plain names: each target lies in the directory of its source. -/
structure PlainOp where
  /-- the directory -/
  dir : Loc
  /-- the old name -/
  old : Name
  /-- the new name -/
  new : Name

/-- Where the source is. -/
def PlainOp.src (o : PlainOp) : Loc := o.dir ++ [o.old]
/-- Where it goes. -/
def PlainOp.dst (o : PlainOp) : Loc := o.dir ++ [o.new]
/-- The pair of paths of the plan. -/
def PlainOp.toOp (o : PlainOp) : Loc × Path := (o.src, Path.ofLoc o.dst)

theorem parent_ofLoc (d : Loc) (n : Name) : (Path.ofLoc (d ++ [n])).parent = some (Path.ofLoc d) := by
  simp [Path.parent, Path.ofLoc]

/-- One rename to a free target: what becomes of the file system. -/
theorem rename_free {fs : FS} {lim : Nat} (hwf : WF fs) {o : PlainOp} (hp : Plain fs o.dir) (hf : fs o.dst = none) :
    (rename fs lim (Path.ofLoc o.src) (Path.ofLoc o.dst) = none ∧ (fs o.src = none)) ∨
    (rename fs lim (Path.ofLoc o.src) (Path.ofLoc o.dst) = some (FS.move fs o.src o.dst) ∧
      Dirs fs o.dir ∧ fs o.src ≠ none ∧ ¬ o.src <+: o.dst) := by
  have hb : ∀ {p}, p <+: o.dir → fs p = none → fs o.src = none := by
    intro p ⟨q, hq⟩ hn
    have := hwf.none_below hn (q ++ [o.old])
    rwa [← List.append_assoc, hq] at this
  unfold rename
  simp only [resolve, Path.ofLoc]
  rcases walk_plain (f := false) (lim := lim) hwf.root o.old hp with ⟨hd, next, e⟩ | ⟨e, p, hp1, hp2⟩
  · have es : (o.dir ++ [o.old]).map Comp.name = o.src.map .name := rfl
    rw [es] at e
    simp only [Bool.false_eq_true, if_false, Bool.false_and]
    rw [e]
    simp only [walkStep, Bool.not_false, Bool.and_true, List.isEmpty_nil, if_true]
    rcases walk_plain (f := false) (lim := lim) hwf.root o.new hp with ⟨_, next2, e2⟩ | ⟨e2, p, hp1, hp2⟩
    · have es2 : (o.dir ++ [o.new]).map Comp.name = o.dst.map .name := rfl
      rw [es2] at e2
      have hw2 : walkStep fs false next2 o.dir [.name o.new] = .missing o.dir o.new := by
        have : fs (o.dir ++ [o.new]) = none := hf
        simp [walkStep, this]
      rw [hw2] at e2
      rw [e2]
      have hsd : o.src ≠ [] := by simp [PlainOp.src]
      have hnp : fs o.src ≠ none → ¬ o.src <+: o.dst := by
        intro hs hpre
        have : o.src = o.dst := by
          refine hpre.eq_of_length ?_
          simp [PlainOp.src, PlainOp.dst]
        rw [this] at hs
        exact hs hf
      cases hs : fs (o.dir ++ [o.old]) with
      | none => left; simp; exact hs
      | some n =>
        have hs' : fs o.src ≠ none := by rw [PlainOp.src, hs]; simp
        have hn' := hnp hs'
        right
        have hnb : o.old ≠ o.new := by
          intro h
          apply hn'
          simp [PlainOp.src, PlainOp.dst, h]
        refine ⟨?_, hd, hs', hn'⟩
        cases n <;> simp [PlainOp.src, PlainOp.dst, hnb, hs]
    · rw [hd p hp1] at hp2; cases hp2
  · left
    have es : (o.dir ++ [o.old]).map Comp.name = o.src.map .name := rfl
    rw [es] at e
    simp only [Bool.false_eq_true, if_false]
    rw [e]
    exact ⟨rfl, hb hp1 hp2⟩

/-- Making the parent of a target that lies in a directory without links. -/
theorem makeParent_plain {fs : FS} {lim : Nat} (hwf : WF fs) {o : PlainOp} (hp : Plain fs o.dir) :
    WF (makeParent fs lim (Path.ofLoc o.dst)).1 ∧
    ∀ x, (makeParent fs lim (Path.ofLoc o.dst)).1 x = fs x ∨
      (x <+: o.dir ∧ fs x = none ∧ (makeParent fs lim (Path.ofLoc o.dst)).1 x = some .dir) := by
  unfold makeParent
  rw [PlainOp.dst, parent_ofLoc]
  simp only
  split
  · exact ⟨hwf, fun x => .inl rfl⟩
  · exact createDirAll_plain _ hwf hp

/-- One step of the loop. -/
theorem renameOne_inv {fs : FS} {lim : Nat} {ds : List Loc} {o : PlainOp} {os : List PlainOp}
    (h : Inv fs ds (o.dst :: os.map PlainOp.dst)) (hds : ∀ o' ∈ o :: os, o'.dir ∈ ds)
    (hall : ∀ o' ∈ o :: os, ∀ d ∈ ds, ¬ o'.dst <+: d) (hnd : o.dst ∉ os.map PlainOp.dst) :
    Inv (renameOne fs lim o.toOp).1 ds (os.map PlainOp.dst) ∧ Kept fs (renameOne fs lim o.toOp).1 := by
  have hod : o.dir ∈ ds := hds o (by simp)
  obtain ⟨hw1, h1⟩ := makeParent_plain (lim := lim) h.wf (h.plain _ hod)
  have hfree : ∀ o' ∈ o :: os, fs o'.dst = none := by
    intro o' ho'
    apply h.free
    rcases List.mem_cons.1 ho' with rfl | ho'
    · simp
    · exact List.mem_cons_of_mem _ (List.mem_map_of_mem ho')
  have hinv1 : Plain (makeParent fs lim (Path.ofLoc o.dst)).1 o.dir ∧
      (∀ d ∈ ds, Plain (makeParent fs lim (Path.ofLoc o.dst)).1 d) ∧
      ∀ o' ∈ o :: os, (makeParent fs lim (Path.ofLoc o.dst)).1 o'.dst = none := by
    have hpl : ∀ d ∈ ds, Plain (makeParent fs lim (Path.ofLoc o.dst)).1 d := by
      intro d hd p hp
      rcases h1 p with e | ⟨_, _, e⟩
      · rw [e]; exact h.plain d hd p hp
      · exact .inl e
    refine ⟨hpl _ hod, hpl, ?_⟩
    intro o' ho'
    rcases h1 o'.dst with e | ⟨e, _, _⟩
    · rw [e]; exact hfree o' ho'
    · exact absurd e (hall o' ho' _ hod)
  have hk1 : Kept fs (makeParent fs lim (Path.ofLoc o.dst)).1 :=
    kept_of_grow (fun x => (h1 x).imp id (fun h => h.2.1))
  unfold renameOne PlainOp.toOp
  simp only
  cases hmp : makeParent fs lim (Path.ofLoc o.dst) with
  | mk fs1 b =>
    rw [hmp] at hw1 hinv1 hk1
    simp only at hw1 hinv1 hk1
    have hbase : Inv fs1 ds (os.map PlainOp.dst) := by
      refine ⟨hw1, hinv1.2.1, ?_⟩
      intro t ht
      obtain ⟨o', ho', rfl⟩ := List.mem_map.1 ht
      exact hinv1.2.2 o' (by simp [ho'])
    cases b with
    | false => exact ⟨hbase, hk1⟩
    | true =>
      simp only
      rcases rename_free (lim := lim) hw1 hinv1.1 (hinv1.2.2 o (by simp)) with ⟨e, _⟩ | ⟨e, hd, hs, hnp⟩
      · rw [e]; exact ⟨hbase, hk1⟩
      · rw [e]
        refine ⟨⟨hw1.move hd hnp (by simp [PlainOp.src]), ?_, ?_⟩, hk1.trans (kept_move ?_)⟩
        · intro d hdd p hp
          dsimp only
          unfold FS.move
          have : ¬ o.dst <+: p := fun hx => hall o (by simp) d hdd (hx.trans hp)
          rw [if_neg (by simpa using this)]
          split
          · exact .inr rfl
          · exact hinv1.2.1 d hdd p hp
        · intro t ht
          obtain ⟨o', ho', rfl⟩ := List.mem_map.1 ht
          dsimp only
          unfold FS.move
          have : ¬ o.dst <+: o'.dst := by
            intro hx
            rcases List.prefix_concat_iff.1 (show o.dst <+: o'.dir ++ [o'.new] from hx) with e | hx
            · exact hnd (by rw [e]; exact List.mem_map_of_mem (f := PlainOp.dst) ho')
            · exact hall o (by simp) _ (hds o' (by simp [ho'])) hx
          rw [if_neg (by simpa using this)]
          split
          · rfl
          · exact hinv1.2.2 o' (by simp [ho'])
        · exact hw1.none_below (hinv1.2.2 o (by simp))

theorem renameAll_kept {lim : Nat} {ds : List Loc} : ∀ (os : List PlainOp) {fs : FS},
    Inv fs ds (os.map PlainOp.dst) → (∀ o ∈ os, o.dir ∈ ds) → (∀ o ∈ os, ∀ d ∈ ds, ¬ o.dst <+: d) →
    (os.map PlainOp.dst).Nodup → Kept fs (renameAll fs lim (os.map PlainOp.toOp)).1
  | [], fs, _, _, _, _ => Kept.refl fs
  | o :: os, fs, h, hds, hall, hnd => by
    rw [List.map_cons, List.nodup_cons] at hnd
    obtain ⟨h1, h2⟩ := renameOne_inv (lim := lim) h hds hall hnd.1
    rw [List.map_cons, renameAll]
    cases e : renameOne fs lim o.toOp with
    | mk fs1 b =>
      rw [e] at h1 h2
      cases b with
      | false => exact h2
      | true =>
        exact h2.trans (renameAll_kept os h1 (fun o' ho' => hds o' (by simp [ho']))
          (fun o' ho' => hall o' (by simp [ho'])) hnd.2)

/-- What the conflict check of a plan within plain names says. -/
theorem check_spec {fs : FS} {lim : Nat} : ∀ (os : List PlainOp) (seen : List Loc),
    checkConflicts fs lim false (seen.map Path.ofLoc) (os.map PlainOp.toOp) = true →
    (∀ o ∈ os, exists? fs lim (Path.ofLoc o.dst) = false) ∧ (os.map PlainOp.dst).Nodup ∧ ∀ o ∈ os, o.dst ∉ seen
  | [], _, _ => by simp
  | o :: os, seen, h => by
    have inj : ∀ a b : Loc, Path.ofLoc a = Path.ofLoc b → a = b := by
      intro a b h
      have := congrArg Path.comps h
      exact List.map_inj_right (f := Comp.name) (by intro x y h; injection h) |>.1 this
    simp only [List.map_cons, PlainOp.toOp, checkConflicts, Bool.not_false, Bool.and_true] at h
    split at h
    · cases h
    · next h1 =>
      split at h
      · cases h
      · next h2 =>
        have h2' : o.dst ∉ seen := by
          intro hm
          apply h2
          simp only [List.contains_iff_mem]
          exact List.mem_map_of_mem hm
        obtain ⟨a, b, c⟩ := check_spec os (o.dst :: seen) h
        refine ⟨?_, ?_, ?_⟩
        · intro o' ho'
          rcases List.mem_cons.1 ho' with rfl | ho'
          · simpa using h1
          · exact a o' ho'
        · rw [List.map_cons, List.nodup_cons]
          refine ⟨?_, b⟩
          intro hm
          obtain ⟨o', ho', e⟩ := List.mem_map.1 hm
          exact c o' ho' (by simp [e])
        · intro o' ho'
          rcases List.mem_cons.1 ho' with rfl | ho'
          · exact h2'
          · intro hm
            exact c o' ho' (by simp [hm])

/-- A target that does not exist and is no link is free. -/
theorem target_free {fs : FS} {lim : Nat} (hwf : WF fs) {o : PlainOp} (hs : fs o.src ≠ none)
    (hl : ∀ a t, fs o.dst ≠ some (.link a t)) (h : exists? fs lim (Path.ofLoc o.dst) = false) : fs o.dst = none := by
  have hd : Dirs fs o.dir := hwf.dirs _ (hwf.parent _ _ hs)
  cases hx : fs o.dst with
  | none => rfl
  | some n =>
    have := resolve_loc (lim := lim) (l := o.dst) (n := n) (by simpa [PlainOp.dst] using hd) hx
      (by rintro a t rfl; exact hl a t hx) true
    unfold exists? at h
    rw [this] at h
    cases h

/-- A replacement without slash names an entry of the same directory. -/
theorem plain_target (d : Loc) {text : List Char} (hn : ∀ c ∈ text, c ≠ '/') (hne : text ≠ []) (h1 : text ≠ c!".")
    (h2 : text ≠ c!"..") : (Path.ofLoc d).join (Path.parse text) = Path.ofLoc (d ++ [text]) := by
  have hp : Path.parse text = { abs := false, comps := [.name text], slash := false } := by
    have hs : splitSlash text = [text] := by
      clear hne h1 h2
      induction text with
      | nil => rfl
      | cons c n ih => simp [splitSlash, hn c (by simp), ih (fun x hx => hn x (by simp [hx]))]
    have hc : compOf text = some (.name text) := by simp [compOf, hne, h1, h2]
    have hh : text.head? ≠ some '/' := by
      cases text with
      | nil => simp
      | cons c n => simp; exact hn c (by simp)
    have en : List.filterMap compOf [text] = [.name text] := by simp [hc]
    unfold Path.parse
    rw [hs, en]
    simp [hc, hh]
  rw [hp]
  simp [Path.join, Path.ofLoc]

/-- **C41, nothing is lost.** If no target is an existing link and the new names are plain (see
`plain_target`), then without force every entry of the file system is kept, with its contents,
whatever the outcome: conflict, success, or failure half-way.  Missing: dangling links at a target,
and replacements with `/`, see `C41_violated`. -/
theorem C41_kept_partial (fs : FS) (hwf : WF fs) (lim : Nat) (dry : Bool) (os : List PlainOp)
    (hsrc : ∀ o ∈ os, fs o.src ≠ none) (hlink : ∀ o ∈ os, ∀ a t, fs o.dst ≠ some (.link a t)) :
    Kept fs (executeDmv fs lim false dry (os.map PlainOp.toOp)).1 := by
  unfold executeDmv
  split
  · exact Kept.refl fs
  · next hc =>
    split
    · exact Kept.refl fs
    · obtain ⟨h1, h2, _⟩ := check_spec (fs := fs) (lim := lim) os [] (by simpa using hc)
      have hfree : ∀ o ∈ os, fs o.dst = none :=
        fun o ho => target_free hwf (hsrc o ho) (hlink o ho) (h1 o ho)
      have hd : ∀ o ∈ os, Dirs fs o.dir := fun o ho => hwf.dirs _ (hwf.parent _ _ (hsrc o ho))
      refine renameAll_kept (ds := os.map PlainOp.dir) os ⟨hwf, ?_, ?_⟩ ?_ ?_ h2
      · intro d hdm p hp
        obtain ⟨o, ho, rfl⟩ := List.mem_map.1 hdm
        exact .inl (hd o ho p hp)
      · intro t ht
        obtain ⟨o, ho, rfl⟩ := List.mem_map.1 ht
        exact hfree o ho
      · intro o ho; exact List.mem_map_of_mem ho
      · intro o ho d hdm hp
        obtain ⟨o', ho', rfl⟩ := List.mem_map.1 hdm
        have := hd o' ho' _ hp
        rw [hfree o ho] at this
        cases this

/-- Neither location lies below the other. -/
def Sep (a b : Loc) : Prop := ¬ a <+: b ∧ ¬ b <+: a

theorem Sep.below {a b : Loc} (h : Sep a b) (y : Loc) : ¬ a <+: b ++ y := by
  intro hp
  rcases List.prefix_or_prefix_of_prefix hp (List.prefix_append b y) with h' | h'
  · exact h.1 h'
  · exact h.2 h'

/-- What the loop needs to succeed. -/
structure Ready (fs : FS) (os : List PlainOp) : Prop where
  wf : WF fs
  src : ∀ o ∈ os, fs o.src ≠ none
  free : ∀ o ∈ os, fs o.dst = none

theorem Ready.dir {fs : FS} {os : List PlainOp} (h : Ready fs os) {o : PlainOp} (ho : o ∈ os) : Dirs fs o.dir :=
  h.wf.dirs _ (h.wf.parent _ _ (h.src o ho))

/-- No target is a source or above one. -/
theorem Ready.dst_src {fs : FS} {os : List PlainOp} (h : Ready fs os) {o o' : PlainOp} (ho : o ∈ os) (ho' : o' ∈ os)
    (hi : o' = o ∨ ¬ o'.src <+: o.src) : Sep o.dst o'.src := by
  constructor
  · rintro ⟨y, hy⟩
    exact h.src o' ho' (by rw [← hy]; exact h.wf.none_below (h.free o ho) y)
  · intro hp
    rcases List.prefix_concat_iff.1 (show o'.src <+: o.dir ++ [o.new] from hp) with e | hp
    · exact h.src o' ho' (by rw [e]; exact h.free o ho)
    · rcases hi with rfl | hi
      · have := hp.length_le
        simp [PlainOp.src] at this
        omega
      · exact hi (hp.trans (List.prefix_append _ _))

theorem Ready.dst_dst {fs : FS} {os : List PlainOp} (h : Ready fs os) {o o' : PlainOp} (ho : o ∈ os) (ho' : o' ∈ os)
    (hne : o.dst ≠ o'.dst) : Sep o.dst o'.dst := by
  have key : ∀ {o o' : PlainOp}, o ∈ os → o' ∈ os → o.dst ≠ o'.dst → ¬ o.dst <+: o'.dst := by
    intro o o' ho ho' hne hp
    rcases List.prefix_concat_iff.1 (show o.dst <+: o'.dir ++ [o'.new] from hp) with e | hp
    · exact hne e
    · have := h.dir ho' _ hp
      rw [h.free o ho] at this
      cases this
  exact ⟨key ho ho' hne, key ho' ho (Ne.symm hne)⟩

theorem renameOne_ok {fs : FS} {lim : Nat} {os : List PlainOp} (h : Ready fs os) {o : PlainOp} (ho : o ∈ os) :
    renameOne fs lim o.toOp = (FS.move fs o.src o.dst, true) ∧ ¬ o.src <+: o.dst := by
  have hd := h.dir ho
  have hmp : makeParent fs lim (Path.ofLoc o.dst) = (fs, true) := by
    unfold makeParent
    rw [PlainOp.dst, parent_ofLoc]
    have := resolve_loc (lim := lim) hd.dropLast hd.self (by simp) true
    simp [exists?, this]
  unfold renameOne PlainOp.toOp
  simp only [hmp]
  rcases rename_free (lim := lim) h.wf (fun p hp => .inl (hd p hp)) (h.free o ho) with ⟨_, e⟩ | ⟨e, _, _, hn⟩
  · exact absurd e (h.src o ho)
  · rw [e]; exact ⟨rfl, hn⟩

theorem renameAll_moved {lim : Nat} : ∀ (os : List PlainOp) {fs : FS}, Ready fs os →
    (os.map PlainOp.dst).Nodup → os.Pairwise (fun o o' => Sep o.src o'.src) →
    (renameAll fs lim (os.map PlainOp.toOp)).2 = true ∧
    Moved fs (renameAll fs lim (os.map PlainOp.toOp)).1 (os.map (fun o => (o.src, o.dst)))
  | [], fs, _, _, _ => by simp [renameAll, Moved]
  | o :: os, fs, h, hnd, hpw => by
    rw [List.map_cons, List.nodup_cons] at hnd
    rw [List.pairwise_cons] at hpw
    have hmem : o ∈ o :: os := by simp
    obtain ⟨e1, hnp⟩ := renameOne_ok (lim := lim) h hmem
    have hself : Sep o.dst o.src := h.dst_src hmem hmem (.inl rfl)
    have sds : ∀ o' ∈ os, Sep o.dst o'.src := fun o' ho' =>
      h.dst_src hmem (by simp [ho']) (.inr (hpw.1 o' ho').2)
    have sds' : ∀ o' ∈ os, Sep o'.dst o.src := fun o' ho' =>
      h.dst_src (by simp [ho']) hmem (.inr (hpw.1 o' ho').1)
    have sdd : ∀ o' ∈ os, Sep o.dst o'.dst := fun o' ho' =>
      h.dst_dst hmem (by simp [ho']) (fun e => hnd.1 (by rw [e]; exact List.mem_map_of_mem (f := PlainOp.dst) ho'))
    have hmv : ∀ x, ¬ o.dst <+: x → ¬ o.src <+: x → FS.move fs o.src o.dst x = fs x := by
      intro x h1 h2
      unfold FS.move
      rw [if_neg (by simpa using h1), if_neg (by simpa using h2)]
    have hr : Ready (FS.move fs o.src o.dst) os := by
      refine ⟨h.wf.move (h.dir hmem) hnp (by simp [PlainOp.src]), ?_, ?_⟩
      · intro o' ho'
        rw [hmv _ (sds o' ho').1 (hpw.1 o' ho').1]
        exact h.src o' (by simp [ho'])
      · intro o' ho'
        rw [hmv _ (sdd o' ho').1 (sds' o' ho').2]
        exact h.free o' (by simp [ho'])
    obtain ⟨i1, i2, i3, i4⟩ := renameAll_moved os hr hnd.2 hpw.2
    rw [List.map_cons, renameAll, e1]
    simp only
    refine ⟨i1, ?_, ?_, ?_⟩
    · intro op hop y
      rw [List.map_cons] at hop
      rcases List.mem_cons.1 hop with rfl | hop
      · dsimp only
        rw [i4]
        · unfold FS.move
          rw [if_pos (by simp), List.drop_left]
        · intro op' hop'
          obtain ⟨o', ho', rfl⟩ := List.mem_map.1 hop'
          exact ⟨Sep.below ⟨(sds o' ho').2, (sds o' ho').1⟩ y, Sep.below ⟨(sdd o' ho').2, (sdd o' ho').1⟩ y⟩
      · rw [i2 op hop]
        obtain ⟨o', ho', rfl⟩ := List.mem_map.1 hop
        exact hmv _ ((sds o' ho').below y) ((hpw.1 o' ho').below y)
    · intro op hop y
      rw [List.map_cons] at hop
      rcases List.mem_cons.1 hop with rfl | hop
      · dsimp only
        rw [i4]
        · unfold FS.move
          rw [if_neg (by simpa using hself.below y), if_pos (by simp)]
        · intro op' hop'
          obtain ⟨o', ho', rfl⟩ := List.mem_map.1 hop'
          exact ⟨Sep.below ⟨(hpw.1 o' ho').2, (hpw.1 o' ho').1⟩ y, (sds' o' ho').below y⟩
      · exact i3 op hop y
    · intro x hx
      rw [i4 x (fun op hop => hx op (by simp at hop ⊢; exact .inr hop))]
      have := hx (o.src, o.dst) (by simp)
      exact hmv x this.2 this.1

/-- **C41, all or nothing.** If moreover no source lies below another (always so without `**/`, see
`flat_separate`), a run without force either changes nothing (and reports an error, or is a dry
run), or moves every source, with everything below it, to its target and leaves everything else as
it was. -/
theorem C41_moved_partial (fs : FS) (hwf : WF fs) (lim : Nat) (dry : Bool) (os : List PlainOp)
    (hsrc : ∀ o ∈ os, fs o.src ≠ none) (hlink : ∀ o ∈ os, ∀ a t, fs o.dst ≠ some (.link a t))
    (hsep : os.Pairwise (fun o o' => Sep o.src o'.src)) :
    (executeDmv fs lim false dry (os.map PlainOp.toOp)).1 = fs ∧
      ((executeDmv fs lim false dry (os.map PlainOp.toOp)).2 = false ∨ dry = true) ∨
    (executeDmv fs lim false dry (os.map PlainOp.toOp)).2 = true ∧
      Moved fs (executeDmv fs lim false dry (os.map PlainOp.toOp)).1 (os.map (fun o => (o.src, o.dst))) := by
  unfold executeDmv
  split
  · exact .inl ⟨rfl, .inl rfl⟩
  · next hc =>
    split
    · next hd => exact .inl ⟨rfl, .inr hd⟩
    · obtain ⟨h1, h2, _⟩ := check_spec (fs := fs) (lim := lim) os [] (by simpa using hc)
      exact .inr (renameAll_moved os
        ⟨hwf, hsrc, fun o ho => target_free hwf (hsrc o ho) (hlink o ho) (h1 o ho)⟩ h2 hsep)

/-- **C41, a run without conflict goes through.** If the targets are free and distinct, the run
succeeds. -/
theorem C41_runs_partial (fs : FS) (hwf : WF fs) (lim : Nat) (os : List PlainOp)
    (hsrc : ∀ o ∈ os, fs o.src ≠ none) (hfree : ∀ o ∈ os, fs o.dst = none) (hnd : (os.map PlainOp.dst).Nodup)
    (hsep : os.Pairwise (fun o o' => Sep o.src o'.src)) :
    (executeDmv fs lim false false (os.map PlainOp.toOp)).2 = true := by
  have hr : Ready fs os := ⟨hwf, hsrc, hfree⟩
  have hc : ∀ (os' : List PlainOp) (seen : List Loc), (∀ o ∈ os', o ∈ os) → (os'.map PlainOp.dst).Nodup →
      (∀ o ∈ os', o.dst ∉ seen) →
      checkConflicts fs lim false (seen.map Path.ofLoc) (os'.map PlainOp.toOp) = true := by
    intro os'
    induction os' with
    | nil => intros; rfl
    | cons o os' ih =>
      intro seen hm hnd hs
      rw [List.map_cons, List.nodup_cons] at hnd
      have hex : exists? fs lim (Path.ofLoc o.dst) = false := by
        have hd := hr.dir (hm o (by simp))
        obtain ⟨next, e⟩ := walk_eq fs true lim
        have hw : resolve fs lim true (Path.ofLoc o.dst) = .missing o.dir o.new := by
          simp only [resolve, Path.ofLoc, Bool.false_eq_true, if_false, PlainOp.dst, List.map_append]
          have := walk_dirs (fs := fs) (follow := true) (lim := lim) [] o.dir [.name o.new] (by simpa using hd)
          simp only [List.map_cons, List.map_nil]
          rw [this, e]
          have hf : fs (o.dir ++ [o.new]) = none := hr.free o (hm o (by simp))
          simp [walkStep, hf]
        simp [exists?, hw]
      simp only [List.map_cons, PlainOp.toOp, checkConflicts, hex, Bool.false_and]
      rw [if_neg (by simp), if_neg]
      · refine ih (o.dst :: seen) (fun o' ho' => hm o' (by simp [ho'])) hnd.2 ?_
        intro o' ho' hmem
        rcases List.mem_cons.1 hmem with e | hmem
        · exact hnd.1 (by rw [← e]; exact List.mem_map_of_mem (f := PlainOp.dst) ho')
        · exact hs o' (by simp [ho']) hmem
      · intro hcon
        rw [List.contains_iff_mem] at hcon
        obtain ⟨l, hl, e⟩ := List.mem_map.1 hcon
        have : l = o.dst := by
          have := congrArg Path.comps e
          exact List.map_inj_right (f := Comp.name) (by intro x y h; injection h) |>.1 this
        exact hs o (by simp) (this ▸ hl)
  unfold executeDmv
  rw [if_neg (by have := hc os [] (fun _ h => h) hnd (by simp); simpa using this), if_neg (by simp)]
  exact (renameAll_moved os hr hnd hsep).1

/-- Distinct entries of one directory are separate. -/
theorem flat_separate (d : Loc) (os : List PlainOp) (hd : ∀ o ∈ os, o.dir = d) (hnd : (os.map PlainOp.old).Nodup) :
    os.Pairwise (fun o o' => Sep o.src o'.src) := by
  rw [List.Nodup, List.pairwise_map] at hnd
  refine List.Pairwise.imp_of_mem ?_ hnd
  intro a b ha hb hne
  have key : ∀ {a b : PlainOp}, a ∈ os → b ∈ os → a.old ≠ b.old → ¬ a.src <+: b.src := by
    intro a b ha hb hne hp
    have := hp.eq_of_length (by simp [PlainOp.src, hd a ha, hd b hb])
    simp only [PlainOp.src, hd a ha, hd b hb] at this
    exact hne (by simpa using this)
  exact ⟨key ha hb hne, key hb ha (Ne.symm hne)⟩

/-- A plan that meets the conditions: two files of one directory. -/
example : (executeDmv twoFs 40 false false
    ([⟨[c!"w"], c!"x1", c!"x2"⟩, ⟨[c!"w"], c!"y1", c!"y2"⟩].map PlainOp.toOp)).2 = true ∧
    (executeDmv twoFs 40 false false
    ([⟨[c!"w"], c!"x1", c!"x2"⟩, ⟨[c!"w"], c!"y1", c!"y2"⟩].map PlainOp.toOp)).1 [c!"w", c!"y2"] = some (.file c!"Y") := by
  decide +kernel

/-- A swap is refused without force. -/
example : (executeDmv twoFs 40 false false
    ([⟨[c!"w"], c!"x1", c!"y1"⟩, ⟨[c!"w"], c!"y1", c!"x1"⟩].map PlainOp.toOp)).2 = false := by decide +kernel

/-! ### C42 -/

/-- The glob language: `*` any text, `?` one character, anything else itself. -/
inductive Glob : List Char → List Char → Prop where
  | nil : Glob [] []
  | star {p t} (u v : List Char) : t = u ++ v → Glob p v → Glob ('*' :: p) t
  | one {p t} (c : Char) : Glob p t → Glob ('?' :: p) (c :: t)
  | lit {p t} (c : Char) : c ≠ '*' → c ≠ '?' → Glob p t → Glob (c :: p) (c :: t)

theorem tryAll_spec {f : List Char → Option Bool} : ∀ {t : List Char} {b : Bool}, tryAll f t = some b →
    (b = true → ∃ u v, t = u ++ v ∧ f v = some true) ∧ (b = false → ∀ u v, t = u ++ v → f v = some false)
  | [], b, h => by
    simp only [tryAll] at h
    refine ⟨fun hb => ⟨[], [], rfl, hb ▸ h⟩, fun hb u v e => ?_⟩
    obtain ⟨rfl, rfl⟩ := List.append_eq_nil_iff.1 e.symm
    exact hb ▸ h
  | c :: t, b, h => by
    simp only [tryAll] at h
    split at h
    · cases h
    · next hf =>
      injection h with h; subst h
      exact ⟨fun _ => ⟨[], c :: t, rfl, hf⟩, fun h => by cases h⟩
    · next hf =>
      split at h
      · obtain ⟨h1, h2⟩ := tryAll_spec h
        refine ⟨fun hb => ?_, fun hb u v e => ?_⟩
        · obtain ⟨u, v, rfl, hv⟩ := h1 hb
          exact ⟨c :: u, v, rfl, hv⟩
        · cases u with
          | nil => simp only [List.nil_append] at e; rw [← e]; exact hf
          | cons d u =>
            simp only [List.cons_append, List.cons.injEq] at e
            exact h2 hb u v e.2
      · cases h

/-- **C42, an answer is right.** Whenever the matcher answers, the answer is membership in the glob
language. -/
theorem C42_answer_partial : ∀ (p t : List Char) (b : Bool), patternMatch p t = some b → (b = true ↔ Glob p t)
  | [], [], b, h => by
    simp only [patternMatch, Option.some.injEq] at h
    subst h
    exact ⟨fun _ => .nil, fun _ => rfl⟩
  | [], _ :: _, b, h => by
    simp only [patternMatch, Option.some.injEq] at h
    subst h
    exact ⟨fun h => (by cases h), fun h => by cases h⟩
  | p :: ps, t, b, h => by
    by_cases hp : p = '*'
    · subst hp
      rw [patternMatch] at h
      split at h
      · next he =>
        rw [List.isEmpty_iff] at he
        subst he
        injection h with h; subst h
        refine ⟨fun _ => ?_, fun _ => rfl⟩
        exact .star t [] (by simp) .nil
      · obtain ⟨h1, h2⟩ := tryAll_spec h
        constructor
        · intro hb
          obtain ⟨u, v, rfl, hv⟩ := h1 hb
          exact .star u v rfl ((C42_answer_partial ps v true hv).1 rfl)
        · intro hg
          cases hg with
          | star u v e hg =>
            cases b with
            | true => rfl
            | false => exact ((C42_answer_partial ps v false (h2 rfl u v e)).2 hg)
          | lit _ hne => exact absurd rfl hne
    · by_cases hq : p = '?'
      · subst hq
        cases t with
        | nil =>
          simp only [patternMatch, Option.some.injEq] at h
          subst h
          exact ⟨fun h => (by cases h), fun h => by cases h⟩
        | cons c cs =>
          rw [patternMatch] at h
          have := C42_answer_partial ps cs b h
          rw [this]
          constructor
          · exact .one c
          · intro hg
            cases hg with
            | one _ hg => exact hg
            | lit _ _ hne => exact absurd rfl hne
      · cases t with
        | nil =>
          rw [patternMatch] at h
          · injection h with h; subst h
            refine ⟨fun h => (by cases h), fun hg => ?_⟩
            cases hg; exact absurd rfl hp
          all_goals assumption
        | cons c cs =>
          rw [patternMatch] at h
          · split at h
            · next hc =>
              subst hc
              rw [C42_answer_partial ps cs b h]
              constructor
              · exact .lit c hp hq
              · intro hg
                cases hg with
                | lit _ _ _ hg => exact hg
                | star => exact absurd rfl hp
                | one => exact absurd rfl hq
            · next hc =>
              injection h with h; subst h
              refine ⟨fun h => (by cases h), fun hg => ?_⟩
              cases hg with
              | lit => exact absurd rfl hc
              | star => exact absurd rfl hp
              | one => exact absurd rfl hq
          all_goals assumption

theorem tryAll_total {f : List Char → Option Bool} (hf : ∀ t, (∀ c ∈ t, c.utf8Size = 1) → f t ≠ none) :
    ∀ {t : List Char}, (∀ c ∈ t, c.utf8Size = 1) → tryAll f t ≠ none
  | [], h => by simpa [tryAll] using hf [] h
  | c :: t, h => by
    have hc := hf (c :: t) h
    simp only [tryAll]
    cases e : f (c :: t) with
    | none => exact absurd e hc
    | some b =>
      cases b with
      | true => simp
      | false =>
        simp only [h c (by simp), if_true]
        exact tryAll_total hf (fun x hx => h x (by simp [hx]))

/-- **C42, no panic on ASCII names.** For names of one-byte characters the matcher answers, hence
decides the glob language. -/
theorem C42_ascii_partial : ∀ (p t : List Char), (∀ c ∈ t, c.utf8Size = 1) → patternMatch p t ≠ none
  | [], [], _ => by simp [patternMatch]
  | [], _ :: _, _ => by simp [patternMatch]
  | p :: ps, t, h => by
    by_cases hp : p = '*'
    · subst hp
      rw [patternMatch]
      split
      · simp
      · exact tryAll_total (fun t ht => C42_ascii_partial ps t ht) h
    · cases t with
      | nil =>
        by_cases hq : p = '?'
        · subst hq; simp [patternMatch]
        · rw [patternMatch]
          · simp
          all_goals assumption
      | cons c cs =>
        have ih := C42_ascii_partial ps cs (fun x hx => h x (by simp [hx]))
        by_cases hq : p = '?'
        · subst hq; simpa [patternMatch] using ih
        · rw [patternMatch]
          · split
            · exact ih
            · simp
          all_goals assumption

/-- **C42 fails**: a name with a character of several bytes makes the matcher panic when the text
after `*` does not begin at its first character; and `[ab]`, documented in the help as a set, is
taken literally. -/
theorem C42_violated :
    (¬ ∀ p t, patternMatch p t ≠ none) ∧
    patternMatch c!"*.txt" c!"日記.txt" = none ∧ Glob c!"*.txt" c!"日記.txt" ∧
    patternMatch c!"[ab]" c!"a" = some false := by
  have h1 : patternMatch c!"*.txt" c!"日記.txt" = none := by decide +kernel
  refine ⟨fun h => h _ _ h1, h1, ?_, by decide +kernel⟩
  have : Glob c!".txt" c!".txt" :=
    .lit '.' (by decide) (by decide) (.lit 't' (by decide) (by decide) (.lit 'x' (by decide) (by decide)
      (.lit 't' (by decide) (by decide) .nil)))
  exact .star c!"日記" _ rfl this

/-- **C42, the panic in general.** For a pattern that begins with `*` and goes on, a name that
begins with a character of several bytes panics unless the rest of the pattern matches the whole
name. -/
theorem C42_panic_violated (ps : List Char) (hps : ps ≠ []) (c : Char) (hc : c.utf8Size ≠ 1) (t : List Char)
    (hm : patternMatch ps (c :: t) = some false) : patternMatch ('*' :: ps) (c :: t) = none := by
  rw [patternMatch, if_neg (by simpa [List.isEmpty_iff] using hps), tryAll, hm]
  simp [hc]

example : patternMatch c!"*.txt" c!"notes.txt" = some true ∧ patternMatch c!"a*b?" c!"axxb" = some false ∧
    patternMatch c!"a*b?" c!"axxbbc" = some true := by decide +kernel

/-! ### C62: the replacement text -/

/-- The parts of a replacement. -/
inductive Part where
  | lit (c : Char)
  | ref (i : Nat)

/-- Its text. -/
def Part.text : Part → List Char
  | .lit c => [c]
  | .ref i => groupRef i

/-- Its value: the text of the group. -/
def Part.value (caps : List (List Char)) : Part → List Char
  | .lit c => [c]
  | .ref i => caps.getD i []

/-- **C62 fails**: a text that was just inserted is searched again for references; `$10` is read as
`$1` followed by `0`; and the documented `dmv '*.txt' '*.bak'` names every file `*.bak`. -/
theorem C62_violated :
    (¬ ∀ (caps : List (List Char)) (parts : List Part), (∀ p ∈ parts, ∀ c, p = .lit c → c ≠ '$') →
      (∀ p ∈ parts, ∀ i, p = .ref i → i < caps.length) →
      substitute caps (parts.flatMap Part.text) = parts.flatMap (Part.value caps)) ∧
    substitute [c!"$2-x", c!"$2", c!"x"] c!"$1_$2" = c!"x_x" ∧
    substitute [c!"a.txt"] c!"*.bak" = c!"*.bak" ∧
    substitute [c!"abcdefghij", c!"a", c!"b", c!"c", c!"d", c!"e", c!"f", c!"g", c!"h", c!"i", c!"j"] c!"$10" = c!"a0" := by
  refine ⟨?_, by decide +kernel, by decide +kernel, by decide +kernel⟩
  intro h
  have := h [c!"$2-x", c!"$2", c!"x"] [.ref 1, .lit '_', .ref 2] (by simp)
    (by simp)
  revert this
  decide +kernel

/-- Text without `$` passes a replacement. -/
theorem replaceGo_text {i : Nat} {by_ u : List Char} (hu : '$' ∉ u) (s : List Char) :
    replaceGo (groupRef i) by_ 0 (u ++ s) = u ++ replaceGo (groupRef i) by_ 0 s := by
  induction u with
  | nil => rfl
  | cons c u ih =>
    simp only [List.mem_cons, not_or] at hu
    rw [List.cons_append, replaceGo, if_neg]
    · rw [ih hu.2]; rfl
    · intro hp
      simp only [groupRef, List.isPrefixOf, Bool.and_eq_true, beq_iff_eq] at hp
      exact hu.1 hp.1

theorem replaceGo_skip {pat by_ : List Char} (u s : List Char) :
    replaceGo pat by_ u.length (u ++ s) = replaceGo pat by_ 0 s := by
  induction u with
  | nil => rfl
  | cons c u ih => simpa [replaceGo] using ih

/-- The digit of a group below ten. -/
theorem groupRef_digit {i : Nat} (h : i < 10) : groupRef i = ['$', Char.ofNat (48 + i)] := by
  have : ∀ i : Fin 10, groupRef i.val = ['$', Char.ofNat (48 + i.val)] := by decide +kernel
  exact this ⟨i, h⟩

theorem digit_ne {i j : Nat} (hi : i < 10) (hj : j < 10) (h : i ≠ j) : Char.ofNat (48 + i) ≠ Char.ofNat (48 + j) := by
  have : ∀ i j : Fin 10, i ≠ j → Char.ofNat (48 + i.val) ≠ Char.ofNat (48 + j.val) := by decide +kernel
  exact this ⟨i, hi⟩ ⟨j, hj⟩ (by simpa using h)

theorem digit_dollar {i : Nat} (hi : i < 10) : Char.ofNat (48 + i) ≠ '$' := by
  have : ∀ i : Fin 10, Char.ofNat (48 + i.val) ≠ '$' := by decide +kernel
  exact this ⟨i, hi⟩

/-- The text after the first `k` groups have been inserted. -/
def stage (caps : List (List Char)) (k : Nat) : Part → List Char
  | .lit c => [c]
  | .ref i => if i < k then caps.getD i [] else groupRef i

theorem stage_step {caps : List (List Char)} {k : Nat} {x : List Char} (hk : caps[k]? = some x) (h10 : k < 10)
    (hx : ∀ c ∈ caps, '$' ∉ c) (parts : List Part) (hl : ∀ p ∈ parts, ∀ c, p = .lit c → c ≠ '$')
    (hr : ∀ p ∈ parts, ∀ i, p = .ref i → i < 10) :
    replaceAll (groupRef k) x (parts.flatMap (stage caps k)) = parts.flatMap (stage caps (k + 1)) := by
  unfold replaceAll
  induction parts with
  | nil => rfl
  | cons p parts ih =>
    have ih' := ih (fun q hq => hl q (by simp [hq])) (fun q hq => hr q (by simp [hq]))
    rw [List.flatMap_cons, List.flatMap_cons]
    cases p with
    | lit c =>
      have hc := hl (.lit c) (by simp) c rfl
      simp only [stage]
      rw [replaceGo_text (by simpa using Ne.symm hc), ih']
    | ref i =>
      have hi := hr (.ref i) (by simp) i rfl
      simp only [stage]
      by_cases h1 : i < k
      · rw [if_pos h1, if_pos (by omega), replaceGo_text, ih']
        rw [List.getD_eq_getElem?_getD]
        cases hg : caps[i]? with
        | none => simp
        | some y => exact hx y (List.mem_of_getElem? hg)
      · by_cases h2 : i = k
        · subst h2
          rw [if_neg h1, if_pos (by omega)]
          have e := groupRef_digit h10
          have hv : caps.getD i [] = x := by rw [List.getD_eq_getElem?_getD, hk]; rfl
          rw [hv]
          have hgo : replaceGo (groupRef i) x 0 (groupRef i ++ parts.flatMap (stage caps i)) =
              x ++ replaceGo (groupRef i) x 0 (parts.flatMap (stage caps i)) := by
            have hpre : (groupRef i).isPrefixOf (groupRef i ++ parts.flatMap (stage caps i)) = true := by
              rw [List.isPrefixOf_iff_prefix]; exact List.prefix_append _ _
            have hlen : (groupRef i).length - 1 = [Char.ofNat (48 + i)].length := by rw [e]; rfl
            have hc : groupRef i ++ parts.flatMap (stage caps i) =
                '$' :: ([Char.ofNat (48 + i)] ++ parts.flatMap (stage caps i)) := by rw [e]; rfl
            rw [hc] at hpre ⊢
            rw [replaceGo, if_pos hpre, hlen, replaceGo_skip]
          rw [hgo, ih']
        · rw [if_neg h1, if_neg (by omega), groupRef_digit hi]
          have hgo : replaceGo (groupRef k) x 0 (['$', Char.ofNat (48 + i)] ++ parts.flatMap (stage caps k)) =
              ['$', Char.ofNat (48 + i)] ++ replaceGo (groupRef k) x 0 (parts.flatMap (stage caps k)) := by
            rw [List.cons_append, replaceGo, if_neg]
            · rw [replaceGo_text (by simpa using Ne.symm (digit_dollar hi))]; rfl
            · rw [groupRef_digit h10]
              intro hp
              simp only [List.isPrefixOf, List.cons_append, Bool.and_eq_true, beq_iff_eq] at hp
              exact digit_ne h10 hi (Ne.symm h2) hp.2.1
          rw [hgo, ih']

/-- **C62, the part that holds.** With fewer than ten groups whose texts contain no `$`, a
replacement in which every `$` belongs to a reference to an existing group becomes its text with
every reference replaced by the text of the group. -/
theorem C62_substitute_partial (caps : List (List Char)) (h10 : caps.length ≤ 10) (hx : ∀ c ∈ caps, '$' ∉ c)
    (parts : List Part) (hl : ∀ p ∈ parts, ∀ c, p = .lit c → c ≠ '$')
    (hr : ∀ p ∈ parts, ∀ i, p = .ref i → i < caps.length) :
    substitute caps (parts.flatMap Part.text) = parts.flatMap (Part.value caps) := by
  have hr10 : ∀ p ∈ parts, ∀ i, p = .ref i → i < 10 := fun p hp i e => Nat.lt_of_lt_of_le (hr p hp i e) h10
  have h0 : parts.flatMap Part.text = parts.flatMap (stage caps 0) := by
    congr 1
  have hn : parts.flatMap (stage caps caps.length) = parts.flatMap (Part.value caps) := by
    have : ∀ p ∈ parts, stage caps caps.length p = Part.value caps p := by
      intro p hp
      cases p with
      | lit c => rfl
      | ref i => simp only [stage, Part.value]; rw [if_pos (hr _ hp i rfl)]
    clear hl hr hr10 h0
    induction parts with
    | nil => rfl
    | cons p parts ih =>
      rw [List.flatMap_cons, List.flatMap_cons, this p (by simp), ih (fun q hq => this q (by simp [hq]))]
  have key : ∀ (rest : List (List Char)) (k : Nat), caps.drop k = rest →
      (rest.zipIdx k).foldl (fun s ci => replaceAll (groupRef ci.2) ci.1 s) (parts.flatMap (stage caps k)) =
        parts.flatMap (stage caps (k + rest.length)) := by
    intro rest
    induction rest with
    | nil => intro k _; rfl
    | cons x rest ih =>
      intro k hk
      have hkx : caps[k]? = some x := by
        have := congrArg List.head? hk
        simpa using this
      have hlt : k < caps.length := by
        rw [List.getElem?_eq_some_iff] at hkx; exact hkx.1
      rw [List.zipIdx_cons, List.foldl_cons]
      dsimp only
      rw [stage_step hkx (by omega) hx parts hl hr10, ih (k + 1) (by
        have := congrArg List.tail hk
        simpa using this)]
      simp only [List.length_cons]
      congr 2
      omega
  unfold substitute
  rw [h0, key caps 0 rfl, Nat.zero_add, hn]

/-- Such a replacement. -/
example : substitute [c!"IMG_7.jpg", c!"7"] c!"photo_$1.jpg" = c!"photo_7.jpg" := by decide +kernel

end Dsh.Fs.Dmv
