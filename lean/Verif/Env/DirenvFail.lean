import Verif.Env.Direnv
/-!
Going on after a change of directory whose environment file could not be read (C207): `check_path` leaves
early (direnv.rs:187-188), `cd` reports the error (proxy/mod.rs:90-112) and the shell goes on in the new
directory.  `Verif/Env/Direnv.lean` ends a walk there; here it goes on.
-/
namespace Dsh.Env

/-- A change of directory (proxy/mod.rs:90-112, shell/hooks.rs:10-14) whatever becomes of it: the shell
afterwards and whether `cd` succeeded.  `none` is the end of the shell by a panic. -/
def cdOn (files : List Str → EnvFiles) (s : Sh) (old new : List Str) : Option (Sh × Bool) :=
  let e := setSys (setVar s.e c!"OLDPWD" (showPath old)) c!"PWD" (showPath new)
  let o := checkRoots files new e s.roots
  match o.status with
  | .ok _ => some (⟨o.e, o.roots⟩, true)
  | .err => some (⟨o.e, o.roots⟩, false)
  | .panic => none

/-- A walk that goes on after errors. -/
def walkOn (s : Sh) : List Act → Option Sh
  | [] => some s
  | .cd files old new :: l => match cdOn files s old new with
    | some (s, _) => walkOn s l
    | none => none
  | .op o :: l => walkOn { s with e := step s.e o } l

/-! ### What the functions do -/

/-- A file that is there and cannot be read as text. -/
def Unreadable (f : EnvFiles) : Prop := f.env = .bad ∨ (f.env = .absent ∧ f.envrc = .bad)

theorem readFiles_err {f : EnvFiles} (h : Unreadable f) : readFiles f = .err := by
  rcases h with h | ⟨h1, h2⟩
  · rw [readFiles, h]
  · rw [readFiles, h1, h2]

/-- Nothing to do for this directory, or it can be done. -/
def Fine (files : List Str → EnvFiles) (pwd : List Str) (r : Root) : Prop :=
  r.path.isPrefixOf pwd = true → r.loaded = false → ∃ es, readFiles (files r.path) = .ok es

/-- What becomes of one directory that is fine. -/
def visit (files : List Str → EnvFiles) (pwd : List Str) (e : State) (r : Root) : State × Root :=
  if r.path.isPrefixOf pwd && !r.loaded then
    match readFiles (files r.path) with
    | .ok es => (setEnv e (r.entries ++ es), { r with entries := r.entries ++ es, loaded := true })
    | _ => (e, r)
  else if !r.path.isPrefixOf pwd && r.loaded then (removeEnv e r, { r with entries := [], loaded := false })
  else (e, r)

/-- One after the other. -/
def visits (files : List Str → EnvFiles) (pwd : List Str) : State → List Root → State × List Root
  | e, [] => (e, [])
  | e, r :: rs =>
    let v := visit files pwd e r
    let w := visits files pwd v.1 rs
    (w.1, v.2 :: w.2)

theorem visit_path (files : List Str → EnvFiles) (pwd : List Str) (e : State) (r : Root) : (visit files pwd e r).2.path = r.path := by
  rw [visit]; split
  · split <;> rfl
  · split <;> rfl

theorem visits_paths (files : List Str → EnvFiles) (pwd : List Str) : ∀ (rs : List Root) (e : State),
    (visits files pwd e rs).2.map (·.path) = rs.map (·.path)
  | [], e => rfl
  | r :: rs, e => by simp only [visits, List.map_cons, visit_path, visits_paths files pwd rs]

/-- A directory that is fine is visited, and the others follow. -/
theorem checkRoots_fine {files : List Str → EnvFiles} {pwd : List Str} {e : State} {r : Root} (rs : List Root) (h : Fine files pwd r) :
    checkRoots files pwd e (r :: rs) =
      { checkRoots files pwd (visit files pwd e r).1 rs with roots := (visit files pwd e r).2 :: (checkRoots files pwd (visit files pwd e r).1 rs).roots } := by
  rw [checkRoots.eq_def]
  simp only
  by_cases h1 : (r.path.isPrefixOf pwd && !r.loaded) = true
  · obtain ⟨h2, h3⟩ := Bool.and_eq_true_iff.mp h1
    obtain ⟨es, he⟩ := h h2 (by simpa using h3)
    simp only [visit, h1, if_true, he]
  · by_cases h2 : (!r.path.isPrefixOf pwd && r.loaded) = true
    · simp only [visit, if_neg h1, if_pos h2]
    · simp only [visit, if_neg h1, if_neg h2]

theorem checkRoots_all {files : List Str → EnvFiles} {pwd : List Str} : ∀ (rs : List Root) (e : State), (∀ r ∈ rs, Fine files pwd r) →
    checkRoots files pwd e rs = ⟨.ok (), reloadPath (visits files pwd e rs).1, (visits files pwd e rs).2⟩
  | [], e, _ => rfl
  | r :: rs, e, h => by
    rw [checkRoots_fine rs (h r (List.mem_cons_self ..)), checkRoots_all rs _ (fun x hx => h x (List.mem_cons_of_mem _ hx))]
    rfl

/-- The first directory that cannot be read ends it. -/
theorem checkRoots_stop {files : List Str → EnvFiles} {pwd : List Str} (r : Root) (post : List Root)
    (h1 : r.path.isPrefixOf pwd = true) (h2 : r.loaded = false) (h3 : Unreadable (files r.path)) : ∀ (pre : List Root) (e : State),
    (∀ x ∈ pre, Fine files pwd x) →
    checkRoots files pwd e (pre ++ r :: post) = ⟨.err, (visits files pwd e pre).1, (visits files pwd e pre).2 ++ post⟩
  | [], e, _ => by
    rw [List.nil_append, checkRoots.eq_def]
    simp only [h1, h2, readFiles_err h3, Bool.not_false, Bool.and_self, if_true, visits, List.nil_append]
  | x :: pre, e, h => by
    rw [List.cons_append, checkRoots_fine _ (h x (List.mem_cons_self ..)),
      checkRoots_stop r post h1 h2 h3 pre _ (fun y hy => h y (List.mem_cons_of_mem _ hy))]
    rfl

theorem checkRoots_paths (files : List Str → EnvFiles) (pwd : List Str) : ∀ (rs : List Root) (e : State),
    ((checkRoots files pwd e rs).roots.map (·.path)).Sublist (rs.map (·.path))
  | [], e => List.Sublist.refl _
  | r :: rs, e => by
    rw [checkRoots.eq_def]
    simp only
    split
    · split
      · simp only [List.map_cons]; exact (checkRoots_paths files pwd rs _).cons_cons _
      · simp only [List.map_cons]; exact List.sublist_cons_self _ _
      · simp only [List.map_cons]; exact List.sublist_cons_self _ _
    · split
      · simp only [List.map_cons]; exact (checkRoots_paths files pwd rs _).cons_cons _
      · simp only [List.map_cons]; exact (checkRoots_paths files pwd rs _).cons_cons _

theorem cdOn_paths {files : List Str → EnvFiles} {s s' : Sh} {old new : List Str} {b : Bool} (h : cdOn files s old new = some (s', b)) :
    (s'.roots.map (·.path)).Sublist (s.roots.map (·.path)) := by
  simp only [cdOn] at h
  split at h
  · cases h; exact checkRoots_paths ..
  · cases h; exact checkRoots_paths ..
  · cases h

theorem walkOn_paths : ∀ (l : List Act) {s s' : Sh}, walkOn s l = some s' → (s'.roots.map (·.path)).Sublist (s.roots.map (·.path))
  | [], s, s', h => by cases h; exact List.Sublist.refl _
  | .op o :: l, s, s', h => walkOn_paths l (s := { s with e := step s.e o }) h
  | .cd files old new :: l, s, s', h => by
    rw [walkOn] at h
    cases hc : cdOn files s old new with
    | none => rw [hc] at h; cases h
    | some p =>
      obtain ⟨t, b⟩ := p
      rw [hc] at h
      exact (walkOn_paths l h).trans (cdOn_paths hc)

/-! ### C207 -/

/-- The environment variables this directory may assign: those its files name at some moment, or that it has loaded. -/
def Assigns (files : List Str → EnvFiles) (k : Str) (p : List Str) : Prop :=
  ∃ es, readFiles (files p) = .ok es ∧ ∃ x ∈ es, x.assigns k

/-- The rest of the walk does not assign `k`: no command does, and of the directories in `D` none. -/
def Leaves (D : List (List Str)) (k : Str) : Act → Prop
  | .cd files _ _ => ∀ p ∈ D, ¬ Assigns files k p
  | .op o => ∀ e, (step e o).sys.get k = e.sys.get k

theorem setEnv_get {e : State} {l : List Entry} {k : Str} (h : ∀ x ∈ l, ¬ x.assigns k) (hk : k ≠ PATH) :
    (setEnv e l).sys.get k = e.sys.get k := by
  rw [setEnv, setSys_sys, Map.get_insert, if_neg hk, setEntries_get l _ _ k h]

theorem removeEnv_get {e : State} {r : Root} {k : Str} (h : ∀ x ∈ r.entries, ¬ x.assigns k) (hk : k ≠ PATH) :
    (removeEnv e r).sys.get k = e.sys.get k := by
  simp only [removeEnv]
  split
  · rw [setSys_sys, Map.get_insert, if_neg hk, unsetEntries_get _ _ k h]
  · exact unsetEntries_get _ _ k h

/-- No directory in the list has loaded an assignment of `k`. -/
def Free (k : Str) (rs : List Root) : Prop := ∀ r ∈ rs, ∀ x ∈ r.entries, ¬ x.assigns k

theorem checkRoots_frame {files : List Str → EnvFiles} {pwd : List Str} {k : Str} (hk : k ≠ PATH) : ∀ (rs : List Root) (e : State),
    Free k rs → (∀ r ∈ rs, ¬ Assigns files k r.path) →
    (checkRoots files pwd e rs).e.sys.get k = e.sys.get k ∧ Free k (checkRoots files pwd e rs).roots
  | [], e, _, _ => ⟨rfl, by intro r hr; cases hr⟩
  | r :: rs, e, hc, ha => by
    have hr := hc r (List.mem_cons_self ..)
    have har := ha r (List.mem_cons_self ..)
    have hcs : Free k rs := fun x hx => hc x (List.mem_cons_of_mem _ hx)
    have has : ∀ x ∈ rs, ¬ Assigns files k x.path := fun x hx => ha x (List.mem_cons_of_mem _ hx)
    have cons : ∀ (r' : Root) (e' : State), (∀ x ∈ r'.entries, ¬ x.assigns k) → Free k (r' :: (checkRoots files pwd e' rs).roots) := by
      intro r' e' h x hx
      rcases List.mem_cons.mp hx with rfl | hx
      · exact h
      · exact (checkRoots_frame hk rs e' hcs has).2 x hx
    rw [checkRoots.eq_def]
    simp only
    split
    · cases hf : readFiles (files r.path) with
      | ok es =>
        have hn : ∀ x ∈ r.entries ++ es, ¬ x.assigns k := by
          intro x hx
          rcases List.mem_append.mp hx with hx | hx
          · exact hr x hx
          · exact fun h => har ⟨es, hf, x, hx, h⟩
        simp only
        exact ⟨by rw [(checkRoots_frame hk rs _ hcs has).1, setEnv_get hn hk], cons _ _ hn⟩
      | err => exact ⟨rfl, hcs⟩
      | panic => exact ⟨rfl, hcs⟩
    · split
      · simp only
        exact ⟨by rw [(checkRoots_frame hk rs _ hcs has).1, removeEnv_get hr hk], cons _ _ (by intro x hx; cases hx)⟩
      · simp only
        exact ⟨(checkRoots_frame hk rs _ hcs has).1, cons _ _ hr⟩

theorem walkOn_frame {k : Str} (hk : k ≠ PATH) (hp : k ≠ c!"PWD") : ∀ (l : List Act) {s s' : Sh} (D : List (List Str)),
    walkOn s l = some s' → Free k s.roots → (s.roots.map (·.path)) ⊆ D → (∀ a ∈ l, Leaves D k a) → s'.e.sys.get k = s.e.sys.get k
  | [], s, s', D, h, _, _, _ => by cases h; rfl
  | .op o :: l, s, s', D, h, hc, hd, ha => by
    have := walkOn_frame hk hp l (s := { s with e := step s.e o }) D h hc hd (fun a h => ha a (List.mem_cons_of_mem _ h))
    rw [this]
    exact ha (.op o) (List.mem_cons_self ..) s.e
  | .cd files old new :: l, s, s', D, h, hc, hd, ha => by
    have hl : ∀ p ∈ D, ¬ Assigns files k p := ha (.cd files old new) (List.mem_cons_self ..)
    rw [walkOn] at h
    cases hcd : cdOn files s old new with
    | none => rw [hcd] at h; cases h
    | some p =>
      obtain ⟨t, b⟩ := p
      rw [hcd] at h
      have fr := checkRoots_frame (pwd := new) hk s.roots (setSys (setVar s.e c!"OLDPWD" (showPath old)) c!"PWD" (showPath new)) hc
        (fun r hr => hl _ (hd (List.mem_map_of_mem hr)))
      have ht : t.e.sys.get k = s.e.sys.get k ∧ Free k t.roots := by
        have e0 : (setSys (setVar s.e c!"OLDPWD" (showPath old)) c!"PWD" (showPath new)).sys.get k = s.e.sys.get k := by
          rw [setSys_sys, Map.get_insert, if_neg hp]; rfl
        simp only [cdOn] at hcd
        split at hcd
        · cases hcd; exact ⟨fr.1.trans e0, fr.2⟩
        · cases hcd; exact ⟨fr.1.trans e0, fr.2⟩
        · cases hcd
      have := walkOn_frame hk hp l D h ht.2 (fun p hp => hd ((cdOn_paths hcd).subset hp)) (fun a h => ha a (List.mem_cons_of_mem _ h))
      rw [this, ht.1]

/-- C207, what holds: as long as every file can be read, `cd` succeeds and every allowed directory is looked at, in
order: those entered are loaded, those left are taken back, the search path is made anew. -/
theorem C207_all_partial (files : List Str → EnvFiles) (s : Sh) (old new : List Str) (h : ∀ r ∈ s.roots, Fine files new r) :
    ∃ t, cdOn files s old new = some (t, true) ∧ t.roots.map (·.path) = s.roots.map (·.path) ∧
      ∀ r ∈ t.roots, r.loaded = r.path.isPrefixOf new := by
  have hc := checkRoots_all s.roots (setSys (setVar s.e c!"OLDPWD" (showPath old)) c!"PWD" (showPath new)) h
  refine ⟨⟨_, _⟩, by simp only [cdOn, hc]; rfl, visits_paths .., ?_⟩
  have key : ∀ (rs : List Root) (e : State), (∀ r ∈ rs, Fine files new r) → ∀ r ∈ (visits files new e rs).2, r.loaded = r.path.isPrefixOf new := by
    intro rs
    induction rs with
    | nil => intro e _ r hr; cases hr
    | cons a rs ih =>
      intro e hf r hr
      rcases List.mem_cons.mp hr with rfl | hr
      · rw [visit_path, visit]
        cases h1 : a.path.isPrefixOf new <;> cases h2 : a.loaded
        · simp [h2]
        · simp
        · obtain ⟨es, he⟩ := hf a (List.mem_cons_self ..) h1 h2
          simp [he]
        · simp [h2]
      · exact ih _ (fun x hx => hf x (List.mem_cons_of_mem _ hx)) r hr
  exact key s.roots _ h

/-- C207 fails: a directory whose file could not be read once is forgotten.  Whatever the user does afterwards, and
although the file can be read again, the variables of that directory are never set: each keeps the value it had. -/
theorem C207_forgotten_violated (files : List Str → EnvFiles) (s : Sh) (old new : List Str) (pre post : List Root) (r : Root)
    (hs : s.roots = pre ++ r :: post) (hpre : ∀ x ∈ pre, Fine files new x) (h1 : r.path.isPrefixOf new = true) (h2 : r.loaded = false)
    (h3 : Unreadable (files r.path)) (hu : r.path ∉ (pre ++ post).map (·.path)) :
    ∃ t, cdOn files s old new = some (t, false) ∧ ∀ (l : List Act) (u : Sh), walkOn t l = some u →
      r.path ∉ u.roots.map (·.path) ∧
      ∀ k, k ≠ PATH → k ≠ c!"PWD" → Free k t.roots → (∀ a ∈ l, Leaves (t.roots.map (·.path)) k a) → u.e.sys.get k = t.e.sys.get k := by
  have hc := checkRoots_stop r post h1 h2 h3 pre (setSys (setVar s.e c!"OLDPWD" (showPath old)) c!"PWD" (showPath new)) hpre
  refine ⟨⟨_, _⟩, by simp only [cdOn, hs, hc]; rfl, ?_⟩
  intro l u hw
  refine ⟨?_, ?_⟩
  · intro hm
    refine hu ?_
    have := (walkOn_paths l hw).subset hm
    simpa [visits_paths] using this
  · intro k hk hp hcl hl
    exact walkOn_frame hk hp l _ hw hcl (fun _ h => h) hl

/-- C207 fails: the directories after it in the list are not looked at.  One that was left is not taken back: with that
`cd` its variables stay as they are. -/
theorem C207_rest_violated (files : List Str → EnvFiles) (s : Sh) (old new : List Str) (pre post : List Root) (r : Root)
    (hs : s.roots = pre ++ r :: post) (hpre : ∀ x ∈ pre, Fine files new x) (h1 : r.path.isPrefixOf new = true) (h2 : r.loaded = false)
    (h3 : Unreadable (files r.path)) :
    ∃ t, cdOn files s old new = some (t, false) ∧ (∃ pre', t.roots = pre' ++ post ∧ pre'.length = pre.length) ∧
      ∀ k, k ≠ PATH → k ≠ c!"PWD" → (∀ x ∈ pre, (∀ y ∈ x.entries, ¬ y.assigns k) ∧ ¬ Assigns files k x.path) → t.e.sys.get k = s.e.sys.get k := by
  have hc := checkRoots_stop r post h1 h2 h3 pre (setSys (setVar s.e c!"OLDPWD" (showPath old)) c!"PWD" (showPath new)) hpre
  refine ⟨⟨_, _⟩, by simp only [cdOn, hs, hc]; rfl, ⟨_, rfl, ?_⟩, ?_⟩
  · have := congrArg List.length (visits_paths files new pre (setSys (setVar s.e c!"OLDPWD" (showPath old)) c!"PWD" (showPath new)))
    simpa using this
  · intro k hk hp ha
    have h0 := checkRoots_all pre (setSys (setVar s.e c!"OLDPWD" (showPath old)) c!"PWD" (showPath new)) hpre
    have := (checkRoots_frame (files := files) (pwd := new) hk pre (setSys (setVar s.e c!"OLDPWD" (showPath old)) c!"PWD" (showPath new))
      (fun x hx => (ha x hx).1) (fun x hx => (ha x hx).2)).1
    rw [h0] at this
    simp only [reloadPath] at this ⊢
    rw [this, setSys_sys, Map.get_insert, if_neg hp]; rfl

/-- C207 fails: `cd` reports failure, and the directory has been changed. -/
theorem C207_moved_violated (files : List Str → EnvFiles) (s : Sh) (old new : List Str) (post : List Root) (r : Root)
    (hs : s.roots = r :: post) (h1 : r.path.isPrefixOf new = true) (h2 : r.loaded = false) (h3 : Unreadable (files r.path)) :
    ∃ t, cdOn files s old new = some (t, false) ∧ t.e.sys.get c!"PWD" = some (showPath new) := by
  have hc := checkRoots_stop r post h1 h2 h3 [] (setSys (setVar s.e c!"OLDPWD" (showPath old)) c!"PWD" (showPath new)) (by simp)
  rw [List.nil_append] at hc
  refine ⟨⟨_, _⟩, by simp only [cdOn, hs, hc]; rfl, ?_⟩
  simp only [visits]
  rw [setSys_sys, Map.get_insert, if_pos rfl]

/-! ### A concrete case -/

/-- `/a` cannot be read at first. -/
def badA : List Str → EnvFiles := fun p => if p = [c!"a"] then ⟨.bad, .absent⟩ else ⟨.absent, .absent⟩
/-- Afterwards it can. -/
def goodA : List Str → EnvFiles := fun p => if p = [c!"a"] then ⟨.text c!"KEY=1\n", .absent⟩ else ⟨.absent, .absent⟩

/-- `/a` allowed, and `/b` loaded with `TOKEN=1`. -/
def twoRoots : Sh := ⟨setSys ex0 c!"TOKEN" c!"1", [allow [c!"a"] c!"/bin", ⟨[c!"b"], [.env c!"TOKEN" c!"1"], c!"/bin", true⟩]⟩

/-- From `/b` into `/a` with its unreadable file, out to `/`, into `/a` again: `KEY` is not set.  And right after the first step
`TOKEN` of `/b` is still there. -/
theorem forgotten_run :
    ((walkOn twoRoots [.cd badA [c!"b"] [c!"a"], .cd goodA [c!"a"] [], .cd goodA [] [c!"a"]]).map fun t => (t.e.sys.get c!"KEY", t.roots.length)) = some (none, 1) ∧
    ((walkOn twoRoots [.cd badA [c!"b"] [c!"a"]]).map fun t => t.e.sys.get c!"TOKEN") = some (some c!"1") ∧
    ((walkOn twoRoots [.cd goodA [c!"b"] [c!"a"]]).map fun t => (t.e.sys.get c!"KEY", t.e.sys.get c!"TOKEN")) = some (some c!"1", none) := by decide +kernel

/-- The hypotheses of `C207_forgotten_violated` and `C207_rest_violated`. -/
example : ∃ pre post r, twoRoots.roots = pre ++ r :: post ∧ (∀ x ∈ pre, Fine badA [c!"a"] x) ∧ r.path.isPrefixOf [c!"a"] = true ∧
    r.loaded = false ∧ Unreadable (badA r.path) ∧ r.path ∉ (pre ++ post).map (·.path) :=
  ⟨[], [⟨[c!"b"], [.env c!"TOKEN" c!"1"], c!"/bin", true⟩], allow [c!"a"] c!"/bin", rfl, by simp, by decide, rfl, .inl rfl, by decide⟩

end Dsh.Env
