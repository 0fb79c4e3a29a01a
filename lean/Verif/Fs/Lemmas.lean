import Verif.Fs.Model
/-!
Path resolution: what it reaches, composition, and the effect of more allowed links.
-/
namespace Dsh.Fs

/-- Induction from the end of a list. -/
@[elab_as_elim]
theorem snocInd {α} {P : List α → Prop} (nil : P []) (snoc : ∀ l a, P l → P (l ++ [a])) (l : List α) : P l := by
  rw [← List.reverse_reverse l]
  induction l.reverse with
  | nil => exact nil
  | cons a l ih => rw [List.reverse_cons]; exact snoc _ _ ih

/-- Every prefix of the location is a directory. -/
def Dirs (fs : FS) (l : Loc) : Prop := ∀ p, p <+: l → fs p = some .dir

/-- A file system: the root is a directory, and what exists lies in a directory. -/
structure WF (fs : FS) : Prop where
  root : fs [] = some .dir
  parent : ∀ l n, fs (l ++ [n]) ≠ none → fs l = some .dir

theorem dirs_nil {fs : FS} (h : fs [] = some .dir) : Dirs fs [] := by
  intro p hp; rw [List.prefix_nil.1 hp]; exact h

theorem Dirs.snoc {fs : FS} {l : Loc} {n : Name} (h : Dirs fs l) (hn : fs (l ++ [n]) = some .dir) :
    Dirs fs (l ++ [n]) := by
  intro p hp
  rcases List.prefix_concat_iff.1 hp with rfl | hp
  · exact hn
  · exact h p hp

theorem Dirs.prefix {fs : FS} {l l' : Loc} (h : Dirs fs l) (hp : l' <+: l) : Dirs fs l' :=
  fun p hp' => h p (List.IsPrefix.trans hp' hp)

theorem Dirs.dropLast {fs : FS} {l : Loc} (h : Dirs fs l) : Dirs fs l.dropLast :=
  h.prefix (List.dropLast_prefix l)

theorem Dirs.self {fs : FS} {l : Loc} (h : Dirs fs l) : fs l = some .dir := h l (List.prefix_refl l)

theorem WF.dirs {fs : FS} (h : WF fs) (l : Loc) : fs l = some .dir → Dirs fs l := by
  induction l using snocInd with
  | nil => intro _; exact dirs_nil h.root
  | snoc l a ih => intro hn; exact (ih (h.parent l a (by rw [hn]; simp))).snoc hn

/-- Under a missing location nothing exists. -/
theorem WF.none_below {fs : FS} (h : WF fs) {l : Loc} (hl : fs l = none) (m : Loc) : fs (l ++ m) = none := by
  induction m using snocInd with
  | nil => simpa using hl
  | snoc m a ih =>
    by_contra hne
    rw [← List.append_assoc] at hne
    have := h.parent _ _ hne
    rw [ih] at this
    cases this

/-! ### What resolution reaches -/

/-- The entry reached exists, lies in a chain of directories, and is no link if links are
followed. -/
def Reached (fs : FS) (follow : Bool) : Res → Prop
  | .at l n => Dirs fs l.dropLast ∧ fs l = some n ∧ (follow = true → ∀ a t, n ≠ .link a t)
  | .missing d m => Dirs fs d ∧ fs (d ++ [m]) = none
  | _ => True

theorem walkStep_reached {fs : FS} {follow : Bool} {next : Loc → List Comp → Res} (h0 : fs [] = some .dir)
    (hnext : ∀ l cs, Dirs fs l → Reached fs follow (next l cs)) (l : Loc) (cs : List Comp) (hl : Dirs fs l) :
    Reached fs follow (walkStep fs follow next l cs) := by
  induction cs generalizing l with
  | nil =>
    simp only [walkStep, hl.self, Reached]
    exact ⟨hl.dropLast, trivial, by simp⟩
  | cons c cs ih =>
    cases c with
    | up => exact ih _ hl.dropLast
    | name n =>
      rw [walkStep]
      cases hf : fs (l ++ [n]) with
      | none =>
        simp only
        split
        · exact ⟨hl, hf⟩
        · trivial
      | some nd =>
        cases nd with
        | file d =>
          simp only
          split
          · refine ⟨by simpa using hl, hf, by simp⟩
          · trivial
        | dir => exact ih _ (hl.snoc hf)
        | link a t =>
          simp only
          split
          · next hc =>
            refine ⟨by simpa using hl, hf, ?_⟩
            intro hfo; simp [hfo] at hc
          · apply hnext
            cases a
            · exact hl
            · exact dirs_nil h0

theorem walk_reached {fs : FS} {follow : Bool} (h0 : fs [] = some .dir) (lim : Nat) :
    ∀ (l : Loc) (cs : List Comp), Dirs fs l → Reached fs follow (walk fs follow lim l cs) := by
  induction lim with
  | zero => intro l cs hl; exact walkStep_reached (next := fun _ _ => .loop) h0 (fun _ _ _ => trivial) l cs hl
  | succ n ih => intro l cs hl; exact walkStep_reached h0 ih l cs hl

theorem resolve_reached {fs : FS} (h0 : fs [] = some .dir) (lim : Nat) (p : Path) :
    Reached fs true (resolve fs lim true p) := by
  have := walk_reached (follow := true) h0 lim [] p.comps (dirs_nil h0)
  unfold resolve
  split
  · revert this
    cases walk fs true lim [] p.comps with
    | «at» l n => cases n <;> simp [demandDir, Reached]
    | _ => simp [demandDir, Reached]
  · exact this

/-! ### Composition -/

/-- Walking over existing directories. -/
theorem walkStep_dirs {fs : FS} {follow : Bool} {next : Loc → List Comp → Res} (l m : Loc) (cs : List Comp)
    (h : Dirs fs (l ++ m)) :
    walkStep fs follow next l (m.map .name ++ cs) = walkStep fs follow next (l ++ m) cs := by
  induction m generalizing l with
  | nil => simp
  | cons n m ih =>
    have e : l ++ n :: m = (l ++ [n]) ++ m := by simp
    rw [e] at h ⊢
    have hn := h (l ++ [n]) (List.prefix_append _ _)
    simp only [List.map_cons, List.cons_append]
    rw [walkStep, hn]
    exact ih _ h

theorem walk_eq (fs : FS) (follow : Bool) (lim : Nat) :
    ∃ next, walk fs follow lim = walkStep fs follow next := by
  cases lim <;> exact ⟨_, rfl⟩

theorem walk_dirs {fs : FS} {follow : Bool} {lim : Nat} (l m : Loc) (cs : List Comp) (h : Dirs fs (l ++ m)) :
    walk fs follow lim l (m.map .name ++ cs) = walk fs follow lim (l ++ m) cs := by
  obtain ⟨next, e⟩ := walk_eq fs follow lim
  rw [e]; exact walkStep_dirs l m cs h

/-- The path of a reached location leads to it. -/
theorem walk_loc {fs : FS} {follow : Bool} {lim : Nat} {l : Loc} {n : Node} (hd : Dirs fs l.dropLast)
    (hl : fs l = some n) (hn : ∀ a t, n ≠ .link a t) :
    walk fs follow lim [] (l.map .name) = .at l n := by
  induction l using snocInd with
  | nil =>
    obtain ⟨next, e⟩ := walk_eq fs follow lim
    rw [e]; simp [walkStep, hl]
  | snoc l a _ =>
    rw [List.dropLast_concat] at hd
    rw [List.map_append, walk_dirs [] l _ (by simpa using hd)]
    obtain ⟨next, e⟩ := walk_eq fs follow lim
    rw [e]
    simp only [List.map_cons, List.map_nil, List.nil_append, walkStep]
    rw [hl]
    cases n with
    | file d => simp
    | dir => simp [walkStep, hl]
    | link b t => exact absurd rfl (hn b t)

/-- If a path is resolved, or only its last component is missing, then any proper initial part
leads to a directory. -/
theorem walk_append_inv {fs : FS} {f : Bool} {cs2 : List Comp} (h2 : cs2 ≠ []) (lim : Nat) :
    ∀ (l : Loc) (cs1 : List Comp), Dirs fs l → fs [] = some .dir →
      (∃ x n, walk fs f lim l (cs1 ++ cs2) = .at x n ∨ ∃ m, walk fs f lim l (cs1 ++ cs2) = .missing x m) →
      ∃ l', walk fs true lim l cs1 = .at l' .dir := by
  induction lim with
  | zero =>
    intro l cs1
    induction cs1 generalizing l with
    | nil => intro hl _ _; exact ⟨l, by simp [walk, walkStep, hl.self]⟩
    | cons c cs1 ih =>
      intro hl h0 hx
      cases c with
      | up => exact ih _ hl.dropLast h0 hx
      | name n =>
        have hne : (cs1 ++ cs2).isEmpty = false := by cases cs1 <;> simp [h2]
        simp only [walk, List.cons_append, walkStep] at hx ⊢
        cases hf : fs (l ++ [n]) with
        | none => rw [hf] at hx; simp [hne] at hx
        | some nd =>
          rw [hf] at hx
          cases nd with
          | file d => simp [hne] at hx
          | dir => exact ih _ (hl.snoc hf) h0 hx
          | link a t => simp [hne] at hx
  | succ k ihk =>
    intro l cs1
    induction cs1 generalizing l with
    | nil => intro hl _ _; exact ⟨l, by simp [walk, walkStep, hl.self]⟩
    | cons c cs1 ih =>
      intro hl h0 hx
      cases c with
      | up => exact ih _ hl.dropLast h0 hx
      | name n =>
        have hne : (cs1 ++ cs2).isEmpty = false := by cases cs1 <;> simp [h2]
        simp only [walk, List.cons_append, walkStep] at hx ⊢
        cases hf : fs (l ++ [n]) with
        | none => rw [hf] at hx; simp [hne] at hx
        | some nd =>
          rw [hf] at hx
          cases nd with
          | file d => simp [hne] at hx
          | dir => exact ih _ (hl.snoc hf) h0 hx
          | link a t =>
            simp only [hne, Bool.false_and, Bool.false_eq_true, if_false] at hx
            simp only [Bool.not_true, Bool.and_false, Bool.false_eq_true, if_false]
            refine ihk _ (t ++ cs1) ?_ h0 (by simpa [List.append_assoc] using hx)
            cases a
            · exact hl
            · exact dirs_nil h0

/-- Going on from a directory reached, with what is left of the allowed links. -/
theorem walk_append {fs : FS} {f : Bool} {cs2 : List Comp} (h2 : cs2 ≠ []) (lim : Nat) :
    ∀ (l : Loc) (cs1 : List Comp) (l' : Loc), walk fs true lim l cs1 = .at l' .dir →
      ∃ k, k ≤ lim ∧ walk fs f lim l (cs1 ++ cs2) = walk fs f k l' cs2 := by
  induction lim with
  | zero =>
    intro l cs1
    induction cs1 generalizing l with
    | nil =>
      intro l' h
      refine ⟨0, Nat.le_refl _, ?_⟩
      simp only [walk, walkStep] at h
      cases hf : fs l with
      | none => rw [hf] at h; cases h
      | some n => rw [hf] at h; simp at h; rw [h.1]; rfl
    | cons c cs1 ih =>
      intro l' h
      cases c with
      | up => exact ih _ _ h
      | name n =>
        have hne : (cs1 ++ cs2).isEmpty = false := by cases cs1 <;> simp [h2]
        simp only [walk, List.cons_append, walkStep] at h ⊢
        cases hf : fs (l ++ [n]) with
        | none => rw [hf] at h; simp at h; split at h <;> cases h
        | some nd =>
          rw [hf] at h
          cases nd with
          | file d => dsimp only at h; split at h <;> cases h
          | dir => exact ih _ _ h
          | link a t => simp at h
  | succ k ihk =>
    intro l cs1
    induction cs1 generalizing l with
    | nil =>
      intro l' h
      refine ⟨k + 1, Nat.le_refl _, ?_⟩
      simp only [walk, walkStep] at h
      cases hf : fs l with
      | none => rw [hf] at h; cases h
      | some n => rw [hf] at h; simp at h; rw [h.1]; rfl
    | cons c cs1 ih =>
      intro l' h
      cases c with
      | up => exact ih _ _ h
      | name n =>
        have hne : (cs1 ++ cs2).isEmpty = false := by cases cs1 <;> simp [h2]
        simp only [walk, List.cons_append, walkStep] at h ⊢
        cases hf : fs (l ++ [n]) with
        | none => rw [hf] at h; simp at h; split at h <;> cases h
        | some nd =>
          rw [hf] at h
          cases nd with
          | file d => dsimp only at h; split at h <;> cases h
          | dir => exact ih _ _ h
          | link a t =>
            simp only [Bool.not_true, Bool.and_false, Bool.false_eq_true, if_false] at h
            simp only [hne, Bool.false_and, Bool.false_eq_true, if_false]
            obtain ⟨j, hj, e⟩ := ihk _ (t ++ cs1) _ h
            exact ⟨j, by omega, by rw [← e, List.append_assoc]⟩

/-! ### More links allowed -/

theorem walkStep_mono {fs : FS} {f : Bool} {next next' : Loc → List Comp → Res}
    (h : ∀ l cs, next l cs ≠ .loop → next' l cs = next l cs) (l : Loc) (cs : List Comp) :
    walkStep fs f next l cs ≠ .loop → walkStep fs f next' l cs = walkStep fs f next l cs := by
  induction cs generalizing l with
  | nil => intro _; rfl
  | cons c cs ih =>
    cases c with
    | up => exact ih _
    | name n =>
      simp only [walkStep]
      cases fs (l ++ [n]) with
      | none => intro _; rfl
      | some nd =>
        cases nd with
        | file d => intro _; rfl
        | dir => exact ih _
        | link a t =>
          simp only
          split
          · intro _; rfl
          · exact h _ _

theorem walk_mono {fs : FS} {f : Bool} {k : Nat} :
    ∀ (l : Loc) (cs : List Comp), walk fs f k l cs ≠ .loop → walk fs f (k + 1) l cs = walk fs f k l cs := by
  induction k with
  | zero => exact walkStep_mono (fun _ _ h => absurd rfl h)
  | succ k ih => exact walkStep_mono ih

theorem walk_le {fs : FS} {f : Bool} {k n : Nat} (h : k ≤ n) (l : Loc) (cs : List Comp) :
    walk fs f k l cs ≠ .loop → walk fs f n l cs = walk fs f k l cs := by
  intro hk
  induction n with
  | zero => rw [Nat.le_zero.1 h]
  | succ n ih =>
    rcases Nat.le_succ_iff.1 h with h' | rfl
    · have e := ih h'
      rw [walk_mono l cs (by rw [e]; exact hk), e]
    · rfl

end Dsh.Fs
