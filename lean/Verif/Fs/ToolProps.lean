import Verif.Fs.Lemmas
import Verif.Fs.Tools
/-!
C31, C59, C60: the AI's file tools.
-/
namespace Dsh.Fs.Tools

open Dsh.Fs

/-! ### Resolution of a request -/

/-- Not an existing entry. -/
def NotAt (r : Res) : Prop := ∀ l n, r ≠ .at l n

theorem exists_false {fs : FS} {lim : Nat} {p : Path} (h : exists? fs lim p = false) :
    NotAt (resolve fs lim true p) := by
  intro l n e
  simp [exists?, e] at h

theorem demandDir_at {r : Res} {l : Loc} {n : Node} (h : demandDir r = .at l n) : r = .at l .dir ∧ n = .dir := by
  cases r with
  | «at» l' n' => cases n' <;> simp [demandDir] at h ⊢; exact ⟨h.1, h.2.symm⟩
  | _ => simp [demandDir] at h

/-- The names put aside, as a path (with the separator left by joining the empty path). -/
def sfx : List Name → Path
  | [] => emptyPath
  | ss => { abs := false, comps := ss.map .name, slash := true }

theorem sfx_cons (n : Name) (ss : List Name) :
    ({ abs := false, comps := [.name n], slash := false } : Path).join (sfx ss) = sfx (n :: ss) := by
  cases ss <;> rfl

theorem comps_snoc {p : Path} {n : Name} (h : p.fileName = some n) : p.comps = p.comps.dropLast ++ [.name n] := by
  unfold Path.fileName at h
  cases hl : p.comps.getLast? with
  | none => rw [hl] at h; simp at h
  | some c =>
    rw [hl] at h
    cases c with
    | up => simp at h
    | name m =>
      simp at h; subst h
      obtain ⟨ys, hys⟩ := List.getLast?_eq_some_iff.1 hl
      rw [hys]; simp

/-- What the ancestor loop returns: the location of an existing ancestor, and the names after it,
the first of which does not lead to a directory. -/
theorem ancestorLoop_spec {fs : FS} {lim : Nat} (fuel : Nat) :
    ∀ (cur : Path) (s : Name) (ss : List Name) (r : Path), cur.slash = false →
      (∀ l, walk fs true lim [] (cur.comps ++ [.name s]) ≠ .at l .dir) →
      ancestorLoop fs lim fuel cur (sfx (s :: ss)) = some r →
      ∃ (pre : List Comp) (t : Name) (ts : List Name) (l : Loc) (n : Node),
        pre ++ (t :: ts).map .name = cur.comps ++ (s :: ss).map .name ∧
        walk fs true lim [] pre = .at l n ∧
        (∀ l, walk fs true lim [] (pre ++ [.name t]) ≠ .at l .dir) ∧
        r = { abs := true, comps := (l ++ t :: ts).map .name, slash := true } := by
  induction fuel with
  | zero => intro cur s ss r _ _ h; simp [ancestorLoop] at h
  | succ fuel ih =>
    intro cur s ss r hsl hna h
    rw [ancestorLoop] at h
    by_cases he : exists? fs lim cur = true
    · rw [if_pos he] at h
      simp only [exists?, resolve, hsl] at he
      simp only [canonicalize, resolve, hsl] at h
      cases hw : walk fs true lim [] cur.comps with
      | «at» l n =>
        rw [hw] at h
        refine ⟨cur.comps, s, ss, l, n, rfl, hw, hna, ?_⟩
        simp [sfx, emptyPath, Path.join, Path.ofLoc] at h
        rw [← h]; simp
      | _ => rw [hw] at he; simp at he
    · rw [if_neg he] at h
      have he' := exists_false (by simpa using he)
      cases hfn : cur.fileName with
      | none => rw [hfn] at h; simp at h
      | some m =>
        rw [hfn] at h
        simp only at h
        have hcs := comps_snoc hfn
        have hne : cur.comps.isEmpty = false := by rw [hcs]; simp
        simp only [Path.parent, hne] at h
        rw [sfx_cons] at h
        obtain ⟨pre, t, ts, l, n, h1, h2⟩ := ih _ m (s :: ss) r rfl (by
          intro l hl
          dsimp only at hl
          rw [← hcs] at hl
          simp only [resolve, hsl] at he'
          exact he' _ _ hl) h
        refine ⟨pre, t, ts, l, n, ?_, h2⟩
        rw [h1, hcs]; simp

/-- No initial part of the path meets too many links. -/
def Shallow (fs : FS) (lim : Nat) (cs : List Comp) : Prop := ∀ k, walk fs true lim [] (cs.take k) ≠ .loop

/-- The result for a request that does not exist: a path that never leads to an existing entry. -/
theorem resolved_missing {fs : FS} (h0 : fs [] = some .dir) {lim : Nat} {p r : Path}
    (hs : Shallow fs lim p.comps) (hne : exists? fs lim p = false)
    (hr : resolveWithExistingAncestor fs lim p = some r) :
    ∃ (l : Loc) (t : Name) (ts : List Name) (n : Node),
      r = { abs := true, comps := (l ++ t :: ts).map .name, slash := true } ∧
      Dirs fs l.dropLast ∧ fs l = some n ∧ (∀ a t, n ≠ .link a t) ∧
      (∀ x, walk fs true lim [] ((l ++ [t]).map .name) ≠ .at x .dir) := by
  unfold resolveWithExistingAncestor at hr
  rw [ancestorLoop, if_neg (by simp [hne])] at hr
  cases hfn : p.fileName with
  | none => rw [hfn] at hr; simp at hr
  | some m =>
    rw [hfn] at hr
    simp only at hr
    have hcs := comps_snoc hfn
    have hemp : p.comps.isEmpty = false := by rw [hcs]; simp
    simp only [Path.parent, hemp] at hr
    have e : ({ abs := false, comps := [.name m], slash := false } : Path).join emptyPath = sfx [m] := rfl
    rw [e] at hr
    obtain ⟨pre, t, ts, l, n, h1, h2, h3, h4⟩ := ancestorLoop_spec _ _ m [] r rfl (by
      intro l hl
      dsimp only at hl
      rw [← hcs] at hl
      have := exists_false hne
      simp only [resolve] at this
      split at this
      · exact this l .dir (by rw [hl]; rfl)
      · exact this l .dir hl) hr
    have hR := walk_reached (follow := true) h0 lim [] pre (dirs_nil h0)
    rw [h2] at hR
    obtain ⟨hd, hl, hn⟩ := hR
    refine ⟨l, t, ts, n, h4, hd, hl, hn rfl, ?_⟩
    intro x hx
    -- the directory is reached with all allowed links; with those left after `pre` as well
    rw [List.map_append] at hx
    obtain ⟨l', hl'⟩ := walk_append_inv (f := true) (cs2 := [Comp.name t]) (by simp) lim [] (l.map .name)
      (dirs_nil h0) h0 ⟨x, .dir, .inl (by simpa using hx)⟩
    rw [walk_loc hd hl (hn rfl)] at hl'
    simp at hl'
    obtain ⟨rfl, rfl⟩ := hl'
    have hdl : Dirs fs l := by
      intro q hq
      rcases List.eq_nil_or_concat l with rfl | ⟨l0, a, rfl⟩
      · rw [List.prefix_nil.1 hq]; exact h0
      · rcases List.prefix_concat_iff.1 (by simpa using hq) with rfl | hq'
        · simpa using hl
        · exact hd q (by simpa using hq')
    have hx' : walk fs true lim l [.name t] = .at x .dir := by
      have := walk_dirs (follow := true) (lim := lim) [] l [.name t] (by simpa using hdl)
      simp at this hx
      rw [← this]; exact hx
    obtain ⟨k, hk, e2⟩ := walk_append (f := true) (cs2 := [Comp.name t]) (by simp) lim [] pre _ h2
    have hnl : walk fs true lim [] (pre ++ [.name t]) ≠ .loop := by
      have := hs (pre.length + 1)
      have e3 : p.comps = pre ++ .name t :: ts.map .name := by
        rw [hcs]; simp at h1; rw [← h1]
      rw [e3, List.take_append] at this
      simpa [List.take_of_length_le] using this
    rw [e2] at hnl
    have := walk_le hk l [.name t] hnl
    rw [hx'] at this
    exact h3 x (by rw [e2, ← this])

theorem unused_resolve {fs : FS} (h0 : fs [] = some .dir) {lim : Nat} {l : Loc} {t : Name} {ts : List Name}
    (h : ∀ x, walk fs true lim [] ((l ++ [t]).map .name) ≠ .at x .dir) :
    NotAt (resolve fs lim true { abs := true, comps := (l ++ t :: ts).map .name, slash := true }) := by
  intro x n hx
  have hx2 : demandDir (walk fs true lim [] ((l ++ t :: ts).map .name)) = .at x n := hx
  clear hx
  obtain ⟨hx, rfl⟩ := demandDir_at hx2
  have e : (l ++ t :: ts).map Comp.name = (l ++ [t]).map .name ++ ts.map .name := by simp
  cases ts with
  | nil => exact h x hx
  | cons u ts =>
    rw [e] at hx
    obtain ⟨l', hl'⟩ := walk_append_inv (by simp) lim [] _ (dirs_nil h0) h0 ⟨x, .dir, .inl hx⟩
    exact h l' hl'

/-! ### Specification: the allowed directories -/

/-- The names of a path after cancelling `..` in the text. -/
def lexical (cs : List Comp) : List Name :=
  cs.foldl (fun acc c => match c with
    | .up => acc.dropLast
    | .name n => acc ++ [n]) []

/-- The directory meant by a path: where it leads, or, if it does not exist, its text. -/
def rootOf (fs : FS) (lim : Nat) (p : Path) : Loc :=
  match resolve fs lim true p with
  | .at l _ => l
  | _ => lexical p.comps

/-- Inside the workspace or the skills directory. -/
def Inside (e : Env) (fs : FS) (l : Loc) : Prop :=
  rootOf fs e.lim e.cwd <+: l ∨ rootOf fs e.lim e.skills <+: l

theorem normalize_lexical (p : Path) : (normalizePath p).comps = (lexical p.comps).map .name := by
  unfold normalizePath lexical
  have : ∀ (cs : List Comp) (acc : List Name),
      cs.foldl (fun acc c => match c with
        | .up => acc.dropLast
        | .name n => acc ++ [.name n]) (acc.map Comp.name) =
      (cs.foldl (fun acc c => match c with
        | .up => acc.dropLast
        | .name n => acc ++ [n]) acc).map .name := by
    intro cs
    induction cs with
    | nil => intro acc; rfl
    | cons c cs ih =>
      intro acc
      cases c with
      | up => simpa [List.map_dropLast] using ih acc.dropLast
      | name n => simpa using ih (acc ++ [n])
  exact this p.comps []

theorem root_comps (fs : FS) (lim : Nat) (p : Path) :
    (canonicalizeOrNormalize fs lim p).comps = (rootOf fs lim p).map .name := by
  unfold canonicalizeOrNormalize canonicalize rootOf
  cases resolve fs lim true p with
  | «at» l n => simp [Path.ofLoc]
  | _ => simp [normalize_lexical]

theorem prefix_names {a b : List Name} (h : a.map Comp.name <+: b.map .name) : a <+: b := by
  obtain ⟨t, ht⟩ := h
  obtain ⟨l1, l2, rfl, h1, _⟩ := List.map_eq_append_iff.1 ht.symm
  have : l1 = a := List.map_inj_right (f := Comp.name) (by intro x y h; injection h) |>.1 h1
  exact this ▸ List.prefix_append _ _

theorem within_iff {e : Env} {fs : FS} {m : Loc} {sl : Bool}
    (h : withinRoots fs e.lim e.cwd e.skills { abs := true, comps := m.map .name, slash := sl } = true) :
    Inside e fs m := by
  unfold withinRoots Path.startsWith at h
  simp only [Bool.or_eq_true, Bool.and_eq_true, List.isPrefixOf_iff_prefix, root_comps] at h
  exact h.imp (fun h => prefix_names h.2) (fun h => prefix_names h.2)

/-- The two outcomes of resolving a request. -/
theorem resolveTool_cases {e : Env} {fs : FS} (h0 : fs [] = some .dir) {s : List Char} {r : Path}
    (hsh : ∀ p, e.absolute s = some p → Shallow fs e.lim p.comps) (h : resolveToolPath e fs s = some r) :
    (∃ l n, r = Path.ofLoc l ∧ Inside e fs l ∧ Dirs fs l.dropLast ∧ fs l = some n ∧ (∀ a t, n ≠ .link a t)) ∨
    (∃ l t ts n, r = { abs := true, comps := (l ++ t :: ts).map .name, slash := true } ∧
      Inside e fs (l ++ t :: ts) ∧ Dirs fs l.dropLast ∧ fs l = some n ∧ (∀ a t, n ≠ .link a t) ∧
      (∀ x, walk fs true e.lim [] ((l ++ [t]).map .name) ≠ .at x .dir)) := by
  unfold resolveToolPath at h
  cases ha : e.absolute s with
  | none => rw [ha] at h; simp at h
  | some p =>
    rw [ha] at h
    simp only at h
    by_cases he : exists? fs e.lim p = true
    · rw [if_pos he] at h
      have hR := resolve_reached h0 e.lim p
      unfold canonicalize at h
      cases hr : resolve fs e.lim true p with
      | «at» l n =>
        rw [hr] at h hR
        simp only [Option.ite_none_right_eq_some, Option.some.injEq] at h
        obtain ⟨hw, rfl⟩ := h
        exact .inl ⟨l, n, rfl, within_iff hw, hR.1, hR.2.1, hR.2.2 rfl⟩
      | _ => rw [hr] at h; simp at h
    · have he' : exists? fs e.lim p = false := by simpa using he
      rw [if_neg he] at h
      cases hr : resolveWithExistingAncestor fs e.lim p with
      | none => rw [hr] at h; simp at h
      | some r' =>
        rw [hr] at h
        simp only [Option.ite_none_right_eq_some, Option.some.injEq] at h
        obtain ⟨hw, rfl⟩ := h
        obtain ⟨l, t, ts, n, rfl, h1, h2, h3, h4⟩ := resolved_missing h0 (hsh p ha) he' hr
        exact .inr ⟨l, t, ts, n, rfl, within_iff hw, h1, h2, h3, h4⟩

theorem resolve_loc {fs : FS} {lim : Nat} {l : Loc} {n : Node} (hd : Dirs fs l.dropLast) (hl : fs l = some n)
    (hn : ∀ a t, n ≠ .link a t) (f : Bool) : resolve fs lim f (Path.ofLoc l) = .at l n := by
  simp only [resolve, Path.ofLoc]
  exact walk_loc hd hl hn

/-- Where an accepted request leads, it leads inside. -/
theorem accepted_inside {e : Env} {fs : FS} (h0 : fs [] = some .dir) {s : List Char} {r : Path}
    (hsh : ∀ p, e.absolute s = some p → Shallow fs e.lim p.comps) (h : resolveToolPath e fs s = some r)
    {l : Loc} {n : Node} (hl : resolve fs e.lim true r = .at l n) : Inside e fs l := by
  rcases resolveTool_cases h0 hsh h with ⟨l', n', rfl, hi, hd, hl', hn⟩ | ⟨l', t, ts, n', rfl, hi, hd, hl', hn, hx⟩
  · rw [resolve_loc hd hl' hn] at hl
    injection hl with h1 h2
    exact h1 ▸ hi
  · exact absurd hl (unused_resolve h0 hx _ _)

/-! ### C31 -/

/-- **C31, reading.** If no initial part of the requested path meets more links than the system
follows, a file whose contents are returned lies inside the workspace or the skills directory,
whatever links exist, and the contents are those of that file.  Missing from the full property:
requests that exceed the limit of links, see `C31_links_violated`. -/
theorem C31_read_partial (e : Env) (fs : FS) (h0 : fs [] = some .dir) (s : List Char)
    (hsh : ∀ p, e.absolute s = some p → Shallow fs e.lim p.comps) (l : Loc) (d : List Char)
    (h : readTool e fs s = some (l, d)) : Inside e fs l ∧ fs l = some (.file d) := by
  unfold readTool at h
  split at h
  · cases h
  · cases hr : resolveToolPath e fs s with
    | none => rw [hr] at h; simp at h
    | some r =>
      rw [hr] at h
      simp only at h
      split at h
      · cases h
      · unfold readFile at h
        have hR := resolve_reached h0 e.lim r
        cases hx : resolve fs e.lim true r with
        | «at» l' n =>
          rw [hx] at h hR
          cases n with
          | file d' =>
            simp at h
            obtain ⟨rfl, rfl⟩ := h
            exact ⟨accepted_inside h0 hsh hr hx, hR.2.1⟩
          | _ => simp at h
        | _ => rw [hx] at h; simp at h

/-- **C31, listing and searching.** Under the same condition the directory listed, and the place
from which the search descends, lie inside. -/
theorem C31_list_partial (e : Env) (fs : FS) (h0 : fs [] = some .dir) (s : List Char)
    (hsh : ∀ p, e.absolute s = some p → Shallow fs e.lim p.comps) (l : Loc) :
    (lsTool e fs s = some l → Inside e fs l) ∧ (searchTool e fs s = some l → Inside e fs l) := by
  constructor
  · intro h
    unfold lsTool at h
    cases hr : resolveToolPath e fs s with
    | none => rw [hr] at h; simp at h
    | some r =>
      rw [hr] at h
      simp only at h
      split_ifs at h
      unfold readDir at h
      cases hx : resolve fs e.lim true r with
      | «at» l' n =>
        rw [hx] at h
        cases n with
        | dir => simp at h; exact h ▸ accepted_inside h0 hsh hr hx
        | _ => simp at h
      | _ => rw [hx] at h; simp at h
  · intro h
    unfold searchTool at h
    cases hr : resolveToolPath e fs s with
    | none => rw [hr] at h; simp at h
    | some r =>
      rw [hr] at h
      simp only at h
      cases hx : resolve fs e.lim true r with
      | «at» l' n => rw [hx] at h; simp at h; exact h ▸ accepted_inside h0 hsh hr hx
      | _ => rw [hx] at h; simp at h

/-! ### Making directories -/

theorem set_ne {fs : FS} {l x : Loc} {n : Option Node} (h : fs.set l n x ≠ fs x) : x = l ∧ fs.set l n x = n := by
  unfold FS.set at h ⊢
  split at h
  · next e => exact ⟨e, by rw [if_pos e]⟩
  · exact absurd rfl h

/-- Over a stretch without links, the missing entry is the one named. -/
theorem walkStep_missing {fs : FS} {f : Bool} {next : Loc → List Comp → Res} (ns : List Name) :
    ∀ (l d : Loc) (m : Name), (∀ j, 0 < j → ∀ a t, fs (l ++ ns.take j) ≠ some (.link a t)) →
      walkStep fs f next l (ns.map .name) = .missing d m → d ++ [m] = l ++ ns := by
  induction ns with
  | nil =>
    intro l d m _ h
    simp only [List.map_nil, walkStep] at h
    split at h <;> cases h
  | cons n ns ih =>
    intro l d m hj h
    simp only [List.map_cons, walkStep] at h
    have h1 := hj 1 (by omega)
    simp only [List.take_succ_cons, List.take_zero] at h1
    cases hf : fs (l ++ [n]) with
    | none =>
      rw [hf] at h
      simp only at h
      split at h
      · next he =>
        have : ns = [] := by simpa using he
        subst this
        injection h with h1 h2
        rw [h1, h2]
      · cases h
    | some nd =>
      rw [hf] at h
      cases nd with
      | file x => simp only at h; split at h <;> cases h
      | link a t => exact absurd hf (h1 a t)
      | dir =>
        have := ih (l ++ [n]) d m (by
          intro j hj0 a t
          have := hj (j + 1) (by omega) a t
          simpa using this) h
        simpa using this

/-- Making the directories after a directory, the first of which is missing: only these are made. -/
theorem createDirAll_missing {lim : Nat} {l : Loc} {ns : List Name} {fs : FS}
    (hnone : ∀ j, 0 < j → j ≤ ns.length → fs (l ++ ns.take j) = none) (hd : Dirs fs l) (fuel : Nat) :
    ∀ (k : Nat) (p : Path), k ≤ ns.length → p.comps = (l ++ ns.take k).map .name →
      ∀ x, (createDirAll fs lim fuel p).1 x ≠ fs x →
        (createDirAll fs lim fuel p).1 x = some .dir ∧ ∃ j, 0 < j ∧ j ≤ k ∧ x = l ++ ns.take j := by
  induction fuel with
  | zero => intro k p _ _ x hx; exact absurd rfl hx
  | succ fuel ih =>
    intro k p hk hp x hx
    -- `mkdir` on a file system that differs from `fs` only by such directories
    have key : ∀ fs1 : FS, (∀ x, fs1 x ≠ fs x → fs1 x = some .dir ∧ ∃ j, 0 < j ∧ j ≤ k ∧ x = l ++ ns.take j) →
        ∀ fs2, mkdir fs1 lim p = .ok fs2 → ∀ x, fs2 x ≠ fs x →
          fs2 x = some .dir ∧ ∃ j, 0 < j ∧ j ≤ k ∧ x = l ++ ns.take j := by
      intro fs1 h1 fs2 hmk x hx
      have hd1 : Dirs fs1 l := by
        intro q hq
        by_cases e : fs1 q = fs q
        · rw [e]; exact hd q hq
        · exact (h1 q e).1
      have hnl : ∀ j, 0 < j → ∀ a t, fs1 (l ++ (ns.take k).take j) ≠ some (.link a t) := by
        intro j hj a t e
        rw [List.take_take] at e
        by_cases e' : fs1 (l ++ ns.take (min j k)) = fs (l ++ ns.take (min j k))
        · rw [e'] at e
          by_cases hk0 : k = 0
          · subst hk0
            simp only [Nat.min_zero, List.take_zero, List.append_nil, hd.self] at e
            cases e
          · rw [hnone _ (by omega) (by omega)] at e; cases e
        · rw [(h1 _ e').1] at e; cases e
      unfold mkdir at hmk
      rw [hp, List.map_append, walk_dirs [] l _ (by simpa using hd1)] at hmk
      obtain ⟨next, en⟩ := walk_eq fs1 false lim
      rw [en] at hmk
      cases hw : walkStep fs1 false next ([] ++ l) ((ns.take k).map .name) with
      | missing d m =>
        rw [hw] at hmk
        simp only [Except.ok.injEq] at hmk
        have hdm := walkStep_missing (ns.take k) _ _ _ (by simpa using hnl) hw
        simp only [List.nil_append] at hdm
        have hk0 : k ≠ 0 := by
          rintro rfl
          simp only [List.take_zero, List.map_nil, walkStep, List.nil_append, hd1.self] at hw
          cases hw
        rw [hdm] at hmk
        subst hmk
        by_cases e : fs1.set (l ++ ns.take k) (some .dir) x = fs1 x
        · rw [e] at hx ⊢; exact h1 x hx
        · obtain ⟨rfl, e2⟩ := set_ne e
          exact ⟨e2, k, by omega, Nat.le_refl _, rfl⟩
      | _ => rw [hw] at hmk; cases hmk
    have base : ∀ x, fs x ≠ fs x → fs x = some .dir ∧ ∃ j, 0 < j ∧ j ≤ k ∧ x = l ++ ns.take j :=
      fun x h => absurd rfl h
    rw [createDirAll] at hx ⊢
    cases hm : mkdir fs lim p with
    | ok fs1 =>
      rw [hm] at hx
      simp only at hx ⊢
      exact key fs base fs1 hm x hx
    | error b =>
      rw [hm] at hx
      cases b with
      | false => exact absurd rfl hx
      | true =>
        simp only at hx ⊢
        cases hpar : p.parent with
        | none => rw [hpar] at hx; exact absurd rfl hx
        | some q =>
          rw [hpar] at hx
          simp only at hx ⊢
          have hk0 : k ≠ 0 := by
            rintro rfl
            unfold mkdir at hm
            rw [hp] at hm
            simp only [List.take_zero, List.append_nil] at hm
            rw [walk_loc hd.dropLast hd.self (by simp)] at hm
            simp at hm
          have hq : q.comps = (l ++ ns.take (k - 1)).map .name := by
            unfold Path.parent at hpar
            split at hpar
            · cases hpar
            · simp only [Option.some.injEq] at hpar
              rw [← hpar]
              simp only [hp]
              rw [← List.map_dropLast, List.dropLast_append_of_ne_nil (by
                intro e; rw [List.take_eq_nil_iff] at e
                rcases e with e | e
                · exact hk0 e
                · subst e; simp at hk; exact hk0 hk)]
              rw [List.dropLast_eq_take, List.length_take, List.take_take]
              congr 3; omega
          have hih := ih (k - 1) q (by omega) hq
          cases hc : createDirAll fs lim fuel q with
          | mk fs1 b =>
            rw [hc] at hx hih
            have h1 : ∀ x, fs1 x ≠ fs x → fs1 x = some .dir ∧ ∃ j, 0 < j ∧ j ≤ k ∧ x = l ++ ns.take j := by
              intro x hx
              obtain ⟨a, j, hj, hjk, e⟩ := hih x hx
              exact ⟨a, j, hj, by omega, e⟩
            cases b with
            | false => exact h1 x hx
            | true =>
              simp only at hx ⊢
              cases hm2 : mkdir fs1 lim p with
              | ok fs2 => rw [hm2] at hx; exact key fs1 h1 fs2 hm2 x hx
              | error b => rw [hm2] at hx; exact h1 x hx

/-- If the first of the further names exists without leading to a directory, nothing is made. -/
theorem createDirAll_blocked {lim : Nat} {l : Loc} {fs : FS} (h0 : fs [] = some .dir) {t : Name} (hex : fs (l ++ [t]) ≠ none)
    (hl : walk fs false lim [] (l.map .name) = .at l .dir) (hdl : Dirs fs l)
    (hx : ∀ x, walk fs true lim [] ((l ++ [t]).map .name) ≠ .at x .dir) (fuel : Nat) :
    ∀ (ns : List Name) (p : Path), (ns = [] ∨ ∃ ts, ns = t :: ts) → p.comps = (l ++ ns).map .name →
      (createDirAll fs lim fuel p).1 = fs := by
  induction fuel with
  | zero => intro ns p _ _; rfl
  | succ fuel ih =>
    intro ns p hns hp
    have hmk : ∀ fs1, mkdir fs lim p ≠ .ok fs1 := by
      intro fs1 hmk
      unfold mkdir at hmk
      cases hw : walk fs false lim [] p.comps with
      | missing d m =>
        rcases hns with rfl | ⟨ts, rfl⟩
        · rw [hp, List.append_nil, hl] at hw; cases hw
        · rw [hp] at hw
          cases ts with
          | nil =>
            rw [List.map_append, walk_dirs [] l _ (by simpa using hdl)] at hw
            obtain ⟨next, en⟩ := walk_eq fs false lim
            rw [en] at hw
            simp only [List.nil_append, List.map_cons, List.map_nil, walkStep] at hw
            cases hf : fs (l ++ [t]) with
            | none => exact hex hf
            | some nd =>
              rw [hf] at hw
              cases nd with
              | file _ => simp at hw
              | link _ _ => simp at hw
              | dir => simp [hf] at hw
          | cons u ts =>
            have e : (l ++ t :: u :: ts).map Comp.name = (l ++ [t]).map .name ++ (u :: ts).map .name := by simp
            rw [e] at hw
            obtain ⟨l', hl'⟩ := walk_append_inv (f := false) (by simp) lim [] _ (dirs_nil h0) h0
              ⟨d, .dir, .inr ⟨m, hw⟩⟩
            exact hx l' hl'
      | _ => rw [hw] at hmk; cases hmk
    rw [createDirAll]
    cases hm : mkdir fs lim p with
    | ok fs1 => exact absurd hm (hmk fs1)
    | error b =>
      cases b with
      | false => rfl
      | true =>
        simp only
        cases hpar : p.parent with
        | none => rfl
        | some q =>
          simp only
          rcases hns with rfl | ⟨ts, rfl⟩
          · unfold mkdir at hm
            rw [hp, List.append_nil, hl] at hm
            simp at hm
          · have hq : q.comps = (l ++ (t :: ts).dropLast).map .name := by
              unfold Path.parent at hpar
              split at hpar
              · cases hpar
              · simp only [Option.some.injEq] at hpar
                rw [← hpar]
                simp only [hp]
                rw [← List.map_dropLast, List.dropLast_append_of_ne_nil (by simp)]
            have := ih _ q (by
              cases ts with
              | nil => exact .inl rfl
              | cons u ts => exact .inr ⟨_, List.dropLast_cons_cons⟩) hq
            cases hc : createDirAll fs lim fuel q with
            | mk fs1 b =>
              rw [hc] at this
              simp only at this
              subst this
              cases b with
              | false => rfl
              | true => simp only [hm]

/-- What making the parent directories of an accepted request changes. -/
theorem parents_made {e : Env} {fs : FS} (hwf : WF fs) {s : List Char} {r q : Path}
    (hsh : ∀ p, e.absolute s = some p → Shallow fs e.lim p.comps) (h : resolveToolPath e fs s = some r)
    (hq : r.parent = some q) (x : Loc) (hx : (createDirs fs e.lim q).1 x ≠ fs x) :
    fs x = none ∧ (createDirs fs e.lim q).1 x = some .dir ∧ r.slash = true ∧ ∃ y, Inside e fs y ∧ x <+: y := by
  have h0 := hwf.root
  unfold createDirs at hx ⊢
  have hqc : q.comps = r.comps.dropLast := by
    unfold Path.parent at hq
    split at hq
    · cases hq
    · simp only [Option.some.injEq] at hq; rw [← hq]
  rcases resolveTool_cases h0 hsh h with ⟨l, n, rfl, hi, hd, hl, hn⟩ | ⟨l, t, ts, n, rfl, hi, hd, hl, hn, hxx⟩
  · -- an existing path: its parent is a directory
    exfalso
    apply hx
    have hw : walk fs false e.lim [] q.comps = .at l.dropLast .dir := by
      rw [hqc]
      simp only [Path.ofLoc, ← List.map_dropLast]
      exact walk_loc hd.dropLast hd.self (by simp)
    rw [createDirAll]
    simp [mkdir, hw]
  · have hqc' : q.comps = (l ++ (t :: ts).dropLast).map .name := by
      rw [hqc]; simp only
      rw [← List.map_dropLast, List.dropLast_append_of_ne_nil (by simp)]
    by_cases hnd : n = .dir
    · subst hnd
      have hdl := hwf.dirs l hl
      by_cases hft : fs (l ++ [t]) = none
      · have hnone : ∀ j, 0 < j → j ≤ (t :: ts).length → fs (l ++ (t :: ts).take j) = none := by
          intro j hj _
          obtain ⟨j, rfl⟩ : ∃ i, j = i + 1 := ⟨j - 1, by omega⟩
          have := hwf.none_below hft (ts.take j)
          simpa using this
        have hdrop : (t :: ts).dropLast = (t :: ts).take ((t :: ts).length - 1) := List.dropLast_eq_take
        rw [hdrop] at hqc'
        obtain ⟨h1, j, hj, hjk, rfl⟩ := createDirAll_missing hnone hdl _ _ q (by simp) hqc' x hx
        refine ⟨hnone j hj (by omega), h1, rfl, _, hi, ?_⟩
        exact (List.prefix_append_right_inj l).2 (List.take_prefix j _)
      · exfalso
        apply hx
        have hbl := createDirAll_blocked (lim := e.lim) h0 hft (walk_loc hd hl (by simp)) hdl hxx
          (q.comps.length + 1) _ q
          (by
            cases ts with
            | nil => exact .inl rfl
            | cons u ts => exact .inr ⟨_, List.dropLast_cons_cons⟩) hqc'
        rw [hbl]
    · -- the ancestor is a file: nothing can be made below it
      exfalso
      have hfile : ∃ d, n = .file d := by
        cases n with
        | file d => exact ⟨d, rfl⟩
        | dir => exact absurd rfl hnd
        | link a t => exact absurd rfl (hn a t)
      obtain ⟨d, rfl⟩ := hfile
      apply hx
      have hw : walk fs false e.lim [] q.comps = .at l (.file d) ∨
          walk fs false e.lim [] q.comps = .notDir := by
        rw [hqc']
        cases ts with
        | nil => left; simpa using walk_loc (lim := e.lim) (follow := false) hd hl (by simp)
        | cons u ts =>
          right
          have hlne : l ≠ [] := by rintro rfl; rw [h0] at hl; cases hl
          obtain ⟨l0, a, rfl⟩ := (List.eq_nil_or_concat l).resolve_left hlne
          rw [List.concat_eq_append] at hd hl ⊢
          rw [List.dropLast_concat] at hd
          rw [List.append_assoc, List.map_append, walk_dirs [] l0 _ (by simpa using hd)]
          obtain ⟨next, en⟩ := walk_eq fs false e.lim
          rw [en]
          simp [walkStep, hl]
      rw [createDirAll]
      rcases hw with hw | hw <;> simp [mkdir, hw]

/-- **C31, writing.** Under the same condition the `edit` tool changes the file system only inside
the workspace and the skills directory, except that it may make the missing directories above
them. -/
theorem C31_edit_partial (e : Env) (fs : FS) (hwf : WF fs) (s contents : List Char) (yes : Bool)
    (hsh : ∀ p, e.absolute s = some p → Shallow fs e.lim p.comps) (x : Loc)
    (hx : (editTool e fs s contents yes).1 x ≠ fs x) :
    Inside e fs x ∨
    (fs x = none ∧ (editTool e fs s contents yes).1 x = some .dir ∧ ∃ y, Inside e fs y ∧ x <+: y) := by
  have h0 := hwf.root
  unfold editTool at hx ⊢
  split at hx
  · exact absurd rfl hx
  · next htr =>
    rw [if_neg htr]
    cases hr : resolveToolPath e fs s with
    | none => rw [hr] at hx; exact absurd rfl hx
    | some r =>
      rw [hr] at hx
      simp only at hx ⊢
      split at hx
      · exact absurd rfl hx
      · next hig =>
        rw [if_neg hig]
        -- the parents
        have hpar : ∀ fs1 b, makeParents fs e.lim r = (fs1, b) → ∀ x, fs1 x ≠ fs x →
            fs x = none ∧ fs1 x = some .dir ∧ r.slash = true ∧ ∃ y, Inside e fs y ∧ x <+: y := by
          intro fs1 b hp x hx
          unfold makeParents at hp
          cases hq : r.parent with
          | none =>
            rw [hq] at hp
            simp at hp
            exact absurd (by rw [hp.1]) hx
          | some q =>
            rw [hq] at hp
            simp only at hp
            have := parents_made hwf hsh hr hq x (by rw [hp]; exact hx)
            rw [hp] at this
            exact this
        cases hp : makeParents fs e.lim r with
        | mk fs1 b =>
          rw [hp] at hx
          have h1 := hpar fs1 b hp
          cases b with
          | false =>
            obtain ⟨a, b, _, c⟩ := h1 x hx
            exact .inr ⟨a, b, c⟩
          | true =>
            simp only at hx ⊢
            split at hx
            · next hy =>
              rw [if_pos hy]
              obtain ⟨a, b, _, c⟩ := h1 x hx
              exact .inr ⟨a, b, c⟩
            · next hy =>
              rw [if_neg hy]
              cases hw : writeFile fs1 e.lim r contents with
              | none =>
                rw [hw] at hx
                obtain ⟨a, b, _, c⟩ := h1 x hx
                exact .inr ⟨a, b, c⟩
              | some fs2 =>
                rw [hw] at hx
                simp only at hx ⊢
                -- something was written: the path had no trailing slash, so it existed
                have hsl : r.slash = false := by
                  unfold writeFile at hw
                  cases hs : r.slash
                  · rfl
                  · rw [hs] at hw; cases hw
                have hfs : fs1 = fs := by
                  funext y
                  by_contra hne
                  have := (h1 y hne).2.2.1
                  rw [hsl] at this; cases this
                subst hfs
                rcases resolveTool_cases h0 hsh hr with
                  ⟨l, n, rfl, hi, hd, hl, hn⟩ | ⟨l, t, ts, n, rfl, _⟩
                · unfold writeFile at hw
                  rw [resolve_loc hd hl hn] at hw
                  simp only [Path.ofLoc] at hw
                  cases n with
                  | file d =>
                    simp at hw
                    rw [← hw] at hx
                    obtain ⟨rfl, _⟩ := set_ne hx
                    exact .inl hi
                  | _ => simp at hw
                · cases hsl

/-! ### Too many links -/

/-- A workspace `/ws` with a link `a` to itself and a link `out` to `/etc`, which holds a file. -/
def loopFs : FS := FS.ofList [([c!"ws"], .dir), ([c!"ws", c!"a"], .link false []),
  ([c!"ws", c!"out"], .link true [.name c!"etc"]), ([c!"etc"], .dir),
  ([c!"etc", c!"passwd"], .file c!"root")]

/-- The surroundings: no expansion, nothing ignored, 40 links as on Linux. -/
def loopEnv : Env := { expand := some, cwd := Path.parse c!"/ws", skills := Path.parse c!"/skills",
                       ignored := fun _ _ => false, lim := 40 }

/-- `a/a/…/a/` (40 times) followed by `rest`. -/
def deep (rest : List Char) : List Char := (List.replicate 40 c!"a/").flatten ++ rest

/-- **C31 fails** for requests that meet more links than the system follows: the resolution of the
request fails, its last existing ancestor is the workspace, and the remaining names – a link that
leads out – are taken to be new.  `ls` then lists `/etc`, `search` descends into it, and `edit`
makes a directory in it, before asking. -/
theorem C31_links_violated :
    ¬ (∀ (e : Env) (fs : FS) (s : List Char) (l : Loc), fs [] = some .dir →
        (lsTool e fs s = some l → Inside e fs l)) ∧
    ¬ (∀ (e : Env) (fs : FS) (s : List Char) (l : Loc), fs [] = some .dir →
        (searchTool e fs s = some l → Inside e fs l)) ∧
    ¬ (∀ (e : Env) (fs : FS) (s c : List Char) (yes : Bool) (x : Loc), fs [] = some .dir →
        (editTool e fs s c yes).1 x ≠ fs x → Inside e fs x ∨ ∃ y, Inside e fs y ∧ x <+: y) := by
  have hroots : ∀ l, Inside loopEnv loopFs l → [c!"ws"] <+: l ∨ [c!"skills"] <+: l := by
    intro l h
    have h1 : rootOf loopFs loopEnv.lim loopEnv.cwd = [c!"ws"] := by decide +kernel
    have h2 : rootOf loopFs loopEnv.lim loopEnv.skills = [c!"skills"] := by decide +kernel
    unfold Inside at h
    rw [h1, h2] at h
    exact h
  refine ⟨?_, ?_, ?_⟩
  · intro h
    have := hroots _ (h loopEnv loopFs (deep c!"out") [c!"etc"] rfl (by decide +kernel))
    revert this; decide
  · intro h
    have := hroots _ (h loopEnv loopFs (deep c!"out") [c!"etc"] rfl (by decide +kernel))
    revert this; decide
  · intro h
    have := h loopEnv loopFs (deep c!"out/new/f") [] false [c!"etc", c!"new"] rfl (by decide +kernel)
    rcases this with h' | ⟨y, hy, hp⟩
    · have := hroots _ h'
      revert this; decide
    · rcases hroots y hy with ⟨t, rfl⟩ | ⟨t, rfl⟩
      · obtain ⟨u, hu⟩ := hp; simp at hu
      · obtain ⟨u, hu⟩ := hp; simp at hu

/-- The workspace of the examples: a file, a link to it, a link out, a dangling link. -/
def wsFs : FS := FS.ofList [([c!"ws"], .dir), ([c!"ws", c!"f"], .file c!"old"),
  ([c!"ws", c!"l"], .link false [.name c!"f"]), ([c!"ws", c!"out"], .link true [.name c!"etc"]),
  ([c!"ws", c!"dangling"], .link true [.name c!"etc", .name c!"new"]), ([c!"etc"], .dir),
  ([c!"etc", c!"passwd"], .file c!"root")]

theorem wsFs_wf : WF wsFs := by
  refine ⟨rfl, ?_⟩
  intro l n h
  unfold wsFs FS.ofList at h ⊢
  rw [if_neg (by simp)] at h
  by_cases hl : l = []
  · rw [if_pos hl]
  · rw [if_neg hl]
    simp only [List.lookup, beq_iff_eq] at h
    have key : ∀ (m : Loc), (l ++ [n] == m) = true → l = m.dropLast := by
      intro m hm
      have := beq_iff_eq.1 hm
      rw [← this]; simp
    repeat' split at h
    all_goals first
      | (rename_i hm; have := key _ hm; subst this; first | exact absurd rfl hl | rfl)
      | exact absurd rfl h

/-- Requests that meet the condition: through a link inside, through a link out (refused), to a
dangling link (accepted by the check, but unusable). -/
example : Shallow wsFs 40 (Path.parse c!"/ws/l").comps := by
  intro k
  match k with
  | 0 | 1 => decide
  | k + 2 =>
    have : (Path.parse c!"/ws/l").comps.take (k + 2) = (Path.parse c!"/ws/l").comps :=
      List.take_of_length_le (by simp [Path.parse, splitSlash, compOf])
    rw [this]; decide

example : readTool loopEnv wsFs c!"l" = some ([c!"ws", c!"f"], c!"old") := by decide +kernel
example : readTool loopEnv wsFs c!"out/passwd" = none := by decide +kernel
example : resolveToolPath loopEnv wsFs c!"dangling" = some (Path.parse c!"/ws/dangling/") := by decide +kernel
example : (editTool loopEnv wsFs c!"dangling" c!"x" true).2 = .error := by decide +kernel

/-! ### C59: creating a file -/

/-- **C59 fails, in general.** Whatever the workspace, the contents and the answer: if the requested
path does not exist, the `edit` tool never writes (the resolved path ends in a separator). -/
theorem C59_create_violated (e : Env) (fs : FS) (s contents : List Char) (yes : Bool) (p : Path)
    (hp : e.absolute s = some p) (hne : exists? fs e.lim p = false) :
    (editTool e fs s contents yes).2 ≠ .written := by
  unfold editTool
  split
  · simp
  · cases hr : resolveToolPath e fs s with
    | none => simp
    | some r =>
      simp only
      split
      · simp
      · -- the resolved path ends in a separator
        have hsl : r.slash = true := by
          unfold resolveToolPath at hr
          rw [hp] at hr
          simp only [hne, Bool.false_eq_true, if_false] at hr
          cases hra : resolveWithExistingAncestor fs e.lim p with
          | none => rw [hra] at hr; simp at hr
          | some r' =>
            rw [hra] at hr
            simp only [Option.ite_none_right_eq_some, Option.some.injEq] at hr
            obtain ⟨_, rfl⟩ := hr
            unfold resolveWithExistingAncestor at hra
            rw [ancestorLoop, if_neg (by simp [hne])] at hra
            cases hfn : p.fileName with
            | none => rw [hfn] at hra; simp at hra
            | some m =>
              rw [hfn] at hra
              simp only at hra
              have hcs := comps_snoc hfn
              have hemp : p.comps.isEmpty = false := by rw [hcs]; simp
              simp only [Path.parent, hemp] at hra
              have e1 : ({ abs := false, comps := [.name m], slash := false } : Path).join emptyPath = sfx [m] := rfl
              rw [e1] at hra
              obtain ⟨pre, t, ts, l, n, _, _, _, h4⟩ := ancestorLoop_spec _ _ m [] r' rfl (by
                intro l hl
                dsimp only at hl
                rw [← hcs] at hl
                have := exists_false hne
                simp only [resolve] at this
                split at this
                · exact this l .dir (by rw [hl]; rfl)
                · exact this l .dir hl) hra
              rw [h4]
        cases makeParents fs e.lim r with
        | mk fs1 b =>
          cases b with
          | false => simp
          | true =>
            simp only
            split
            · simp
            · simp [writeFile, hsl]

/-- A new file in the workspace: the user agrees, nothing is written. -/
example : (editTool loopEnv wsFs c!"notes.txt" c!"hello" true).2 = .error ∧
    loopEnv.absolute c!"notes.txt" = some (Path.parse c!"/ws/notes.txt") := by decide +kernel

/-- A request that leads to something inside is accepted, as the place it leads to. -/
theorem resolveTool_existing {e : Env} {fs : FS} {s : List Char} {p : Path} {l : Loc} {n : Node}
    (hp : e.absolute s = some p) (hl : resolve fs e.lim true p = .at l n)
    (hin : [rootOf fs e.lim e.cwd, rootOf fs e.lim e.skills].any (·.isPrefixOf l) = true)
    (habs : e.cwd.abs = true ∧ e.skills.abs = true) : resolveToolPath e fs s = some (Path.ofLoc l) := by
  unfold resolveToolPath
  rw [hp]
  simp only [exists?, canonicalize, hl, if_true]
  rw [if_pos]
  unfold withinRoots Path.startsWith
  have ha : ∀ q : Path, q.abs = true → (canonicalizeOrNormalize fs e.lim q).abs = true := by
    intro q hq
    unfold canonicalizeOrNormalize canonicalize
    split <;> simp [Path.ofLoc, normalizePath, hq]
  have hpre : ∀ r : Loc, r.isPrefixOf l = true → (r.map Comp.name).isPrefixOf (Path.ofLoc l).comps = true := by
    intro r hr
    rw [List.isPrefixOf_iff_prefix] at hr ⊢
    exact hr.map _
  simp only [List.any_cons, List.any_nil, Bool.or_false, Bool.or_eq_true] at hin
  simp only [root_comps, ha _ habs.1, ha _ habs.2, Bool.or_eq_true, Bool.and_eq_true]
  exact hin.imp (fun h => ⟨rfl, hpre _ h⟩) (fun h => ⟨rfl, hpre _ h⟩)

/-- **C31, the tools are usable.** A request that leads to a file inside the allowed directories and
is not ignored returns the contents of that file. -/
theorem C31_usable (e : Env) (fs : FS) (h0 : fs [] = some .dir) (s d : List Char) (p : Path) (l : Loc)
    (htr : trim s ≠ []) (hp : e.absolute s = some p) (hl : resolve fs e.lim true p = .at l (.file d))
    (hin : [rootOf fs e.lim e.cwd, rootOf fs e.lim e.skills].any (·.isPrefixOf l) = true)
    (habs : e.cwd.abs = true ∧ e.skills.abs = true) (hig : e.ignored fs (Path.ofLoc l) = false) :
    readTool e fs s = some (l, d) := by
  have hR := resolve_reached h0 e.lim p
  rw [hl] at hR
  unfold readTool readFile
  rw [if_neg (by simpa [List.isEmpty_iff] using htr), resolveTool_existing hp hl hin habs]
  simp only [hig]
  rw [resolve_loc hR.1 hR.2.1 (by simp)]
  rfl

/-- **C31, listing is usable.** -/
theorem C31_list_usable (e : Env) (fs : FS) (h0 : fs [] = some .dir) (s : List Char) (p : Path) (l : Loc)
    (hp : e.absolute s = some p) (hl : resolve fs e.lim true p = .at l .dir)
    (hin : [rootOf fs e.lim e.cwd, rootOf fs e.lim e.skills].any (·.isPrefixOf l) = true)
    (habs : e.cwd.abs = true ∧ e.skills.abs = true) (hig : e.ignored fs (Path.ofLoc l) = false) :
    lsTool e fs s = some l ∧ searchTool e fs s = some l := by
  have hR := resolve_reached h0 e.lim p
  rw [hl] at hR
  have hloc := resolve_loc (lim := e.lim) hR.1 hR.2.1 (by simp) true
  unfold lsTool searchTool readDir
  rw [resolveTool_existing hp hl hin habs]
  simp [hig, hloc, exists?, isDir]

/-- Such requests. -/
example : readTool loopEnv wsFs c!"l" = some ([c!"ws", c!"f"], c!"old") :=
  C31_usable loopEnv wsFs rfl c!"l" c!"old" (Path.parse c!"/ws/l") _ (by decide) (by decide)
    (by decide) (by decide) (by decide) rfl

/-- **C59, overwriting.** For a path that leads to an existing file inside the allowed directories
and is not ignored, agreeing replaces the contents of exactly that file. -/
theorem C59_overwrite_partial (e : Env) (fs : FS) (h0 : fs [] = some .dir) (s contents old : List Char) (p : Path)
    (l : Loc) (htr : trim s ≠ []) (hp : e.absolute s = some p)
    (hl : resolve fs e.lim true p = .at l (.file old))
    (hin : [rootOf fs e.lim e.cwd, rootOf fs e.lim e.skills].any (·.isPrefixOf l) = true)
    (habs : e.cwd.abs = true ∧ e.skills.abs = true)
    (hig : e.ignored fs (Path.ofLoc l) = false) :
    editTool e fs s contents true = (fs.set l (some (.file contents)), .written) := by
  have hR := resolve_reached h0 e.lim p
  rw [hl] at hR
  obtain ⟨hd, hfl, _⟩ := hR
  have hres := resolveTool_existing hp hl hin habs
  unfold editTool
  rw [if_neg (by simpa [List.isEmpty_iff] using htr), hres]
  simp only [hig]
  have hmk : makeParents fs e.lim (Path.ofLoc l) = (fs, true) := by
    unfold makeParents Path.parent
    split
    · next h => split at h <;> first | rfl | cases h
    · next q h =>
      split at h
      · cases h
      · simp only [Option.some.injEq] at h
        subst h
        have hw : ∀ f, walk fs f e.lim [] ((Path.ofLoc l).comps.dropLast) = .at l.dropLast .dir := by
          intro f
          simp only [Path.ofLoc, ← List.map_dropLast]
          exact walk_loc hd.dropLast hd.self (by simp)
        simp [createDirs, createDirAll, mkdir, hw, isDir, resolve]
  rw [hmk]
  simp only [writeFile, resolve_loc hd hfl (by simp)]
  rfl

/-- Such a request, through a link. -/
example : editTool loopEnv wsFs c!"l" c!"new" true = (wsFs.set [c!"ws", c!"f"] (some (.file c!"new")), .written) :=
  C59_overwrite_partial loopEnv wsFs rfl c!"l" c!"new" c!"old" (Path.parse c!"/ws/l") _ (by decide) (by decide)
    (by decide) (by decide) (by decide) rfl

/-! ### C60: declining -/

/-- **C60 fails.** Declining a write leaves the directories made for it. -/
theorem C60_decline_violated :
    ¬ ∀ (e : Env) (fs : FS) (s c : List Char), (editTool e fs s c false).1 = fs := by
  intro h
  have := congrFun (h loopEnv wsFs c!"new/dir/f" []) [c!"ws", c!"new"]
  revert this
  decide +kernel

/-- **C60, the part that holds.** Declining changes no existing entry, and nothing at all if the
request names an existing path.  Missing: the directories made for a new path. -/
theorem C60_decline_partial (e : Env) (fs : FS) (hwf : WF fs) (s c : List Char)
    (hsh : ∀ p, e.absolute s = some p → Shallow fs e.lim p.comps) (x : Loc) :
    (fs x ≠ none → (editTool e fs s c false).1 x = fs x) ∧
    ((∀ p, e.absolute s = some p → exists? fs e.lim p = true) → (editTool e fs s c false).1 x = fs x) := by
  have key : (editTool e fs s c false).1 x ≠ fs x →
      ∃ r, resolveToolPath e fs s = some r ∧ r.slash = true ∧ fs x = none := by
    intro hx
    unfold editTool at hx
    split at hx
    · exact absurd rfl hx
    · cases hr : resolveToolPath e fs s with
      | none => rw [hr] at hx; exact absurd rfl hx
      | some r =>
        rw [hr] at hx
        simp only at hx
        split at hx
        · exact absurd rfl hx
        · refine ⟨r, rfl, ?_⟩
          have hm : (makeParents fs e.lim r).1 x ≠ fs x := by
            cases h : makeParents fs e.lim r with
            | mk fs1 b => rw [h] at hx; cases b <;> simpa using hx
          unfold makeParents at hm
          cases hq : r.parent with
          | none => rw [hq] at hm; exact absurd rfl hm
          | some q =>
            rw [hq] at hm
            have := parents_made hwf hsh hr hq x hm
            exact ⟨this.2.2.1, this.1⟩
  constructor
  · intro hx
    by_contra hne
    obtain ⟨_, _, _, h⟩ := key hne
    exact hx h
  · intro hex
    by_contra hne
    obtain ⟨r, hr, hsl, _⟩ := key hne
    unfold resolveToolPath at hr
    cases ha : e.absolute s with
    | none => rw [ha] at hr; simp at hr
    | some p =>
      rw [ha] at hr
      simp only [hex p ha, if_true] at hr
      unfold canonicalize at hr
      cases hres : resolve fs e.lim true p with
      | «at» l n =>
        rw [hres] at hr
        simp only [Option.ite_none_right_eq_some, Option.some.injEq] at hr
        rw [← hr.2] at hsl
        cases hsl
      | _ => rw [hres] at hr; simp at hr

end Dsh.Fs.Tools
