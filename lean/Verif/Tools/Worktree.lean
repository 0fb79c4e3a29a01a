import Verif.Tools.Git
/-!
# What `gwt` leaves behind (C226)

`dsh-builtin/src/gwt.rs`: the work trees and the place of the shell after `gwt <branch>` and `gwt --pr`,
whatever becomes of the programs it starts.  The options and the arguments of `git` are in
`Verif/Tools/Git.lean`.

Simplified: all work trees lie in one directory, as those made by `gwt` do (gwt.rs:333-345), so that
they are their names there; the shell stands in one of them.  `git worktree add` that fails leaves
nothing behind (git).  Lists of pull requests and texts are left out; what was chosen is a parameter.
-/
namespace Dsh.Worktree
open Dsh.Git (Str sanitize dirName)

/-- The work trees, other things in the same directory, and the work tree the shell stands in. -/
structure St where
  trees : List Str
  others : List Str
  here : Str
deriving DecidableEq

/-- What becomes of the programs: `none` cannot be started, `some false` fails. -/
structure Outcome where
  git : Option Bool := some true
  gh : Option Bool := some true
  /-- The removal of a work tree made in vain. -/
  clean : Bool := true
  /-- The change of directory. -/
  cd : Bool := true
  /-- Whether the editor can be started. -/
  editor : Bool := true

/-- What is asked for; `pr none`: no pull request was chosen, or there is none, or no `gh`. -/
inductive Request where
  | branch (b : Str)
  | pr (n : Option Nat)

/-- The options that matter here. -/
structure Opts where
  cd : Bool := true
  editor : Bool := false

/-- `Path::exists`. -/
def St.there (s : St) (n : Str) : Bool := decide (n ∈ s.trees) || decide (n ∈ s.others)

/-- What follows a new work tree (gwt.rs:64-79, 90-105): the state and the status. -/
def finish (o : Outcome) (p : Opts) (n : Str) (s : St) : St × Nat :=
  if p.cd && !o.cd then (s, 1)
  else
    let s := if p.cd then { s with here := n } else s
    if p.editor && !o.editor then (s, 1) else (s, 0)

/-- The directory for a pull request (gwt.rs:681-683). -/
def prName (project : Str) (n : Nat) : Str := project ++ c!"-pr-" ++ Nat.toDigits 10 n

/-- `add_worktree` and its caller (gwt.rs:58-85, 354-404). -/
def addBranch (o : Outcome) (p : Opts) (b : Str) (s : St) : St × Nat :=
  let n := dirName s.here b
  if s.there n then (s, 1)
  else if o.git = some true then finish o p n { s with trees := n :: s.trees }
  else (s, 1)

/-- `add_worktree_from_pr` and its caller (gwt.rs:86-111, 628-753). -/
def addPr (o : Outcome) (p : Opts) (k : Nat) (s : St) : St × Nat :=
  let n := prName s.here k
  if s.there n then (s, 1)
  else if o.git = some true then
    let s' := { s with trees := n :: s.trees }
    match o.gh with
    | none => (s', 1)
    | some false => (if o.clean then s else s', 1)
    | some true => finish o p n s'
  else (s, 1)

/-- One `gwt`. -/
def run (o : Outcome) (p : Opts) (r : Request) (s : St) : St × Nat :=
  match r with
  | .branch b => addBranch o p b s
  | .pr none => (s, 1)
  | .pr (some k) => addPr o p k s

/-! ## Proofs -/

/-- Nothing that was started fails half-way. -/
def Smooth (o : Outcome) (p : Opts) : Prop :=
  (p.cd = true → o.cd = true) ∧ (p.editor = true → o.editor = true) ∧ o.gh ≠ none ∧ o.clean = true

theorem there_false {s : St} {n : Str} (h : ¬s.there n = true) : n ∉ s.trees ∧ n ∉ s.others := by
  simp [St.there] at h; exact h

theorem finish_cases (o : Outcome) (p : Opts) (n : Str) (s : St) :
    (finish o p n s).1.trees = s.trees ∧ (finish o p n s).1.others = s.others ∧
      ((finish o p n s).1.here = n ∨ (finish o p n s).1.here = s.here) ∧
      ((finish o p n s).2 = 0 → (finish o p n s).1.here = if p.cd then n else s.here) ∧
      (Smooth o p → (finish o p n s).2 = 0) := by
  obtain ⟨cd, ed⟩ := p
  unfold finish Smooth
  cases cd <;> cases ed <;> cases hc : o.cd <;> cases he : o.editor <;> simp

/-- Where the work tree asked for belongs: beside the one the shell stands in, under its name, a dash
and the branch with other signs for special ones, or `pr-` and the number. -/
def wanted (s : St) : Request → Option Str
  | .branch b => some (s.here ++ c!"-" ++ b.map fun c => if c ∈ c!"/\\:*?\"<>|" then '-' else c)
  | .pr none => none
  | .pr (some k) => some (s.here ++ c!"-pr-" ++ Nat.toDigits 10 k)

theorem wanted_branch (s : St) (b : Str) : wanted s (.branch b) = some (dirName s.here b) := by
  simp [wanted, dirName, sanitize]

/-- Everything about one `gwt`. -/
theorem run_cases (o : Outcome) (p : Opts) (r : Request) (s : St) :
    ((run o p r s).1 = s ∧ (run o p r s).2 = 1) ∨
    ∃ n, wanted s r = some n ∧ n ∉ s.trees ∧ n ∉ s.others ∧
      (run o p r s).1.trees = n :: s.trees ∧ (run o p r s).1.others = s.others ∧
      ((run o p r s).1.here = n ∨ (run o p r s).1.here = s.here) ∧
      ((run o p r s).2 = 0 → (run o p r s).1.here = if p.cd then n else s.here) ∧
      (Smooth o p → (run o p r s).2 = 0) := by
  cases r with
  | branch b =>
    show ((addBranch o p b s).1 = s ∧ (addBranch o p b s).2 = 1) ∨ ∃ n, _ ∧ _ ∧ _ ∧
      (addBranch o p b s).1.trees = _ ∧ (addBranch o p b s).1.others = _ ∧
      ((addBranch o p b s).1.here = n ∨ (addBranch o p b s).1.here = _) ∧
      ((addBranch o p b s).2 = 0 → (addBranch o p b s).1.here = _) ∧
      (_ → (addBranch o p b s).2 = 0)
    unfold addBranch
    simp only
    split
    · exact Or.inl ⟨rfl, rfl⟩
    · rename_i ht
      split
      · obtain ⟨a, b', c, d, e⟩ := finish_cases o p (dirName s.here b)
          { s with trees := dirName s.here b :: s.trees }
        exact Or.inr ⟨_, wanted_branch s b, (there_false ht).1, (there_false ht).2, a, b', c, d, e⟩
      · exact Or.inl ⟨rfl, rfl⟩
  | pr k =>
    cases k with
    | none => exact Or.inl ⟨rfl, rfl⟩
    | some k =>
      show ((addPr o p k s).1 = s ∧ (addPr o p k s).2 = 1) ∨ ∃ n, _ ∧ _ ∧ _ ∧
        (addPr o p k s).1.trees = _ ∧ (addPr o p k s).1.others = _ ∧
        ((addPr o p k s).1.here = n ∨ (addPr o p k s).1.here = _) ∧
        ((addPr o p k s).2 = 0 → (addPr o p k s).1.here = _) ∧ (_ → (addPr o p k s).2 = 0)
      unfold addPr
      simp only
      split
      · exact Or.inl ⟨rfl, rfl⟩
      · rename_i ht
        split
        · split
          · rename_i hg
            refine Or.inr ⟨_, rfl, (there_false ht).1, (there_false ht).2, rfl, rfl, Or.inr rfl, ?_, ?_⟩
            · intro h; cases h
            · intro h; exact absurd hg h.2.2.1
          · cases hc : o.clean
            · refine Or.inr ⟨_, rfl, (there_false ht).1, (there_false ht).2, rfl, rfl, Or.inr rfl, ?_, ?_⟩
              · intro h; cases h
              · intro h
                have := h.2.2.2
                rw [hc] at this; cases this
            · exact Or.inl ⟨rfl, rfl⟩
          · obtain ⟨a, b', c, d, e⟩ := finish_cases o p (prName s.here k)
              { s with trees := prName s.here k :: s.trees }
            exact Or.inr ⟨_, rfl, (there_false ht).1, (there_false ht).2, a, b', c, d, e⟩
        · exact Or.inl ⟨rfl, rfl⟩

/-- C226: if `gwt` reports success, there is one new work tree, at the place meant for it, where nothing
was before, and the shell stands in it unless `-n` was given. -/
theorem C226_done_partial (o : Outcome) (p : Opts) (r : Request) (s : St) (h : (run o p r s).2 = 0) :
    ∃ n, wanted s r = some n ∧ n ∉ s.trees ∧ n ∉ s.others ∧
      (run o p r s).1 = { trees := n :: s.trees, others := s.others, here := if p.cd then n else s.here } := by
  rcases run_cases o p r s with ⟨_, h1⟩ | ⟨n, a, b, c, d, e, _, g, _⟩
  · rw [h] at h1; cases h1
  · refine ⟨n, a, b, c, ?_⟩
    cases hs : (run o p r s).1
    rw [hs] at d e g
    simp only at d e g
    simp [d, e, g h]

/-- C226: if it reports a failure, everything is as before.
`_partial`: not if the change of directory, the editor, the start of `gh` or the removal fails
(`C226_failed_violated`). -/
theorem C226_failed_partial (o : Outcome) (p : Opts) (r : Request) (s : St) (hs : Smooth o p)
    (h : (run o p r s).2 ≠ 0) : (run o p r s).1 = s := by
  rcases run_cases o p r s with ⟨h1, _⟩ | ⟨n, _, _, _, _, _, _, _, h1⟩
  · exact h1
  · exact absurd (h1 hs) h

example : Smooth { git := some false } {} ∧ Smooth { gh := some false } { editor := true } := by
  simp [Smooth]

/-- Several uses in order. -/
def runs : List (Outcome × Opts × Request) → St → St
  | [], s => s
  | (o, p, r) :: rs, s => runs rs (run o p r s).1

/-- C226: over any uses, whatever fails, work trees never take the place of each other or of anything
else, none is lost, and the shell stands where it stood or in one of the work trees. -/
theorem C226_apart_partial (rs : List (Outcome × Opts × Request)) :
    ∀ s : St, s.trees.Nodup → (∀ n ∈ s.trees, n ∉ s.others) →
      (runs rs s).trees.Nodup ∧ (∀ n ∈ (runs rs s).trees, n ∉ (runs rs s).others) ∧
      (runs rs s).others = s.others ∧ (∀ n ∈ s.trees, n ∈ (runs rs s).trees) ∧
      ((runs rs s).here = s.here ∨ (runs rs s).here ∈ (runs rs s).trees) := by
  induction rs with
  | nil => intro s h1 h2; exact ⟨h1, h2, rfl, fun _ h => h, Or.inl rfl⟩
  | cons x rs ih =>
    obtain ⟨o, p, r⟩ := x
    intro s h1 h2
    show (runs rs (run o p r s).1).trees.Nodup ∧ (∀ n ∈ (runs rs (run o p r s).1).trees,
      n ∉ (runs rs (run o p r s).1).others) ∧ (runs rs (run o p r s).1).others = s.others ∧
      (∀ n ∈ s.trees, n ∈ (runs rs (run o p r s).1).trees) ∧
      ((runs rs (run o p r s).1).here = s.here ∨
        (runs rs (run o p r s).1).here ∈ (runs rs (run o p r s).1).trees)
    rcases run_cases o p r s with ⟨h, _⟩ | ⟨n, _, hn1, hn2, ht, ho, hh, _, _⟩
    · rw [h]; exact ih s h1 h2
    · obtain ⟨a, b, c, d, e⟩ := ih (run o p r s).1
        (by rw [ht]; exact List.nodup_cons.2 ⟨hn1, h1⟩)
        (by
          intro m hm
          rw [ht] at hm
          rw [ho]
          rcases List.mem_cons.1 hm with rfl | hm
          · exact hn2
          · exact h2 m hm)
      refine ⟨a, b, c.trans ho, fun m hm => d m (by rw [ht]; exact List.mem_cons_of_mem _ hm), ?_⟩
      rcases e with e | e
      · rcases hh with hh | hh
        · right; rw [e, hh]; exact d n (by rw [ht]; simp)
        · left; rw [e, hh]
      · exact Or.inr e

example : runs [({}, {}, .branch c!"a/b"), ({ gh := some false }, {}, .pr (some 5)), ({}, { cd := false }, .pr (some 7))]
    ⟨[c!"p"], [c!"notes"], c!"p"⟩ = ⟨[c!"p-a-b-pr-7", c!"p-a-b", c!"p"], [c!"notes"], c!"p-a-b"⟩ := by decide +kernel

/-- C226 refuted: a failure is reported and a new work tree stays, in which asking again is refused:
the directory cannot be changed to, the editor cannot be started (the shell then stands in the new
work tree all the same), `gh` cannot be started, or the removal fails. -/
theorem C226_failed_violated (s : St) (r : Request) (n : Str) (hw : wanted s r = some n)
    (h1 : n ∉ s.trees) (h2 : n ∉ s.others) :
    run { cd := false } {} r s = ({ s with trees := n :: s.trees }, 1) ∧
    run { editor := false } { editor := true } r s = ({ s with trees := n :: s.trees, here := n }, 1) ∧
    (∀ k, r = .pr (some k) →
      run { gh := none } {} r s = ({ s with trees := n :: s.trees }, 1) ∧
      run { gh := some false, clean := false } {} r s = ({ s with trees := n :: s.trees }, 1)) ∧
    ∀ o p, run o p r { s with trees := n :: s.trees } = ({ s with trees := n :: s.trees }, 1) := by
  have ht : s.there n = false := by simp [St.there, h1, h2]
  have ht' : ∀ x, ({ s with trees := n :: x } : St).there n = true := by intro x; simp [St.there]
  cases r with
  | branch b =>
    rw [wanted_branch, Option.some.injEq] at hw
    subst hw
    refine ⟨?_, ?_, ?_, ?_⟩
    · simp [run, addBranch, ht, finish]
    · simp [run, addBranch, ht, finish]
    · intro k hk; cases hk
    · intro o p; simp [run, addBranch, ht']
  | pr k =>
    cases k with
    | none => cases hw
    | some k =>
      have hw : prName s.here k = n := Option.some.inj hw
      subst hw
      refine ⟨?_, ?_, ?_, ?_⟩
      · simp [run, addPr, ht, finish]
      · simp [run, addPr, ht, finish]
      · intro j hj
        cases hj
        exact ⟨by simp [run, addPr, ht], by simp [run, addPr, ht]⟩
      · intro o p; simp [run, addPr, ht']

theorem sanitize_append (a b : Str) : sanitize (a ++ b) = sanitize a ++ sanitize b := by
  simp [sanitize]

/-- C226 refuted: after `gwt a` the shell stands in the new work tree, and `gwt b` there names its
directory after both, not after the project; that is also the directory of the branch `a-b`, which is
refused from then on. -/
theorem C226_nested_violated (s : St) (a b : Str) (h1 : dirName s.here a ∉ s.trees)
    (h2 : dirName s.here a ∉ s.others) (h3 : dirName s.here (a ++ c!"-" ++ b) ∉ s.others)
    (h4 : dirName s.here (a ++ c!"-" ++ b) ∉ s.trees) :
    (runs [({}, {}, .branch a), ({}, {}, .branch b)] s).trees =
      dirName s.here (a ++ c!"-" ++ b) :: dirName s.here a :: s.trees ∧
    ∀ o p, let t := { runs [({}, {}, .branch a), ({}, {}, .branch b)] s with here := s.here }
      run o p (.branch (a ++ c!"-" ++ b)) t = (t, 1) := by
  have hn : dirName (dirName s.here a) b = dirName s.here (a ++ c!"-" ++ b) := by
    simp [dirName, sanitize_append]; simp [sanitize]
  have hne : dirName s.here (a ++ c!"-" ++ b) ≠ dirName s.here a := by
    intro h
    have := congrArg List.length h
    simp [dirName, sanitize] at this
  have e : (runs [({}, {}, .branch a), ({}, {}, .branch b)] s) =
      ⟨dirName s.here (a ++ c!"-" ++ b) :: dirName s.here a :: s.trees, s.others,
        dirName s.here (a ++ c!"-" ++ b)⟩ := by
    have e1 : (run {} {} (.branch a) s).1 = ⟨dirName s.here a :: s.trees, s.others, dirName s.here a⟩ := by
      simp [run, addBranch, St.there, h1, h2, finish]
    show (run {} {} (.branch b) (run {} {} (.branch a) s).1).1 = _
    rw [e1]
    unfold run addBranch
    simp only [hn]
    simp only [St.there, List.mem_cons, h3, h4, hne, finish]
    simp
  refine ⟨by rw [e], ?_⟩
  intro o p
  rw [e]
  simp only [run, addBranch, St.there]
  simp

example : dirName c!"p" c!"a" ∉ [c!"p"] ∧ dirName c!"p" (c!"a" ++ c!"-" ++ c!"b") ∉ [c!"p"] := by decide

/-- C226 refuted: the branch `pr-5` and pull request 5 share a directory: with a work tree of the one,
the other is refused. -/
theorem C226_pr_violated (s : St) (k : Nat) (o : Outcome) (p : Opts)
    (h : dirName s.here (c!"pr-" ++ Nat.toDigits 10 k) ∈ s.trees) : run o p (.pr (some k)) s = (s, 1) := by
  have hd : sanitize (Nat.toDigits 10 k) = Nat.toDigits 10 k := by
    unfold sanitize
    conv => rhs; rw [← List.map_id (Nat.toDigits 10 k)]
    apply List.map_congr_left
    intro c hc
    have hc := Nat.isDigit_of_mem_toDigits (by omega) (by omega) hc
    rw [if_neg]
    · rfl
    · intro hm
      simp only [List.mem_cons, List.not_mem_nil, or_false] at hm
      rcases hm with rfl | rfl | rfl | rfl | rfl | rfl | rfl | rfl | rfl <;> revert hc <;> decide
  have hn : dirName s.here (c!"pr-" ++ Nat.toDigits 10 k) = prName s.here k := by
    rw [dirName, sanitize_append, hd, prName]
    simp [sanitize]
  rw [hn] at h
  simp [run, addPr, St.there, h]

example : dirName c!"p" (c!"pr-" ++ Nat.toDigits 10 5) ∈ [c!"p", c!"p-pr-5"] := by decide +kernel

end Dsh.Worktree
