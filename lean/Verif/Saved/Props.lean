import Verif.Saved.Model
/-!
Saved commands: what running one executes, and what is stored.
-/
namespace Dsh.Saved

/-! ### Running -/

/-- What a POSIX `sh` does with its arguments (XCU, sh): `-c` takes the next one as a command line; an
argument that is no option is the name of a file with commands; no argument: commands from the input. -/
inductive ShDoes
  | line (text : Str) (params : List Str)
  | script (file : Str) (params : List Str)
  | input
  | options
  deriving DecidableEq, Repr

def shDoes : List Str → ShDoes
  | [] => .input
  | a :: rest =>
    if a = c!"-c" then
      match rest with
      | [] => .options
      | c :: ps => .line c ps
    else if a.head? = some '-' ∨ a.head? = some '+' then .options
    else .script a rest

/-- The program executed has `sh` execute the line. -/
def RunsLine (d : Disp) (line : Str) : Prop := ∃ e, d = .exec e ∧ e.prog = c!"sh" ∧ ∃ ps, shDoes e.args = .line line ps

/-- Invocations that run the saved command `n`. -/
def runs (n : Str) (argv : List Str) : Bool :=
  match argv with
  | [_, sub, m] => [c!"run", c!"exec", c!"-x"].contains sub && m = n
  | _ => false

/-- Invocations that remove the saved command `n`. -/
def removes (n : Str) (argv : List Str) : Bool :=
  match argv with
  | [_, sub, m] => [c!"remove", c!"rm", c!"-r"].contains sub && m = n
  | _ => false

/-- Invocations that edit the saved command `n`. -/
def edits (n : Str) (argv : List Str) : Bool :=
  match argv with
  | [_, sub, m] => [c!"edit", c!"-e"].contains sub && m = n
  | _ => false

theorem runs_iff (n : Str) (argv : List Str) :
    runs n argv = true ↔ ∃ b sub, argv = [b, sub, n] ∧ sub ∈ [c!"run", c!"exec", c!"-x"] := by
  match argv with
  | [] | [_] | [_, _] | _ :: _ :: _ :: _ :: _ => simp [runs]
  | [b, s, m] =>
    simp only [runs, Bool.and_eq_true, decide_eq_true_eq, List.contains_iff_mem, List.cons.injEq, and_true]
    constructor
    · rintro ⟨h1, rfl⟩; exact ⟨b, s, ⟨rfl, rfl, rfl⟩, h1⟩
    · rintro ⟨_, _, ⟨rfl, rfl, rfl⟩, h1⟩; exact ⟨h1, rfl⟩

theorem command_run {k : Kind} {W : World} {t : Table} {argv : List Str} {n : Str} (h : runs n argv = true) :
    command k W t argv = some (runOne W t n) := by
  obtain ⟨b, sub, rfl, hs⟩ := (runs_iff n argv).1 h
  simp only [List.mem_cons, List.not_mem_nil, or_false] at hs
  rcases hs with rfl | rfl | rfl <;> rfl

theorem command_three (k : Kind) (W : World) (t : Table) (b sub n : Str) :
    command k W t [b, sub, n] =
      (if [c!"remove", c!"rm", c!"-r"].contains sub then some (removeOne t n)
      else if [c!"run", c!"exec", c!"-x"].contains sub then some (runOne W t n)
      else if k = .snippet && [c!"edit", c!"-e"].contains sub then some (editOne W t n)
      else if [c!"add", c!"-a"].contains sub then
        match k with
        | .bookmark => match getLastCommand W with
          | some c => some (addOne t n c)
          | none => some (⟨1, [.noHistory], []⟩, t)
        | .snippet => some (⟨1, [.needsCommand], []⟩, t)
      else some (⟨0, [.unknownSub sub, .help], []⟩, t)) := rfl

theorem command_more (k : Kind) (W : World) (t : Table) (b sub n w : Str) (ws : List Str) :
    command k W t (b :: sub :: n :: w :: ws) =
      (if [c!"add", c!"-a"].contains sub then some (addOne t n (joinWith c!" " (w :: ws)))
      else some (⟨0, [.invalid, .help], []⟩, t)) := rfl

/-- **C120 is violated, for every saved command**: what is executed is `sh sh -c command`, so `sh` looks
for a file named `sh` and gets the command as a parameter. The command is not run. -/
theorem C120_run_violated (k : Kind) (W : World) (t : Table) (argv : List Str) (n : Str) (r : Row)
    (h : runs n argv = true) (hg : get t n = some r) :
    ∃ res t', command k W t argv = some (res, t') ∧
      res.did = [.exec ⟨c!"sh", [c!"sh", c!"-c", r.cmd]⟩] ∧
      shDoes [c!"sh", c!"-c", r.cmd] = .script c!"sh" [c!"-c", r.cmd] ∧
      ∀ d ∈ res.did, ∀ line, ¬ RunsLine d line := by
  refine ⟨(runOne W t n).1, (runOne W t n).2, command_run h, ?_, rfl, ?_⟩
  · simp only [runOne, hg]
    split <;> rfl
  · have : (runOne W t n).1.did = [.exec ⟨c!"sh", [c!"sh", c!"-c", r.cmd]⟩] := by
      simp only [runOne, hg]
      split <;> rfl
    rw [this]
    rintro d hd line ⟨e, rfl, -, ps, he⟩
    simp only [List.mem_singleton, Disp.exec.injEq] at hd
    subst hd
    have h1 : shDoes [c!"sh", c!"-c", r.cmd] = .script c!"sh" [c!"-c", r.cmd] := rfl
    rw [h1] at he
    cases he

/-- The statement of C120 fails: `bookmark add t ls`, `bookmark run t`. -/
theorem C120_violated : ¬ ∀ (k : Kind) (W : World) (t : Table) (n : Str) (r : Row) (res : Res) (t' : Table),
    get t n = some r → command k W t [c!"bookmark", c!"run", n] = some (res, t') → ∃ d ∈ res.did, RunsLine d r.cmd := by
  intro H
  obtain ⟨res, t', h1, -, -, h2⟩ := C120_run_violated .bookmark ⟨[], fun _ => true, fun _ => none⟩ [⟨c!"t", c!"ls", none, 0⟩]
    [c!"bookmark", c!"run", c!"t"] c!"t" _ rfl rfl
  obtain ⟨d, hd, hr⟩ := H _ _ _ _ _ res t' rfl h1
  exact h2 d hd _ hr

/-- **C120 (partial)**: something is executed only when a saved command is asked to run, once, with the
saved text as its last word; the invocation succeeds exactly when what was executed does; its number of
uses grows by one, whether it succeeds or not. -/
theorem C120_partial (k : Kind) (W : World) (t t' : Table) (argv : List Str) (res : Res)
    (h : command k W t argv = some (res, t')) (hd : res.did ≠ []) :
    ∃ n r d, runs n argv = true ∧ get t n = some r ∧ res.did = [d] ∧
      (∃ e, d = .exec e ∧ e.prog = c!"sh" ∧ e.args.getLast? = some r.cmd) ∧
      (res.status = 0 ↔ W.ok d = true) ∧ Say.running r.cmd ∈ res.say ∧
      t' = t.map fun x => if x.name = n then { x with uses := x.uses + 1 } else x := by
  have nolist : ∀ {res t'}, (listAll t).map (·, t) = some (res, t') → res.did = [] := by
    intro res t' h
    unfold listAll at h
    split at h
    · simp only [Option.map_some, Option.some.injEq, Prod.mk.injEq] at h; rw [← h.1]
    · simp only [Option.map_map, Option.map_eq_some_iff, Function.comp, Prod.mk.injEq] at h
      obtain ⟨_, -, h1, -⟩ := h
      rw [← h1]
  have noadd : ∀ n c, (addOne t n c).1.did = [] := by
    intro n c; unfold addOne; split
    · rfl
    · split
      · rfl
      · split
        · rfl
        · split <;> rfl
  have hrun : ∀ n, runOne W t n = (res, t') → runs n argv = true →
      ∃ n r d, runs n argv = true ∧ get t n = some r ∧ res.did = [d] ∧
      (∃ e, d = .exec e ∧ e.prog = c!"sh" ∧ e.args.getLast? = some r.cmd) ∧
      (res.status = 0 ↔ W.ok d = true) ∧ Say.running r.cmd ∈ res.say ∧
      t' = t.map fun x => if x.name = n then { x with uses := x.uses + 1 } else x := by
    intro n hr hn
    unfold runOne at hr
    split at hr
    · next r hg =>
      simp only [Prod.mk.injEq] at hr
      obtain ⟨h1, h2⟩ := hr
      refine ⟨n, r, .exec ⟨c!"sh", [c!"sh", c!"-c", r.cmd]⟩, hn, hg, ?_, ⟨_, rfl, rfl, rfl⟩, ?_, ?_, h2.symm⟩
      · rw [← h1]; split <;> rfl
      · rw [← h1]
        by_cases hok : W.ok (dispatch c!"sh" [c!"sh", c!"-c", r.cmd]) = true
        · rw [if_pos hok]; exact ⟨fun _ => hok, fun _ => rfl⟩
        · rw [if_neg hok]; exact ⟨fun h => (by cases h), fun h => (hok h).elim⟩
      · rw [← h1]; split <;> simp
    · simp only [Prod.mk.injEq] at hr
      rw [← hr.1] at hd
      exact (hd rfl).elim
  match argv, h with
  | [], h => simp only [command, Option.some.injEq, Prod.mk.injEq] at h; rw [← h.1] at hd; exact (hd rfl).elim
  | [_], h => exact (hd (nolist h)).elim
  | [_, a], h =>
    simp only [command] at h
    split at h
    · exact (hd (nolist h)).elim
    · split at h
      · simp only [Option.some.injEq, Prod.mk.injEq] at h; rw [← h.1] at hd; exact (hd rfl).elim
      · simp only [Option.some.injEq, Prod.mk.injEq] at h
        rw [← h.1] at hd
        unfold showOne at hd
        split at hd <;> exact (hd rfl).elim
  | [b, s, n], h =>
    rw [command_three] at h
    by_cases h1 : [c!"remove", c!"rm", c!"-r"].contains s = true
    · rw [if_pos h1] at h
      simp only [Option.some.injEq] at h
      unfold removeOne at h
      split at h <;> (simp only [Prod.mk.injEq] at h; rw [← h.1] at hd; exact (hd rfl).elim)
    rw [if_neg h1] at h
    by_cases h2 : [c!"run", c!"exec", c!"-x"].contains s = true
    · rw [if_pos h2] at h
      exact hrun n (Option.some.inj h) (by simp only [runs, h2, Bool.true_and, decide_eq_true_eq])
    rw [if_neg h2] at h
    by_cases h3 : (k = .snippet && [c!"edit", c!"-e"].contains s) = true
    · rw [if_pos h3] at h
      simp only [Option.some.injEq] at h
      unfold editOne at h
      exfalso; apply hd
      split at h
      · simp only [Prod.mk.injEq] at h; rw [← h.1]
      · split at h
        · simp only [Prod.mk.injEq] at h; rw [← h.1]
        · split at h
          · simp only [Prod.mk.injEq] at h; rw [← h.1]
          · split at h <;> (simp only [Prod.mk.injEq] at h; rw [← h.1])
    rw [if_neg h3] at h
    exfalso; apply hd
    by_cases h4 : [c!"add", c!"-a"].contains s = true
    · rw [if_pos h4] at h
      cases k with
      | bookmark =>
        dsimp only at h
        split at h
        · next c hc =>
          have := noadd n c
          rw [Option.some.inj h] at this
          exact this
        · simp only [Option.some.injEq, Prod.mk.injEq] at h; rw [← h.1]
      | snippet => simp only [Option.some.injEq, Prod.mk.injEq] at h; rw [← h.1]
    · rw [if_neg h4] at h
      simp only [Option.some.injEq, Prod.mk.injEq] at h; rw [← h.1]
  | b :: s :: n :: w :: ws, h =>
    rw [command_more] at h
    exfalso; apply hd
    split at h
    · have := noadd n (joinWith c!" " (w :: ws))
      rw [Option.some.inj h] at this
      exact this
    · simp only [Option.some.injEq, Prod.mk.injEq] at h; rw [← h.1]

/-- The hypotheses of `C120_partial` are met by a bookmark that runs. -/
example : ∃ res t', command .bookmark ⟨[], fun _ => true, fun _ => none⟩ [⟨c!"t", c!"ls", none, 0⟩]
    [c!"bookmark", c!"run", c!"t"] = some (res, t') ∧ res.did ≠ [] ∧ t' = [⟨c!"t", c!"ls", none, 1⟩] :=
  ⟨_, _, rfl, by decide, rfl⟩

/-! ### Storing -/

theorem get_delete_self (t : Table) (n : Str) : get (deleteRow t n).1 n = none := by
  simp [get, deleteRow]

theorem get_delete_other (t : Table) {n m : Str} (h : m ≠ n) : get (deleteRow t n).1 m = get t m := by
  unfold get deleteRow
  induction t with
  | nil => rfl
  | cons r t ih =>
    dsimp only at ih ⊢
    rw [List.filter_cons]
    by_cases hr : r.name = n
    · have : ¬ n = m := fun h' => h h'.symm
      simpa [hr, List.find?_cons, this] using ih
    · simp only [hr, ne_eq, not_false_eq_true, decide_true, if_true, List.find?_cons]
      by_cases hm : r.name = m
      · simp [hm]
      · simpa [hm] using ih

theorem get_recordUse (t : Table) (n m : Str) :
    get (recordUse t n) m = (get t m).map fun r => if m = n then { r with uses := r.uses + 1 } else r := by
  unfold get recordUse
  induction t with
  | nil => rfl
  | cons r t ih =>
    rw [List.map_cons, List.find?_cons, List.find?_cons]
    by_cases hm : r.name = m
    · subst hm
      by_cases hn : r.name = n <;> simp [hn]
    · have h1 : (if r.name = n then { r with uses := r.uses + 1 } else r).name = r.name := by split <;> rfl
      simp only [h1, hm, decide_false]
      exact ih

theorem get_updateRow (t : Table) (n c m : Str) :
    get (updateRow t n c) m = (get t m).map fun r => if m = n then { r with cmd := c } else r := by
  unfold get updateRow
  induction t with
  | nil => rfl
  | cons r t ih =>
    rw [List.map_cons, List.find?_cons, List.find?_cons]
    by_cases hm : r.name = m
    · subst hm
      by_cases hn : r.name = n <;> simp [hn]
    · have h1 : (if r.name = n then { r with cmd := c } else r).name = r.name := by split <;> rfl
      simp only [h1, hm, decide_false]
      exact ih

theorem get_isSome_iff (t : Table) (n : Str) : (get t n).isSome = t.any (·.name = n) := by
  unfold get
  induction t with
  | nil => rfl
  | cons r t ih =>
    rw [List.find?_cons, List.any_cons]
    by_cases h : r.name = n
    · simp [h]
    · simp only [h, decide_false, Bool.false_or]; exact ih

theorem get_append (t : Table) (r : Row) (m : Str) :
    get (t ++ [r]) m = (get t m).or (if r.name = m then some r else none) := by
  unfold get
  rw [List.find?_append]
  simp [List.find?_cons]
  cases List.find? (fun x => decide (x.name = m)) t <;> simp
  by_cases h : r.name = m <;> simp [h]

/-- Names that may be given to a saved command. -/
def NameOk (n : Str) : Prop := n ≠ [] ∧ ' ' ∉ n ∧ '\t' ∉ n

theorem nameOk_iff (n : Str) : (n.isEmpty || n.contains ' ' || n.contains '\t') = false ↔ NameOk n := by
  simp only [NameOk, Bool.or_eq_false_iff, List.isEmpty_eq_false_iff, List.contains_eq_mem, decide_eq_false_iff_not, ne_eq]
  exact and_assoc

/-- `add_bookmark`, `add_snippet` in full. -/
theorem addOne_spec (t : Table) (n c : Str) :
    ((addOne t n c).1.status = 0 ↔ NameOk n ∧ c ≠ [] ∧ get t n = none) ∧
    ((addOne t n c).1.status = 0 → (addOne t n c).2 = t ++ [⟨n, c, none, 0⟩]) ∧
    ((addOne t n c).1.status ≠ 0 → (addOne t n c).2 = t) := by
  unfold addOne
  by_cases h1 : NameOk n
  · rw [if_neg (by rw [(nameOk_iff n).2 h1]; simp)]
    by_cases h2 : c = []
    · rw [if_pos (by simp [h2])]
      simp [h2]
    · rw [if_neg (by simpa using h2)]
      cases hg : get t n with
      | some r => simp
      | none =>
        have : t.any (·.name = n) = false := by rw [← get_isSome_iff, hg]; rfl
        simp [insertRow, this, h1, h2]
  · rw [if_pos (by
      cases hx : (n.isEmpty || n.contains ' ' || n.contains '\t') with
      | true => rfl
      | false => exact (h1 ((nameOk_iff n).1 hx)).elim)]
    simp [h1]

/-- **C121 (partial)**: adding succeeds exactly when the name is free, not empty and without blanks and
the command is not empty; then the name stands for the words joined by blanks and no other name changes;
otherwise nothing changes. -/
theorem C121_add_partial (k : Kind) (W : World) (t : Table) (b n w : Str) (ws : List Str) (sub : Str)
    (hs : sub ∈ [c!"add", c!"-a"]) :
    ∃ res t', command k W t (b :: sub :: n :: w :: ws) = some (res, t') ∧
      (res.status = 0 ↔ NameOk n ∧ joinWith c!" " (w :: ws) ≠ [] ∧ get t n = none) ∧
      (res.status = 0 → get t' n = some ⟨n, joinWith c!" " (w :: ws), none, 0⟩ ∧ ∀ m, m ≠ n → get t' m = get t m) ∧
      (res.status ≠ 0 → t' = t) := by
  refine ⟨(addOne t n (joinWith c!" " (w :: ws))).1, (addOne t n (joinWith c!" " (w :: ws))).2, ?_, (addOne_spec ..).1, ?_,
    (addOne_spec ..).2.2⟩
  · simp only [List.mem_cons, List.not_mem_nil, or_false] at hs
    rcases hs with rfl | rfl <;> rfl
  · intro h
    have h0 := ((addOne_spec t n (joinWith c!" " (w :: ws))).1.1 h).2.2
    rw [(addOne_spec ..).2.1 h]
    constructor
    · rw [get_append, h0]; simp
    · intro m hm
      rw [get_append, if_neg (fun h => hm h.symm)]; simp

/-- **C121 (partial)**: removing takes away that name and no other, and says whether there was one. -/
theorem C121_remove_partial (k : Kind) (W : World) (t : Table) (argv : List Str) (n : Str) (h : removes n argv = true) :
    ∃ res t', command k W t argv = some (res, t') ∧ get t' n = none ∧ (∀ m, m ≠ n → get t' m = get t m) ∧
      (res.status = 0 ↔ (get t n).isSome) := by
  have hc : command k W t argv = some (removeOne t n) := by
    match argv, h with
    | [b, s, m], h =>
      simp only [removes, Bool.and_eq_true, decide_eq_true_eq] at h
      obtain ⟨h1, rfl⟩ := h
      simp only [command]; rw [if_pos h1]
  have h2 : (removeOne t n).2 = (deleteRow t n).1 := by unfold removeOne; split <;> rfl
  refine ⟨(removeOne t n).1, (removeOne t n).2, hc, ?_, ?_, ?_⟩
  · rw [h2, get_delete_self]
  · intro m hm; rw [h2, get_delete_other t hm]
  · rw [get_isSome_iff]
    unfold removeOne
    by_cases hx : (deleteRow t n).2 = true
    · rw [if_pos hx]; simpa [deleteRow] using hx
    · rw [if_neg hx]
      simp only [deleteRow] at hx
      simp [hx]

/-- One invocation leaves a saved command as it is, but for its uses. -/
theorem command_keeps {k : Kind} {W : World} {t t' : Table} {argv : List Str} {res : Res} {n : Str} {r : Row}
    (h : command k W t argv = some (res, t')) (hg : get t n = some r) (hr : removes n argv = false) (he : edits n argv = false) :
    get t' n = some { r with uses := r.uses + (if runs n argv then 1 else 0) } := by
  have hsame : ∀ t' : Table, runs n argv = false → t = t' → get t' n = some { r with uses := r.uses + (if runs n argv then 1 else 0) } := by
    intro t' h1 h2; subst h2; rw [h1]; simpa using hg
  have hadd : ∀ m c, runs n argv = false →
      get (addOne t m c).2 n = some { r with uses := r.uses + (if runs n argv then 1 else 0) } := by
    intro m c h1
    rw [h1]
    obtain ⟨-, h2, h3⟩ := addOne_spec t m c
    by_cases hx : (addOne t m c).1.status = 0
    · rw [h2 hx, get_append, hg]; simp
    · rw [h3 hx]; simpa using hg
  match argv, h, hr, he, hsame, hadd with
  | [], h, _, _, hsame, _ => simp only [command, Option.some.injEq, Prod.mk.injEq] at h; exact hsame _ rfl h.2
  | [_], h, _, _, hsame, _ =>
    simp only [command, Option.map_eq_some_iff, Prod.mk.injEq] at h
    obtain ⟨_, -, -, h⟩ := h; exact hsame _ rfl h
  | [_, a], h, _, _, hsame, _ =>
    simp only [command] at h
    split at h
    · simp only [Option.map_eq_some_iff, Prod.mk.injEq] at h
      obtain ⟨_, -, -, h⟩ := h; exact hsame _ rfl h
    · split at h <;> (simp only [Option.some.injEq, Prod.mk.injEq] at h; exact hsame _ rfl h.2)
  | [b, s, m], h, hr, he, hsame, hadd =>
    rw [command_three] at h
    by_cases h1 : [c!"remove", c!"rm", c!"-r"].contains s = true
    · rw [if_pos h1] at h
      have hmn : m ≠ n := by
        intro hmn; simp only [removes, h1, hmn, decide_true, Bool.and_self] at hr; cases hr
      have h2 : (removeOne t m).2 = (deleteRow t m).1 := by unfold removeOne; split <;> rfl
      rw [Option.some.inj h] at h2
      have h2 : t' = (deleteRow t m).1 := h2
      rw [h2, get_delete_other t (Ne.symm hmn), hg]
      simp [runs, hmn]
    rw [if_neg h1] at h
    by_cases h2 : [c!"run", c!"exec", c!"-x"].contains s = true
    · rw [if_pos h2] at h
      have hb : runs n [b, s, m] = decide (m = n) := by simp only [runs, h2, Bool.true_and]
      have hv : t' = (runOne W t m).2 := by rw [Option.some.inj h]
      rw [hb, hv]
      unfold runOne
      cases hgm : get t m with
      | none =>
        have : m ≠ n := by rintro rfl; rw [hg] at hgm; cases hgm
        simp [hg, this]
      | some rm =>
        simp only [get_recordUse, hg, Option.map_some]
        by_cases hmn : m = n
        · subst hmn; simp
        · simp [hmn, Ne.symm hmn]
    rw [if_neg h2] at h
    have hrun : runs n [b, s, m] = false := by
      simp only [runs]
      rw [Bool.eq_false_iff.2 h2, Bool.false_and]
    by_cases h3 : (k = .snippet && [c!"edit", c!"-e"].contains s) = true
    · rw [if_pos h3] at h
      have hs : [c!"edit", c!"-e"].contains s = true := (Bool.and_eq_true_iff.1 h3).2
      have hmn : m ≠ n := by
        intro hmn; simp only [edits, hs, hmn, decide_true, Bool.and_self] at he; cases he
      have hv : t' = (editOne W t m).2 := by rw [Option.some.inj h]
      rw [hrun, hv]
      have : get (editOne W t m).2 n = get t n := by
        unfold editOne
        split
        · rfl
        · split
          · rfl
          · split
            · rfl
            · split
              · rw [get_updateRow, hg]; simp [Ne.symm hmn]
              · rfl
      rw [this, hg]; rfl
    rw [if_neg h3] at h
    by_cases h4 : [c!"add", c!"-a"].contains s = true
    · rw [if_pos h4] at h
      cases k with
      | bookmark =>
        dsimp only at h
        split at h
        · next c hc =>
          have hv : t' = (addOne t m c).2 := by rw [Option.some.inj h]
          rw [hv]; exact hadd m c hrun
        · simp only [Option.some.injEq, Prod.mk.injEq] at h; exact hsame _ hrun h.2
      | snippet => simp only [Option.some.injEq, Prod.mk.injEq] at h; exact hsame _ hrun h.2
    · rw [if_neg h4] at h
      simp only [Option.some.injEq, Prod.mk.injEq] at h; exact hsame _ hrun h.2
  | b :: s :: m :: w :: ws, h, _, _, hsame, hadd =>
    rw [command_more] at h
    split at h
    · have hv : t' = (addOne t m (joinWith c!" " (w :: ws))).2 := by rw [Option.some.inj h]
      rw [hv]; exact hadd m _ rfl
    · simp only [Option.some.injEq, Prod.mk.injEq] at h; exact hsame _ rfl h.2

/-- **C121 (partial)**: a saved command stays what it is through every sequence of invocations that
neither removes nor edits it, and its number of uses is the number of times it was run. -/
theorem C121_kept_partial (k : Kind) (t t' : Table) (inv : List (World × List Str)) (n : Str) (r : Row)
    (h : session k t inv = some t') (hg : get t n = some r)
    (hr : ∀ i ∈ inv, removes n i.2 = false ∧ edits n i.2 = false) :
    get t' n = some { r with uses := r.uses + (inv.filter fun i => runs n i.2).length } := by
  induction inv generalizing t r with
  | nil => simp only [session, Option.some.injEq] at h; subst h; simpa using hg
  | cons i inv ih =>
    obtain ⟨W, argv⟩ := i
    simp only [session] at h
    split at h
    · cases h
    · next res t1 hc =>
      obtain ⟨h1, h2⟩ := hr _ (List.mem_cons_self ..)
      have := ih t1 _ h (command_keeps hc hg h1 h2) (fun i hi => hr i (List.mem_cons_of_mem _ hi))
      rw [this]
      simp only [List.filter_cons]
      cases runs n argv <;> simp [Nat.add_assoc, Nat.add_comm]

/-- The hypotheses are met by a session in which other commands are saved, removed and run. -/
example : (session .bookmark [⟨c!"a", c!"ls -l", none, 0⟩]
    [(⟨[], fun _ => true, fun _ => none⟩, [c!"bookmark", c!"add", c!"b", c!"make"]), (⟨[], fun _ => true, fun _ => none⟩, [c!"bookmark", c!"run", c!"a"]),
     (⟨[], fun _ => true, fun _ => none⟩, [c!"bookmark", c!"rm", c!"b"])]).bind (get · c!"a") = some ⟨c!"a", c!"ls -l", none, 1⟩ := by
  decide

/-- **C121 is violated**: `bookmark add n` is documented to save the last command; it saves the oldest one
of the history, whatever was run since. -/
theorem C121_last_violated (W : World) (t : Table) (n old : Str) (rest : List Str) (hh : W.history = old :: rest)
    (hn : NameOk n) (ho : old ≠ []) (hg : get t n = none) :
    ∃ res t', command .bookmark W t [c!"bookmark", c!"add", n] = some (res, t') ∧ res.status = 0 ∧
      get t' n = some ⟨n, old, none, 0⟩ := by
  have hs : (addOne t n old).1.status = 0 := (addOne_spec t n old).1.2 ⟨hn, ho, hg⟩
  refine ⟨(addOne t n old).1, (addOne t n old).2, ?_, hs, ?_⟩
  · have : getLastCommand W = some old := by simp [getLastCommand, hh]
    simp [command, this]
  · rw [(addOne_spec ..).2.1 hs, get_append, hg]; simp

/-- So it is neither the newest command of the history nor the one before it. -/
example : ∃ res t', command .bookmark ⟨[c!"ls", c!"make", c!"git push", c!"bookmark add x"], fun _ => true, fun _ => none⟩ []
    [c!"bookmark", c!"add", c!"x"] = some (res, t') ∧ get t' c!"x" = some ⟨c!"x", c!"ls", none, 0⟩ := by
  obtain ⟨res, t', h1, -, h2⟩ := C121_last_violated ⟨[c!"ls", c!"make", c!"git push", c!"bookmark add x"], fun _ => true, fun _ => none⟩
    [] c!"x" c!"ls" _ rfl ⟨by decide, by decide, by decide⟩ (by decide) rfl
  exact ⟨res, t', h1, h2⟩

/-- **C121 is violated**: the words are joined by blanks, so different commands are saved as the same
text; the quoting that told them apart is lost. -/
theorem C121_words_violated : ¬ ∀ (n : Str) (ws ws' : List Str) (t1 t2 : Table) (r1 r2 : Res) (W : World),
    ws ≠ [] → ws' ≠ [] →
    command .bookmark W [] (c!"bookmark" :: c!"add" :: n :: ws) = some (r1, t1) →
    command .bookmark W [] (c!"bookmark" :: c!"add" :: n :: ws') = some (r2, t2) →
    r1.status = 0 → r2.status = 0 → get t1 n = get t2 n → ws = ws' := by
  intro H
  have := H c!"x" [c!"rm", c!"a b"] [c!"rm", c!"a", c!"b"] _ _ _ _ ⟨[], fun _ => true, fun _ => none⟩ (by decide) (by decide)
    rfl rfl (by decide) (by decide) (by decide)
  exact absurd this (by decide)

/-! ### Listing -/

theorem nameLe_total (a b : Str) : (nameLe a b || nameLe b a) = true := by
  induction a generalizing b with
  | nil => rfl
  | cons x a ih =>
    cases b with
    | nil => rfl
    | cons y b =>
      simp only [nameLe]
      rcases Nat.lt_trichotomy x.toNat y.toNat with h | h | h
      · simp [h]
      · simpa [h] using ih b
      · simp [h]

theorem nameLe_trans (a b c : Str) (h1 : nameLe a b = true) (h2 : nameLe b c = true) : nameLe a c = true := by
  induction a generalizing b c with
  | nil => rfl
  | cons x a ih =>
    cases b with
    | nil => simp [nameLe] at h1
    | cons y b =>
      cases c with
      | nil => simp [nameLe] at h2
      | cons z c =>
        simp only [nameLe, Bool.or_eq_true, decide_eq_true_eq, Bool.and_eq_true] at h1 h2 ⊢
        rcases h1 with h1 | ⟨h1, h1'⟩ <;> rcases h2 with h2 | ⟨h2, h2'⟩
        · left; omega
        · left; omega
        · left; omega
        · right; exact ⟨by omega, ih b c h1' h2'⟩

theorem rowLe_total (a b : Row) : (rowLe a b || rowLe b a) = true := by
  unfold rowLe
  rcases Nat.lt_trichotomy a.uses b.uses with h | h | h
  · simp [h]
  · simpa [h] using nameLe_total a.name b.name
  · simp [h]

theorem rowLe_trans (a b c : Row) (h1 : rowLe a b = true) (h2 : rowLe b c = true) : rowLe a c = true := by
  unfold rowLe at *
  simp only [Bool.or_eq_true, decide_eq_true_eq, Bool.and_eq_true] at *
  rcases h1 with h1 | ⟨h1, h1'⟩ <;> rcases h2 with h2 | ⟨h2, h2'⟩
  · left; omega
  · left; omega
  · left; omega
  · right; exact ⟨by omega, nameLe_trans _ _ _ h1' h2'⟩

theorem mapM_some {α β : Type} {f : α → Option β} {l : List α} {out : List β} (h : l.mapM f = some out) :
    out.length = l.length ∧ ∀ i (h1 : i < l.length) (h2 : i < out.length), f l[i] = some out[i] := by
  induction l generalizing out with
  | nil => simp at h; subst h; simp
  | cons a l ih =>
    rw [List.mapM_cons] at h
    cases ha : f a with
    | none => rw [ha] at h; cases h
    | some b =>
      rw [ha] at h
      cases hl : l.mapM f with
      | none => rw [hl] at h; cases h
      | some bs =>
        rw [hl] at h
        have h : b :: bs = out := by simpa using h
        subst h
        obtain ⟨h1, h2⟩ := ih hl
        refine ⟨by simp [h1], ?_⟩
        intro i hi1 hi2
        cases i with
        | zero => exact ha
        | succ i => exact h2 i (by simpa using hi1) (by simpa using hi2)

theorem mapM_total {α β : Type} {f : α → Option β} {g : α → β} {l : List α} (h : ∀ a ∈ l, f a = some (g a)) :
    l.mapM f = some (l.map g) := by
  induction l with
  | nil => rfl
  | cons a l ih =>
    rw [List.mapM_cons, h a (by simp), ih (fun b hb => h b (by simp [hb]))]
    rfl

theorem prefixBytes_ascii (s : Str) (h : ∀ c ∈ s, c.utf8Size = 1) (n : Nat) (hn : n ≤ s.length) :
    prefixBytes n s = some (s.take n) := by
  induction s generalizing n with
  | nil => obtain rfl : n = 0 := by simpa using hn
           rw [prefixBytes]; rfl
  | cons a s ih =>
    cases n with
    | zero => rw [prefixBytes]; rfl
    | succ n =>
      rw [prefixBytes, h a (by simp), if_pos (by omega), Nat.add_sub_cancel,
        ih (fun c hc => h c (by simp [hc])) n (by simpa using hn)]
      rfl

theorem bytes_ascii (s : Str) (h : ∀ c ∈ s, c.utf8Size = 1) : bytes s = s.length := by
  unfold bytes
  induction s with
  | nil => rfl
  | cons a s ih =>
    rw [List.map_cons, List.sum_cons, h a (by simp), ih (fun c hc => h c (by simp [hc])), List.length_cons]; omega

/-- **C121 (partial)**: the list shows every saved command once, with its uses, the most used first and
equals by name, if every command is short or plain ASCII; a long command is cut after 47 characters. -/
theorem C121_list_partial (k : Kind) (W : World) (t : Table) (b : Str) (ht : t ≠ [])
    (h : ∀ r ∈ t, bytes r.cmd ≤ 50 ∨ ∀ c ∈ r.cmd, c.utf8Size = 1) :
    ∃ rows order, command k W t [b] = some (⟨0, [.table rows], []⟩, t) ∧ List.Perm order t ∧
      order.Pairwise (fun x y => y.uses < x.uses ∨ (x.uses = y.uses ∧ nameLe x.name y.name = true)) ∧
      rows = order.map fun r => (r.name, if bytes r.cmd ≤ 50 then r.cmd else r.cmd.take 47 ++ c!"...", r.uses) := by
  have hp : (listed t).Perm t := sortBy_perm _ _
  refine ⟨_, listed t, ?_, hp, ?_, rfl⟩
  · have : listAll t = some ⟨0, [.table ((listed t).map fun r => (r.name, if bytes r.cmd ≤ 50 then r.cmd else r.cmd.take 47 ++ c!"...", r.uses))], []⟩ := by
      unfold listAll
      rw [if_neg (by simpa using ht), mapM_total (g := fun r => (r.name, if bytes r.cmd ≤ 50 then r.cmd else r.cmd.take 47 ++ c!"...", r.uses))]
      · rfl
      · intro r hr
        have hr := hp.mem_iff.1 hr
        unfold shorten
        by_cases hb : bytes r.cmd ≤ 50
        · rw [if_neg (by omega), if_pos hb]; rfl
        · have ha := (h r hr).resolve_left hb
          rw [if_pos (by omega), if_neg hb, prefixBytes_ascii _ ha 47 (by rw [bytes_ascii _ ha] at hb; omega)]
          rfl
    simp only [command, this, Option.map_some]
  · have := sortBy_sorted rowLe rowLe_trans rowLe_total t
    refine List.Pairwise.imp ?_ this
    intro a b hab
    simpa [rowLe] using hab

example : ∃ t : Table, t ≠ [] ∧ (∀ r ∈ t, bytes r.cmd ≤ 50 ∨ ∀ c ∈ r.cmd, c.utf8Size = 1) ∧
    (listed t).map (·.name) = [c!"z", c!"a", c!"b"] :=
  ⟨[⟨c!"b", c!"ls", none, 0⟩, ⟨c!"a", c!"make", none, 0⟩, ⟨c!"z", c!"top", none, 3⟩], by decide, by decide, by decide⟩

/-- **C121 is violated**: listing ends in a panic as soon as one saved command is longer than 50 bytes and
byte 47 is within a character. -/
theorem C121_list_violated (k : Kind) (W : World) (t : Table) (b : Str) (r : Row) (hr : r ∈ t)
    (hl : 50 < bytes r.cmd) (hc : prefixBytes 47 r.cmd = none) : command k W t [b] = none := by
  have hp : (listed t).Perm t := sortBy_perm _ _
  have : listAll t = none := by
    unfold listAll
    rw [if_neg (by intro h; rw [List.isEmpty_iff] at h; subst h; cases hr)]
    cases hm : (listed t).mapM fun r => (shorten r.cmd).map fun c => (r.name, c, r.uses) with
    | none => rfl
    | some out =>
      obtain ⟨h1, h2⟩ := mapM_some hm
      obtain ⟨i, hi, rfl⟩ := List.mem_iff_getElem.1 (hp.mem_iff.2 hr)
      have := h2 i hi (by omega)
      simp [shorten, hl, hc] at this
  simp [command, this]

/-- Such a command: `ls ` and twenty `あ`. -/
example : 50 < bytes (c!"ls " ++ List.replicate 20 'あ') ∧ prefixBytes 47 (c!"ls " ++ List.replicate 20 'あ') = none := by
  constructor
  · decide
  · have h3 : 'あ'.utf8Size = 3 := by decide
    simp [prefixBytes, List.replicate_succ, h3, show 'l'.utf8Size = 1 by decide, show 's'.utf8Size = 1 by decide,
      show ' '.utf8Size = 1 by decide]

/-- **C121 is violated**: a command saved under the name of a word `bookmark` knows cannot be shown. -/
theorem C121_show_violated : ¬ ∀ (t : Table) (n : Str) (r : Row) (W : World) (res : Res) (t' : Table),
    get t n = some r → NameOk n → command .bookmark W t [c!"bookmark", n] = some (res, t') → Say.command r.cmd ∈ res.say := by
  intro H
  have := H [⟨c!"help", c!"man man", none, 0⟩] c!"help" _ ⟨[], fun _ => true, fun _ => none⟩ _ _ rfl
    ⟨by decide, by decide, by decide⟩ rfl
  exact absurd this (by decide)

/-- **C121 (partial)**: every other saved command is shown as it is. -/
theorem C121_show_partial (k : Kind) (W : World) (t : Table) (b n : Str) (r : Row) (hg : get t n = some r)
    (hn : n ∉ [c!"list", c!"-l", c!"--list", c!"help", c!"-h", c!"--help"]) :
    ∃ res, command k W t [b, n] = some (res, t) ∧ res.status = 0 ∧ Say.name n ∈ res.say ∧ Say.command r.cmd ∈ res.say ∧ Say.uses r.uses ∈ res.say := by
  have hname : r.name = n := by
    have := List.find?_some hg
    simpa using this
  refine ⟨showOne t n, ?_, ?_⟩
  · simp only [command]
    rw [if_neg (by
      intro h; apply hn; simp only [List.contains_iff_mem, List.mem_cons, List.not_mem_nil, or_false] at h ⊢
      rcases h with h | h | h <;> simp [h]), if_neg (by
      intro h; apply hn; simp only [List.contains_iff_mem, List.mem_cons, List.not_mem_nil, or_false] at h ⊢
      rcases h with h | h | h <;> simp [h])]
  · unfold showOne
    rw [hg]
    simp [hname]

/-- **C121 (partial)**: editing a snippet replaces its command by what the editor leaves, without the blanks
around it, unless nothing is left; description, uses and all other snippets stay. -/
theorem C121_edit_partial (W : World) (t : Table) (b n sub e : Str) (r : Row) (hs : sub ∈ [c!"edit", c!"-e"])
    (hg : get t n = some r) (he : W.editor r.cmd = some e) :
    ∃ res t', command .snippet W t [b, sub, n] = some (res, t') ∧ (∀ m, m ≠ n → get t' m = get t m) ∧
      get t' n = some (if trim e = [] then r else { r with cmd := trim e }) ∧ (res.status = 0 ↔ trim e ≠ []) := by
  have hc : command .snippet W t [b, sub, n] = some (editOne W t n) := by
    simp only [List.mem_cons, List.not_mem_nil, or_false] at hs
    rcases hs with rfl | rfl <;> rfl
  refine ⟨(editOne W t n).1, (editOne W t n).2, hc, ?_⟩
  unfold editOne
  simp only [hg, he]
  by_cases h1 : trim e = []
  · simp [h1, hg]
  · have h1' : (trim e).isEmpty = false := by simpa using h1
    by_cases h2 : trim e = r.cmd
    · simp only [h2, ne_eq, not_true_eq_false, if_false]
      rw [h2] at h1
      simp [h1, hg]
    · simp only [h1', h2, ne_eq, not_false_eq_true, if_true, if_false, Bool.false_eq_true]
      refine ⟨fun m hm => ?_, ?_, by simp [h1]⟩
      · rw [get_updateRow]; simp [hm]
      · rw [get_updateRow]; simp [hg, h1]

/-- The hypotheses are met. -/
example : command .snippet ⟨[], fun _ => true, fun s => some (s ++ c!" -l\n")⟩ [⟨c!"a", c!"ls", none, 2⟩] [c!"snippet", c!"edit", c!"a"] =
    some (⟨0, [.updated c!"a"], []⟩, [⟨c!"a", c!"ls -l", none, 2⟩]) := by decide

end Dsh.Saved
