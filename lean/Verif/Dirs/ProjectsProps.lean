import Verif.Dirs.Projects
/-!
# C188: `pm` keeps the projects that were registered, each once

# C189: `$DSH_PROJECT` is the innermost project one is in
-/
namespace Dsh.Projects

/-! ### Names and directories once -/

/-- No name and no directory twice. -/
def Unique (ps : List Project) : Prop := (ps.map (·.name)).Nodup ∧ (ps.map (·.path)).Nodup

/-- What can be read of the file has no name and no directory twice. -/
def Good (d : Disk) : Prop := ∀ ps, load d = some ps → Unique ps

theorem touch_names (n : Str) (t : Nat) (ps : List Project) : (touch n t ps).map (·.name) = ps.map (·.name) := by
  induction ps with
  | nil => rfl
  | cons p ps ih => rw [touch]; split <;> simp [ih]

theorem touch_paths (n : Str) (t : Nat) (ps : List Project) : (touch n t ps).map (·.path) = ps.map (·.path) := by
  induction ps with
  | nil => rfl
  | cons p ps ih => rw [touch]; split <;> simp [ih]

/-- With names once, exactly the one with the name is touched. -/
theorem touch_map (n : Str) (t : Nat) {ps : List Project} (h : (ps.map (·.name)).Nodup) :
    touch n t ps = ps.map fun p => if p.name = n then { p with last := t } else p := by
  induction ps with
  | nil => rfl
  | cons p ps ih =>
    rw [List.map_cons, List.nodup_cons] at h
    rw [touch, List.map_cons]
    split
    · next e =>
      congr 1
      have : ps.map (fun p => if p.name = n then { p with last := t } else p) = ps.map id := by
        refine List.map_congr_left fun q hq => ?_
        have : ¬ q.name = n := fun e' => h.1 (List.mem_map.2 ⟨q, hq, by rw [e', e]⟩)
        simp [this]
      rw [this, List.map_id]
    · rw [ih h.2]

theorem add_some {w : World} {s : St} {args : List Str} {d : Disk} (h : add w s args = some d) :
    ∃ ps path name, load s.disk = some ps ∧ (∀ q ∈ ps, q.name ≠ name) ∧ (∀ q ∈ ps, q.path ≠ path) ∧
      d = .list (ps ++ [⟨name, path, s.now, s.now⟩]) := by
  unfold add at h
  split at h
  · cases h
  next path hp =>
    split at h
    · cases h
    next name hn =>
      split at h
      · cases h
      next ps hl =>
        split at h
        · cases h
        next h1 =>
          split at h
          · cases h
          next h2 =>
            cases h
            refine ⟨ps, path, name, hl, ?_, ?_, rfl⟩
            · intro q hq e; exact h1 (List.any_eq_true.2 ⟨q, hq, by simpa using e⟩)
            · intro q hq e; exact h2 (List.any_eq_true.2 ⟨q, hq, by simpa using e⟩)

theorem good_add {w : World} {s : St} {args : List Str} {d : Disk} (hg : Good s.disk) (h : add w s args = some d) : Good d := by
  obtain ⟨ps, path, name, hl, h1, h2, rfl⟩ := add_some h
  intro qs hqs
  cases hqs
  obtain ⟨a, b⟩ := hg ps hl
  constructor
  · rw [List.map_append, List.nodup_append]
    refine ⟨a, by simp, ?_⟩
    intro x hx y hy
    obtain ⟨q, hq, rfl⟩ := List.mem_map.1 hx
    simp at hy; subst hy; exact h1 q hq
  · rw [List.map_append, List.nodup_append]
    refine ⟨b, by simp, ?_⟩
    intro x hx y hy
    obtain ⟨q, hq, rfl⟩ := List.mem_map.1 hx
    simp at hy; subst hy; exact h2 q hq

theorem remove_some {s : St} {args : List Str} {d : Disk} (h : remove s args = some d) :
    ∃ ps n r, args = n :: r ∧ load s.disk = some ps ∧ d = .list (ps.filter (·.name != n)) := by
  unfold remove at h
  split at h
  · cases h
  next n r =>
    split at h
    · cases h
    next ps hl =>
      dsimp only at h
      split at h
      · cases h
      · cases h; exact ⟨ps, n, r, rfl, hl, rfl⟩

theorem good_remove {s : St} {args : List Str} {d : Disk} (hg : Good s.disk) (h : remove s args = some d) : Good d := by
  obtain ⟨ps, n, r, -, hl, rfl⟩ := remove_some h
  intro qs hqs
  cases hqs
  obtain ⟨a, b⟩ := hg ps hl
  exact ⟨a.sublist (List.filter_sublist.map _), b.sublist (List.filter_sublist.map _)⟩

theorem go_disk (w : World) (s : St) (p : Path) : (go w s p).1.disk = s.disk := by
  unfold go
  split
  · rfl
  · dsimp only
    split
    · unfold arrive
      dsimp only
      split
      · rfl
      · split <;> rfl
    · rfl

theorem good_work {w : World} {s : St} {args : List Str} (hg : Good s.disk) : Good (work w s args).1.disk := by
  unfold work
  split
  · exact hg
  · split
    · exact hg
    next ps hl =>
      split
      · exact hg
      · rw [go_disk]
        intro qs hqs
        cases hqs
        obtain ⟨a, b⟩ := hg ps hl
        exact ⟨by rw [touch_names]; exact a, by rw [touch_paths]; exact b⟩

theorem good_jump {w : World} {s : St} {c : List Str → Option Str} {args : List Str} (hg : Good s.disk) : Good (jump w c s args).1.disk := by
  unfold jump
  split
  · exact good_work hg
  · split
    · exact hg
    · exact hg
    · split
      · exact hg
      · exact good_work hg

theorem good_write {s : St} {d : Option Disk} (hg : Good s.disk) (h : ∀ x, d = some x → Good x) : Good (write s d).1.disk := by
  cases d with
  | none => exact hg
  | some x => exact h x rfl

theorem good_command {w : World} {c : List Str → Option Str} {s : St} {argv : List Str} (hg : Good s.disk) :
    Good (command w c s argv).1.disk := by
  unfold command
  split
  · exact hg
  · split
    · exact good_jump hg
    · split
      · exact hg
      · split
        · exact good_write hg fun x h => good_add hg h
        split
        · exact hg
        split
        · exact good_write hg fun x h => good_remove hg h
        split
        · exact good_work hg
        split
        · exact good_jump hg
        · exact hg

/-- Whatever happens to a shell, also if other shells write the file as this one does and if writing is cut: no name and
no directory is ever registered twice. -/
theorem C188_unique_partial {w : World} {s : St} {l : List Ev} (h0 : Good s.disk) (ho : ∀ d, Ev.other d ∈ l → Good d) :
    Good (evs w s l).disk := by
  induction l generalizing s with
  | nil => exact h0
  | cons e l ih =>
    refine ih (s := ev w s e) ?_ fun d hd => ho d (List.mem_cons_of_mem _ hd)
    cases e with
    | run argv pick now => exact good_command (s := { s with now := now }) h0
    | cd p => simp only [ev, go_disk]; exact h0
    | other d => exact ho d (by simp)
    | cut => intro ps h; cases h

/-! ### Each command -/

/-- `pm add DIR NAME`: if neither is registered, exactly that project is new, at the end, with the time; otherwise the
command fails and nothing changes. -/
theorem C188_add_partial {w : World} {c : List Str → Option Str} {s : St} {ps : List Project} (hl : load s.disk = some ps) {a n : Str}
    {r : List Str} {p : Path} (hp : w.resolve s.cwd a = some p) :
    command w c s (c!"pm" :: c!"add" :: a :: n :: r) =
      if (∀ q ∈ ps, q.name ≠ n) ∧ (∀ q ∈ ps, q.path ≠ p) then ({ s with disk := .list (ps ++ [⟨n, p, s.now, s.now⟩]) }, 0)
      else (s, 1) := by
  have e : add w s (a :: n :: r) = if (∀ q ∈ ps, q.name ≠ n) ∧ (∀ q ∈ ps, q.path ≠ p) then
      some (.list (ps ++ [⟨n, p, s.now, s.now⟩])) else none := by
    simp only [add, hp, hl]
    by_cases h1 : ∀ q ∈ ps, q.name ≠ n
    · have : ps.any (·.name == n) = false := by
        rw [List.any_eq_false]; intro q hq; simpa using h1 q hq
      simp only [this, Bool.false_eq_true, if_false]
      by_cases h2 : ∀ q ∈ ps, q.path ≠ p
      · have : ps.any (·.path == p) = false := by
          rw [List.any_eq_false]; intro q hq; simpa using h2 q hq
        rw [if_pos (show _ ∧ _ from ⟨h1, h2⟩)]; simp [this]
      · have : ps.any (·.path == p) = true := by
          simp only [ne_eq, Classical.not_forall, Decidable.not_not] at h2
          obtain ⟨q, hq, e⟩ := h2
          exact List.any_eq_true.2 ⟨q, hq, by simpa using e⟩
        rw [if_neg (fun x : _ ∧ _ => h2 x.2)]; simp [this]
    · have : ps.any (·.name == n) = true := by
        simp only [ne_eq, Classical.not_forall, Decidable.not_not] at h1
        obtain ⟨q, hq, e⟩ := h1
        exact List.any_eq_true.2 ⟨q, hq, by simpa using e⟩
      rw [if_neg (fun x : _ ∧ _ => h1 x.1)]; simp [this]
  have e' : command w c s (c!"pm" :: c!"add" :: a :: n :: r) = write s (add w s (a :: n :: r)) := rfl
  rw [e', e]
  split <;> rfl

/-- `pm remove NAME`: exactly the projects with the name go, and it fails if there is none. -/
theorem C188_remove_partial {w : World} {c : List Str → Option Str} {s : St} {ps : List Project} (hl : load s.disk = some ps) (n : Str)
    (r : List Str) :
    command w c s (c!"pm" :: c!"remove" :: n :: r) =
      if ∃ q ∈ ps, q.name = n then ({ s with disk := .list (ps.filter fun q => q.name ≠ n) }, 0) else (s, 1) := by
  have e' : command w c s (c!"pm" :: c!"remove" :: n :: r) = write s (remove s (n :: r)) := rfl
  have ef : ps.filter (·.name != n) = ps.filter fun q => q.name ≠ n := by
    refine List.filter_congr fun q _ => ?_
    by_cases h : q.name = n <;> simp [h]
  rw [e']
  simp only [remove, hl, ef]
  by_cases h : ∃ q ∈ ps, q.name = n
  · rw [if_pos h, if_neg]
    · rfl
    · obtain ⟨q, hq, e⟩ := h
      intro h
      have := (List.length_filter_eq_length_iff.1 h) q hq
      simp [e] at this
  · rw [if_neg h, if_pos]
    · rfl
    · rw [List.filter_eq_self.2]
      intro q hq
      simpa using fun e => h ⟨q, hq, e⟩

theorem find_name {ps : List Project} (hu : Unique ps) {p : Project} (hp : p ∈ ps) : ps.find? (·.name == p.name) = some p := by
  induction ps with
  | nil => cases hp
  | cons q ps ih =>
    obtain ⟨a, b⟩ := hu
    rw [List.map_cons, List.nodup_cons] at a b
    rw [List.find?_cons]
    rcases List.mem_cons.1 hp with rfl | h
    · simp
    · have : q.name ≠ p.name := fun e => a.1 (List.mem_map.2 ⟨p, h, e.symm⟩)
      have : (q.name == p.name) = false := by simpa using this
      rw [this]
      exact ih ⟨a.2, b.2⟩ h

theorem work_eq {w : World} {s : St} {ps : List Project} (hl : load s.disk = some ps) (hu : Unique ps) {p : Project} (hp : p ∈ ps)
    (r : List Str) :
    work w s (p.name :: r) =
      go w { s with disk := .list (ps.map fun q => if q.name = p.name then { q with last := s.now } else q) } p.path := by
  simp only [work, hl, find_name hu hp, touch_map p.name s.now hu.1]

theorem go_cwd {w : World} {s : St} {p d : Path} (hd : w.land p = some d) : (go w s p).1.cwd = d := by
  simp only [go, hd]
  split
  · unfold arrive
    dsimp only
    split
    · rfl
    · split <;> rfl
  · rfl

theorem go_ok {w : World} {s : St} {p d : Path} (hd : w.land p = some d) : (go w s p).2 = w.settings d := by
  simp only [go, hd]
  split
  · next h => exact h.symm
  · next h => simpa using h

/-- `pm work NAME`, `pm jump NAME` and `pj NAME` go to the project with the name, mark it as used now, and change no other
project. -/
theorem C188_work_partial {w : World} {c : List Str → Option Str} {s : St} {ps : List Project} (hl : load s.disk = some ps)
    (hu : Unique ps) {p : Project} (hp : p ∈ ps) {d : Path} (hd : w.land p.path = some d) (hs : w.settings d = true)
    {cmd : List Str} (hc : cmd = [c!"pj"] ∨ cmd = [c!"pm", c!"work"] ∨ cmd = [c!"pm", c!"jump"]) (r : List Str) :
    let q := command w c s (cmd ++ p.name :: r)
    q.2 = 0 ∧ q.1.cwd = d ∧ q.1.disk = .list (ps.map fun x => if x = p then { x with last := s.now } else x) := by
  have e : command w c s (cmd ++ p.name :: r) = status (work w s (p.name :: r)) := by
    rcases hc with rfl | rfl | rfl <;> rfl
  intro q
  have eq : q = status (work w s (p.name :: r)) := e
  rw [eq, work_eq hl hu hp]
  refine ⟨?_, ?_, ?_⟩
  · simp only [status, go_ok hd, hs, if_true]
  · exact go_cwd hd
  · show (go _ _ _).1.disk = _
    rw [go_disk]
    refine congrArg Disk.list ?_
    refine List.map_congr_left fun x hx => ?_
    by_cases h : x = p
    · simp [h]
    · have : x.name ≠ p.name := by
        intro e
        have := find_name hu hx
        rw [e, find_name hu hp] at this
        exact h (Option.some.inj this).symm
      simp [h, this]

/-- The commands that go nowhere change nothing if they fail. -/
theorem C188_fail_partial {w : World} {c : List Str → Option Str} {s : St} {argv : List Str} (h : (command w c s argv).2 ≠ 0)
    (hp : argv.head? ≠ some c!"pj") (hw : argv[1]? ≠ some c!"work") (hj : argv[1]? ≠ some c!"jump") :
    (command w c s argv).1 = s := by
  have hwr : ∀ d, (write s d).2 ≠ 0 → (write s d).1 = s := by
    intro d; cases d <;> simp [write]
  revert h
  match argv with
  | [] => intro _; rfl
  | [cmd] =>
    have : cmd ≠ c!"pj" := by simpa using hp
    simp [command, this]
  | cmd :: sub :: rest =>
    have h1 : cmd ≠ c!"pj" := by simpa using hp
    have h2 : sub ≠ c!"work" := by simpa using hw
    have h3 : sub ≠ c!"jump" := by simpa using hj
    simp only [command, if_neg h1, if_neg h2, if_neg h3]
    split
    · exact hwr _
    split
    · intro _; rfl
    split
    · exact hwr _
    · intro _; rfl

/-- `pm list` and the choice of `pj` have every project once, those used last first. -/
theorem C188_list_partial {s : St} {ps : List Project} (hl : load s.disk = some ps) :
    ∃ qs : List Project, list s = some (qs.map (·.name)) ∧ qs.Perm ps ∧ qs.Pairwise fun a b => b.last ≤ a.last := by
  refine ⟨ordered ps, by rw [list, hl]; rfl, sortBy_perm _ _, ?_⟩
  refine (sortBy_sorted _ ?_ ?_ ps).imp fun h => of_decide_eq_true h
  · intro a b c h1 h2
    have := of_decide_eq_true h1; have := of_decide_eq_true h2
    exact decide_eq_true (by omega)
  · intro a b
    rcases Nat.le_total b.last a.last with h | h <;> simp [h]

/-- `pj` goes to what was chosen. -/
theorem C188_choice_partial {w : World} {s : St} {ps : List Project} (hl : load s.disk = some ps) (hu : Unique ps)
    {p : Project} (hp : p ∈ ps) {c : List Str → Option Str} (hc : ∀ l, p.name ∈ l → c l = some p.name) {d : Path}
    (hd : w.land p.path = some d) (hs : w.settings d = true) :
    (command w c s [c!"pj"]).2 = 0 ∧ (command w c s [c!"pj"]).1.cwd = d := by
  obtain ⟨qs, h1, h2, -⟩ := C188_list_partial hl
  have hm : p.name ∈ qs.map (·.name) := List.mem_map.2 ⟨p, h2.mem_iff.2 hp, rfl⟩
  have e : command w c s [c!"pj"] = status (work w s [p.name]) := by
    show status (jump w c s []) = _
    simp only [jump, h1]
    cases hq : qs.map (·.name) with
    | nil => rw [hq] at hm; cases hm
    | cons x xs =>
      simp only
      rw [hc _ (hq ▸ hm)]
  rw [e, work_eq hl hu hp]
  exact ⟨by simp only [status, go_ok hd, hs, if_true], go_cwd hd⟩

/-! ### What goes wrong -/

/-- A project whose directory is gone: `pm work` fails, yet marks the project as used just now. -/
theorem C188_gone_violated {w : World} {c : List Str → Option Str} {s : St} {ps : List Project} (hl : load s.disk = some ps)
    (hu : Unique ps) {p : Project} (hp : p ∈ ps) (hd : w.land p.path = none) :
    let q := command w c s [c!"pm", c!"work", p.name]
    q.2 = 1 ∧ ∃ ps', load q.1.disk = some ps' ∧ { p with last := s.now } ∈ ps' := by
  have e : command w c s [c!"pm", c!"work", p.name] = status (work w s [p.name]) := rfl
  intro q
  have eq : q = status (work w s [p.name]) := e
  rw [eq, work_eq hl hu hp]
  simp only [go, hd, status]
  refine ⟨rfl, _, rfl, List.mem_map.2 ⟨p, hp, by simp⟩⟩

/-- `pm remove A B` removes only `A`, and says it worked. -/
theorem C188_extra_violated {w : World} {c : List Str → Option Str} {s : St} {ps : List Project} (hl : load s.disk = some ps)
    {p q : Project} (hp : p ∈ ps) (hq : q ∈ ps) (hne : q.name ≠ p.name) :
    let r := command w c s [c!"pm", c!"remove", p.name, q.name]
    r.2 = 0 ∧ ∃ ps', load r.1.disk = some ps' ∧ q ∈ ps' := by
  intro r
  have eq : r = command w c s [c!"pm", c!"remove", p.name, q.name] := rfl
  rw [eq, C188_remove_partial hl, if_pos ⟨p, hp, rfl⟩]
  exact ⟨rfl, _, rfl, List.mem_filter.2 ⟨hq, by simpa using hne⟩⟩

theorem bad_work {w : World} {s : St} (hb : s.disk = .bad) (args : List Str) : work w s args = (s, false) := by
  unfold work
  split
  · rfl
  · simp [hb, load]

theorem bad_command {w : World} {c : List Str → Option Str} {s : St} (hb : s.disk = .bad) (argv : List Str) :
    command w c s argv = (s, 1) := by
  have hl : load s.disk = none := by rw [hb]; rfl
  have ha : ∀ r, add w s r = none := by
    intro r
    cases h : add w s r with
    | none => rfl
    | some d => obtain ⟨ps, _, _, h', _⟩ := add_some h; rw [hl] at h'; cases h'
  have hr : ∀ r, remove s r = none := by
    intro r
    cases h : remove s r with
    | none => rfl
    | some d => obtain ⟨ps, _, _, _, h', _⟩ := remove_some h; rw [hl] at h'; cases h'
  have hj : ∀ r, jump w c s r = (s, false) := by
    intro r
    unfold jump
    split
    · exact bad_work hb _
    · simp [list, hl]
  unfold command
  split
  · rfl
  · split
    · rw [hj]; rfl
    · split
      · rfl
      · simp only [ha, hr, hj, bad_work hb, list, hl]
        split
        · rfl
        split
        · rfl
        split
        · rfl
        split
        · rfl
        split <;> rfl

/-- If a write of the file is cut, all projects are lost, and no command of `pm` works from then on: they all fail, `add`
too, until the user repairs the file by hand. -/
theorem C188_torn_violated (w : World) (s : St) (l : List Ev) (hl : ∀ d, Ev.other d ∉ l) (c : List Str → Option Str) (argv : List Str) :
    load (evs w (ev w s .cut) l).disk = none ∧ (command w c (evs w (ev w s .cut) l) argv).2 = 1 := by
  have key : ∀ (t : St), t.disk = .bad → (evs w t l).disk = .bad := by
    intro t ht
    induction l generalizing t with
    | nil => exact ht
    | cons e l ih =>
      refine ih (fun d hd => hl d (List.mem_cons_of_mem _ hd)) (ev w t e) ?_
      cases e with
      | run argv pick now => simp only [ev]; rw [bad_command (s := { t with now := now }) ht]; exact ht
      | cd p => simp only [ev, go_disk]; exact ht
      | other d => exact absurd List.mem_cons_self (hl d)
      | cut => rfl
  have := key (ev w s .cut) rfl
  exact ⟨by rw [this]; rfl, by rw [bad_command this]⟩

/-- Two shells that register a project each at the same time: both say it worked, and what the one that writes first has
registered is lost. -/
theorem C188_race_violated {w : World} {c : List Str → Option Str} {s t : St} (hs : t.disk = s.disk) {ps : List Project}
    (hl : load s.disk = some ps) {a b n m : Str} (hnm : n ≠ m) {p q : Path} (hp : w.resolve s.cwd a = some p)
    (hq : w.resolve t.cwd b = some q) (h1 : ∀ x ∈ ps, x.name ≠ n ∧ x.name ≠ m) (h2 : ∀ x ∈ ps, x.path ≠ p ∧ x.path ≠ q) :
    let first := command w c t [c!"pm", c!"add", b, m]
    let last := command w c s [c!"pm", c!"add", a, n]
    first.2 = 0 ∧ last.2 = 0 ∧ (∃ l, load first.1.disk = some l ∧ ⟨m, q, t.now, t.now⟩ ∈ l) ∧
      ∃ l, load last.1.disk = some l ∧ ∀ x ∈ l, x.name ≠ m := by
  have e1 := C188_add_partial (w := w) (c := c) (s := t) (by rw [hs]; exact hl) (n := m) (r := []) hq
  have e2 := C188_add_partial (w := w) (c := c) (s := s) hl (n := n) (r := []) hp
  rw [if_pos ⟨fun x hx => (h1 x hx).2, fun x hx => (h2 x hx).2⟩] at e1
  rw [if_pos ⟨fun x hx => (h1 x hx).1, fun x hx => (h2 x hx).1⟩] at e2
  intro first last
  have f1 : first = _ := e1
  have f2 : last = _ := e2
  rw [f1, f2]
  refine ⟨rfl, rfl, ⟨_, rfl, by simp⟩, _, rfl, ?_⟩
  intro x hx
  rcases List.mem_append.1 hx with h | h
  · exact (h1 x h).2
  · simp at h; subst h; exact hnm

/-! ### The project one is in -/

/-- The innermost of the projects that hold a directory. -/
def Inner (ps : List Project) (dir : Path) (p : Project) : Prop :=
  p ∈ ps ∧ p.path <+: dir ∧ ∀ q ∈ ps, q.path <+: dir → q.path.length ≤ p.path.length

theorem find_go (dir : Path) (ps seen : List Project) (best : Option Project)
    (hb : match best with | some p => Inner seen dir p | none => ∀ p ∈ seen, ¬ p.path <+: dir) :
    match ps.foldl (better dir) best with
    | some p => Inner (seen ++ ps) dir p
    | none => ∀ p ∈ seen ++ ps, ¬ p.path <+: dir := by
  induction ps generalizing seen best with
  | nil => simpa using hb
  | cons x ps ih =>
    rw [List.foldl_cons, show seen ++ x :: ps = (seen ++ [x]) ++ ps by simp]
    refine ih (seen ++ [x]) (better dir best x) ?_
    unfold better
    by_cases hx : x.path.isPrefixOf dir = true
    · rw [if_pos hx]
      have hx' : x.path <+: dir := List.isPrefixOf_iff_prefix.1 hx
      cases best with
      | none =>
        refine ⟨by simp, hx', ?_⟩
        intro q hq hqd
        rcases List.mem_append.1 hq with h | h
        · exact absurd hqd (hb q h)
        · simp at h; subst h; exact Nat.le_refl _
      | some y =>
        obtain ⟨h1, h2, h3⟩ := hb
        dsimp only
        split
        · next h =>
          split at h
          · next hlt =>
            cases h
            refine ⟨by simp, hx', ?_⟩
            intro q hq hqd
            rcases List.mem_append.1 hq with h | h
            · have := h3 q h hqd; omega
            · simp at h; subst h; exact Nat.le_refl _
          · next hlt =>
            cases h
            refine ⟨List.mem_append_left _ h1, h2, ?_⟩
            intro q hq hqd
            rcases List.mem_append.1 hq with h | h
            · exact h3 q h hqd
            · simp at h; subst h; omega
        · next h => split at h <;> cases h
    · rw [if_neg hx]
      have hx' : ¬ x.path <+: dir := fun h => hx (List.isPrefixOf_iff_prefix.2 h)
      cases best with
      | none =>
        intro q hq
        rcases List.mem_append.1 hq with h | h
        · exact hb q h
        · simp at h; subst h; exact hx'
      | some y =>
        obtain ⟨h1, h2, h3⟩ := hb
        refine ⟨List.mem_append_left _ h1, h2, ?_⟩
        intro q hq hqd
        rcases List.mem_append.1 hq with h | h
        · exact h3 q h hqd
        · simp at h; subst h; exact absurd hqd hx'

/-- The project found for a directory is the innermost one that holds it; none is found only if none holds it. -/
theorem C189_inner_partial (ps : List Project) (dir : Path) :
    (∀ p, find ps dir = some p → Inner ps dir p) ∧ (find ps dir = none ↔ ∀ p ∈ ps, ¬ p.path <+: dir) := by
  have h := find_go dir ps [] none (by simp)
  rw [List.nil_append] at h
  have hf : ps.foldl (better dir) none = find ps dir := rfl
  rw [hf] at h
  constructor
  · intro p hp; rw [hp] at h; exact h
  · constructor
    · intro hn; rw [hn] at h; exact h
    · intro ha
      cases hc : find ps dir with
      | none => rfl
      | some p => rw [hc] at h; exact absurd h.2.1 (ha p h.1)

/-- With directories registered once there is only one innermost project. -/
theorem inner_unique {ps : List Project} (hu : Unique ps) {dir : Path} {p q : Project} (hp : Inner ps dir p) (hq : Inner ps dir q) : p = q := by
  obtain ⟨p1, p2, p3⟩ := hp
  obtain ⟨q1, q2, q3⟩ := hq
  have hl : p.path.length = q.path.length := Nat.le_antisymm (q3 p p1 p2) (p3 q q1 q2)
  have he : p.path = q.path := by
    rw [List.prefix_iff_eq_take.1 p2, List.prefix_iff_eq_take.1 q2, hl]
  have key : ∀ l : List Project, (l.map (·.path)).Nodup → p ∈ l → q ∈ l → p = q := by
    intro l
    induction l with
    | nil => intro _ h; cases h
    | cons x l ih =>
      intro hn h1 h2
      rw [List.map_cons, List.nodup_cons] at hn
      rcases List.mem_cons.1 h1 with e1 | h1
      · rcases List.mem_cons.1 h2 with e2 | h2
        · rw [e1, e2]
        · exact absurd (List.mem_map.2 ⟨q, h2, by rw [← he, e1]⟩) hn.1
      · rcases List.mem_cons.1 h2 with e2 | h2
        · exact absurd (List.mem_map.2 ⟨p, h1, by rw [he, e2]⟩) hn.1
        · exact ih hn.2 h1 h2
  exact key ps hu.2 p1 q1

theorem find_inner {ps : List Project} (hu : Unique ps) {dir : Path} {p : Project} : find ps dir = some p ↔ Inner ps dir p := by
  constructor
  · exact (C189_inner_partial ps dir).1 p
  · intro h
    cases hc : find ps dir with
    | none => exact absurd h.2.1 ((C189_inner_partial ps dir).2.1 hc p h.1)
    | some q => rw [inner_unique hu ((C189_inner_partial ps dir).1 q hc) h]

/-- The order of the file does not matter. -/
theorem C189_order_partial {ps qs : List Project} (hu : Unique ps) (h : ps.Perm qs) (dir : Path) : find ps dir = find qs dir := by
  have hu' : Unique qs := ⟨(h.map _).nodup_iff.1 hu.1, (h.map _).nodup_iff.1 hu.2⟩
  have hi : ∀ p, Inner ps dir p ↔ Inner qs dir p := by
    intro p; simp only [Inner, h.mem_iff]
  cases hc : find ps dir with
  | none =>
    symm
    rw [(C189_inner_partial qs dir).2]
    intro p hp
    exact (C189_inner_partial ps dir).2.1 hc p (h.mem_iff.2 hp)
  | some p => exact (((find_inner hu').2 ((hi p).1 ((find_inner hu).1 hc)))).symm

theorem arrive_project {s : St} (hi : s.inherited = none) :
    (arrive s).project = ((load s.disk).bind (find · s.cwd)).map (·.name) := by
  unfold arrive
  dsimp only
  split
  · next h => exact h.symm
  · split
    · next n h => simp [St.project, h]
    · next h => simp [St.project, h, hi]

/-- Whoever changes the directory, by `cd` or by `pm work`, finds the name of the innermost project in `$DSH_PROJECT`, and
nothing where there is none. -/
theorem C189_cd_partial {w : World} {s : St} (hi : s.inherited = none) {ps : List Project} (hl : load s.disk = some ps) {p : Path}
    (ho : (go w s p).2 = true) : (go w s p).1.project = (find ps (go w s p).1.cwd).map (·.name) := by
  unfold go at ho ⊢
  split at ho
  · cases ho
  · next d hd =>
    dsimp only at ho ⊢
    split at ho
    · next hs =>
      simp only [hs, if_true]
      have hc : (arrive { s with cwd := d }).cwd = d := by
        unfold arrive
        dsimp only
        split
        · rfl
        · split <;> rfl
      rw [arrive_project (s := { s with cwd := d }) hi, hc]
      simp [hl]
    · cases ho

/-- The hooks for a change of project are called once on entering another project, with its name, and otherwise not. -/
theorem C189_hook_partial {w : World} {s : St} {ps : List Project} (hl : load s.disk = some ps) {p : Path}
    (ho : (go w s p).2 = true) :
    (go w s p).1.hooked = s.hooked ++
      match find ps (go w s p).1.cwd with
      | some q => if s.project = some q.name then [] else [q.name]
      | none => [] := by
  unfold go at ho ⊢
  split at ho
  · cases ho
  · next d hd =>
    dsimp only at ho ⊢
    split at ho
    · next hs =>
      simp only [hs, if_true]
      have hc : (arrive { s with cwd := d }).cwd = d := by
        unfold arrive
        dsimp only
        split
        · rfl
        · split <;> rfl
      rw [hc]
      have hl' : load ({ s with cwd := d } : St).disk = some ps := hl
      unfold arrive
      simp only [hl', Option.bind_some]
      have hp : ({ s with cwd := d } : St).project = s.project := rfl
      cases hf : find ps d with
      | none =>
        simp only [Option.map_none, hp]
        split <;> simp
      | some q =>
        simp only [Option.map_some, hp]
        split
        · next h => rw [if_pos h.symm]; simp
        · next h => rw [if_neg (fun e => h e.symm)]
    · cases ho

/-- A shell started inside a project does not know it. -/
theorem C189_start_violated {ps : List Project} {dir : Path} {p : Project} (hp : p ∈ ps) (hd : p.path <+: dir) :
    (start (.list ps) dir).project = none ∧ ∃ q, find ps dir = some q := by
  refine ⟨rfl, ?_⟩
  cases h : find ps dir with
  | none => exact absurd hd ((C189_inner_partial ps dir).2.1 h p hp)
  | some q => exact ⟨q, rfl⟩

/-- Registering the directory one is in makes it the innermost project, but `$DSH_PROJECT` stays what it was. -/
theorem C189_add_violated {w : World} {c : List Str → Option Str} {s : St} {ps : List Project} (hl : load s.disk = some ps) (hu : Unique ps)
    {n : Str} (hn : s.cwd.getLast? = some n) (h1 : ∀ q ∈ ps, q.name ≠ n) (h2 : ∀ q ∈ ps, q.path ≠ s.cwd) :
    let r := command w c s [c!"pm", c!"add"]
    r.2 = 0 ∧ r.1.project = s.project ∧ ∃ ps' p, load r.1.disk = some ps' ∧ find ps' r.1.cwd = some p ∧ p.name = n := by
  have ea : add w s [] = some (.list (ps ++ [⟨n, s.cwd, s.now, s.now⟩])) := by
    have a1 : ps.any (·.name == n) = false := by
      rw [List.any_eq_false]; intro q hq; simpa using h1 q hq
    have a2 : ps.any (·.path == s.cwd) = false := by
      rw [List.any_eq_false]; intro q hq; simpa using h2 q hq
    simp [add, hn, hl, a1, a2]
  have e : command w c s [c!"pm", c!"add"] = write s (add w s []) := rfl
  intro r
  have hr : r = write s (add w s []) := e
  rw [hr, ea]
  refine ⟨rfl, rfl, _, ⟨n, s.cwd, s.now, s.now⟩, rfl, ?_, rfl⟩
  have hu' : Unique (ps ++ [⟨n, s.cwd, s.now, s.now⟩]) := by
    have : Good (.list (ps ++ [⟨n, s.cwd, s.now, s.now⟩])) :=
      good_add (w := w) (s := s) (args := []) (fun qs hqs => by rw [hl] at hqs; cases hqs; exact hu) ea
    exact this _ rfl
  refine (find_inner hu').2 ⟨by simp, List.prefix_refl _, fun q _ hq => hq.length_le⟩

/-- Removing the project one is in leaves its name in `$DSH_PROJECT`. -/
theorem C189_remove_violated {w : World} {c : List Str → Option Str} {s : St} {ps : List Project} (hl : load s.disk = some ps) {p : Project}
    (hp : p ∈ ps) (hv : s.project = some p.name) :
    let r := command w c s [c!"pm", c!"remove", p.name]
    r.2 = 0 ∧ r.1.project = some p.name ∧ ∃ ps', load r.1.disk = some ps' ∧ ∀ q ∈ ps', q.name ≠ p.name := by
  intro r
  have hr : r = command w c s [c!"pm", c!"remove", p.name] := rfl
  rw [hr, C188_remove_partial hl, if_pos ⟨p, hp, rfl⟩]
  refine ⟨rfl, hv, _, rfl, ?_⟩
  intro q hq
  simpa using (List.mem_filter.1 hq).2

/-- Where the settings of a directory cannot be read, one is in the directory, is told that going there failed, and has the
project of the place before. -/
theorem C189_settings_violated {w : World} {s : St} {p d : Path} (hd : w.land p = some d) (hs : w.settings d = false) :
    (go w s p).2 = false ∧ (go w s p).1.cwd = d ∧ (go w s p).1.project = s.project := by
  simp only [go, hd, hs]
  exact ⟨rfl, rfl, rfl⟩

/-- A shell started with `DSH_PROJECT` in its environment keeps it for ever where there is no project. -/
theorem C189_nested_violated {w : World} {s : St} {n : Str} (hi : s.inherited = some n) {ps : List Project} (hl : load s.disk = some ps)
    {p : Path} (ho : (go w s p).2 = true) (hn : find ps (go w s p).1.cwd = none) :
    (go w s p).1.project = some n := by
  unfold go at ho hn ⊢
  split at ho
  · cases ho
  · next d hd =>
    dsimp only at ho hn ⊢
    split at ho
    · next hs =>
      simp only [hd, hs, if_true] at hn ⊢
      have hc : (arrive { s with cwd := d }).cwd = d := by
        unfold arrive
        dsimp only
        split
        · rfl
        · split <;> rfl
      rw [hc] at hn
      have hl' : load ({ s with cwd := d } : St).disk = some ps := hl
      unfold arrive
      simp only [hl', Option.bind_some, hn, Option.map_none]
      split
      · next h =>
        rw [St.project] at h
        simp only [hi] at h
        cases hv : s.var <;> simp [hv] at h
      · simp [St.project, hi]
    · cases ho

/-! ### Concrete cases -/

/-- A world where every text is one component below, and everything is there. -/
def plain : World := ⟨fun d t => some (d ++ [t]), some, fun _ => true⟩

def two : List Project := [⟨c!"web", [c!"src", c!"web"], 5, 1⟩, ⟨c!"api", [c!"src", c!"web", c!"api"], 7, 2⟩]

def shell : St := ⟨.list two, [c!"src"], 9, none, none, []⟩

theorem unique_two : Unique two := by constructor <;> decide

example : Good shell.disk := by intro ps h; cases h; exact unique_two
example : list shell = some [c!"api", c!"web"] := by decide
example : command plain (fun _ => none) shell [c!"pm", c!"add", c!"doc", c!"notes"] =
    ({ shell with disk := .list (two ++ [⟨c!"notes", [c!"src", c!"doc"], 9, 9⟩]) }, 0) := by decide
example : (command plain (fun _ => none) shell [c!"pj", c!"web"]).1.cwd = [c!"src", c!"web"] := by decide
example : (command plain (fun _ => none) shell [c!"pj", c!"web"]).1.project = some c!"web" := by decide
example : (go plain shell [c!"src", c!"web", c!"api", c!"v2"]).1.project = some c!"api" := by decide
example : (go plain shell [c!"src", c!"webx"]).1.project = none := by decide
example : (evs plain shell [.cd [c!"src", c!"web"], .cd [c!"src", c!"web", c!"css"], .cd [c!"src", c!"web", c!"api"], .cd []]).hooked =
    [c!"web", c!"api"] := by decide
example : ({ plain with land := fun _ => none } : World).land [c!"src", c!"web"] = none := rfl

end Dsh.Projects
