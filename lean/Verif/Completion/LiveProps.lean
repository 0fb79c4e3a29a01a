import Verif.Completion.Live
import Verif.Completion.DefsProps
import Verif.Jobs.RecordProps
/-!
# C162: the values Tab asks other programs for
-/
namespace Dsh.Live
open Dsh.CmdLine

/-! ## Specification -/

/-- The world after a history: that of the last change. -/
def worldOf (w : World) : List Ev → World
  | [] => w
  | .change w' :: _ => w'
  | _ :: h => worldOf w h

/-- Tab was pressed in `d` for this key, which was the key of that directory then. -/
def Asked (w : World) (h : List Ev) (key : Key) (d : Dir) : Prop :=
  ∃ after before, h = after ++ .tab key.1 d :: before ∧ scope (worldOf w before) key.1 d = key.2

/-- In the course of the history the program was run for this key, in a directory from which it was asked
for, and these are the values of what it then said. -/
def Heard (w : World) (h : List Ev) (key : Key) (vs : List Str) : Prop :=
  ∃ after before d, h = after ++ .look key :: before ∧ Asked w before key d ∧
    answer key.1 ((worldOf w before).reply key.1 d) = some vs

/-- The innermost directory around `d` with a `.git` in it: the repository `git` works on. -/
def repo (w : World) (d : Dir) : Option Dir := nearest (fun x => w.entry x c!".git") d

/-! ## Lemmas -/

theorem run_world (w : World) (h : List Ev) : (run w h).world = worldOf w h := by
  induction h with
  | nil => rfl
  | cons e h ih =>
    cases e with
    | change w' => rfl
    | tab k d =>
      show (launch _ _ _).world = _
      unfold launch; dsimp only; split <;> exact ih
    | look key =>
      simp only [run, step, worldOf]
      split
      · split <;> exact ih
      · exact ih
    | done key =>
      simp only [run, step, worldOf]
      split
      · split <;> exact ih
      · exact ih
    | pass n => exact ih

theorem Asked.mono {w : World} {h : List Ev} {key : Key} {d : Dir} (e : Ev) (hh : Asked w h key d) : Asked w (e :: h) key d := by
  obtain ⟨a, b, h1, h2⟩ := hh
  exact ⟨e :: a, b, by rw [h1]; rfl, h2⟩

theorem Heard.mono {w : World} {h : List Ev} {key : Key} {vs : List Str} (e : Ev) (hh : Heard w h key vs) : Heard w (e :: h) key vs := by
  obtain ⟨a, b, d, h1, h2⟩ := hh
  exact ⟨e :: a, b, d, by rw [h1]; rfl, h2⟩

theorem put_eq {α : Type} (f : Key → Option α) (k : Key) (v : Option α) (x : Key) :
    put f k v x = if x = k then v else f x := rfl

/-- What is remembered was heard; the threads under way were asked for. -/
structure Inv (w : World) (h : List Ev) (s : State) : Prop where
  kept : ∀ key vs t, s.entries key = some (vs, t) → vs = [] ∨ Heard w h key vs
  asked : ∀ key j, s.running key = some j → Asked w h key j.dir
  heard : ∀ key j r vs, s.running key = some j → j.heard = some r → answer key.1 r = some vs → Heard w h key vs

theorem Inv.mono {w : World} {h : List Ev} {s : State} (e : Ev) (hi : Inv w h s) : Inv w (e :: h) s :=
  ⟨fun key vs t hk => (hi.kept key vs t hk).imp id (·.mono e), fun key j hj => (hi.asked key j hj).mono e,
    fun key j r vs hj hr hv => (hi.heard key j r vs hj hr hv).mono e⟩

theorem inv (w : World) (h : List Ev) : Inv w h (run w h) := by
  induction h with
  | nil => exact ⟨nofun, nofun, nofun⟩
  | cons e h ih =>
    have hm := ih.mono e
    cases e with
    | pass n => exact ⟨hm.kept, hm.asked, hm.heard⟩
    | change w' => exact ⟨hm.kept, hm.asked, hm.heard⟩
    | tab k d =>
      show Inv w _ (launch _ _ _)
      unfold launch
      dsimp only
      split
      · refine ⟨hm.kept, ?_, ?_⟩
        · intro key j hj
          simp only [put_eq] at hj
          split at hj
          · rename_i hk
            cases hj
            subst hk
            exact ⟨[], h, rfl, by rw [run_world]⟩
          · exact hm.asked key j hj
        · intro key j r vs hj hr hv
          simp only [put_eq] at hj
          split at hj
          · cases hj; cases hr
          · exact hm.heard key j r vs hj hr hv
      · exact hm
    | look k0 =>
      simp only [run, step]
      split
      · rename_i j0 hj0
        split
        · refine ⟨hm.kept, ?_, ?_⟩
          · intro key j hj
            simp only [put_eq] at hj
            split at hj
            · rename_i hk
              cases hj
              subst hk
              exact hm.asked key j0 hj0
            · exact hm.asked key j hj
          · intro key j r vs hj hr hv
            simp only [put_eq] at hj
            split at hj
            · rename_i hk
              cases hj
              subst hk
              cases hr
              exact ⟨[], h, j0.dir, rfl, ih.asked key j0 hj0, by rw [← run_world]; exact hv⟩
            · exact hm.heard key j r vs hj hr hv
        · exact hm
      · exact hm
    | done k0 =>
      simp only [run, step]
      split
      · rename_i j0 hj0
        have hrun : ∀ key j, put (run w h).running k0 none key = some j → (run w h).running key = some j := by
          intro key j hj
          simp only [put_eq] at hj
          split at hj
          · cases hj
          · exact hj
        split
        · rename_i vs0 hres
          refine ⟨?_, fun key j hj => hm.asked key j (hrun key j hj), fun key j r vs hj => hm.heard key j r vs (hrun key j hj)⟩
          intro key vs t hk
          simp only [put_eq] at hk
          split at hk
          · rename_i hkey
            cases hk
            subst hkey
            unfold Job.result at hres
            split at hres
            · cases hh : j0.heard with
              | none => rw [hh] at hres; cases hres
              | some r =>
                rw [hh] at hres
                exact .inr (hm.heard key j0 r vs0 hj0 hh (Option.some.inj hres))
            · cases hres; exact .inl rfl
          · exact hm.kept key vs t hk
        · exact ⟨hm.kept, fun key j hj => hm.asked key j (hrun key j hj), fun key j r vs hj => hm.heard key j r vs (hrun key j hj)⟩
        · exact hm
      · exact hm

theorem remembered_cases (w : World) (h : List Ev) (key : Key) :
    remembered (run w h) key = [] ∨ Heard w h key (remembered (run w h) key) := by
  unfold remembered
  split
  · rename_i vs t hk
    exact (inv w h).kept key vs t hk
  · exact .inl rfl

/-! ## C162: where the values come from -/

/-- **C162, nothing is made up.** Whatever happened before: if values are offered in `d`, then the program
had been run for the directory `d` stands for, after a press of Tab in a directory that stood for the same
one; it ended well, and what is offered are the values of what it said, those that fit the word. -/
theorem C162_source_partial (fuzzy : Str → Str → Bool) (w : World) (h : List Ev) (k : Kind) (d : Dir) (word : Str)
    (hne : offer fuzzy (run w h) k d word ≠ []) :
    ∃ after before d' text, h = after ++ .look (k, scope (worldOf w h) k d) :: before ∧
      Asked w before (k, scope (worldOf w h) k d) d' ∧ (worldOf w before).reply k d' = .said text ∧
      offer fuzzy (run w h) k d word = (values k text).filter (fits fuzzy word) := by
  unfold offer at hne ⊢
  rw [run_world] at hne ⊢
  rcases remembered_cases w h (k, scope (worldOf w h) k d) with h0 | h0
  · rw [h0] at hne; exact absurd rfl hne
  · obtain ⟨a, b, d', h1, h2, h3⟩ := h0
    cases hr : (worldOf w b).reply k d' with
    | said text =>
      rw [hr] at h3
      exact ⟨a, b, d', text, h1, h2, hr, by rw [← Option.some.inj h3]⟩
    | failed =>
      rw [hr] at h3
      rw [← Option.some.inj h3] at hne
      exact absurd rfl hne
    | error => rw [hr] at h3; cases h3

theorem nearest_some {f : Dir → Bool} {d x : Dir} (h : nearest f d = some x) : f x = true := by
  induction d with
  | nil =>
    unfold nearest at h
    split at h
    · cases h; assumption
    · cases h
  | cons c l ih =>
    unfold nearest at h
    split at h
    · cases h; assumption
    · exact ih h

/-- Looking for less, one does not find anything before the first found. -/
theorem nearest_sub {f g : Dir → Bool} (hg : ∀ x, g x = true → f x = true) (d : Dir) :
    nearest g d = (nearest f d).bind (nearest g) := by
  induction d with
  | nil =>
    rw [nearest, nearest]
    split
    · rename_i h; simp [hg _ h, nearest, h]
    · rename_i h
      split
      · simp [nearest, h]
      · rfl
  | cons c l ih =>
    rw [nearest, nearest.eq_def f]
    dsimp only
    split
    · rename_i h; simp [hg _ h, nearest, h]
    · rename_i h
      split
      · rw [Option.bind_some, nearest, if_neg h]
      · exact ih

theorem git_marked {w : World} {x : Dir} (h : w.entry x c!".git" = true) : marked w x = true := by
  unfold marked
  rw [List.any_eq_true]
  exact ⟨_, by simp [markers], h⟩

/-- **C162, the right repository.** Directories that share one memory of branches, remotes or working trees
belong to the same repository. -/
theorem C162_repo_partial (w : World) (k : Kind) (hk : k = .branch ∨ k = .remote ∨ k = .worktree) (d d' : Dir)
    (h : scope w k d = scope w k d') : repo w d = repo w d' := by
  have h : root w d = root w d' := by rcases hk with rfl | rfl | rfl <;> exact h
  unfold repo
  have hsub : ∀ x, w.entry x c!".git" = true → marked w x = true := fun x hx => git_marked hx
  have key : ∀ d, nearest (fun x => w.entry x c!".git") d =
      if (nearest (marked w) d).isSome then nearest (fun x => w.entry x c!".git") (root w d) else none := by
    intro d
    rw [nearest_sub (f := marked w) hsub d]
    unfold root
    cases nearest (marked w) d <;> rfl
  have hnone : ∀ d, nearest (marked w) d = none → marked w d = false := by
    intro d h
    cases d with
    | nil => rw [nearest] at h; split at h <;> simp_all
    | cons c l => rw [nearest] at h; split at h <;> simp_all
  rw [key d, key d', h]
  cases h1 : nearest (marked w) d with
  | some x =>
    cases h2 : nearest (marked w) d' with
    | some y => rfl
    | none =>
      have e : x = d' := by simpa [root, h1, h2] using h
      have := nearest_some h1
      rw [e, hnone d' h2] at this
      cases this
  | none =>
    cases h2 : nearest (marked w) d' with
    | none => rfl
    | some y =>
      have e : d = y := by simpa [root, h1, h2] using h
      have := nearest_some h2
      rw [← e, hnone d h1] at this
      cases this

/-- The history has no change of the world. -/
def Still (h : List Ev) : Prop := ∀ w, Ev.change w ∉ h

theorem still_world {w : World} {h : List Ev} (hs : Still h) : worldOf w h = w := by
  induction h with
  | nil => rfl
  | cons e h ih =>
    have : Still h := fun w' hw => hs w' (List.mem_cons_of_mem _ hw)
    cases e with
    | change w' => exact absurd (List.mem_cons_self) (hs w')
    | _ => exact ih this

/-- **C162, as it is, while nothing changes.** Let the answer of the program depend only on the repository
(for `kubectl`: on the directory). Then, in a world that stays as it is, Tab offers nothing, or exactly
those values the program says in this very directory that fit the word. -/
theorem C162_fresh_partial (fuzzy : Str → Str → Bool) (w : World) (h : List Ev) (hs : Still h) (k : Kind) (d : Dir) (word : Str)
    (hr : (k = .branch ∨ k = .remote ∨ k = .worktree) → ∀ x y, repo w x = repo w y → w.reply k x = w.reply k y) :
    offer fuzzy (run w h) k d word = [] ∨
      ∃ text, w.reply k d = .said text ∧ offer fuzzy (run w h) k d word = (values k text).filter (fits fuzzy word) := by
  by_cases hne : offer fuzzy (run w h) k d word = []
  · exact .inl hne
  · obtain ⟨a, b, d', text, h1, ⟨a', b', h4, h5⟩, h2, h3⟩ := C162_source_partial fuzzy w h k d word hne
    have sb : Still b := fun w' hw => hs w' (by rw [h1]; simp [hw])
    have sb' : Still b' := fun w' hw => sb w' (by rw [h4]; simp [hw])
    rw [still_world hs] at h5
    rw [still_world sb'] at h5
    rw [still_world sb] at h2
    refine .inr ⟨text, ?_, h3⟩
    rw [← h2]
    dsimp only at h5
    by_cases hk : k = .branch ∨ k = .remote ∨ k = .worktree
    · exact hr hk _ _ (C162_repo_partial w k hk d d' h5.symm)
    · have : d' = d := by
        cases k with
        | branch => exact absurd (.inl rfl) hk
        | remote => exact absurd (.inr (.inl rfl)) hk
        | worktree => exact absurd (.inr (.inr rfl)) hk
        | context => exact h5
        | space => exact h5
      rw [this]

/-- **C162, the second press.** Let nothing be known, or what is known be a second old, and no program be
under way. After a press of Tab, when the program has answered, Tab offers exactly the values of its
answer that fit. -/
theorem C162_second_partial (fuzzy : Str → Str → Bool) (w : World) (h : List Ev) (k : Kind) (d : Dir) (word text : Str)
    (hold : ∀ vs t, (run w h).entries (k, scope (worldOf w h) k d) = some (vs, t) → t + 1000 ≤ (run w h).now)
    (hidle : (run w h).running (k, scope (worldOf w h) k d) = none)
    (hf : (worldOf w h).found k = true) (hr : (worldOf w h).reply k d = .said text) :
    offer fuzzy (run w (.done (k, scope (worldOf w h) k d) :: .look (k, scope (worldOf w h) k d) :: .tab k d :: h)) k d word =
      (values k text).filter (fits fuzzy word) := by
  have hw : wanted (run w h) (k, scope (worldOf w h) k d) = true := by
    unfold wanted
    split
    · rename_i vs t he
      have := hold vs t he
      exact decide_eq_true (by unfold ttl; omega)
    · rfl
  rw [← run_world] at hw hidle hf hr ⊢
  simp only [run, step, launch, hw, hidle, Option.isNone_none, and_self, if_true]
  simp only [put, if_true, Option.isNone_none, hf, hr, Job.result, Option.map_some, answer]
  simp only [offer, remembered, put, if_true]

/-! ### Branches are read as they are listed -/

theorem trimStart_id {s : Str} (h : ∀ c ∈ s.head?, rustWhitespace c = false) : trimStart s = s := by
  unfold trimStart
  cases s with
  | nil => rfl
  | cons c s => rw [List.dropWhile_cons, h c (by simp)]; rfl

theorem trim_id {s : Str} (h : ∀ c ∈ s, rustWhitespace c = false) : trim s = s := by
  unfold trim
  rw [trimStart_id (fun c hc => h c (List.mem_of_head? hc))]
  unfold trimEnd
  have : s.reverse.dropWhile rustWhitespace = s.reverse := by
    cases hr : s.reverse with
    | nil => rfl
    | cons c r => rw [List.dropWhile_cons, h c (by rw [← List.mem_reverse, hr]; simp)]; rfl
  rw [this, List.reverse_reverse]

/-- **C162, as listed.** A program that prints one name a line, names without blanks, has these names read. -/
theorem C162_lines_partial (k : Kind) (hk : k ≠ .worktree) (names : List Str)
    (h : ∀ n ∈ names, n ≠ [] ∧ ∀ c ∈ n, rustWhitespace c = false) :
    values k (names.flatMap (· ++ ['\n'])) = names := by
  have hl := Record.lines_text names (fun p hp hn => absurd ((h p hp).2 _ hn) (by decide)) (by
    intro p hp hs
    obtain ⟨r, hr⟩ := List.isSuffixOf_iff_suffix.1 hs
    exact absurd ((h p hp).2 '\r' (by rw [← hr]; simp)) (by decide)) [] (by simp)
  rw [List.append_nil, if_pos rfl, List.append_nil] at hl
  have : textLines (names.flatMap (· ++ ['\n'])) = names := by
    unfold textLines
    rw [hl]
    have h1 : names.map trim = names := by
      exact (List.map_congr_left (f := trim) (g := id) (fun n hn => trim_id (h n hn).2)).trans (List.map_id _)
    rw [h1, List.filter_eq_self]
    intro n hn
    simpa using (h n hn).1
  cases k with
  | worktree => exact absurd rfl hk
  | _ => exact this

theorem trim_ends {s : Str} (h1 : ∀ c ∈ s.head?, rustWhitespace c = false) (h2 : ∀ c ∈ s.getLast?, rustWhitespace c = false) :
    trim s = s := by
  unfold trim
  rw [trimStart_id h1]
  unfold trimEnd
  have : s.reverse.dropWhile rustWhitespace = s.reverse := by
    cases hr : s.reverse with
    | nil => rfl
    | cons c r =>
      rw [List.dropWhile_cons, h2 c (by rw [← List.head?_reverse, hr]; rfl)]; rfl
  rw [this, List.reverse_reverse]

/-- A working tree as `git worktree list --porcelain` prints it: four lines. -/
def porcelain (b : Str × Str × Str) : List Str :=
  [c!"worktree " ++ b.1, c!"HEAD " ++ b.2.1, c!"branch " ++ b.2.2, []]

/-- A text on one line, without blanks at its ends. -/
def OneLine (s : Str) : Prop := s ≠ [] ∧ '\n' ∉ s ∧ ∀ c ∈ s.getLast?, rustWhitespace c = false

/-- **C162, working trees.** Of the list of working trees the directories are read, with blanks in them. -/
theorem C162_worktrees_partial (bs : List (Str × Str × Str))
    (h : ∀ b ∈ bs, OneLine b.1 ∧ OneLine b.2.1 ∧ OneLine b.2.2) :
    values .worktree ((bs.flatMap porcelain).flatMap (· ++ ['\n'])) = bs.map (·.1) := by
  have hend : ∀ (p s : Str), OneLine s → p ≠ [] → (∀ c ∈ p.head?, rustWhitespace c = false) → '\n' ∉ p →
      '\n' ∉ p ++ s ∧ (¬ ['\r'].isSuffixOf (p ++ s)) ∧ trim (p ++ s) = p ++ s ∧ p ++ s ≠ [] := by
    intro p s hs hp hph hpn
    obtain ⟨h1, h2, h3⟩ := hs
    have hl : (p ++ s).getLast? = s.getLast? := by
      cases s with
      | nil => exact absurd rfl h1
      | cons c s =>
        rw [List.getLast?_append, List.getLast?_cons]
        rfl
    refine ⟨by simp [h2, hpn], ?_, ?_, by simp [hp]⟩
    · intro hsuf
      obtain ⟨r, hr⟩ := List.isSuffixOf_iff_suffix.1 hsuf
      have : (p ++ s).getLast? = some '\r' := by rw [← hr]; simp
      rw [hl] at this
      exact absurd (h3 _ this) (by decide)
    · refine trim_ends ?_ (by rw [hl]; exact h3)
      cases p with
      | nil => exact absurd rfl hp
      | cons c p => exact hph
  have hall : ∀ b ∈ bs, ∀ l ∈ porcelain b, '\n' ∉ l ∧ (¬ ['\r'].isSuffixOf l) ∧ trim l = l := by
    intro b hb l hl
    obtain ⟨h1, h2, h3⟩ := h b hb
    simp only [porcelain, List.mem_cons, List.not_mem_nil, or_false] at hl
    rcases hl with rfl | rfl | rfl | rfl
    · obtain ⟨a, b, c, -⟩ := hend c!"worktree " _ h1 (by decide) (by decide) (by decide); exact ⟨a, b, c⟩
    · obtain ⟨a, b, c, -⟩ := hend c!"HEAD " _ h2 (by decide) (by decide) (by decide); exact ⟨a, b, c⟩
    · obtain ⟨a, b, c, -⟩ := hend c!"branch " _ h3 (by decide) (by decide) (by decide); exact ⟨a, b, c⟩
    · exact ⟨by decide, by decide, by decide⟩
  have hl := Record.lines_text (bs.flatMap porcelain)
    (fun p hp => by obtain ⟨b, hb, hp⟩ := List.mem_flatMap.1 hp; exact (hall b hb p hp).1)
    (fun p hp => by obtain ⟨b, hb, hp⟩ := List.mem_flatMap.1 hp; exact (hall b hb p hp).2.1) [] (by simp)
  rw [List.append_nil, if_pos rfl, List.append_nil] at hl
  have hmap : (bs.flatMap porcelain).map trim = bs.flatMap porcelain :=
    (List.map_congr_left (f := trim) (g := id) (fun p hp => by
      obtain ⟨b, hb, hp⟩ := List.mem_flatMap.1 hp; exact (hall b hb p hp).2.2)).trans (List.map_id _)
  show (textLines _).filterMap (stripPrefix c!"worktree ") = _
  unfold textLines
  rw [hl, hmap]
  clear hl hmap hall h hend
  induction bs with
  | nil => rfl
  | cons b bs ih =>
    rw [List.flatMap_cons, List.filter_append, List.filterMap_append, ih, List.map_cons]
    simp [porcelain, stripPrefix, List.isPrefixOf]

/-! ## C162 fails -/

/-- A repository in `/p` with these branches. -/
def sample (branches : List Str) : World where
  entry d n := decide (d = [c!"p"]) && decide (n = c!".git")
  reply k _ := if k = .branch then .said (branches.flatMap (· ++ ['\n'])) else .failed
  found _ := true

/-- What remains without a thread that has ended. -/
theorem none_done {w : World} {h : List Ev} {key : Key} (hn : Ev.done key ∉ h) : (run w h).entries key = none := by
  induction h with
  | nil => rfl
  | cons e h ih =>
    have ih := ih (fun hh => hn (List.mem_cons_of_mem _ hh))
    cases e with
    | pass n => exact ih
    | change w' => exact ih
    | tab k d =>
      show (launch _ _ _).entries key = none
      unfold launch; dsimp only; split <;> exact ih
    | look k0 =>
      simp only [run, step]
      split
      · split <;> exact ih
      · exact ih
    | done k0 =>
      have hne : key ≠ k0 := fun he => hn (by rw [he]; simp)
      simp only [run, step]
      split
      · split
        · simp only [put_eq, if_neg hne]; exact ih
        · exact ih
        · exact ih
      · exact ih

/-- **C162 fails: the first press.** As long as no program has ended, Tab offers nothing at all of this
kind, whatever the repository holds. -/
theorem C162_first_violated (fuzzy : Str → Str → Bool) (w : World) (h : List Ev) (k : Kind) (d : Dir) (word : Str)
    (hn : Ev.done (k, scope (worldOf w h) k d) ∉ h) : offer fuzzy (run w h) k d word = [] := by
  unfold offer remembered
  rw [run_world, none_done hn]
  rfl

/-- **C162 fails: long ago.** Values of any age are offered once more: a branch that was deleted is
offered, one that was made is not, however long ago that was. -/
theorem C162_stale_violated (n : Nat) :
    let key : Key := (.branch, [c!"p"])
    let h := [.pass n, .change (sample [c!"main", c!"new"]), .done key, .look key, .tab .branch [c!"p"]]
    offer (fun _ _ => true) (run (sample [c!"main", c!"old"]) h) .branch [c!"p"] [] = [c!"main", c!"old"] ∧
      (worldOf (sample [c!"main", c!"old"]) h).reply .branch [c!"p"] = .said c!"main\nnew\n" := by
  exact ⟨by rfl, by rfl⟩

/-- The same for every state: what is offered does not depend on what the programs would say now. -/
theorem C162_old_violated (fuzzy : Str → Str → Bool) (w w' : World) (h : List Ev) (n : Nat) (k : Kind) (d : Dir) (word : Str)
    (he : w'.entry = (worldOf w h).entry) :
    offer fuzzy (run w (.pass n :: .change w' :: h)) k d word = offer fuzzy (run w h) k d word := by
  have : scope w' k d = scope (worldOf w h) k d := by
    have hm : marked w' = marked (worldOf w h) := by funext x; unfold marked; rw [he]
    cases k <;> simp only [scope, root, hm]
  simp only [offer, run, step]
  rw [this, run_world]
  rfl

/-- **C162 fails: a program that is too slow or fails once.** Its silence replaces the values known. -/
theorem C162_lost_violated :
    let key : Key := (.branch, [c!"p"])
    let w := sample [c!"main"]
    let h1 := [.done key, .look key, .tab .branch [c!"p"]]
    let h2 := [.change w, .done key, .look key, .change { w with reply := fun _ _ => .failed }, .tab .branch [c!"p"], .pass 1000] ++ h1
    offer (fun _ _ => true) (run w h1) .branch [c!"p"] [] = [c!"main"] ∧
      offer (fun _ _ => true) (run w h2) .branch [c!"p"] [] = [] ∧
      (worldOf w h2).reply .branch [c!"p"] = .said c!"main\n" := by
  exact ⟨by rfl, by rfl, by rfl⟩

/-- **C162 fails: a program that always needs more than 1.5 seconds** is asked again and again, and never
anything is offered. -/
theorem C162_slow_violated (fuzzy : Str → Str → Bool) (w : World) (h : List Ev) (k : Kind) (d : Dir) (word : Str)
    (h0 : ∀ x, w.reply k x = .failed) (hc : ∀ w', Ev.change w' ∈ h → ∀ x, w'.reply k x = .failed) :
    offer fuzzy (run w h) k d word = [] := by
  cases hne : offer fuzzy (run w h) k d word with
  | nil => rfl
  | cons a l =>
    obtain ⟨after, before, d', text, h1, -, h2, -⟩ := C162_source_partial fuzzy w h k d word (by rw [hne]; simp)
    have hw : ∀ b : List Ev, (∀ w', Ev.change w' ∈ b → ∀ x, w'.reply k x = .failed) → ∀ x, (worldOf w b).reply k x = .failed := by
      intro b
      induction b with
      | nil => exact fun _ => h0
      | cons e b ih =>
        intro hb
        have := ih (fun w' hw' => hb w' (List.mem_cons_of_mem _ hw'))
        cases e with
        | change w' => exact hb w' List.mem_cons_self
        | _ => exact this
    rw [hw before (fun w' hw' => hc w' (by rw [h1]; simp [hw'])) d'] at h2
    cases h2

/-! ## Which question a line asks -/

open Dsh.Defs in
theorem looksSub_not {u : Tables} {w : Str} (h : looksSub u w = true) : isOpt w = false ∧ looksPath w = false := by
  unfold looksSub at h
  split at h
  · cases h
  · rename_i h1
    split at h
    · cases h
    · rename_i h2
      split at h
      · cases h
      · rename_i h3
        simp only [Bool.not_eq_true] at h1 h2 h3
        exact ⟨h1, by unfold looksPath; rw [h3, h2]; rfl⟩

theorem takeWhile_head {f : Str → Bool} {l : List Str} (h : l.takeWhile f = []) : l.dropWhile f = l := by
  cases l with
  | nil => rfl
  | cons x l =>
    rw [List.takeWhile_cons] at h
    split at h
    · cases h
    · rename_i hx; rw [List.dropWhile_cons, if_neg hx]

theorem argIndex_last (ws : List Str) (w : Str) : argIndex (ws ++ [w]) w = ws.length := by
  unfold argIndex
  simp

open Dsh.Defs in
/-- The words behind a subcommand without subcommands of its own are its arguments. -/
theorem seen_args (u : Tables) (db : Str → Option Def) {c S w : Str} {d : Def} {b : Sub} {ws : List Str}
    (hdb : db c = some d) (hc : Word c) (hco : isOpt c = false) (hS : Word S) (hlS : looksSub u S = true)
    (hf : findSub d.subs S = some b) (hb : b.name = S) (hbs : b.subs = []) (hd : Dashed (d.options ++ b.options))
    (hws : ∀ x ∈ ws, Word x ∧ isOpt x = false) (hw : w = [] ∨ Word w) (hwo : isOpt w = false) :
    ∃ i, (seen u db id (typed c (S :: ws) w) (typed c (S :: ws) w).length).p.command = c ∧
      (seen u db id (typed c (S :: ws) w) (typed c (S :: ws) w).length).p.path = [S] ∧
      (seen u db id (typed c (S :: ws) w) (typed c (S :: ws) w).length).p.current = w ∧
      (seen u db id (typed c (S :: ws) w) (typed c (S :: ws) w).length).p.ctx = .arg i ∧
      (ws = [] → i = 0) ∧ (∀ r rest, ws = r :: rest → looksSub u r = true → i = ws.length) ∧
      (∀ r rest, ws = r :: rest → looksSub u r = false → looksSub u w = true → i = 0) ∧
      (seen u db id (typed c (S :: ws) w) (typed c (S :: ws) w).length).p.args = ws ++ [w] := by
  have hSo : isOpt S = false := (looksSub_not hlS).1
  have hwr : isRedirect w = false := by
    rcases hw with rfl | hw
    · decide
    · exact hw.no_redirect
  have hall : ∀ x ∈ ws ++ [w], isRedirect x = false ∧ isOpt x = false := by
    intro x hx
    rcases List.mem_append.1 hx with h | h
    · exact ⟨(hws x h).1.no_redirect, (hws x h).2⟩
    · simp only [List.mem_cons, List.not_mem_nil, or_false] at h; rw [h]; exact ⟨hwr, hwo⟩
  have hprev := prev_typed (c := c) (ss := S :: ws) w hco (by
    intro s hs
    rcases List.mem_cons.1 hs with rfl | hs
    · exact hSo
    · exact (hws s hs).2)
  have hctx := context_word u (i := ws.length + 1 + 1) (path := ((S :: ws) ++ [w]).takeWhile (looksSub u))
    (args := (scan false false (((S :: ws) ++ [w]).dropWhile (looksSub u))).2) hwo hprev
  have hp := parse_typed u (c := c) (ws := S :: ws) (w := w) hc (by
    intro x hx
    rcases List.mem_cons.1 hx with rfl | hx
    · exact hS
    · exact (hws x hx).1) hw
  rw [analyze_typed u c (S :: ws) w _ (no_inline hwo), hasSpace_typed hc] at hp
  simp only [List.cons_append, List.takeWhile_cons, List.dropWhile_cons, hlS, if_true, List.length_cons] at hp hctx hprev
  have hraw : ∀ x ∈ (ws ++ [w]).dropWhile (looksSub u), isRedirect x = false ∧ isOpt x = false := fun x hx =>
    hall x ((List.dropWhile_sublist _).subset hx)
  rw [scan_words hraw] at hp hctx
  dsimp only at hp hctx
  have hseen : seen u db id (typed c (S :: ws) w) (typed c (S :: ws) w).length =
      correct d ⟨parse u (typed c (S :: ws) w) (typed c (S :: ws) w).length, none⟩ := by
    unfold seen
    dsimp only [id]
    unfold correctWith
    rw [hp]
    simp only [hdb]
  rw [hseen, hp]
  have htd : (ws ++ [w]).takeWhile (looksSub u) ++ (ws ++ [w]).dropWhile (looksSub u) = ws ++ [w] :=
    List.takeWhile_append_dropWhile
  have hwalk : walk d.subs (S :: (ws ++ [w]).takeWhile (looksSub u)) = ([S], [], (ws ++ [w]).takeWhile (looksSub u)) := by
    rw [walk, hf]
    dsimp only
    rw [hbs, walk_nil, hb]
  unfold correct
  simp only [hwalk]
  cases hinv : (ws ++ [w]).takeWhile (looksSub u) with
  | cons first more =>
    have hfirst : isOpt first = false := (hall first (by rw [← htd, hinv]; simp)).2
    have htd' : (first :: more) ++ (ws ++ [w]).dropWhile (looksSub u) = ws ++ [w] := by rw [← hinv]; exact htd
    rw [hinv] at hctx
    refine ⟨ws.length, ?_⟩
    dsimp only
    rw [if_neg (fun h => by simpa using h.2.2.1), if_neg (fun h => by rw [hfirst] at h; exact absurd h.2.2 (by simp)),
      if_neg (by rcases hctx with h | ⟨n, h⟩ <;> rw [h] <;> simp), htd', argIndex_last]
    refine ⟨rfl, rfl, rfl, rfl, fun h => by rw [h]; rfl, fun _ _ _ _ => rfl, fun r rest hr hnr _ => ?_, rfl⟩
    rw [hr] at hinv
    simp [hnr] at hinv
  | nil =>
    have hdw : (ws ++ [w]).dropWhile (looksSub u) = ws ++ [w] := takeWhile_head hinv
    rw [hinv, hdw] at hctx
    simp only [hdw]
    have hov : ∀ q : Parsed, q.raw = ws ++ [w] → q.current = w → q.path = [S] → optValue d q = none := by
      intro q h1 h2 h3
      refine optValue_word d h1 h2 hwo (fun x hx => (hws x hx).2) ?_
      rw [h3]
      unfold optsAlong
      rw [optsDown, hf]
      simpa [hbs, optsDown] using hd
    rw [hov _ rfl rfl rfl]
    have hnosub : ∀ r rest, ws = r :: rest → looksSub u r = true → False := by
      intro r rest hr hl
      rw [hr] at hinv
      simp [hl] at hinv
    by_cases hsub : context u (ws.length + 1 + 1) w [S] (ws ++ [w]) (c :: S :: (ws ++ [w])) true = .sub
    · refine ⟨0, ?_⟩
      rw [if_pos ⟨hsub, rfl⟩]
      exact ⟨rfl, rfl, rfl, rfl, fun _ => rfl, fun r rest hr hl => (hnosub r rest hr hl).elim, fun _ _ _ _ _ => rfl, rfl⟩
    · rw [if_neg (fun h => hsub h.1)]
      obtain ⟨n, hn⟩ := hctx.resolve_left hsub
      have hval : n = ws.length ∧ looksSub u w = false := by
        have hcur := hn
        unfold context at hcur
        have hprev' : isOpt (((c :: S :: (ws ++ [w]))[ws.length + 1]?).getD []) = false := by simpa using hprev
        simp only [no_inline hwo, not_long hwo, hwo, Bool.false_eq_true, if_false, Nat.add_sub_cancel, hprev',
          Bool.false_and, Bool.not_true, and_false, hwr] at hcur
        have hred : isRedirect (((c :: S :: (ws ++ [w]))[ws.length + 1]?).getD []) = false := by
          rcases List.eq_nil_or_concat ws with rfl | ⟨m, x, rfl⟩
          · simpa using hS.no_redirect
          · have : ((c :: S :: (m.concat x ++ [w]))[(m.concat x).length + 1]?).getD [] = x := by simp
            rw [this]
            exact (hws x (by simp)).1.no_redirect
        rw [hred] at hcur
        simp only [Bool.false_eq_true, if_false, argIndex_last, List.isEmpty_cons, Bool.false_or, if_true] at hcur
        by_cases hlw : looksSub u w = true
        · rw [(looksSub_not hlw).2, hlw] at hcur
          simp at hcur
        · simp only [Bool.not_eq_true] at hlw
          rw [hlw] at hcur
          simp only [Bool.false_eq_true, if_false, ite_self] at hcur
          injection hcur with hcur
          exact ⟨hcur.symm, hlw⟩
      rw [hn]
      dsimp only
      rw [combined_word d rfl rfl hwo (fun x hx => (hws x hx).2)]
      dsimp only
      have hsr : scanRaw w [] (ws ++ [w]) = (false, [], [], 0) := by
        cases ws with
        | nil => simp [scanRaw, findSub]
        | cons x l => simp [scanRaw, findSub]
      refine ⟨n, ?_⟩
      unfold finishScan
      simp only [List.any_nil, Bool.false_eq_true, if_false, hsr, if_true]
      rw [hov _ rfl rfl rfl]
      exact ⟨rfl, rfl, rfl, rfl, fun h => by rw [hval.1, h]; rfl, fun r rest hr hl => (hnosub r rest hr hl).elim,
        fun _ _ _ _ hl => (by rw [hval.2] at hl; cases hl), rfl⟩

/-- The name of a program and a subcommand with the definition of both; behind the subcommand no
subcommands are possible, and options begin with `-`. -/
structure Known (u : Tables) (db : Str → Option Defs.Def) (c S : Str) (d : Defs.Def) (b : Defs.Sub) : Prop where
  db : db c = some d
  find : Defs.findSub d.subs S = some b
  name : b.name = S
  leaf : b.subs = []
  dashed : Defs.Dashed (d.options ++ b.options)
  word : Defs.Word S
  looks : looksSub u S = true

theorem git_word : Defs.Word c!"git" ∧ isOpt c!"git" = false := by
  simp only [Defs.Word, PlainWord]; decide

open Dsh.Defs in
/-- **C162, the question.** With a definition of `git` in which the subcommand is listed: `git switch`,
`checkout`, `merge` and `rebase` are answered with branches, `git push`, `pull` and `fetch` with remotes,
and behind a remote whose name looks like a subcommand with branches. -/
theorem C162_question_partial (u : Tables) (db : Str → Option Def) (fuzzy : Str → Str → Bool) (s : State) (dir : Dir) {S w : Str} {d : Def}
    {b : Sub} (hk : Known u db c!"git" S d b) (ws : List Str)
    (hws : ∀ x ∈ ws, Word x ∧ isOpt x = false) (hw : w = [] ∨ Word w) (hwo : isOpt w = false) :
    ((S = c!"checkout" ∨ S = c!"switch" ∨ S = c!"merge" ∨ S = c!"rebase") →
      offered u db id fuzzy s dir (typed c!"git" (S :: ws) w) (typed c!"git" (S :: ws) w).length = offer fuzzy s .branch dir w) ∧
    ((S = c!"push" ∨ S = c!"pull" ∨ S = c!"fetch") →
      (ws = [] → offered u db id fuzzy s dir (typed c!"git" (S :: ws) w) (typed c!"git" (S :: ws) w).length = offer fuzzy s .remote dir w) ∧
      (∀ r rest, ws = r :: rest → looksSub u r = true →
        offered u db id fuzzy s dir (typed c!"git" (S :: ws) w) (typed c!"git" (S :: ws) w).length = offer fuzzy s .branch dir w)) := by
  obtain ⟨i, h1, h2, h3, h4, h5, h6, -⟩ := seen_args u db (c := c!"git") (S := S) (w := w) (ws := ws) hk.db git_word.1 git_word.2
    hk.word hk.looks hk.find hk.name hk.leaf hk.dashed hws hw hwo
  have hask : ∀ k, gitKind [S] i = some k →
      offered u db id fuzzy s dir (typed c!"git" (S :: ws) w) (typed c!"git" (S :: ws) w).length = offer fuzzy s k dir w := by
    intro k hk
    unfold offered
    dsimp only
    have : ask (seen u db id (typed c!"git" (S :: ws) w) (typed c!"git" (S :: ws) w).length).p = some k := by
      unfold ask gitAsk
      rw [if_pos h1, h4, h2]
      exact hk
    rw [this, h3]
  refine ⟨fun hS => hask _ ?_, fun hS => ⟨fun he => hask _ ?_, fun r rest hr hl => hask _ ?_⟩⟩
  · rcases hS with rfl | rfl | rfl | rfl <;> rfl
  · rw [h5 he]; rcases hS with rfl | rfl | rfl <;> rfl
  · have : i = rest.length + 1 := by rw [h6 r rest hr hl, hr]; rfl
    rw [this]
    rcases hS with rfl | rfl | rfl <;> rfl

open Dsh.Defs in
/-- **C162 fails: behind other remotes.** Behind a remote whose name does not look like a subcommand (a
letter, a path, `home`), a word that does look like one is taken for a remote again. -/
theorem C162_remote_violated (u : Tables) (db : Str → Option Def) (fuzzy : Str → Str → Bool) (s : State) (dir : Dir) {S r w : Str} {d : Def}
    {b : Sub} (hk : Known u db c!"git" S d b) (hS : S = c!"push" ∨ S = c!"pull" ∨ S = c!"fetch")
    (hr : Word r) (hro : isOpt r = false) (hrl : looksSub u r = false) (hw : Word w) (hwl : looksSub u w = true) :
    offered u db id fuzzy s dir (typed c!"git" [S, r] w) (typed c!"git" [S, r] w).length = offer fuzzy s .remote dir w := by
  obtain ⟨i, h1, h2, h3, h4, -, -, h7, -⟩ := seen_args u db (c := c!"git") (S := S) (w := w) (ws := [r]) hk.db git_word.1 git_word.2
    hk.word hk.looks hk.find hk.name hk.leaf hk.dashed (by simp [hr, hro]) (.inr hw) (looksSub_not hwl).1
  have hi := h7 r [] rfl hrl hwl
  unfold offered
  dsimp only
  have : ask (seen u db id (typed c!"git" [S, r] w) (typed c!"git" [S, r] w).length).p = some .remote := by
    unfold ask gitAsk
    rw [if_pos h1, h4, h2, hi]
    rcases hS with rfl | rfl | rfl <;> rfl
  rw [this, h3]

open Dsh.Defs in
theorem optValue_after (d : Def) {p : Parsed} {l : List Str} {x w : Str} (hr : p.raw = l ++ [x] ++ [w]) (hc : p.current = w)
    (hw : isOpt w = false) (hx : isOpt x = false) (hi : ∀ y ∈ l, inlineIs [] y = false) (hd : Dashed (optsAlong d p.path)) :
    optValue d p = none := by
  have hi : w = [] → ∀ y ∈ l ++ [x], inlineIs [] y = false := by
    intro _ y hy
    rcases List.mem_append.1 hy with h | h
    · exact hi y h
    · simp only [List.mem_cons, List.not_mem_nil, or_false] at h
      unfold inlineIs; rw [h, no_inline hx]
  unfold optValue
  rw [rawToken_last hr hc hi, rawPrevious_last hr hc hi, hc]
  simp only [no_inline hw, Option.bind_some, attached_not (.inl hw), Option.map_none, hw, Bool.false_eq_true, if_false]
  rw [List.getLast?_append]
  simp only [List.getLast?_singleton, Option.some_or]
  rw [List.find?_eq_none.2]
  intro o ho h
  simp only [Opt.named, Bool.and_eq_true, Bool.or_eq_true, decide_eq_true_eq] at h
  have := hd o ho x h.1
  rw [hx] at this
  cases this

open Dsh.Defs in
/-- **C162 fails: `git push -u origin`.** The remote behind `-u` or `-f` is taken for the value of the
option, and remotes are offered again where the branch is typed. -/
theorem C162_flag_violated (u : Tables) (db : Str → Option Def) (fuzzy : Str → Str → Bool) (s : State) (dir : Dir) {S f r w : Str} {d : Def}
    {b : Sub} (hk : Known u db c!"git" S d b) (hS : S = c!"push" ∨ S = c!"pull" ∨ S = c!"fetch")
    (hf : f = c!"-u" ∨ f = c!"-f") (hr : Word r) (hro : isOpt r = false) (hw : w = [] ∨ Word w) (hwo : isOpt w = false) :
    offered u db id fuzzy s dir (typed c!"git" [S, f, r] w) (typed c!"git" [S, f, r] w).length = offer fuzzy s .remote dir w := by
  have hfw : Word f := by rcases hf with rfl | rfl <;> (simp only [Word, PlainWord]; decide)
  have hfo : isOpt f = true := by rcases hf with rfl | rfl <;> rfl
  have hfi : splitInline f = none := by rcases hf with rfl | rfl <;> decide
  have hft : takesValue f = true := by rcases hf with rfl | rfl <;> decide
  have hfr : isRedirect f = false := hfw.no_redirect
  have hfs : looksSub u f = false := looksSub_opt u hfo
  have hwr : isRedirect w = false := by
    rcases hw with rfl | hw
    · decide
    · exact hw.no_redirect
  have hp := parse_typed u (c := c!"git") (ws := [S, f, r]) (w := w) git_word.1 (by
    intro x hx
    simp only [List.mem_cons, List.not_mem_nil, or_false] at hx
    rcases hx with rfl | rfl | rfl
    · exact hk.word
    · exact hfw
    · exact hr) hw
  rw [analyze_typed u _ [S, f, r] w _ (no_inline hwo), hasSpace_typed git_word.1] at hp
  simp only [List.cons_append, List.nil_append, List.takeWhile_cons, List.dropWhile_cons, hk.looks, hfs, if_true, Bool.false_eq_true,
    if_false, List.length_cons, List.length_nil] at hp
  have hscan : scan false false [f, r, w] = ([f], [w]) := by
    simp [scan, hfr, hfo, hfi, hft, hro, hwr, hwo]
  rw [hscan] at hp
  have hctx : context u 4 w [S] [w] [c!"git", S, f, r, w] true = .sub ∨ context u 4 w [S] [w] [c!"git", S, f, r, w] true = .arg 0 := by
    unfold context
    simp only [no_inline hwo, not_long hwo, hwo, Bool.false_eq_true, if_false, hwr]
    have h1 : (([c!"git", S, f, r, w] : List Str)[4 - 1]?).getD [] = r := rfl
    rw [h1, hro, hr.no_redirect]
    have h2 : argIndex [w] w = 0 := by simp [argIndex]
    simp only [h2, Bool.false_and, Bool.false_eq_true, if_false, Bool.not_true, and_false, List.isEmpty_cons, Bool.false_or, if_true]
    repeat' split
    all_goals first | exact .inl rfl | exact .inr rfl
  have hseen : seen u db id (typed c!"git" [S, f, r] w) (typed c!"git" [S, f, r] w).length =
      correct d ⟨parse u (typed c!"git" [S, f, r] w) (typed c!"git" [S, f, r] w).length, none⟩ := by
    unfold seen
    dsimp only [id]
    unfold correctWith
    rw [hp]
    simp only [hk.db]
  have hwalk : walk d.subs [S] = ([S], [], []) := by
    rw [walk, hk.find]
    dsimp only
    rw [hk.leaf, walk_nil, hk.name]
  have hov : ∀ q : Parsed, q.raw = [f, r, w] → q.current = w → q.path = [S] → optValue d q = none := by
    intro q h1 h2 h3
    refine optValue_after d (l := [f]) (x := r) h1 h2 hwo hro ?_ ?_
    · intro y hy
      simp only [List.mem_cons, List.not_mem_nil, or_false] at hy
      unfold inlineIs; rw [hy, hfi]
    · rw [h3]
      unfold optsAlong
      rw [optsDown, hk.find]
      simpa [hk.leaf, optsDown] using hk.dashed
  have hfin : (correct d ⟨parse u (typed c!"git" [S, f, r] w) (typed c!"git" [S, f, r] w).length, none⟩).p.ctx = .arg 0 ∧
      (correct d ⟨parse u (typed c!"git" [S, f, r] w) (typed c!"git" [S, f, r] w).length, none⟩).p.path = [S] ∧
      (correct d ⟨parse u (typed c!"git" [S, f, r] w) (typed c!"git" [S, f, r] w).length, none⟩).p.command = c!"git" ∧
      (correct d ⟨parse u (typed c!"git" [S, f, r] w) (typed c!"git" [S, f, r] w).length, none⟩).p.current = w := by
    rw [hp]
    unfold correct
    simp only [hwalk, Nat.zero_add, Nat.reduceAdd]
    rw [hov _ rfl rfl rfl]
    dsimp only
    rcases hctx with hctx | hctx
    · rw [hctx]
      exact ⟨rfl, rfl, rfl, rfl⟩
    · rw [hctx]
      have hcomb : ∀ q : Parsed, q.raw = [f, r, w] → q.current = w → combined d q = none := by
        intro q h1 h2
        unfold combined
        rw [h1, h2]
        by_cases hwe : w = []
        · simp [hwe, isOpt]
        · simp [hwe, hro]
      rw [if_neg (by simp)]
      dsimp only
      rw [hcomb _ rfl rfl]
      have hsr : scanRaw w [] [f, r, w] = (false, [], [], 0) := by simp [scanRaw, findSub]
      unfold finishScan
      simp only [List.any_nil, Bool.false_eq_true, if_false, hsr, if_true]
      rw [hov _ rfl rfl rfl]
      exact ⟨rfl, rfl, rfl, rfl⟩
  rw [← hseen] at hfin
  obtain ⟨h1, h2, h3, h4⟩ := hfin
  unfold offered
  dsimp only
  have : ask (seen u db id (typed c!"git" [S, f, r] w) (typed c!"git" [S, f, r] w).length).p = some .remote := by
    unfold ask gitAsk
    rw [if_pos h3, h1, h2]
    rcases hS with rfl | rfl | rfl <;> rfl
  rw [this, h4]

open Dsh.Defs in
/-- **C162 fails: subcommands the definition does not list.** Their values are never asked for. The
definition of `git` that comes with the shell lists neither `worktree` nor `remote`, that of `kubectl` not
`config`. -/
theorem C162_unlisted_violated (u : Tables) (db : Str → Option Def) (fuzzy : Str → Str → Bool) (s : State) (dir : Dir) {c S w : Str} {d : Def}
    (hcg : c = c!"git" ∨ c = c!"kubectl") (hdb : db c = some d) (hn : ∀ b ∈ d.subs, ¬ Named S b) (hS : Word S)
    (hlS : looksSub u S = true) (ws : List Str) (hws : ∀ x ∈ ws, Word x ∧ isOpt x = false) (hw : w = [] ∨ Word w) (hwo : isOpt w = false) :
    offered u db id fuzzy s dir (typed c (S :: ws) w) (typed c (S :: ws) w).length = [] := by
  have hc : Word c ∧ isOpt c = false := by
    rcases hcg with rfl | rfl
    · exact git_word
    · simp only [Word, PlainWord]; decide
  obtain ⟨hcmd, hb⟩ := before_typed u (c := c) (ss := S :: ws) (w := w) hc.1 hc.2 (by
    intro x hx
    rcases List.mem_cons.1 hx with rfl | hx
    · exact ⟨hS, (looksSub_not hlS).1⟩
    · exact hws x hx) hw hwo
  have hp := parse_typed u (c := c) (ws := S :: ws) (w := w) hc.1 (by
    intro x hx
    rcases List.mem_cons.1 hx with rfl | hx
    · exact hS
    · exact (hws x hx).1) hw
  have hpath : ∃ rest, (parse u (typed c (S :: ws) w) (typed c (S :: ws) w).length).path = S :: rest := by
    rw [hp, analyze_typed u c (S :: ws) w _ (no_inline hwo)]
    simp [hlS]
  obtain ⟨rest, hpath⟩ := hpath
  have hseen : seen u db id (typed c (S :: ws) w) (typed c (S :: ws) w).length =
      correct d ⟨parse u (typed c (S :: ws) w) (typed c (S :: ws) w).length, none⟩ := by
    unfold seen
    dsimp only [id]
    unfold correctWith
    have hdb' : db (parse u (typed c (S :: ws) w) (typed c (S :: ws) w).length).command = some d := by rw [hcmd]; exact hdb
    simp only [hdb']
  have hwalk : walk d.subs (S :: rest) = ([], d.subs, S :: rest) := by
    rw [walk, find_none hn]
  have hres : (seen u db id (typed c (S :: ws) w) (typed c (S :: ws) w).length).p.path = [] ∧
      ((∃ i, (seen u db id (typed c (S :: ws) w) (typed c (S :: ws) w).length).p.ctx = .arg i) ∨
        (seen u db id (typed c (S :: ws) w) (typed c (S :: ws) w).length).p.ctx = .sub ∨
        (seen u db id (typed c (S :: ws) w) (typed c (S :: ws) w).length).p.ctx = .short ∨
        (seen u db id (typed c (S :: ws) w) (typed c (S :: ws) w).length).p.ctx = .long) := by
    rw [hseen]
    unfold correct
    simp only [hpath, hwalk]
    split
    · exact ⟨rfl, .inr (.inl rfl)⟩
    · split
      · refine ⟨rfl, ?_⟩
        split
        · exact .inr (.inr (.inl rfl))
        · exact .inr (.inr (.inr rfl))
      · split
        · rename_i h
          rcases h with h | h
          · exact ⟨rfl, .inr (.inr (.inl h))⟩
          · exact ⟨rfl, .inr (.inr (.inr h))⟩
        · exact ⟨rfl, .inl ⟨_, rfl⟩⟩
  have hnone : ask (seen u db id (typed c (S :: ws) w) (typed c (S :: ws) w).length).p = none := by
    obtain ⟨h1, h2⟩ := hres
    unfold ask gitAsk kubeAsk gitKind
    rw [h1]
    rcases h2 with ⟨i, h2⟩ | h2 | h2 | h2 <;> rw [h2] <;> simp
  unfold offered
  dsimp only
  rw [hnone]

open Dsh.Defs in
/-- **C162 fails: another cluster.** The namespaces offered for `kubectl --context C -n` are the same
whatever the context `C` is: they are those of the current context. -/
theorem C162_context_violated (u : Tables) (db : Str → Option Def) (fuzzy : Str → Str → Bool) (s : State) (dir : Dir) {c w : Str}
    (hdb : ∀ d, db c!"kubectl" = some d → (∀ b ∈ d.subs, ¬ Named c!"--context" b) ∧ Dashed d.options)
    (hc : Word c) (hco : isOpt c = false) (hw : w = [] ∨ Word w) (hwo : isOpt w = false) :
    offered u db id fuzzy s dir (typed c!"kubectl" [c!"--context", c, c!"-n"] w) (typed c!"kubectl" [c!"--context", c, c!"-n"] w).length =
      offer fuzzy s .space dir w := by
  have hkub : Word c!"kubectl" := by simp only [Word, PlainWord]; decide
  have h1w : Word c!"--context" := by simp only [Word, PlainWord]; decide
  have h2w : Word c!"-n" := by simp only [Word, PlainWord]; decide
  have hp := parse_typed u (c := c!"kubectl") (ws := [c!"--context", c, c!"-n"]) (w := w) hkub (by
    intro x hx
    simp only [List.mem_cons, List.not_mem_nil, or_false] at hx
    rcases hx with rfl | rfl | rfl
    · exact h1w
    · exact hc
    · exact h2w) hw
  have hfs : looksSub u c!"--context" = false := looksSub_opt u rfl
  rw [analyze_typed u _ [c!"--context", c, c!"-n"] w _ (no_inline hwo), hasSpace_typed hkub] at hp
  simp only [List.cons_append, List.nil_append, List.takeWhile_cons, List.dropWhile_cons, hfs, Bool.false_eq_true, if_false,
    List.length_cons, List.length_nil] at hp
  have hctx : ∀ args, context u (0 + 1 + 1 + 1 + 1) w [] args [c!"kubectl", c!"--context", c, c!"-n", w] true = .value c!"-n" := by
    intro args
    unfold context
    simp only [no_inline hwo, not_long hwo, hwo, Bool.false_eq_true, if_false]
    exact if_pos (by decide : (isOpt c!"-n" && takesValue c!"-n") = true)
  rw [hctx] at hp
  generalize hsc : scan false false [c!"--context", c, c!"-n", w] = sc at hp
  have hlast : ∀ l : Line, l.p.raw = [c!"--context", c, c!"-n", w] → l.p.current = w → l.p.path = [] → l.p.ctx = .value c!"-n" →
      l.p.command = c!"kubectl" →
      (correctWith db l).p.command = c!"kubectl" ∧ (correctWith db l).p.ctx = .value c!"-n" ∧ (correctWith db l).p.current = w := by
    intro l hraw hcur hpath hct hcm
    unfold correctWith
    cases hd : db l.p.command with
    | none => exact ⟨hcm, hct, hcur⟩
    | some d =>
      rw [hcm] at hd
      obtain ⟨hn, hda⟩ := hdb d hd
      have hr' : l.p.raw = [c!"--context", c, c!"-n"] ++ [w] := hraw
      have hi : w = [] → ∀ y ∈ ([c!"--context", c, c!"-n"] : List Str), inlineIs [] y = false := by
        intro _ y hy
        simp only [List.mem_cons, List.not_mem_nil, or_false] at hy
        rcases hy with rfl | rfl | rfl
        · decide
        · unfold inlineIs; rw [no_inline hco]
        · decide
      have hov : optValue d l.p = none ∨ ∃ q, optValue d l.p = some q ∧ q.p.command = c!"kubectl" ∧ q.p.ctx = .value c!"-n" ∧ q.p.current = w := by
        unfold optValue
        rw [rawToken_last hr' hcur hi, rawPrevious_last hr' hcur hi, hcur]
        simp only [no_inline hwo, Option.bind_some, attached_not (.inl hwo), Option.map_none, hwo, Bool.false_eq_true, if_false,
          List.getLast?_cons, List.getLast?_nil, Option.getD_some, Option.getD_none]
        split
        · exact .inl rfl
        · exact .inr ⟨_, rfl, hcm, rfl, rfl⟩
      dsimp only
      unfold correct
      simp only [hpath, walk]
      rcases hov with hov | ⟨q, hov, hq⟩
      · rw [hov]
        dsimp only
        rw [if_neg (by rw [hct]; simp), hct]
        dsimp only
        have hsr : scanRaw l.p.current d.subs l.p.raw = (false, [], d.subs, 0) := by
          rw [hraw, hcur, scanRaw, find_none hn]
          dsimp only
          rw [if_neg]
          rintro ⟨h, -⟩
          rw [← h] at hwo
          exact absurd hwo (by decide)
        unfold finishScan
        simp only [hsr, Bool.false_eq_true, if_false, if_true]
        rw [hov]
        exact ⟨hcm, hct, hcur⟩
      · rw [hov]
        exact hq
  obtain ⟨h1, h2, h3⟩ := hlast ⟨parse u (typed c!"kubectl" [c!"--context", c, c!"-n"] w) (typed c!"kubectl" [c!"--context", c, c!"-n"] w).length, none⟩
    (by rw [hp]) (by rw [hp]) (by rw [hp]) (by rw [hp]) (by rw [hp])
  unfold offered
  have hseen : seen u db id (typed c!"kubectl" [c!"--context", c, c!"-n"] w) (typed c!"kubectl" [c!"--context", c, c!"-n"] w).length =
      correctWith db ⟨parse u (typed c!"kubectl" [c!"--context", c, c!"-n"] w) (typed c!"kubectl" [c!"--context", c, c!"-n"] w).length, none⟩ := rfl
  rw [← hseen] at h1 h2 h3
  have : ask (seen u db id (typed c!"kubectl" [c!"--context", c, c!"-n"] w) (typed c!"kubectl" [c!"--context", c, c!"-n"] w).length).p = some .space := by
    unfold ask kubeAsk
    rw [if_neg (by rw [h1]; decide), if_pos h1, h2]
    rfl
  dsimp only
  rw [this, h3]

/-! ### Cases that meet the hypotheses -/

/-- A definition of `git` with three of its subcommands. -/
def gitDef : Defs.Def where
  subs := [.mk c!"switch" [] [⟨some c!"-c", some c!"--create", true, none, none⟩] [] [], .mk c!"push" [] [] [] [],
    .mk c!"status" [] [] [] []]
  options := [⟨none, some c!"--version", false, none, none⟩]
  arguments := []

def gitDb (c : Str) : Option Defs.Def := if c = c!"git" ∨ c = c!"kubectl" then some gitDef else none

theorem known_switch : Known ascii gitDb c!"git" c!"switch" gitDef gitDef.subs[0] where
  db := rfl
  find := rfl
  name := rfl
  leaf := rfl
  dashed := by
    intro o ho n hn
    simp only [gitDef, Defs.Sub.options, List.getElem_cons_zero, List.mem_append, List.mem_cons, List.not_mem_nil, or_false] at ho
    rcases ho with rfl | rfl <;> simp only [Option.some.injEq, reduceCtorEq, false_or] at hn
    · subst hn; rfl
    · rcases hn with rfl | rfl <;> rfl
  word := by simp only [Defs.Word, PlainWord]; decide
  looks := by decide

theorem known_push : Known ascii gitDb c!"git" c!"push" gitDef gitDef.subs[1] where
  db := rfl
  find := rfl
  name := rfl
  leaf := rfl
  dashed := by simp [gitDef, Defs.Dashed, Defs.Sub.options, isOpt]
  word := by simp only [Defs.Word, PlainWord]; decide
  looks := by decide

/-- A repository in `/p` with two branches and three remotes. -/
def work : World where
  entry d n := decide (d = [c!"p"]) && decide (n = c!".git")
  reply k _ := match k with
    | .branch => .said c!"main\nfix\n"
    | .remote => .said c!"origin\nhome\no\n"
    | .space => .said c!"default\n"
    | _ => .failed
  found _ := true

/-- Both are known in `/p/src`. -/
def filled : State :=
  run work [.done (.space, [c!"src", c!"p"]), .look (.space, [c!"src", c!"p"]), .tab .space [c!"src", c!"p"],
    .done (.remote, [c!"p"]), .look (.remote, [c!"p"]), .tab .remote [c!"p"], .done (.branch, [c!"p"]),
    .look (.branch, [c!"p"]), .tab .branch [c!"src", c!"p"]]

def shown (line : Str) : List Str :=
  offered ascii gitDb id (fun v w => w.isPrefixOf v) filled [c!"src", c!"p"] line line.length

example : shown c!"git switch " = [c!"main", c!"fix"] := by decide +kernel
example : shown c!"git switch f" = [c!"fix"] := by decide +kernel
example : shown c!"git push " = [c!"origin", c!"home", c!"o"] := by decide +kernel
example : shown c!"git push origin " = [c!"main", c!"fix"] := by decide +kernel
example : shown c!"git push home ma" = [] := by decide +kernel
example : shown c!"git push -u origin " = [c!"origin", c!"home", c!"o"] := by decide +kernel
example : shown c!"git worktree add " = [] := by decide +kernel
example : shown c!"kubectl --context prod -n " = [c!"default"] := by decide +kernel

example : shown (Defs.typed c!"git" [c!"switch"] c!"f") = offer (fun v w => w.isPrefixOf v) filled .branch [c!"src", c!"p"] c!"f" :=
  (C162_question_partial ascii gitDb _ filled _ known_switch [] (by simp) (.inr (by simp only [Defs.Word, PlainWord]; decide)) rfl).1
    (.inr (.inl rfl))

example : shown (Defs.typed c!"git" [c!"push", c!"home"] c!"ma") = offer (fun v w => w.isPrefixOf v) filled .remote [c!"src", c!"p"] c!"ma" :=
  C162_remote_violated ascii gitDb _ filled _ known_push (.inl rfl) (by simp only [Defs.Word, PlainWord]; decide) rfl (by decide)
    (by simp only [Defs.Word, PlainWord]; decide) (by decide)

example : shown (Defs.typed c!"git" [c!"push", c!"-u", c!"origin"] []) = offer (fun v w => w.isPrefixOf v) filled .remote [c!"src", c!"p"] [] :=
  C162_flag_violated ascii gitDb _ filled _ known_push (.inl rfl) (.inl rfl) (by simp only [Defs.Word, PlainWord]; decide) rfl (.inl rfl) rfl

example : shown (Defs.typed c!"git" [c!"worktree", c!"remove"] []) = [] :=
  C162_unlisted_violated ascii gitDb _ filled _ (d := gitDef) (.inl rfl) rfl (by
      intro b hb
      simp only [gitDef, List.mem_cons, List.not_mem_nil, or_false] at hb
      rcases hb with rfl | rfl | rfl <;> simp [Defs.Named, Defs.Sub.name, Defs.Sub.aliases])
    (by simp only [Defs.Word, PlainWord]; decide) (by decide) [c!"remove"]
    (by simp only [List.mem_singleton, forall_eq]; simp only [Defs.Word, PlainWord]; decide) (.inl rfl) rfl

/-- In a world that stays as it is: the branches of the repository around `/p/src`. -/
example : ∃ text, work.reply .branch [c!"src", c!"p"] = .said text ∧
    offer (fun _ _ => true) filled .branch [c!"src", c!"p"] [] = (values .branch text).filter (fits (fun _ _ => true) []) := by
  refine (C162_fresh_partial (fun _ _ => true) work _ ?_ .branch _ [] (fun _ _ _ _ => rfl)).resolve_left ?_
  · intro w h; simp at h
  · decide +kernel

end Dsh.Live
