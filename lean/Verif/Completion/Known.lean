import Verif.Completion.Paths
/-!
Words coloured as paths that exist, and listings read in the background (C212): `dsh/src/completion/path.rs`
(`path_completion_path`, `is_path_cached`, `is_path_cached_for_shell_token`), over `Verif/Completion/Paths.lean`.

The word is the one without quotes (`normalize_path_token` is `Verif/Completion/ShellPath.lean`).  Which words of a line are
looked at is `Verif/Repl/Paint.lean`.  Times are in milliseconds.
-/
namespace Dsh.Known
open Dsh.Paths (Fs Tab scan parent join ttl listing Name DirPart Sane maxResult)

abbrev Str := List Char

/-! ### Model -/

/-- `trim_end_matches('/')` (path.rs:317, 321). -/
def trimSlash (s : Str) : Str := (s.reverse.dropWhile (· = '/')).reverse

/-- `is_path_cached` (path.rs:303-328). -/
def known (m : Tab) (now : Nat) (path : Str) : Bool :=
  match parent path with
  | none => false
  | some p =>
    match Cache.lookup id m now (if p = [] then c!"." else p) with
    | none => false
    | some h => h.cands.any fun c => trimSlash c = trimSlash path

/-- The cache, the names marked as being read (cache.rs:68) and the readings that run. -/
structure St where
  tab : Tab := fun _ => none
  pending : List Str := []
  running : List Str := []

/-- What happens: the grey suggestion asks for a directory, a reading ends (and reads the tree as it is then), Tab asks. -/
inductive Ev
  | grey (now : Nat) (dir : Str)
  | done (now : Nat) (fs : Fs) (dir : Str)
  | tab (now : Nat) (fs : Fs) (dir : Str)

/-- `path_completion_path` (path.rs:223-283) up to its end (`grey`) and from the end of the reading (`done`),
`path_completion_path_sync` (path.rs:287-299). -/
def step (s : St) : Ev → List Str × St
  | .grey now dir =>
    match Cache.lookup id s.tab now dir with
    | some h => (h.cands, s)
    | none =>
      if dir ∈ s.pending then ([], s) else ([], { s with pending := dir :: s.pending, running := dir :: s.running })
  | .done now fs dir =>
    if dir ∈ s.running then
      ([], { tab := match scan fs dir with
               | some l => Cache.set ttl s.tab now dir l
               | none => s.tab
             pending := s.pending.filter (· ≠ dir)
             running := s.running.erase dir })
    else ([], s)
  | .tab now fs dir =>
    let (l, m) := listing s.tab now fs dir
    (l, { s with tab := m })

/-- A session, the newest event first. -/
def after : List Ev → St
  | [] => {}
  | e :: l => (step (after l) e).2

/-! ### Spec -/

/-- The tree has this entry. -/
def There (fs : Fs) (dir n : Str) : Prop := ∃ l b, fs dir = some l ∧ (n, b) ∈ l

/-- In a session the directory was read at this time in this tree. -/
def Read (evs : List Ev) (t : Nat) (fs : Fs) (dir : Str) : Prop := .done t fs dir ∈ evs ∨ .tab t fs dir ∈ evs

/-- The name of a directory as it is typed in front of a slash: `.`, `a`, `../a`, `/a/b`. -/
def Dir (e : Str) : Prop := e = c!"." ∨ (e ≠ [] ∧ e.getLast? ≠ some '/' ∧ ¬ c!"/." <:+ e)

/-! ### Lemmas -/

theorem trimSlash_plain {s : Str} (h : s.getLast? ≠ some '/') : trimSlash s = s := by
  unfold trimSlash
  cases hr : s.reverse with
  | nil => simp at hr; simp [hr]
  | cons c r =>
    have : c ≠ '/' := by
      rintro rfl
      exact h (by rw [← List.head?_reverse, hr]; rfl)
    rw [List.dropWhile_cons_of_neg (by simpa using this), ← hr, List.reverse_reverse]

theorem trimSlash_slash (s : Str) : trimSlash (s ++ c!"/") = trimSlash s := by simp [trimSlash]

theorem last_join (k : Str) {n : Str} (hn : Name n) : (join k n).getLast? ≠ some '/' := by
  obtain ⟨d, -, hj⟩ := Paths.join_eq k n
  rw [hj, List.getLast?_append]
  cases hl : n.getLast? with
  | none => exact absurd (List.getLast?_eq_none_iff.1 hl) hn.1
  | some c =>
    have := Paths.getLast_ne_of_not_mem hn.2.1
    rw [hl] at this
    simpa using this

theorem trimSlash_entry (k : Str) {n : Str} (hn : Name n) (b : Bool) :
    trimSlash (join k n ++ if b then c!"/" else []) = join k n := by
  cases b
  · simpa using trimSlash_plain (last_join k hn)
  · rw [if_pos rfl, trimSlash_slash, trimSlash_plain (last_join k hn)]

theorem Dir.join {e : Str} (h : Dir e) (n : Str) : Paths.join e n = e ++ '/' :: n := by
  rcases h with rfl | ⟨-, h, -⟩
  · rfl
  · rw [Paths.join, if_neg h]

theorem Dir.ne {e : Str} (h : Dir e) : e ≠ [] := by
  rcases h with rfl | h
  · simp
  · exact h.1

theorem Dir.parent {e n : Str} (h : Dir e) (hn : Name n) : Paths.parent (e ++ '/' :: n) = some e := by
  by_cases hd : e = c!"."
  · subst hd
    unfold Paths.parent
    rw [show (c!"." ++ '/' :: n : Str) = c!"./" ++ n from rfl, List.reverse_append, Paths.strip_name hn.1 hn.2.1 hn.2.2.1,
      if_neg (by simp [hn.1])]
    simp only [(Paths.takeWhile_name hn.2.1 (c!"./").reverse (.inr rfl)).2]
    rfl
  · have h := h.resolve_left hd
    have hp : DirPart (e ++ c!"/") := .inr (.inr ⟨e, rfl, h.1, hd, h.2.1, h.2.2⟩)
    have := Paths.parent_name hp hn.1 hn.2.1 hn.2.2.1
    rw [if_neg (by simp), if_neg (by simpa using h.1)] at this
    simpa using this

/-- What is stored was read. -/
theorem stored (evs : List Ev) : ∀ (k : Str) (x : Cache.Entry Str), (after evs).tab k = some x →
    ∃ t fs, Read evs t fs k ∧ scan fs k = some x.cands ∧ x.exp = t + ttl := by
  induction evs with
  | nil => intro k x h; cases h
  | cons e evs ih =>
    intro k x h
    have keep : (after evs).tab k = some x → ∃ t fs, Read (e :: evs) t fs k ∧ scan fs k = some x.cands ∧ x.exp = t + ttl := by
      intro h
      obtain ⟨t, fs, h1, h2⟩ := ih k x h
      exact ⟨t, fs, h1.imp (List.mem_cons_of_mem _) (List.mem_cons_of_mem _), h2⟩
    have new : ∀ {now : Nat} {fs : Fs} {dir : Str} {l : List Str}, scan fs dir = some l → (e = .done now fs dir ∨ e = .tab now fs dir) →
        Cache.set ttl (after evs).tab now dir l k = some x →
        ∃ t fs, Read (e :: evs) t fs k ∧ scan fs k = some x.cands ∧ x.exp = t + ttl := by
      intro now fs dir l hs he h
      simp only [Cache.set] at h
      split at h
      · rename_i hk
        subst hk
        simp only [Option.some.injEq] at h
        subst h
        exact ⟨now, fs, he.imp (by rintro rfl; simp) (by rintro rfl; simp), hs, rfl⟩
      · exact keep ((Cache.get_purge _ _ _ _).1 h).1
    cases e with
    | grey now dir =>
      simp only [after, step] at h
      split at h
      · exact keep h
      · split at h <;> exact keep h
    | done now fs dir =>
      simp only [after, step] at h
      split at h
      · cases hs : scan fs dir with
        | some l => rw [hs] at h; exact new hs (.inl rfl) h
        | none => rw [hs] at h; exact keep h
      · exact keep h
    | tab now fs dir =>
      simp only [after, step, listing] at h
      split at h
      · exact keep h
      · split at h
        · rename_i l hs
          exact new hs (.inr rfl) h
        · exact keep h

/-- What a lookup finds was stored and is not too old. -/
theorem lookup_from {m : Tab} {now : Nat} {k : Str} {h : Cache.Hit Str} (hl : Cache.lookup id m now k = some h) :
    ∃ x, m h.key = some x ∧ now < x.exp ∧ h.key <+: k ∧ ∀ c ∈ h.cands, c ∈ x.cands := by
  unfold Cache.lookup at hl
  split at hl
  · cases hl
  · rename_i key ex hp
    obtain ⟨h1, h2, -, -⟩ := (Cache.longest_spec _ _ _ _ _).1 hp
    split at hl
    · cases hl
    · rename_i x hx
      simp only [Option.some.injEq] at hl
      subst hl
      refine ⟨x, hx, ?_, h1, ?_⟩
      · simpa [Cache.live, hx, Cache.Entry.expired] using h2
      · intro c hc
        simp only at hc
        split at hc
        · exact hc
        · exact (List.mem_filter.1 hc).1

theorem mem_scan {fs : Fs} {k c : Str} {L : List Str} (h : scan fs k = some L) (hc : c ∈ L) :
    ∃ l n b, fs k = some l ∧ (n, b) ∈ l ∧ c = join k n ++ if b then c!"/" else [] := by
  unfold scan at h
  cases hf : fs k with
  | none => simp [hf] at h
  | some l =>
    simp only [hf, Option.map_some, Option.some.injEq] at h
    subst h
    obtain ⟨⟨n, b⟩, hn, rfl⟩ := List.mem_map.1 (List.mem_of_mem_take hc)
    exact ⟨l, n, b, rfl, hn, rfl⟩

/-! ### C212 -/

/-- **C212, only what was there.** In every session a word is coloured only if less than two seconds ago a directory was read
that had it as an entry. -/
theorem C212_only_partial (evs : List Ev) (now : Nat) (path : Str) (hs : ∀ t fs d, Read evs t fs d → Sane fs)
    (h : known (after evs).tab now path = true) :
    ∃ t fs d n, Read evs t fs d ∧ now < t + 2000 ∧ There fs d n ∧ trimSlash path = join d n := by
  unfold known at h
  split at h
  · cases h
  · split at h
    · cases h
    · rename_i p _ hit hl
      obtain ⟨c, hc, he⟩ := List.any_eq_true.1 h
      obtain ⟨x, hx, hlt, -, hsub⟩ := lookup_from hl
      obtain ⟨t, fs, hr, hsc, hexp⟩ := stored evs _ x hx
      obtain ⟨l, n, b, hf, hn, rfl⟩ := mem_scan hsc (hsub c hc)
      refine ⟨t, fs, hit.key, n, hr, ?_, ⟨l, b, hf, hn⟩, ?_⟩
      · rw [hexp] at hlt; exact hlt
      · rw [← of_decide_eq_true he, trimSlash_entry _ ((hs t fs _ hr).1 _ l hf _ hn).1]

/-- **C212, what is there.** When the reading of a directory has ended, for two seconds exactly its entries are coloured: the
first 500. -/
theorem C212_shown_partial (s : St) (t now : Nat) (fs : Fs) (e n : Str) (l : List (Str × Bool)) (hr : e ∈ s.running) (he : Dir e)
    (hn : Name n) (hs : Sane fs) (hf : fs e = some l) (hnow : now < t + 2000) :
    known (step s (.done t fs e)).2.tab now (e ++ '/' :: n) = true ↔ ∃ b, (n, b) ∈ l.take 500 := by
  have hsc : scan fs e = some ((l.map fun a => join e a.1 ++ if a.2 then c!"/" else []).take maxResult) := by rw [scan, hf]; rfl
  have hm : (step s (.done t fs e)).2.tab e =
      some ⟨(l.map fun a => join e a.1 ++ if a.2 then c!"/" else []).take maxResult, t + ttl⟩ := by
    simp only [step, if_pos hr, hsc, Cache.set, if_pos]
  simp only [known, he.parent hn, if_neg he.ne, Cache.lookup_exact id hm hnow]
  rw [List.any_eq_true, ← List.map_take]
  have hj : trimSlash (e ++ '/' :: n) = join e n := by rw [← he.join, trimSlash_plain (last_join e hn)]
  constructor
  · rintro ⟨c, hc, h⟩
    obtain ⟨⟨n', b⟩, hn', rfl⟩ := List.mem_map.1 hc
    have h := of_decide_eq_true h
    rw [trimSlash_entry e (hs.1 e l hf _ (List.mem_of_mem_take hn')).1, hj, he.join, he.join] at h
    have : n' = n := by simpa using h
    subst this
    exact ⟨b, hn'⟩
  · rintro ⟨b, hb⟩
    exact ⟨_, List.mem_map.2 ⟨_, hb, rfl⟩, by rw [decide_eq_true_eq, trimSlash_entry e hn, hj]⟩

/-- **C212 fails: names without a slash.** The files of the working directory, typed by their names, are never coloured,
whatever was read. -/
theorem C212_plain_violated (evs : List Ev) (now : Nat) (n : Str) (hs : ∀ t fs d, Read evs t fs d → Sane fs)
    (hn : '/' ∉ n) : known (after evs).tab now n = false := by
  rw [Bool.eq_false_iff]
  intro h
  obtain ⟨-, -, d, m, -, -, -, hj⟩ := C212_only_partial evs now n hs h
  rw [trimSlash_plain (Paths.getLast_ne_of_not_mem hn)] at hj
  obtain ⟨d', hd', hj'⟩ := Paths.join_eq d m
  apply hn
  rw [hj, hj']
  exact List.mem_append_left _ (List.mem_of_getLast? hd')

/-- **C212 fails: files that are gone.** For two seconds a file is coloured that has been removed, or that is in the directory
the user has left (`e` is `.`). -/
theorem C212_gone_violated (s : St) (t now : Nat) (fs fs' : Fs) (e n : Str) (l : List (Str × Bool)) (b : Bool) (hr : e ∈ s.running)
    (he : Dir e) (hn : Name n) (hs : Sane fs) (hf : fs e = some l) (hb : (n, b) ∈ l.take 500) (hnow : now < t + 2000)
    (hg : ¬ There fs' e n) : ¬ (known (step s (.done t fs e)).2.tab now (e ++ '/' :: n) = true ↔ There fs' e n) :=
  fun h => hg (h.1 ((C212_shown_partial s t now fs e n l hr he hn hs hf hnow).2 ⟨b, hb⟩))

/-- **C212 fails: after two seconds.** No file is coloured any more, whether it is there or not. -/
theorem C212_old_violated (evs : List Ev) (now : Nat) (path : Str) (hs : ∀ t fs d, Read evs t fs d → Sane fs)
    (ho : ∀ t fs d, Read evs t fs d → t + 2000 ≤ now) : known (after evs).tab now path = false := by
  rw [Bool.eq_false_iff]
  intro h
  obtain ⟨t, fs, d, n, hr, hlt, -⟩ := C212_only_partial evs now path hs h
  exact absurd (ho t fs d hr) (by omega)

/-- **C212, read once.** However often a directory is asked for, at most one reading of it runs, and the marks are right. -/
theorem C212_once_partial (evs : List Ev) :
    (after evs).running.Nodup ∧ ∀ d, d ∈ (after evs).pending ↔ d ∈ (after evs).running := by
  induction evs with
  | nil => exact ⟨List.nodup_nil, fun _ => Iff.rfl⟩
  | cons e evs ih =>
    obtain ⟨h1, h2⟩ := ih
    cases e with
    | grey now dir =>
      simp only [after, step]
      split
      · exact ⟨h1, h2⟩
      · split
        · exact ⟨h1, h2⟩
        · rename_i hp
          exact ⟨List.nodup_cons.2 ⟨fun h => hp ((h2 dir).2 h), h1⟩, fun d => by simp [h2 d]⟩
    | done now fs dir =>
      simp only [after, step]
      split
      · exact ⟨h1.erase _, fun d => by simp [h1.mem_erase_iff, h2 d, and_comm]⟩
      · exact ⟨h1, h2⟩
    | tab now fs dir => exact ⟨h1, h2⟩

/-- **C212, in the background.** A directory nothing is known of is read when it is asked for, and asked again within two
seconds after the end of the reading its entries are there. -/
theorem C212_background_partial (evs : List Ev) (t0 t now : Nat) (fs : Fs) (d : Str)
    (hl : Cache.lookup id (after evs).tab t0 d = none) (L : List Str) (hL : scan fs d = some L) (hnow : now < t + 2000) :
    (step (after (.done t fs d :: .grey t0 d :: evs)) (.grey now d)).1 = L := by
  have hr : d ∈ (after (.grey t0 d :: evs)).running := by
    simp only [after, step, hl]
    split
    · exact ((C212_once_partial evs).2 d).1 ‹_›
    · simp
  have hm : (after (.done t fs d :: .grey t0 d :: evs)).tab d = some ⟨L, t + ttl⟩ := by
    show (step (after (.grey t0 d :: evs)) _).2.tab d = _
    simp only [step, if_pos hr, hL, Cache.set, if_pos]
  have h := Cache.lookup_exact id hm (show now < t + ttl from hnow)
  generalize after (.done t fs d :: .grey t0 d :: evs) = s at h ⊢
  simp only [step, h]

/-- **C212 fails: directories below.** Within two seconds after a reading of a directory whose text begins this one's, asking
for this one starts no reading: nothing in it can be coloured or suggested. -/
theorem C212_below_violated (s : St) (now : Nat) (k d : Str) (x : Cache.Entry Str) (hk : s.tab k = some x) (hx : now < x.exp)
    (hp : k <+: d) : (step s (.grey now d)).2 = s := by
  have hlive : Cache.live s.tab now k = true := by simp [Cache.live, hk, Cache.Entry.expired, hx]
  simp only [step]
  split
  · rfl
  · rename_i hl
    exfalso
    unfold Cache.lookup at hl
    split at hl
    · rename_i hn
      unfold Cache.longestLivePrefix at hn
      split at hn
      · cases hn
      · rename_i hd
        rw [Option.map_eq_none_iff] at hn
        have : ∀ r : Str, k <+: r.reverse → k ≠ r.reverse → Cache.shorter s.tab now r ≠ none := by
          intro r
          induction r with
          | nil => intro h1 h2; simp at h1 h2; exact absurd h1 h2
          | cons c r ih =>
            intro h1 h2
            simp only [Cache.shorter]
            split
            · simp
            · rename_i hr
              rw [List.reverse_cons] at h1 h2
              have h1 := (List.prefix_concat_iff.1 h1).resolve_left h2
              exact ih h1 (by rintro rfl; exact hr hlive)
        exact this d.reverse (by simpa using hp) (by rw [List.reverse_reverse]; rintro rfl; exact hd hlive) hn
    · rename_i key ex hn
      have := ((Cache.longest_spec _ _ _ _ _).1 hn).2.1
      split at hl
      · rename_i hnone
        simp [Cache.live, hnone] at this
      · cases hl

/-! ### Examples -/

def demo : List Ev := [.done 10 Paths.exFs c!"src", .grey 5 c!"src"]

theorem shown_run : known (after demo).tab 100 c!"src/lib.rs" = true ∧ known (after demo).tab 100 c!"src/none" = false ∧
    known (after demo).tab 2010 c!"src/lib.rs" = false := by decide +kernel

theorem plain_run : known (after [.tab 0 Paths.exFs c!"."]).tab 1 c!"setup.py" = false ∧
    known (after [.tab 0 Paths.exFs c!"."]).tab 1 c!"./setup.py" = true := by decide +kernel

/-- `.` was listed; `../` is not read, since its text begins with a point. -/
theorem below_run : (after [.grey 2 c!"..", .tab 0 Paths.exFs c!"."]).running = [] ∧ (after [.grey 2 c!".."]).running = [c!".."] := by
  decide +kernel

theorem dir_run : Dir c!"src" ∧ Dir c!"." ∧ Name c!"lib.rs" := by
  refine ⟨.inr (by decide), .inl rfl, ?_⟩
  unfold Paths.Name; decide

end Dsh.Known
