import Verif.Repl.Palette
import Verif.Prompt.GitProps
import Verif.Suggest.Props
/-!
C143: the palette shows every action once and runs the chosen one, and nothing else happens to the shell.
C144: an action acts on exactly what was chosen.
-/
namespace Dsh.Pal
open Dsh.Prm (words Name)

/-! ### C143 -/

/-- The last of the actions registered under a name. -/
def lastNamed (log : List Act) (n : Str) : Option Act := (log.reverse).find? fun a => a.name == n

/-- All registrations, in order. -/
def registered (log : List Act) : List Act := log.foldl (fun r a => register a r) []

theorem registered_spec (log : List Act) :
    (registered log).Pairwise (fun a b => a.name ≠ b.name) ∧ ∀ a, a ∈ registered log ↔ lastNamed log a.name = some a := by
  have key : ∀ (l : List Act), let r := l.foldr register []
      r.Pairwise (fun a b => a.name ≠ b.name) ∧ ∀ a, a ∈ r ↔ l.find? (fun b => b.name == a.name) = some a := by
    intro l
    induction l with
    | nil => exact ⟨List.Pairwise.nil, fun a => by simp⟩
    | cons x l ih =>
      obtain ⟨ih1, ih2⟩ := ih
      refine ⟨?_, ?_⟩
      · rw [List.foldr_cons, register]
        refine List.Pairwise.cons ?_ (ih1.filter _)
        intro b hb
        have := (List.mem_filter.1 hb).2
        simp only [bne_iff_ne, ne_eq] at this
        exact fun h => this h.symm
      · intro a
        rw [List.foldr_cons, register, List.mem_cons, List.mem_filter, ih2 a, List.find?_cons]
        by_cases hx : x.name = a.name
        · simp [hx, eq_comm]
        · have : ¬ a = x := fun h => hx (by rw [h])
          have h2 : (x.name == a.name) = false := by simpa using hx
          simp [h2, this, bne_iff_ne, Ne.symm hx]
  have h := key log.reverse
  rw [List.foldr_reverse] at h
  exact h

theorem actLe_total (a b : Act) : (actLe a b || actLe b a) = true := by
  unfold actLe
  by_cases h : a.category = b.category
  · rw [if_pos h, if_pos h.symm]; exact Dsh.Suggest.strLe_total _ _
  · rw [if_neg h, if_neg (fun h' => h h'.symm)]; exact Dsh.Suggest.strLe_total _ _

theorem strLe_antisymm : ∀ a b : Str, Dsh.Suggest.strLe a b = true → Dsh.Suggest.strLe b a = true → a = b := by
  intro a
  induction a with
  | nil =>
    intro b _ h
    cases b with
    | nil => rfl
    | cons c b => cases h
  | cons x a ih =>
    intro b h1 h2
    cases b with
    | nil => cases h1
    | cons y b =>
      unfold Dsh.Suggest.strLe at h1 h2
      by_cases hl : x.toNat < y.toNat
      · rw [if_neg (by omega), if_pos hl] at h2; cases h2
      · by_cases hg : y.toNat < x.toNat
        · rw [if_neg hl, if_pos hg] at h1; cases h1
        · rw [if_neg hl, if_neg hg] at h1
          rw [if_neg hg, if_neg hl] at h2
          rw [ih b h1 h2, Char.toNat_inj.1 (by omega : x.toNat = y.toNat)]

theorem actLe_trans (a b c : Act) (h1 : actLe a b = true) (h2 : actLe b c = true) : actLe a c = true := by
  unfold actLe at *
  by_cases hab : a.category = b.category
  · rw [if_pos hab] at h1
    by_cases hbc : b.category = c.category
    · rw [if_pos hbc] at h2
      rw [if_pos (hab.trans hbc)]
      exact Dsh.Suggest.strLe_trans _ _ _ h1 h2
    · rw [if_neg hbc] at h2
      rw [if_neg (fun h => hbc (hab.symm.trans h)), hab]
      exact h2
  · rw [if_neg hab] at h1
    by_cases hbc : b.category = c.category
    · rw [if_neg (fun h => hab (h.trans hbc.symm)), ← hbc]
      exact h1
    · rw [if_neg hbc] at h2
      by_cases hac : a.category = c.category
      · rw [← hac] at h2
        exact absurd (strLe_antisymm _ _ h1 h2) hab
      · rw [if_neg hac]
        exact Dsh.Suggest.strLe_trans _ _ _ h1 h2

/-- **C143, the list.** Whatever was registered: the palette shows exactly the last action registered under each name, each once, by category and name. -/
theorem C143_list_partial (log : List Act) :
    (∀ a, a ∈ getAll (registered log) ↔ lastNamed log a.name = some a) ∧
    (getAll (registered log)).Pairwise (fun a b => a.name ≠ b.name) ∧
    (getAll (registered log)).Pairwise (fun a b => Dsh.Suggest.strLe a.category b.category = true ∧
      (a.category = b.category → Dsh.Suggest.strLe a.name b.name = true)) := by
  obtain ⟨h1, h2⟩ := registered_spec log
  have hp := sortBy_perm actLe (registered log)
  refine ⟨fun a => (hp.mem_iff).trans (h2 a), ?_, ?_⟩
  · exact hp.symm.pairwise h1 (fun {a b} h h' => h h'.symm)
  · refine (sortBy_sorted actLe actLe_trans actLe_total (registered log)).imp ?_
    intro a b h
    unfold actLe at h
    by_cases hc : a.category = b.category
    · rw [if_pos hc] at h
      refine ⟨?_, fun _ => h⟩
      rw [hc]
      have := Dsh.Suggest.strLe_total b.category b.category
      simpa using this
    · rw [if_neg hc] at h
      exact ⟨h, fun h' => absurd h' hc⟩

/-- **C143, the choice.** The action chosen is the one shown: its code runs, and nothing runs if nothing is chosen. -/
theorem C143_choice_partial (log : List Act) (a : Act) (ha : a ∈ getAll (registered log)) (hs : a.name ≠ c!"Search History") (rest : List Str) (ab : Bool) :
    choose (registered log) ⟨a.name :: rest, ab⟩ = .runs a.body ∧ choose (registered log) ⟨[], ab⟩ = .nothing := by
  obtain ⟨h1, h2⟩ := registered_spec log
  have hm : a ∈ registered log := (sortBy_perm actLe (registered log)).mem_iff.1 ha
  refine ⟨?_, rfl⟩
  unfold choose
  dsimp only
  rw [if_neg hs]
  have hf : (registered log).find? (fun b => b.name == a.name) = some a := by
    have : ∀ l : List Act, l.Pairwise (fun a b => a.name ≠ b.name) → a ∈ l → l.find? (fun b => b.name == a.name) = some a := by
      intro l
      induction l with
      | nil => intro _ h; cases h
      | cons x l ih =>
        intro hp hm
        rw [List.find?_cons]
        cases hp with
        | cons hx hp =>
          rcases List.mem_cons.1 hm with rfl | hm
          · simp
          · have := hx a hm
            have h2 : (x.name == a.name) = false := by simpa using this
            rw [h2]
            exact ih hp hm
    exact this _ h1 hm
  rw [hf]

example : getAll (registered [⟨c!"Zap", c!"General", 1⟩, ⟨c!"Push", c!"Git", 2⟩, ⟨c!"Alpha", c!"General", 3⟩, ⟨c!"Zap", c!"General", 4⟩]) =
    [⟨c!"Alpha", c!"General", 3⟩, ⟨c!"Zap", c!"General", 4⟩, ⟨c!"Push", c!"Git", 2⟩] := by decide

/-- **C143 fails for one name.** An action registered as `Search History` is shown, but the search runs in its place. -/
theorem C143_history_violated (log : List Act) (a : Act) (hn : a.name = c!"Search History") (rest : List Str) (ab : Bool) :
    choose (registered (log ++ [a])) ⟨a.name :: rest, ab⟩ = .history ∧ a ∈ getAll (registered (log ++ [a])) := by
  refine ⟨?_, ?_⟩
  · unfold choose
    dsimp only
    rw [if_pos hn]
  · refine (C143_list_partial (log ++ [a])).1 a |>.2 ?_
    unfold lastNamed
    rw [List.reverse_append]
    simp

/-- **C143 fails on Esc.** The palette does not ask how the picker was left: the item under the caret runs all the same. -/
theorem C143_escape_violated (reg : List Act) (items : List Str) : choose reg ⟨items, true⟩ = choose reg ⟨items, false⟩ := rfl

/-- **C143, actions that succeed** leave the shell as it was. -/
theorem C143_continue_partial (l : Loop) (h : l.raw = true) : openPalette .ok l = l := by
  unfold openPalette
  cases l
  simp_all

/-- **C143 fails for actions that fail**: the shell ends, with the terminal not in the state for editing. -/
theorem C143_ends_violated (l : Loop) : (openPalette .err l).alive = false ∧ (openPalette .err l).raw = false := ⟨rfl, rfl⟩

/-- Git Checkout outside a repository. -/
example (p : Picked) : (openPalette (checkout none p).1 {}).alive = false := rfl

/-! ### C144 -/

/-- Blanks. -/
def Gap (g : Str) : Prop := g ≠ [] ∧ ∀ c ∈ g, c = ' '

theorem words_gaps (g : Str) (h : ∀ c ∈ g, c = ' ') (r : Str) : words (g ++ r) = words r := by
  induction g with
  | nil => rfl
  | cons c g ih =>
    rw [h c (List.mem_cons_self ..), List.cons_append, Dsh.Prm.words_gap]
    exact ih fun c hc => h c (List.mem_cons_of_mem _ hc)

theorem words_field (w g r : Str) (hw : Name w) (hg : Gap g) : words (w ++ g ++ r) = w :: words r := by
  cases g with
  | nil => exact absurd rfl hg.1
  | cons c g =>
    have hc := hg.2 c (List.mem_cons_self ..)
    subst hc
    rw [List.append_assoc, List.cons_append, Dsh.Prm.words_word w hw]
    rw [words_gaps g (fun c hc => hg.2 c (List.mem_cons_of_mem _ hc))]

/-- **C144, processes.** The process whose line is chosen, and only it, gets the signal: the number in the second column. -/
theorem C144_kill_partial (user g1 pid g2 rest : Str) (hu : Name user) (h1 : Gap g1) (hp : Name pid) (h2 : Gap g2) (ab : Bool) :
    kill ⟨[user ++ g1 ++ (pid ++ g2 ++ rest)], ab⟩ = [[c!"kill", pid]] := by
  unfold kill
  dsimp only
  rw [words_field user g1 _ hu h1, words_field pid g2 _ hp h2]
  rfl

/-- The same for ports in the format of lsof, after a yes; without it nothing happens. -/
theorem C144_port_partial (prog g1 pid g2 rest : Str) (hu : Name prog) (h1 : Gap g1) (hp : Name pid) (h2 : Gap g2) (ab : Bool) :
    port ⟨[prog ++ g1 ++ (pid ++ g2 ++ rest)], ab⟩ true = [[c!"kill", pid]] ∧ ∀ p, port p false = [] := by
  refine ⟨?_, ?_⟩
  · unfold port
    dsimp only
    rw [words_field prog g1 _ hu h1, words_field pid g2 _ hp h2]
    rw [if_pos (by simp)]
    rfl
  · intro p
    unfold port
    split
    · dsimp only
      split <;> rfl
    · rfl

/-- In the format of ss the second column is the state: `kill LISTEN`. -/
theorem C144_ss_violated (proto g1 state g2 rest : Str) (hu : Name proto) (h1 : Gap g1) (hp : Name state) (h2 : Gap g2) (ab : Bool) :
    port ⟨[proto ++ g1 ++ (state ++ g2 ++ rest)], ab⟩ true = [[c!"kill", state]] := (C144_port_partial proto g1 state g2 rest hu h1 hp h2 ab).1

example : port ⟨[c!"tcp LISTEN 0 128 0.0.0.0:22 0.0.0.0:* users:((\"sshd\",pid=812,fd=3))"], false⟩ true = [[c!"kill", c!"LISTEN"]] := by decide

example : kill ⟨[c!"root         812  0.0  0.1  15432  9216 ?        Ss   10:01   0:00 sshd"], false⟩ = [[c!"kill", c!"812"]] := by decide

/-- **C144 fails for several processes.** The picker lets mark several; one of them gets the signal. -/
theorem C144_several_violated (line : Str) (more : List Str) (ab : Bool) : kill ⟨line :: more, ab⟩ = kill ⟨[line], ab⟩ := rfl

/-- **C144 fails on Esc**: the process under the caret is killed, the branch checked out, the host connected, the directory changed. -/
theorem C144_escape_violated (items : List Str) (b : Option (List Str)) (s : Place) (br : Str) (a : Picked) :
    kill ⟨items, true⟩ = kill ⟨items, false⟩ ∧ checkout b ⟨items, true⟩ = checkout b ⟨items, false⟩ ∧ ssh ⟨items, true⟩ = ssh ⟨items, false⟩ ∧
    jump ⟨items, true⟩ s = jump ⟨items, false⟩ s ∧ push br ⟨items, true⟩ = push br ⟨items, false⟩ ∧ stash ⟨items, true⟩ a = stash ⟨items, false⟩ a ∧
    docker ⟨items, true⟩ a = docker ⟨items, false⟩ a := ⟨rfl, rfl, rfl, rfl, rfl, rfl, rfl⟩

/-- **C144, stashes.** With the usual listing the stash of the chosen line is acted on. -/
theorem C144_stash_partial (n : Nat) (text a : Str) (ab ab' : Bool) :
    stash ⟨[c!"stash@{" ++ Nat.toDigits 10 n ++ c!"}: " ++ text], ab⟩ ⟨[a], ab'⟩ = [[c!"git", c!"stash", a, c!"stash@{" ++ Nat.toDigits 10 n ++ c!"}"]] := by
  unfold stash
  dsimp only
  have h : ∀ c ∈ c!"stash@{" ++ Nat.toDigits 10 n ++ c!"}", (c != ':') = true := by
    intro c hc
    rw [List.mem_append, List.mem_append] at hc
    rcases hc with (hc | hc) | hc
    · revert hc; revert c; decide
    · have := Nat.isDigit_of_mem_toDigits (b := 10) (by decide) (by decide) hc
      simp only [bne_iff_ne, ne_eq]
      intro h
      subst h
      revert this
      decide
    · revert hc; revert c; decide
  have e : c!"stash@{" ++ Nat.toDigits 10 n ++ c!"}: " ++ text = (c!"stash@{" ++ Nat.toDigits 10 n ++ c!"}") ++ (':' :: ' ' :: text) := by
    simp [List.append_assoc]
  rw [e, List.takeWhile_append_of_pos h]
  simp

/-- With dates in the listing (`log.date`) the name is cut in the date. -/
theorem C144_dates_violated (day text a : Str) (hd : ':' ∉ day) (ab ab' : Bool) :
    stash ⟨[c!"stash@{" ++ day ++ ':' :: text], ab⟩ ⟨[a], ab'⟩ = [[c!"git", c!"stash", a, c!"stash@{" ++ day]] := by
  unfold stash
  dsimp only
  have h : ∀ c ∈ c!"stash@{" ++ day, (c != ':') = true := by
    intro c hc
    rw [List.mem_append] at hc
    rcases hc with hc | hc
    · revert hc; revert c; decide
    · simp only [bne_iff_ne, ne_eq]
      intro h
      exact hd (h ▸ hc)
  rw [List.takeWhile_append_of_pos h]
  simp

example : stash ⟨[c!"stash@{2024-05-01 10:20:30 +0200}: WIP on main"], false⟩ ⟨[c!"drop"], false⟩ = [[c!"git", c!"stash", c!"drop", c!"stash@{2024-05-01 10"]] := by decide

/-- The container docker acts on: the first word behind the subcommand that is not an option. -/
def container (c : Cmd) : Option Str := (c.drop 2).find? fun w => w.head? != some '-'

theorem docker_name (name more : Str) (hn : Name name) (a : Str) (ab ab' : Bool) :
    docker ⟨[name ++ '\t' :: more], ab⟩ ⟨[a], ab'⟩ = [c!"docker" :: (words a ++ [name])] := by
  have h : ∀ c ∈ name, (c != '\t') = true := by
    intro c hc
    have := hn.2 c hc
    simp only [bne_iff_ne, ne_eq]
    intro h
    subst h
    revert this
    decide
  have e : (name ++ '\t' :: more).takeWhile (· != '\t') = name := by
    rw [List.takeWhile_append_of_pos h]
    simp
  unfold docker
  dsimp only
  rw [e, if_neg (by simp [hn.1])]
  rfl

/-- **C144, containers.** For the actions that are one word or `logs -f`, docker is started with the action and acts on the container of the chosen line. -/
theorem C144_docker_partial (name more : Str) (hn : Name name) (hd : name.head? ≠ some '-') (a : Str)
    (ha : a ∈ [c!"start", c!"stop", c!"restart", c!"logs", c!"rm", c!"logs -f"]) (ab ab' : Bool) :
    ∃ c, docker ⟨[name ++ '\t' :: more], ab⟩ ⟨[a], ab'⟩ = [c] ∧ container c = some name ∧ c[1]? = (words a)[0]? := by
  refine ⟨_, docker_name name more hn a ab ab', ?_⟩
  simp only [List.mem_cons, List.not_mem_nil, or_false] at ha
  have hh : (name.head? != some '-') = true := by simpa using hd
  rcases ha with rfl | rfl | rfl | rfl | rfl | rfl <;> exact ⟨by show List.find? _ _ = _; simp [words, Dsh.Prm.wordsGo, rustWhitespace, hd], rfl⟩

/-- **C144 fails for a shell in a container**: the container acted on is `bash`, and the chosen one is the command to run in it. -/
theorem C144_exec_violated (name more : Str) (hn : Name name) (ab ab' : Bool) :
    ∃ c, docker ⟨[name ++ '\t' :: more], ab⟩ ⟨[c!"exec -it bash"], ab'⟩ = [c] ∧ container c = some c!"bash" ∧ c.getLast? = some name :=
  ⟨_, docker_name name more hn _ ab ab', rfl, by
    rw [← List.cons_append, List.getLast?_append]
    rfl⟩

/-- **C144, push and pull.** For every branch the program started is the one the chosen line names. -/
theorem C144_push_partial (branch : Str) (ab : Bool) :
    (pushLines branch).map (fun l => push branch ⟨[l], ab⟩) =
      [[[c!"git", c!"push", c!"origin", branch]], [[c!"git", c!"pull", c!"origin", branch]],
       [[c!"git", c!"push", c!"--force-with-lease", c!"origin", branch]], [[c!"git", c!"fetch", c!"--all"]]] := rfl

/-- **C144, files, hosts and branches**: the chosen name is handed over as one word, whatever it contains. -/
theorem C144_whole_partial (x : Str) (e v : Option Str) (bs : List Str) (hb : bs ≠ []) (ab : Bool) :
    diff ⟨[x], ab⟩ = [[c!"git", c!"diff", c!"--color=always", c!"--", x]] ∧ ssh ⟨[x], ab⟩ = [[c!"ssh", x]] ∧
    checkout (some bs) ⟨[x], ab⟩ = (.ok, [[c!"git", c!"checkout", x]]) ∧
    (findFile e v ⟨[x], ab⟩).map (fun c => c.drop 1) = [[x]] := by
  refine ⟨rfl, rfl, ?_, rfl⟩
  cases bs with
  | nil => exact absurd rfl hb
  | cons b bs => rfl

/-- The file git means with the last word, started in a directory (for a name without bars). -/
def means (cwd : Dsh.Prm.Path) (c : Cmd) : Option Dsh.Prm.Path := c.getLast?.map fun x => cwd ++ [x]

/-- **C144 fails for changed files below the top.** git lists the files from the top of the repository; the diff is asked for the file of that name in the current
directory, which is another one; at the top it is the right one. -/
theorem C144_diff_violated (root sub : Dsh.Prm.Path) (file : Str) (ab : Bool) :
    (diff ⟨[file], ab⟩).map (means root) = [some (root ++ [file])] ∧
    (sub ≠ [] → (diff ⟨[file], ab⟩).map (means (root ++ sub)) ≠ [some (root ++ [file])]) := by
  refine ⟨rfl, fun hs h => ?_⟩
  have h : [some ((root ++ sub) ++ [file])] = [some (root ++ [file])] := h
  have h := congrArg List.length (Option.some.inj (List.head_eq_of_cons_eq h))
  have hl := List.length_pos_iff.2 hs
  simp only [List.length_append] at h
  omega

/-- **C144 fails for editors with options.** The whole value is taken for the name of a program. -/
theorem C144_editor_violated (v : Option Str) (f : Str) (ab : Bool) : findFile (some c!"code -w") v ⟨[f], ab⟩ = [[c!"code -w", f]] := rfl

theorem words_join : ∀ (l : List Str), (∀ x ∈ l, Name x) → words (joinWith [' '] l) = l := by
  intro l
  induction l with
  | nil => intro _; rfl
  | cons x l ih =>
    intro hl
    cases l with
    | nil => exact Dsh.Prm.words_last x (hl x (List.mem_cons_self ..))
    | cons y l =>
      show words (x ++ [' '] ++ joinWith [' '] (y :: l)) = _
      rw [List.append_assoc]
      have := Dsh.Prm.words_word x (hl x (List.mem_cons_self ..)) (joinWith [' '] (y :: l))
      rw [show [' '] ++ joinWith [' '] (y :: l) = ' ' :: joinWith [' '] (y :: l) from rfl, this, ih fun z hz => hl z (List.mem_cons_of_mem _ hz)]

theorem join_ends : ∀ (l : List Str) (h : Str), (∀ x ∈ h :: l, Name x) →
    (∃ c r, joinWith [' '] (h :: l) = c :: r ∧ rustWhitespace c = false) ∧ ∃ r c, joinWith [' '] (h :: l) = r ++ [c] ∧ rustWhitespace c = false := by
  intro l
  induction l with
  | nil =>
    intro h hh
    have hn := hh h (List.mem_cons_self ..)
    refine ⟨?_, h.dropLast, h.getLast hn.1, (List.dropLast_concat_getLast hn.1).symm, hn.2 _ (List.getLast_mem hn.1)⟩
    cases h with
    | nil => exact absurd rfl hn.1
    | cons c r => exact ⟨c, r, rfl, hn.2 c (List.mem_cons_self ..)⟩
  | cons y l ih =>
    intro h hh
    have hn := hh h (List.mem_cons_self ..)
    obtain ⟨_, r, c, hr, hc⟩ := ih y fun x hx => hh x (List.mem_cons_of_mem _ hx)
    refine ⟨?_, h ++ [' '] ++ r, c, ?_, hc⟩
    · cases h with
      | nil => exact absurd rfl hn.1
      | cons c r => exact ⟨c, _, rfl, hn.2 c (List.mem_cons_self ..)⟩
    · show h ++ [' '] ++ joinWith [' '] (y :: l) = _
      rw [hr]
      simp [List.append_assoc]

theorem trim_same (a : Char) (ha : rustWhitespace a = false) (s r : Str) (c : Char) (hs : a :: s = r ++ [c]) (hc : rustWhitespace c = false) :
    trim (a :: s) = a :: s := by
  unfold trim trimStart
  rw [Dsh.Prm.dropWhile_stop ha, hs]
  unfold trimEnd
  rw [List.reverse_append, List.reverse_singleton, List.singleton_append, Dsh.Prm.dropWhile_stop hc]
  simp

/-- **C144, hosts.** A line of plain names offers exactly these. -/
theorem C144_hosts_partial (h : Str) (hs : List Str) (hh : ∀ x ∈ h :: hs, Name x ∧ ∀ c ∈ x, c ≠ '*' ∧ c ≠ '?') :
    hostsOf (c!"Host " ++ joinWith [' '] (h :: hs)) = h :: hs := by
  have hn : ∀ x ∈ h :: hs, Name x := fun x hx => (hh x hx).1
  obtain ⟨⟨c0, r0, h0, hc0⟩, r1, c1, h1, hc1⟩ := join_ends hs h hn
  have ht : trim (c!"Host " ++ joinWith [' '] (h :: hs)) = c!"Host " ++ joinWith [' '] (h :: hs) :=
    trim_same 'H' (by decide) _ (c!"Host " ++ r1) c1 (by rw [h1]; simp) hc1
  have ht2 : trim (joinWith [' '] (h :: hs)) = joinWith [' '] (h :: hs) := by
    rw [h0] at h1 ⊢
    exact trim_same c0 hc0 r0 r1 c1 h1 hc1
  have hchars : ∀ l : List Str, (∀ x ∈ l, ∀ c ∈ x, c ≠ '*' ∧ c ≠ '?') → ∀ c ∈ joinWith [' '] l, c ≠ '*' ∧ c ≠ '?' := by
    intro l
    induction l with
    | nil => intro _ c hc; cases hc
    | cons x l ih =>
      intro hl c hc
      cases l with
      | nil => exact hl x (List.mem_cons_self ..) c hc
      | cons y l =>
        have hc : c ∈ x ++ [' '] ++ joinWith [' '] (y :: l) := hc
        rw [List.mem_append, List.mem_append] at hc
        rcases hc with (hc | hc) | hc
        · exact hl x (List.mem_cons_self ..) c hc
        · rw [List.mem_singleton.1 hc]; decide
        · exact ih (fun z hz => hl z (List.mem_cons_of_mem _ hz)) c hc
  unfold hostsOf
  dsimp only
  rw [ht, if_pos (by simp)]
  rw [show (c!"Host " ++ joinWith [' '] (h :: hs)).drop 5 = joinWith [' '] (h :: hs) from rfl, ht2, if_neg, words_join _ hn]
  · refine List.filter_eq_self.2 ?_
    intro x hx
    have := (hh x hx).2
    simp only [Bool.not_eq_true', List.any_eq_false, Bool.or_eq_true, beq_iff_eq]
    intro c hc
    have := this c hc
    grind
  · simp only [List.any_eq_true, Bool.or_eq_true, beq_iff_eq, not_exists, not_and]
    intro c hc
    have := hchars (h :: hs) (fun x hx => (hh x hx).2) c hc
    grind

/-- **C144 fails for hosts** on a line that also has a pattern, behind a tab, or with `=`; an exclusion is offered as a host. -/
theorem C144_hosts_violated : hostsOf c!"Host web *.example.org" = [] ∧ hostsOf c!"Host\tweb" = [] ∧ hostsOf c!"Host=web" = [] ∧
    hostsOf c!"Host web !db" = [c!"web", c!"!db"] := by decide

/-- **C144 fails for jumps.** The directory changes without what `cd` does: `cd -` leads to where the last `cd` came from, the visit is not counted, hooks
(and with them the prompt) do not hear of it. -/
theorem C144_jump_violated (d : Str) (s : Place) (ab : Bool) :
    (jump ⟨[d], ab⟩ s).cwd = d ∧ (jump ⟨[d], ab⟩ s).oldpwd = s.oldpwd ∧ (jump ⟨[d], ab⟩ s).visits = s.visits ∧ (jump ⟨[d], ab⟩ s).hooks = s.hooks ∧
    jump ⟨[d], ab⟩ s ≠ cdTo d s ∧ (cdTo d s).oldpwd = some s.cwd := by
  refine ⟨rfl, rfl, rfl, rfl, fun h => ?_, rfl⟩
  have h : s.visits = s.visits ++ [d] := congrArg Place.visits h
  have := congrArg List.length h
  simp at this

end Dsh.Pal
