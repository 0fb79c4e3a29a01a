import Verif.Prompt.Where
/-!
C139: the prompt says where you are.
-/
namespace Dsh.Prm

open Dsh.Fs.Dmv

/-- What a text with `~` means: the home directory where the text begins with it. -/
def meaning (home : Str) : Str → Str
  | ['~'] => home
  | '~' :: '/' :: r => home ++ '/' :: r
  | s => s

theorem replace_none (pat by_ : Str) : ∀ s : Str, (∀ a b, s ≠ a ++ pat ++ b) → replaceGo pat by_ 0 s = s := by
  intro s
  induction s with
  | nil => intro _; rfl
  | cons c s ih =>
    intro h
    rw [replaceGo, if_neg, ih]
    · intro a b hs
      exact h (c :: a) b (by rw [hs]; rfl)
    · intro hp
      rw [List.isPrefixOf_iff_prefix] at hp
      obtain ⟨t, ht⟩ := hp
      exact h [] t (by rw [List.nil_append, ht])

theorem replace_skip (pat by_ : Str) : ∀ u s : Str, replaceGo pat by_ u.length (u ++ s) = replaceGo pat by_ 0 s := by
  intro u
  induction u with
  | nil => intro s; rfl
  | cons c u ih => intro s; exact ih s

theorem replace_here (pat by_ s : Str) (hp : pat ≠ []) : replaceGo pat by_ 0 (pat ++ s) = by_ ++ replaceGo pat by_ 0 s := by
  cases pat with
  | nil => exact absurd rfl hp
  | cons c p =>
    rw [List.cons_append, replaceGo, if_pos]
    · congr 1
      exact replace_skip (c :: p) by_ p s
    · rw [List.isPrefixOf_iff_prefix]
      exact ⟨s, rfl⟩

/-- The first occurrence is replaced and the rest goes on. -/
theorem replace_first (pat by_ : Str) (hp : pat ≠ []) : ∀ (a s : Str),
    (∀ x y, a ++ pat ++ s = x ++ pat ++ y → a.length ≤ x.length) →
    replaceGo pat by_ 0 (a ++ pat ++ s) = a ++ by_ ++ replaceGo pat by_ 0 s := by
  intro a
  induction a with
  | nil => intro s _; exact replace_here pat by_ s hp
  | cons c a ih =>
    intro s h
    rw [List.cons_append, List.cons_append, replaceGo, if_neg, ih]
    · rfl
    · intro x y hxy
      have := h (c :: x) y (by rw [List.cons_append, List.cons_append, hxy]; rfl)
      simpa using this
    · intro hpre
      rw [List.isPrefixOf_iff_prefix] at hpre
      obtain ⟨t, ht⟩ := hpre
      have := h [] t (by rw [List.nil_append, ht]; rfl)
      simp at this

theorem below_append (p q : Path) : below (p ++ q) = below p ++ below q := List.flatMap_append

theorem text_ne (p : Path) (h : p ≠ []) : text p = below p := by
  cases p with
  | nil => exact absurd rfl h
  | cons a p => rfl

theorem text_nonempty (p : Path) : text p ≠ [] := by
  cases p with
  | nil => simp [text]
  | cons a p => simp [text, below]

/-- The directory is not shown as a place in a repository. -/
def Outside (dir : Path) (root : Option Path) : Prop := ∀ r, root = some r → ¬ r <+: dir

theorem plain_path (dir : Path) (root : Option Path) (home : Path) (h : Outside dir root) :
    promptPath dir root (some home) false = (replaceAll (text home) ['~'] (text dir), false) := by
  unfold promptPath
  cases root with
  | none => rfl
  | some r =>
    dsimp only
    rw [if_neg]
    · rfl
    · intro hp
      exact h r rfl (List.isPrefixOf_iff_prefix.1 hp)

/-- **C139 outside repositories.** Where the path of the home directory occurs in the path only at its beginning and as whole names, what is shown means
the directory, with `~` for the home directory. -/
theorem C139_home_partial (dir home : Path) (root : Option Path) (ho : Outside dir root)
    (h : ∀ a b, text dir = a ++ text home ++ b → a = [] ∧ (b = [] ∨ ∃ r, b = '/' :: r)) :
    meaning (text home) (promptPath dir root (some home) false).1 = text dir ∧
    (promptPath dir root (some home) false).2 = false := by
  rw [plain_path dir root home ho]
  refine ⟨?_, rfl⟩
  show meaning (text home) (replaceGo (text home) ['~'] 0 (text dir)) = text dir
  by_cases hx : ∃ a b, text dir = a ++ text home ++ b
  · obtain ⟨a, b, hab⟩ := hx
    obtain ⟨rfl, hb⟩ := h a b hab
    rw [List.nil_append] at hab
    have hno : ∀ x y, b ≠ x ++ text home ++ y := by
      intro x y hb'
      have := (h (text home ++ x) y (by rw [hab, hb']; simp [List.append_assoc])).1
      have hn := text_nonempty home
      cases ht : text home with
      | nil => exact hn ht
      | cons c t => rw [ht] at this; cases this
    rw [hab, replace_here _ _ _ (text_nonempty home), replace_none _ _ b hno]
    rcases hb with rfl | ⟨r, rfl⟩
    · simp [meaning]
    · rfl
  · rw [replace_none _ _ _ (fun a b hab => hx ⟨a, b, hab⟩)]
    cases dir with
    | nil => rfl
    | cons a p => rfl

/-- In the home directory of `u`, below it, and elsewhere. -/
example : promptPath [c!"home", c!"u"] none (some [c!"home", c!"u"]) false = (c!"~", false) ∧
    promptPath [c!"home", c!"u", c!"src"] none (some [c!"home", c!"u"]) false = (c!"~/src", false) ∧
    promptPath [c!"etc"] none (some [c!"home", c!"u"]) false = (c!"/etc", false) := by decide

/-- **C139 without a home directory**: the whole path is shown. -/
theorem C139_homeless_partial (dir : Path) (root : Option Path) (ho : Outside dir root) : promptPath dir root none false = (text dir, false) := by
  unfold promptPath
  cases root with
  | none => rfl
  | some r =>
    dsimp only
    rw [if_neg (fun hp => ho r rfl (List.isPrefixOf_iff_prefix.1 hp))]
    rfl

/-- **C139 in repositories.** In a repository the name of its directory and the path in it are shown; from the directory of the
repository they lead to the current one. -/
theorem C139_repo_partial (up : Path) (name : Str) (rest : Path) (home : Option Path) (marked : Bool) :
    promptPath (up ++ [name] ++ rest) (some (up ++ [name])) home marked = (joinWith ['/'] (name :: rest), true) := by
  unfold promptPath
  dsimp only
  rw [if_pos (List.isPrefixOf_iff_prefix.2 ⟨rest, rfl⟩), List.drop_left]
  simp only [List.getLast?_append, List.getLast?_singleton, Option.some_or, Option.getD_some]
  cases rest with
  | nil => rfl
  | cons x rest => simp [joinWith]

example : promptPath [c!"home", c!"u", c!"shell", c!"src", c!"repl"] (some [c!"home", c!"u", c!"shell"]) (some [c!"home", c!"u"]) false =
    (c!"shell/src/repl", true) := by decide

/-- **C139 fails for siblings of the home directory**: `/home/user2` is shown as `~2` to `/home/user`. -/
theorem C139_sibling_violated (up : Path) (name s : Str) (hs : '/' ∉ s) :
    promptPath (up ++ [name ++ s]) none (some (up ++ [name])) false = ('~' :: s, false) := by
  rw [plain_path _ _ _ (fun r hr => (by cases hr))]
  have hne : ∀ x : Str, up ++ [x] ≠ [] := by intro x; simp
  have ht : text (up ++ [name ++ s]) = text (up ++ [name]) ++ s := by
    rw [text_ne _ (hne _), text_ne _ (hne _), below_append, below_append]
    simp [below]
  have hh : ∃ t, text (up ++ [name]) = '/' :: t := by
    cases up with
    | nil => exact ⟨_, rfl⟩
    | cons a p => exact ⟨_, rfl⟩
  obtain ⟨t, hh⟩ := hh
  rw [ht]
  unfold replaceAll
  rw [replace_here _ _ _ (text_nonempty _), replace_none _ _ s]
  · rfl
  · intro a b hab
    refine hs ?_
    rw [hab, hh]
    simp

example : promptPath [c!"home", c!"user2"] none (some [c!"home", c!"user"]) false = (c!"~2", false) := by decide

/-- **C139 fails where the path occurs further on**: a directory below a copy of the home directory is shown like another one with a `~` in
its name. -/
theorem C139_inside_violated (dir dir' home : Path) (a b : Str) (hd : text dir = a ++ text home ++ b) (hd' : text dir' = a ++ ['~'] ++ b)
    (h1 : ∀ x y, text dir = x ++ text home ++ y → x = a) (h2 : ∀ x y, text dir' ≠ x ++ text home ++ y) :
    promptPath dir none (some home) false = promptPath dir' none (some home) false := by
  rw [plain_path _ _ _ (fun r hr => (by cases hr)), plain_path _ _ _ (fun r hr => (by cases hr))]
  unfold replaceAll
  have hb : ∀ x y, b ≠ x ++ text home ++ y := by
    intro x y hb
    have := h1 (a ++ text home ++ x) y (by rw [hd, hb]; simp [List.append_assoc])
    have hl := congrArg List.length this
    have hp : 0 < (text home).length := List.length_pos_iff.2 (text_nonempty home)
    simp only [List.length_append] at hl
    omega
  rw [replace_none _ _ (text dir') h2, hd, replace_first _ _ (text_nonempty home) a b, replace_none _ _ b hb, ← hd']
  intro x y hxy
  rw [h1 x y (by rw [hd, hxy])]
  exact Nat.le_refl _

example : promptPath [c!"backup", c!"root", c!"x"] none (some [c!"root"]) false = promptPath [c!"backup~", c!"x"] none (some [c!"root"]) false := by
  decide

/-- **C139 fails for a home directory `/`** (services, containers): every bar becomes `~`. -/
theorem C139_slash_violated (dir : Path) : '/' ∉ (promptPath dir none (some []) false).1 := by
  rw [plain_path _ _ _ (fun r hr => (by cases hr))]
  show '/' ∉ replaceGo ['/'] ['~'] 0 (text dir)
  have : ∀ s : Str, '/' ∉ replaceGo ['/'] ['~'] 0 s := by
    intro s
    induction s with
    | nil => simp [replaceGo]
    | cons c s ih =>
      rw [replaceGo]
      by_cases hc : c = '/'
      · rw [if_pos (by simp [hc])]
        intro hm
        rcases List.mem_append.1 hm with hm | hm
        · revert hm; decide
        · exact ih hm
      · rw [if_neg (by simp; exact fun h => hc h.symm)]
        intro hm
        rcases List.mem_cons.1 hm with hm | hm
        · exact hc hm.symm
        · exact ih hm
  exact this _

example : promptPath [c!"etc", c!"ssh"] none (some []) false = (c!"~etc~ssh", false) := by decide

/-- **C139 fails for a repository at `/`**: its directory is shown as nothing. -/
theorem C139_top_violated (home : Option Path) (marked : Bool) : promptPath [] (some []) home marked = ([], true) := rfl

end Dsh.Prm
