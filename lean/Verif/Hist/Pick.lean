import Verif.Hist.Store
/-!
Choosing a command of the history with Ctrl-R (C224): `select_history` (dsh/src/repl/mod.rs:1127-1178), `select_item_with_skim`, `run_with_skim`
(dsh/src/completion/framework.rs:115-164), `ReplaceAll` and a cancelled choice (dsh/src/repl/mod.rs:993-1040), and with the palette:
`select_history_command` (dsh/src/command_palette/actions/search_history.rs:26-63).

The finder (the crate `skim`) is an answer: left with Esc or not, and the items it reports, which are some of those it was given, whatever was
typed in it.  The memory of the history is that of `Verif/Hist/Store.lean` with its caches right (`Caches`, true after any operations, `caches_all`).
-/
namespace Dsh.HistPick
open Dsh.HistStore

abbrev Str := List Char

/-- What the finder reports. -/
structure Answer where
  aborted : Bool
  selected : List Str

/-- `run_with_skim` (framework.rs:115-164): a single item is taken without asking. -/
def runSkim (items : List Str) (a : Answer) : Option Str :=
  match items with
  | [x] => some x
  | _ => if a.aborted then none else a.selected.head?

/-- The query (repl/mod.rs:1131-1139). -/
def query (line : Str) : Query := { text := if line.isEmpty then none else some line, limit := some 500 }

/-- The commands given to the finder (repl/mod.rs:1140-1144). -/
def items (lower : Str → Str) (m : Mem) (line : Str) : List Str := (m.search lower (query line)).map Entry.cmd

/-- The line after Ctrl-R (repl/mod.rs:1127-1178); `busy`: the history is locked. -/
def ctrlR (lower : Str → Str) (busy : Bool) (m : Mem) (line : Str) (a : Answer) : Str :=
  if busy then line
  else match runSkim (items lower m line) a with
    | some c => c
    | none => line

/-- The commands the palette gives to the finder (search_history.rs:27-38). -/
def paletteItems (m : Mem) : List Str := (m.hist.reverse.take 1000).map Entry.cmd

/-- The line after the choice in the palette (search_history.rs:40-62, auxiliary.rs:21-25). -/
def palette (m : Mem) (line : Str) (a : Answer) : Str :=
  if (paletteItems m).isEmpty then line
  else match a.selected.head? with
    | some c => c
    | none => line

/-- The finder reports what it was given. -/
def Fair (its : List Str) (a : Answer) : Prop := ∀ c ∈ a.selected, c ∈ its

/-- A command contains the line, small and capital letters alike. -/
def Has (lower : Str → Str) (line : Str) (e : Entry) : Prop := line = [] ∨ lower line <:+: lower e.cmd

/-! ### Lemmas -/

open Classical in
theorem items_eq (lower : Str → Str) (m : Mem) (hm : Caches lower m) (line : Str) :
    items lower m line = ((m.hist.reverse.filter fun e => decide (Has lower line e)).take 500).map Entry.cmd := by
  have hn := hm.norm
  unfold items Mem.search
  rw [if_neg (by simp [query])]
  have hpairs : (if m.norm.length = m.hist.length then m.hist.zip m.norm else m.hist.map (fun e => (e, lower e.cmd))) =
      m.hist.map (fun e => (e, lower e.cmd)) := by
    rw [hn, if_pos (by simp)]
    generalize m.hist = l
    induction l with
    | nil => rfl
    | cons e l ih => simp [ih]
  simp only [hpairs]
  rw [scan_eq _ _ _ _ (fun n hn => by simp only [query, Option.some.injEq] at hn; subst hn; simp)]
  rw [List.nil_append, ← List.map_reverse, List.filter_map, List.map_map]
  have hf : (Prod.fst ∘ fun e : Entry => (e, lower e.cmd)) = id := rfl
  rw [hf, List.map_id]
  have hq : (query line).limit.map (· - ([] : List Entry).length) = some 500 := rfl
  rw [hq]
  simp only [takeLimit]
  congr 2
  apply List.filter_congr
  intro e _
  simp only [Function.comp]
  rw [Bool.eq_iff_iff, passes_iff, decide_eq_true_iff]
  unfold Has
  cases line with
  | nil => exact ⟨fun _ => .inl rfl, fun _ => ⟨by simp [query], by simp [query], by simp [query], by simp [query], by simp [query], by simp [query], by simp [query]⟩⟩
  | cons x line =>
    constructor
    · intro h; exact .inr (h.text _ (by simp [query]))
    · rintro (h | h)
      · simp at h
      · exact ⟨by simpa [query] using h, by simp [query], by simp [query], by simp [query], by simp [query], by simp [query], by simp [query]⟩

/-- Among the items is what contains the line. -/
theorem items_has (lower : Str → Str) (m : Mem) (hm : Caches lower m) (line c : Str) (hc : c ∈ items lower m line) :
    ∃ e ∈ m.hist, e.cmd = c ∧ Has lower line e := by
  classical
  rw [items_eq lower m hm, List.mem_map] at hc
  obtain ⟨e, he, rfl⟩ := hc
  have := List.mem_of_mem_take he
  simp only [List.mem_filter, List.mem_reverse, decide_eq_true_eq] at this
  exact ⟨e, this.1, rfl, this.2⟩

theorem ctrlR_cases (lower : Str → Str) (busy : Bool) (m : Mem) (line : Str) (a : Answer) (hf : Fair (items lower m line) a) :
    ctrlR lower busy m line a = line ∨ ctrlR lower busy m line a ∈ items lower m line := by
  unfold ctrlR runSkim
  split
  · exact .inl rfl
  · split
    · rename_i c h
      right
      split at h
      · rename_i heq; rw [heq]; simp_all
      · split at h
        · simp at h
        · exact hf c (List.mem_of_head? h)
    · exact .inl rfl

/-! ### C224 -/

/-- **C224, what the line becomes.** Whatever is typed and chosen in the finder, the line is as it was or a command of the history that contains it. -/
theorem C224_line_partial (lower : Str → Str) (busy : Bool) (m : Mem) (hm : Caches lower m) (line : Str) (a : Answer) (hf : Fair (items lower m line) a) :
    ctrlR lower busy m line a = line ∨ ∃ e ∈ m.hist, e.cmd = ctrlR lower busy m line a ∧ Has lower line e := by
  rcases ctrlR_cases lower busy m line a hf with h | h
  · exact .inl h
  · exact .inr (items_has lower m hm line _ h)

/-- **C224, left with Esc.** If none or more than one command contains the line, Esc leaves it as it was. -/
theorem C224_esc_partial (lower : Str → Str) (busy : Bool) (m : Mem) (line : Str) (a : Answer) (ha : a.aborted = true)
    (h : (items lower m line).length ≠ 1) : ctrlR lower busy m line a = line := by
  unfold ctrlR runSkim
  split
  · rfl
  · split
    · rename_i c hc
      split at hc
      · rename_i heq; rw [heq] at h; simp at h
      · simp at hc
    · rfl

open Classical in
/-- **C224, every recent command can be chosen.** A command that contains the line and has fewer than 500 newer ones that do is given to the finder, and
chosen it becomes the line. -/
theorem C224_found_partial (lower : Str → Str) (m : Mem) (hm : Caches lower m) (line : Str) (e : Entry) (old new : List Entry) (hh : m.hist = old ++ e :: new)
    (he : Has lower line e) (hn : (new.filter fun x => decide (Has lower line x)).length < 500) :
    e.cmd ∈ items lower m line ∧ ctrlR lower false m line ⟨false, [e.cmd]⟩ = e.cmd := by
  have hin : e.cmd ∈ items lower m line := by
    rw [items_eq lower m hm, hh, List.reverse_append, List.reverse_cons, List.append_assoc, List.filter_append, List.singleton_append,
      List.filter_cons_of_pos (by simpa using he), List.filter_reverse]
    refine List.mem_map_of_mem ?_
    rw [List.take_append]
    refine List.mem_append_right _ ?_
    obtain ⟨k, hk⟩ : ∃ k, 500 - ((new.filter fun x => decide (Has lower line x)).reverse).length = k + 1 :=
      ⟨500 - ((new.filter fun x => decide (Has lower line x)).reverse).length - 1, by rw [List.length_reverse]; omega⟩
    rw [hk, List.take_succ_cons]
    simp
  refine ⟨hin, ?_⟩
  unfold ctrlR runSkim
  rw [if_neg (by simp)]
  split
  · rename_i c h
    split at h
    · rename_i heq; rw [heq] at hin; simp_all
    · simpa using h.symm
  · rename_i h
    split at h
    · simp at h
    · simp at h

open Classical in
/-- **C224 fails: the 501st.** A command with 500 newer ones that contain the line cannot be chosen, whatever is typed in the finder. -/
theorem C224_limit_violated (lower : Str → Str) (busy : Bool) (m : Mem) (hm : Caches lower m) (line : Str) (e : Entry) (old new : List Entry)
    (hh : m.hist = old ++ e :: new) (hn : 500 ≤ (new.filter fun x => decide (Has lower line x)).length) (hd : ∀ x ∈ new, x.cmd ≠ e.cmd)
    (hl : e.cmd ≠ line) (a : Answer) (hf : Fair (items lower m line) a) : ctrlR lower busy m line a ≠ e.cmd := by
  intro hc
  rcases ctrlR_cases lower busy m line a hf with h | h
  · exact hl (hc ▸ h)
  · rw [hc, items_eq lower m hm, hh, List.reverse_append, List.reverse_cons, List.append_assoc, List.filter_append, List.filter_reverse,
      List.take_append_of_le_length (by simpa using hn), List.mem_map] at h
    obtain ⟨x, hx, e'⟩ := h
    have := List.mem_of_mem_take hx
    simp only [List.mem_reverse, List.mem_filter] at this
    exact hd x this.1 e'

/-- **C224 fails: widening.** A command that does not contain the line is not among the items: taking back what was typed, in the finder, does not bring it back,
and letters spread over the command do not find it. -/
theorem C224_widen_violated (lower : Str → Str) (busy : Bool) (m : Mem) (hm : Caches lower m) (line c : Str) (hne : line ≠ []) (hc : ¬ lower line <:+: lower c) (hl : c ≠ line)
    (a : Answer) (hf : Fair (items lower m line) a) : ctrlR lower busy m line a ≠ c := by
  intro h
  rcases C224_line_partial lower busy m hm line a hf with h1 | ⟨e, _, h1, h2⟩
  · exact hl (h ▸ h1)
  · rcases h2 with h2 | h2
    · exact hne h2
    · rw [h1, h] at h2; exact hc h2

/-- **C224 fails: the only one.** If one command contains the line, it replaces the line at once, without the finder. -/
theorem C224_only_violated (lower : Str → Str) (m : Mem) (line c : Str) (h : items lower m line = [c]) (a : Answer) :
    ctrlR lower false m line a = c := by
  simp [ctrlR, runSkim, h]

/-- **C224 fails: locked.** While the history is in use, Ctrl-R does nothing. -/
theorem C224_locked_violated (lower : Str → Str) (m : Mem) (line : Str) (a : Answer) : ctrlR lower true m line a = line := by
  simp [ctrlR]

/-- **C224, the palette.** What is chosen of the newest 1000 commands becomes the line; if the finder reports nothing it stays. -/
theorem C224_palette_partial (m : Mem) (line : Str) (a : Answer) (hf : Fair (paletteItems m) a) :
    (a.selected = [] → palette m line a = line) ∧ ∀ c, a.selected = [c] → palette m line a = c := by
  refine ⟨fun h => by simp [palette, h], fun c h => ?_⟩
  have : c ∈ paletteItems m := hf c (by simp [h])
  have hne : (paletteItems m).isEmpty = false := by
    cases hp : paletteItems m with
    | nil => rw [hp] at this; simp at this
    | cons x l => rfl
  simp [palette, h, hne]

/-- **C224 fails: Esc in the palette.** Whether the finder was left with Esc is not looked at: if it reports the item it stood on, that becomes the line. -/
theorem C224_palette_violated (m : Mem) (line c : Str) (h : c ∈ paletteItems m) : palette m line ⟨true, [c]⟩ = c :=
  (C224_palette_partial m line ⟨true, [c]⟩ (by intro x hx; simp at hx; subst hx; exact h)).2 c rfl

/-! ### Examples -/

/-- A history. -/
def demo : Mem := ⟨[⟨c!"git push", 1, 1, none, {}⟩, ⟨c!"ls", 2, 1, none, {}⟩, ⟨c!"git commit", 3, 1, none, {}⟩], [], [c!"git push", c!"ls", c!"git commit"]⟩

example : items id demo c!"git" = [c!"git commit", c!"git push"] ∧ items id demo c!"gco" = [] ∧ items id demo c!"push" = [c!"git push"] ∧
    ctrlR id false demo c!"push" ⟨true, []⟩ = c!"git push" ∧ ctrlR id false demo c!"git" ⟨true, [c!"git commit"]⟩ = c!"git" ∧
    ctrlR id false demo c!"git" ⟨false, [c!"git push"]⟩ = c!"git push" ∧ palette demo c!"x" ⟨true, [c!"ls"]⟩ = c!"ls" := by decide +kernel

/-- The hypotheses of the limit are met. -/
example (n : Nat) : ∃ (m : Mem) (e : Entry) (new : List Entry), Caches id m ∧ m.hist = [] ++ e :: new ∧ new.length = n ∧
    (∀ x ∈ new, x.cmd ≠ e.cmd) ∧ ∀ x ∈ new, Has id c!"a" x := by
  refine ⟨⟨⟨c!"a", 0, 1, none, {}⟩ :: List.replicate n ⟨c!"ba", 0, 1, none, {}⟩, [], c!"a" :: List.replicate n c!"ba"⟩, _, _, ⟨?_, ?_⟩, rfl, ?_, ?_, ?_⟩
  · exact List.nil_suffix
  · simp
  · simp
  · intro x hx; rw [List.eq_of_mem_replicate hx]; simp
  · intro x hx; rw [List.eq_of_mem_replicate hx]; exact .inr ⟨['b'], [], rfl⟩

end Dsh.HistPick
