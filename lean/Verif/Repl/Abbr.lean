import Verif.Editor.Props
import Verif.Parse.AliasCmd
import Verif.Parse.Incomplete

/-!
# Abbreviations: the built-in `abbr`, and their expansion on the blank and on Enter

The table is modelled as the one of `Verif/Parse/AliasCmd.lean`: both are `HashMap<String, String>` of the
environment.
-/

namespace Dsh.Abbr
open Dsh Dsh.Editor Dsh.Alias

/-- Strings. -/
abbrev Str := List Char

/-- `HashMap::remove` (proxy/mod.rs:197-204). -/
def del (t : Tbl) (n : Str) : Tbl := t.filter (fun e => !(e.1 == n))

/-! ### The built-in -/

/-- What a call leaves; `shown`: the entries of the table drawn by a listing. -/
structure Res where
  status : Nat
  out : List Str := []
  err : List Str := []
  shown : List (Str × Str) := []
deriving DecidableEq, Repr

/-- The usage line of most refusals (abbr.rs:64-65, 82-83, 96-97). -/
def usage : Str := c!"Usage: abbr [-a|-e|-l|-s] [name] [expansion]"

/-- `list_all_abbreviations` (abbr.rs:105-121). -/
def listAll (t : Tbl) : Res :=
  if t = [] then { status := 0, out := [c!"No abbreviations defined"] } else { status := 0, shown := t }

/-- `show_specific_abbreviation` (abbr.rs:124-133). -/
def showOne (t : Tbl) (n : Str) : Res :=
  match get t n with
  | some e => { status := 0, out := [c!"abbr " ++ n ++ c!" '" ++ e ++ c!"'"] }
  | none => { status := 1, err := [c!"abbr: no abbreviation named '" ++ n ++ c!"'"] }

/-- `add_abbreviation` (abbr.rs:136-153). -/
def addOne (t : Tbl) (n e : Str) : Res × Tbl :=
  if n = [] ∨ n.contains ' ' ∨ n.contains '\t' then
    ({ status := 1, err := [c!"abbr: invalid abbreviation name (cannot contain spaces)"] }, t)
  else ({ status := 0, out := [c!"Added abbreviation: " ++ n ++ c!" → " ++ e] }, put t n e)

/-- `remove_abbreviation` (abbr.rs:156-166). -/
def removeOne (t : Tbl) (n : Str) : Res × Tbl :=
  if (get t n).isSome then ({ status := 0, out := [c!"Removed abbreviation: " ++ n] }, del t n)
  else ({ status := 1, err := [c!"abbr: no abbreviation named '" ++ n ++ c!"'"] }, t)

/-- `command` (abbr.rs:26-102); `argv` with the name of the command. -/
def command (t : Tbl) (argv : List Str) : Res × Tbl :=
  match argv with
  | [_] => (listAll t, t)
  | [_, arg] =>
    if [c!"-l", c!"-s", c!"--list"].contains arg then (listAll t, t)
    else if c!"-e".isPrefixOf arg then
      ({ status := 1, err := [c!"abbr: -e option requires abbreviation name", c!"Usage: abbr -e <name>"] }, t)
    else (showOne t arg, t)
  | [_, opt, n] =>
    if [c!"-e", c!"--erase"].contains opt then removeOne t n
    else if [c!"-a", c!"--add"].contains opt then
      ({ status := 1, err := [c!"abbr: -a option requires expansion", c!"Usage: abbr -a <name> <expansion>"] }, t)
    else ({ status := 1, err := [c!"abbr: invalid option", usage] }, t)
  | [_, opt, n, e] =>
    if [c!"-a", c!"--add"].contains opt then addOne t n e
    else ({ status := 1, err := [c!"abbr: invalid option", usage] }, t)
  | _ :: opt :: n :: words =>
    if opt = c!"-a" ∨ opt = c!"--add" then addOne t n (joinWith c!" " words)
    else ({ status := 1, err := [c!"abbr: too many arguments", usage] }, t)
  | [] => ({ status := 1, err := [c!"abbr: too many arguments", usage] }, t)

/-- A session: calls of `abbr` one after the other. -/
def session (t : Tbl) (calls : List (List Str)) : Tbl := calls.foldl (fun t a => (command t a).2) t

/-! ### The keys -/

variable (W : Char → Nat)

/-- Expansion of the word left of the caret (handler.rs:185-193, key_handlers/execution.rs:57-64);
`none` is a panic. -/
def expand (t : Tbl) (s : Input) : Option Input :=
  match s.currentWord with
  | none => none
  | some none => some s
  | some (some w) => match get t w with
    | none => some s
    | some e => (s.replaceCurrentWord W e).map (·.1)

/-- The blank key (handler.rs:184-199). -/
def space (t : Tbl) (s : Input) : Option Input :=
  match expand W t s with
  | none => none
  | some s1 => s1.insert W ' '

/-- What Enter does with the line. -/
inductive Enter
  /-- the line goes on; the text kept -/
  | more (buffer : Str)
  /-- handed to the AI -/
  | ai (line : Str)
  /-- run as a command -/
  | run (line : Str)
  /-- nothing to run -/
  | nothing
deriving DecidableEq, Repr

/-- The first part of `handle_execute` (key_handlers/execution.rs:15-96). `inc` is `is_incomplete_input`, `ai`
tells whether `detect_ai_pipe` finds a query; `buffer` the lines before. -/
def enter (inc ai : Str → Bool) (t : Tbl) (buffer : Str) (s : Input) : Option Enter :=
  let combined := buffer ++ s.input
  if inc combined then some (.more (combined ++ c!"\n"))
  else
    let s1 := if buffer = [] then s else s.reset W combined
    if ai s1.input then some (.ai s1.input)
    else match expand W t s1 with
      | none => none
      | some s2 => some (if s2.input = [] then .nothing else .run s2.input)

/-! ### Specification -/

/-- A word for the purpose of abbreviations: not empty, without blanks and `| & ; ( )`. -/
def IsWord (w : Str) : Prop := w ≠ [] ∧ ∀ c ∈ w, rustWhitespace c = false ∧ c ∉ ['|', '&', ';', '(', ')']

/-- A text after which a word begins: empty or ending in a blank or one of `| & ; ( )`. -/
def Opens (pre : Str) : Prop :=
  pre = [] ∨ ∃ p c, pre = p ++ [c] ∧ (rustWhitespace c = true ∨ c ∈ ['|', '&', ';', '(', ')'])

theorem breaks_iff (c : Char) :
    abbrBreak c = true ↔ rustWhitespace c = true ∨ c ∈ ['|', '&', ';', '(', ')'] := by
  unfold abbrBreak
  rw [Bool.or_eq_true, List.contains_iff_mem]

theorem word_breaks {w : Str} (h : IsWord w) : ∀ c ∈ w, abbrBreak c = false := by
  intro c hc
  cases hb : abbrBreak c with
  | false => rfl
  | true =>
    rcases (breaks_iff c).1 hb with h1 | h1
    · rw [(h.2 c hc).1] at h1; cases h1
    · exact ((h.2 c hc).2 h1).elim

theorem takeWhile_all {p : Char → Bool} {l r : Str} (h : ∀ c ∈ l, p c = true)
    (hr : ∀ c, r.head? = some c → p c = false) : (l ++ r).takeWhile p = l := by
  induction l with
  | nil =>
    cases r with
    | nil => rfl
    | cons c r => simp [hr c rfl]
  | cons c l ih =>
    simp only [List.cons_append, List.takeWhile_cons, h c (by simp), if_true]
    rw [ih (fun d hd => h d (by simp [hd]))]

theorem lastPiece_eq {pre w : Str} (hp : Opens pre) (hw : ∀ c ∈ w, abbrBreak c = false) :
    lastPiece (pre ++ w) = w := by
  unfold lastPiece
  rw [List.reverse_append, takeWhile_all]
  · simp
  · intro c hc; simp [hw c (by simpa using hc)]
  · intro c hc
    rcases hp with rfl | ⟨p, d, rfl, hd⟩
    · simp at hc
    · simp at hc; subst hc
      simp [(breaks_iff d).2 hd]

theorem expand_word {W t} {s : Input} {pre w after : Str} (h : Rep W s ⟨pre ++ w, after⟩) (hp : Opens pre)
    (hw : IsWord w) : ∃ s', expand W t s = some s' ∧ Rep W s' ⟨pre ++ (get t w).getD w, after⟩ := by
  have hl := lastPiece_eq hp (word_breaks hw)
  unfold expand
  rw [h.currentWord]
  simp only [hl, if_neg hw.1]
  cases hg : get t w with
  | none => exact ⟨s, rfl, h⟩
  | some e =>
    obtain ⟨s', h1, h2⟩ := h.replaceCurrentWord e
    refine ⟨s', h1, ?_⟩
    simp only [Zip.op, hl, if_neg hw.1] at h2
    simp only [Option.getD_some]
    rw [List.length_append, Nat.add_sub_cancel, List.take_left' rfl] at h2
    exact h2

theorem expand_gap {W t} {s : Input} {pre after : Str} (h : Rep W s ⟨pre, after⟩) (hp : Opens pre) :
    expand W t s = some s := by
  have hl : lastPiece pre = [] := by simpa using lastPiece_eq (w := []) hp (by simp)
  unfold expand
  rw [h.currentWord]
  simp [hl]

/-- **C125 (partial)**: the blank. When the word left of the caret is an abbreviation it is replaced by its
expansion, otherwise it stays; a blank follows; the caret stands after it, and all before the word and all
after the caret stays as it was. -/
theorem C125_space_partial {W : Char → Nat} (t : Tbl) {s : Input} {pre w after : Str}
    (h : Rep W s ⟨pre ++ w, after⟩) (hp : Opens pre) (hw : IsWord w) :
    ∃ s', space W t s = some s' ∧ Rep W s' ⟨pre ++ (get t w).getD w ++ [' '], after⟩ := by
  obtain ⟨s1, h1, h2⟩ := expand_word (t := t) h hp hw
  obtain ⟨s2, h3, h4⟩ := h2.insert ' '
  refine ⟨s2, ?_, h4⟩
  unfold space
  rw [h1]
  exact h3

/-- **C125 (partial)**: where no word stands left of the caret, in particular after a first blank, the blank
key types a blank and expands nothing. -/
theorem C125_gap_partial {W : Char → Nat} (t : Tbl) {s : Input} {pre after : Str}
    (h : Rep W s ⟨pre, after⟩) (hp : Opens pre) :
    ∃ s', space W t s = some s' ∧ Rep W s' ⟨pre ++ [' '], after⟩ := by
  obtain ⟨s2, h3, h4⟩ := h.insert ' '
  refine ⟨s2, ?_, h4⟩
  unfold space
  rw [expand_gap h hp]
  exact h3

/-- **C125 (partial)**: Enter. A complete line is run with the word left of the caret expanded when it is an
abbreviation, and otherwise as it stands. -/
theorem C125_enter_partial {W : Char → Nat} {inc ai : Str → Bool} (t : Tbl) {s : Input} {pre w after : Str}
    (h : Rep W s ⟨pre ++ w, after⟩) (hp : Opens pre) (hw : IsWord w) (hi : inc (pre ++ w ++ after) = false)
    (ha : ai (pre ++ w ++ after) = false) (he : pre ++ (get t w).getD w ++ after ≠ []) :
    enter W inc ai t [] s = some (.run (pre ++ (get t w).getD w ++ after)) := by
  obtain ⟨s1, h1, h2⟩ := expand_word (t := t) h hp hw
  have ht := h.text
  have ht1 := h2.text
  simp only at ht ht1
  unfold enter
  simp only [List.nil_append, ht, hi, ha, Bool.false_eq_true, if_false, if_true, h1, ht1, if_neg he]

/-- **C125 (partial)**: Enter after continued lines looks at the end of the whole text. -/
theorem C125_enter_lines_partial {W : Char → Nat} {inc ai : Str → Bool} (t : Tbl) {s : Input} {buf pre w : Str}
    (hb : buf ≠ []) (hs : buf ++ s.input = pre ++ w) (hp : Opens pre) (hw : IsWord w)
    (hi : inc (pre ++ w) = false) (ha : ai (pre ++ w) = false) (he : pre ++ (get t w).getD w ≠ []) :
    enter W inc ai t buf s = some (.run (pre ++ (get t w).getD w)) := by
  have hr : Rep W (s.reset W (pre ++ w)) ⟨pre ++ w, []⟩ := by
    constructor <;> simp [Input.reset]
  obtain ⟨s1, h1, h2⟩ := expand_word (t := t) hr hp hw
  have ht1 := h2.text
  simp only [List.append_nil] at ht1
  unfold enter
  have h3 : (s.reset W (pre ++ w)).input = pre ++ w := rfl
  simp only [hs, hi, Bool.false_eq_true, if_false, if_neg hb, h3, ha, h1, ht1, if_neg he]

theorem expand_total {W t} {s : Input} {z : Zip} (h : Rep W s z) :
    ∃ s' z', expand W t s = some s' ∧ Rep W s' z' := by
  unfold expand
  rw [h.currentWord]
  by_cases hl : lastPiece z.before = []
  · rw [if_pos hl]
    exact ⟨s, z, rfl, h⟩
  · rw [if_neg hl]
    simp only
    cases hg : get t (lastPiece z.before) with
    | none => exact ⟨s, z, rfl, h⟩
    | some e =>
      obtain ⟨s', h1, h2⟩ := h.replaceCurrentWord e
      exact ⟨s', _, h1, h2⟩

/-- **C125 (partial)**: neither key ever panics, wherever the caret stands and whatever is typed. -/
theorem C125_total_partial {W : Char → Nat} (inc ai : Str → Bool) (t : Tbl) (buf : Str) {s : Input} {z : Zip}
    (h : Rep W s z) :
    (∃ s' z', space W t s = some s' ∧ Rep W s' z') ∧ ∃ r, enter W inc ai t buf s = some r := by
  constructor
  · obtain ⟨s1, z1, h1, h2⟩ := expand_total (t := t) h
    obtain ⟨s2, h3, h4⟩ := h2.insert ' '
    refine ⟨s2, _, ?_, h4⟩
    unfold space
    rw [h1]
    exact h3
  · unfold enter
    dsimp only
    by_cases hi : inc (buf ++ s.input) = true
    · rw [if_pos hi]; exact ⟨_, rfl⟩
    · rw [if_neg hi]
      have hr : ∃ z1, Rep W (if buf = [] then s else s.reset W (buf ++ s.input)) z1 := by
        by_cases hb : buf = []
        · rw [if_pos hb]; exact ⟨z, h⟩
        · rw [if_neg hb]
          exact ⟨⟨buf ++ s.input, []⟩, by constructor <;> simp [Input.reset]⟩
      obtain ⟨z1, hr⟩ := hr
      obtain ⟨s2, z2, h3, -⟩ := expand_total (t := t) hr
      generalize (if buf = [] then s else s.reset W (buf ++ s.input)) = s1 at h3
      split
      · exact ⟨_, rfl⟩
      · rw [h3]; exact ⟨_, rfl⟩

/-! ### The table -/

theorem get_del (t : Tbl) (n m : Str) : get (del t n) m = if m = n then none else get t m := by
  unfold Alias.get del
  induction t with
  | nil => simp
  | cons e t ih =>
    by_cases he : e.1 = n
    · have h1 : (e :: t).filter (fun e => !(e.1 == n)) = t.filter (fun e => !(e.1 == n)) := by simp [he]
      rw [h1, ih]
      by_cases hm : m = n
      · simp [hm]
      · have h2 : (e :: t).find? (fun e => e.1 == m) = t.find? (fun e => e.1 == m) := by
          have : ¬ n = m := fun x => hm x.symm
          simp [he, this]
        rw [h2]
    · have h1 : (e :: t).filter (fun e => !(e.1 == n)) = e :: t.filter (fun e => !(e.1 == n)) := by simp [he]
      rw [h1, List.find?_cons, List.find?_cons]
      by_cases hm : e.1 = m
      · have h2 : ¬ m = n := fun x => he (hm.trans x)
        have h3 : (e.1 == m) = true := by simp [hm]
        rw [h3, if_neg h2]
      · have h3 : (e.1 == m) = false := by simp [hm]
        rw [h3]
        exact ih

/-- A name that can be given. -/
def GoodName (n : Str) : Prop := n ≠ [] ∧ ' ' ∉ n ∧ '\t' ∉ n

/-- **C125 (partial)**: `abbr -a name words` defines the abbreviation as the words with one blank between
them, and no other; a name that is empty or holds a blank is refused and nothing changes. -/
theorem C125_add_partial (t : Tbl) (name n : Str) {opt : Str} (ho : opt = c!"-a" ∨ opt = c!"--add")
    {words : List Str} (hw : words ≠ []) :
    (GoodName n → (command t (name :: opt :: n :: words)).1.status = 0 ∧
      ∀ m, get (command t (name :: opt :: n :: words)).2 m =
        if m = n then some (joinWith c!" " words) else get t m) ∧
    (¬ GoodName n → (command t (name :: opt :: n :: words)).1.status = 1 ∧
      (command t (name :: opt :: n :: words)).1.err ≠ [] ∧
      (command t (name :: opt :: n :: words)).2 = t) := by
  have hc : command t (name :: opt :: n :: words) = addOne t n (joinWith c!" " words) := by
    match words, hw with
    | [e], _ =>
      have : [c!"-a", c!"--add"].contains opt = true := by rcases ho with rfl | rfl <;> decide
      rw [command, this]
      rfl
    | e :: e' :: es, _ =>
      rw [command.eq_def]
      dsimp only
      rw [if_pos ho]
  rw [hc]
  unfold addOne
  simp only [GoodName, List.contains_eq_mem, decide_eq_true_eq]
  constructor
  · intro h
    rw [if_neg (by grind)]
    exact ⟨rfl, fun m => get_put t n _ m⟩
  · intro h
    rw [if_pos (by grind)]
    exact ⟨rfl, by simp, rfl⟩

/-- **C125 (partial)**: `abbr -e name` removes that abbreviation and no other, and says when there is none. -/
theorem C125_erase_partial (t : Tbl) (name n : Str) {opt : Str} (ho : opt = c!"-e" ∨ opt = c!"--erase") :
    (∀ m, get (command t [name, opt, n]).2 m = if m = n then none else get t m) ∧
    ((command t [name, opt, n]).1.status = 0 ↔ (get t n).isSome = true) := by
  have hc : command t [name, opt, n] = removeOne t n := by
    have : [c!"-e", c!"--erase"].contains opt = true := by rcases ho with rfl | rfl <;> decide
    rw [command, this]
    rfl
  rw [hc]
  unfold removeOne
  by_cases h : (get t n).isSome = true
  · rw [if_pos h]
    exact ⟨fun m => get_del t n m, by simp [h]⟩
  · rw [if_neg h]
    refine ⟨fun m => ?_, by simp [h]⟩
    by_cases hm : m = n
    · rw [if_pos hm, hm]; simpa using h
    · rw [if_neg hm]

/-- A call that can change the abbreviation `n`: it adds or erases that name. -/
def Touches (n : Str) (argv : List Str) : Prop :=
  ∃ name opt rest, argv = name :: opt :: n :: rest ∧
    ((opt = c!"-a" ∨ opt = c!"--add") ∧ rest ≠ [] ∨ (opt = c!"-e" ∨ opt = c!"--erase") ∧ rest = [])

theorem command_other (t : Tbl) (argv : List Str) (n : Str) (h : ¬ Touches n argv) :
    get (command t argv).2 n = get t n := by
  have key : ∀ (o m : Str), ([c!"-a", c!"--add"].contains o = true ↔ o = c!"-a" ∨ o = c!"--add") ∧
      ([c!"-e", c!"--erase"].contains o = true ↔ o = c!"-e" ∨ o = c!"--erase") := by
    intro o m; simp
  have hadd : ∀ m e, m ≠ n → get (addOne t m e).2 n = get t n := by
    intro m e hm
    unfold addOne
    split
    · rfl
    · rw [get_put, if_neg (fun x => hm x.symm)]
  match argv with
  | [] => rfl
  | [_] => rfl
  | [_, a] =>
    simp only [command]
    split
    · rfl
    · split <;> rfl
  | [name, opt, m] =>
    simp only [command]
    split
    · rename_i ho
      have hm : m ≠ n := by
        rintro rfl
        exact h ⟨name, opt, [], rfl, .inr ⟨((key opt m).2).1 ho, rfl⟩⟩
      unfold removeOne
      split
      · rw [get_del, if_neg (fun x => hm x.symm)]
      · rfl
    · split <;> rfl
  | [name, opt, m, e] =>
    simp only [command]
    split
    · rename_i ho
      apply hadd
      rintro rfl
      exact h ⟨name, opt, [e], rfl, .inl ⟨((key opt m).1).1 ho, by simp⟩⟩
    · rfl
  | name :: opt :: m :: e :: e' :: es =>
    rw [command.eq_def]
    dsimp only
    split
    · rename_i ho
      apply hadd
      rintro rfl
      exact h ⟨name, opt, _, rfl, .inl ⟨ho, by simp⟩⟩
    · rfl

/-- **C125 (partial)**: an abbreviation stays as it is through any calls that neither add nor erase its name. -/
theorem C125_kept_partial (calls : List (List Str)) (t : Tbl) (n : Str) (h : ∀ a ∈ calls, ¬ Touches n a) :
    get (session t calls) n = get t n := by
  unfold session
  induction calls generalizing t with
  | nil => rfl
  | cons a calls ih =>
    rw [List.foldl_cons, ih _ (fun b hb => h b (by simp [hb]))]
    exact command_other t a n (h a (by simp))

theorem del_nodup {t : Tbl} (h : (t.map Prod.fst).Nodup) (n : Str) : ((del t n).map Prod.fst).Nodup :=
  List.Sublist.nodup (List.Sublist.map _ List.filter_sublist) h

theorem command_nodup {t : Tbl} (h : (t.map Prod.fst).Nodup) (argv : List Str) :
    ((command t argv).2.map Prod.fst).Nodup := by
  have hadd : ∀ m e, ((addOne t m e).2.map Prod.fst).Nodup := by
    intro m e
    unfold addOne
    split
    · exact h
    · exact put_nodup h _ _
  match argv with
  | [] => exact h
  | [_] => exact h
  | [_, a] =>
    simp only [command]
    split
    · exact h
    · split <;> exact h
  | [name, opt, m] =>
    simp only [command]
    split
    · unfold removeOne
      split
      · exact del_nodup h m
      · exact h
    · split <;> exact h
  | [name, opt, m, e] =>
    simp only [command]
    split
    · exact hadd m e
    · exact h
  | name :: opt :: m :: e :: e' :: es =>
    rw [command.eq_def]
    dsimp only
    split
    · exact hadd m _
    · exact h

/-- **C125 (partial)**: after any calls `abbr` alone lists every abbreviation, each once, with its expansion,
and nothing else, and changes nothing. -/
theorem C125_list_partial (calls : List (List Str)) (name : Str) {flag : List Str}
    (hf : flag = [] ∨ flag = [c!"-l"] ∨ flag = [c!"-s"] ∨ flag = [c!"--list"]) :
    (command (session [] calls) (name :: flag)).2 = session [] calls ∧
    (command (session [] calls) (name :: flag)).1.status = 0 ∧
    ((command (session [] calls) (name :: flag)).1.shown.map Prod.fst).Nodup ∧
    ∀ n e, (n, e) ∈ (command (session [] calls) (name :: flag)).1.shown ↔ get (session [] calls) n = some e := by
  have hd : ∀ (l : List (List Str)) (t : Tbl), (t.map Prod.fst).Nodup → ((session t l).map Prod.fst).Nodup := by
    intro l
    unfold session
    induction l with
    | nil => exact fun t h => h
    | cons a l ih => exact fun t h => ih _ (command_nodup h a)
  have hd := hd calls [] (by simp)
  have hc : command (session [] calls) (name :: flag) = (listAll (session [] calls), session [] calls) := by
    rcases hf with rfl | rfl | rfl | rfl <;> rfl
  rw [hc]
  unfold listAll
  by_cases ht : session [] calls = []
  · rw [if_pos ht]
    refine ⟨rfl, rfl, by simp, fun n e => ?_⟩
    rw [ht]; simp [Alias.get]
  · rw [if_neg ht]
    exact ⟨rfl, rfl, hd, fun n e => ⟨mem_get_some hd, get_some_mem⟩⟩

/-! ### What fails -/

/-- **C125 fails**: a name holding one of `| & ; ( )` or other white space than blank and tab is accepted by
`abbr` but never expanded: no key ever finds it, whatever the line. -/
theorem C125_never_violated {W : Char → Nat} {n : Str} {c : Char} (hc : c ∈ n)
    (hb : rustWhitespace c = true ∨ c ∈ ['|', '&', ';', '(', ')']) (t : Tbl) (e : Str) {s : Input} {z : Zip}
    (h : Rep W s z) : expand W (put t n e) s = expand W t s := by
  have hne : lastPiece z.before ≠ n := by
    rintro rfl
    unfold lastPiece at hc
    rw [List.mem_reverse] at hc
    have := List.all_takeWhile (p := fun c => !abbrBreak c) (l := z.before.reverse)
    rw [List.all_eq_true] at this
    have := this c hc
    rw [(breaks_iff c).2 hb] at this
    cases this
  unfold expand
  rw [h.currentWord]
  by_cases hl : lastPiece z.before = []
  · rw [if_pos hl]
  · rw [if_neg hl]
    simp only
    rw [get_put, if_neg hne]

/-- Such a name is accepted. -/
example : (command [] [c!"abbr", c!"-a", c!"a|b", c!"x"]).1.status = 0 := by decide

/-- The line `before`, the caret, `after`, with characters one column wide. -/
def at' (before after : Str) : Input :=
  { cursor := before.length, input := before ++ after, indices := offs 0 (before ++ after),
    width := widthOf (fun _ => 1) (before ++ after) }

theorem at_rep (before after : Str) : Rep (fun _ => 1) (at' before after) ⟨before, after⟩ :=
  ⟨rfl, rfl, rfl, rfl⟩

/-- One abbreviation, as in the README. -/
def g : Tbl := [(c!"g", c!"git")]

/-- What is on the line after the blank key. -/
def spaced (t : Tbl) (before after : Str) : Option Str := (space (fun _ => 1) t (at' before after)).map (·.input)

/-- **C125 fails**: arguments and text within quotes are expanded like command names. -/
theorem C125_position_violated :
    spaced g c!"ls g" [] = some c!"ls git " ∧
    spaced g c!"echo \"5 g" [] = some c!"echo \"5 git " := by decide

/-- **C125 fails**: the caret need not be at the end of the word. Enter with the caret after the `g` of `grep`
runs `gitrep`. -/
theorem C125_middle_violated :
    enter (fun _ => 1) Incomplete.isIncomplete (fun _ => false) g [] (at' c!"g" c!"rep x") = some (.run c!"gitrep x") := by
  decide

/-- **C125 fails**: whether the line is complete is asked before the expansion: an abbreviation that opens a
quote is run as it is, although that text typed by hand would be continued. -/
theorem C125_incomplete_violated :
    enter (fun _ => 1) Incomplete.isIncomplete (fun _ => false) [(c!"m", c!"git commit -m \"")] [] (at' c!"m" []) =
      some (.run c!"git commit -m \"") ∧
    enter (fun _ => 1) Incomplete.isIncomplete (fun _ => false) [] [] (at' c!"git commit -m \"" []) =
      some (.more c!"git commit -m \"\n") := by decide

/-- **C125 fails**: what `abbr name` shows is a command line that `abbr` refuses. -/
theorem C125_show_violated :
    (command g [c!"abbr", c!"g"]).1.out = [c!"abbr g 'git'"] ∧
    Shell.runs0 c!"abbr g 'git'" = some [{ stages := [[c!"abbr", c!"g", c!"git"]] }] ∧
    (command [] [c!"abbr", c!"g", c!"git"]).1.status = 1 :=
  ⟨by decide, Shell.runs0_eq 100 (by decide +kernel), by decide⟩

/-- The hypotheses are met: after `sudo ls|` the word `g` is expanded, `gg` is not. -/
example : spaced g c!"sudo ls|g" c!" x" = some c!"sudo ls|git  x" ∧ spaced g c!"gg" [] = some c!"gg " ∧
    (∃ s', space (fun _ => 1) g (at' (c!"sudo ls|" ++ c!"g") c!" x") = some s' ∧
      Rep (fun _ => 1) s' ⟨c!"sudo ls|" ++ c!"git" ++ [' '], c!" x"⟩) :=
  ⟨by decide, by decide, C125_space_partial g (at_rep _ _) (.inr ⟨c!"sudo ls", '|', rfl, by decide⟩)
    ⟨by decide, by decide⟩⟩
example : enter (fun _ => 1) Incomplete.isIncomplete (fun _ => false) g [] (at' (c!"ls; " ++ c!"g") []) =
    some (.run (c!"ls; " ++ (get g c!"g").getD c!"g" ++ [])) :=
  C125_enter_partial g (at_rep _ _) (.inr ⟨c!"ls;", ' ', rfl, by decide⟩) ⟨by decide, by decide⟩ (by decide)
    rfl (by decide)
example : get (session [] [[c!"abbr", c!"-a", c!"g", c!"git"], [c!"abbr", c!"-a", c!"x", c!"y", c!"z"],
    [c!"abbr", c!"-e", c!"q"]]) c!"g" = some c!"git" := by decide

end Dsh.Abbr
