import Verif.Hist.Output
import Verif.Env.Direnv
import Verif.Prompt.GitProps
/-!
`tm` (C217): dsh-builtin/src/tm.rs over the history of outputs (`Verif/Hist/Output.lean`), and `help` (C218):
dsh-builtin/src/help.rs with `get_all_commands` (dsh-builtin/src/lib.rs:731-740).

The chooser is a function of the lines it is shown; the time of an entry is a text (`%H:%M:%S`).
-/
namespace Dsh.Tm
open Dsh.OutHist (Entry Hist)

abbrev Str := List Char

/-- A number with its sign. -/
def number (n : Int) : Str := if n < 0 then '-' :: Nat.toDigits 10 n.natAbs else Nat.toDigits 10 n.natAbs

/-- The line of an entry (tm.rs:20-28). -/
def line (time : Str) (e : Entry) : Str :=
  '[' :: time ++ c!"] " ++ e.command ++ c!" (Exit: " ++ number e.code ++ c!")"

/-- The text beside the list (tm.rs:30-45). -/
def preview (e : Entry) : Str :=
  let a := if e.stdout = [] then [] else c!"--- STDOUT ---\n" ++ e.stdout ++ ['\n']
  let b := if e.stderr = [] then [] else c!"--- STDERR ---\n" ++ e.stderr ++ ['\n']
  if a ++ b = [] then c!"(No Output)" else a ++ b

/-- What is written on both outputs, and the status. -/
structure Res where
  out : Str := []
  err : Str := []
  status : Nat
deriving DecidableEq

/-- `command` (tm.rs:48-123).  `choose` gets the lines and gives the place chosen, if any; `write_stdout` adds an end of line
(dsh-types/src/lib.rs:193-205). -/
def tm (h : Hist) (time : Entry → Str) (choose : List Str → Option Nat) (_argv : List Str) : Res :=
  if h.entries = [] then { err := c!"tm: no output history available\n", status := 1 }
  else
    match (choose (h.entries.map fun e => line (time e) e)).bind fun i => h.entries[i]? with
    | none => { status := 0 }
    | some e =>
      { out := if e.stdout = [] then [] else e.stdout ++ ['\n'], err := if e.stderr = [] then [] else e.stderr ++ ['\n'], status := 0 }

/-- A line of `help`: the name in at least twelve columns (help.rs:19-21). -/
def helpLine (c : Str × Str) : Str := c.1 ++ List.replicate (12 - c.1.length) ' ' ++ ' ' :: c.2

/-- `help` (help.rs:11-32) with the commands in the order the table of built-ins gives them (a `HashMap`, lib.rs:353-355, 731-740). -/
def help (order : List (Str × Str)) (_argv : List Str) : Str :=
  c!"Built-in commands:\n\n" ++ order.flatMap (fun c => helpLine c ++ ['\n']) ++ ['\n']

/-! ### Spec -/

/-- A reader of a line of `help`: the name is the first word, the rest is told about it. -/
def readLine (l : Str) : Str × Str := (l.takeWhile (· ≠ ' '), (l.dropWhile (· ≠ ' ')).dropWhile (· = ' '))

/-- A reader of `help`: the lines behind the title that are not empty. -/
def readHelp (t : Str) : List (Str × Str) := (((Env.lines t).drop 2).filter (· ≠ [])).map readLine

/-- A command as it is in the table: a name that is one word, and a description that begins with a letter. -/
structure Ok (c : Str × Str) : Prop where
  name : c.1 ≠ [] ∧ ' ' ∉ c.1 ∧ '\n' ∉ c.1
  text : c.2 ≠ [] ∧ c.2.head? ≠ some ' ' ∧ '\n' ∉ c.2

/-! ### C217 -/

/-- **C217, chosen.** The output and the errors of the entry chosen are written, each to its own, as recorded and followed by one end
of line; nothing else is written. -/
theorem C217_chosen_partial (h : Hist) (time : Entry → Str) (choose : List Str → Option Nat) (argv : List Str) (i : Nat) (e : Entry)
    (hi : choose (h.entries.map fun e => line (time e) e) = some i) (he : h.entries[i]? = some e) :
    ∃ a b, (a = [] ∨ a = ['\n']) ∧ (b = [] ∨ b = ['\n']) ∧ tm h time choose argv = ⟨e.stdout ++ a, e.stderr ++ b, 0⟩ := by
  have hne : h.entries ≠ [] := by rintro h0; rw [h0] at he; simp at he
  refine ⟨if e.stdout = [] then [] else ['\n'], if e.stderr = [] then [] else ['\n'], by split <;> simp, by split <;> simp, ?_⟩
  simp only [tm, hne, if_false, hi, Option.bind_some, he, Res.mk.injEq, and_true]
  refine ⟨?_, ?_⟩ <;> split <;> simp_all

/-- **C217, nothing recorded.** Without any entry nobody is asked, and the status is 1. -/
theorem C217_empty_partial (h : Hist) (time : Entry → Str) (choose : List Str → Option Nat) (argv : List Str) (h0 : h.entries = []) :
    (tm h time choose argv).status = 1 ∧ (tm h time choose argv).out = [] := by simp [tm, h0]

theorem number_inj {a b : Int} (h : number a = number b) : a = b := by
  have inj : ∀ {n m : Nat}, Nat.toDigits 10 n = Nat.toDigits 10 m → n = m := by
    intro n m h
    have := congrArg (fun l => Nat.ofDigitChars 10 l 0) h
    simpa using this
  have no : ∀ n : Nat, '-' ∉ Nat.toDigits 10 n := fun n => Prm.toDigits_no n '-' (by decide)
  unfold number at h
  split at h <;> split at h
  · have := inj (List.cons.inj h).2; omega
  · exact absurd (h ▸ List.mem_cons_self ..) (no _)
  · exact absurd (h ▸ List.mem_cons_self ..) (no _)
  · have := inj h; omega

theorem number_no (c : Char) (hc : c.isDigit = false) (h : c ≠ '-') (n : Int) : c ∉ number n := by
  unfold number
  split
  · simp [h, Prm.toDigits_no _ c hc]
  · exact Prm.toDigits_no _ c hc

/-- Cut at the last opening bracket. -/
theorem last_cut {a b x y : Str} (ha : '(' ∉ x) (hb : '(' ∉ y) (h : a ++ '(' :: x = b ++ '(' :: y) : a = b ∧ x = y := by
  have key : ∀ (x y a b : Str), '(' ∉ x → '(' ∉ y → x ++ '(' :: a = y ++ '(' :: b → x = y ∧ a = b := by
    intro x
    induction x with
    | nil =>
      intro y a b _ hy h
      cases y with
      | nil => exact ⟨rfl, (List.cons.inj h).2⟩
      | cons c y => exact absurd (by rw [← (List.cons.inj h).1]; simp) hy
    | cons c x ih =>
      intro y a b hx hy h
      cases y with
      | nil => exact absurd (by rw [(List.cons.inj h).1]; simp) hx
      | cons d y =>
        obtain ⟨h1, h2⟩ := List.cons.inj h
        obtain ⟨h3, h4⟩ := ih y a b (fun h' => hx (List.mem_cons_of_mem _ h')) (fun h' => hy (List.mem_cons_of_mem _ h')) h2
        exact ⟨by rw [h1, h3], h4⟩
  have hr := congrArg List.reverse h
  simp only [List.reverse_append, List.reverse_cons, List.append_assoc, List.singleton_append] at hr
  obtain ⟨h1, h2⟩ := key _ _ _ _ (by simpa using ha) (by simpa using hb) hr
  exact ⟨List.reverse_inj.1 h2, List.reverse_inj.1 h1⟩

/-- **C217, lines.** Two entries with the same line were recorded at the same time of day for the same command with the same status. -/
theorem C217_lines_partial (t t' : Str) (e e' : Entry) (ht : t.length = 8) (ht' : t'.length = 8) (h : line t e = line t' e') :
    t = t' ∧ e.command = e'.command ∧ e.code = e'.code := by
  have h1 : ('[' :: t ++ c!"] " ++ e.command ++ [' ']) ++ '(' :: (c!"Exit: " ++ number e.code ++ c!")") =
      ('[' :: t' ++ c!"] " ++ e'.command ++ [' ']) ++ '(' :: (c!"Exit: " ++ number e'.code ++ c!")") := by
    simpa [line] using h
  have hn : ∀ n : Int, '(' ∉ c!"Exit: " ++ number n ++ c!")" := by
    intro n
    simp [number_no '(' (by decide) (by decide) n]
  obtain ⟨h2, h3⟩ := last_cut (hn _) (hn _) h1
  have h4 : number e.code = number e'.code := by simpa using h3
  have h5 : t ++ (c!"] " ++ (e.command ++ [' '])) = t' ++ (c!"] " ++ (e'.command ++ [' '])) := by simpa using h2
  obtain ⟨h6, h7⟩ := List.append_inj h5 (by rw [ht, ht'])
  exact ⟨h6, by simpa using h7, number_inj h4⟩

/-- **C217, beside the list.** The text beside the list of an entry with output holds its output and its errors. -/
theorem C217_preview_partial (e : Entry) (h : e.stdout ≠ [] ∨ e.stderr ≠ []) : e.stdout <:+: preview e ∧ e.stderr <:+: preview e := by
  unfold preview
  by_cases h1 : e.stdout = [] <;> by_cases h2 : e.stderr = []
  · simp [h1, h2] at h
  · simp only [h1, h2, if_true, if_false, List.nil_append]
    rw [if_neg (by simp)]
    exact ⟨List.nil_infix, ⟨c!"--- STDERR ---\n", ['\n'], rfl⟩⟩
  · simp only [h1, h2, if_true, if_false, List.append_nil]
    rw [if_neg (by simp)]
    exact ⟨⟨c!"--- STDOUT ---\n", ['\n'], rfl⟩, List.nil_infix⟩
  · simp only [h1, h2, if_false]
    rw [if_neg (by simp)]
    refine ⟨⟨c!"--- STDOUT ---\n", ['\n'] ++ (c!"--- STDERR ---\n" ++ e.stderr ++ ['\n']), by simp⟩, ⟨c!"--- STDOUT ---\n" ++ e.stdout ++ ['\n'] ++ c!"--- STDERR ---\n", ['\n'], by simp⟩⟩

/-- **C217 fails: not what was recorded.** An output is given back with an end of line more than it had. -/
theorem C217_same_violated (h : Hist) (time : Entry → Str) (choose : List Str → Option Nat) (argv : List Str) (i : Nat) (e : Entry)
    (hi : choose (h.entries.map fun e => line (time e) e) = some i) (he : h.entries[i]? = some e) (ho : e.stdout ≠ []) :
    (tm h time choose argv).out = e.stdout ++ ['\n'] ∧ (tm h time choose argv).out ≠ e.stdout := by
  have hne : h.entries ≠ [] := by rintro h0; rw [h0] at he; simp at he
  simp [tm, hne, hi, he, ho]

/-- **C217 fails: given up.** Leaving the list without a choice is a success, like an entry without output. -/
theorem C217_abort_violated (h : Hist) (time : Entry → Str) (choose : List Str → Option Nat) (argv : List Str) (h0 : h.entries ≠ [])
    (hi : choose (h.entries.map fun e => line (time e) e) = none) : tm h time choose argv = ⟨[], [], 0⟩ := by
  simp [tm, h0, hi]

/-- **C217 fails: words.** Whatever follows `tm` is ignored: no word narrows the list. -/
theorem C217_words_violated (h : Hist) (time : Entry → Str) (choose : List Str → Option Nat) (a b : List Str) :
    tm h time choose a = tm h time choose b := rfl

/-! ### C218 -/

theorem lines_helpLine {c : Str × Str} (h : Ok c) : readLine (helpLine c) = c ∧ '\n' ∉ helpLine c ∧ helpLine c ≠ [] := by
  obtain ⟨n, d⟩ := c
  obtain ⟨⟨h1, h2, h3⟩, h4, h5, h6⟩ := h
  simp only at h1 h2 h3 h4 h5 h6
  have hs : helpLine (n, d) = n ++ ' ' :: (List.replicate (12 - n.length) ' ' ++ d) := by
    simp only [helpLine, List.append_assoc, List.append_cancel_left_eq]
    rw [← List.cons_append, ← List.replicate_succ, List.replicate_succ', List.append_assoc]
    rfl
  have hp : ∀ x ∈ n, decide (x ≠ ' ') = true := by
    intro x hx
    simp only [decide_eq_true_eq]
    rintro rfl
    exact h2 hx
  refine ⟨?_, ?_, ?_⟩
  · rw [hs, readLine, List.takeWhile_append_of_pos hp, List.dropWhile_append_of_pos hp]
    simp only [ne_eq, not_true_eq_false, decide_false, Bool.false_eq_true, not_false_eq_true, List.takeWhile_cons_of_neg, List.append_nil,
      List.dropWhile_cons_of_neg, decide_true, List.dropWhile_cons_of_pos]
    congr 1
    rw [List.dropWhile_append_of_pos (by intro x hx; simp [List.eq_of_mem_replicate hx])]
    cases d with
    | nil => exact absurd rfl h4
    | cons x d => rw [List.dropWhile_cons_of_neg]; simpa using h5
  · rw [hs]
    simp [h3, h6]
  · rw [hs]; simp

theorem lines_help (l : List (Str × Str)) (h : ∀ c ∈ l, Ok c) (argv : List Str) :
    Env.lines (help l argv) = c!"Built-in commands:" :: [] :: (l.map helpLine ++ [[]]) := by
  have hg : ∀ x ∈ (c!"Built-in commands:" :: [] :: (l.map helpLine ++ [[]])), '\n' ∉ x := by
    intro x hx
    simp only [List.mem_cons, List.mem_append, List.mem_map, List.not_mem_nil, or_false] at hx
    rcases hx with rfl | rfl | ⟨c, hc, rfl⟩ | rfl
    · decide
    · decide
    · exact (lines_helpLine (h c hc)).2.1
    · decide
  have := Env.lines_flatMap (g := id) hg
  rw [List.map_id] at this
  rw [← this]
  simp [help, List.flatMap_map]

/-- **C218, all of them.** A reader of `help` finds every built-in command once with what is told about it, whatever the order. -/
theorem C218_all_partial (l : List (Str × Str)) (h : ∀ c ∈ l, Ok c) (argv : List Str) : readHelp (help l argv) = l := by
  rw [readHelp, lines_help l h]
  simp only [List.drop_succ_cons, List.drop_zero, List.filter_append, List.filter_cons, ne_eq, not_true_eq_false, decide_false,
    Bool.false_eq_true, if_false, List.filter_nil, List.append_nil]
  rw [List.filter_eq_self.2 (by
    intro x hx
    obtain ⟨c, hc, rfl⟩ := List.mem_map.1 hx
    simpa using (lines_helpLine (h c hc)).2.2), List.map_map]
  conv_rhs => rw [← List.map_id l]
  exact List.map_congr_left fun c hc => (lines_helpLine (h c hc)).1

/-- **C218 fails: order.** The table of built-ins has no order of its own, and each order it may have gives another text. -/
theorem C218_order_violated (l m : List (Str × Str)) (h : ∀ c ∈ l, Ok c) (hp : l.Perm m) (hne : l ≠ m) (argv : List Str) :
    help l argv ≠ help m argv := by
  intro he
  have := congrArg readHelp he
  rw [C218_all_partial l h, C218_all_partial m fun c hc => h c (hp.mem_iff.2 hc)] at this
  exact hne this

/-- **C218 fails: one command.** `help NAME` is `help`. -/
theorem C218_name_violated (l : List (Str × Str)) (argv : List Str) : help l argv = help l [] := rfl

/-- **C218 fails: columns.** The description of a command with a name longer than twelve characters stands further right than the
others. -/
theorem C218_columns_violated (n d n' d' : Str) (h : 12 < n.length) (h' : n'.length ≤ 12) :
    (helpLine (n, d)).length - d.length ≠ (helpLine (n', d')).length - d'.length := by
  simp only [helpLine, List.length_append, List.length_replicate, List.length_cons]
  omega

/-! ### Examples -/

def hist : Hist := { OutHist.new with entries := [⟨c!"ls", c!"a\nb", [], 0⟩, ⟨c!"cat x", [], c!"no x", 1⟩] }

theorem tm_run : tm hist (fun _ => c!"10:00:00") (fun l => l.findIdx? (· == c!"[10:00:00] ls (Exit: 0)")) [] = ⟨c!"a\nb\n", [], 0⟩ := by
  decide +kernel

def table : List (Str × Str) := [(c!"cd", c!"Change directory"), (c!"notebook-play", c!"Play a notebook")]

theorem table_ok : ∀ c ∈ table, Ok c := by
  intro c hc
  simp only [table, List.mem_cons, List.not_mem_nil, or_false] at hc
  rcases hc with rfl | rfl <;> exact ⟨by decide +kernel, by decide +kernel⟩

theorem help_run : help table [] = c!"Built-in commands:\n\ncd           Change directory\nnotebook-play Play a notebook\n\n" := by
  decide +kernel

end Dsh.Tm
