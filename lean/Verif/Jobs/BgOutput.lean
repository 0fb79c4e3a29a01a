import Verif.Util
/-!
# C229: what a command in the background prints is shown

`dsh/src/process/io.rs: OutputMonitor`, `dsh/src/process/job_wait.rs: check_background_all_output`,
`dsh/src/shell/job.rs: check_job_state`, `dsh/src/repl/key_handlers/auxiliary.rs: check_background_jobs`.

The shell reads the pipes of its background commands once a second, in the loop that also reads the keys.
A pipe is what comes out of it while the shell reads: characters, bytes that are no character, and silences
of more than 200 ms; at the end of the list the last writer has gone.  Silences while the shell does not read
do not count.  tokio's `read_line` takes the bytes out of the buffer as they come and keeps them in the
future: a reading that is given up loses them ("not cancellation safe" in its documentation), and so does one
that meets bytes that are no UTF-8.

Simplified: when the process table reports an end is C17; here a command is checked some number of
times, and after it ended once more; the line feed before the first text of a pipe is left out.
-/
namespace Dsh.BgOut

abbrev Str := List Char

/-! ### Model -/

/-- What comes out of a pipe. -/
inductive Ev where
  | ch (c : Char)
  /-- a byte that is no part of a character -/
  | bad
  /-- nothing for 200 ms while the shell reads -/
  | pause
deriving DecidableEq, Repr

/-- The outcome of `timeout(read_line)` (io.rs:91-97). -/
inductive Read where
  /-- a line with its newline, the rest at the end, nothing behind the end -/
  | line (l : Str)
  | err
  | timeout
deriving DecidableEq, Repr

/-- A line that is complete. -/
def finish (acc : Str) (ok : Bool) : Read := if ok then .line acc else .err

/-- `timeout(read_line)`; `acc`: what has been taken from the pipe, `ok`: all of it is UTF-8. -/
def readLine (acc : Str) (ok : Bool) : List Ev → Read × List Ev
  | [] => (finish acc ok, [])
  | .pause :: s => (.timeout, s)
  | .bad :: s => readLine acc false s
  | .ch c :: s => if c = '\n' then (finish (acc ++ ['\n']) ok, s) else readLine (acc ++ [c]) ok s

/-- `output_all(false)` (io.rs:87-119) on any source of lines: the text to be shown and the rest of the
source, none while it is reading after `fuel` lines.  Nothing is shown before the loop has ended. -/
def outputAll {S : Type} (next : S → Read × S) : Nat → S → Option (Str × S)
  | 0, _ => none
  | fuel + 1, s =>
    match next s with
    | (.line [], s') => some ([], s')
    | (.line l, s') => (outputAll next fuel s').map fun r => (l ++ r.1, r.2)
    | (.err, s') => some ([], s')
    | (.timeout, s') => some ([], s')

/-- One check of one pipe (job_wait.rs:480-494). A finite source needs fewer readings than that. -/
def check (s : List Ev) : Str × List Ev :=
  (outputAll (readLine [] true) (s.length + 2) s).getD ([], s)

/-- Checks one after the other (shell/job.rs:140-162, auxiliary.rs:52-57): what they show. -/
def shown : Nat → List Ev → Str
  | 0, _ => []
  | n + 1, s => (check s).1 ++ shown n (check s).2

/-- Standard output and standard error of a command, in this order (job_wait.rs:485-490). -/
def checkBoth (out err : List Ev) : Str := (check out).1 ++ (check err).1

/-! ### Specification -/

/-- The characters of a pipe. -/
def written : List Ev → Str
  | [] => []
  | .ch c :: s => c :: written s
  | _ :: s => written s

/-- The number of silences. -/
def pauses (s : List Ev) : Nat := s.count .pause

/-- Characters only. -/
def say (t : Str) : List Ev := t.map .ch

/-- Whole lines are printed at once, the silences are between them. -/
inductive ByLine : List Ev → Prop where
  | last (t : Str) : ByLine (say t)
  | cons (t : Str) (s : List Ev) : (t = [] ∨ t.getLast? = some '\n') → ByLine s → ByLine (say t ++ .pause :: s)

/-- The characters of a text up to its last newline: those with a newline at or behind them. -/
def whole : Str → Str
  | [] => []
  | c :: t => if '\n' ∈ c :: t then c :: whole t else []

/-- What a command wrote, with the stream of every character: `true` is standard output. -/
def part (b : Bool) (w : List (Bool × Char)) : Str := (w.filter fun x => x.1 == b).map Prod.snd

/-! ### Proof -/

/-- A check without the lines. -/
def go (acc : Str) (ok : Bool) : List Ev → Str × List Ev
  | [] => (if ok then acc else [], [])
  | .pause :: s => ([], s)
  | .bad :: s => go acc false s
  | .ch c :: s =>
    if c = '\n' then
      if ok then (acc ++ '\n' :: (go [] true s).1, (go [] true s).2) else ([], s)
    else go (acc ++ [c]) ok s

/-- The loop after a reading. -/
def cont (fuel : Nat) : Read × List Ev → Option (Str × List Ev)
  | (.line [], s') => some ([], s')
  | (.line l, s') => (outputAll (readLine [] true) fuel s').map fun r => (l ++ r.1, r.2)
  | (.err, s') => some ([], s')
  | (.timeout, s') => some ([], s')

theorem outputAll_succ (fuel : Nat) (s : List Ev) :
    outputAll (readLine [] true) (fuel + 1) s = cont fuel (readLine [] true s) := by
  conv => lhs; unfold outputAll
  rcases h : readLine [] true s with ⟨r, s'⟩
  cases r with
  | line l => cases l <;> rfl
  | err => rfl
  | timeout => rfl

theorem cont_line {fuel : Nat} {l : Str} (h : l ≠ []) (s' : List Ev) :
    cont fuel (.line l, s') = (outputAll (readLine [] true) fuel s').map fun r => (l ++ r.1, r.2) := by
  cases l with
  | nil => exact absurd rfl h
  | cons c l => rfl

theorem cont_go (s : List Ev) : ∀ (acc : Str) (ok : Bool) (fuel : Nat), s.length + 1 ≤ fuel →
    cont fuel (readLine acc ok s) = some (go acc ok s) := by
  induction s with
  | nil =>
    intro acc ok fuel hf
    cases ok with
    | false => rfl
    | true =>
      cases acc with
      | nil => rfl
      | cons c acc =>
        obtain ⟨f, rfl⟩ : ∃ f, fuel = f + 1 := ⟨fuel - 1, by simp at hf; omega⟩
        show cont (f + 1) (.line (c :: acc), []) = some (c :: acc, [])
        rw [cont_line (by simp), outputAll_succ]
        simp [readLine, finish, cont]
  | cons e s ih =>
    intro acc ok fuel hf
    simp only [List.length_cons] at hf
    cases e with
    | pause => rfl
    | bad => exact ih acc false fuel (by omega)
    | ch c =>
      unfold readLine go
      by_cases hc : c = '\n'
      · rw [if_pos hc, if_pos hc]
        cases ok with
        | false => rfl
        | true =>
          obtain ⟨f, rfl⟩ : ∃ f, fuel = f + 1 := ⟨fuel - 1, by omega⟩
          show cont (f + 1) (.line (acc ++ ['\n']), s) = _
          rw [cont_line (by simp), outputAll_succ, ih [] true f (by omega)]
          simp
      · rw [if_neg hc, if_neg hc]
        exact ih _ _ fuel (by omega)

theorem check_go (s : List Ev) : check s = go [] true s := by
  unfold check
  rw [outputAll_succ, cont_go s [] true _ (by omega)]
  rfl

theorem go_say (t : Str) : ∀ acc : Str, go acc true (say t) = (acc ++ t, []) := by
  induction t with
  | nil => intro acc; simp [say, go]
  | cons c t ih =>
    intro acc
    show go acc true (.ch c :: say t) = _
    unfold go
    split
    · rename_i hc
      simp [ih, hc]
    · simp [ih]

theorem go_pause (t : Str) (s : List Ev) : ∀ acc : Str,
    go acc true (say t ++ .pause :: s) = (if '\n' ∈ t then acc ++ whole t else [], s) := by
  induction t with
  | nil => intro acc; simp [say, go]
  | cons c t ih =>
    intro acc
    show go acc true (.ch c :: (say t ++ .pause :: s)) = _
    unfold go whole
    by_cases hc : c = '\n'
    · subst hc
      rw [if_pos rfl, ih]
      by_cases ht : '\n' ∈ t
      · simp [ht]
      · have : whole t = [] := by cases t <;> simp [whole] at ht ⊢; simp [ht]
        simp [ht, this]
    · rw [if_neg hc, ih]
      by_cases ht : '\n' ∈ t
      · simp [ht]
      · simp [ht, Ne.symm hc]

theorem whole_none {t : Str} (h : '\n' ∉ t) : whole t = [] := by
  cases t with
  | nil => rfl
  | cons c t => unfold whole; rw [if_neg h]

theorem check_pause (t : Str) (s : List Ev) : check (say t ++ .pause :: s) = (whole t, s) := by
  rw [check_go, go_pause]
  split
  · simp
  · rename_i h
    rw [whole_none h]

theorem check_say (t : Str) : check (say t) = (t, []) := by
  rw [check_go, go_say]; simp

theorem shown_nil (n : Nat) : shown n [] = [] := by
  induction n with
  | zero => rfl
  | succ n ih =>
    have : check [] = ([], []) := check_say []
    unfold shown
    rw [this]
    simpa using ih

theorem whole_last {t : Str} (h : t = [] ∨ t.getLast? = some '\n') : whole t = t := by
  induction t with
  | nil => rfl
  | cons c t ih =>
    rcases h with h | h
    · cases h
    · unfold whole
      rw [if_pos (List.mem_of_getLast? h)]
      congr 1
      apply ih
      cases t with
      | nil => exact .inl rfl
      | cons d t => exact .inr (by simpa [List.getLast?_cons_cons] using h)

/-- C229: of pieces with silences between them everything is shown up to the last newline of each piece, and
the last piece whole. `_partial`: the pieces are characters. -/
theorem C229_exact_partial (ps : List Str) (t : Str) :
    shown (ps.length + 1) (ps.flatMap (fun p => say p ++ [.pause]) ++ say t) = ps.flatMap whole ++ t := by
  induction ps with
  | nil =>
    show (check (say t)).1 ++ shown 0 _ = t
    rw [check_say]; simp [shown]
  | cons p ps ih =>
    have e : (p :: ps).flatMap (fun p => say p ++ [.pause]) ++ say t =
        say p ++ .pause :: (ps.flatMap (fun p => say p ++ [.pause]) ++ say t) := by simp
    rw [e, List.length_cons, shown, check_pause]
    simp [ih]

example : shown 3 (([c!"one\ntwo\n", c!"thr"] : List Str).flatMap (fun p => say p ++ [.pause]) ++ say c!"ee\nend") =
    c!"one\ntwo\nee\nend" := by decide +kernel

theorem pauses_say (t : Str) : pauses (say t) = 0 := by
  unfold pauses say
  rw [List.count_eq_zero]
  simp

theorem written_say (t : Str) (s : List Ev) : written (say t ++ s) = t ++ written s := by
  induction t with
  | nil => rfl
  | cons c t ih => simpa [say, written] using ih

/-- C229: a command that prints whole lines has all its output shown, in order, if it is looked at once more
than it falls silent. -/
theorem C229_lines_partial {s : List Ev} (h : ByLine s) (n : Nat) (hn : pauses s < n) : shown n s = written s := by
  induction h generalizing n with
  | last t =>
    obtain ⟨m, rfl⟩ : ∃ m, n = m + 1 := ⟨n - 1, by omega⟩
    have hw := written_say t []
    rw [List.append_nil] at hw
    rw [shown, check_say, shown_nil, hw]
    rfl
  | cons t s ht _ ih =>
    have hp : pauses (say t ++ .pause :: s) = pauses s + 1 := by
      have := pauses_say t
      unfold pauses at this ⊢
      rw [List.count_append, this, List.count_cons_self]; omega
    obtain ⟨m, rfl⟩ : ∃ m, n = m + 1 := ⟨n - 1, by omega⟩
    rw [shown, check_pause, written_say, whole_last ht]
    show t ++ shown m s = t ++ written s
    rw [ih m (by omega)]

example : ByLine (say c!"a\n" ++ .pause :: (say [] ++ .pause :: say c!"b")) :=
  .cons _ _ (.inr rfl) (.cons _ _ (.inl rfl) (.last _))

theorem go_sublist (s : List Ev) : ∀ (acc : Str) (ok : Bool),
    ((go acc ok s).1 ++ written (go acc ok s).2).Sublist (acc ++ written s) := by
  induction s with
  | nil =>
    intro acc ok
    cases ok <;> simp [go, written]
  | cons e s ih =>
    intro acc ok
    cases e with
    | pause => exact List.sublist_append_right acc (written s)
    | bad => exact ih acc false
    | ch c =>
      show ((go acc ok (.ch c :: s)).1 ++ written (go acc ok (.ch c :: s)).2).Sublist (acc ++ c :: written s)
      unfold go
      split
      · rename_i hc
        subst hc
        cases ok with
        | false => exact ((List.sublist_cons_self _ _).trans (List.sublist_append_right _ _))
        | true =>
          have := ih [] true
          simp only [if_true, List.append_assoc, List.cons_append]
          exact (List.Sublist.refl acc).append (this.cons_cons '\n')
      · have := ih (acc ++ [c]) ok
        simpa using this

/-- C229: nothing is shown that was not written, nothing twice, and the order is kept, whatever the pipe
carries. -/
theorem C229_order_partial (n : Nat) (s : List Ev) : (shown n s).Sublist (written s) := by
  induction n generalizing s with
  | zero => exact List.nil_sublist _
  | succ n ih =>
    have h := go_sublist s [] true
    rw [← check_go] at h
    exact ((List.Sublist.refl _).append (ih (check s).2)).trans h

/-! ### Refuted -/

/-- C229 refuted: what is written without a newline before a silence, such as a question or the points of a
progress, is never shown: the command goes on as if it had not been written. -/
theorem C229_unfinished_violated (t : Str) (h : '\n' ∉ t) (s : List Ev) (n : Nat) :
    shown (n + 1) (say t ++ .pause :: s) = shown n s := by
  rw [shown, check_pause, whole_none h]
  rfl

example : shown 5 (say c!"Loading" ++ .pause :: say c!"... done\n") = c!"... done\n" := by decide +kernel

theorem go_bad (b : Str) (hb : '\n' ∉ b) (s : List Ev) : ∀ acc : Str, go acc false (say b ++ .ch '\n' :: s) = ([], s) := by
  induction b with
  | nil => intro acc; rfl
  | cons c b ih =>
    intro acc
    show go acc false (.ch c :: (say b ++ .ch '\n' :: s)) = _
    unfold go
    rw [if_neg (fun e => hb (by simp [e])), ih (fun h => hb (by simp [h]))]

/-- C229 refuted: a line with a byte that is no UTF-8 is never shown, and the check ends there: if the command
has ended, nothing behind it is shown either. -/
theorem C229_bytes_violated (a b : Str) (ha : '\n' ∉ a) (hb : '\n' ∉ b) (s : List Ev) :
    (∀ n, shown (n + 1) (say a ++ .bad :: (say b ++ .ch '\n' :: s)) = shown n s) ∧
      shown 1 (say a ++ .bad :: (say b ++ .ch '\n' :: s)) = [] := by
  have key : check (say a ++ .bad :: (say b ++ .ch '\n' :: s)) = ([], s) := by
    rw [check_go]
    have : ∀ acc : Str, go acc true (say a ++ .bad :: (say b ++ .ch '\n' :: s)) = ([], s) := by
      induction a with
      | nil => intro acc; exact go_bad b hb s acc
      | cons c a ih =>
        intro acc
        show go acc true (.ch c :: (say a ++ .bad :: (say b ++ .ch '\n' :: s))) = _
        unfold go
        rw [if_neg (fun e => ha (by simp [e])), ih (fun h => ha (by simp [h]))]
    exact this []
  constructor
  · intro n
    rw [shown, key]
    rfl
  · rw [shown, key]
    rfl

/-- C229 refuted: when the command has ended there is one more check; what processes it left behind print
after a silence is not shown. -/
theorem C229_late_violated (t : Str) (s : List Ev) : shown 1 (say t ++ .pause :: s) = whole t := by
  rw [shown, check_pause]
  simp [shown]

/-- C229 refuted: whatever the order in which a command writes to its two streams, the texts of standard error
are shown behind those of standard output. -/
theorem C229_streams_violated (w : List (Bool × Char)) :
    checkBoth (say (part true w)) (say (part false w)) = part true w ++ part false w := by
  unfold checkBoth
  rw [check_say, check_say]

example : checkBoth (say (part true [(false, 'e'), (true, 'o')])) (say (part false [(false, 'e'), (true, 'o')])) =
    c!"oe" := by decide +kernel

/-- C229 refuted: a command that never falls silent for 200 ms after a line keeps the check going for ever: nothing
of it is shown, and the loop that reads the keys waits. -/
theorem C229_endless_violated {S : Type} (next : S → Read × S)
    (h : ∀ s, ∃ l s', next s = (.line l, s') ∧ l ≠ []) (fuel : Nat) (s : S) : outputAll next fuel s = none := by
  induction fuel generalizing s with
  | zero => rfl
  | succ fuel ih =>
    obtain ⟨l, s', h1, h2⟩ := h s
    unfold outputAll
    rw [h1]
    cases l with
    | nil => exact absurd rfl h2
    | cons c l =>
      simp only
      rw [ih s']
      rfl

/-- `yes &`. -/
example : ∀ fuel, outputAll (fun _ : Unit => (.line c!"y\n", ())) fuel () = none :=
  fun fuel => C229_endless_violated _ (fun _ => ⟨_, _, rfl, by decide⟩) fuel ()

end Dsh.BgOut
