import Verif.Repl.Modes
import Verif.Repl.Notebook
/-!
Leaving the shell (C205) and what a script, `-c` and `-l` run and report (C206).
-/
namespace Dsh.Modes
open Dsh.Shell Dsh.Eval

/-! ### Reading lines -/

theorem takeLine_some : ∀ {t l b : Str}, takeLine t = some (l, b) → t = l ++ '\n' :: b ∧ '\n' ∉ l
  | [], l, b => by simp [takeLine]
  | c :: r, l, b => by
    rw [takeLine]
    split
    · rename_i h; subst h
      intro he; cases he; simp
    · rename_i h
      cases hr : takeLine r with
      | none => simp
      | some p =>
        obtain ⟨l', b'⟩ := p
        intro he
        simp only [Option.map_some, Option.some.injEq, Prod.mk.injEq] at he
        obtain ⟨h1, h2⟩ := he
        obtain ⟨h3, h4⟩ := takeLine_some hr
        subst h1 h2
        exact ⟨by rw [h3]; rfl, by
          simp only [List.mem_cons, not_or]
          exact ⟨fun e => h e.symm, h4⟩⟩

theorem takeLine_none : ∀ {t : Str}, takeLine t = none → '\n' ∉ t
  | [], _ => by simp
  | c :: r, h => by
    rw [takeLine] at h
    split at h
    · cases h
    · rename_i hc
      simp only [Option.map_eq_none_iff] at h
      simp only [List.mem_cons, not_or]
      exact ⟨fun e => hc e.symm, takeLine_none h⟩

theorem takeLine_of : ∀ (l b : Str), '\n' ∉ l → takeLine (l ++ '\n' :: b) = some (l, b)
  | [], b, _ => by simp [takeLine]
  | c :: r, b, h => by
    simp only [List.mem_cons, not_or] at h
    rw [List.cons_append, takeLine, if_neg (fun e => h.1 e.symm), takeLine_of r b h.2]; rfl

/-- What the reader gives back is the next line of the buffer and the descriptor together. -/
theorem readLineGo_spec : ∀ (n : Nat) (buf fd : Str), fd.length ≤ n →
    (readLineGo n buf fd = none ∧ buf = [] ∧ fd = []) ∨
    (∃ l b fd', readLineGo n buf fd = some (l, b, fd') ∧ '\n' ∉ l ∧ buf ++ fd = l ++ '\n' :: (b ++ fd') ∧ fd'.length ≤ fd.length) ∨
    (∃ l, readLineGo n buf fd = some (l, [], []) ∧ '\n' ∉ l ∧ l ≠ [] ∧ buf ++ fd = l)
  | n, buf, fd, hn => by
    cases ht : takeLine buf with
    | some p =>
      obtain ⟨l, b⟩ := p
      obtain ⟨h1, h2⟩ := takeLine_some ht
      refine .inr (.inl ⟨l, b, fd, ?_, h2, ?_, Nat.le_refl _⟩)
      · rw [readLineGo.eq_def]; simp only [ht]
      · rw [h1]; simp
    | none =>
      cases fd with
      | nil =>
        by_cases hb : buf = []
        · subst hb
          exact .inl ⟨by rw [readLineGo.eq_def]; simp only [ht, if_true], rfl, rfl⟩
        · exact .inr (.inr ⟨buf, by rw [readLineGo.eq_def]; simp only [ht, if_neg hb], takeLine_none ht, hb, by simp⟩)
      | cons c r =>
        cases n with
        | zero => simp at hn
        | succ n =>
          have e : readLineGo (n + 1) buf (c :: r) = readLineGo n (buf ++ (c :: r).take chunk) ((c :: r).drop chunk) := by
            rw [readLineGo.eq_def]; simp only [ht]
          have hl : ((c :: r).drop chunk).length ≤ n := by
            simp only [List.length_drop, List.length_cons] at hn ⊢
            simp only [chunk]; omega
          have hj : buf ++ (c :: r).take chunk ++ (c :: r).drop chunk = buf ++ c :: r := by
            rw [List.append_assoc, List.take_append_drop]
          rw [e]
          rcases readLineGo_spec n (buf ++ (c :: r).take chunk) ((c :: r).drop chunk) hl with ⟨_, h2, h3⟩ | ⟨l, b, fd', h1, h2, h3, h4⟩ | ⟨l, h1, h2, h3, h4⟩
          · exfalso
            simp only [chunk, List.take_succ_cons, List.append_eq_nil_iff] at h2
            exact absurd h2.2 (by simp)
          · exact .inr (.inl ⟨l, b, fd', h1, h2, by rw [← hj, h3], by
              refine Nat.le_trans h4 ?_
              rw [List.length_drop]; omega⟩)
          · exact .inr (.inr ⟨l, h1, h2, h3, by rw [← hj, h4]⟩)

theorem readLine_none {buf fd : Str} (h : readLine buf fd = none) : buf = [] ∧ fd = [] := by
  rcases readLineGo_spec fd.length buf fd (Nat.le_refl _) with ⟨_, h2⟩ | ⟨l, b, fd', h1, _⟩ | ⟨l, h1, _⟩
  · exact h2
  · rw [readLine, h1] at h; cases h
  · rw [readLine, h1] at h; cases h

theorem readLine_some {buf fd l b fd' : Str} (h : readLine buf fd = some (l, b, fd')) :
    '\n' ∉ l ∧ fd'.length ≤ fd.length ∧ (buf ++ fd = l ++ '\n' :: (b ++ fd') ∨ (buf ++ fd = l ∧ l ≠ [] ∧ b = [] ∧ fd' = [])) := by
  rcases readLineGo_spec fd.length buf fd (Nat.le_refl _) with ⟨h1, _⟩ | ⟨l, b, fd', h1, h2, h3, h4⟩ | ⟨l, h1, h2, h3, h4⟩
  · rw [readLine, h1] at h; cases h
  · rw [readLine, h1] at h; cases h; exact ⟨h2, h4, .inl h3⟩
  · rw [readLine, h1] at h; cases h; exact ⟨h2, by simp, .inr ⟨h4, h3, rfl, rfl⟩⟩

/-- Text in the buffer is given back before more is read. -/
theorem readLine_buffered (l b fd : Str) (h : '\n' ∉ l) : readLine (l ++ '\n' :: b) fd = some (l, b, fd) := by
  rw [readLine, readLineGo.eq_def]; simp only [takeLine_of l b h]

/-- A line within the first portion of the descriptor: the whole portion is taken. -/
theorem readLine_first (l b fd : Str) (h : '\n' ∉ l) (hl : (l ++ '\n' :: b).length = chunk ∨ (l ++ '\n' :: b).length ≤ chunk ∧ fd = []) :
    readLine [] (l ++ '\n' :: b ++ fd) = some (l, b, fd) := by
  have htk : (l ++ '\n' :: b ++ fd).take chunk = l ++ '\n' :: b := by
    rcases hl with hl | ⟨hl, rfl⟩
    · rw [← hl, List.take_left]
    · rw [List.append_nil, List.take_of_length_le hl]
  have hdr : (l ++ '\n' :: b ++ fd).drop chunk = fd := by
    rcases hl with hl | ⟨hl, rfl⟩
    · rw [← hl, List.drop_left]
    · rw [List.append_nil, List.drop_eq_nil_of_le hl]
  have hne : ∃ c r, l ++ '\n' :: b ++ fd = c :: r := by cases l <;> exact ⟨_, _, rfl⟩
  obtain ⟨c, r, hcr⟩ := hne
  rw [hcr] at htk hdr ⊢
  rw [readLine, List.length_cons, readLineGo.eq_def]
  simp only [takeLine]
  rw [List.nil_append, htk, hdr, readLineGo.eq_def]; simp only [takeLine_of l b h]

/-! ### Specification -/

/-- The commands of a script, from its lines: trimmed, without the empty ones, up to a line `exit`. -/
def wanted (ls : List Str) : List Str := ((ls.map trim).filter (· ≠ [])).takeWhile (· ≠ c!"exit")

/-- Evaluating texts one after the other, each in the state the one before it left. -/
def inTurn {σ V : Type} (C : Cfg σ V) : St (W σ) → List Str → List (Str × Option Nat) × St (W σ)
  | s, [] => ([], s)
  | s, t :: ts =>
    let r := evalText C false s t
    let q := inTurn C r.2 ts
    ((t, r.1) :: q.1, q.2)

/-- Nothing that is run reads the standard input or depends on it. -/
def Blind {σ V : Type} (C : Cfg σ V) : Prop :=
  ∀ s x l, evalText C false (atStdin x s) l = ((evalText C false s l).1, atStdin x (evalText C false s l).2)

/-- Nothing that is run puts text back into the standard input. -/
def Shrinks {σ V : Type} (C : Cfg σ V) : Prop :=
  ∀ s l, (evalText C false s l).2.world.stdin.length ≤ s.world.stdin.length

theorem atStdin_atStdin {σ : Type} (x y : Str) (s : St (W σ)) : atStdin x (atStdin y s) = atStdin x s := rfl

theorem Blind.inTurn {σ V : Type} {C : Cfg σ V} (h : Blind C) : ∀ (ts : List Str) (s : St (W σ)) (x : Str),
    inTurn C (atStdin x s) ts = ((inTurn C s ts).1, atStdin x (inTurn C s ts).2)
  | [], s, x => rfl
  | t :: ts, s, x => by
    simp only [Modes.inTurn]
    rw [h s x t, h.inTurn ts]

theorem Blind.stdin {σ V : Type} {C : Cfg σ V} (h : Blind C) (s : St (W σ)) (x l : Str) :
    (evalText C false (atStdin x s) l).2.world.stdin = x := by rw [h s x l]; rfl

theorem wanted_cons (l : Str) (ls : List Str) : wanted (l :: ls) =
    if trim l = [] then wanted ls else if trim l = c!"exit" then [] else trim l :: wanted ls := by
  simp only [wanted, List.map_cons, List.filter_cons]
  by_cases h : trim l = []
  · simp [h]
  · by_cases h2 : trim l = c!"exit"
    · simp [h2]
    · simp [h, h2]

/-- The lines of what is still to be read, after the reader has given one back. -/
theorem split_after {buf fd l b fd' : Str} (h : readLine buf fd = some (l, b, fd')) :
    wanted (Env.splitOn '\n' (buf ++ fd)) = wanted (l :: Env.splitOn '\n' (b ++ fd')) := by
  obtain ⟨h1, _, h2 | ⟨h2, h3, rfl, rfl⟩⟩ := readLine_some h
  · rw [h2, Env.splitOn_append _ _ h1]
  · rw [h2, Note.splitOn_plain l h1]
    rw [wanted_cons, wanted_cons]
    have e : wanted (Env.splitOn '\n' ([] ++ [])) = wanted [] := by decide
    rw [e]

/-! ### C206: scripts -/

/-- Every command of a script is evaluated, once, in order and in the state the one before it left, as long as
nothing that is run looks at the standard input.  The buffer of the reader makes no difference then. -/
theorem script_lines {σ V : Type} {C : Cfg σ V} (hb : Blind C) {buf : Str} {s s' : St (W σ)} {tr : List Entry}
    (h : Script C buf s tr s') :
    tr.map (fun e => (e.line, e.result)) = (inTurn C s (wanted (Env.splitOn '\n' (buf ++ s.world.stdin)))).1 ∧
    ∃ x, s' = atStdin x (inTurn C s (wanted (Env.splitOn '\n' (buf ++ s.world.stdin)))).2 := by
  induction h with
  | eof buf s h =>
    obtain ⟨rfl, h2⟩ := readLine_none h
    rw [h2]
    have e : wanted (Env.splitOn '\n' ([] ++ [])) = [] := by decide
    rw [e]
    exact ⟨rfl, s.world.stdin, rfl⟩
  | blank buf s l b fd tr s' h ht _ ih =>
    rw [split_after h, wanted_cons, if_pos ht]
    have e : (atStdin fd s).world.stdin = fd := rfl
    rw [e, hb.inTurn] at ih
    refine ⟨ih.1, ?_⟩
    obtain ⟨x, hx⟩ := ih.2
    exact ⟨x, by rw [hx]; rfl⟩
  | stop buf s l b fd h ht =>
    rw [split_after h, wanted_cons, ht, if_neg (by decide), if_pos rfl]
    exact ⟨rfl, fd, rfl⟩
  | line buf s l b fd tr s' h h1 h2 _ ih =>
    rw [split_after h, wanted_cons, if_neg h1, if_neg h2]
    have e : (evalText C false (atStdin fd s) (trim l)).2.world.stdin = fd := hb.stdin s fd (trim l)
    have e1 : evalText C false (atStdin fd s) (trim l) = ((evalText C false s (trim l)).1, atStdin fd (evalText C false s (trim l)).2) := hb s fd (trim l)
    rw [e, e1] at ih
    simp only at ih
    rw [hb.inTurn] at ih
    simp only [inTurn, List.map_cons]
    rw [ih.1, e1]
    refine ⟨rfl, ?_⟩
    obtain ⟨x, hx⟩ := ih.2
    exact ⟨x, by rw [hx]; rfl⟩

/-- C206, what holds of scripts: after the start, the commands of the script are evaluated once each, in order, in the
state the one before left.  Missing: commands of more than one line, programs that read (`C206_split_violated`,
`C206_stdin_violated`, `C206_eaten_violated`), the status (`C206_status_violated`). -/
theorem C206_lines_partial {σ V : Type} {C : Cfg σ V} (hb : Blind C) {s s' : St (W σ)} {tr : List Entry} {code c : Nat}
    (hs : (evalText C false s c!"cd .").1 = some c) (h : PipeMode C s tr s' code) (ls : List Str) (hl : ∀ l ∈ ls, '\n' ∉ l)
    (ht : s.world.stdin = joinWith ['\n'] ls) :
    tr.map (fun e => (e.line, e.result)) = (inTurn C (evalText C false s c!"cd .").2 (wanted ls)).1 ∧
    ∃ x, s' = atStdin x (inTurn C (evalText C false s c!"cd .").2 (wanted ls)).2 := by
  have hw : wanted (Env.splitOn '\n' (joinWith ['\n'] ls)) = wanted ls := by
    cases ls with
    | nil => decide
    | cons a as => rw [Note.splitOn_joinWith '\n' (a :: as) (by simp) hl]
  cases h with
  | failed hf => rw [hf] at hs; cases hs
  | ran _ _ _ _ h =>
    have := script_lines hb h
    have e : (evalText C false s c!"cd .").2.world.stdin = s.world.stdin := hb.stdin s s.world.stdin c!"cd ."
    rw [e, List.nil_append, ht, hw] at this
    exact this

/-- Every script ends, if nothing that is run puts text back. -/
theorem script_total {σ V : Type} {C : Cfg σ V} (hs : Shrinks C) : ∀ (n : Nat) (buf : Str) (s : St (W σ)),
    (buf ++ s.world.stdin).length ≤ n → ∃ tr s', Script C buf s tr s'
  | n, buf, s, hn => by
    cases hr : readLine buf s.world.stdin with
    | none => exact ⟨[], s, .eof buf s hr⟩
    | some p =>
      obtain ⟨l, b, fd⟩ := p
      obtain ⟨h1, _, h2⟩ := readLine_some hr
      have hlt : (b ++ fd).length < (buf ++ s.world.stdin).length := by
        rcases h2 with h2 | ⟨h2, h3, rfl, rfl⟩
        · rw [h2]; simp; omega
        · rw [h2]; cases l with
          | nil => exact absurd rfl h3
          | cons _ _ => simp
      cases n with
      | zero => omega
      | succ n =>
        by_cases ht : trim l = []
        · obtain ⟨tr, s', h⟩ := script_total hs n b (atStdin fd s) (by
            have : (atStdin fd s).world.stdin = fd := rfl
            rw [this]; omega)
          exact ⟨tr, s', .blank buf s l b fd tr s' hr ht h⟩
        · by_cases hx : trim l = c!"exit"
          · exact ⟨[], _, .stop buf s l b fd hr hx⟩
          · obtain ⟨tr, s', h⟩ := script_total hs n b (evalText C false (atStdin fd s) (trim l)).2 (by
              have := hs (atStdin fd s) (trim l)
              have e : (atStdin fd s).world.stdin = fd := rfl
              rw [e] at this
              simp only [List.length_append] at hlt hn ⊢
              omega)
            exact ⟨_, s', .line buf s l b fd tr s' hr ht hx h⟩

/-- C206 fails: the status of a script is 0, whatever its commands reported; nothing but a failing start says
otherwise. -/
theorem C206_status_violated {σ V : Type} {C : Cfg σ V} {s s' : St (W σ)} {tr : List Entry} {code c : Nat}
    (hs : (evalText C false s c!"cd .").1 = some c) (h : PipeMode C s tr s' code) : code = 0 := by
  cases h with
  | failed hf => rw [hf] at hs; cases hs
  | ran => rfl

/-- C206 fails: a command that spans lines is not evaluated; no text with a newline ever is. -/
theorem C206_split_violated {σ V : Type} {C : Cfg σ V} {s s' : St (W σ)} {tr : List Entry} {code : Nat}
    (h : PipeMode C s tr s' code) (cmd : Str) (hc : '\n' ∈ cmd) : ∀ e ∈ tr, e.line ≠ cmd := by
  have key : ∀ {buf : Str} {s s' : St (W σ)} {tr : List Entry}, Script C buf s tr s' → ∀ e ∈ tr, '\n' ∉ e.line := by
    intro buf s s' tr h
    induction h with
    | eof => intro e he; cases he
    | blank _ _ _ _ _ _ _ _ _ _ ih => exact ih
    | stop => intro e he; cases he
    | line buf s l b fd tr s' h h1 h2 _ ih =>
      intro e he
      rcases List.mem_cons.mp he with rfl | he
      · obtain ⟨h3, _⟩ := readLine_some h
        intro hm
        obtain ⟨a, z, ha⟩ : ∃ a z, l = a ++ trim l ++ z := by
          have h1 : trimStart l = l.dropWhile rustWhitespace := rfl
          exact ⟨l.takeWhile rustWhitespace, ((l.dropWhile rustWhitespace).reverse.takeWhile rustWhitespace).reverse, by
            have e1 : ∀ x : Str, (x.reverse.dropWhile rustWhitespace).reverse ++ (x.reverse.takeWhile rustWhitespace).reverse = x := by
              intro x
              rw [← List.reverse_append, List.takeWhile_append_dropWhile, List.reverse_reverse]
            have e2 : trim l = ((l.dropWhile rustWhitespace).reverse.dropWhile rustWhitespace).reverse := rfl
            rw [e2, List.append_assoc, e1, List.takeWhile_append_dropWhile]⟩
        exact h3 (by rw [ha]; simp [hm])
      · exact ih e he
  intro e he
  cases h with
  | failed => cases he
  | ran _ _ _ _ h => intro h2; exact key h e he (h2 ▸ hc)

/-- C206 fails: a program in a script of at most 8192 characters that reads its standard input finds it empty; what
follows in the script is already in the buffer of the shell. -/
theorem C206_stdin_violated {σ V : Type} {C : Cfg σ V} (hc : Shrinks C) {s s' : St (W σ)} {tr : List Entry} {code : Nat}
    (h : PipeMode C s tr s' code) (hl : s.world.stdin.length ≤ chunk) : ∀ e ∈ tr, e.seen = [] := by
  have key : ∀ {buf : Str} {s s' : St (W σ)} {tr : List Entry}, Script C buf s tr s' →
      (buf = [] ∧ s.world.stdin.length ≤ chunk ∨ s.world.stdin = []) → ∀ e ∈ tr, e.seen = [] := by
    intro buf s s' tr h
    have fdnil : ∀ {buf : Str} {s : St (W σ)} {l b fd : Str}, readLine buf s.world.stdin = some (l, b, fd) →
        (buf = [] ∧ s.world.stdin.length ≤ chunk ∨ s.world.stdin = []) → fd = [] := by
      intro buf s l b fd h hi
      rcases hi with ⟨rfl, hi⟩ | hi
      · obtain ⟨h1, _, h2⟩ := readLine_some h
        rcases h2 with h2 | ⟨_, _, _, h2⟩
        · simp only [List.nil_append] at h2
          have := readLine_first l (b ++ fd) [] h1 (.inr ⟨by rw [← h2]; exact hi, rfl⟩)
          rw [List.append_nil, ← h2, h] at this
          simp only [Option.some.injEq, Prod.mk.injEq] at this
          exact this.2.2
        · exact h2
      · obtain ⟨_, h2, _⟩ := readLine_some h
        rw [hi] at h2
        exact List.length_eq_zero_iff.mp (Nat.le_zero.mp h2)
    induction h with
    | eof => intro _ e he; cases he
    | blank buf s l b fd tr s' h _ _ ih =>
      intro hi
      have := fdnil h hi; subst this
      exact ih (.inr rfl)
    | stop => intro _ e he; cases he
    | line buf s l b fd tr s' h h1 h2 _ ih =>
      intro hi e he
      have := fdnil h hi; subst this
      rcases List.mem_cons.mp he with rfl | he
      · rfl
      · refine ih (.inr ?_) e he
        have := hc (atStdin [] s) (trim l)
        exact List.length_eq_zero_iff.mp (Nat.le_zero.mp this)
  intro e he
  cases h with
  | failed => cases he
  | ran _ _ _ _ h =>
    refine key h (.inl ⟨rfl, ?_⟩) e he
    exact Nat.le_trans (hc s c!"cd .") hl

/-- C206 fails: in a longer script a program that reads to the end takes the text of the script after the first 8192
characters.  Of the rest only what is in the buffer is evaluated, the last line as far as it goes. -/
theorem C206_eaten_violated {σ V : Type} {C : Cfg σ V} (hc : Shrinks C) {s s' : St (W σ)} {tr : List Entry}
    (l b more : Str) (h : Script C [] s tr s') (hl : '\n' ∉ l) (h1 : trim l ≠ []) (h2 : trim l ≠ c!"exit")
    (ht : s.world.stdin = l ++ '\n' :: b ++ more) (hn : (l ++ '\n' :: b).length = chunk)
    (he : (evalText C false (atStdin more s) (trim l)).2.world.stdin = []) :
    ∃ e tr', tr = e :: tr' ∧ e.line = trim l ∧ e.seen = more ∧ tr'.map (·.line) = wanted (Env.splitOn '\n' b) := by
  have key : ∀ {buf : Str} {s s' : St (W σ)} {tr : List Entry}, Script C buf s tr s' → s.world.stdin = [] →
      tr.map (·.line) = wanted (Env.splitOn '\n' buf) := by
    intro buf s s' tr h
    have fdnil : ∀ {buf : Str} {s : St (W σ)} {l b fd : Str}, readLine buf s.world.stdin = some (l, b, fd) →
        s.world.stdin = [] → fd = [] ∧ wanted (Env.splitOn '\n' buf) = wanted (l :: Env.splitOn '\n' b) := by
      intro buf s l b fd h hi
      obtain ⟨_, h2, _⟩ := readLine_some h
      rw [hi] at h2
      have hf : fd = [] := List.length_eq_zero_iff.mp (Nat.le_zero.mp h2)
      have := split_after h
      rw [hi, hf, List.append_nil, List.append_nil] at this
      exact ⟨hf, this⟩
    induction h with
    | eof buf s h =>
      intro _
      obtain ⟨rfl, _⟩ := readLine_none h
      decide
    | blank buf s l b fd tr s' h ht _ ih =>
      intro hi
      obtain ⟨rfl, hw⟩ := fdnil h hi
      rw [hw, wanted_cons, if_pos ht]
      exact ih rfl
    | stop buf s l b fd h ht =>
      intro hi
      obtain ⟨rfl, hw⟩ := fdnil h hi
      rw [hw, wanted_cons, ht, if_neg (by decide), if_pos rfl]; rfl
    | line buf s l b fd tr s' h h1 h2 _ ih =>
      intro hi
      obtain ⟨rfl, hw⟩ := fdnil h hi
      rw [hw, wanted_cons, if_neg h1, if_neg h2, List.map_cons, ih ?_]
      have := hc (atStdin [] s) (trim l)
      exact List.length_eq_zero_iff.mp (Nat.le_zero.mp this)
  have hr : readLine [] s.world.stdin = some (l, b, more) := by
    rw [ht]; exact readLine_first l b more hl (.inl hn)
  cases h with
  | eof _ _ h => rw [hr] at h; cases h
  | blank _ _ _ _ _ _ _ h h3 => rw [hr] at h; cases h; exact absurd h3 h1
  | stop _ _ _ _ _ h h3 => rw [hr] at h; cases h; exact absurd h3 h2
  | line _ _ _ _ _ _ _ h _ _ h3 =>
    rw [hr] at h; cases h
    exact ⟨_, _, rfl, rfl, rfl, key h3 he⟩

/-! ### C206: `-c` and `-l` -/

/-- C206, what holds of `-c`: the shell reports the status of the line, a line that cannot be run is a failure, and
what the line did is done. -/
theorem C206_command_partial {σ V : Type} (C : Cfg σ V) (s : St (W σ)) (cmd : Str) :
    (commandMode C s cmd).2 = (evalText C false s cmd).2 ∧
    (∀ code, (evalText C false s cmd).1 = some code → code ≤ 255 → (commandMode C s cmd).1 = code) ∧
    ((evalText C false s cmd).1 = none → (commandMode C s cmd).1 ≠ 0) ∧
    ((commandMode C s cmd).1 = 0 → (evalText C false s cmd).1 = some 0) := by
  rw [commandMode]
  rcases evalText C false s cmd with ⟨r, s'⟩
  cases r with
  | none => simp
  | some code =>
    refine ⟨rfl, ?_, by simp, ?_⟩
    · intro c hc h; cases hc; simp only; omega
    · intro h; simp only at h ⊢; congr 1; omega

/-- C206: a line the guard refuses, or the user cancels, does nothing and is no success. -/
theorem C206_refused_partial {σ V : Type} (C : Cfg σ V) (s : St (W σ)) (cmd : Str) (js : List Job) (hj : C.jobsOf s.world cmd = some js)
    (hv : C.verdict s.world js ≠ .go) : (commandMode C s cmd).2 = s ∧ (commandMode C s cmd).1 ≠ 0 := by
  have : (evalText C false s cmd) = (some 1, s) ∨ (evalText C false s cmd) = (some 130, s) := by
    rw [evalText, hj]
    cases h : C.verdict s.world js with
    | go => exact absurd h hv
    | denied => simp [h]
    | cancelled => simp [h]
  rcases this with h | h <;> rw [commandMode, h] <;> simp

/-- C206, what holds of `-l`: a script of one expression is evaluated, its value is printed unless it is `nil`, and
the shell reports whether there was an error. -/
theorem C206_lisp_partial {τ E V : Type} (L : LispCfg τ E V) (s : τ) (src : Str) (e : E) (h : L.parse src = [some e]) :
    (lispMode L s src).2.2 = (L.eval s e).1 ∧
    (∀ v, (L.eval s e).2 = some v → (lispMode L s src).1 = 0 ∧ (lispMode L s src).2.1 = if L.nil v then none else some v) ∧
    ((L.eval s e).2 = none → (lispMode L s src).1 = 1) := by
  rw [lispMode, lispRun, h]
  simp only
  rcases L.eval s e with ⟨s', v⟩
  cases v with
  | none => simp
  | some v => simp

/-- C206 fails: of a script given with `-l` only the first expression is evaluated; the shell does the same for any
text that begins with it, wrong ones included. -/
theorem C206_first_violated {τ E V : Type} (L : LispCfg τ E V) (s : τ) (src src' : Str) (e : E) (es es' : List (Option E))
    (h : L.parse src = some e :: es) (h' : L.parse src' = some e :: es') : lispMode L s src = lispMode L s src' := by
  simp only [lispMode, lispRun, h, h']

/-- C206 fails: of `-l` and `-c` given together the second is not run. -/
theorem C206_both_violated (src c : Str) : modeOf ⟨some src, some c⟩ = .lisp src := rfl

/-- C206: either alone is run, and without both the shell asks for lines. -/
theorem C206_mode_partial (src c : Str) : modeOf ⟨some src, none⟩ = .lisp src ∧ modeOf ⟨none, some c⟩ = .command c ∧
    modeOf ⟨none, none⟩ = .interactive := ⟨rfl, rfl, rfl⟩

/-! ### C205: leaving -/

theorem isExit_run {j : Job} (h : isExit j) (n : Nat) :
    isExit { j with foreground := j.foreground && !false, jobId := n } := by
  simpa [isExit] using h

theorem isExit_fields {j : Job} (h : isExit j) : j.capture = false ∧ j.structExprs = [] := by
  simp only [isExit, Bool.and_eq_true, Bool.not_eq_true', List.isEmpty_iff] at h
  exact ⟨h.1.1.2, h.1.2⟩

/-- The same state with `exit` noted. -/
def asked {σ : Type} (s : St (W σ)) : St (W σ) := { s with world := { s.world with exited := true } }

/-- A line that comes to `exit`: it is noted and its status is 1. -/
theorem runJob_exit {σ V : Type} {M : Machine (W σ) V} (hM : HasExit M) {j : Job} (h : isExit j) (s : St (W σ)) :
    runJob M false s j = (asked s, .status 1) := by
  obtain ⟨h1, h2⟩ := isExit_fields h
  have hl := hM s _ (isExit_run h (nextId s.table))
  simp only [runJob]
  rw [if_neg (by simp [h1]), if_neg (by simp [h2]), hl]
  simp [exitLaunch, launchRan, builtinState, asked]

/-- C205 fails: what follows `exit` on a line is run — after `;` and after `||`, in every way of running the shell,
with whatever arguments `exit` has. -/
theorem C205_line_violated {σ V : Type} {C : Cfg σ V} (hM : HasExit C.M) (s : St (W σ)) (line : Str) (e j : Job) (js : List Job)
    (hj : C.jobsOf s.world line = some (e :: j :: js)) (hv : C.verdict s.world (e :: j :: js) = .go) (he : isExit e) (hop : e.listOp ≠ .and) :
    ∃ s' r, runJob C.M false (asked s) j = (s', r) ∧
      (evalJobs C.M false (e :: j :: js) s).trace.take 2 = [.ran (.status 1), .ran r] ∧
      evalText C false s line = ((evalJobs C.M false (e :: j :: js) s).result, (evalJobs C.M false (e :: j :: js) s).st) := by
  rcases hr : runJob C.M false (asked s) j with ⟨s', r⟩
  refine ⟨s', r, rfl, ?_, ?_⟩
  · rw [evalJobs, evalLoop]
    simp only [shouldRun, if_true]
    rw [runJob_exit hM he s]
    simp only
    rw [evalLoop]
    have : shouldRun e.listOp 1 = true := by
      cases h : e.listOp with
      | none => rfl
      | and => exact absurd h hop
      | or => rfl
    rw [this]
    simp only [if_true]
    rw [hr]
    cases r <;> simp
  · rw [evalText, hj]; simp only [hv]

/-- Running `exit` by itself. -/
theorem evalText_exit {σ V : Type} {C : Cfg σ V} (hM : HasExit C.M) (s : St (W σ)) (line : Str) (e : Job)
    (hj : C.jobsOf s.world line = some [e]) (hv : C.verdict s.world [e] = .go) (he : isExit e) :
    evalText C false s line = (some 1, asked s) := by
  rw [evalText, hj]; simp only [hv]
  rw [evalJobs, evalLoop]
  simp only [shouldRun, if_true]
  rw [runJob_exit hM he s]
  simp [evalLoop]

/-- C205 fails: the status asked for is lost.  `-c 'exit …'` reports 1 whatever the arguments — for `exit 0` and `exit 3`
alike. -/
theorem C205_status_violated {σ V : Type} {C : Cfg σ V} (hM : HasExit C.M) (s : St (W σ)) (line : Str) (e : Job)
    (hj : C.jobsOf s.world line = some [e]) (hv : C.verdict s.world [e] = .go) (he : isExit e) :
    (commandMode C s line).1 = 1 := by
  rw [commandMode, evalText_exit hM s line e hj hv he]; simp

/-- C205 fails: in a script only a line that is the word `exit` alone ends it.  After any other line that ran `exit` —
`exit 1`, `cd work || exit` — the lines that follow are evaluated all the same. -/
theorem C205_script_violated {σ V : Type} {C : Cfg σ V} (hb : Blind C) {s s' : St (W σ)} {tr : List Entry} (l : Str) (ls : List Str)
    (h : Script C [] s tr s') (hl : ∀ x ∈ l :: ls, '\n' ∉ x) (ht : s.world.stdin = joinWith ['\n'] (l :: ls))
    (h1 : trim l ≠ []) (h2 : trim l ≠ c!"exit") (_hx : (evalText C false s (trim l)).2.world.exited = true) :
    tr.map (·.line) = trim l :: wanted ls := by
  have := (script_lines hb h).1
  rw [List.nil_append, ht, Note.splitOn_joinWith '\n' (l :: ls) (by simp) hl] at this
  have lines : ∀ (ts : List Str) (s : St (W σ)), (inTurn C s ts).1.map (·.1) = ts := by
    intro ts
    induction ts with
    | nil => intro s; rfl
    | cons t ts ih => intro s; simp only [inTurn, List.map_cons, ih]
  have := congrArg (List.map (·.1)) this
  rw [lines, List.map_map] at this
  rw [wanted_cons, if_neg h1, if_neg h2] at this
  exact this

/-- C205: a line that is the word `exit` alone ends a script; nothing after it is evaluated. -/
theorem C205_word_partial {σ V : Type} {C : Cfg σ V} (hb : Blind C) {s s' : St (W σ)} {tr : List Entry} (before : List Str) (l : Str) (after : List Str)
    (h : Script C [] s tr s') (hl : ∀ x ∈ before ++ l :: after, '\n' ∉ x) (ht : s.world.stdin = joinWith ['\n'] (before ++ l :: after))
    (hx : trim l = c!"exit") : tr.map (fun e => (e.line, e.result)) = (inTurn C s (wanted before)).1 := by
  have := (script_lines hb h).1
  rw [List.nil_append, ht, Note.splitOn_joinWith '\n' _ (by simp) hl] at this
  have hw : wanted (before ++ l :: after) = wanted before := by
    clear this hl ht h
    induction before with
    | nil => rw [List.nil_append, wanted_cons, hx, if_neg (by decide), if_pos rfl]; rfl
    | cons b bs ih => rw [List.cons_append, wanted_cons, wanted_cons, ih]
  rw [hw] at this
  exact this

/-! At the prompt. -/

/-- Nothing runs `exit` by being started in the background. -/
def BgKeeps {σ V : Type} (C : Cfg σ V) : Prop :=
  ∀ s l, (evalText C true s l).2.world.exited = s.world.exited

/-- Waiting at the prompt. -/
def Idle {σ : Type} (r : Repl σ) : Prop := r.ended = false ∧ r.leaving = false ∧ r.st.world.exited = false

/-- C205: at the prompt, a line that ran `exit` ends the shell when no job is left in the table. -/
theorem C205_leaves_partial {σ V : Type} (C : Cfg σ V) (debug : Bool) (r : Repl σ) (hi : Idle r) (l : Str) (hl : l ≠ [])
    (hx : (evalText C false r.st l).2.world.exited = true) (ht : (evalText C false r.st l).2.table = []) (es : List Ev) :
    (session C debug r (.line l :: es)).ended = true ∧ (session C debug r (.line l :: es)).st = (evalText C false r.st l).2 := by
  have e : step C debug r (.line l) = { r with st := (evalText C false r.st l).2, warned := false, ended := true } := by
    simp [step, hi.1, handle, hl, check, hx, ht]
  have stay : ∀ (es : List Ev) (r : Repl σ), r.ended = true → session C debug r es = r := by
    intro es
    induction es with
    | nil => intro r _; rfl
    | cons a es ih => intro r hr; rw [session, List.foldl_cons, step, if_pos hr]; exact ih r hr
  have e2 : session C debug r (.line l :: es) = { r with st := (evalText C false r.st l).2, warned := false, ended := true } := by
    rw [session, List.foldl_cons, e]; exact stay es _ rfl
  rw [e2]; exact ⟨rfl, rfl⟩

/-- C205: the shell is not left unasked.  A session in which no line runs `exit` and Ctrl-C is not pressed twice goes
on. -/
theorem C205_asked_partial {σ V : Type} (C : Cfg σ V) (debug : Bool) (hb : BgKeeps C)
    (hn : ∀ s l, s.world.exited = false → (evalText C false s l).2.world.exited = false) :
    ∀ (es : List Ev) (r : Repl σ), Idle r → (∀ e ∈ es, e ≠ .interrupt true) → Idle (session C debug r es)
  | [], r, hi, _ => hi
  | e :: es, r, hi, hne => by
    rw [session, List.foldl_cons]
    refine C205_asked_partial C debug hb hn es _ ?_ (fun x hx => hne x (List.mem_cons_of_mem _ hx))
    obtain ⟨h1, h2, h3⟩ := hi
    have he := hne e (List.mem_cons_self ..)
    rw [step, h1, if_neg (by decide)]
    have hh : Idle (handle C debug r e) := by
      cases e with
      | line l =>
        rw [handle]; split
        · exact ⟨h1, h2, h3⟩
        · exact ⟨h1, h2, hn _ _ h3⟩
      | bgLine l =>
        rw [handle]; split
        · exact ⟨h1, h2, h3⟩
        · exact ⟨h1, h2, by rw [← h3]; exact hb _ _⟩
      | interrupt second =>
        cases second with
        | true => exact absurd rfl he
        | false => rw [handle, Bool.and_false, if_neg (by decide)]; exact ⟨h1, h2, h3⟩
      | tick jobs => exact ⟨h1, h2, h3⟩
      | other => exact ⟨h1, h2, h3⟩
    rw [check, hh.2.1, hh.2.2]; exact hh

/-- C205 fails: while a job — stopped or merely running in the background — is in the table, `exit` does not leave the
shell, however often it is repeated: each line, `exit` itself included, forgets the warning given before.  In a
release build no sequence of events leaves it. -/
theorem C205_stuck_violated {σ V : Type} (C : Cfg σ V) (hb : BgKeeps C) : ∀ (es : List Ev) (r : Repl σ), Idle r →
    (∀ pre, pre <+: es → (session C false r pre).st.table ≠ []) → Idle (session C false r es)
  | [], r, hi, _ => hi
  | e :: es, r, hi, ht => by
    have ht1 : (step C false r e).st.table ≠ [] := ht [e] (by simp)
    rw [session, List.foldl_cons]
    refine C205_stuck_violated C hb es _ ?_ (fun pre hp => ?_)
    · obtain ⟨h1, h2, h3⟩ := hi
      rw [step, h1, if_neg (by decide)] at ht1 ⊢
      have idle : ∀ q : Repl σ, Idle q → Idle (check q) := by
        intro q hq; rw [check, hq.2.1, hq.2.2]; exact hq
      cases e with
      | line l =>
        by_cases hl : l = []
        · rw [handle, if_pos hl]; exact idle r ⟨h1, h2, h3⟩
        · rw [handle, if_neg hl] at ht1 ⊢
          cases hx : (evalText C false r.st l).2.world.exited with
          | false => exact idle _ ⟨h1, h2, hx⟩
          | true =>
            simp only [check, hx, Bool.or_true, if_true, Bool.not_false, Bool.and_true] at ht1 ⊢
            cases htb : (evalText C false r.st l).2.table with
            | nil => simp [htb] at ht1
            | cons a as => simp [Idle, h1]
      | bgLine l =>
        refine idle _ ?_
        rw [handle]; split
        · exact ⟨h1, h2, h3⟩
        · exact ⟨h1, h2, by rw [← h3]; exact hb _ _⟩
      | interrupt second => exact idle _ (by rw [handle, Bool.false_and, if_neg (by decide)]; exact ⟨h1, h2, h3⟩)
      | tick jobs => exact idle _ ⟨h1, h2, h3⟩
      | other => exact idle _ ⟨h1, h2, h3⟩
    · exact ht (e :: pre) (by rw [List.cons_prefix_cons]; exact ⟨rfl, hp⟩)

/-- C205: in a debug build a second double Ctrl-C does leave it. -/
theorem C205_twice_partial {σ V : Type} (C : Cfg σ V) (r : Repl σ) (hi : Idle r) :
    (session C true r [.interrupt true, .interrupt true]).ended = true := by
  obtain ⟨h1, h2, h3⟩ := hi
  cases hw : r.warned <;> cases ht : r.st.table <;>
    simp [session, step, h1, handle, check, hw, ht]

/-! ### Concrete cases -/

section Examples

/-- `exit 3`, as a job. -/
def exit3 : Job := { cmd := c!"exit 3", jobId := 1, procs := [⟨true, [c!"exit", c!"3"]⟩] }

/-- A program. -/
def prog (name : Str) : Job := { cmd := name, jobId := 1, procs := [⟨false, [name]⟩] }

/-- A small shell: it notes the programs it starts; `cat` reads everything; a text is a list of words between `;`. -/
def toyM : Machine (W (List Str)) Unit where
  launch s j :=
    if isExit j then exitLaunch s
    else ({ s with world := { s.world with rest := s.world.rest ++ [j.cmd], stdin := if j.cmd = c!"cat" then [] else s.world.stdin } }, some (.completed 0 none))
  capture s _ := (s, none)
  lisp s _ _ := (s, none)
  str _ := ()

/-- See `toyM`. -/
def toy : Cfg (List Str) Unit where
  jobsOf _ l := some ((Env.splitOn ';' l).map fun w => if trim w = c!"exit 3" then exit3 else prog (trim w))
  verdict _ _ := .go
  M := toyM

theorem toy_exit : HasExit toy.M := by
  intro s j h
  simp only [toy, toyM, h, if_true]

/-- `exit 3; rm` runs `rm`. -/
theorem line_run : (evalText toy false ⟨⟨[], [], false⟩, []⟩ c!"exit 3; rm").2.world.rest = [c!"rm"] := by decide

/-- Two times `exit 3` with a job in the table. -/
theorem stuck_run : (session toy false ⟨⟨⟨[], [], false⟩, [prog c!"sleep"]⟩, false, false, false⟩ [.line c!"exit 3", .line c!"exit 3"]).ended = false := by decide

/-- Without a job once is enough. -/
theorem leave_run : (session toy false ⟨⟨⟨[], [], false⟩, []⟩, false, false, false⟩ [.line c!"exit 3"]).ended = true := by decide

/-- The script `exit 3`, `rm`: the second line is evaluated after the first asked to leave. -/
theorem script_run : ∃ tr s', Script toy [] ⟨⟨[], c!"exit 3\nrm", false⟩, []⟩ tr s' ∧
    tr = [⟨c!"exit 3", [], some 1⟩, ⟨c!"rm", [], some 0⟩] ∧ s'.world.rest = [c!"rm"] ∧ s'.world.exited = true :=
  ⟨_, _, .line _ _ c!"exit 3" c!"rm" [] _ _ (by decide) (by decide) (by decide)
    (.line _ _ c!"rm" [] [] _ _ (by decide) (by decide) (by decide) (.eof _ _ (by decide))), by decide, by decide, by decide⟩

/-- The toy never puts text back, so every script of it ends. -/
theorem toy_shrinks : Shrinks toy := by
  have hl : ∀ (js : List Job) (g : ListOp) (n : Nat) (s : St (W (List Str))),
      (evalLoop toyM false js g n s).st.world.stdin.length ≤ s.world.stdin.length := by
    intro js
    induction js with
    | nil => intro g n s; exact Nat.le_refl _
    | cons j js ih =>
      intro g n s
      have hj : (runJob toyM false s j).1.world.stdin.length ≤ s.world.stdin.length := by
        simp only [runJob]
        split
        · exact Nat.le_refl _
        · split
          · split
            · exact Nat.le_refl _
            · exact Nat.le_refl _
          · simp only [toyM]
            split
            · simp [exitLaunch, launchRan, builtinState]
            · simp only [launchRan]
              split <;> simp
      rw [evalLoop]
      split
      · rcases hr : runJob toyM false s j with ⟨s1, r⟩
        rw [hr] at hj
        cases r with
        | status c => exact Nat.le_trans (ih _ _ _) hj
        | nothing => exact Nat.le_trans (ih _ _ _) hj
        | stopped => exact hj
        | error => exact hj
      · exact ih _ _ _
  intro s l
  exact hl _ _ _ s

/-- A shell whose programs do not read. -/
def quiet : Cfg (List Str) Unit where
  jobsOf _ l := some [if l = c!"exit 3" then exit3 else prog l]
  verdict _ _ := .go
  M := { toyM with launch := fun s j => if isExit j then exitLaunch s
                                         else ({ s with world := { s.world with rest := s.world.rest ++ [j.cmd] } }, some (.completed 0 none)) }

theorem quiet_blind : Blind quiet := by
  intro s x l
  by_cases h : l = c!"exit 3"
  · subst h; rfl
  · simp only [evalText, quiet, if_neg h]; rfl

/-- `exit 3` in a script of that shell is followed by `rm`. -/
theorem quiet_run : ∀ tr s', Script quiet [] ⟨⟨[], c!"exit 3\n\nrm\nexit\nls", false⟩, []⟩ tr s' → tr.map (·.line) = [c!"exit 3", c!"rm"] := by
  intro tr s' h
  rw [C205_script_violated quiet_blind c!"exit 3" [[], c!"rm", c!"exit", c!"ls"] h (by decide) rfl (by decide) (by decide) rfl]
  decide

end Examples

end Dsh.Modes
