import Verif.Parse.ExpandOk
import Verif.Completion.ShellPathProps
/-!
Properties of command-line reading: C03, C04, C05, C10, C47–C53.

Specification: `Verif/Parse/Syntax.lean` (spelling and meaning of words, commands, lists).  The
program: `lineJobs` – expansion, grammar and job construction – under an environment `E` (aliases,
variables, home directory, files) and a `World` (command lookup, output of substitutions).
-/
namespace Dsh.Shell
open Dsh.Peg PExp Dsh.Syn Dsh.ShellPath

/-! ### Evaluation of concrete lines -/

/-- `getJobs` with explicit parser fuel. -/
def getJobsF (n : Nat) (W : World) (ctx : Ctx) (id : Nat) (line : List Char) : Option (List Job × Nat) :=
  match run G n (.rule .commands) line with
  | some (.ok (p :: _) _ _) => parseCommandsPair W (line.length + 1) ctx p id
  | _ => none

theorem getJobsF_sound {n W ctx id line x} (h : getJobsF n W ctx id line = some x) :
    getJobs W ctx id line = some x := by
  unfold getJobsF at h
  unfold getJobs parseCommands
  split at h
  · next hr => rw [parse_eq_run wf n hr]; exact h
  · cases h

/-- `lineJobs` with explicit parser fuel. -/
def lineJobsF (n : Nat) (E : Env) (W : World) (id : Nat) (line : List Char) :
    Option (List Job × Nat) :=
  match run G n (.rule .commands) line with
  | some (.ok ps _ _) =>
    getJobsF n W { foreground := true } id
      (if !hasMeta line && E.noAlias then line
        else if needsAny E ps then expandPairs E ps else line)
  | _ => none

theorem lineJobsF_sound {n E W id line x} (h : lineJobsF n E W id line = some x) :
    lineJobs E W id line = some x := by
  unfold lineJobsF at h
  unfold lineJobs expandLine parseCommands
  split at h
  · next hr =>
    rw [parse_eq_run wf n hr]
    simp only
    split_ifs at h ⊢ <;> exact getJobsF_sound h
  · cases h

/-- An environment for the examples: `$x` is `a;b`, `$s` is `one two`, `$d` is `a $b`, `USER` is
`root`; home directory `/h`; no aliases, no files. -/
def E0 : Env where
  aliasOf := fun _ => none
  noAlias := true
  getVar := fun k => if k = c!"$x" then some c!"a;b" else if k = c!"$s" then some c!"one two"
    else if k = c!"$d" then some c!"a $b" else if k = c!"$OUT" then some c!"last"
    else if k = c!"$OUT[2]" then some c!"previous"
    else if k = c!"USER" then some c!"root" else none
  home := some c!"/h"
  glob := fun _ => []

/-- A world in which every name is an external command. -/
def W0 : World := ⟨fun _ => some .external, fun _ _ => []⟩

/-- What is visible of a job: argument vectors of its stages, background flag, redirect, list
operator. -/
structure Seen where
  stages : List (List (List Char))
  background : Bool := false
  redirect : Option (RKind × List Char) := none
  op : ListOp := .none
deriving DecidableEq, Repr

/-- The visible part of the jobs of a line. -/
def summary (r : Option (List Job × Nat)) : Option (List Seen) :=
  r.map (fun x => x.1.map (fun j => ⟨j.procs.map Proc.argv, !j.foreground, j.redirect, j.listOp⟩))

/-- What the shell runs for a line in `E0`, `W0`. -/
def runs0 (line : List Char) := summary (lineJobs E0 W0 0 line)

theorem runs0_eq {line} (n : Nat) {x} (h : summary (lineJobsF n E0 W0 0 line) = some x) :
    runs0 line = some x := by
  unfold runs0
  cases hj : lineJobsF n E0 W0 0 line with
  | none => rw [hj] at h; cases h
  | some y => rw [lineJobsF_sound hj, ← hj]; exact h

/-- The unread rest. -/
def leftover : Option (Out R) → Option (List Char)
  | some (.ok _ _ r) => some r
  | _ => none

theorem leftover_sound {line r} (n : Nat) (h : leftover (run G n (.rule .commands) line) = some r) :
    ∃ ps c, parseCommands line = .ok ps c r := by
  unfold leftover at h
  split at h
  · next ps c r' hr =>
    injection h with h
    subst h
    exact ⟨ps, c, parse_eq_run wf n hr⟩
  · cases h

/-! ### C03 -/

/-- **C03, the part that holds.** A line written in the syntax of `Verif/Parse/Syntax.lean` is
accepted and the jobs built are exactly the jobs it means: every command, argument, redirect,
pipe, `&` and list operator, in order, with variables filled in.  (`FitLine`: no alias applies,
values of variables are tame, no plain word is a variable's name or starts with `~`, no redirect
on background commands.)  Missing: lines outside that syntax, see `C03_tail_violated`. -/
theorem C03_line_meaning_partial {E : Env} {W : World} {l : Line} (h : l.ok = true) (hf : FitLine E l)
    (hr : ∀ s ∈ (l.mapW (Word.fill (valOf E))).simples, Runs W s) (id : Nat) :
    ∃ js id', lineJobs E W id l.text = some (js, id') ∧
      RealizesAll js (l.mapW (Word.fill (valOf E))).want :=
  line_jobs_expanded h hf hr id

/-- `ls -l  'a b' "c" d\ e >out | wc $s && x & y ; z` -/
def exLine : Line :=
  let w (s : List Char) : Word := .bare (s.map .plain)
  ⟨c!" ", ⟨[], some (⟨w c!"ls", [.word c!" " (w c!"-l"), .word c!"  " (.sq c!"a b"), .word c!" " (.dq c!"c"),
      .word c!" " (.bare [.plain 'd', .esc ' ', .plain 'e']), .redir c!" " .out [] (w c!"out")]⟩,
      [(c!" ", c!" ", ⟨w c!"wc", [.word c!" " (.var c!"s")]⟩)])⟩,
   [(c!" ", .and, c!" ", ⟨[(⟨w c!"x", []⟩, c!" ", c!" ")], some (⟨w c!"y", []⟩, [])⟩),
    (c!" ", .seq, c!" ", ⟨[], some (⟨w c!"z", []⟩, [])⟩)], []⟩

theorem exLine_text : exLine.text = c!" ls -l  'a b' \"c\" d\\ e >out | wc $s && x & y ; z" := by decide

/-- The hypotheses of `C03_line_meaning_partial` are met by `exLine`. -/
theorem exLine_fit : FitLine E0 exLine := by
  refine ⟨?_, ?_, ?_⟩
  · intro s hs
    have : s ∈ exLine.simples := hs
    simp only [exLine, Line.simples, Line.cmds, Cmd.simples, List.map_cons, List.map_nil, List.flatMap_cons,
      List.flatMap_nil, List.append_nil, List.nil_append, List.cons_append, List.mem_cons,
      List.not_mem_nil, or_false] at hs
    rcases hs with rfl | rfl | rfl | rfl | rfl <;>
    · refine ⟨⟨by decide, by decide⟩, rfl, by decide, ?_, ?_⟩
      · intro sep w hm
        simp at hm
        try (rcases hm with ⟨-, rfl⟩ | ⟨-, rfl⟩ | ⟨-, rfl⟩ | ⟨-, rfl⟩ <;> exact ⟨by decide, by decide⟩)
        try (rcases hm with ⟨-, rfl⟩
             intro v hv
             have : v = c!"one two" := by
               have h2 : E0.getVar ('$' :: c!"s") = some c!"one two" := by decide
               rw [h2] at hv; injection hv with hv; exact hv.symm
             subst this
             exact .inr (.inl (by decide)))
      · intro sep k gap w hm
        simp at hm
        try (obtain ⟨-, -, -, rfl⟩ := hm; exact ⟨by decide, by decide⟩)
  · intro k; cases k <;> decide
  · decide

example : ∃ js id', lineJobs E0 W0 0 exLine.text = some (js, id') ∧
    RealizesAll js (exLine.mapW (Word.fill (valOf E0))).want :=
  C03_line_meaning_partial (by decide) exLine_fit
    (fun s hs => ⟨.inr rfl, by
      revert s
      decide⟩) 0

/-- **C03 fails.** The grammar accepts lines of which it has read only a part, and the rest is
never looked at: an unclosed quote, a double-quoted word containing `$`, and a command after the
`&` of a pipeline. -/
theorem C03_tail_violated :
    ¬ ∀ (line : List Char) ps read rest, parseCommands line = .ok ps read rest →
      rest.all rustWhitespace = true := by
  intro h
  obtain ⟨ps, c, hp⟩ := leftover_sound (line := c!"echo \"abc") 60 (r := c!"\"abc") (by decide +kernel)
  exact absurd (h _ ps _ _ hp) (by decide)

/-- What is run instead: the argument is dropped without a message. -/
theorem C03_dropped_violated :
    runs0 c!"echo \"abc" = some [{ stages := [[c!"echo"]] }] ∧
    runs0 c!"echo \"$USER\" b" = some [{ stages := [[c!"echo"]] }] ∧
    runs0 c!"a | b & c" = some [{ stages := [[c!"a"], [c!"b"]], background := true }] :=
  ⟨runs0_eq 80 (by decide +kernel), runs0_eq 80 (by decide +kernel), runs0_eq 80 (by decide +kernel)⟩

/-! ### C04 and C05: completions reach the program -/

/-- `escape_unquoted` as pieces of a word. -/
def escPieces (s : List Char) : List Piece := s.map (fun c => if unquotedSpecial c then .esc c else .plain c)

theorem escPieces_text (s : List Char) : (Word.bare (escPieces s)).text = escapeUnquoted s := by
  unfold escapeUnquoted escapeWith escPieces
  simp only [Word.text]
  induction s with
  | nil => rfl
  | cons c s ih =>
    simp only [List.map_cons, List.flatten_cons, List.flatMap_cons, ih]
    congr 1
    split <;> rfl

theorem escPieces_ok {s : List Char} (h : s ≠ []) : (Word.bare (escPieces s)).ok = true := by
  simp only [Word.ok, Bool.and_eq_true, List.all_eq_true]
  refine ⟨decide_eq_true (by simpa [escPieces] using h), ?_⟩
  intro p hp
  obtain ⟨c, -, rfl⟩ := List.mem_map.1 hp
  split
  · rfl
  · next hc =>
    simp only [Piece.ok, Bool.not_eq_true', List.contains_eq_mem, decide_eq_false_iff_not]
    intro hm
    have hall : ∀ c ∈ special, unquotedSpecial c = true := by decide
    exact hc (hall c hm)

theorem escPieces_value (s : List Char) : (Word.bare (escPieces s)).value = s := by
  simp only [Word.value, escPieces, List.map_map]
  conv_rhs => rw [← List.map_id s]
  apply List.map_congr_left
  intro c _
  simp only [Function.comp]
  split <;> rfl

/-- The line `cmd arg` where `arg` is spelled `w`. -/
def callLine (cmd : List Char) (w : Word) : Line :=
  ⟨[], ⟨[], some (⟨.bare (cmd.map .plain), [.word c!" " w]⟩, [])⟩, [], []⟩

/-- **C04.** A non-empty file name inserted by completion without quotes, in any line of the
syntax, stands for exactly that name: its spelling is that of a well-formed word with that value
(so `C03_line_meaning_partial` applies wherever it is used). -/
theorem C04_word (name : List Char) (h : name ≠ []) :
    ∃ w : Word, w.ok = true ∧ w.text = encode .plain name ∧ w.value = name :=
  ⟨_, escPieces_ok h, escPieces_text name, escPieces_value name⟩

/-- A command name of ordinary characters. -/
def PlainCmd (E : Env) (W : World) (cmd : List Char) : Prop :=
  cmd ≠ [] ∧ (∀ c ∈ cmd, c ∉ special) ∧ tilde E cmd = cmd ∧ E.getVar cmd = none ∧
  E.aliasOf cmd = none ∧ trim cmd = cmd ∧
  (W.kind cmd = some .builtin ∨ W.kind cmd = some .external) ∧ cmd ≠ c!"nopty"

theorem call_ok {E : Env} {W : World} {cmd : List Char} (hc : PlainCmd E W cmd) {w : Word} (hw : w.ok = true)
    (hfit : Fit E w) (hops : ∀ k : Redir, E.getVar k.text = none) (id : Nat) :
    ∃ j id', lineJobs E W id (cmd ++ (' ' :: w.text)) = some ([j], id') ∧
      j.procs.map Proc.argv = [[cmd, (w.fill (valOf E)).value]] ∧ j.foreground = true ∧
      j.redirect = none := by
  obtain ⟨h1, h2, h3, h4, h5, h6, h7, h8⟩ := hc
  have hval : (Word.bare (cmd.map Piece.plain)).value = cmd := by
    simp [Word.value, Function.comp_def, Piece.value]
  have hcok : (Word.bare (cmd.map Piece.plain)).ok = true := by
    simp only [Word.ok, Bool.and_eq_true, List.all_eq_true]
    refine ⟨decide_eq_true (by simpa using h1), ?_⟩
    intro p hp
    obtain ⟨d, hd, rfl⟩ := List.mem_map.1 hp
    simpa [Piece.ok] using h2 d hd
  have hl : (callLine cmd w).ok = true := by
    simp only [callLine, Line.ok, Cmd.ok, Simple.ok, hcok, List.all_cons, List.all_nil, Arg.ok, hw, restOk]
    simp [isBlank]
  have hf : FitLine E (callLine cmd w) := by
    refine ⟨?_, hops, ?_⟩
    · intro s hs
      simp [callLine, Line.simples, Line.cmds, Cmd.simples] at hs
      subst hs
      refine ⟨⟨?_, ?_⟩, ?_, ?_, ?_, ?_⟩
      · simp only [plain_text]; exact h3
      · simp only [plain_text]; exact h4
      · simp only [plain_text]; exact h5
      · simp only [plain_text]; exact h6
      · intro sep w' hm; simp at hm; rw [hm.2]; exact hfit
      · intro sep k gap w' hm; simp at hm
    · intro c hc b hb
      simp [callLine, Line.cmds] at hc
      subst hc
      simp at hb
  obtain ⟨js, id', hj, hre⟩ := C03_line_meaning_partial (W := W) hl hf (by
    intro s hs
    rw [mapW_simples] at hs
    simp [callLine, Line.simples, Line.cmds, Cmd.simples] at hs
    subst hs
    have hfc : Word.fill (valOf E) (Word.bare (cmd.map Piece.plain)) = Word.bare (cmd.map Piece.plain) := rfl
    unfold Runs Simple.mapW
    simp only [hfc, hval]
    exact ⟨h7, h8⟩) id
  have ht : (callLine cmd w).text = cmd ++ (' ' :: w.text) := by
    simp [callLine, Line.text, Cmd.text, bgsText, mainText, stagesText, restText, Simple.text, plain_text, Arg.text]
  rw [ht] at hj
  have hwant : ((callLine cmd w).mapW (Word.fill (valOf E))).want =
      [⟨[[cmd, (w.fill (valOf E)).value]], false, none, .seq⟩] := by
    have hfc : Word.fill (valOf E) (Word.bare (cmd.map Piece.plain)) = Word.bare (cmd.map Piece.plain) := rfl
    simp [callLine, Line.mapW, Cmd.mapW, Simple.mapW, hfc, Line.want, restWant, Cmd.want, Simple.argv, hval,
      Arg.mapW, Arg.wordVal, lastRedir, Simple.redirect, Arg.redirVal]
  rw [hwant] at hre
  cases hre with
  | cons hj1 hrest =>
    cases hrest
    exact ⟨_, id', hj, hj1.argv, hj1.foreground, hj1.redirect⟩

/-- **C04 end to end.** `cmd <completed name>` starts the program with exactly that name as its
only argument.  Missing from the full property: a name starting with `~` (not escaped by the
encoder), and names that are also names of variables when expansion runs; see
`C04_tilde_violated`. -/
theorem C04_argument_partial {E : Env} {W : World} {cmd name : List Char} (hc : PlainCmd E W cmd)
    (hn : name ≠ []) (ht : name.head? ≠ some '~') (hv : E.getVar (encode .plain name) = none)
    (hops : ∀ k : Redir, E.getVar k.text = none) (id : Nat) :
    ∃ j id', lineJobs E W id (cmd ++ (' ' :: encode .plain name)) = some ([j], id') ∧
      j.procs.map Proc.argv = [[cmd, name]] ∧ j.foreground = true ∧ j.redirect = none := by
  have htil : tilde E (escapeUnquoted name) = escapeUnquoted name := by
    cases name with
    | nil => rfl
    | cons c s =>
      have hc : c ≠ '~' := by simpa using ht
      unfold escapeUnquoted escapeWith
      rw [List.flatMap_cons]
      split
      · simp [tilde]
      · simp only [List.singleton_append]
        unfold tilde
        split
        · next h => injection h with h _; exact absurd h hc
        · rfl
  have hfit : Fit E (Word.bare (escPieces name)) := by
    refine ⟨?_, ?_⟩
    · rw [escPieces_text]; exact htil
    · rw [escPieces_text]; exact hv
  have := call_ok hc (escPieces_ok hn) hfit hops id
  rw [escPieces_text] at this
  have hf2 : ((Word.bare (escPieces name)).fill (valOf E)).value = name := escPieces_value name
  rw [hf2] at this
  exact this

example : ∃ j id', lineJobs E0 W0 0 (c!"rm" ++ (' ' :: encode .plain c!"a b;$x\n'\\")) = some ([j], id') ∧
    j.procs.map Proc.argv = [[c!"rm", c!"a b;$x\n'\\"]] ∧ j.foreground = true ∧ j.redirect = none :=
  C04_argument_partial (by unfold PlainCmd; decide) (by decide) (by decide) (by decide)
    (by intro k; cases k <;> decide) 0

/-- **C04 fails** for a file called `~`: completing it gives the home directory. -/
theorem C04_tilde_violated :
    runs0 (c!"rm" ++ (' ' :: encode .plain c!"~")) = some [{ stages := [[c!"rm", c!"/h"]] }] :=
  runs0_eq 80 (by decide +kernel)

/-- **C05, the part that holds.** A name inserted inside closed quotes is passed on unchanged if it
contains none of the characters that the encoder escapes.  Missing: names with such characters,
see `C05_quoted_violated`. -/
theorem C05_argument_partial {E : Env} {W : World} {cmd name : List Char} (hc : PlainCmd E W cmd)
    (hops : ∀ k : Redir, E.getVar k.text = none) (id : Nat) :
    ((∀ c ∈ name, c ≠ '\\' ∧ c ≠ '\'') → E.getVar (encode (.single true) name) = none →
      ∃ j id', lineJobs E W id (cmd ++ (' ' :: encode (.single true) name)) = some ([j], id') ∧
        j.procs.map Proc.argv = [[cmd, name]] ∧ j.foreground = true ∧ j.redirect = none) ∧
    ((∀ c ∈ name, c ≠ '\\' ∧ c ≠ '"' ∧ c ≠ '$' ∧ c ≠ '`') →
      E.getVar (encode (.double true) name) = none →
      ∃ j id', lineJobs E W id (cmd ++ (' ' :: encode (.double true) name)) = some ([j], id') ∧
        j.procs.map Proc.argv = [[cmd, name]] ∧ j.foreground = true ∧ j.redirect = none) := by
  have hid : ∀ (p : Char → Bool) (s : List Char), (∀ c ∈ s, p c = false) → escapeWith p s = s := by
    intro p s hs
    unfold escapeWith
    induction s with
    | nil => rfl
    | cons c s ih =>
      rw [List.flatMap_cons, ih (fun d hd => hs d (List.mem_cons_of_mem _ hd)), hs c (by simp)]
      rfl
  constructor
  · intro hn hv
    have he : encode (.single true) name = (Word.sq name).text := by
      simp only [encode, escapeSingle, Word.text, if_true]
      rw [hid _ _ (fun c hc => by simp [hn c hc])]
    rw [he] at hv ⊢
    refine call_ok (w := .sq name) hc ?_ ⟨rfl, hv⟩ hops id
    simp only [Word.ok, Bool.and_eq_true, Bool.not_eq_true', List.contains_eq_mem, decide_eq_false_iff_not, bne_iff_ne]
    refine ⟨fun h => (hn _ h).2 rfl, fun h => ?_⟩
    exact (hn _ (List.mem_of_getLast? h)).1 rfl
  · intro hn hv
    have he : encode (.double true) name = (Word.dq name).text := by
      simp only [encode, escapeDouble, Word.text, if_true]
      rw [hid _ _ (fun c hc => by simp [hn c hc])]
    rw [he] at hv ⊢
    refine call_ok (w := .dq name) hc ?_ ⟨rfl, hv⟩ hops id
    simp only [Word.ok, List.all_eq_true]
    intro c hc
    simp [hn c hc]

example : ∃ j id', lineJobs E0 W0 0 (c!"rm" ++ (' ' :: encode (.single true) c!"a b;$x")) = some ([j], id') ∧
    j.procs.map Proc.argv = [[c!"rm", c!"a b;$x"]] ∧ j.foreground = true ∧ j.redirect = none :=
  (C05_argument_partial (by unfold PlainCmd; decide) (by intro k; cases k <;> decide) 0).1 (by decide) (by decide)

/-- **C05 fails** for names with a quote, a dollar or a backslash: the backslashes inserted by the
encoder reach the program. -/
theorem C05_quoted_violated :
    runs0 (c!"rm" ++ (' ' :: encode (.single true) c!"it's")) = some [{ stages := [[c!"rm", c!"it\\'s"]] }] ∧
    runs0 (c!"rm" ++ (' ' :: encode (.double true) c!"a$b")) = some [{ stages := [[c!"rm", c!"a\\$b"]] }] :=
  ⟨runs0_eq 80 (by decide +kernel), runs0_eq 80 (by decide +kernel)⟩

/-! ### C10: variables -/

/-- **C10, the part that holds.** In a line of the syntax, every `$NAME` whose value is tame
(`Tame`: empty, or with blanks but none of `"`, backslash, backquote, `$`, or made of ordinary
characters) contributes exactly its value as one argument and nothing else of the line changes.
Missing: all other values, see `C10_injection_violated`. -/
theorem C10_value_partial {E : Env} {W : World} {l : Line} (h : l.ok = true) (hf : FitLine E l)
    (hr : ∀ s ∈ (l.mapW (Word.fill (valOf E))).simples, Runs W s) (id : Nat) :
    ∃ js id', lineJobs E W id l.text = some (js, id') ∧
      RealizesAll js (l.mapW (Word.fill (valOf E))).want :=
  line_jobs_expanded h hf hr id

/-- The single-argument case spelled out. -/
theorem C10_argument_partial {E : Env} {W : World} {cmd n v : List Char} (hc : PlainCmd E W cmd)
    (hn : n ≠ [] ∧ ∀ c ∈ n, c ∉ special) (hv : E.getVar ('$' :: n) = some v) (ht : Tame v)
    (hops : ∀ k : Redir, E.getVar k.text = none) (id : Nat) :
    ∃ j id', lineJobs E W id (cmd ++ (' ' :: '$' :: n)) = some ([j], id') ∧
      j.procs.map Proc.argv = [[cmd, v]] ∧ j.foreground = true ∧ j.redirect = none := by
  have hw : (Word.var n).ok = true := by
    simp only [Word.ok, Bool.and_eq_true, List.all_eq_true]
    refine ⟨decide_eq_true hn.1, fun c hc => by simpa using hn.2 c hc⟩
  have := call_ok (w := .var n) hc hw (fun v' hv' => by rw [hv] at hv'; injection hv' with e; rwa [← e]) hops id
  simp only [Word.fill, valOf, hv, Word.value] at this
  exact this

example : ∃ j id', lineJobs E0 W0 0 (c!"rm" ++ (' ' :: '$' :: c!"s")) = some ([j], id') ∧
    j.procs.map Proc.argv = [[c!"rm", c!"one two"]] ∧ j.foreground = true ∧ j.redirect = none :=
  C10_argument_partial (by unfold PlainCmd; decide) (by decide) (by decide)
    (.inr (.inl (by decide))) (by intro k; cases k <;> decide) 0

/-- **C10 fails.** With `x` set to `a;b`, `echo $x` runs the command `b`; with `d` set to `a $b`,
`echo $d end` drops the value and everything after it. -/
theorem C10_injection_violated :
    runs0 c!"echo $x" = some [{ stages := [[c!"echo", c!"a"]] }, { stages := [[c!"b"]] }] ∧
    runs0 c!"echo $d end" = some [{ stages := [[c!"echo"]] }] :=
  ⟨runs0_eq 100 (by decide +kernel), runs0_eq 100 (by decide +kernel)⟩

/-! ### Further properties of line reading -/

/-- **C47 fails.** A redirect to a quoted file name goes to a file whose name contains the quotes. -/
theorem C47_redirect_quotes_violated :
    runs0 c!"echo a > \"my file\"" =
      some [{ stages := [[c!"echo", c!"a"]], redirect := some (.stdoutOutput, c!"\"my file\"") }] :=
  runs0_eq 100 (by decide +kernel)

/-- **C48 fails.** `--opt="x y"` is passed as two arguments. -/
theorem C48_adjacent_violated :
    runs0 c!"p --opt=\"x y\"" = some [{ stages := [[c!"p", c!"--opt=", c!"x y"]] }] :=
  runs0_eq 100 (by decide +kernel)

/-- **C49 fails.** After a background pipeline, a later foreground command is started in the
background. -/
theorem C49_background_violated :
    runs0 c!"a | b & ; c" = some [{ stages := [[c!"a"], [c!"b"]], background := true },
      { stages := [[c!"c"]], background := true }] :=
  runs0_eq 100 (by decide +kernel)

/-- **C50 fails.** The second line of `a &&⏎b` is not run; after `a \⏎b` the program gets an
argument consisting of the line break and `b`. -/
theorem C50_continuation_violated :
    runs0 c!"a &&\nb" = some [{ stages := [[c!"a"]], op := .and }] ∧
    runs0 c!"a \\\nb" = some [{ stages := [[c!"a", c!"\nb"]] }] :=
  ⟨runs0_eq 100 (by decide +kernel), runs0_eq 100 (by decide +kernel)⟩

/-- **C51 fails.** If the line contains anything to expand, a plain word that happens to be the
name of an environment variable is replaced by its value. -/
theorem C51_plain_word_violated :
    runs0 c!"echo USER" = some [{ stages := [[c!"echo", c!"USER"]] }] ∧
    runs0 c!"echo USER ~" = some [{ stages := [[c!"echo", c!"root", c!"/h"]] }] :=
  ⟨runs0_eq 100 (by decide +kernel), runs0_eq 100 (by decide +kernel)⟩

/-- **C52 fails.** Expansion loses the redirect of a background command and the `&` of a background
pipeline. -/
theorem C52_structure_violated :
    runs0 c!"a b > f &" = some [{ stages := [[c!"a", c!"b"]], background := true,
                                  redirect := some (.stdoutOutput, c!"f") }] ∧
    runs0 c!"a ~ > f &" = some [{ stages := [[c!"a", c!"/h"]], background := true }] ∧
    runs0 c!"a ~ | b &" = some [{ stages := [[c!"a", c!"/h"], [c!"b"]] }] :=
  ⟨runs0_eq 100 (by decide +kernel), runs0_eq 100 (by decide +kernel), runs0_eq 100 (by decide +kernel)⟩

/-- … and inside a subshell it loses the separators: `(a ~; b)` is turned into `( a /h b )`. -/
theorem C52_subshell_violated : expandLine E0 c!"(a ~; b)" = some c!"( a /h b )" := by
  have h : ∃ ps c r, run G 100 (.rule .commands) c!"(a ~; b)" = some (.ok ps c r) ∧
      needsAny E0 ps = true ∧ expandPairs E0 ps = c!"( a /h b )" := by
    refine ⟨_, _, _, rfl, ?_, ?_⟩ <;> decide +kernel
  obtain ⟨ps, c, r, h1, h2, h3⟩ := h
  unfold expandLine parseCommands
  rw [parse_eq_run wf 100 h1]
  simp only [h2, h3]
  decide

/-- **C53 fails.** `$OUT[2]` does not give the second most recent output but the most recent one
followed by the word `[2]`. -/
theorem C53_out_index_violated :
    runs0 c!"echo $OUT[2]" = some [{ stages := [[c!"echo", c!"last", c!"[2]"]] }] :=
  runs0_eq 100 (by decide +kernel)

end Dsh.Shell
