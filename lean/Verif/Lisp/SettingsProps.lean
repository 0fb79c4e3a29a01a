import Verif.Lisp.Settings
import Verif.Env.Direnv
import Verif.Repl.Notebook
/-!
What configuration code may set, what it runs, what it is told and what becomes of secrets: C199, C200,
C201, C202.
-/
namespace Dsh.Settings
open Dsh.Env (Map)
open Dsh.Safety (Level Answer)
open Dsh.Secrets (Mode)

/-! ## C199: variables that make programs load foreign code -/

/-- The variables the guard is about. -/
def Loads (n : Str) : Prop :=
  n = c!"LD_PRELOAD" ∨ n = c!"LD_LIBRARY_PATH" ∨ n = c!"DYLD_INSERT_LIBRARIES" ∨ n = c!"PYTHONPATH" ∨
    n = c!"PERL5LIB" ∨ n = c!"RUBYLIB" ∨ n = c!"NODE_OPTIONS"

theorem mem_dangerous {n : Str} : n ∈ dangerous ↔ Loads n := by
  simp [dangerous, Loads]

theorem checkEnv_allowed {n : Str} {l : Level} : checkEnv n l = .allowed ↔ l = .loose ∨ ¬ Loads n := by
  unfold checkEnv
  by_cases h : Loads n
  · rw [if_pos (List.contains_iff_mem.2 (mem_dangerous.2 h))]
    cases l <;> simp [h]
  · rw [if_neg (fun hh => h (mem_dangerous.1 (List.contains_iff_mem.1 hh)))]
    simp [h]

/-- The environment handed to programs, as `C34_programs_partial` and `C34_builtins_partial` describe
it. -/
def seen (st : St) (n : Str) : Option Str := (Env.childEnv st.env).get n

/-- What the environment of programs is made of is the same at `n`. -/
structure SameAt (n : Str) (a b : Env.State) : Prop where
  vars : a.vars.get n = b.vars.get n
  sys : a.sys.get n = b.sys.get n
  exp : n ∈ a.exported ↔ n ∈ b.exported

theorem SameAt.seen {n : Str} {a b : Env.State} (h : SameAt n a b) : (Env.childEnv a).get n = (Env.childEnv b).get n := by
  rw [Env.C34_builtins_partial, Env.C34_builtins_partial]
  simp only [Env.Wanted, h.vars, h.sys, h.exp]

theorem sameAt_setSys {e : Env.State} {n k v : Str} (h : k ≠ n) : SameAt n (Env.setSys e k v) e := by
  obtain ⟨h1, h2, h3⟩ : (Env.setSys e k v).vars = e.vars ∧ (Env.setSys e k v).exported = e.exported ∧
      (Env.setSys e k v).sys = e.sys.insert k v := by
    unfold Env.setSys; dsimp only; split <;> exact ⟨rfl, rfl, rfl⟩
  refine ⟨by rw [h1], ?_, by rw [h2]⟩
  rw [h3, Env.Map.get_insert, if_neg (fun hh => h hh.symm)]

theorem sameAt_setVar {e : Env.State} {n k v : Str} (h : k ≠ n) : SameAt n (Env.setVar e k v) e := by
  refine ⟨?_, rfl, Iff.rfl⟩
  simp only [Env.setVar]
  rw [Env.Map.get_insert, if_neg (fun hh => h hh.symm)]

theorem not_loads_of {k n : Str} (hk : ¬ Loads k) (hn : Loads n) : k ≠ n := fun h => hk (h ▸ hn)

/-- One call that is not `safety-level`. -/
theorem call_same (valid : Str → Bool) {st : St} (hl : st.level ≠ .loose) (f : Fn) (hf : f ≠ .safetyLevel) (args : List Arg)
    {n : Str} (hn : Loads n) :
    SameAt n (call valid st f args).2.env st.env ∧ (call valid st f args).2.level = st.level := by
  have refl : SameAt n st.env st.env := ⟨rfl, rfl, Iff.rfl⟩
  have key : ∀ {k : Str}, checkEnv k st.level = .allowed → k ≠ n := fun h =>
    not_loads_of ((checkEnv_allowed.1 h).resolve_left hl) hn
  cases f <;> try exact absurd rfl hf
  case setenv =>
    simp only [call]
    unfold setenv
    split
    · split
      · rename_i h
        split
        · rename_i hp
          exact ⟨sameAt_setSys (hp ▸ key h), rfl⟩
        · exact ⟨sameAt_setSys (key h), rfl⟩
      · exact ⟨refl, rfl⟩
    · exact ⟨refl, rfl⟩
  case vset =>
    simp only [call]
    unfold vset
    split
    · split
      · rename_i h
        exact ⟨sameAt_setVar (key h), rfl⟩
      · exact ⟨refl, rfl⟩
    · exact ⟨refl, rfl⟩
  case addPath => exact ⟨⟨rfl, rfl, Iff.rfl⟩, rfl⟩
  case listPatterns => exact ⟨⟨rfl, rfl, Iff.rfl⟩, rfl⟩
  case secretClear => exact ⟨⟨rfl, rfl, Iff.rfl⟩, rfl⟩
  all_goals
    simp only [call, setAlias, setAbbr, prefPair, prefNotify, prefExplain, historyMode, addPattern, addKeyword,
      secretSet, secretGet]
    first
      | exact ⟨refl, rfl⟩
      | (split <;> first
          | exact ⟨refl, rfl⟩
          | (split <;> exact ⟨refl, rfl⟩))

/-- **C199, what holds.** As long as the level is not lowered, no sequence of calls of the settings
changes what programs find under one of the names. -/
theorem C199_settings_partial (valid : Str → Bool) (l : List (Fn × List Arg)) (st : St) (hl : st.level ≠ .loose)
    (hf : ∀ c ∈ l, c.1 ≠ .safetyLevel) {n : Str} (hn : Loads n) : seen (calls valid st l) n = seen st n := by
  suffices ∀ st : St, st.level ≠ .loose → SameAt n (calls valid st l).env st.env from (this st hl).seen
  induction l with
  | nil => exact fun st _ => ⟨rfl, rfl, Iff.rfl⟩
  | cons c l ih =>
    intro st hl
    obtain ⟨h1, h2⟩ := call_same valid hl c.1 (hf c (by simp)) c.2 hn
    have h3 := ih (fun c hc => hf c (List.mem_cons_of_mem _ hc)) (call valid st c.1 c.2).2 (h2 ▸ hl)
    refine ⟨?_, ?_, ?_⟩
    · exact h3.vars.trans h1.vars
    · exact h3.sys.trans h1.sys
    · exact h3.exp.trans h1.exp

/-- **C199.** Such a call fails, and nothing at all is changed. -/
theorem C199_refused_partial (valid : Str → Bool) {st : St} (hl : st.level ≠ .loose) {key : Arg} (hn : Loads key.shown)
    (rest : List Arg) :
    call valid st .setenv (key :: rest) = (.err, st) ∧ call valid st .vset (key :: rest) = (.err, st) := by
  have h : checkEnv key.shown st.level ≠ .allowed := by
    rw [Ne, checkEnv_allowed, not_or, not_not]
    exact ⟨hl, hn⟩
  constructor
  · simp only [call]
    unfold setenv
    split
    · rename_i heq
      cases heq
      split
      · exact absurd ‹_› h
      · rfl
    · rfl
  · simp only [call]
    unfold vset
    split
    · rename_i heq
      cases heq
      split
      · exact absurd ‹_› h
      · rfl
    · rfl

theorem seen_sys {st : St} {n v : Str} (hn : n ∉ st.env.exported) (ht : n ≠ Env.TERM) (hs : st.env.sys.get n = some v) :
    seen st n = some v := by
  unfold seen
  rw [Env.C34_builtins_partial]
  simp [Env.Wanted, hn, ht, hs]

/-- **C199.** Every other variable is set for programs to exactly the value that is given. -/
theorem C199_set_partial (valid : Str → Bool) (st : St) (k v : Str) (rest : List Arg) (hk : ¬ Loads k) (hp : k ≠ c!"PATH")
    (ht : k ≠ c!"TERM") (he : k ∉ st.env.exported) :
    (call valid st .setenv (.str k :: .str v :: rest)).1 = .nil ∧
    seen (call valid st .setenv (.str k :: .str v :: rest)).2 k = some v := by
  have h : checkEnv k st.level = .allowed := checkEnv_allowed.2 (.inr hk)
  have hc : call valid st .setenv (.str k :: .str v :: rest) =
      (.nil, { st with env := Env.setSys st.env k v }) := by
    simp only [call, setenv, Arg.shown]
    rw [h]
    exact if_neg hp
  rw [hc]
  obtain ⟨h1, h2⟩ := Env.setSys_parts st.env k v
  refine ⟨rfl, seen_sys ?_ ht ?_⟩
  · show k ∉ (Env.setSys st.env k v).exported
    unfold Env.setSys; dsimp only; split <;> exact he
  · show (Env.setSys st.env k v).sys.get k = some v
    have : (Env.setSys st.env k v).sys = st.env.sys.insert k v := by
      unfold Env.setSys; dsimp only; split <;> rfl
    rw [this, Env.Map.get_insert, if_pos rfl]

/-- **C199 is violated.** The code that is held back can lower the level itself, without anybody being
asked, and then set any variable. -/
theorem C199_level_violated (valid : Str → Bool) (st : St) (n v : Str) (hp : n ≠ c!"PATH") (ht : n ≠ c!"TERM")
    (he : n ∉ st.env.exported) :
    seen (calls valid st [(.safetyLevel, [.str c!"loose"]), (.setenv, [.str n, .str v])]) n = some v := by
  have h1 : (call valid st .safetyLevel [.str c!"loose"]).2 =
      { st with level := .loose, env := Env.setVar st.env c!"SAFETY_LEVEL" c!"loose" } := rfl
  simp only [calls, List.foldl_cons, List.foldl_nil, h1]
  have hc : call valid { st with level := .loose, env := Env.setVar st.env c!"SAFETY_LEVEL" c!"loose" } .setenv [.str n, .str v] =
      (.nil, { st with level := .loose, env := Env.setSys (Env.setVar st.env c!"SAFETY_LEVEL" c!"loose") n v }) := by
    simp only [call, setenv, Arg.shown]
    rw [checkEnv_allowed.2 (.inl rfl)]
    exact if_neg hp
  rw [hc]
  refine seen_sys ?_ ht ?_
  · show n ∉ (Env.setSys (Env.setVar st.env _ _) n v).exported
    unfold Env.setSys; dsimp only; split <;> exact he
  · have : ∀ e : Env.State, (Env.setSys e n v).sys = e.sys.insert n v := by
      intro e; unfold Env.setSys; dsimp only; split <;> rfl
    show (Env.setSys _ n v).sys.get n = some v
    rw [this, Env.Map.get_insert, if_pos rfl]

/-- **C199 is violated.** The builtin `export` sets any variable for programs, and the guard at the level
`normal` does not ask, whether the line is typed or run with `(sh "export …")`. -/
theorem C199_export_violated (st : St) (n v : Str) (hn : '=' ∉ n) (ht : n ≠ c!"TERM")
    (hw : ∀ c ∈ n ++ '=' :: v, rustWhitespace c = false) :
    Safety.checkJobs .normal st.allow [c!"export " ++ (n ++ '=' :: v)] = .allowed ∧
    seen { st with env := Env.step st.env (.exp (n ++ '=' :: v)) } n = some v := by
  constructor
  · have hne : n ++ '=' :: v ≠ [] := by simp
    have hword : ∀ s : Str, s ≠ [] → (∀ c ∈ s, rustWhitespace c = false) → Safety.splitWs s = [s] := by
      intro s
      induction s with
      | nil => exact fun h => absurd rfl h
      | cons a s ih =>
        intro _ h
        have ha : rustWhitespace a = false := h a (by simp)
        cases s with
        | nil => simp [Safety.splitWs, ha]
        | cons b s =>
          have hb : rustWhitespace b = false := h b (by simp)
          have := ih (by simp) (fun c hc => h c (List.mem_cons_of_mem _ hc))
          rw [Safety.splitWs]
          simp only [ha, hb, if_neg Bool.false_ne_true, this]
    have hs : Safety.splitWs (c!"export " ++ (n ++ '=' :: v)) = [c!"export", n ++ '=' :: v] := by
      obtain ⟨a, s, hcons⟩ : ∃ a s, n ++ '=' :: v = a :: s := by
        cases n with
        | nil => exact ⟨_, _, rfl⟩
        | cons a n => exact ⟨_, _, rfl⟩
      have h2 := hword _ hne hw
      rw [hcons] at h2 ⊢
      simp only [List.cons_append, List.nil_append]
      have e : ∀ c ∈ c!"export", rustWhitespace c = false := by decide
      simp only [Safety.splitWs.eq_def ('e' :: _), Safety.splitWs.eq_def ('x' :: _), Safety.splitWs.eq_def ('p' :: _),
        Safety.splitWs.eq_def ('o' :: _), Safety.splitWs.eq_def ('r' :: _), Safety.splitWs.eq_def ('t' :: _),
        Safety.splitWs.eq_def (' ' :: _), h2]
      simp [show rustWhitespace 'e' = false from by decide, show rustWhitespace 'x' = false from by decide,
        show rustWhitespace 'p' = false from by decide, show rustWhitespace 'o' = false from by decide,
        show rustWhitespace 'r' = false from by decide, show rustWhitespace 't' = false from by decide,
        show rustWhitespace ' ' = true from by decide]
    have ho : ∀ args, Safety.objects (Safety.commandName c!"export") args = false := by
      intro args
      have : Safety.commandName c!"export" = c!"export" := by decide
      rw [this]
      simp [Safety.objects, Safety.alwaysWarn, Safety.checker]
    simp only [Safety.checkJobs, Safety.anyObjects, Safety.jobObjects]
    rw [hs]
    simp [ho]
  · unfold seen
    rw [Env.C34_builtins_partial]
    have : Env.step st.env (.exp (n ++ '=' :: v)) = Env.setAndExport st.env n v := by
      simp only [Env.step, Env.exportArg, Env.splitOnce_of v hn]
    rw [this]
    have ht' : n ≠ Env.TERM := ht
    have hm : n ∈ Env.insertSet st.env.exported n := Env.mem_insertSet.2 (.inl rfl)
    have hg : (st.env.vars.insert n v).get n = some v := by rw [Env.Map.get_insert, if_pos rfl]
    simp [Env.Wanted, Env.setAndExport, hm, hg, ht']

/-- **C199 is violated.** `LD_AUDIT`, which makes programs load a library just as `LD_PRELOAD` does
(ld.so(8)), is not among the names of the guard. -/
theorem C199_audit_violated (valid : Str → Bool) (st : St) (v : Str) (he : c!"LD_AUDIT" ∉ st.env.exported) :
    seen (call valid st .setenv [.str c!"LD_AUDIT", .str v]).2 c!"LD_AUDIT" = some v :=
  (C199_set_partial valid st _ v [] (by unfold Loads; decide) (by decide) (by decide) he).2

/-! ## C200: programs run by `command` -/

/-- Arguments that are all texts. -/
theorem texts_strs (l : List Str) : texts (l.map .str) = l := by
  induction l with
  | nil => rfl
  | cons s l ih =>
    simp only [texts, List.map_cons, List.filterMap_cons] at ih ⊢
    rw [ih]

/-- **C200, what holds.** With texts as arguments the program that is run is exactly the one asked for, with
exactly those arguments, when the guard allows exactly that command; otherwise the call fails and nothing
is run. -/
theorem C200_run_partial (exec : Exec) (own : Str → Option Str) (st : St) (cmd : Str) (args : List Str) :
    (Safety.checkCommand st.level cmd args st.allow = .allowed →
      (command exec own st ((cmd :: args).map .str)).2 = some (cmd, args, own)) ∧
    (Safety.checkCommand st.level cmd args st.allow ≠ .allowed →
      command exec own st ((cmd :: args).map .str) = (.err, none)) := by
  simp only [command, texts_strs]
  constructor
  · intro h; rw [h]
  · intro h
    split
    · exact absurd ‹_› h
    · rfl

/-- A text that does not end in white space. -/
def Ends (s : Str) : Prop := ∀ c, s.getLast? = some c → rustWhitespace c = false

theorem trimEnd_split (s : Str) : ∃ w, s = trimEnd s ++ w ∧ (∀ c ∈ w, rustWhitespace c = true) ∧ Ends (trimEnd s) := by
  refine ⟨(s.reverse.takeWhile rustWhitespace).reverse, ?_, ?_, ?_⟩
  · rw [trimEnd, ← List.reverse_append, List.takeWhile_append_dropWhile, List.reverse_reverse]
  · intro c hc
    have : ∀ (l : Str), ∀ c ∈ l.takeWhile rustWhitespace, rustWhitespace c = true := by
      intro l
      induction l with
      | nil => simp
      | cons a l ih =>
        intro c hc
        rw [List.takeWhile_cons] at hc
        split at hc
        · rcases List.mem_cons.1 hc with rfl | hc
          · assumption
          · exact ih c hc
        · simp at hc
    exact this _ c (List.mem_reverse.1 hc)
  · intro c hc
    rw [trimEnd, List.getLast?_reverse] at hc
    have : ∀ (l : Str), ∀ c, (l.dropWhile rustWhitespace).head? = some c → rustWhitespace c = false := by
      intro l
      induction l with
      | nil => simp
      | cons a l ih =>
        intro c hc
        rw [List.dropWhile_cons] at hc
        split at hc
        · exact ih c hc
        · simp only [List.head?_cons, Option.some.injEq] at hc
          subst hc
          rename_i hna
          simpa using hna
    exact this _ c hc

/-- **C200.** The answer is the output of the program without the white space at its end. -/
theorem C200_answer_partial (exec : Exec) (own : Str → Option Str) (st : St) (cmd : Str) (args : List Str)
    (h : Safety.checkCommand st.level cmd args st.allow = .allowed) {out err : Str} {code : Nat}
    (hx : exec own cmd args = some (out, err, code)) (ho : ∃ c ∈ out, rustWhitespace c = false) :
    ∃ s w, (command exec own st ((cmd :: args).map .str)).1 = .str s ∧ out = s ++ w ∧
      (∀ c ∈ w, rustWhitespace c = true) ∧ Ends s := by
  obtain ⟨w, hw, hb, he⟩ := trimEnd_split out
  refine ⟨trimEnd out, w, ?_, hw, hb, he⟩
  have hne : trimEnd out ≠ [] := by
    intro h0
    obtain ⟨c, hc, hc'⟩ := ho
    rw [hw, h0] at hc
    exact absurd (hb c (by simpa using hc)) (by simp [hc'])
  simp only [command, texts_strs, h, hx, answer, ne_eq, hne, not_false_eq_true, if_true]

/-- **C200 is violated.** An argument that is not a text, such as a number, is left out without a word;
what is checked and run is the command without it. -/
theorem C200_dropped_violated (exec : Exec) (own : Str → Option Str) (st : St) (xs ys : List Arg) (a : Arg)
    (ha : ∀ s, a ≠ .str s) : command exec own st (xs ++ a :: ys) = command exec own st (xs ++ ys) := by
  have : texts (xs ++ a :: ys) = texts (xs ++ ys) := by
    cases a with
    | str s => exact absurd rfl (ha s)
    | nil => simp [texts]
    | no => simp [texts]
    | other s => simp [texts]
  simp only [command, this]

/-- **C200 is violated.** A program run by `command` is given the environment the shell was started with:
it does not see the variables set before with `setenv`, exported or taken from a `.env` file, and the search
path it is looked up in is not the one of the shell. -/
theorem C200_environment_violated (exec : Exec) (own : Str → Option Str) (st : St) (env : Env.State) (args : List Arg) :
    command exec own { st with env := env } args = command exec own st args := rfl

/-- **C200 is violated.** Whether the program failed is not told. -/
theorem C200_status_violated (exec exec' : Exec) (own : Str → Option Str) (st : St) (args : List Arg) {cmd : Str} {rest : List Str}
    (ha : args = (cmd :: rest).map .str) {out err : Str} {c c' : Nat} (h : exec own cmd rest = some (out, err, c))
    (h' : exec' own cmd rest = some (out, err, c')) : command exec own st args = command exec' own st args := by
  subst ha
  simp only [command, texts_strs, h, h', answer]

/-- **C200 is violated.** The error messages of a program without output are answered as its output. -/
theorem C200_stderr_violated (exec exec' : Exec) (own : Str → Option Str) (st : St) {cmd : Str} {rest : List Str}
    {msg : Str} {c c' : Nat} (h : exec own cmd rest = some ([], msg, c)) (h' : exec' own cmd rest = some (msg, [], c')) :
    command exec own st ((cmd :: rest).map .str) = command exec' own st ((cmd :: rest).map .str) := by
  have : trimEnd ([] : Str) = [] := rfl
  simp only [command, texts_strs, h, h', answer, this]
  by_cases hm : trimEnd msg = []
  · simp [hm]
  · simp [hm]

/-! ## C201: session secrets -/

/-- The value a key is expected to have behind a sequence of calls: the last one set, none since a
`secret-clear`. -/
def wanted (key : Str) (cur : Option Str) : Fn × List Arg → Option Str
  | (.secretSet, k :: v :: _) => if k.shown = key then some v.shown else cur
  | (.secretClear, _) => none
  | _ => cur

theorem call_secret (valid : Str → Bool) (st : St) (c : Fn × List Arg) (key : Str) :
    (call valid st c.1 c.2).2.secrets.get key = wanted key (st.secrets.get key) c := by
  obtain ⟨f, args⟩ := c
  cases f
  case secretSet =>
    rcases args with _ | ⟨k, _ | ⟨v, rest⟩⟩
    · rfl
    · rfl
    · simp only [call, secretSet, wanted]
      rw [Env.Map.get_insert]
      by_cases h : k.shown = key
      · rw [if_pos h, if_pos h.symm]
      · rw [if_neg h, if_neg (fun hh => h hh.symm)]
  case secretClear => rfl
  case listPatterns => rfl
  case addPath => rfl
  all_goals
    simp only [call, setenv, vset, setAlias, setAbbr, safetyLevel, prefPair, prefNotify, prefExplain, historyMode,
      addPattern, addKeyword, secretGet, wanted]
    first
      | rfl
      | (split <;> first
          | rfl
          | (split <;> first
              | rfl
              | (split <;> rfl)))

/-- **C201, what holds.** `(secret-get key)` answers the last value set for exactly that key, nothing
behind `(secret-clear)`, whatever else is called in between. -/
theorem C201_get_partial (valid : Str → Bool) (l : List (Fn × List Arg)) (st : St) (key : Str) (rest : List Arg) :
    (call valid (calls valid st l) .secretGet (.str key :: rest)).1 =
      asRes (l.foldl (wanted key) (st.secrets.get key)) := by
  have : ∀ st : St, (calls valid st l).secrets.get key = l.foldl (wanted key) (st.secrets.get key) := by
    induction l with
    | nil => exact fun _ => rfl
    | cons c l ih =>
      intro st
      simp only [calls, List.foldl_cons] at ih ⊢
      rw [ih, call_secret]
  simp only [call, secretGet, Arg.shown, this]

theorem call_patterns (valid : Str → Bool) (st : St) (c : Fn × List Arg) {p : Str} (h : p ∈ st.patterns) :
    p ∈ (call valid st c.1 c.2).2.patterns := by
  obtain ⟨f, args⟩ := c
  cases f
  case addPattern =>
    rcases args with _ | ⟨a, rest⟩
    · exact h
    · simp only [call, addPattern]
      split
      · exact List.mem_append_left _ h
      · exact h
  case addPath => exact h
  case listPatterns => exact h
  case secretClear => exact h
  all_goals
    simp only [call, setenv, vset, setAlias, setAbbr, safetyLevel, prefPair, prefNotify, prefExplain, historyMode,
      addKeyword, secretSet, secretGet]
    first
      | exact h
      | (split <;> first
          | exact h
          | (split <;> first
              | exact h
              | (split <;> exact h)))

theorem calls_patterns (valid : Str → Bool) (l : List (Fn × List Arg)) (st : St) {p : Str} (h : p ∈ st.patterns) :
    p ∈ (calls valid st l).patterns := by
  induction l generalizing st with
  | nil => exact h
  | cons c l ih => exact ih _ (call_patterns valid st c h)

/-- **C201.** A pattern that was added is listed from then on, and a line it matches is not stored while the
mode is `skip`, whatever is called in between. -/
theorem C201_pattern_partial (valid : Str → Bool) (U : Secrets.Uni) (matcher : Str → Str → Bool) (st : St) (p : Str)
    (hv : valid p = true) (l : List (Fn × List Arg)) {line : Str} (hm : matcher p line = true) :
    let st' := calls valid (call valid st .addPattern [.str p]).2 l
    (∃ ps, (call valid st' .listPatterns []).1 = .list ps ∧ p ∈ ps) ∧
    (st'.mode = .skip → Secrets.forHistory (manager U matcher st') line = none) := by
  have hp : p ∈ (calls valid (call valid st .addPattern [.str p]).2 l).patterns := by
    refine calls_patterns valid l _ ?_
    simp [call, addPattern, Arg.shown, hv]
  refine ⟨⟨_, rfl, hp⟩, fun hs => ?_⟩
  have hany : (List.map matcher (calls valid (call valid st .addPattern [.str p]).2 l).patterns).any (fun q => q line) = true :=
    List.any_eq_true.2 ⟨_, List.mem_map_of_mem hp, hm⟩
  unfold Secrets.forHistory
  rw [show (manager U matcher (calls valid (call valid st .addPattern [.str p]).2 l)).mode = .skip from hs]
  simp [Secrets.sensitiveCmd, manager, hany]

/-! ### The history -/

/-- A pattern that needs a character does not match a text without it. -/
theorem hits_none {m : Secrets.Matcher} {P : Str → Prop} (hm : ∀ prev s, P s → m prev s = none)
    (ht : ∀ c s, P (c :: s) → P s) : ∀ n prev s, P s → Secrets.hitsGo m n prev s = [] := by
  intro n
  induction n with
  | zero => intros; rfl
  | succ n ih =>
    intro prev s hs
    cases s with
    | nil => rfl
    | cons c s =>
      simp only [Secrets.hitsGo, hm prev _ hs]
      exact ih _ _ (ht c s hs)

theorem assign_none (U : Secrets.Uni) {s : Str} (h : '=' ∉ s) : Secrets.hits (Secrets.assignAt U) s = [] := by
  refine hits_none (P := fun s => '=' ∉ s) ?_ (fun c s h hc => h (List.mem_cons_of_mem _ hc)) _ _ _ h
  intro prev s hs
  cases s with
  | nil => rfl
  | cons c s =>
    simp only [Secrets.assignAt]
    split
    · unfold Secrets.assignTail
      split
      · rename_i v hv
        have : '=' ∈ s.dropWhile Secrets.nameChar := by rw [hv]; simp
        exact absurd (List.mem_cons_of_mem _ ((List.dropWhile_suffix _).mem this)) hs
      · rfl
    · rfl

theorem query_none {s : Str} (h : '?' ∉ s) (h' : '&' ∉ s) : Secrets.isMatch Secrets.queryAt s = false := by
  have := hits_none (m := Secrets.queryAt) (P := fun s => '?' ∉ s ∧ '&' ∉ s) (by
    intro prev s hs
    cases s with
    | nil => rfl
    | cons c s =>
      have h1 : c ≠ '?' := by rintro rfl; simp at hs
      have h2 : c ≠ '&' := by rintro rfl; simp at hs
      simp [Secrets.queryAt, h1, h2])
    (fun c s h => ⟨fun hc => h.1 (List.mem_cons_of_mem _ hc), fun hc => h.2 (List.mem_cons_of_mem _ hc)⟩)
    s.length none s ⟨h, h'⟩
  simp [Secrets.isMatch, Secrets.hits, this]

theorem lit_suffix {w s a b : Str} (h : Secrets.lit w s = some (a, b)) : ∃ p, s = p ++ b := by
  induction w generalizing s a b with
  | nil => simp only [Secrets.lit, Option.some.injEq, Prod.mk.injEq] at h; exact ⟨[], by simp [h.2]⟩
  | cons x w ih =>
    cases s with
    | nil => simp [Secrets.lit] at h
    | cons c s =>
      simp only [Secrets.lit] at h
      split at h
      · cases hl : Secrets.lit w s with
        | none => rw [hl] at h; simp at h
        | some r =>
          obtain ⟨r1, r2⟩ := r
          rw [hl] at h
          simp only [Option.map_some, Option.some.injEq, Prod.mk.injEq] at h
          obtain ⟨p, hp⟩ := ih hl
          exact ⟨c :: p, by rw [hp, ← h.2]; rfl⟩
      · simp at h

theorem fold_colon {c : Char} (h : Secrets.fold c = ':') : c = ':' := by
  unfold Secrets.fold at h
  split at h
  · exact absurd h (by decide)
  · split at h
    · exact absurd h (by decide)
    · unfold Char.toLower at h
      split at h
      · rename_i hc
        exfalso
        have hv := congrArg (fun c : Char => c.val) h
        simp only at hv
        obtain ⟨h1, h2⟩ := hc
        have e : (':' : Char).val = 58 := rfl
        rw [e] at hv
        have : (c.val + ('a'.val - 'A'.val)).toNat = 58 := by
          have := congrArg UInt32.toNat hv
          simpa using this
        have e2 : ('a'.val - 'A'.val : UInt32) = 32 := by decide
        rw [e2] at this
        have h3 : c.toNat ≥ 65 := by
          have := UInt32.le_iff_toNat_le.1 h1
          simpa using this
        have h4 : c.toNat ≤ 90 := by
          have := UInt32.le_iff_toNat_le.1 h2
          simpa using this
        rw [UInt32.toNat_add] at this
        simp at this
        omega
      · exact h

theorem bearer_none {s : Str} (h : ':' ∉ s) : Secrets.isMatch Secrets.bearerAt s = false := by
  have := hits_none (m := Secrets.bearerAt) (P := fun s => ':' ∉ s) (by
    intro prev s hs
    simp only [Secrets.bearerAt, Secrets.bearerHead]
    cases h1 : Secrets.lit c!"authorization" s with
    | none => rfl
    | some a =>
      obtain ⟨a1, a2⟩ := a
      obtain ⟨p, hp⟩ := lit_suffix h1
      have h2 : ':' ∉ (Secrets.skipWs a2).2 := by
        intro hc
        have : ':' ∈ a2 := (List.dropWhile_suffix _).mem hc
        exact hs (by rw [hp]; simp [this])
      have h3 : Secrets.lit c!":" (Secrets.skipWs a2).2 = none := by
        cases hx : (Secrets.skipWs a2).2 with
        | nil => rfl
        | cons c t =>
          rw [hx] at h2
          simp only [Secrets.lit]
          rw [if_neg]
          intro hf
          exact h2 (by rw [fold_colon hf]; simp)
      simp only [Option.bind_some, h3, Option.bind_none])
    (fun c s h hc => h (List.mem_cons_of_mem _ hc)) s.length none s h
  simp [Secrets.isMatch, Secrets.hits, this]

theorem fold_dash {c : Char} (h : Secrets.fold c = '-') : c = '-' := by
  unfold Secrets.fold at h
  split at h
  · exact absurd h (by decide)
  · split at h
    · exact absurd h (by decide)
    · unfold Char.toLower at h
      split at h
      · rename_i hc
        exfalso
        have hv := congrArg (fun c : Char => c.val) h
        simp only at hv
        obtain ⟨h1, h2⟩ := hc
        have e : ('-' : Char).val = 45 := rfl
        rw [e] at hv
        have : (c.val + ('a'.val - 'A'.val)).toNat = 45 := by
          have := congrArg UInt32.toNat hv
          simpa using this
        have e2 : ('a'.val - 'A'.val : UInt32) = 32 := by decide
        rw [e2] at this
        have h3 : c.toNat ≥ 65 := by
          have := UInt32.le_iff_toNat_le.1 h1
          simpa using this
        have h4 : c.toNat ≤ 90 := by
          have := UInt32.le_iff_toNat_le.1 h2
          simpa using this
        rw [UInt32.toNat_add] at this
        simp at this
        omega
      · exact h

/-- No option without a dash at the position. -/
theorem option_dash {prev : Option Char} {c : Char} {s : Str} (h : c ≠ '-') : Secrets.optionAt prev (c :: s) = none := by
  have hf : Secrets.fold c ≠ '-' := fun hf => h (fold_dash hf)
  simp [Secrets.optionAt, Secrets.optLong, Secrets.optShort, Secrets.lit, hf, Secrets.withValue]

theorem option_none : ∀ n prev (s : Str), '-' ∉ s → Secrets.hitsGo Secrets.optionAt n prev s = [] := by
  refine hits_none ?_ (fun c s h hc => h (List.mem_cons_of_mem _ hc))
  intro prev s hs
  cases s with
  | nil => rfl
  | cons c s => exact option_dash (by rintro rfl; simp at hs)

/-- The line that sets a session secret. -/
def setLine (key value : Str) : Str := c!"(secret-set \"" ++ key ++ c!"\" \"" ++ value ++ c!"\")"

/-- Characters none of the fixed patterns looks for. -/
def Quiet (s : Str) : Prop := '=' ∉ s ∧ '?' ∉ s ∧ '&' ∉ s ∧ ':' ∉ s ∧ '-' ∉ s

theorem not_sensitive (U : Secrets.Uni) (mode : Mode) {key value : Str} (hk : Quiet key) (hv : Quiet value) :
    Secrets.sensitiveCmd ⟨U, [], mode, []⟩ (setLine key value) = false := by
  obtain ⟨k1, k2, k3, k4, k5⟩ := hk
  obtain ⟨v1, v2, v3, v4, v5⟩ := hv
  have e : '=' ∉ setLine key value := by simp [setLine, k1, v1]
  have q : '?' ∉ setLine key value := by simp [setLine, k2, v2]
  have a : '&' ∉ setLine key value := by simp [setLine, k3, v3]
  have c : ':' ∉ setLine key value := by simp [setLine, k4, v4]
  have o : Secrets.isMatch Secrets.optionAt (setLine key value) = false := by
    have hd : '-' ∉ c!"set \"" ++ key ++ c!"\" \"" ++ value ++ c!"\")" := by simp [k5, v5]
    have hat : ∀ prev, Secrets.optionAt prev ('-' :: (c!"set \"" ++ key ++ c!"\" \"" ++ value ++ c!"\")")) = none := by
      intro prev
      simp [Secrets.optionAt, Secrets.optLong, Secrets.optShort, Secrets.lit, Secrets.withValue, Secrets.lits,
        Secrets.optNames, Secrets.fold, Char.toLower]
    have hgo : ∀ n prev, Secrets.hitsGo Secrets.optionAt n prev (setLine key value) = [] := by
      have step : ∀ (p : Str), '-' ∉ p → ∀ n prev t, (∀ n prev, Secrets.hitsGo Secrets.optionAt n prev t = []) →
          Secrets.hitsGo Secrets.optionAt n prev (p ++ t) = [] := by
        intro p
        induction p with
        | nil => intro _ n prev t h; exact h n prev
        | cons c p ih =>
          intro hp n prev t h
          cases n with
          | zero => rfl
          | succ n =>
            simp only [List.cons_append, Secrets.hitsGo, option_dash (s := p ++ t) (prev := prev) (c := c) (by rintro rfl; simp at hp)]
            exact ih (fun hc => hp (List.mem_cons_of_mem _ hc)) _ _ _ h
      intro n prev
      have hs : setLine key value = c!"(secret" ++ '-' :: (c!"set \"" ++ key ++ c!"\" \"" ++ value ++ c!"\")") := by
        simp [setLine]
      rw [hs]
      refine step _ (by decide) _ _ _ ?_
      intro n prev
      cases n with
      | zero => rfl
      | succ n =>
        simp only [Secrets.hitsGo, hat]
        exact option_none _ _ _ hd
    simp [Secrets.isMatch, Secrets.hits, hgo]
  simp [Secrets.sensitiveCmd, assign_none U e, query_none q a, bearer_none c, o]

/-- **C201 is violated.** The line that sets a session secret is itself stored in the history, with the
secret, also with the mode `skip` that is set at the start and with `redact`. -/
theorem C201_line_violated (U : Secrets.Uni) (matcher : Str → Str → Bool) (st : St) (hp : st.patterns = []) (hx : st.extra = [])
    {key value : Str} (hk : Quiet key) (hv : Quiet value) :
    Secrets.forHistory (manager U matcher st) (setLine key value) = some (setLine key value) := by
  have hm : manager U matcher st = ⟨U, [], st.mode, []⟩ := by simp [manager, hp, hx]
  rw [hm]
  unfold Secrets.forHistory
  cases st.mode <;> simp [not_sensitive U _ hk hv]

/-- **C201 is violated.** What is stored of a line does not depend on the session secrets: a line that
contains the value of one is stored as it is, unless it looks like a secret anyway. -/
theorem C201_value_violated (valid : Str → Bool) (U : Secrets.Uni) (matcher : Str → Str → Bool) (st : St) (key value : Arg)
    (line : Str) : Secrets.forHistory (manager U matcher (call valid st .secretSet [key, value]).2) line =
      Secrets.forHistory (manager U matcher st) line := rfl

/-! ## C202: settings are as they were set -/

/-- The text of a level is read as that level. -/
theorem parse_showLevel (l : Level) : parseLevel (showLevel l) = some l := by cases l <;> decide

theorem parse_showMode (m : Mode) : parseMode (showMode m) = some m := by cases m <;> decide

/-- The level meant behind a sequence of calls. -/
def levelOf (cur : Level) : Fn × List Arg → Level
  | (.safetyLevel, a :: _) => (parseLevel a.shown).getD cur
  | _ => cur

def modeOf (cur : Mode) : Fn × List Arg → Mode
  | (.historyMode, a :: _) => (parseMode a.shown).getD cur
  | _ => cur

/-- A switch: `f` is its function. -/
def switchOf (f : Fn) (cur : Bool) (c : Fn × List Arg) : Bool :=
  match c.2 with
  | a :: _ => if c.1 = f then a.truth else cur
  | [] => cur

theorem call_parts (valid : Str → Bool) (st : St) (c : Fn × List Arg) :
    (call valid st c.1 c.2).2.level = levelOf st.level c ∧ (call valid st c.1 c.2).2.mode = modeOf st.mode c ∧
    (call valid st c.1 c.2).2.autoPair = switchOf .prefPair st.autoPair c ∧
    (call valid st c.1 c.2).2.autoNotify = switchOf .prefNotify st.autoNotify c ∧
    (call valid st c.1 c.2).2.aiExplanation = switchOf .prefExplain st.aiExplanation c := by
  obtain ⟨f, args⟩ := c
  rcases args with _ | ⟨a, rest⟩
  · cases f <;> exact ⟨rfl, rfl, rfl, rfl, rfl⟩
  · cases f
    case safetyLevel =>
      simp only [call, safetyLevel, levelOf, modeOf, switchOf]
      cases parseLevel a.shown <;> simp
    case historyMode =>
      simp only [call, historyMode, levelOf, modeOf, switchOf]
      cases parseMode a.shown <;> simp
    case addPattern =>
      simp only [call, addPattern, levelOf, modeOf, switchOf]
      split <;> simp
    case setenv =>
      simp only [call, setenv, levelOf, modeOf, switchOf]
      split
      · split
        · split <;> simp
        · simp
      · simp
    case vset =>
      simp only [call, vset, levelOf, modeOf, switchOf]
      split
      · split <;> simp
      · simp
    all_goals
      simp only [call, setAlias, setAbbr, addPath, prefPair, prefNotify, prefExplain, addKeyword,
        listPatterns, secretSet, secretGet, secretClear, levelOf, modeOf, switchOf]
      first
        | exact ⟨rfl, rfl, rfl, rfl, rfl⟩
        | (split <;> exact ⟨rfl, rfl, rfl, rfl, rfl⟩)
        | (refine ⟨?_, ?_, ?_, ?_, ?_⟩ <;> (first | rfl | simp))

/-- **C202, what holds.** Called without argument, `safety-level`, `secret-history-mode` and the three
`pref-…` functions answer what was set last, by a call that did not fail, and the level is the one the guard
works with. -/
theorem C202_read_partial (valid : Str → Bool) (l : List (Fn × List Arg)) (st : St) :
    (call valid (calls valid st l) .safetyLevel []).1 = .str (showLevel (l.foldl levelOf st.level)) ∧
    (calls valid st l).level = l.foldl levelOf st.level ∧
    (call valid (calls valid st l) .historyMode []).1 = .str (showMode (l.foldl modeOf st.mode)) ∧
    (call valid (calls valid st l) .prefPair []).1 = .bool (l.foldl (switchOf .prefPair) st.autoPair) ∧
    (call valid (calls valid st l) .prefNotify []).1 = .bool (l.foldl (switchOf .prefNotify) st.autoNotify) ∧
    (call valid (calls valid st l) .prefExplain []).1 = .bool (l.foldl (switchOf .prefExplain) st.aiExplanation) := by
  have : ∀ st : St, (calls valid st l).level = l.foldl levelOf st.level ∧ (calls valid st l).mode = l.foldl modeOf st.mode ∧
      (calls valid st l).autoPair = l.foldl (switchOf .prefPair) st.autoPair ∧
      (calls valid st l).autoNotify = l.foldl (switchOf .prefNotify) st.autoNotify ∧
      (calls valid st l).aiExplanation = l.foldl (switchOf .prefExplain) st.aiExplanation := by
    induction l with
    | nil => exact fun _ => ⟨rfl, rfl, rfl, rfl, rfl⟩
    | cons c l ih =>
      intro st
      obtain ⟨a1, a2, a3, a4, a5⟩ := call_parts valid st c
      simp only [calls, List.foldl_cons] at ih ⊢
      obtain ⟨b1, b2, b3, b4, b5⟩ := ih (call valid st c.1 c.2).2
      rw [a1] at b1; rw [a2] at b2; rw [a3] at b3; rw [a4] at b4; rw [a5] at b5
      exact ⟨b1, b2, b3, b4, b5⟩
  obtain ⟨h1, h2, h3, h4, h5⟩ := this st
  simp only [call, safetyLevel, historyMode, prefPair, prefNotify, prefExplain, h1, h2, h3, h4, h5, and_self]

/-- **C202.** Behind `(setenv "PATH" …)` commands are looked for in exactly the directories given, in that
order, where an argument may name several separated by colons; no name found before is kept. -/
theorem C202_path_partial (valid : Str → Bool) (st : St) (val : Arg) (rest : List Arg) :
    let r := call valid st .setenv (.str c!"PATH" :: val :: rest)
    r.1 = .nil ∧ r.2.env.paths = (val :: rest).flatMap (fun a => Env.splitOn ':' a.shown) ∧ r.2.env.cache = [] := by
  have h : checkEnv c!"PATH" st.level = .allowed := checkEnv_allowed.2 (.inr (by unfold Loads; decide))
  have hc : call valid st .setenv (.str c!"PATH" :: val :: rest) =
      (.nil, { st with env := Env.setSys st.env c!"PATH" (pathValue (val :: rest)) }) := by
    simp only [call, setenv, Arg.shown]
    rw [h]
    simp
  simp only [hc]
  refine ⟨trivial, ?_, ?_⟩
  · have hs : (Env.setSys st.env c!"PATH" (pathValue (val :: rest))).paths = Env.splitOn ':' (pathValue (val :: rest)) := by
      unfold Env.setSys
      rw [if_pos (show c!"PATH" = Env.PATH from rfl)]
      simp only [Env.reloadPath]
      rw [Env.Map.get_insert, if_pos (show Env.PATH = c!"PATH" from rfl)]
    rw [hs]
    refine Note.splitOn_joinWith ':' _ ?_ ?_
    · obtain ⟨w, ws, hw⟩ := List.exists_cons_of_ne_nil (Env.splitOn_ne_nil ':' val.shown)
      rw [List.flatMap_cons, hw]
      simp
    · intro w hw
      obtain ⟨a, _, ha⟩ := List.mem_flatMap.1 hw
      exact Note.not_mem_splitOn _ _ w ha
  · unfold Env.setSys
    rw [if_pos (show c!"PATH" = Env.PATH from rfl)]
    rfl

/-- **C202.** A call that fails changes nothing. -/
theorem C202_failed_partial (valid : Str → Bool) (st : St) (f : Fn) (args : List Arg)
    (h : (call valid st f args).1 = .err) : (call valid st f args).2 = st := by
  revert h
  cases f
  case setenv =>
    simp only [call, setenv]
    split
    · split
      · split <;> simp
      · simp
    · simp
  all_goals
    simp only [call, vset, setAlias, setAbbr, addPath, safetyLevel, prefPair, prefNotify, prefExplain, historyMode,
      addPattern, addKeyword, listPatterns, secretSet, secretGet, secretClear]
    first
      | simp
      | (split <;> first
          | simp
          | (split <;> simp))

/-- **C202 is violated.** The variable that shows the level can be set by itself: it says `strict` while
the guard does not ask. -/
theorem C202_variable_violated (valid : Str → Bool) (st : St) (s : Str) :
    let st' := (call valid st .vset [.str c!"SAFETY_LEVEL", .str s]).2
    st'.env.vars.get c!"SAFETY_LEVEL" = some s ∧ st'.level = st.level := by
  have h : checkEnv c!"SAFETY_LEVEL" st.level = .allowed := checkEnv_allowed.2 (.inr (by unfold Loads; decide))
  have hc : call valid st .vset [.str c!"SAFETY_LEVEL", .str s] =
      (.nil, { st with env := Env.setVar st.env c!"SAFETY_LEVEL" s }) := by
    simp only [call, vset, Arg.shown]
    rw [h]
  simp only [hc, Env.setVar]
  refine ⟨?_, trivial⟩
  rw [Env.Map.get_insert, if_pos rfl]

/-- **C202 is violated.** Any text switches a preference on, also `"off"`; so does the number 0. -/
theorem C202_off_violated (valid : Str → Bool) (st : St) (s : Str) :
    (call valid (call valid st .prefPair [.str s]).2 .prefPair []).1 = .bool true ∧
    (call valid (call valid st .prefNotify [.str s]).2 .prefNotify []).1 = .bool true ∧
    (call valid (call valid st .prefExplain [.other c!"0"]).2 .prefExplain []).1 = .bool true :=
  ⟨rfl, rfl, rfl⟩

/-- **C202 is violated.** What stands behind the second argument of `alias`, `vset` and, but for `PATH`, of
`setenv` is ignored without a word: `(alias "ll" "ls" "-l")` makes `ll` mean `ls`. -/
theorem C202_ignored_violated (valid : Str → Bool) (st : St) (a b : Arg) (rest : List Arg) :
    call valid st .alias_ (a :: b :: rest) = call valid st .alias_ [a, b] ∧
    call valid st .vset (a :: b :: rest) = call valid st .vset [a, b] ∧
    (a.shown ≠ c!"PATH" → call valid st .setenv (a :: b :: rest) = call valid st .setenv [a, b]) := by
  refine ⟨rfl, rfl, fun h => ?_⟩
  simp only [call, setenv, h, if_false]

/-! ## Cases -/

/-- A state as at the start. -/
def st0 : St :=
  ⟨⟨[(c!"SAFETY_LEVEL", c!"normal")], [], [(c!"PATH", c!"/bin"), (c!"HOME", c!"/h")], [c!"/bin"], [], [],
    fun _ => none, fun _ => none, (0, 0, 0)⟩, [], [], .normal, [], true, true, true, [], .skip, [], []⟩

/-- `LD_PRELOAD` is refused, another variable is set, another sequence leaves it alone. -/
example : (call (fun _ => true) st0 .setenv [.str c!"LD_PRELOAD", .str c!"/x.so"]).1 = .err ∧
    seen (call (fun _ => true) st0 .setenv [.str c!"EDITOR", .str c!"vim"]).2 c!"EDITOR" = some c!"vim" ∧
    seen (calls (fun _ => true) st0 [(.setenv, [.str c!"EDITOR", .str c!"vim"]), (.vset, [.str c!"LD_PRELOAD", .str c!"/x.so"]),
      (.addPath, [.str c!"/y"])]) c!"LD_PRELOAD" = none := by decide +kernel

/-- `export LD_PRELOAD=/x.so`. -/
example : Safety.checkJobs .normal [] [c!"export LD_PRELOAD=/x.so"] = .allowed ∧
    seen { st0 with env := Env.step st0.env (.exp c!"LD_PRELOAD=/x.so") } c!"LD_PRELOAD" = some c!"/x.so" :=
  C199_export_violated st0 c!"LD_PRELOAD" c!"/x.so" (by decide) (by decide) (by decide)

/-- A program that prints a variable. -/
def printenv : Exec := fun env cmd args =>
  match cmd, args with
  | ['p'], [n] => some ((env n).getD [] ++ ['\n'], [], if (env n).isSome then 0 else 1)
  | _, _ => none

/-- Behind `(setenv "EDITOR" "vim")` it does not find the variable. -/
example : (command printenv (fun n => if n = c!"HOME" then some c!"/h" else none)
      (call (fun _ => true) st0 .setenv [.str c!"EDITOR", .str c!"vim"]).2 [.str c!"p", .str c!"EDITOR"]).1 = .str [] ∧
    (command printenv (fun n => if n = c!"HOME" then some c!"/h" else none) st0 [.str c!"p", .str c!"HOME"]).1 = .str c!"/h" ∧
    (command printenv (fun _ => none) st0 [.str c!"rm", .str c!"-rf", .str c!"/"]).1 = .err := by decide +kernel

/-- `(secret-set "DB" "a")`, `(secret-set "DB" "b")`, `(secret-get "DB")`. -/
example : (call (fun _ => true) (calls (fun _ => true) st0 [(.secretSet, [.str c!"DB", .str c!"a"]),
    (.secretSet, [.str c!"DB", .str c!"b"]), (.addKeyword, [.str c!"x"])]) .secretGet [.str c!"DB"]).1 = .str c!"b" := by
  decide +kernel

/-- The line that sets a secret is stored. -/
example (U : Secrets.Uni) (matcher : Str → Str → Bool) :
    Secrets.forHistory (manager U matcher st0) c!"(secret-set \"DB_PASS\" \"hunter2\")" =
      some c!"(secret-set \"DB_PASS\" \"hunter2\")" :=
  C201_line_violated U matcher st0 rfl rfl (key := c!"DB_PASS") (value := c!"hunter2")
    (by unfold Quiet; decide) (by unfold Quiet; decide)

/-- Levels and modes are read in any case; a wrong one is refused. -/
example : (call (fun _ => true) (calls (fun _ => true) st0 [(.safetyLevel, [.str c!"Strict"]), (.safetyLevel, [.str c!"off"]),
      (.historyMode, [.str c!"REDACT"]), (.prefPair, [.nil])]) .safetyLevel []).1 = .str c!"strict" ∧
    (call (fun _ => true) (calls (fun _ => true) st0 [(.prefPair, [.nil])]) .prefPair []).1 = .bool false := by decide +kernel

end Dsh.Settings
