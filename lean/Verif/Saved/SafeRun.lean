import Verif.Saved.Props
/-!
`safe-run` (dsh-builtin/src/safe_run.rs): a command is judged by the AI, and executed when the user
agrees.

Parameters: whether an AI client can be had, the text the AI answers (and what `serde_json` makes of it),
the user's answers, and what programs do. Simplified: the texts shown are left out but for the previews,
whose cutting can panic.
-/
namespace Dsh.Saved

/-- Fields of the object in the AI's answer (safe_run.rs:111-124): absent ones are `none`. -/
structure Judgement where
  risk : Option Str
  inspect : Option Bool
  deriving DecidableEq, Repr

/-- Text between code fences (safe_run.rs:88-107): `strip_prefix`, `strip_suffix`, each falling back to the
text as it was. -/
def stripFence (fence s : Str) : Str :=
  let a := s.drop fence.length
  if c!"```" <:+ a then trim (a.take (a.length - 3)) else trim s

/-- `clean_json` (safe_run.rs:88-107). -/
def cleanJson (s : Str) : Str :=
  let s := trim s
  if c!"```json" <+: s then stripFence c!"```json" s
  else if c!"```" <+: s then stripFence c!"```" s
  else s

/-- The questions asked. -/
inductive Question
  /-- inspect the output before execution? (safe_run.rs:157-160) -/
  | inspect
  /-- execute immediately without inspection? (safe_run.rs:167-170) -/
  | immediately
  /-- execute? (safe_run.rs:192-201) -/
  | execute
  /-- release the output? (safe_run.rs:394-406) -/
  | release
  deriving DecidableEq, Repr

/-- What happens, in order. -/
inductive Ev
  | ask (q : Question) (answer : Option Bool)
  /-- a program or a built-in is executed -/
  | run (d : Disp)
  /-- output given to the user -/
  | output (s : Str)
  deriving DecidableEq, Repr

/-- What an invocation finds around it. -/
structure Around where
  /-- an API key is configured and the client can be made (safe_run.rs:27-41) -/
  client : Bool
  /-- the AI's answer to a request; `none`: it failed -/
  judge : Option Str
  /-- `serde_json::from_str` with the fields read (safe_run.rs:111-124) -/
  json : Str → Option Judgement
  /-- the answers to `confirm_action`, in order; `none`, or no answer left: reading failed -/
  answers : List (Option Bool)
  /-- `capture_command` (proxy/mod.rs:366-387): status, stdout, stderr; `none`: `sh` could not be started -/
  captured : Str → Option (Nat × Str × Str)
  ok : Disp → Bool

/-- The events and the status; status `none`: a panic. -/
abbrev Run := List Ev × Option Nat

/-- The preview and its shorter form (safe_run.rs:291-300, 381-386): `false` if a cut falls within a
character. -/
def previewOk (out : Str) : Bool :=
  if 8000 < bytes out then
    (prefixBytes 8000 out).isSome && (prefixBytes 2000 out).isSome
  else if 2000 < bytes out then (prefixBytes 2000 out).isSome else true

/-- `inspect_and_run` (safe_run.rs:231-434), with the answers left. The line goes to `sh -c`. -/
def inspectAndRun (A : Around) (line : Str) (answers : List (Option Bool)) : Run :=
  let run : Ev := .run (.exec ⟨c!"sh", [c!"-c", line]⟩)
  match A.captured line with
  | none => ([], some 1)
  | some (code, out, _) =>
    if out.isEmpty then ([run], some code)
    else if !previewOk out then ([run], none)
    else
      let a := answers.head?.join
      match a with
      | some true => ([run, .ask .release a, .output out], some code)
      | _ => ([run, .ask .release a], some 1)

/-- The execution at the end (safe_run.rs:220-228): `argv[1]` with `argv[2..]`. -/
def approved (A : Around) (cmd : Str) (args : List Str) : Run :=
  let d := dispatch cmd args
  ([.run d], some (if A.ok d then 0 else 1))

/-- Put events before a run. -/
def Run.after (evs : List Ev) (r : Run) : Run := (evs ++ r.1, r.2)

/-- The judgement used (safe_run.rs:110-130): an answer that is no JSON recommends inspection. -/
def recommends (A : Around) (reply : Str) : Bool :=
  match A.json (cleanJson reply) with
  | some j => j.inspect.getD false
  | none => true

/-- `command` (safe_run.rs:16-229). -/
def safeRun (A : Around) (argv : List Str) : Run :=
  match argv with
  | [] | [_] => ([], some 1)
  | _ :: cmd :: args =>
    if !A.client then ([], some 1)
    else match A.judge with
      | none => ([], some 1)
      | some reply =>
        let a := A.answers.head?.join
        if recommends A reply then
          match a with
          | none => ([.ask .inspect a], some 1)
          | some true => Run.after [.ask .inspect a] (inspectAndRun A (joinWith c!" " (cmd :: args)) A.answers.tail)
          | some false =>
            let b := A.answers.tail.head?.join
            match b with
            | some true => Run.after [.ask .inspect a, .ask .immediately b] (approved A cmd args)
            | _ => ([.ask .inspect a, .ask .immediately b], some 1)
        else
          match a with
          | some true => Run.after [.ask .execute a] (approved A cmd args)
          | _ => ([.ask .execute a], some 1)

/-! ### Properties -/

theorem safeRun_cons (A : Around) (b cmd : Str) (args : List Str) : safeRun A (b :: cmd :: args) =
    if !A.client then ([], some 1)
    else match A.judge with
      | none => ([], some 1)
      | some reply =>
        if recommends A reply then
          match A.answers.head?.join with
          | none => ([.ask .inspect none], some 1)
          | some true => Run.after [.ask .inspect (some true)] (inspectAndRun A (joinWith c!" " (cmd :: args)) A.answers.tail)
          | some false =>
            match A.answers.tail.head?.join with
            | some true => Run.after [.ask .inspect (some false), .ask .immediately (some true)] (approved A cmd args)
            | b => ([.ask .inspect (some false), .ask .immediately b], some 1)
        else
          match A.answers.head?.join with
          | some true => Run.after [.ask .execute (some true)] (approved A cmd args)
          | a => ([.ask .execute a], some 1) := by
  simp only [safeRun]
  split
  · rfl
  · split
    · rfl
    · split
      · split
        · next h => rw [h]
        · next h => rw [h]
        · next h =>
          rw [h]; split
          · next h => rw [h]
          · rfl
      · split
        · next h => rw [h]
        · rfl

/-- Questions by which the user agrees to the execution. -/
def agrees : Ev → Bool
  | .ask .execute (some true) => true
  | .ask .immediately (some true) => true
  | _ => false

def isRun : Ev → Bool
  | .run _ => true
  | _ => false

/-- A run in which nothing is executed before the user agreed. -/
def AgreedFirst (r : Run) : Prop := ∀ pre e post, r.1 = pre ++ e :: post → isRun e = true → ∃ q ∈ pre, agrees q = true

/-- **C122 is violated**: when the user asks to inspect before execution, the whole command is executed at
once, by `sh -c`, to have something to inspect; the question that follows only decides what becomes of its
output. -/
theorem C122_inspect_violated (A : Around) (b cmd : Str) (args : List Str) (reply : Str) (code : Nat) (out err : Str)
    (rest : List (Option Bool)) (hc : A.client = true) (hj : A.judge = some reply) (hr : recommends A reply = true)
    (ha : A.answers = some true :: rest) (ho : A.captured (joinWith c!" " (cmd :: args)) = some (code, out, err)) :
    (∃ post, (safeRun A (b :: cmd :: args)).1 =
      .ask .inspect (some true) :: .run (.exec ⟨c!"sh", [c!"-c", joinWith c!" " (cmd :: args)]⟩) :: post) ∧
    ¬ AgreedFirst (safeRun A (b :: cmd :: args)) := by
  have h1 : ∃ post, (safeRun A (b :: cmd :: args)).1 =
      .ask .inspect (some true) :: .run (.exec ⟨c!"sh", [c!"-c", joinWith c!" " (cmd :: args)]⟩) :: post := by
    simp only [safeRun, hc, hj, hr, ha, List.head?_cons, Option.join_some, List.tail_cons, Run.after, inspectAndRun, ho]
    simp only [Bool.not_true, Bool.false_eq_true, if_false, if_true, List.singleton_append]
    split
    · exact ⟨[], rfl⟩
    · split
      · exact ⟨[], rfl⟩
      · split
        · exact ⟨[_, _], rfl⟩
        · exact ⟨[_], rfl⟩
  refine ⟨h1, ?_⟩
  obtain ⟨post, h1⟩ := h1
  intro h
  obtain ⟨q, hq, hq'⟩ := h [.ask .inspect (some true)] _ post h1 rfl
  simp only [List.mem_singleton] at hq
  subst hq
  cases hq'

/-- The hypotheses are met: `safe-run rm -rf x`, inspection recommended and wished, all further answers no:
the directory is gone. -/
example : safeRun ⟨true, some c!"{}", fun _ => none, [some true, some false], fun _ => some (0, c!"removed x", []), fun _ => true⟩
    [c!"safe-run", c!"rm", c!"-rf", c!"x"] =
    ([.ask .inspect (some true), .run (.exec ⟨c!"sh", [c!"-c", c!"rm -rf x"]⟩), .ask .release (some false)], some 1) := by
  decide

/-- **C122 (partial)**: without the wish to inspect, nothing is executed before the user has agreed, and
never more than one thing is. -/
theorem C122_agree_partial (A : Around) (argv : List Str)
    (hi : ∀ e ∈ (safeRun A argv).1, e ≠ .ask .inspect (some true)) :
    AgreedFirst (safeRun A argv) ∧ ((safeRun A argv).1.filter isRun).length ≤ 1 := by
  have none_run : ∀ r : Run, (∀ e ∈ r.1, isRun e = false) → AgreedFirst r ∧ (r.1.filter isRun).length ≤ 1 := by
    intro r h
    constructor
    · intro pre e post he hr
      rw [h e (by rw [he]; simp)] at hr; cases hr
    · rw [List.filter_eq_nil_iff.2 (fun e he => by rw [h e he]; simp)]; simp
  have one_run : ∀ (d : Disp) (st : Option Nat) (evs : List Ev), (∀ e ∈ evs, isRun e = false) → (∃ q ∈ evs, agrees q = true) →
      AgreedFirst (evs ++ [.run d], st) ∧ ((evs ++ [Ev.run d]).filter isRun).length ≤ 1 := by
    intro d st evs h hq
    constructor
    · intro pre e post he hr
      dsimp only at he
      rcases List.append_eq_append_iff.1 he with ⟨l, h1, h2⟩ | ⟨l, h1, h2⟩
      · rw [h1]
        obtain ⟨q, hq, hq'⟩ := hq
        exact ⟨q, by simp [hq], hq'⟩
      · cases l with
        | nil => simp only [List.append_nil] at h1; rw [← h1]; exact hq
        | cons x l =>
          simp only [List.cons_append, List.cons.injEq] at h2
          rw [h e (by rw [h1, h2.1]; simp)] at hr; cases hr
    · rw [List.filter_append, List.filter_eq_nil_iff.2 (fun e he => by rw [h e he]; simp)]; exact Nat.le_refl 1
  match argv, hi with
  | [], _ | [_], _ => exact none_run _ (by simp [safeRun])
  | b :: cmd :: args, hi =>
    rw [safeRun_cons] at hi ⊢
    by_cases h1 : A.client = true
    · rw [if_neg (by simp [h1])] at hi ⊢
      cases hj : A.judge with
      | none => exact none_run _ (by simp)
      | some reply =>
        rw [hj] at hi
        dsimp only at hi ⊢
        by_cases h2 : recommends A reply = true
        · rw [if_pos h2] at hi ⊢
          match ha : A.answers.head?.join with
          | none => exact none_run _ (by simp [isRun])
          | some true =>
            rw [ha] at hi
            exact (hi (.ask .inspect (some true)) (by simp [Run.after]) rfl).elim
          | some false =>
            dsimp only
            match hb : A.answers.tail.head?.join with
            | some true => exact one_run _ _ [_, _] (by simp [isRun]) ⟨.ask .immediately (some true), by simp, rfl⟩
            | some false => exact none_run _ (by simp [isRun])
            | none => exact none_run _ (by simp [isRun])
        · rw [if_neg h2] at hi ⊢
          match ha : A.answers.head?.join with
          | some true => exact one_run _ _ [_] (by simp [isRun]) ⟨.ask .execute (some true), by simp, rfl⟩
          | some false => exact none_run _ (by simp [isRun])
          | none => exact none_run _ (by simp [isRun])
    · rw [if_pos (by simpa using h1)]
      exact none_run _ (by simp)

/-- **C122 (partial)**: who never says yes, and who has no AI or gets no answer from it, has nothing
executed. -/
theorem C122_no_partial (A : Around) (argv : List Str)
    (h : (∀ a ∈ A.answers, a ≠ some true) ∨ A.client = false ∨ A.judge = none) :
    ∀ e ∈ (safeRun A argv).1, isRun e = false := by
  have no : ∀ l : List (Option Bool), (∀ a ∈ l, a ≠ some true) → l.head?.join ≠ some true := by
    intro l hl
    cases l with
    | nil => simp
    | cons a l => simpa using hl a (by simp)
  match argv with
  | [] | [_] => simp [safeRun]
  | b :: cmd :: args =>
    rw [safeRun_cons]
    by_cases h1 : A.client = true
    · rw [if_neg (by simp [h1])]
      cases hj : A.judge with
      | none => simp
      | some reply =>
        have h : ∀ a ∈ A.answers, a ≠ some true := by
          rcases h with h | h | h
          · exact h
          · rw [h] at h1; cases h1
          · rw [hj] at h; cases h
        have ha1 := no _ h
        have ha2 := no A.answers.tail (fun a ha => h a (List.mem_of_mem_tail ha))
        dsimp only
        split
        · split
          · simp [isRun]
          · next ha => exact (ha1 ha).elim
          · split
            · next hb => exact (ha2 hb).elim
            · simp [isRun]
        · split
          · next ha => exact (ha1 ha).elim
          · simp [isRun]
    · rw [if_pos (by simpa using h1)]; simp

/-- What the words of a command, taken as they are, stand for: the first is the program. A single word that
holds a whole line is given to `sh`. -/
def Meant (cmd : Str) (args : List Str) (d : Disp) : Prop :=
  d = .exec ⟨cmd, args⟩ ∨ (args = [] ∧ d = .exec ⟨c!"sh", [c!"-c", cmd]⟩)

/-- **C122 (partial)**: what is executed after the user agreed is the program named with exactly the words
given, unless its name is one of the shell's registered built-ins. -/
theorem C122_words_partial (A : Around) (b cmd : Str) (args : List Str) (hcmd : cmd ∉ registry) (d : Disp)
    (hi : ∀ e ∈ (safeRun A (b :: cmd :: args)).1, e ≠ .ask .inspect (some true))
    (hd : Ev.run d ∈ (safeRun A (b :: cmd :: args)).1) : Meant cmd args d := by
  have key : ∀ d, Ev.run d ∈ (approved A cmd args).1 → Meant cmd args d := by
    intro d hd
    simp only [approved, List.mem_singleton, Ev.run.injEq] at hd
    subst hd
    have : registry.contains cmd = false := by simpa using hcmd
    unfold dispatch external
    rw [this]
    simp only [Bool.false_eq_true, if_false]
    split
    · next h =>
      simp only [Bool.and_eq_true, List.isEmpty_iff] at h
      exact .inr ⟨h.1, rfl⟩
    · exact .inl rfl
  rw [safeRun_cons] at hi hd
  by_cases h1 : A.client = true
  · rw [if_neg (by simp [h1])] at hi hd
    cases hj : A.judge with
    | none => rw [hj] at hd; simp at hd
    | some reply =>
      rw [hj] at hi hd
      dsimp only at hi hd
      by_cases h2 : recommends A reply = true
      · rw [if_pos h2] at hi hd
        match ha : A.answers.head?.join with
        | none => rw [ha] at hd; simp at hd
        | some true =>
          rw [ha] at hi
          exact (hi (.ask .inspect (some true)) (by simp [Run.after]) rfl).elim
        | some false =>
          rw [ha] at hd
          dsimp only at hd
          match hb : A.answers.tail.head?.join with
          | some true =>
            rw [hb] at hd
            simp only [Run.after, List.mem_append, List.mem_cons, reduceCtorEq, List.not_mem_nil, or_false, false_or] at hd
            exact key d hd
          | some false => rw [hb] at hd; simp at hd
          | none => rw [hb] at hd; simp at hd
      · rw [if_neg h2] at hi hd
        match ha : A.answers.head?.join with
        | some true =>
          rw [ha] at hd
          simp only [Run.after, List.mem_append, List.mem_cons, reduceCtorEq, List.not_mem_nil, or_false, false_or] at hd
          exact key d hd
        | some false => rw [ha] at hd; simp at hd
        | none => rw [ha] at hd; simp at hd
  · rw [if_pos (by simpa using h1)] at hd
    simp at hd

example : Ev.run (.exec ⟨c!"rm", [c!"a b"]⟩) ∈ (safeRun ⟨true, some c!"{}", fun _ => some ⟨some c!"SAFE", some false⟩, [some true], fun _ => none, fun _ => true⟩
    [c!"safe-run", c!"rm", c!"a b"]).1 ∧ c!"rm" ∉ registry := by decide

/-- What a handler of the registry takes as its arguments: the words from position 1 on. -/
def builtinArgs : Disp → Option (List Str)
  | .builtin _ argv => some argv.tail
  | .exec _ => none

/-- **C122 is violated**: a registered built-in loses its first argument: `safe-run fg 2` is `fg`. -/
theorem C122_builtin_violated (A : Around) (b cmd : Str) (args : List Str) (reply : Str) (rest : List (Option Bool))
    (h : cmd ∈ registry) (hc : A.client = true) (hj : A.judge = some reply) (hr : recommends A reply = false)
    (ha : A.answers = some true :: rest) :
    ∃ d, (safeRun A (b :: cmd :: args)).1 = [.ask .execute (some true), .run d] ∧ builtinArgs d = some args.tail := by
  refine ⟨.builtin cmd args, ?_, rfl⟩
  rw [safeRun_cons]
  simp [hc, hj, hr, ha, Run.after, approved, dispatch, h]

example : (safeRun ⟨true, some c!"{}", fun _ => some ⟨none, none⟩, [some true], fun _ => none, fun _ => true⟩
    [c!"safe-run", c!"fg", c!"2"]).1 = [.ask .execute (some true), .run (.builtin c!"fg" [c!"2"])] := by decide

/-- **C122 is violated**: inspecting joins the words, so what `sh` executes is another command than the one
asked about: `safe-run rm "a b"` removes `a` and `b`. -/
theorem C122_quotes_violated : ∃ A : Around,
    Ev.run (.exec ⟨c!"sh", [c!"-c", c!"rm a b"]⟩) ∈ (safeRun A [c!"safe-run", c!"rm", c!"a b"]).1 :=
  ⟨⟨true, some c!"?", fun _ => none, [some true], fun _ => some (0, [], []), fun _ => true⟩, by decide⟩

/-- **C122 is violated**: the preview of a long output is cut at a byte; within a character it panics, after
the command has been executed. -/
theorem C122_preview_violated (A : Around) (line out err : Str) (code : Nat) (answers : List (Option Bool))
    (ho : A.captured line = some (code, out, err)) (h1 : out ≠ []) (h2 : previewOk out = false) :
    (inspectAndRun A line answers).2 = none := by
  unfold inspectAndRun
  simp only [ho, h2]
  rw [if_neg (by simpa using h1)]
  rfl

theorem prefixBytes_wide (k n : Nat) (h : n < 3 * k) (hm : n % 3 ≠ 0) : prefixBytes n (List.replicate k 'あ') = none := by
  have h3 : 'あ'.utf8Size = 3 := by decide
  induction k generalizing n with
  | zero => omega
  | succ k ih =>
    match n, h, hm with
    | n + 1, h, hm =>
      rw [List.replicate_succ, prefixBytes, h3]
      split
      · rw [ih (n + 1 - 3) (by omega) (by omega)]; rfl
      · rfl

/-- Such an output: 667 times `あ`, or any more. -/
example (k : Nat) (h : 667 ≤ k) : previewOk (List.replicate k 'あ') = false := by
  have h3 : 'あ'.utf8Size = 3 := by decide
  have hb : bytes (List.replicate k 'あ') = k * 3 := by
    unfold bytes
    rw [List.map_replicate, List.sum_replicate_nat, h3]
  unfold previewOk
  rw [hb, prefixBytes_wide k 2000 (by omega) (by decide)]
  split
  · simp
  · rw [if_pos (by omega)]; rfl

/-- An answer between code fences is read as the text between them. -/
theorem cleanJson_fenced (x : Str) : cleanJson (c!"```json" ++ x ++ c!"```") = trim x := by
  have ht : trim (c!"```json" ++ x ++ c!"```") = c!"```json" ++ x ++ c!"```" := by
    have hs : trimStart (c!"```json" ++ x ++ c!"```") = c!"```json" ++ x ++ c!"```" := by
      unfold trimStart
      rw [List.cons_append, List.cons_append, List.dropWhile_cons, if_neg (by decide)]
    unfold trim
    rw [hs]
    unfold trimEnd
    rw [List.reverse_append]
    show (List.dropWhile rustWhitespace ('`' :: _)).reverse = _
    rw [List.dropWhile_cons, if_neg (by decide)]
    simp
  unfold cleanJson
  rw [ht]
  dsimp only
  rw [if_pos ⟨x ++ c!"```", by simp⟩]
  unfold stripFence
  have hd : (c!"```json" ++ x ++ c!"```").drop (c!"```json").length = x ++ c!"```" := by
    rw [List.append_assoc, List.drop_left]
  rw [hd, if_pos ⟨x, rfl⟩]
  congr 1
  simp

/-- **C122 (partial)**: an answer of the AI that cannot be read never passes for a harmless one: the first
question is whether to inspect. -/
theorem C122_unreadable_partial (A : Around) (b cmd : Str) (args : List Str) (reply : Str) (hc : A.client = true)
    (hj : A.judge = some reply) (h : A.json (cleanJson reply) = none) :
    (safeRun A (b :: cmd :: args)).1.head? = some (.ask .inspect A.answers.head?.join) := by
  have hr : recommends A reply = true := by simp [recommends, h]
  rw [safeRun_cons]
  simp only [hc, hj, hr, Bool.not_true, Bool.false_eq_true, if_false, if_true]
  match A.answers.head?.join with
  | none => rfl
  | some true => rfl
  | some false => dsimp only; split <;> rfl

/-- **C122 (partial)**: who agrees has the command executed, once, and gets its status. -/
theorem C122_yes_partial (A : Around) (b cmd : Str) (args : List Str) (reply : Str) (rest : List (Option Bool))
    (hc : A.client = true) (hj : A.judge = some reply) (hcmd : cmd ∉ registry)
    (ha : (recommends A reply = false ∧ A.answers = some true :: rest) ∨
      (recommends A reply = true ∧ A.answers = some false :: some true :: rest)) :
    ∃ d, (safeRun A (b :: cmd :: args)).1.filter isRun = [.run d] ∧ Meant cmd args d ∧
      ((safeRun A (b :: cmd :: args)).2 = some 0 ↔ A.ok d = true) := by
  refine ⟨dispatch cmd args, ?_, ?_, ?_⟩
  · rw [safeRun_cons]
    rcases ha with ⟨hr, ha⟩ | ⟨hr, ha⟩ <;>
      simp [hc, hj, hr, ha, Run.after, approved, isRun]
  · apply C122_words_partial A b cmd args hcmd
    · rw [safeRun_cons]
      rcases ha with ⟨hr, ha⟩ | ⟨hr, ha⟩ <;>
        simp [hc, hj, hr, ha, Run.after, approved]
    · rw [safeRun_cons]
      rcases ha with ⟨hr, ha⟩ | ⟨hr, ha⟩ <;>
        simp [hc, hj, hr, ha, Run.after, approved]
  · rw [safeRun_cons]
    rcases ha with ⟨hr, ha⟩ | ⟨hr, ha⟩ <;>
      simp [hc, hj, hr, ha, Run.after, approved]

/-- The hypotheses are met: `safe-run make`, no inspection, yes immediately. -/
example : safeRun ⟨true, some c!"?", fun _ => none, [some false, some true], fun _ => none, fun _ => true⟩ [c!"safe-run", c!"make"] =
    ([.ask .inspect (some false), .ask .immediately (some true), .run (.exec ⟨c!"make", []⟩)], some 0) := by decide

end Dsh.Saved
