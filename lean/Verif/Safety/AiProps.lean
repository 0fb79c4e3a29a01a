import Verif.Safety.Props
/-!
Properties of the guard where the AI is concerned: C32, C63–C67.
-/
namespace Dsh.Safety
open Dsh.Shell Dsh.Eval Dsh.Syn

/-! ### C32: the `execute` tool -/

theorem programName_plain {p : Str} (h : '/' ∉ p) : programName p = p := by
  unfold programName fileName
  rw [slashParts_plain h]
  by_cases h1 : p = []
  · subst h1; rfl
  · by_cases h2 : p = c!"."
    · subst h2; decide
    · by_cases h3 : p = c!".."
      · subst h3; decide
      · simp [h1, h2, h3]

/-- The test for the program is equality. -/
theorem programMatches_iff {e p : Str} : programMatches e p = true ↔ e = p := by
  unfold programMatches
  split_ifs with h1 h2
  · simp
  · simp only [Bool.false_eq_true, false_iff]
    rintro rfl
    exact h1 h2
  · simp only [pathQualified, Bool.or_eq_true, List.contains_iff_mem, not_or] at h1 h2
    rw [decide_eq_true_eq, programName_plain h1.1, programName_plain h2.1]

/-- A character (or `$(`) a shell would act upon. -/
def Meta (t : Str) : Prop :=
  (∃ c ∈ t, c ∈ ['|', '&', ';', '>', '<', '`', '\n']) ∨ ∃ u v, t = u ++ c!"$(" ++ v

theorem shellExpression_iff {ts : List Str} : shellExpression ts = true ↔ ∃ t ∈ ts, Meta t := by
  simp only [shellExpression, List.any_eq_true, Bool.or_eq_true, hasSub_iff, List.contains_iff_mem, Meta,
    decide_eq_true_eq, List.mem_cons, List.not_mem_nil, or_false]
  constructor
  · rintro ⟨t, ht, ((h | h) | h) | ⟨c, hc, h⟩⟩
    · exact ⟨t, ht, .inr h⟩
    · exact ⟨t, ht, .inl ⟨_, h, by simp⟩⟩
    · exact ⟨t, ht, .inl ⟨_, h, by simp⟩⟩
    · exact ⟨t, ht, .inl ⟨c, hc, by grind⟩⟩
  · rintro ⟨t, ht, ⟨c, hc, h⟩ | h⟩
    · refine ⟨t, ht, ?_⟩
      rcases h with h | h | h | h | h | rfl | rfl
      · exact .inr ⟨c, hc, by simp [h]⟩
      · exact .inr ⟨c, hc, by simp [h]⟩
      · exact .inr ⟨c, hc, by simp [h]⟩
      · exact .inr ⟨c, hc, by simp [h]⟩
      · exact .inr ⟨c, hc, by simp [h]⟩
      · exact .inl (.inl (.inr hc))
      · exact .inl (.inr hc)
    · exact ⟨t, ht, .inl (.inl (.inl h))⟩

/-- **C32, the part that holds**, whatever function `split` splits texts into words.  If the tool starts
a program, then it is the first word of the command with exactly the other words as arguments, no
word has a character a shell would act upon, and either the user agreed, or some entry names exactly
this program (path and all) and has no arguments or exactly these.  Missing: programs that evaluate
an argument as a script (`C32_violated`). -/
theorem C32_partial {split : Str → Option (List Str)} {skill : Str → Bool} {confirm : Bool} {allow : List Str}
    {command program : Str} {args : List Str} {asked : Bool}
    (h : execTool split skill confirm allow command = .ran program args asked) :
    split command = some (program :: args) ∧ (∀ t ∈ program :: args, ¬ Meta t) ∧
    ((asked = true ∧ confirm = true) ∨
      ∃ e ∈ allow, split e = some [program] ∨ split e = some (program :: args)) := by
  unfold execTool at h
  by_cases h0 : (trim command).isEmpty = true
  · rw [if_pos h0] at h; cases h
  rw [if_neg h0] at h
  cases hs : split command with
  | none => rw [hs] at h; cases h
  | some ws =>
    cases ws with
    | nil => rw [hs] at h; cases h
    | cons p as =>
      rw [hs] at h
      simp only at h
      split_ifs at h with h1 h2 h3 h4 h5
      · injection h with e1 e2 e3
        subst e1; subst e2; subst e3
        exact ⟨rfl, fun t ht hm => h1 (shellExpression_iff.2 ⟨t, ht, hm⟩), .inl ⟨rfl, h5⟩⟩
      · injection h with e1 e2 e3
        subst e1; subst e2; subst e3
        refine ⟨rfl, fun t ht hm => h1 (shellExpression_iff.2 ⟨t, ht, hm⟩), .inr ?_⟩
        have hl : listed split p as allow = true := by
          simp only [Bool.and_eq_true, Bool.not_eq_true', not_and] at h3
          by_contra hc
          exact h4 (by simpa using h3 (by simpa using hc))
        simp only [listed, List.any_eq_true] at hl
        obtain ⟨e, he, hm⟩ := hl
        refine ⟨e, he, ?_⟩
        unfold entryMatches at hm
        split at hm
        · next q rest hsp =>
          simp only [Bool.and_eq_true, programMatches_iff, Bool.or_eq_true, List.isEmpty_iff,
            decide_eq_true_eq] at hm
          rw [hsp]
          obtain ⟨rfl, rfl | rfl⟩ := hm
          · exact .inl rfl
          · exact .inr rfl
        · simp at hm

/-- **C32: scripts handed to a shell by `-c` or `-lc` are refused**, whatever is allowed and under
whatever path the shell is called; the same for `-c`/`-e` of the known interpreters. -/
theorem C32_eval_partial {split : Str → Option (List Str)} (skill : Str → Bool) (confirm : Bool) (allow : List Str)
    {command program n : Str} {args : List Str} (hs : split command = some (program :: args))
    (hn : BaseName program n) {a : Str} (ha : a ∈ args)
    (h : (n ∈ [c!"sh", c!"bash", c!"zsh", c!"fish", c!"ksh"] ∧ a ∈ [c!"-c", c!"-lc"]) ∨
      (n ∈ [c!"python", c!"python3", c!"perl", c!"ruby", c!"node"] ∧ a ∈ [c!"-c", c!"-e"])) :
    execTool split skill confirm allow command = .error := by
  have he : stringEval program args = true := by
    unfold stringEval programName
    rw [fileName_base hn]
    simp only [Option.getD_some]
    rcases h with ⟨h1, h2⟩ | ⟨h1, h2⟩
    · rw [if_pos h1]
      simp only [List.any_eq_true, Bool.or_eq_true, decide_eq_true_eq]
      exact ⟨a, ha, by simpa using h2⟩
    · have h3 : ¬ n ∈ [c!"sh", c!"bash", c!"zsh", c!"fish", c!"ksh"] := by
        revert h1; revert n
        intro n _ h1
        simp only [List.mem_cons, List.not_mem_nil, or_false] at h1
        rcases h1 with rfl | rfl | rfl | rfl | rfl <;> decide
      rw [if_neg h3, if_pos h1]
      simp only [List.any_eq_true, Bool.or_eq_true, decide_eq_true_eq]
      exact ⟨a, ha, by simpa using h2⟩
  unfold execTool
  by_cases h0 : (trim command).isEmpty = true
  · rw [if_pos h0]
  · rw [if_neg h0, hs]
    simp only [he, if_true]
    by_cases h1 : shellExpression (program :: args) = true
    · rw [if_pos h1]
    · rw [if_neg h1]

theorem splitEnv_ne (s : Str) : splitEnv s ≠ [] := by
  cases s with
  | nil => simp [splitEnv]
  | cons c cs =>
    simp only [splitEnv]
    split_ifs
    · simp
    · cases splitEnv cs <;> simp

theorem splitEnv_mem {s w : Str} (h : w ∈ splitEnv s) : ',' ∉ w ∧ '\n' ∉ w ∧ ∃ u v, s = u ++ w ++ v := by
  have key : ∀ s : Str, (∀ w ∈ splitEnv s, ',' ∉ w ∧ '\n' ∉ w ∧ ∃ u v, s = u ++ w ++ v) ∧
      ∀ w, (splitEnv s).head? = some w → ∃ v, s = w ++ v := by
    intro s
    induction s with
    | nil => simp [splitEnv]
    | cons c cs ih =>
      simp only [splitEnv]
      split_ifs with hc
      · refine ⟨?_, by simp⟩
        intro w hw
        rcases List.mem_cons.1 hw with rfl | hw
        · exact ⟨by simp, by simp, [], c :: cs, rfl⟩
        · obtain ⟨h1, h2, u, v, h3⟩ := ih.1 w hw
          exact ⟨h1, h2, c :: u, v, by rw [h3]; rfl⟩
      · simp only [Bool.or_eq_true, decide_eq_true_eq, not_or] at hc
        cases hs : splitEnv cs with
        | nil => exact absurd hs (splitEnv_ne cs)
        | cons x xs =>
          rw [hs] at ih
          obtain ⟨v, hv⟩ := ih.2 x rfl
          refine ⟨?_, ?_⟩
          · intro w hw
            rcases List.mem_cons.1 hw with rfl | hw
            · obtain ⟨h1, h2, -⟩ := ih.1 x (by simp)
              exact ⟨by simp [Ne.symm hc.1, h1], by simp [Ne.symm hc.2, h2], [], v, by rw [hv]; rfl⟩
            · obtain ⟨h1, h2, u, v, h3⟩ := ih.1 w (by simp [hw])
              exact ⟨h1, h2, c :: u, v, by rw [h3]; rfl⟩
          · intro w hw
            simp only [List.head?_cons, Option.some.injEq] at hw
            subst hw
            exact ⟨v, by rw [hv]; rfl⟩
  exact (key s).1 w h

/-- **C32: where entries come from.** Every entry in force is a piece of the environment variable
(between commas and newlines, without blanks around it), or was added in the shell, or is an item of
the file; and if the variable has an entry, only its entries are in force. -/
theorem C32_sources (env : Option Str) (runtime file : List Str) :
    (∀ e ∈ loadAllowed env runtime file,
      (∃ raw w, env = some raw ∧ (',' ∉ w ∧ '\n' ∉ w ∧ ∃ u v, raw = u ++ w ++ v) ∧ e = trim w ∧ e ≠ []) ∨
      e ∈ runtime ∨ ∃ i ∈ file, e = trim i ∧ e ≠ []) ∧
    (∀ raw e, env = some raw → e ∈ loadAllowed env runtime file →
      (∃ w ∈ splitEnv raw, trim w ≠ []) → ∃ w ∈ splitEnv raw, e = trim w) := by
  have hitems : ∀ (l : List Str) (e : Str), e ∈ items l → ∃ w ∈ l, e = trim w ∧ e ≠ [] := by
    intro l e he
    simp only [items, List.mem_filter, List.mem_map, Bool.not_eq_true', List.isEmpty_eq_false_iff] at he
    obtain ⟨⟨w, hw, rfl⟩, hne⟩ := he
    exact ⟨w, hw, rfl, hne⟩
  constructor
  · intro e he
    unfold loadAllowed at he
    split at he
    · next raw =>
      split_ifs at he
      · rcases List.mem_append.1 he with he | he
        · exact .inr (.inl he)
        · exact .inr (.inr (hitems _ _ he))
      · obtain ⟨w, hw, h1, h2⟩ := hitems _ _ he
        exact .inl ⟨raw, w, rfl, splitEnv_mem hw, h1, h2⟩
    · rcases List.mem_append.1 he with he | he
      · exact .inr (.inl he)
      · exact .inr (.inr (hitems _ _ he))
  · rintro raw e rfl he ⟨w, hw, hne⟩
    simp only [loadAllowed] at he
    rw [if_neg ?_] at he
    · obtain ⟨w, hw, h1, -⟩ := hitems _ _ he
      exact ⟨w, hw, h1⟩
    · intro hc
      rw [List.isEmpty_iff] at hc
      have : trim w ∈ items (splitEnv raw) := by
        simp only [items, List.mem_filter, List.mem_map, Bool.not_eq_true', List.isEmpty_eq_false_iff]
        exact ⟨⟨w, hw, rfl⟩, hne⟩
      rw [hc] at this; simp at this

example : loadAllowed (some c!"ls , git status") [c!"rm"] [c!"dd"] = [c!"ls", c!"git status"] := by decide

/-- Splitting of texts without quotes: at white space. -/
def plainSplit (s : Str) : Option (List Str) := some (splitWs s)

/-- **C32 fails** for evaluators in another spelling: with `bash`, `python3` or `env` allowed, these
run a script given as an argument, unasked. -/
theorem C32_violated :
    execTool plainSplit (fun _ => false) false [c!"bash"] c!"bash -xc reboot" =
      .ran c!"bash" [c!"-xc", c!"reboot"] false ∧
    execTool plainSplit (fun _ => false) false [c!"python3"] c!"python3 -Ic import_x" =
      .ran c!"python3" [c!"-Ic", c!"import_x"] false ∧
    execTool plainSplit (fun _ => false) false [c!"env"] c!"env bash -c reboot" =
      .ran c!"env" [c!"bash", c!"-c", c!"reboot"] false := by
  decide +kernel

example : execTool plainSplit (fun _ => false) false [c!"git status", c!"ls"] c!"ls -l" =
    .ran c!"ls" [c!"-l"] false := by decide +kernel
example : execTool plainSplit (fun _ => false) false [c!"git status"] c!"git push" = .error := by decide +kernel
example : execTool plainSplit (fun _ => false) true [c!"bash"] c!"/bin/bash -c reboot" = .error :=
  C32_eval_partial _ _ _ rfl (n := c!"bash") ⟨by decide, .inr ⟨c!"/bin", rfl⟩⟩ (a := c!"-c") (by decide)
    (.inl ⟨by decide, by decide⟩)

/-! ### C63: where "always" reaches further -/

/-- **C63 fails.** (1) The text of a one-word line is, on the same allowlist, an entry for the program:
after "always" for `git` (strict level), the `execute` tool runs `git` with any arguments and a proposed
`git push -f` is let through.  (2) The text of a job includes the blanks behind it: after "always" for
`rm -r a ; ls`, `rm -r a` is asked about again. -/
theorem C63_violated :
    (let allow := (guardLine .strict [] .always [{ cmd := c!"git", jobId := 1 }]).2
     execTool plainSplit (fun _ => false) false [] c!"git push -f" = .error ∧
     execTool plainSplit (fun _ => false) false allow c!"git push -f" =
       .ran c!"git" [c!"push", c!"-f"] false ∧
     checkCommand .strict c!"git" [c!"push", c!"-f"] [] = .confirm ∧
     checkCommand .strict c!"git" [c!"push", c!"-f"] allow = .allowed) ∧
    ∃ js id js' id', lineJobs E0 W0 0 c!"rm -r a ; ls" = some (js, id) ∧
      lineJobs E0 W0 0 c!"rm -r a" = some (js', id') ∧
      (guardLine .normal (guardLine .normal [] .always js).2 .no js').1 = .cancelled := by
  refine ⟨by decide +kernel, ?_⟩
  cases h1 : lineJobsF 80 E0 W0 0 c!"rm -r a ; ls" with
  | none => exact absurd h1 (by decide +kernel)
  | some x =>
    cases h2 : lineJobsF 80 E0 W0 0 c!"rm -r a" with
    | none => exact absurd h2 (by decide +kernel)
    | some y =>
      refine ⟨x.1, x.2, y.1, y.2, lineJobsF_sound h1, lineJobsF_sound h2, ?_⟩
      have e1 : x.1.map Job.cmd = [c!"rm -r a ", c!"ls"] := by
        have : (lineJobsF 80 E0 W0 0 c!"rm -r a ; ls").map (fun x => x.1.map Job.cmd) =
          some [c!"rm -r a ", c!"ls"] := by decide +kernel
        rw [h1] at this; exact Option.some.inj this
      have e2 : y.1.map Job.cmd = [c!"rm -r a"] := by
        have : (lineJobsF 80 E0 W0 0 c!"rm -r a").map (fun x => x.1.map Job.cmd) =
          some [c!"rm -r a"] := by decide +kernel
        rw [h2] at this; exact Option.some.inj this
      simp only [guardLine, e1, e2]
      decide +kernel

/-! ### C64: text sent to the AI -/

/-- **C64 fails.** The length is cut inside a character (the shell panics), and the marker that is
appended makes the text longer than the limit. -/
theorem C64_violated :
    sanitize c!"aé" 2 = none ∧ sanitize c!"abcdef" 5 = some c!"abcde...(truncated)" := by decide

/-- Kept: no control character other than newline, carriage return and tab; no invisible one. -/
def Clean (c : Char) : Prop :=
  (isControl c = true → c ∈ ['\n', '\r', '\t']) ∧ isInvisible c = false

theorem truncate_spec {n : Nat} {s r : Str} (h : truncate n s = some r) :
    r.IsPrefix s ∧ bytes r ≤ n := by
  induction s generalizing n r with
  | nil => cases n <;> simp [truncate] at h <;> subst h <;> simp [bytes]
  | cons c s ih =>
    cases n with
    | zero => simp [truncate] at h; subst h; simp [bytes]
    | succ n =>
      simp only [truncate] at h
      split_ifs at h with hc
      cases ht : truncate (n + 1 - c.utf8Size) s with
      | none => simp [ht] at h
      | some r' =>
        simp only [ht, Option.map_some, Option.some.injEq] at h
        subst h
        obtain ⟨h1, h2⟩ := ih ht
        refine ⟨?_, ?_⟩
        · obtain ⟨t, rfl⟩ := h1; exact ⟨t, rfl⟩
        · simp only [bytes, List.map_cons, List.sum_cons] at h2 ⊢
          omega

/-- **C64, the part that holds.** What is sent is the input without the characters that are not
`Clean`, in full if it fits, otherwise a prefix of it of at most `max` bytes and a marker. -/
theorem C64_partial {input r : Str} {max : Nat} (h : sanitize input max = some r) :
    (∀ c ∈ r, Clean c) ∧ bytes r ≤ max + 14 ∧
    ∃ kept, List.Sublist kept input ∧ (∀ c ∈ input, Clean c → c ∈ kept) ∧ (∀ c ∈ kept, Clean c) ∧
      (bytes kept ≤ max → r = kept) ∧
      (bytes kept > max → ∃ p, p.IsPrefix kept ∧ bytes p ≤ max ∧ r = p ++ c!"...(truncated)") := by
  simp only [sanitize] at h
  obtain ⟨kept, hk⟩ : ∃ k, k = (input.filter (fun c => !isControl c || c = '\n' || c = '\r' || c = '\t')).filter
    (fun c => !isInvisible c) := ⟨_, rfl⟩
  rw [← hk] at h
  have hclean : ∀ c ∈ kept, Clean c := by
    intro c hc
    simp only [hk, List.mem_filter, Bool.or_eq_true, Bool.not_eq_true', decide_eq_true_eq] at hc
    refine ⟨fun hh => ?_, hc.2⟩
    rcases hc.1.2 with ((h | h) | h) | h
    · rw [h] at hh; cases hh
    · simp [h]
    · simp [h]
    · simp [h]
  have hmark : (∀ c ∈ c!"...(truncated)", Clean c) := by unfold Clean; decide
  have hsub : List.Sublist kept input := hk ▸ (List.filter_sublist).trans List.filter_sublist
  have hkeep : ∀ c ∈ input, Clean c → c ∈ kept := by
    intro c hc ⟨h1, h2⟩
    simp only [hk, List.mem_filter, Bool.or_eq_true, Bool.not_eq_true', decide_eq_true_eq]
    refine ⟨⟨hc, ?_⟩, h2⟩
    cases hh : isControl c with
    | false => simp
    | true => have := h1 hh; simp only [List.mem_cons, List.not_mem_nil, or_false] at this; grind
  by_cases hb : bytes kept > max
  · rw [if_pos hb] at h
    cases ht : truncate max kept with
    | none => rw [ht] at h; cases h
    | some p =>
      simp only [ht, Option.map_some, Option.some.injEq] at h
      subst h
      obtain ⟨h1, h2⟩ := truncate_spec ht
      refine ⟨?_, ?_, kept, hsub, hkeep, hclean, fun h => by omega, fun _ => ⟨p, h1, h2, rfl⟩⟩
      · intro c hc
        rcases List.mem_append.1 hc with hc | hc
        · exact hclean c (h1.subset hc)
        · exact hmark c hc
      · have : bytes (p ++ c!"...(truncated)") = bytes p + 14 := by
          simp only [bytes, List.map_append, List.sum_append]
          congr 1
        omega
  · rw [if_neg hb] at h
    injection h with h
    subst h
    exact ⟨hclean, by omega, kept, hsub, hkeep, hclean, fun _ => rfl, fun h => absurd h hb⟩

/-- **C64: never a panic on ASCII input.** -/
theorem C64_ascii_partial {input : Str} (h : ∀ c ∈ input, c.utf8Size = 1) (max : Nat) :
    ∃ r, sanitize input max = some r := by
  have ht : ∀ (n : Nat) (s : Str), (∀ c ∈ s, c.utf8Size = 1) → ∃ r, truncate n s = some r := by
    intro n s
    induction s generalizing n with
    | nil => intro _; exact ⟨[], by cases n <;> rfl⟩
    | cons c s ih =>
      intro hs
      cases n with
      | zero => exact ⟨[], rfl⟩
      | succ n =>
        obtain ⟨r, hr⟩ := ih n (fun d hd => hs d (by simp [hd]))
        refine ⟨c :: r, ?_⟩
        simp only [truncate, hs c (by simp)]
        rw [if_pos (by omega)]
        simp [hr]
  unfold sanitize
  simp only
  split_ifs
  · obtain ⟨r, hr⟩ := ht max ((input.filter (fun c => !isControl c || c = '\n' || c = '\r' || c = '\t')).filter
      (fun c => !isInvisible c)) (fun c hc => h c (List.mem_filter.1 (List.mem_filter.1 hc).1).1)
    exact ⟨_, by rw [hr]; rfl⟩
  · exact ⟨_, rfl⟩

example : sanitize c!"a\u0007b\nc" 10 = some c!"ab\nc" := by decide

/-! ### C65: tool calls -/

/-- **C65: a tool call that needs confirmation is executed only if the user agrees.** Without a
question a call is executed only if the guard allows it; after a question only if the answer is
not "no"; with nobody to ask, nothing that needs an answer is executed. -/
theorem C65_agreed (J : Json) (level : Level) (handler : Option Choice) (allow : List Str) (tool args : Str) :
    (toolCall J level handler allow tool args).1 = true ↔
      checkTool J tool args level allow = .allowed ∨
      (checkTool J tool args level allow = .confirm ∧ (handler = some .yes ∨ handler = some .always)) := by
  unfold toolCall
  cases checkTool J tool args level allow with
  | allowed => simp
  | denied => simp
  | confirm =>
    cases handler with
    | none => simp
    | some c => cases c <;> simp

/-- **C65: "always" settles the same call.** -/
theorem C65_again (J : Json) (level : Level) (allow : List Str) (tool args args' : Str)
    (h : J.norm args' = J.norm args) (handler : Option Choice)
    (hc : checkTool J tool args level allow = .confirm) :
    (toolCall J level handler (toolCall J level (some .always) allow tool args).2.2 tool args').1 = true := by
  rw [C65_agreed]
  left
  have hm : mcpListed J tool args' (toolCall J level (some .always) allow tool args).2.2 = true := by
    unfold toolCall
    rw [hc]
    simp only [mcpListed, mcpEntry, h, Bool.or_eq_true, List.contains_iff_mem]
    left
    split_ifs with h1
    · exact h1
    · simp
  unfold checkTool
  rw [hm]
  by_cases hl : level = .loose
  · rw [if_pos hl]
  · rw [if_neg hl, if_pos rfl]

theorem colon_split {a b u v : Str} (ha : ':' ∉ a) (hb : ':' ∉ b) (h : a ++ ':' :: u = b ++ ':' :: v) :
    a = b ∧ u = v := by
  induction a generalizing b with
  | nil =>
    cases b with
    | nil => simpa using h
    | cons c b =>
      simp only [List.nil_append, List.cons_append, List.cons.injEq] at h
      exact absurd (by simp [← h.1]) hb
  | cons c a ih =>
    cases b with
    | nil =>
      simp only [List.nil_append, List.cons_append, List.cons.injEq] at h
      exact absurd (by simp [h.1]) ha
    | cons d b =>
      simp only [List.cons_append, List.cons.injEq] at h
      obtain ⟨h1, h2⟩ := ih (fun hm => ha (by simp [hm])) (fun hm => hb (by simp [hm])) h.2
      exact ⟨by rw [h.1, h1], h2⟩

theorem contains_snoc_ne {allow : List Str} {e x : Str} (h : x ≠ e) : (allow ++ [e]).contains x = allow.contains x := by
  rw [Bool.eq_iff_iff, List.contains_iff_mem, List.contains_iff_mem, List.mem_append, List.mem_singleton]
  exact ⟨fun hh => hh.resolve_right h, .inl⟩

theorem joinWith_prefix {p c : Str} {a : List Str} (hc : ¬ p.IsPrefix c) (hsp : ' ' ∉ p) :
    ¬ p.IsPrefix (joinWith c!" " (c :: a)) := by
  cases a with
  | nil => simpa [joinWith] using hc
  | cons b a =>
    rintro ⟨t, ht⟩
    simp only [joinWith, List.append_assoc] at ht
    rw [List.append_eq_append_iff] at ht
    rcases ht with ⟨u, h1, h2⟩ | ⟨u, h1, h2⟩
    · exact hc ⟨u, h1.symm⟩
    · cases u with
      | nil => exact hc ⟨[], by simpa using h1⟩
      | cons d u =>
        simp only [List.cons_append, List.nil_append, List.cons.injEq] at h2
        exact hsp (by rw [h1, ← h2.1]; simp)

/-- **C65, the part that holds for other calls.** If tool names have no colon, "always" for one call
changes nothing for a call of another tool, or of the same tool with other arguments (as values, not
as texts). -/
theorem C65_other_partial (J : Json) (level level' : Level) (allow : List Str) {tool tool' args args' : Str}
    (ht : ':' ∉ tool) (ht' : ':' ∉ tool') (hne : tool ≠ tool' ∨ J.norm args ≠ J.norm args')
    (hcmd : ∀ s, J.command args' = some s → ¬ c!"mcp:".IsPrefix (firstWord s)) :
    checkTool J tool' args' level' (toolCall J level (some .always) allow tool args).2.2 =
      checkTool J tool' args' level' allow := by
  have hadd : (toolCall J level (some .always) allow tool args).2.2 = allow ∨
      (toolCall J level (some .always) allow tool args).2.2 = allow ++ [mcpEntry J tool args] := by
    unfold toolCall
    cases checkTool J tool args level allow with
    | allowed => exact .inl rfl
    | denied => exact .inl rfl
    | confirm => simp only; split_ifs <;> simp
  rcases hadd with he | he <;> rw [he]
  have h1 : mcpEntry J tool' args' ≠ mcpEntry J tool args := by
    intro h
    obtain ⟨h1, h2⟩ := colon_split ht' ht (List.append_cancel_left h)
    rcases hne with hne | hne
    · exact hne h1.symm
    · exact hne h2.symm
  have h2 : mcpWildcard tool' ≠ mcpEntry J tool args := by
    intro h
    have := List.append_cancel_left h
    rw [this] at ht'
    simp at ht'
  have hl : mcpListed J tool' args' (allow ++ [mcpEntry J tool args]) = mcpListed J tool' args' allow := by
    simp only [mcpListed, contains_snoc_ne h1, contains_snoc_ne h2]
  unfold checkTool
  rw [hl]
  split_ifs
  · rfl
  · rfl
  · cases hs : J.command args' with
    | none => rfl
    | some s =>
      have hp := hcmd s hs
      cases hw : splitWs s with
      | nil => simp only [hw]
      | cons c a =>
        have hc : ¬ c!"mcp:".IsPrefix c := by simpa [firstWord, hw] using hp
        have n1 : fullCmd c a ≠ mcpEntry J tool args := by
          intro h
          exact joinWith_prefix hc (by decide) ⟨_, h.symm⟩
        have n2 : c ≠ mcpEntry J tool args := fun h => hc ⟨_, h.symm⟩
        simp only [hw, checkCommand, contains_snoc_ne n1, contains_snoc_ne n2]
  · rfl
  · rfl
  · rfl

/-- JSON texts as they are. -/
def J0 : Json := ⟨id, fun _ => none⟩

/-- **C65 fails for tool names with a colon.** "Always" for the tool `x` with the arguments `{}` allows
a tool named `x:{}` with any arguments. -/
theorem C65_violated :
    (let allow := (toolCall J0 .normal (some .always) [] c!"x" c!"{}").2.2
     checkTool J0 c!"x:{}" c!"anything" .normal [] = .confirm ∧
     checkTool J0 c!"x:{}" c!"anything" .normal allow = .allowed) := by decide +kernel

example : checkTool J0 c!"x" c!"other" .normal (toolCall J0 .normal (some .always) [] c!"x" c!"{}").2.2 =
    .confirm := by
  rw [C65_other_partial J0 _ _ _ (by decide) (by decide) (.inr (by decide)) (by intro s h; cases h)]
  decide +kernel

/-! ### C66: suggestions -/

/-- **C66 fails.** A suggestion is checked as one command with arguments, but put on the command line
as a text: the approved "`echo` with the arguments `a;` and `reboot`" is a line that runs `reboot`. -/
theorem C66_violated :
    suggest .normal [] c!"echo" [c!"a;", c!"reboot"] = some c!"echo a; reboot" ∧
    runs0 c!"echo a; reboot" = some [{ stages := [[c!"echo", c!"a"]] }, { stages := [[c!"reboot"]] }] ∧
    suggest .normal [] c!"echo" [c!"two words"] = some c!"echo two words" ∧
    runs0 c!"echo two words" = some [{ stages := [[c!"echo", c!"two", c!"words"]] }] :=
  ⟨by decide +kernel, runs0_eq 80 (by decide +kernel), by decide +kernel, runs0_eq 80 (by decide +kernel)⟩

/-- The line that consists of the plain words given. -/
def plainLine (cmd : Str) (args : List Str) : Line :=
  ⟨[], ⟨[], some (⟨.bare (cmd.map .plain), args.map (fun a => .word c!" " (.bare (a.map .plain)))⟩, [])⟩, [], []⟩

theorem plainLine_text (cmd : Str) (args : List Str) : (plainLine cmd args).text = fullCmd cmd args := by
  have : ∀ (cmd : Str), cmd ++ (args.map (fun a => Arg.text (.word c!" " (.bare (a.map .plain))))).flatten =
      joinWith c!" " (cmd :: args) := by
    induction args with
    | nil => intro cmd; simp [joinWith]
    | cons a args ih =>
      intro cmd
      rw [joinWith, ← ih a]
      simp only [List.map_cons, List.flatten_cons, Arg.text, plain_text]
      simp
      intro h; simp at h
  simp only [plainLine, Line.text, Cmd.text, bgsText, mainText, stagesText, Simple.text, plain_text, fullCmd,
    ← this cmd]
  simp [Function.comp_def, restText]

/-- **C66, the part that holds.** If command and arguments are plain words (`ok`: no special characters;
`FitLine`: nothing expansion would touch, no alias), the text that is put on the command line runs
exactly the command that was checked, with exactly these arguments. -/
theorem C66_plain_partial {E : Env} {W : World} {level allow cmd args text}
    (h : suggest level allow cmd args = some text)
    (hok : (plainLine cmd args).ok = true) (hf : FitLine E (plainLine cmd args))
    (hr : ∀ s ∈ (plainLine cmd args).simples, Runs W s) (id : Nat) :
    ∃ j id', lineJobs E W id text = some ([j], id') ∧ j.procs.map Proc.argv = [cmd :: args] ∧
      j.redirect = none ∧ j.foreground = true := by
  have ht : text = (plainLine cmd args).text := by
    rw [plainLine_text]
    unfold suggest at h
    split at h
    · injection h with h; exact h.symm
    · cases h
  have hfill : (plainLine cmd args).mapW (Word.fill (valOf E)) = plainLine cmd args := by
    simp [plainLine, Line.mapW, Cmd.mapW, Simple.mapW, Word.fill, Arg.mapW, Function.comp_def]
  obtain ⟨js, id', h1, h2⟩ := C03_line_meaning_partial hok hf (by rw [hfill]; exact hr) id
  rw [hfill] at h2
  have hv : ∀ s : Str, (Word.bare (s.map .plain)).value = s := by
    intro s
    simp only [Word.value, List.map_map]
    exact (List.map_congr_left (fun _ _ => rfl)).trans (List.map_id s)
  have hargv : Simple.argv ⟨.bare (cmd.map .plain), args.map (fun a => Arg.word c!" " (.bare (a.map .plain)))⟩ =
      cmd :: args := by
    simp only [Simple.argv, hv]
    congr 1
    clear h ht hf hr hok hfill h1 h2
    induction args with
    | nil => rfl
    | cons a args ih => simp only [List.map_cons, List.filterMap_cons, Arg.wordVal, hv, ih]
  have hred : Simple.redirect ⟨.bare (cmd.map .plain), args.map (fun a => Arg.word c!" " (.bare (a.map .plain)))⟩ =
      none := by
    simp only [Simple.redirect]
    have : (args.map (fun a => Arg.word c!" " (.bare (a.map .plain)))).filterMap Arg.redirVal = [] := by
      clear h ht hf hr hok hfill h1 h2 hargv
      induction args with
      | nil => rfl
      | cons a args ih => simp only [List.map_cons, List.filterMap_cons, Arg.redirVal, ih]
    rw [this]; rfl
  have hw : (plainLine cmd args).want = [⟨[cmd :: args], false, none, .seq⟩] := by
    simp [plainLine, Line.want, restWant, Cmd.want, hargv, lastRedir, hred]
  rw [hw] at h2
  cases h2 with
  | cons hj hn =>
    cases hn
    refine ⟨_, id', by rw [ht]; exact h1, hj.argv, hj.redirect, ?_⟩
    rw [hj.foreground]; rfl

example : ∃ j id', lineJobs E0 W0 0 c!"ls -l" = some ([j], id') ∧
    j.procs.map Proc.argv = [[c!"ls", c!"-l"]] ∧ j.redirect = none ∧ j.foreground = true := by
  refine C66_plain_partial (level := .normal) (allow := []) (by decide +kernel) (by decide) ⟨?_, ?_, by decide⟩ ?_ 0
  · intro s hs
    simp only [plainLine, Line.simples, Line.cmds, Cmd.simples, List.map_cons, List.map_nil, List.flatMap_cons,
      List.flatMap_nil, List.append_nil, List.nil_append, List.mem_singleton] at hs
    subst hs
    refine ⟨⟨by decide, by decide⟩, rfl, by decide, ?_, ?_⟩
    · intro sep w hm
      simp at hm
      obtain ⟨-, rfl⟩ := hm
      exact ⟨by decide, by decide⟩
    · intro sep k gap w hm
      simp at hm
  · intro k; cases k <;> decide
  · exact fun s hs => ⟨.inr rfl, by revert s; decide⟩

/-! ### C67: command tools -/

/-- A tool call carries the command itself. -/
def J1 : Json := ⟨id, some⟩

/-- **C67 fails.** A command given to a tool that runs shell commands is looked at only at its first
word: the tool runs, unasked, what is asked about when typed. -/
theorem C67_violated :
    checkTool J1 c!"bash" c!"cd /tmp && rm -rf x" .normal [] = .allowed ∧
    seen c!"cd /tmp && rm -rf x" = some (.confirm, [[[c!"cd", c!"/tmp"]], [[c!"rm", c!"-rf", c!"x"]]]) :=
  ⟨by decide +kernel, seen_eq 80 (by decide +kernel)⟩

/-- **C67, the part that holds.** For a text that is one job when typed, tool and command line get the
same answer (nothing being on the allowlist), at every level. -/
theorem C67_single_partial {J : Json} {tool args s : Str} (ht : mcpRuns tool = true)
    (hs : J.command args = some s) (hw : splitWs s ≠ []) (level : Level) :
    checkTool J tool args level [] = checkJobs level [] [s] := by
  obtain ⟨w, ws, hw⟩ := List.exists_cons_of_ne_nil hw
  cases level with
  | loose => rfl
  | strict => simp [checkTool, mcpListed, ht, hs, hw, checkCommand, checkJobs]
  | normal =>
    simp [checkTool, mcpListed, ht, hs, hw, checkCommand, checkJobs, anyObjects, jobObjects]

/-- **C67: a tool that runs commands is never executed unasked if its command is missing or empty.** -/
theorem C67_missing {J : Json} {tool args : Str} (ht : mcpRuns tool = true)
    (hs : ∀ s, J.command args = some s → splitWs s = []) {level : Level} (hl : level ≠ .loose) :
    checkTool J tool args level [] = .confirm := by
  unfold checkTool
  rw [if_neg hl, if_neg (by simp [mcpListed]), if_pos ht]
  cases h : J.command args with
  | none => rfl
  | some s => simp only [hs s h]

example : checkTool J1 c!"bash" c!"rm -rf x" .normal [] = .confirm :=
  (C67_single_partial (by decide) rfl (by decide) _).trans (by decide +kernel)

end Dsh.Safety
