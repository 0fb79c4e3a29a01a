import Verif.Repl.AiTab
/-!
# C192: what is proved of questions on Tab
-/
namespace Dsh.AiTab

/-! ### The last `|?` -/

theorem rfind2_isSome {x y : Char} (u v : Str) : rfind2 x y (u ++ x :: y :: v) ≠ none := by
  induction u with
  | nil => rw [List.nil_append, rfind2]; split <;> simp
  | cons c u ih =>
    rw [List.cons_append, rfind2]
    cases h : rfind2 x y (u ++ x :: y :: v) with
    | none => exact absurd h ih
    | some p => simp

theorem rfind2_some {x y : Char} (hxy : x ≠ y) {s a b : Str} (h : rfind2 x y s = some (a, b)) :
    s = a ++ x :: y :: b ∧ ¬ [x, y] <:+: b := by
  induction s generalizing a b with
  | nil => cases h
  | cons c s ih =>
    rw [rfind2] at h
    cases hs : rfind2 x y s with
    | some p =>
      rw [hs] at h
      obtain ⟨a', b'⟩ := p
      simp only [Option.some.injEq, Prod.mk.injEq] at h
      obtain ⟨rfl, rfl⟩ := h
      obtain ⟨h1, h2⟩ := ih hs
      exact ⟨by rw [h1]; rfl, h2⟩
    | none =>
      rw [hs] at h
      dsimp only at h
      split at h
      · rename_i hc
        simp only [Option.some.injEq, Prod.mk.injEq] at h
        obtain ⟨rfl, rfl⟩ := h
        obtain ⟨rfl, h2⟩ := hc
        cases s with
        | nil => cases h2
        | cons z s =>
          simp only [List.head?_cons, Option.some.injEq] at h2
          subst h2
          refine ⟨rfl, ?_⟩
          rintro ⟨u, v, hv⟩
          refine rfind2_isSome (x := c) (y := z) (z :: u) v ?_
          have e : z :: u ++ c :: z :: v = z :: s := by
            have hv : u ++ [c, z] ++ v = s := hv
            rw [← hv]; simp
          rw [e]; exact hs
      · cases h

theorem rfind2_none {x y : Char} {s : Str} (h : rfind2 x y s = none) : ¬ [x, y] <:+: s := by
  rintro ⟨u, v, rfl⟩
  refine rfind2_isSome (x := x) (y := y) u v ?_
  simpa using h

theorem rfind2_append {x y : Char} (hxy : x ≠ y) (a b : Str) (hb : ¬ [x, y] <:+: b) :
    rfind2 x y (a ++ x :: y :: b) = some (a, b) := by
  cases h : rfind2 x y (a ++ x :: y :: b) with
  | none => exact absurd h (rfind2_isSome a b)
  | some p =>
    obtain ⟨a', b'⟩ := p
    obtain ⟨h1, h2⟩ := rfind2_some hxy h
    have key : ∀ (a b a' b' : Str), a ++ x :: y :: b = a' ++ x :: y :: b' → ¬ [x, y] <:+: b → ¬ [x, y] <:+: b' → a = a' ∧ b = b' := by
      intro a
      induction a with
      | nil =>
        intro b a' b' e h1 h2
        cases a' with
        | nil => simpa using e
        | cons p a' =>
          cases a' with
          | nil =>
            simp only [List.nil_append, List.cons_append, List.cons.injEq] at e
            exact absurd e.2.1.symm hxy
          | cons q a' =>
            simp only [List.nil_append, List.cons_append, List.cons.injEq] at e
            exact absurd ⟨a', b', by rw [e.2.2]; simp⟩ h1
      | cons c a ih =>
        intro b a' b' e h1 h2
        cases a' with
        | nil =>
          cases a with
          | nil =>
            simp only [List.nil_append, List.cons_append, List.cons.injEq] at e
            exact absurd e.2.1 hxy
          | cons q a =>
            simp only [List.nil_append, List.cons_append, List.cons.injEq] at e
            exact absurd ⟨a, b, by rw [← e.2.2]; simp⟩ h2
        | cons p a' =>
          simp only [List.cons_append, List.cons.injEq] at e
          have := ih b a' b' e.2 h1 h2
          exact ⟨by rw [e.1, this.1], this.2⟩
    obtain ⟨rfl, rfl⟩ := key _ _ _ _ h1 hb h2
    rfl

/-! ### Specification -/

/-- The line has a question for a pipeline: behind the last `|?` stands `q`. -/
def PipeAt (line a q : Str) : Prop := ∃ b, line = a ++ c!"|?" ++ b ∧ ¬ c!"|?" <:+: b ∧ q = trim b ∧ q ≠ []

/-- The line is a question. -/
def LineAt (line q : Str) : Prop := ∃ b, trimStart line = c!"??" ++ b ∧ q = trim b ∧ q ≠ []

theorem pipe_some {line q : Str} : pipeQuestion line = some q ↔ ∃ a, PipeAt line a q := by
  unfold pipeQuestion
  constructor
  · intro h
    cases hr : rfind2 '|' '?' line with
    | none => rw [hr] at h; cases h
    | some p =>
      obtain ⟨a, b⟩ := p
      rw [hr] at h
      dsimp only at h
      by_cases hb : (trim b).isEmpty
      · rw [if_pos hb] at h; cases h
      · rw [if_neg hb] at h
        obtain ⟨h1, h2⟩ := rfind2_some (by decide) hr
        cases h
        exact ⟨a, b, by rw [h1]; simp, h2, rfl, fun e => hb (by rw [e]; rfl)⟩
  · rintro ⟨a, b, rfl, hb, rfl, hq⟩
    rw [List.append_assoc]
    rw [show a ++ (c!"|?" ++ b) = a ++ '|' :: '?' :: b from rfl, rfind2_append (by decide) a b hb]
    dsimp only
    rw [if_neg (fun h => hq (List.isEmpty_iff.1 h))]

theorem pipe_rfind {line a q : Str} (h : PipeAt line a q) : ∃ b, rfind2 '|' '?' line = some (a, b) := by
  obtain ⟨b, rfl, hb, _, _⟩ := h
  refine ⟨b, ?_⟩
  rw [List.append_assoc]
  exact rfind2_append (by decide) a b hb

theorem pipe_none {line : Str} : pipeQuestion line = none ↔ ∀ a q, ¬ PipeAt line a q := by
  constructor
  · intro h a q hp
    have := pipe_some.2 ⟨a, hp⟩
    rw [h] at this; cases this
  · intro h
    cases hq : pipeQuestion line with
    | none => rfl
    | some q =>
      obtain ⟨a, ha⟩ := pipe_some.1 hq
      exact absurd ha (h a q)

theorem line_some {line q : Str} : lineQuestion line = some q ↔ LineAt line q := by
  unfold lineQuestion LineAt
  constructor
  · intro h
    split at h
    · rename_i b he
      by_cases hb : (trim b).isEmpty
      · rw [if_pos hb] at h; cases h
      · rw [if_neg hb] at h
        cases h
        exact ⟨b, he, rfl, fun e => hb (by rw [e]; rfl)⟩
    · cases h
  · rintro ⟨b, he, rfl, hq⟩
    rw [he]
    exact if_neg (fun h => hq (List.isEmpty_iff.1 h))

theorem line_none {line : Str} : lineQuestion line = none ↔ ∀ q, ¬ LineAt line q := by
  constructor
  · intro h q hp
    have := line_some.2 hp
    rw [h] at this; cases this
  · intro h
    cases hq : lineQuestion line with
    | none => rfl
    | some q => exact absurd (line_some.1 hq) (h q)

/-- A line cannot have two such questions with different texts before. -/
theorem pipe_unique {line a q a' q' : Str} (h : PipeAt line a q) (h' : PipeAt line a' q') : a = a' ∧ q = q' := by
  obtain ⟨b, hb⟩ := pipe_rfind h
  obtain ⟨b', hb'⟩ := pipe_rfind h'
  have h1 := pipe_some.2 ⟨a, h⟩
  have h2 := pipe_some.2 ⟨a', h'⟩
  rw [hb] at hb'; rw [h1] at h2
  cases hb'; cases h2
  exact ⟨rfl, rfl⟩

/-- The command the service proposed for a message, if the guard lets it pass without asking. -/
def Proposes (w : World) (k : Kind) (m : Str) (c : Str) (args : List Str) : Prop :=
  ∃ answer content, w.service = some answer ∧ answer k m = some content ∧ w.parse (unfence content) = some (c, args) ∧
    Safety.checkCommand w.level c args w.allow = .allowed

theorem reply_cmd {w : World} {a : Option Str} {t : Str} : reply w a = .cmd t ↔
    ∃ content c args, a = some content ∧ w.parse (unfence content) = some (c, args) ∧
      Safety.checkCommand w.level c args w.allow = .allowed ∧ t = Safety.fullCmd c args := by
  unfold reply
  constructor
  · intro h
    cases a with
    | none => cases h
    | some content =>
      dsimp only at h
      split at h
      · cases h
      · rename_i c args hp
        split at h
        · cases h
        · rename_i t' hs
          cases h
          unfold Safety.suggest at hs
          split at hs
          · rename_i hc; cases hs; exact ⟨content, c, args, rfl, hp, hc, rfl⟩
          · cases hs
  · rintro ⟨content, c, args, rfl, hp, hc, rfl⟩
    simp only [hp, Safety.suggest, hc]

theorem ask_cmd {w : World} {k : Kind} {q t : Str} {s : List Str} : ask w k q = (s, .cmd t) ↔
    ∃ m c args, Safety.sanitize q k.max = some m ∧ s = [m] ∧ Proposes w k m c args ∧ t = Safety.fullCmd c args := by
  unfold ask
  constructor
  · intro h
    split at h
    · cases h
    · rename_i answer hs
      split at h
      · cases h
      · rename_i m hm
        simp only [Prod.mk.injEq] at h
        obtain ⟨h1, h2⟩ := h
        obtain ⟨content, c, args, ha, hp, hc, ht⟩ := reply_cmd.1 h2
        exact ⟨m, c, args, hm, h1.symm, ⟨answer, content, hs, ha, hp, hc⟩, ht⟩
  · rintro ⟨m, c, args, hm, rfl, ⟨answer, content, hs, ha, hp, hc⟩, rfl⟩
    rw [hs]; dsimp only; rw [hm]; dsimp only
    rw [(reply_cmd (t := Safety.fullCmd c args)).2 ⟨content, c, args, ha, hp, hc, rfl⟩]

/-! ### C192 -/

/-- `A |? question` becomes `A| command` with the caret at the end if the guard lets the command pass; the question is all
that is sent. -/
theorem C192_pipe_partial {w : World} {line a q m c : Str} {args : List Str} (hp : PipeAt line a q)
    (hm : Safety.sanitize q 2000 = some m) (h : Proposes w .pipe m c args) (caret : Nat) :
    tab w line caret = ⟨[m], .set (a ++ c!"| " ++ Safety.fullCmd c args) (a ++ c!"| " ++ Safety.fullCmd c args).length⟩ := by
  unfold tab
  obtain ⟨b, hb⟩ := pipe_rfind hp
  rw [pipe_some.2 ⟨a, hp⟩]
  dsimp only
  rw [ask_cmd.2 ⟨m, c, args, hm, rfl, h, rfl⟩]
  dsimp only
  rw [hb]
  rfl

/-- `?? question` becomes the command. -/
theorem C192_line_partial {w : World} {line q m c : Str} {args : List Str} (hn : ∀ a q, ¬ PipeAt line a q) (hp : LineAt line q)
    (hm : Safety.sanitize q 5000 = some m) (h : Proposes w .line m c args) (caret : Nat) :
    tab w line caret = ⟨[m], .set (Safety.fullCmd c args) (Safety.fullCmd c args).length⟩ := by
  unfold tab
  rw [pipe_none.2 hn]
  dsimp only
  unfold tabLine
  rw [line_some.2 hp]
  dsimp only
  rw [ask_cmd.2 ⟨m, c, args, hm, rfl, h, rfl⟩]
  rfl

theorem tabLine_sent {w : World} {line m : Str} {caret : Nat} (h : m ∈ (tabLine w line caret).sent) :
    ∃ q, LineAt line q ∧ Safety.sanitize q 5000 = some m := by
  unfold tabLine at h
  cases hq : lineQuestion line with
  | none => rw [hq] at h; simp at h
  | some q =>
    rw [hq] at h
    dsimp only at h
    have hs : m ∈ (ask w .line q).1 := by
      split at h <;> rename_i he <;> rw [he] <;> exact h
    unfold ask at hs
    split at hs
    · simp at hs
    · split at hs
      · simp at hs
      · rename_i hm
        simp only [List.mem_singleton] at hs
        subst hs
        exact ⟨q, line_some.1 hq, hm⟩

/-- Whatever is sent is a question of the line, cleaned: the text behind the last `|?`, or a line behind `??`. Nothing is
sent for any other line. -/
theorem C192_sent_partial {w : World} {line m : Str} {caret : Nat} (h : m ∈ (tab w line caret).sent) :
    (∃ a q, PipeAt line a q ∧ Safety.sanitize q 2000 = some m) ∨ (∃ q, LineAt line q ∧ Safety.sanitize q 5000 = some m) := by
  unfold tab at h
  cases hq : pipeQuestion line with
  | none => rw [hq] at h; exact .inr (tabLine_sent h)
  | some q =>
    rw [hq] at h
    dsimp only at h
    have hs : m ∈ (ask w .pipe q).1 ∨ m ∈ (tabLine w line caret).sent := by
      split at h
      · rename_i he; rw [he]; exact .inl h
      · rename_i he; rw [he]; exact List.mem_append.1 h
      · rename_i he
        rw [he]
        split at h
        · exact .inl h
        · exact List.mem_append.1 h
    rcases hs with hs | hs
    · obtain ⟨a, ha⟩ := pipe_some.1 hq
      unfold ask at hs
      split at hs
      · simp at hs
      · split at hs
        · simp at hs
        · rename_i hm
          simp only [List.mem_singleton] at hs
          subst hs
          exact .inl ⟨a, q, ha, hm⟩
    · exact .inr (tabLine_sent hs)

/-- A line without a question is completed as ever, and nothing is sent. -/
theorem C192_plain_partial {w : World} {line : Str} (h1 : ¬ c!"|?" <:+: line) (h2 : ¬ c!"??" <+: trimStart line) (caret : Nat) :
    tab w line caret = ⟨[], .complete line caret⟩ := by
  have hp : pipeQuestion line = none := pipe_none.2 fun a q ⟨b, e, _⟩ => h1 ⟨a, b, e.symm⟩
  have hl : lineQuestion line = none := line_none.2 fun q ⟨b, e, _⟩ => h2 ⟨b, e.symm⟩
  unfold tab tabLine
  rw [hp]; dsimp only; rw [hl]

theorem tabLine_set {w : World} {line l : Str} {caret n : Nat} (h : (tabLine w line caret).fate = .set l n) :
    n = l.length ∧ ∃ q m c args, LineAt line q ∧ Safety.sanitize q 5000 = some m ∧ Proposes w .line m c args ∧
      l = Safety.fullCmd c args := by
  unfold tabLine at h
  cases hq : lineQuestion line with
  | none => rw [hq] at h; cases h
  | some q =>
    rw [hq] at h
    dsimp only at h
    split at h
    · cases h
    · cases h
    · rename_i he
      obtain ⟨m, c, args, hm, _, hpr, ht⟩ := ask_cmd.1 he
      cases h
      exact ⟨rfl, q, m, c, args, line_some.1 hq, hm, hpr, ht⟩

/-- The line changes only to what the service proposed and the guard lets pass: behind `| ` in place of the question, with
everything before it as it was, or in place of a line that is a question. -/
theorem C192_only_partial {w : World} {line l : Str} {caret n : Nat} (h : (tab w line caret).fate = .set l n) :
    n = l.length ∧
    ((∃ a q m c args, PipeAt line a q ∧ Safety.sanitize q 2000 = some m ∧ Proposes w .pipe m c args ∧
        l = a ++ c!"| " ++ Safety.fullCmd c args) ∨
     (∃ q m c args, LineAt line q ∧ Safety.sanitize q 5000 = some m ∧ Proposes w .line m c args ∧ l = Safety.fullCmd c args)) := by
  unfold tab at h
  cases hq : pipeQuestion line with
  | none => rw [hq] at h; exact ⟨(tabLine_set h).1, .inr (tabLine_set h).2⟩
  | some q =>
    rw [hq] at h
    dsimp only at h
    split at h
    · cases h
    · exact ⟨(tabLine_set h).1, .inr (tabLine_set h).2⟩
    · rename_i he
      obtain ⟨m, c, args, hm, _, hpr, ht⟩ := ask_cmd.1 he
      obtain ⟨a, ha⟩ := pipe_some.1 hq
      obtain ⟨b, hb⟩ := pipe_rfind ha
      rw [hb] at h
      cases h
      exact ⟨rfl, .inl ⟨a, q, m, c, args, ha, hm, hpr, by rw [ht]⟩⟩

/-- If nothing the service says passes, the line and the caret are as before, or the shell has ended. -/
theorem C192_keep_partial {w : World} {line l : Str} {caret n : Nat} (h : (tab w line caret).fate = .complete l n) : l = line ∧ n = caret := by
  have hl : ∀ {l n}, (tabLine w line caret).fate = .complete l n → l = line ∧ n = caret := by
    intro l n h
    unfold tabLine at h
    split at h
    · cases h; exact ⟨rfl, rfl⟩
    · split at h
      · cases h
      · cases h; exact ⟨rfl, rfl⟩
      · cases h
  unfold tab at h
  split at h
  · exact hl h
  · split at h
    · cases h
    · exact hl h
    · split at h
      · cases h
      · exact hl h

theorem bytes_filter (p : Char → Bool) (s : Str) : Safety.bytes (s.filter p) ≤ Safety.bytes s := by
  induction s with
  | nil => simp
  | cons c s ih =>
    have e : Safety.bytes (c :: s) = c.utf8Size + Safety.bytes s := by unfold Safety.bytes; rw [List.map_cons, List.sum_cons]
    rw [List.filter_cons]
    split
    · have e' : Safety.bytes (c :: s.filter p) = c.utf8Size + Safety.bytes (s.filter p) := by
        unfold Safety.bytes; rw [List.map_cons, List.sum_cons]
      omega
    · omega

theorem sanitize_short {q : Str} {max : Nat} (h : Safety.bytes q ≤ max) : Safety.sanitize q max ≠ none := by
  unfold Safety.sanitize
  dsimp only
  rw [if_neg]
  · simp
  · have h1 := bytes_filter (fun c => !Safety.isInvisible c) (q.filter (fun c => !Safety.isControl c || c = '\n' || c = '\r' || c = '\t'))
    have h2 := bytes_filter (fun c => !Safety.isControl c || c = '\n' || c = '\r' || c = '\t') q
    omega

theorem bytes_infix {s t : Str} (h : s <:+: t) : Safety.bytes s ≤ Safety.bytes t := by
  obtain ⟨u, v, rfl⟩ := h
  rw [AiHelp.bytes_append, AiHelp.bytes_append]
  omega

theorem pipe_infix {line a q : Str} (h : PipeAt line a q) : q <:+: line := by
  obtain ⟨b, rfl, _, rfl, _⟩ := h
  exact (AiSug.trim_infix b).trans (List.suffix_append ..).isInfix

theorem line_infix {line q : Str} (h : LineAt line q) : q <:+: line := by
  obtain ⟨b, e, rfl, _⟩ := h
  refine (AiSug.trim_infix b).trans (((List.suffix_append c!"??" b).isInfix).trans ?_)
  rw [← e]
  exact (List.dropWhile_suffix _).isInfix

theorem ask_panic {w : World} {k : Kind} {q : Str} {s : List Str} (h : ask w k q = (s, .panic)) : Safety.sanitize q k.max = none := by
  unfold ask at h
  split at h
  · cases h
  · split at h
    · assumption
    · rename_i answer _ m _
      simp only [Prod.mk.injEq] at h
      have h := h.2
      unfold reply at h
      split at h
      · cases h
      · split at h
        · cases h
        · split at h <;> cases h

/-- Short questions do not end the shell. -/
theorem C192_short_partial (w : World) {line : Str} (h : Safety.bytes line ≤ 2000) (caret : Nat) : (tab w line caret).fate ≠ .panic := by
  have hl : (tabLine w line caret).fate ≠ .panic := by
    unfold tabLine
    cases hq : lineQuestion line with
    | none => simp
    | some q =>
      dsimp only
      split
      · rename_i he
        exact absurd (ask_panic he) (sanitize_short (max := 5000) (by have := bytes_infix (line_infix (line_some.1 hq)); omega))
      · simp
      · simp [reset]
  unfold tab
  cases hq : pipeQuestion line with
  | none => exact hl
  | some q =>
    obtain ⟨a, ha⟩ := pipe_some.1 hq
    dsimp only
    split
    · rename_i he
      exact absurd (ask_panic he) (sanitize_short (max := 2000) (by have := bytes_infix (pipe_infix ha); omega))
    · exact hl
    · split
      · simp [reset]
      · exact hl

/-- An answer in one code block of JSON or of the shell is read without the block. -/
theorem C192_block_partial {lang : Str} (hlang : lang = c!"json" ∨ lang = c!"bash") (body : Str) :
    unfence (c!"```" ++ lang ++ '\n' :: body ++ c!"\n```") = body ++ ['\n'] := by
  have h : noTicks (c!"```" ++ lang ++ '\n' :: body ++ c!"\n```") = lang ++ '\n' :: body ++ ['\n'] := by
    rcases hlang with rfl | rfl <;> simp [noTicks]
  unfold unfence
  rw [h]
  rcases hlang with rfl | rfl <;> simp

/-- An answer that is no code block is read as it is. -/
theorem C192_raw_partial {s : Str} (h1 : s.head? ≠ some '`') (h2 : s.getLast? ≠ some '`') (h3 : ¬ c!"json\n" <+: s) (h4 : ¬ c!"bash\n" <+: s) :
    unfence s = s := by
  have hd : ∀ l : Str, l.head? ≠ some '`' → l.dropWhile (fun c => decide (c = '`')) = l := by
    intro l hl
    cases l with
    | nil => rfl
    | cons c l => rw [List.dropWhile_cons_of_neg]; simpa using hl
  have hn : noTicks s = s := by
    unfold noTicks
    rw [hd s h1, hd s.reverse (by rwa [List.head?_reverse]), List.reverse_reverse]
  unfold unfence
  rw [hn]
  split
  · exact absurd ⟨_, rfl⟩ h4
  · exact absurd ⟨_, rfl⟩ h3
  · rfl

/-! ### Refuted -/

/-- A `|?` in quotes is taken for a question: what stands behind it is sent to the service and is gone from the line,
which now has an open quote. -/
theorem C192_quoted_violated {w : World} {a b m c : Str} {args : List Str} (_ho : Keys.openQuote none a ≠ none)
    (hb : ¬ c!"|?" <:+: b) (hq : trim b ≠ []) (hm : Safety.sanitize (trim b) 2000 = some m) (h : Proposes w .pipe m c args) (caret : Nat) :
    (tab w (a ++ c!"|?" ++ b) caret).sent = [m] ∧
      ∃ n, (tab w (a ++ c!"|?" ++ b) caret).fate = .set (a ++ c!"| " ++ Safety.fullCmd c args) n := by
  have := C192_pipe_partial (line := a ++ c!"|?" ++ b) ⟨b, rfl, hb, rfl, hq⟩ hm h caret
  rw [this]
  exact ⟨rfl, _, rfl⟩

/-- The caret does not matter: with the caret on a word before the question, Tab does not complete this word, and everything
behind the question is part of it. -/
theorem C192_caret_violated {w : World} {line a q m c : Str} {args : List Str} (hp : PipeAt line a q)
    (hm : Safety.sanitize q 2000 = some m) (h : Proposes w .pipe m c args) (caret : Nat) (_hc : caret ≤ a.length) :
    (∀ l n, (tab w line caret).fate ≠ .complete l n) ∧ tab w line caret = tab w line line.length := by
  constructor
  · intro l n
    rw [C192_pipe_partial hp hm h caret]; simp
  · rw [C192_pipe_partial hp hm h caret, C192_pipe_partial hp hm h line.length]

theorem ask_failed {w : World} {answer : Kind → Str → Option Str} (hs : w.service = some answer) {k : Kind} {q m : Str}
    (hm : Safety.sanitize q k.max = some m) (ha : reply w (answer k m) = .failed) : ask w k q = ([m], .failed) := by
  unfold ask
  rw [hs]; dsimp only; rw [hm]; dsimp only; rw [ha]

/-- One press may ask two questions: a line with both, if the first one is not answered; the first one is sent again as a
part of the second one. -/
theorem C192_twice_violated {w : World} {answer : Kind → Str → Option Str} (hs : w.service = some answer) {line a q q' m m' : Str}
    (hp : PipeAt line a q) (hl : LineAt line q') (hm : Safety.sanitize q 2000 = some m) (hm' : Safety.sanitize q' 5000 = some m')
    (ha : reply w (answer .pipe m) = .failed) (ha' : reply w (answer .line m') = .failed) (caret : Nat) :
    tab w line caret = ⟨[m, m'], .complete line caret⟩ := by
  have h2 : tabLine w line caret = ⟨[m'], .complete line caret⟩ := by
    unfold tabLine
    rw [line_some.2 hl]; dsimp only; rw [ask_failed hs hm' ha']
  unfold tab
  rw [pipe_some.2 ⟨a, hp⟩]; dsimp only; rw [ask_failed hs hm ha, h2]
  rfl

/-- Nothing is said of a failure: a command the guard stopped, an answer that cannot be read, a service out of reach and no
service at all leave the same line, and the completion goes on. -/
theorem C192_silent_violated {w : World} {line a q m : Str} (hp : PipeAt line a q) (hl : ∀ q, ¬ LineAt line q)
    (hm : Safety.sanitize q 2000 = some m)
    (hw : w.service = none ∨ ∃ answer, w.service = some answer ∧
      (answer .pipe m = none ∨ ∃ content, answer .pipe m = some content ∧
        (w.parse (unfence content) = none ∨ ∃ c args, w.parse (unfence content) = some (c, args) ∧
          Safety.checkCommand w.level c args w.allow = .confirm))) (caret : Nat) :
    (tab w line caret).fate = .complete line caret := by
  have h2 : tabLine w line caret = ⟨[], .complete line caret⟩ := by
    unfold tabLine; rw [line_none.2 hl]
  have h1 : ∃ s, ask w .pipe q = (s, .failed) := by
    rcases hw with hw | ⟨answer, hs, hw⟩
    · exact ⟨[], by unfold ask; rw [hw]⟩
    · refine ⟨[m], ask_failed hs hm ?_⟩
      unfold reply
      rcases hw with hw | ⟨content, hc, hw⟩
      · rw [hw]
      · rw [hc]; dsimp only
        rcases hw with hw | ⟨c, args, hw, hg⟩
        · rw [hw]
        · rw [hw]; dsimp only; unfold Safety.suggest; rw [hg]
  obtain ⟨s, hs⟩ := h1
  unfold tab
  rw [pipe_some.2 ⟨a, hp⟩]; dsimp only; rw [hs, h2]

/-- A question of more than 2000 bytes with a character across this limit ends the shell. -/
theorem C192_panic_violated {w : World} {answer : Kind → Str → Option Str} (hs : w.service = some answer) {line a s t : Str} {c : Char}
    (hp : PipeAt line a (s ++ c :: t)) (ha : AiHelp.Ascii s) (hc : 1 < c.utf8Size) (ht : AiHelp.Seen (c :: t)) (hn : s.length = 1999)
    (caret : Nat) : (tab w line caret).fate = .panic := by
  have h := AiHelp.sanitize_panics ha hc ht 2000 (by omega)
  unfold tab
  rw [pipe_some.2 ⟨a, hp⟩]; dsimp only
  have : ask w .pipe (s ++ c :: t) = ([], .panic) := by
    unfold ask; rw [hs]; dsimp only
    rw [show Kind.pipe.max = 2000 from rfl, h]
  rw [this]

/-- A code block with a line end behind it is not read: the last backquotes stay, so no JSON text is left. -/
theorem C192_block_violated {w : World} (hj : ∀ s p, w.parse s = some p → (trimEnd s).getLast? = some '}' ∨ (trimEnd s).getLast? = some ']')
    (body : Str) : reply w (some (c!"```json\n" ++ body ++ c!"\n```\n")) = .failed := by
  have hn : noTicks (c!"```json\n" ++ body ++ c!"\n```\n") = c!"json\n" ++ body ++ c!"\n```\n" := by simp [noTicks]
  have hu : unfence (c!"```json\n" ++ body ++ c!"\n```\n") = body ++ c!"\n```\n" := by
    unfold unfence; rw [hn]; simp
  unfold reply
  dsimp only
  rw [hu]
  cases hp : w.parse (body ++ c!"\n```\n") with
  | none => rfl
  | some p =>
    have ht : (trimEnd (body ++ c!"\n```\n")).getLast? = some '`' := by
      have : trimEnd (body ++ c!"\n```\n") = body ++ c!"\n```" := by
        simp [trimEnd, show rustWhitespace '\n' = true by decide, show rustWhitespace '`' = false by decide]
      rw [this, List.getLast?_append]; rfl
    rcases hj _ _ hp with h | h <;> rw [ht] at h <;> simp at h

/-! ### Cases -/

/-- A service that proposes `wc -l` for every pipeline and `rm -rf /` for every line; the JSON library of the cases knows
two texts. -/
def W0 (level : Safety.Level) : World where
  service := some fun k _ => match k with | .pipe => some c!"```json\nA\n```" | .line => some c!"B"
  parse := fun s => if s = c!"A\n" then some (c!"wc", [c!"-l"]) else if s = c!"B" then some (c!"rm", [c!"-rf", c!"/"]) else none
  level := level
  allow := []

example : tab (W0 .normal) c!"ls -a |? count them " 3 = ⟨[c!"count them"], .set c!"ls -a | wc -l" 13⟩ ∧
    tab (W0 .normal) c!" ?? clean up" 12 = ⟨[c!"clean up"], .complete c!" ?? clean up" 12⟩ ∧
    tab (W0 .loose) c!" ?? clean up" 12 = ⟨[c!"clean up"], .set c!"rm -rf /" 8⟩ ∧
    tab (W0 .normal) c!"grep -E 'a|?b' src/ma" 21 = ⟨[c!"b' src/ma"], .set c!"grep -E 'a| wc -l" 17⟩ ∧
    tab (W0 .strict) c!"?? all |? count" 15 = ⟨[c!"count", c!"all |? count"], .complete c!"?? all |? count" 15⟩ ∧
    tab (W0 .normal) c!"ls |?" 5 = ⟨[], .complete c!"ls |?" 5⟩ ∧ tab (W0 .normal) c!"ls ??" 5 = ⟨[], .complete c!"ls ??" 5⟩ := by
  decide +kernel

example : Keys.openQuote none c!"grep -E 'a" ≠ none := by decide

example : PipeAt c!"ls -a |? count them " c!"ls -a " c!"count them" ∧ LineAt c!" ?? clean up" c!"clean up" :=
  ⟨⟨c!" count them ", by decide, rfind2_none (by decide),
    by decide, by decide⟩, ⟨c!" clean up", by decide, by decide, by decide⟩⟩

example : Proposes (W0 .normal) .pipe c!"count them" c!"wc" [c!"-l"] :=
  ⟨_, c!"```json\nA\n```", rfl, rfl, by decide, by decide⟩

/-- Letters and one with an accent behind `|?`. -/
theorem long_line (n : Nat) : PipeAt (c!"ls " ++ c!"|?" ++ ('a' :: List.replicate n 'a' ++ c!"é")) c!"ls " ('a' :: List.replicate n 'a' ++ 'é' :: []) := by
  have hm : ∀ d ∈ 'a' :: List.replicate n 'a' ++ c!"é", d = 'a' ∨ d = 'é' := by
    intro d hd
    rcases List.mem_append.1 hd with h | h
    · rcases List.mem_cons.1 h with h | h
      · exact .inl h
      · exact .inl (List.eq_of_mem_replicate h)
    · exact .inr (List.mem_singleton.1 h)
  have ht : trim ('a' :: List.replicate n 'a' ++ c!"é") = 'a' :: List.replicate n 'a' ++ c!"é" := by
    rw [trim, trimStart, List.cons_append, List.dropWhile_cons_of_neg (by decide), trimEnd, List.reverse_cons, List.reverse_append,
      List.reverse_cons, List.reverse_nil, List.nil_append, List.cons_append, List.cons_append, List.dropWhile_cons_of_neg (by decide)]
    simp
  refine ⟨_, rfl, ?_, ht.symm, by simp⟩
  rintro ⟨u, v, h⟩
  have := hm '|' (by rw [← h]; simp)
  revert this; decide

/-- 1999 letters and one with an accent. -/
example (caret : Nat) : (tab (W0 .normal) (c!"ls " ++ c!"|?" ++ ('a' :: List.replicate 1998 'a' ++ c!"é")) caret).fate = .panic := by
  refine C192_panic_violated rfl (long_line 1998) ?_ (by decide) ?_ (by rw [List.length_cons, List.length_replicate]) caret
  · intro d hd
    have : d = 'a' := by
      rcases List.mem_cons.1 hd with h | h
      · exact h
      · exact List.eq_of_mem_replicate h
    rw [this]; decide
  · intro d hd
    rw [List.mem_singleton.1 hd]; decide

end Dsh.AiTab
