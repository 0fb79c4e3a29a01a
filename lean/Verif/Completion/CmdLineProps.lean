import Verif.Completion.CmdLine
/-!
# C116, C117: the word Tab completes and the text it replaces
-/
namespace Dsh.CmdLine
open Dsh.Tokens Dsh.Editor

/-! ## Lemmas on tokens -/

theorem act_congr {m m' : Mode} {c : Char} (h : isSep m c = isSep m' c) (s : St) : act m s c = act m' s c := by
  unfold act; rw [h]

theorem tokenize_congr {m m' : Mode} {l : Str} (h : ∀ c ∈ l, isSep m c = isSep m' c) :
    tokenize l m = tokenize l m' := by
  unfold tokenize finish
  have : ∀ s : St, l.foldl (step m) s = l.foldl (step m') s := by
    induction l with
    | nil => intro s; rfl
    | cons c l ih =>
      intro s
      simp only [List.foldl_cons]
      rw [show step m s c = step m' s c by unfold step; rw [act_congr (h c (by simp))]]
      exact ih (fun c hc => h c (by simp [hc])) _
  rw [this]

theorem sum_ones {l : Str} (h : ∀ c ∈ l, c.utf8Size = 1) : (l.map Char.utf8Size).sum = l.length := by
  induction l with
  | nil => rfl
  | cons c l ih =>
    simp only [List.map_cons, List.sum_cons, List.length_cons, h c (by simp), ih (fun c hc => h c (by simp [hc]))]
    omega

theorem takeBytes_ones {l : Str} (h : ∀ c ∈ l, c.utf8Size = 1) (n : Nat) : takeBytes n l = l.take n := by
  induction l generalizing n with
  | nil => simp [takeBytes]
  | cons c l ih =>
    have hc := h c (by simp)
    cases n with
    | zero => simp [takeBytes, hc]
    | succ n => simp [takeBytes, hc, ih (fun c hc => h c (by simp [hc]))]

/-- In a text of one-byte characters the token found by the byte position is the token at the caret. -/
theorem findCursor_at {l : List Span} {k : Nat} {s : Span}
    (hb : ∀ t ∈ l, t.start.byte = t.start.char ∧ t.stop.byte = t.stop.char)
    (ho : l.Pairwise (fun a b => a.stop.char < b.start.char))
    (hs : s ∈ l) (h1 : s.start.char ≤ k) (h2 : k ≤ s.stop.char) :
    l[(findCursor k l).1]? = some s ∧ (findCursor k l).2 = true := by
  induction l with
  | nil => simp at hs
  | cons t l ih =>
    have ht := hb t (by simp)
    rcases List.mem_cons.1 hs with rfl | hs
    · have : k ≤ s.stop.byte := by omega
      simp only [findCursor, this, if_true]
      exact ⟨rfl, by simp; omega⟩
    · have hlt := (List.pairwise_cons.1 ho).1 s hs
      have : ¬ k ≤ t.stop.byte := by omega
      obtain ⟨h3, h4⟩ := ih (fun t ht => hb t (by simp [ht])) (List.pairwise_cons.1 ho).2 hs
      simp only [findCursor, this, if_false]
      exact ⟨by simpa using h3, h4⟩

theorem findCursor_le (k : Nat) (l : List Span) : (findCursor k l).1 ≤ l.length := by
  induction l with
  | nil => simp [findCursor]
  | cons t l ih => unfold findCursor; split <;> simp <;> omega

/-! ## C116: a chosen candidate takes the place of the word -/

theorem isPrefixOf_eq {a b : Str} (h : a.isPrefixOf b = true) : ∃ r, b = a ++ r := by
  obtain ⟨r, h⟩ := List.isPrefixOf_iff_prefix.1 h
  exact ⟨r, h.symm⟩

/-- What stands before the value in a word that gives an option and its value at once. -/
inductive ValueHead : Str → Str → Prop where
  | long (name : Str) : isLong name = true → ValueHead name (name ++ ['='])
  | short (name : Str) : blen name = 2 → isLong name = false → ValueHead name name

/-- **C116, what is replaced.** Let the caret be on the word `w` of the line, or at one of its ends.
Whatever was found out about the position, choosing `val` replaces that word by `val`; or, when the
value of an option is completed and the word is `--name=value` or `-xvalue`, the value. The rest of
the line stays, the caret is behind `val`. -/
theorem C116_range_partial (W : Char → Nat) (z : Zip) (ctx : Ctx) (val : Str) (s : Span)
    (ht : tokenAt z.text z.before.length .completionRange = some s) :
    ∃ a b head tail r, z.text = a ++ (head ++ tail) ++ b ∧ s.raw = head ++ tail ∧ a.length = s.start.char ∧
      a.length ≤ z.before.length ∧ z.before.length ≤ a.length + s.raw.length ∧
      (head = [] ∨ ∃ name, ctx = .value name ∧ ValueHead name head) ∧
      replacement z.text z.before.length ctx = some r ∧
      z.op W (.replaceRange r.start r.stop val) = ⟨a ++ head ++ val, b⟩ := by
  obtain ⟨h1, h2, h3, -⟩ := (C07_caret z.text .completionRange z.before.length).1 s ht
  obtain ⟨a, b, e1, -, e3, e4, -, -⟩ := C07_slice z.text .completionRange s h1
  have hz : z.before.length ≤ z.text.length := by simp [Zip.text]
  have hm : min z.before.length z.text.length = z.before.length := by omega
  rw [hm] at h2 h3
  have hsl : slice z.text s.start.char s.stop.char = s.raw := by
    unfold slice; rw [e3, e4]; rw [show (a ++ s.raw).length - a.length = s.raw.length by simp]
    rw [e1, List.append_assoc, List.drop_left, List.take_left]
  have hcaret : z.before.length ≤ a.length + s.raw.length := by rw [e4] at h3; simpa using h3
  have key : ∀ head tail, s.raw = head ++ tail → (head = [] ∨ ∃ name, ctx = .value name ∧ ValueHead name head) →
      replacement z.text z.before.length ctx = some ⟨a.length + head.length, a.length + s.raw.length⟩ →
      ∃ a b head tail r, z.text = a ++ (head ++ tail) ++ b ∧ s.raw = head ++ tail ∧ a.length = s.start.char ∧
      a.length ≤ z.before.length ∧ z.before.length ≤ a.length + s.raw.length ∧
      (head = [] ∨ ∃ name, ctx = .value name ∧ ValueHead name head) ∧
      replacement z.text z.before.length ctx = some r ∧
      z.op W (.replaceRange r.start r.stop val) = ⟨a ++ head ++ val, b⟩ := by
    intro head tail hw hh hr
    refine ⟨a, b, head, tail, _, by rw [e1, hw], hw, e3.symm, by omega, hcaret, hh, hr, ?_⟩
    have hlen : z.text.length = a.length + s.raw.length + b.length := by rw [e1]; simp; omega
    have hwl : s.raw.length = head.length + tail.length := by rw [hw]; simp
    have hc : a.length + head.length ≤ a.length + s.raw.length ∧
        a.length + s.raw.length ≤ z.text.length := by omega
    simp only [Zip.op, hc, and_self, if_true]
    congr 1
    · rw [e1, hw, show a ++ (head ++ tail) ++ b = (a ++ head) ++ (tail ++ b) by simp,
        show a.length + head.length = (a ++ head).length by simp, List.take_left]
    · rw [e1, show a.length + s.raw.length = (a ++ s.raw).length by simp, List.drop_left]
  have whole : replacement z.text z.before.length ctx = some ⟨s.start.char, s.stop.char⟩ →
      replacement z.text z.before.length ctx = some ⟨a.length + ([] : Str).length, a.length + s.raw.length⟩ := by
    intro h; rw [h, e3, e4]; simp
  by_cases hv : ∃ name, ctx = .value name
  · obtain ⟨name, rfl⟩ := hv
    have hr : replacement z.text z.before.length (.value name) =
        some ((valueRange s.raw s.start.char name).getD ⟨s.start.char, s.stop.char⟩) := by
      unfold replacement; rw [ht]; simp only [hsl]
    cases hvr : valueRange s.raw s.start.char name with
    | none =>
      rw [hvr] at hr
      exact key [] s.raw rfl (.inl rfl) (whole hr)
    | some r =>
      rw [hvr] at hr
      unfold valueRange at hvr
      split at hvr
      · rename_i hp
        obtain ⟨v, hv⟩ := isPrefixOf_eq hp.2
        obtain rfl := Option.some.inj hvr
        refine key (name ++ ['=']) v hv (.inr ⟨name, rfl, .long name hp.1⟩) ?_
        rw [hr, e3]; simp
      · split at hvr
        · rename_i hp
          obtain ⟨v, hv⟩ := isPrefixOf_eq hp.2.2
          dsimp only at hvr
          split at hvr
          · obtain rfl := Option.some.inj hvr
            refine key name v hv (.inr ⟨name, rfl, .short name hp.1 (by simpa using hp.2.1)⟩) ?_
            rw [hr, e3]; rfl
          · cases hvr
        · cases hvr
  · have hr : replacement z.text z.before.length ctx = some ⟨s.start.char, s.stop.char⟩ := by
      unfold replacement; rw [ht]
      cases ctx <;> simp_all
    exact key [] s.raw rfl (.inl rfl) (whole hr)

example : ∃ s, tokenAt c!"kubectl --context=de get" 20 .completionRange = some s ∧ s.raw = c!"--context=de" := by
  exact ⟨_, rfl, rfl⟩

/-- A line in which the two ways of cutting agree: characters of one byte, and no white space but
blanks and tabs, no operators. -/
def PlainLine (l : Str) : Prop :=
  ∀ c ∈ l, c.utf8Size = 1 ∧ (isSep .completionRange c = true → isSep .parser c = true)

theorem PlainLine.tokens {l : Str} (h : PlainLine l) : tokenize l .completionRange = tokenize l .parser := by
  apply tokenize_congr
  intro c hc
  obtain ⟨-, h⟩ := h c hc
  cases hp : isSep .parser c with
  | false => cases hr : isSep .completionRange c with
    | false => rfl
    | true => rw [h hr] at hp; cases hp
  | true =>
    simp only [isSep, Bool.or_eq_true, decide_eq_true_eq] at hp
    rcases hp with rfl | rfl <;> decide

theorem splitInline_some {t n v : Str} (h : splitInline t = some (n, v)) :
    t = n ++ '=' :: v ∧ isLong n = true := by
  unfold splitInline at h
  split at h
  · cases h
  rename_i hl
  dsimp only at h
  split at h
  · cases h
  rename_i hne
  split at h
  · cases h
  rename_i hb
  simp only [Option.some.injEq, Prod.mk.injEq] at h
  obtain ⟨rfl, rfl⟩ := h
  have hd : t.dropWhile (· ≠ '=') ≠ [] := by
    intro hd
    have := List.takeWhile_append_dropWhile (p := fun c => decide (c ≠ '=')) (l := t)
    rw [hd, List.append_nil] at this
    exact hne (by rw [this])
  have hs := List.takeWhile_append_dropWhile (p := fun c => decide (c ≠ '=')) (l := t)
  obtain ⟨c, r, hcr⟩ := List.exists_cons_of_ne_nil hd
  have hc : c = '=' := by
    have := List.head_dropWhile_not (fun c => decide (c ≠ '=')) (l := t) (by exact hd)
    simp only [hcr, List.head_cons] at this
    simpa using this
  subst hc
  have e : t = t.takeWhile (· ≠ '=') ++ '=' :: r := by rw [← hcr]; exact hs.symm
  refine ⟨?_, ?_⟩
  · have : t.drop ((t.takeWhile (· ≠ '=')).length + 1) = r := by
      generalize t.takeWhile (· ≠ '=') = n at e
      subst e
      rw [← List.drop_drop, List.drop_left]; rfl
    rw [this]; exact e
  · -- the name keeps both dashes
    simp only [Bool.not_eq_true', Bool.not_eq_false] at hl
    obtain ⟨w, hw⟩ := isPrefixOf_eq hl
    simp only [isLong]
    rw [hw]
    simp [List.takeWhile]

/-- The contexts in which a value is completed: the word says so itself, or the one before it is an option. -/
theorem context_value {u : Tables} {i cur path args all space}
    (h : splitInline cur = none) : ∀ name, context u i cur path args all space = .value name →
      isOpt cur = false ∧ isOpt name = true := by
  intro name hc
  unfold context at hc
  rw [h] at hc
  dsimp only at hc
  split at hc
  · cases hc
  split at hc
  · split at hc <;> cases hc
  rename_i h2
  split at hc
  · rename_i h3
    simp only [Ctx.value.injEq] at hc
    subst hc
    exact ⟨by simpa using h2, by simpa using (Bool.and_eq_true_iff.1 h3).1⟩
  · repeat' split at hc
    all_goals first | cases hc

theorem analyze_current (u : Tables) {tokens : List Str} {i : Nat} (input : Str) {cur : Str}
    (h : tokens[i]? = some cur) :
    (∃ n v, splitInline cur = some (n, v) ∧ (analyze u tokens i input).ctx = .value n ∧
      (analyze u tokens i input).current = v) ∨
    ((analyze u tokens i input).current = cur ∧
      ∀ name, (analyze u tokens i input).ctx = .value name → isOpt cur = false ∧ isOpt name = true) := by
  cases tokens with
  | nil => simp at h
  | cons t rest =>
    unfold analyze
    by_cases hi : i = 0
    · subst hi
      simp only [List.getElem?_cons_zero, Option.some.injEq] at h
      subst h
      right
      simp
    · have hall : (List.headD (t :: rest) [] :: (rest.takeWhile (looksSub u) ++ rest.dropWhile (looksSub u)))[i]?.getD [] = cur := by
        rw [List.takeWhile_append_dropWhile]
        show ((t :: rest)[i]?).getD [] = cur
        rw [h]; rfl
      simp only [hi, if_false, List.tail_cons, hall]
      cases hs : splitInline cur with
      | none =>
        right
        refine ⟨?_, fun name hn => context_value hs name hn⟩
        split <;> first | rfl | simp_all
      | some p =>
        left
        obtain ⟨n, v⟩ := p
        refine ⟨n, v, rfl, ?_, ?_⟩ <;> simp [context, hs]

/-- **C116, the word that is looked up.** In a plain line, with the caret behind the beginning of a
word, the candidates are looked up for exactly the part of the replaced text that stands before the
caret. (Missing: characters of several bytes, operators, the caret in front of a word.) -/
theorem C116_word_partial (u : Tables) (line : Str) (k : Nat) (hl : PlainLine line) (hk : k ≤ line.length)
    (s : Span) (ht : tokenAt line k .completionRange = some s) (hs : s.start.char < k) :
    ∃ r, replacement line k (parse u line k).ctx = some r ∧ s.start.char ≤ r.start ∧ r.start ≤ k ∧
      r.stop = s.stop.char ∧ (parse u line k).current = slice line r.start k := by
  obtain ⟨h1, h2, h3, -⟩ := (C07_caret line .completionRange k).1 s ht
  obtain ⟨a, b, e1, ene, e3, e4, -, -⟩ := C07_slice line .completionRange s h1
  have hm : min k line.length = k := by omega
  rw [hm] at h2 h3
  have hT := hl.tokens
  have hone : ∀ c ∈ line, c.utf8Size = 1 := fun c hc => (hl c hc).1
  rw [hT] at h1
  have hb : ∀ t ∈ tokenize line .parser, t.start.byte = t.start.char ∧ t.stop.byte = t.stop.char := by
    intro t ht
    obtain ⟨a, b, e1, -, e3, e4, e5, e6⟩ := C07_slice line .parser t ht
    rw [e3, e4, e5, e6]
    exact ⟨sum_ones (fun c hc => hone c (by rw [e1]; simp [hc])),
      sum_ones (fun c hc => hone c (by rw [e1]; simp only [List.mem_append] at hc ⊢; grind))⟩
  obtain ⟨hf1, hf2⟩ := findCursor_at hb (C07_tiling line .parser).ordered h1 h2 h3
  have hrawone : ∀ c ∈ s.raw, c.utf8Size = 1 := fun c hc => hone c (by rw [e1]; simp [hc])
  -- the word up to the caret
  have hkl : k - a.length ≤ s.raw.length := by rw [e4] at h3; simp at h3; omega
  have hadj : adjusted (tokenize line .parser) k =
      ((tokenize line .parser).map (·.raw)).set (findCursor k (tokenize line .parser)).1 (s.raw.take (k - a.length)) := by
    unfold adjusted
    simp only [hf2, if_true, hf1, (hb s h1).1, e3]
    split
    · rw [takeBytes_ones hrawone]
    · rename_i hge
      have : blen s.raw = s.raw.length := sum_ones hrawone
      rw [List.take_of_length_le (by omega)]
      have : ((tokenize line .parser).map (·.raw))[(findCursor k (tokenize line .parser)).1]? = some s.raw := by
        rw [List.getElem?_map, hf1]; rfl
      obtain ⟨hi, he⟩ := List.getElem?_eq_some_iff.1 this
      conv => rhs; rw [← he]
      exact (List.set_getElem_self hi).symm
  have hcur : (adjusted (tokenize line .parser) k)[(findCursor k (tokenize line .parser)).1]? =
      some (s.raw.take (k - a.length)) := by
    rw [hadj, List.getElem?_set]
    have := (List.getElem?_eq_some_iff.1 hf1).1
    simp [this]
  have hslice : slice line a.length k = s.raw.take (k - a.length) := by
    unfold slice
    rw [e1, List.append_assoc, List.drop_left, List.take_append_of_le_length hkl]
  have hsl : slice line s.start.char s.stop.char = s.raw := by
    unfold slice; rw [e3, e4]; rw [show (a ++ s.raw).length - a.length = s.raw.length by simp]
    rw [e1, List.append_assoc, List.drop_left, List.take_left]
  have hcne : s.raw.take (k - a.length) ≠ [] := by
    intro h
    have := congrArg List.length h
    simp only [List.length_take, List.length_nil] at this
    have : 0 < s.raw.length := List.length_pos_iff.2 ene
    omega
  have hp := analyze_current u line hcur
  generalize hP : analyze u (adjusted (tokenize line .parser) k) (findCursor k (tokenize line .parser)).1 line = P at hp
  have hparse : parse u line k = P := hP
  rw [hparse]
  rcases hp with ⟨n, v, hsi, hctx, hcu⟩ | ⟨hcu, hval⟩
  · obtain ⟨hcut, hlong⟩ := splitInline_some hsi
    have hpre : (n ++ ['=']).isPrefixOf s.raw = true := by
      rw [List.isPrefixOf_iff_prefix]
      refine List.IsPrefix.trans ?_ (List.take_prefix (k - a.length) s.raw)
      exact ⟨v, by rw [hcut]; simp⟩
    have hlen : n.length + 1 + v.length = k - a.length := by
      have := congrArg List.length hcut
      simp only [List.length_take, List.length_append, List.length_cons] at this
      omega
    refine ⟨⟨a.length + (n.length + 1), a.length + s.raw.length⟩, ?_, ?_, ?_, ?_, ?_⟩
    · unfold replacement
      rw [ht, hctx]
      simp only [hsl]
      unfold valueRange
      rw [if_pos ⟨hlong, hpre⟩, e3]; rfl
    · simp only; omega
    · simp only; omega
    · rw [e4]; simp
    · rw [hcu]
      simp only [slice] at hslice ⊢
      rw [show k - (a.length + (n.length + 1)) = (k - a.length) - (n.length + 1) by omega, ← List.drop_drop,
        ← List.drop_take, hslice, hcut, ← List.drop_drop, List.drop_left]
      rfl
  · refine ⟨⟨s.start.char, s.stop.char⟩, ?_, Nat.le_refl _, by simp only; omega, rfl, ?_⟩
    · unfold replacement
      rw [ht]
      cases hctx : P.ctx with
      | value name =>
        obtain ⟨ho1, ho2⟩ := hval name hctx
        have : valueRange (slice line s.start.char s.stop.char) s.start.char name = none := by
          rw [hsl]
          have hno : ∀ x, (name ++ x).isPrefixOf s.raw = false := by
            intro x
            cases hx : (name ++ x).isPrefixOf s.raw with
            | false => rfl
            | true =>
              exfalso
              obtain ⟨r, hr⟩ := isPrefixOf_eq hx
              cases name with
              | nil => simp [isOpt] at ho2
              | cons d name =>
                simp only [isOpt, List.head?_cons, decide_eq_true_eq, Option.some.injEq] at ho2
                subst ho2
                cases hn : k - a.length with
                | zero => rw [hn] at hcne; simp at hcne
                | succ n => rw [hr, hn] at ho1; simp [isOpt] at ho1
          unfold valueRange
          rw [hno]
          have := hno []
          rw [List.append_nil] at this
          rw [this]; simp
        simp only [this, Option.getD_none]
      | _ => rfl
    · rw [hcu]; simp only; rw [e3, hslice]

example : PlainLine c!"git commit --file=no" ∧ (∃ s, tokenAt c!"git commit --file=no" 20 .completionRange = some s ∧
    s.start.char < 20) ∧ (parse ascii c!"git commit --file=no" 20).current = c!"no" := by
  refine ⟨by unfold PlainLine; decide, ⟨_, rfl, by decide⟩, by decide⟩

theorem findCursor_gap {k : Nat} {l : List Span} (h : ∀ t ∈ l, k < t.start.byte ∨ t.stop.byte < k) :
    (findCursor k l).2 = false := by
  induction l with
  | nil => rfl
  | cons t l ih =>
    unfold findCursor
    split
    · rcases h t (by simp) with h1 | h1
      · simp; omega
      · omega
    · exact ih (fun t ht => h t (by simp [ht]))

/-- **C116, between words.** In a plain line, with the caret on no word, nothing is replaced and the
candidates are looked up for the empty word. -/
theorem C116_gap_partial (u : Tables) (line : Str) (k : Nat) (hl : PlainLine line) (hk : k ≤ line.length)
    (ht : tokenAt line k .completionRange = none) :
    (∀ ctx, replacement line k ctx = none) ∧ (parse u line k).current = [] := by
  refine ⟨fun ctx => by unfold replacement; rw [ht], ?_⟩
  have hT := hl.tokens
  have hone : ∀ c ∈ line, c.utf8Size = 1 := fun c hc => (hl c hc).1
  have hgap : (findCursor k (tokenize line .parser)).2 = false := by
    apply findCursor_gap
    intro t htm
    have := (C07_caret line .completionRange k).2 ht t (by rw [hT]; exact htm)
    rw [Nat.min_eq_left hk] at this
    obtain ⟨a, b, e1, -, e3, e4, e5, e6⟩ := C07_slice line .parser t htm
    have h1 : (a.map Char.utf8Size).sum = a.length := sum_ones (fun c hc => hone c (by rw [e1]; simp [hc]))
    have h2 : ((a ++ t.raw).map Char.utf8Size).sum = (a ++ t.raw).length :=
      sum_ones (fun c hc => hone c (by rw [e1]; simp only [List.mem_append] at hc ⊢; grind))
    rw [e5, e6, h1, h2, ← e3, ← e4]; exact this
  have hle := findCursor_le k (tokenize line .parser)
  have hcur : (adjusted (tokenize line .parser) k)[(findCursor k (tokenize line .parser)).1]? = some [] := by
    unfold adjusted
    simp only [hgap, Bool.false_eq_true, if_false]
    rw [List.getElem?_append_right (by simp; omega)]
    simp [Nat.min_eq_left hle]
  rcases analyze_current u line hcur with ⟨n, v, hsi, -⟩ | ⟨hc, -⟩
  · simp [splitInline, isLong, List.isPrefixOf] at hsi
  · exact hc

example : tokenAt c!"git  add" 4 .completionRange = none ∧ (parse ascii c!"git  add" 4).current = [] := by decide

/-! ### Words with blanks between them -/

/-- A word without separators, quotes and backslashes. -/
def PlainWord (m : Mode) (w : Str) : Prop :=
  w ≠ [] ∧ ∀ c ∈ w, isSep m c = false ∧ c ≠ '\\' ∧ c ≠ '\'' ∧ c ≠ '"'

theorem foldl_word_tok {m : Mode} {w : Str} (h : ∀ c ∈ w, isSep m c = false ∧ c ≠ '\\' ∧ c ≠ '\'' ∧ c ≠ '"')
    (spans : List Span) (p : Pos) (cur : Str) :
    w.foldl (step m) (tokSt spans p .unquoted false cur) = tokSt spans p .unquoted false (cur ++ w) := by
  induction w generalizing cur with
  | nil => simp
  | cons c w ih =>
    obtain ⟨h1, h2, h3, h4⟩ := h c (by simp)
    have : step m (tokSt spans p .unquoted false cur) c = tokSt spans p .unquoted false (cur ++ [c]) := by
      simp [step, act, tokSt, St.push, h1, h2, h3, h4, after_append, after_one]
    rw [List.foldl_cons, this, ih (fun c hc => h c (by simp [hc]))]
    simp

theorem foldl_word {m : Mode} {w : Str} (h : PlainWord m w) (spans : List Span) (p : Pos) :
    w.foldl (step m) (gapSt spans p) = tokSt spans p .unquoted false w := by
  obtain ⟨hne, h⟩ := h
  cases w with
  | nil => exact absurd rfl hne
  | cons c w =>
    obtain ⟨h1, h2, h3, h4⟩ := h c (by simp)
    have : step m (gapSt spans p) c = tokSt spans p .unquoted false [c] := by
      simp [step, act, gapSt, tokSt, St.push, h1, h2, h3, h4, after_one]
    rw [List.foldl_cons, this, foldl_word_tok (fun c hc => h c (by simp [hc]))]
    rfl

/-- A word and a separator. -/
theorem finish_word_sep {m : Mode} {w : Str} (h : PlainWord m w) {d : Char} (hd : isSep m d = true)
    (spans : List Span) (p : Pos) (l : Str) :
    finish m (gapSt spans p) (w ++ d :: l) =
      finish m (gapSt (spans ++ [⟨w, p, p.after w⟩]) ((p.after w).next d)) l := by
  have : step m (tokSt spans p .unquoted false w) d = gapSt (spans ++ [⟨w, p, p.after w⟩]) ((p.after w).next d) := by
    have hne := h.1
    cases w with
    | nil => exact absurd rfl hne
    | cons c w => simp [step, act, tokSt, gapSt, St.flush, hd]
  unfold finish
  rw [List.foldl_append, foldl_word h, List.foldl_cons, this]

theorem finish_word {m : Mode} {w : Str} (h : PlainWord m w) (spans : List Span) (p : Pos) :
    finish m (gapSt spans p) w = spans ++ [⟨w, p, p.after w⟩] := by
  unfold finish
  rw [foldl_word h]
  have hne := h.1
  cases w with
  | nil => exact absurd rfl hne
  | cons c w => simp [tokSt, St.flush]

/-- The tokens of words with one blank between them. -/
def spansOf (p : Pos) : List Str → List Span
  | [] => []
  | w :: ws => ⟨w, p, p.after w⟩ :: spansOf ((p.after w).next ' ') ws

/-- Words with one blank between them. -/
def line : List Str → Str
  | [] => []
  | [w] => w
  | w :: ws => w ++ ' ' :: line ws

theorem line_cons {w : Str} {ws : List Str} (h : ws ≠ []) : line (w :: ws) = w ++ ' ' :: line ws := by
  cases ws with
  | nil => exact absurd rfl h
  | cons => rfl

theorem finish_line {ws : List Str} (h : ∀ w ∈ ws, PlainWord .parser w) (spans : List Span) (p : Pos) :
    finish .parser (gapSt spans p) (line ws) = spans ++ spansOf p ws := by
  induction ws generalizing spans p with
  | nil => simp [line, finish, gapSt, St.flush, spansOf]
  | cons w ws ih =>
    by_cases hw : ws = []
    · subst hw
      simp only [line, spansOf]
      exact finish_word (h w (by simp)) _ _
    · rw [line_cons hw, finish_word_sep (h w (by simp)) (by decide), ih (fun w hw => h w (by simp [hw]))]
      simp [spansOf]

theorem tokenize_line {ws : List Str} (h : ∀ w ∈ ws, PlainWord .parser w) :
    tokenize (line ws) .parser = spansOf ⟨0, 0⟩ ws := by
  exact finish_line h [] ⟨0, 0⟩

theorem spansOf_raw (p : Pos) (ws : List Str) : (spansOf p ws).map (·.raw) = ws := by
  induction ws generalizing p with
  | nil => rfl
  | cons w ws ih => simp [spansOf, ih]

/-! ### Where it fails -/

/-- **C116 fails: letters of several bytes.** In `cp ééé ab` with the caret at the end, the candidates
are looked up for `ééé`, the one chosen replaces `ab`. -/
theorem C116_bytes_violated :
    (parse ascii c!"cp ééé ab" 9).current = c!"ééé" ∧
    replacement c!"cp ééé ab" 9 (parse ascii c!"cp ééé ab" 9).ctx = some ⟨7, 9⟩ ∧
    slice c!"cp ééé ab" 7 9 = c!"ab" := by decide

/-- **C116 fails: words at an operator.** For words `a` and `b` that stand at a pipe sign without
blanks, the candidates are looked up for `a|b`; the one chosen replaces `b`. -/
theorem C116_operator_violated (u : Tables) (a b : Str) (ha : PlainWord .completionRange a)
    (hb : PlainWord .completionRange b) (hone : ∀ c ∈ a ++ b, c.utf8Size = 1) :
    (parse u (a ++ '|' :: b) (a ++ '|' :: b).length).current = a ++ '|' :: b ∧
    ∃ r, replacement (a ++ '|' :: b) (a ++ '|' :: b).length (parse u (a ++ '|' :: b) (a ++ '|' :: b).length).ctx = some r ∧
      slice (a ++ '|' :: b) r.start r.stop = b := by
  have sub : ∀ c, isSep .completionRange c = false → isSep .parser c = false := by
    intro c hc
    cases h : isSep .parser c with
    | false => rfl
    | true =>
      simp only [isSep, Bool.or_eq_true, decide_eq_true_eq] at h
      rcases h with rfl | rfl <;> revert hc <;> decide
  have hw : PlainWord .parser (a ++ '|' :: b) := by
    refine ⟨by simp, ?_⟩
    intro c hc
    rcases List.mem_append.1 hc with hc | hc
    · exact ⟨sub c (ha.2 c hc).1, (ha.2 c hc).2⟩
    · rcases List.mem_cons.1 hc with rfl | hc
      · decide
      · exact ⟨sub c (hb.2 c hc).1, (hb.2 c hc).2⟩
  have hone' : ∀ c ∈ a ++ '|' :: b, c.utf8Size = 1 := by
    intro c hc
    rcases List.mem_append.1 hc with hc | hc
    · exact hone c (by simp [hc])
    · rcases List.mem_cons.1 hc with rfl | hc
      · decide
      · exact hone c (by simp [hc])
  generalize hl : a ++ '|' :: b = l at *
  have ht : tokenize l .parser = [⟨l, ⟨0, 0⟩, (⟨0, 0⟩ : Pos).after l⟩] := by
    have := finish_word hw [] ⟨0, 0⟩
    exact this
  have hlen : ((⟨0, 0⟩ : Pos).after l).byte = l.length := by simp [Pos.after, sum_ones hone']
  have hlen' : blen l = l.length := sum_ones hone'
  have hp : parse u l l.length = analyze u [l] 0 l := by
    unfold parse adjusted
    rw [ht]
    simp [findCursor, hlen, hlen']
  have hr : tokenize l .completionRange = [⟨a, ⟨0, 0⟩, (⟨0, 0⟩ : Pos).after a⟩,
      ⟨b, ((⟨0, 0⟩ : Pos).after a).next '|', (((⟨0, 0⟩ : Pos).after a).next '|').after b⟩] := by
    have h1 := finish_word_sep ha (d := '|') (by decide) [] ⟨0, 0⟩ b
    rw [finish_word hb] at h1
    rw [← hl]
    exact h1
  have hat : tokenAt l l.length .completionRange =
      some ⟨b, ((⟨0, 0⟩ : Pos).after a).next '|', (((⟨0, 0⟩ : Pos).after a).next '|').after b⟩ := by
    unfold tokenAt
    rw [hr]
    have e : l.length = a.length + (b.length + 1) := by rw [← hl]; simp
    have h1 : ¬ l.length ≤ a.length := by omega
    have h2 : a.length + 1 ≤ l.length := by omega
    have h3 : l.length ≤ a.length + 1 + b.length := by omega
    simp [Pos.after, Pos.next, h1, h2, h3]
  rw [hp]
  refine ⟨by simp [analyze], ⟨⟨a.length + 1, a.length + 1 + b.length⟩, ?_, ?_⟩⟩
  · simp [analyze, replacement, hat, Pos.after, Pos.next]
  · simp only [slice]
    rw [show a.length + 1 + b.length - (a.length + 1) = b.length by omega, ← hl, ← List.drop_drop, List.drop_left]
    simp

example : (parse ascii c!"ls|gi" 5).current = c!"ls|gi" ∧ PlainWord .completionRange c!"gi" := by
  refine ⟨by decide, by decide, by decide⟩

/-! ## C117: the command and the position of the word -/

/-- **C117, the command.** In a line that starts with the word `w` and a blank, with the caret behind
them, candidates are those of the command `w`: right when the line is one command. -/
theorem C117_first_partial (u : Tables) (w rest : Str) (k : Nat) (hw : PlainWord .parser w) (hk : blen w < k) :
    (parse u (w ++ ' ' :: rest) k).command = w := by
  obtain ⟨T, hT, -⟩ := (finish_spec .parser rest).1 [⟨w, ⟨0, 0⟩, (⟨0, 0⟩ : Pos).after w⟩] (((⟨0, 0⟩ : Pos).after w).next ' ')
  have ht : tokenize (w ++ ' ' :: rest) .parser = ⟨w, ⟨0, 0⟩, (⟨0, 0⟩ : Pos).after w⟩ :: T := by
    have := finish_word_sep hw (d := ' ') (by decide) [] ⟨0, 0⟩ rest
    rw [List.nil_append, hT] at this
    exact this
  have hstop : ((⟨0, 0⟩ : Pos).after w).byte = blen w := by simp [Pos.after, blen]
  have hf : ¬ k ≤ ((⟨0, 0⟩ : Pos).after w).byte := by omega
  have hh : (adjusted (tokenize (w ++ ' ' :: rest) .parser) k).headD [] = w := by
    rw [ht]
    unfold adjusted
    simp only [findCursor, hf, if_false]
    cases (findCursor k T).2 with
    | false => simp
    | true =>
      simp only [if_true, List.getElem?_cons_succ]
      split
      · split <;> simp
      · simp
  unfold parse analyze
  dsimp only
  split
  · exact hh
  · exact hh

/-- The operators between commands. -/
def operators : List Str := [c!"|", c!"||", c!"&&", c!";", c!"&"]

/-- **C117 fails: the second command of a line.** Behind an operator the candidates are still those of
the first command: for `a && b x` with the caret at the end, those of `a`. -/
theorem C117_line_violated (u : Tables) (a b x : Str) (ha : PlainWord .completionRange a)
    (hone : ∀ c ∈ a, c.utf8Size = 1) (hab : a ≠ b) : ∀ op ∈ operators,
    (parse u (line [a, op, b, x]) (line [a, op, b, x]).length).command = a ∧
    (parse u (line [a, op, b, x]) (line [a, op, b, x]).length).command ≠ b := by
  intro op _
  have sub : ∀ c, isSep .completionRange c = false → isSep .parser c = false := by
    intro c hc
    cases h : isSep .parser c with
    | false => rfl
    | true =>
      simp only [isSep, Bool.or_eq_true, decide_eq_true_eq] at h
      rcases h with rfl | rfl <;> revert hc <;> decide
  have h : (parse u (line [a, op, b, x]) (line [a, op, b, x]).length).command = a := by
    refine C117_first_partial u a _ _ ⟨ha.1, fun c hc => ⟨sub c (ha.2 c hc).1, (ha.2 c hc).2⟩⟩ ?_
    have : blen a = a.length := sum_ones hone
    simp only [line, List.length_append, List.length_cons]; omega
  exact ⟨h, by rw [h]; exact hab⟩

example : (parse ascii c!"cargo build && git che" 22).command = c!"cargo" := by decide

/-! ### The number of the argument -/

/-- A word that looks like a path and is no option and no redirection. -/
def PathWord (w : Str) : Prop :=
  PlainWord .parser w ∧ (∀ c ∈ w, c.utf8Size = 1) ∧ looksPath w = true ∧ isOpt w = false ∧ isRedirect w = false

theorem path_not_sub (u : Tables) {w : Str} (h : looksPath w = true) : looksSub u w = false := by
  unfold looksSub
  unfold looksPath at h
  by_cases h1 : isOpt w
  · simp [h1]
  by_cases h2 : hasExtension w
  · simp [h2]
  · have : (w.contains '/' || w.contains '\\') = true := by simpa [h2] using h
    simp only [List.contains_eq_mem] at this
    simp [h1, h2]
    simp at this
    intro a b
    rcases this with h | h <;> contradiction

theorem scan_paths {ws : List Str} (h : ∀ w ∈ ws, PathWord w) : scan false false ws = ([], ws) := by
  induction ws with
  | nil => rfl
  | cons w ws ih =>
    obtain ⟨-, -, -, h1, h2⟩ := h w (by simp)
    simp [scan, h1, h2, ih (fun w hw => h w (by simp [hw]))]

theorem findCursor_line {ws : List Str} (hone : ∀ w ∈ ws, ∀ c ∈ w, c.utf8Size = 1) {p : Pos} (hp : p.byte = p.char)
    {j : Nat} (hj : j < ws.length) :
    findCursor (p.char + (line (ws.take (j + 1))).length) (spansOf p ws) = (j, true) := by
  induction ws generalizing p j with
  | nil => simp at hj
  | cons w ws ih =>
    have hw : blen w = w.length := sum_ones (hone w (by simp))
    have hw' : (w.map Char.utf8Size).sum = w.length := hw
    cases j with
    | zero =>
      simp only [List.take_succ_cons, List.take_zero, line, spansOf, findCursor, Pos.after, hw', hp, Nat.le_refl, if_true]
      simp
    | succ j =>
      have hne : ws.take (j + 1) ≠ [] := by
        cases ws with
        | nil => simp at hj
        | cons v ws => simp
      rw [List.take_succ_cons, line_cons hne]
      simp only [spansOf, findCursor, List.length_append, List.length_cons]
      have h1 : ¬ p.char + (w.length + ((line (ws.take (j + 1))).length + 1)) ≤ (p.after w).byte := by
        simp only [Pos.after, hw', hp]; omega
      rw [if_neg h1]
      have h2 := ih (fun v hv => hone v (by simp [hv])) (p := (p.after w).next ' ')
        (by simp only [Pos.next, Pos.after, hw', hp]; rfl) (j := j) (by simpa using hj)
      have h3 : p.char + (w.length + ((line (ws.take (j + 1))).length + 1)) =
          ((p.after w).next ' ').char + (line (ws.take (j + 1))).length := by
        simp only [Pos.next, Pos.after]; omega
      rw [h3, h2]

theorem line_prefix {ws : List Str} {j : Nat} (hj : j < ws.length) : (line (ws.take (j + 1))) <+: line ws := by
  induction ws generalizing j with
  | nil => simp at hj
  | cons w ws ih =>
    cases j with
    | zero =>
      by_cases h : ws = []
      · subst h; simp [line]
      · rw [line_cons h]; simp [line]
    | succ j =>
      have hne : ws ≠ [] := by rintro rfl; simp at hj
      have hne' : ws.take (j + 1) ≠ [] := by
        cases ws with
        | nil => simp at hj
        | cons v ws => simp
      rw [List.take_succ_cons, line_cons hne', line_cons hne]
      obtain ⟨r, hr⟩ := ih (j := j) (by simpa using hj)
      exact ⟨r, by rw [← hr]; simp⟩

theorem spansOf_get {ws : List Str} (hone : ∀ w ∈ ws, ∀ c ∈ w, c.utf8Size = 1) {p : Pos} (hp : p.byte = p.char)
    {j : Nat} {s : Span} (h : (spansOf p ws)[j]? = some s) :
    s.start.byte + blen s.raw = p.char + (line (ws.take (j + 1))).length := by
  induction ws generalizing p j with
  | nil => simp [spansOf] at h
  | cons w ws ih =>
    have hw : blen w = w.length := sum_ones (hone w (by simp))
    cases j with
    | zero =>
      simp only [spansOf, List.getElem?_cons_zero, Option.some.injEq] at h
      subst h
      simp [line, hw, hp]
    | succ j =>
      simp only [spansOf, List.getElem?_cons_succ] at h
      have hne : ws.take (j + 1) ≠ [] := by
        cases ws with
        | nil => simp [spansOf] at h
        | cons v ws => simp
      have := ih (fun v hv => hone v (by simp [hv])) (p := (p.after w).next ' ')
        (by simp only [Pos.next, Pos.after, hp]
            rw [show (w.map Char.utf8Size).sum = w.length from hw]; rfl) h
      rw [this, List.take_succ_cons, line_cons hne]
      simp only [Pos.next, Pos.after, List.length_append, List.length_cons]; omega

/-- In a command with arguments that look like paths, at the end of whichever argument the caret
stands, the number found is that of the last. -/
theorem index_words (u : Tables) (c : Str) (ws : List Str) (hc : PlainWord .completionRange c)
    (hone : ∀ d ∈ c, d.utf8Size = 1) (ho : isOpt c = false) (hw : ∀ w ∈ ws, PathWord w) {j : Nat} (hj : j < ws.length) :
    (parse u (line (c :: ws)) (line (c :: ws.take (j + 1))).length).ctx = .arg (ws.length - 1) ∧
    (parse u (line (c :: ws)) (line (c :: ws.take (j + 1))).length).args = ws := by
  have sub : ∀ c, isSep .completionRange c = false → isSep .parser c = false := by
    intro c hc
    cases h : isSep .parser c with
    | false => rfl
    | true =>
      simp only [isSep, Bool.or_eq_true, decide_eq_true_eq] at h
      rcases h with rfl | rfl <;> revert hc <;> decide
  have hall : ∀ w ∈ c :: ws, PlainWord .parser w := by
    intro w hm
    rcases List.mem_cons.1 hm with rfl | hm
    · exact ⟨hc.1, fun d hd => ⟨sub d (hc.2 d hd).1, (hc.2 d hd).2⟩⟩
    · exact (hw w hm).1
  have hones : ∀ w ∈ c :: ws, ∀ d ∈ w, d.utf8Size = 1 := by
    intro w hm
    rcases List.mem_cons.1 hm with rfl | hm
    · exact hone
    · exact (hw w hm).2.1
  have htk : c :: ws.take (j + 1) = (c :: ws).take (j + 1 + 1) := rfl
  have hf := findCursor_line hones (p := ⟨0, 0⟩) rfl (j := j + 1) (by simp; omega)
  simp only [Nat.zero_add] at hf
  rw [← htk] at hf
  generalize hk : (line (c :: ws.take (j + 1))).length = k at hf ⊢
  have hadj : adjusted (spansOf ⟨0, 0⟩ (c :: ws)) k = c :: ws := by
    unfold adjusted
    rw [hf]
    simp only [if_true, spansOf_raw]
    split
    · rename_i s hs
      have := spansOf_get hones (p := ⟨0, 0⟩) rfl hs
      rw [← htk, hk] at this
      simp only [Nat.zero_add] at this
      rw [if_neg (by omega)]
    · rfl
  have hwj : (c :: ws)[j + 1]? = some ws[j] := by simp [hj]
  have hPj := hw ws[j] (List.getElem_mem hj)
  have hrest : ws.takeWhile (looksSub u) = [] := by
    cases ws with
    | nil => rfl
    | cons w ws => simp [List.takeWhile, path_not_sub u (hw w (by simp)).2.2.1]
  have hdrop : ws.dropWhile (looksSub u) = ws := by
    have := List.takeWhile_append_dropWhile (p := looksSub u) (l := ws)
    rw [hrest] at this; exact this
  have hnl : isLong ws[j] = false := by
    have := hPj.2.2.2.1
    cases h : isLong ws[j] with
    | false => rfl
    | true =>
      obtain ⟨r, hr⟩ := isPrefixOf_eq h
      rw [hr] at this; simp [isOpt] at this
  have hni : splitInline ws[j] = none := by unfold splitInline; simp [hnl]
  have hspace : hasSpace (line (c :: ws)) c = true := by
    have hne : ws ≠ [] := by rintro rfl; simp at hj
    unfold hasSpace
    rw [line_cons hne]
    have hdw : (c ++ ' ' :: line ws).dropWhile rustWhitespace = c ++ ' ' :: line ws := by
      cases hcc : c with
      | nil => exact absurd hcc hc.1
      | cons d c' =>
        have := (hc.2 d (by rw [hcc]; simp)).1
        simp only [isSep, Bool.or_eq_false_iff] at this
        simp [this.1]
    rw [hdw]
    have hpre : List.isPrefixOf c (c ++ ' ' :: line ws) = true := by
      rw [List.isPrefixOf_iff_prefix]; exact List.prefix_append _ _
    simp only [hpre, Bool.not_true, Bool.false_eq_true, if_false]
    rw [List.getElem?_append_right (Nat.le_refl _)]
    simp
    decide
  have hprev : ∀ q, ((c :: ws)[j + 1 - 1]?).getD [] = q → isOpt q = false ∧ (j ≠ 0 → isRedirect q = false) := by
    intro q hq
    cases j with
    | zero => simp at hq; subst hq; exact ⟨ho, by simp⟩
    | succ j =>
      have : (c :: ws)[j + 1 + 1 - 1]? = some ws[j] := by simp
      rw [this] at hq
      have hm := hw ws[j] (List.getElem_mem (by omega))
      simp only [Option.getD_some] at hq
      subst hq
      exact ⟨hm.2.2.2.1, fun _ => hm.2.2.2.2⟩
  have hcr : isRedirect c = false := by
    have hno : ∀ p s, stripSuffix (s ++ ['>']) c = some p → False := by
      intro p s h
      unfold stripSuffix at h
      split at h
      · rename_i hp
        obtain ⟨r, hr⟩ := isPrefixOf_eq hp
        have : '>' ∈ c := by
          have : '>' ∈ c.reverse := by rw [hr]; simp
          simpa using this
        have := (hc.2 _ this).1
        revert this; decide
      · cases h
    unfold isRedirect
    split
    · rename_i hm
      simp only [List.contains_eq_mem, List.mem_cons, List.not_mem_nil, or_false, decide_eq_true_eq] at hm
      rcases hm with rfl | rfl | rfl | rfl | rfl <;>
        exact absurd (hc.2 _ (List.mem_cons_self)).1 (by decide)
    · cases h1 : stripSuffix c!">>" c with
      | some p => exact (hno p ['>'] h1).elim
      | none => cases h2 : stripSuffix c!">" c with
        | some p => exact (hno p [] h2).elim
        | none => rfl
  have hprev2 : isRedirect (((c :: ws)[j + 1 - 1]?).getD []) = false := by
    cases j with
    | zero => simpa using hcr
    | succ j => exact (hprev _ rfl).2 (by simp)
  have harg : argIndex ws ws[j] = ws.length - 1 := by
    unfold argIndex
    rw [if_pos (by simp)]
  unfold parse
  rw [tokenize_line hall]
  simp only [hadj, hf]
  unfold analyze
  simp only [List.tail_cons, hrest, hdrop, scan_paths hw, List.headD_cons, List.nil_append, hwj, Option.getD_some, hspace,
    Nat.succ_ne_zero, if_false, and_true]
  unfold context
  rw [hni]
  simp only [hnl, hPj.2.2.2.1, (hprev _ rfl).1, Bool.false_and, hprev2, hPj.2.2.2.2, hPj.2.2.1, harg]
  simp

/-- **C117, the argument.** With the caret at the end of the last argument, the argument completed is
the last. -/
theorem C117_last_partial (u : Tables) (c : Str) (ws : List Str) (w : Str) (hc : PlainWord .completionRange c)
    (hone : ∀ d ∈ c, d.utf8Size = 1) (ho : isOpt c = false) (hw : ∀ v ∈ ws ++ [w], PathWord v) :
    (parse u (line (c :: (ws ++ [w]))) (line (c :: (ws ++ [w]))).length).ctx = .arg ws.length := by
  have := (index_words u c (ws ++ [w]) hc hone ho hw (j := ws.length) (by simp)).1
  rw [List.take_of_length_le (by simp)] at this
  rw [this]; simp

/-- **C117 fails: the argument the caret is on.** With the caret at the end of an earlier argument, the
kind of the last one is offered. -/
theorem C117_index_violated (u : Tables) (c : Str) (ws : List Str) (hc : PlainWord .completionRange c)
    (hone : ∀ d ∈ c, d.utf8Size = 1) (ho : isOpt c = false) (hw : ∀ w ∈ ws, PathWord w) (j : Nat) (hj : j + 1 < ws.length) :
    (parse u (line (c :: ws)) (line (c :: ws.take (j + 1))).length).ctx = .arg (ws.length - 1) ∧
    (parse u (line (c :: ws)) (line (c :: ws.take (j + 1))).length).ctx ≠ .arg j := by
  have h := (index_words u c ws hc hone ho hw (j := j) (by omega)).1
  refine ⟨h, ?_⟩
  rw [h]
  simp only [ne_eq, Ctx.arg.injEq]; omega

example : PathWord c!"x.c" ∧ PathWord c!"d/y" ∧ (parse ascii c!"cp x.c d/y" 6).ctx = .arg 1 ∧
    (parse ascii c!"cp x.c d/y" 10).ctx = .arg 1 := by
  simp only [PathWord, PlainWord]; decide

end Dsh.CmdLine
