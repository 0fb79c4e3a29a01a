import Verif.Completion.Defs
import Verif.Completion.CmdLineProps
/-!
# What Tab offers from the definition of a command
-/
namespace Dsh.Defs
open Dsh.Tokens Dsh.CmdLine Dsh.Editor

/-! ## Specification -/

/-- A word without blanks, operators, quotes and backslashes, of letters of one byte. -/
def Word (w : Str) : Prop := PlainWord .completionRange w ∧ ∀ c ∈ w, c.utf8Size = 1

/-- A subcommand has this name, or this other name. -/
def Named (n : Str) (b : Sub) : Prop := b.name = n ∨ n ∈ b.aliases

/-- The names of a subcommand are no names of its siblings. -/
def Alone (subs : List Sub) (b : Sub) : Prop := ∀ b' ∈ subs, ∀ n, Named n b → Named n b' → b' = b

/-- The words name, one behind the other, the subcommands of the chain. -/
inductive Leads : List Sub → List Str → List Sub → Prop
  | here (subs : List Sub) : Leads subs [] []
  | step {subs : List Sub} {b : Sub} {s : Str} {ss : List Str} {chain : List Sub} :
      b ∈ subs → Named s b → Alone subs b → Leads b.subs ss chain → Leads subs (s :: ss) (b :: chain)

/-- The subcommands possible behind a chain. -/
def subsBehind (subs : List Sub) (chain : List Sub) : List Sub :=
  match chain.getLast? with
  | some b => b.subs
  | none => subs

/-- The options of the command and of the subcommand reached. -/
def optionsAt (d : Def) (chain : List Sub) : List Opt :=
  d.options ++ (match chain.getLast? with
    | some b => b.options
    | none => [])

/-- The options of the command and of all subcommands on the way. -/
def optionsOn (d : Def) (chain : List Sub) : List Opt := d.options ++ chain.flatMap Sub.options

/-- Every spelling of these options begins with `-`. -/
def Dashed (l : List Opt) : Prop := ∀ o ∈ l, ∀ n, o.short = some n ∨ o.long = some n → isOpt n = true

/-- The line `c s1 … sn w`, with the caret behind it. -/
def typed (c : Str) (ws : List Str) (w : Str) : Str := line (c :: ws) ++ ' ' :: w

/-! ## The line -/

theorem sub_sep (c : Char) (hc : isSep .completionRange c = false) : isSep .parser c = false := by
  cases h : isSep .parser c with
  | false => rfl
  | true =>
    simp only [isSep, Bool.or_eq_true, decide_eq_true_eq] at h
    rcases h with rfl | rfl <;> revert hc <;> decide

theorem Word.plain {w : Str} (h : Word w) : PlainWord .parser w :=
  ⟨h.1.1, fun d hd => ⟨sub_sep d (h.1.2 d hd).1, (h.1.2 d hd).2⟩⟩

theorem line_snoc (c : Str) (ws : List Str) (w : Str) : line (c :: (ws ++ [w])) = typed c ws w := by
  unfold typed
  induction ws generalizing c with
  | nil => simp [line]
  | cons v ws ih =>
    rw [List.cons_append, line_cons (by simp), ih, show line (c :: v :: ws) = c ++ ' ' :: line (v :: ws) from rfl]
    simp

theorem Word.no_redirect {c : Str} (hc : Word c) : isRedirect c = false := by
  have hno : ∀ p s, stripSuffix (s ++ ['>']) c = some p → False := by
    intro p s h
    unfold stripSuffix at h
    split at h
    · rename_i hp
      obtain ⟨r, hr⟩ := isPrefixOf_eq hp
      have : '>' ∈ c := by
        have : '>' ∈ c.reverse := by rw [hr]; simp
        simpa using this
      have := (hc.1.2 _ this).1
      revert this; decide
    · cases h
  unfold isRedirect
  split
  · rename_i hm
    simp only [List.contains_eq_mem, List.mem_cons, List.not_mem_nil, or_false, decide_eq_true_eq] at hm
    rcases hm with rfl | rfl | rfl | rfl | rfl <;>
      exact absurd (hc.1.2 _ (List.mem_cons_self)).1 (by decide)
  · cases h1 : stripSuffix c!">>" c with
    | some p => exact (hno p ['>'] h1).elim
    | none => cases h2 : stripSuffix c!">" c with
      | some p => exact (hno p [] h2).elim
      | none => rfl

theorem hasSpace_typed {c : Str} (hc : Word c) (ws : List Str) (w : Str) : hasSpace (typed c ws w) c = true := by
  have : ∃ r, typed c ws w = c ++ ' ' :: r := by
    unfold typed
    cases ws with
    | nil => exact ⟨w, by simp [line]⟩
    | cons v ws => exact ⟨line (v :: ws) ++ ' ' :: w, by rw [line_cons (by simp)]; simp⟩
  obtain ⟨r, hr⟩ := this
  rw [hr]
  unfold hasSpace
  have hdw : (c ++ ' ' :: r).dropWhile rustWhitespace = c ++ ' ' :: r := by
    cases hcc : c with
    | nil => exact absurd hcc hc.1.1
    | cons d c' =>
      have := (hc.1.2 d (by rw [hcc]; simp)).1
      simp only [isSep, Bool.or_eq_false_iff] at this
      simp [this.1]
  rw [hdw]
  have hpre : List.isPrefixOf c (c ++ ' ' :: r) = true := by
    rw [List.isPrefixOf_iff_prefix]; exact List.prefix_append _ _
  simp only [hpre, Bool.not_true, Bool.false_eq_true, if_false]
  rw [List.getElem?_append_right (Nat.le_refl _)]
  simp
  decide

theorem finish_line_gap {ws : List Str} (hne : ws ≠ []) (h : ∀ w ∈ ws, PlainWord .parser w) (spans : List Span) (p : Pos) :
    finish .parser (gapSt spans p) (line ws ++ [' ']) = spans ++ spansOf p ws := by
  induction ws generalizing spans p with
  | nil => exact absurd rfl hne
  | cons w ws ih =>
    by_cases hw : ws = []
    · subst hw
      simp only [line, spansOf]
      rw [finish_word_sep (h w (by simp)) (by decide)]
      simp [finish, gapSt, St.flush]
    · rw [line_cons hw, List.append_assoc, List.cons_append, finish_word_sep (h w (by simp)) (by decide), ih hw (fun w hw => h w (by simp [hw]))]
      simp [spansOf]

theorem findCursor_past {ws : List Str} (hne : ws ≠ []) (hone : ∀ w ∈ ws, ∀ c ∈ w, c.utf8Size = 1) {p : Pos} (hp : p.byte = p.char) :
    findCursor (p.char + ((line ws).length + 1)) (spansOf p ws) = (ws.length, false) := by
  induction ws generalizing p with
  | nil => exact absurd rfl hne
  | cons w ws ih =>
    have hw : blen w = w.length := sum_ones (hone w (by simp))
    have hw' : (w.map Char.utf8Size).sum = w.length := hw
    simp only [spansOf, findCursor]
    by_cases h : ws = []
    · subst h
      rw [if_neg (by simp only [Pos.after, hw', hp, line]; omega)]
      simp [spansOf, findCursor]
    · rw [line_cons h]
      rw [if_neg (by simp only [Pos.after, hw', hp, List.length_append]; omega)]
      have h2 := ih h (fun v hv => hone v (by simp [hv])) (p := (p.after w).next ' ')
        (by simp only [Pos.next, Pos.after, hw', hp]; rfl)
      have h3 : p.char + ((w ++ ' ' :: line ws).length + 1) = ((p.after w).next ' ').char + ((line ws).length + 1) := by
        simp only [Pos.next, Pos.after, List.length_append, List.length_cons]; omega
      rw [h3, h2]
      simp

/-- The parser, with the caret at the end of the line. -/
theorem parse_typed (u : Tables) {c : Str} {ws : List Str} {w : Str} (hc : Word c) (hws : ∀ x ∈ ws, Word x)
    (hw : w = [] ∨ Word w) :
    parse u (typed c ws w) (typed c ws w).length = analyze u (c :: (ws ++ [w])) (ws.length + 1) (typed c ws w) := by
  rcases hw with rfl | hw
  · have hall : ∀ x ∈ c :: ws, PlainWord .parser x := by
      intro x hx
      rcases List.mem_cons.1 hx with rfl | hx
      · exact hc.plain
      · exact (hws x hx).plain
    have hone : ∀ x ∈ c :: ws, ∀ d ∈ x, d.utf8Size = 1 := by
      intro x hx
      rcases List.mem_cons.1 hx with rfl | hx
      · exact hc.2
      · exact (hws x hx).2
    have ht : tokenize (typed c ws []) .parser = spansOf ⟨0, 0⟩ (c :: ws) :=
      finish_line_gap (by simp) hall [] ⟨0, 0⟩
    have hf := findCursor_past (ws := c :: ws) (by simp) hone (p := ⟨0, 0⟩) rfl
    have hl : (typed c ws []).length = 0 + ((line (c :: ws)).length + 1) := by simp [typed]
    unfold parse
    rw [ht, hl]
    simp only [adjusted, hf, spansOf_raw]
    simp
  · rw [← line_snoc]
    have hall : ∀ x ∈ c :: (ws ++ [w]), Word x := by
      intro x hx
      simp only [List.mem_cons, List.mem_append, List.not_mem_nil, or_false] at hx
      rcases hx with rfl | hx | rfl
      · exact hc
      · exact hws x hx
      · exact hw
    have hones : ∀ x ∈ c :: (ws ++ [w]), ∀ d ∈ x, d.utf8Size = 1 := fun x hx => (hall x hx).2
    have hf := findCursor_line hones (p := ⟨0, 0⟩) rfl (j := ws.length + 1) (by simp)
    simp only [Nat.zero_add] at hf
    rw [List.take_of_length_le (by simp)] at hf
    have hadj : adjusted (spansOf ⟨0, 0⟩ (c :: (ws ++ [w]))) (line (c :: (ws ++ [w]))).length = c :: (ws ++ [w]) := by
      unfold adjusted
      rw [hf]
      simp only [if_true, spansOf_raw]
      split
      · rename_i s hs
        have := spansOf_get hones (p := ⟨0, 0⟩) rfl hs
        rw [List.take_of_length_le (by simp)] at this
        simp only [Nat.zero_add] at this
        rw [if_neg (by omega)]
      · rfl
    unfold parse
    rw [tokenize_line (fun x hx => (hall x hx).plain)]
    simp only [hadj, hf]

theorem analyze_typed (u : Tables) (c : Str) (ws : List Str) (w : Str) (input : Str) (hs : splitInline w = none) :
    analyze u (c :: (ws ++ [w])) (ws.length + 1) input =
      ⟨c, (ws ++ [w]).takeWhile (looksSub u), (ws ++ [w]).dropWhile (looksSub u),
        (scan false false ((ws ++ [w]).dropWhile (looksSub u))).1, (scan false false ((ws ++ [w]).dropWhile (looksSub u))).2, w,
        context u (ws.length + 1) w ((ws ++ [w]).takeWhile (looksSub u))
          (scan false false ((ws ++ [w]).dropWhile (looksSub u))).2 (c :: (ws ++ [w])) (hasSpace input c)⟩ := by
  unfold analyze
  simp only [List.tail_cons, List.headD_cons, List.takeWhile_append_dropWhile, Nat.succ_ne_zero, if_false]
  have : ((c :: (ws ++ [w]))[ws.length + 1]?).getD [] = w := by simp
  rw [this, hs]
  simp

theorem context_word (u : Tables) {i : Nat} {w : Str} {path args all : List Str} (hw : isOpt w = false)
    (hp : isOpt ((all[i - 1]?).getD []) = false) :
    context u i w path args all true = .sub ∨ ∃ n, context u i w path args all true = .arg n := by
  have hl : isLong w = false := by
    cases h : isLong w with
    | false => rfl
    | true => obtain ⟨r, hr⟩ := isPrefixOf_eq h; rw [hr] at hw; simp [isOpt] at hw
  have hs : splitInline w = none := by unfold splitInline; simp [hl]
  unfold context
  rw [hs]
  simp only [hl, hw, hp, Bool.false_and, Bool.not_true, Bool.false_eq_true, and_false, if_false, if_true]
  repeat' split
  all_goals first | exact .inl rfl | exact .inr ⟨_, rfl⟩

theorem not_long {w : Str} (hw : isOpt w = false) : isLong w = false := by
  cases h : isLong w with
  | false => rfl
  | true => obtain ⟨r, hr⟩ := isPrefixOf_eq h; rw [hr] at hw; simp [isOpt] at hw

theorem no_inline {w : Str} (hw : isOpt w = false) : splitInline w = none := by
  unfold splitInline; simp [not_long hw]

/-! ## Chains -/

theorem is_iff {b : Sub} {n : Str} : b.is n = true ↔ Named n b := by
  simp [Sub.is, Named]

theorem starts_iff {b : Sub} {p : Str} : b.starts p = true ↔ ∃ n, Named n b ∧ p <+: n := by
  simp only [Sub.starts, Bool.or_eq_true, List.isPrefixOf_iff_prefix, List.any_eq_true, Named]
  constructor
  · rintro (h | ⟨a, ha, h⟩)
    · exact ⟨_, .inl rfl, h⟩
    · exact ⟨a, .inr ha, h⟩
  · rintro ⟨n, rfl | h, hp⟩
    · exact .inl hp
    · exact .inr ⟨n, h, hp⟩

theorem find_alone {subs : List Sub} {b : Sub} {s : Str} (hm : b ∈ subs) (hn : Named s b) (ha : Alone subs b) :
    findSub subs s = some b := by
  unfold findSub
  cases h : subs.find? (·.is s) with
  | none =>
    rw [List.find?_eq_none] at h
    exact absurd (is_iff.2 hn) (h b hm)
  | some b' =>
    have h1 := List.mem_of_find?_eq_some h
    have h2 := List.find?_some h
    rw [ha b' h1 s hn (is_iff.1 h2)]

theorem find_none {subs : List Sub} {s : Str} (h : ∀ b ∈ subs, ¬ Named s b) : findSub subs s = none := by
  unfold findSub
  rw [List.find?_eq_none]
  intro b hb hs
  exact h b hb (is_iff.1 hs)

theorem Leads.names {subs : List Sub} {ss : List Str} {chain : List Sub} (h : Leads subs ss chain) :
    Leads subs (chain.map Sub.name) chain := by
  induction h with
  | here => exact .here _
  | step hm hn ha _ ih => exact .step hm (.inl rfl) ha ih

theorem Leads.split {subs : List Sub} {s1 s2 : List Str} {chain : List Sub} (h : Leads subs (s1 ++ s2) chain) :
    ∃ c1 c2, chain = c1 ++ c2 ∧ Leads subs s1 c1 ∧ Leads (subsBehind subs c1) s2 c2 := by
  induction s1 generalizing subs chain with
  | nil => exact ⟨[], chain, rfl, .here _, h⟩
  | cons s s1 ih =>
    cases h with
    | step hm hn ha h =>
      rename_i b chain
      obtain ⟨c1, c2, rfl, h1, h2⟩ := ih h
      refine ⟨b :: c1, c2, rfl, .step hm hn ha h1, ?_⟩
      have : subsBehind subs (b :: c1) = subsBehind b.subs c1 := by
        unfold subsBehind
        rw [List.getLast?_cons]
        cases c1.getLast? <;> rfl
      rw [this]; exact h2

theorem behind_cons (subs : List Sub) (b : Sub) (c : List Sub) : subsBehind subs (b :: c) = subsBehind b.subs c := by
  unfold subsBehind
  rw [List.getLast?_cons]
  cases c.getLast? <;> rfl

theorem behind_append (subs : List Sub) (c1 c2 : List Sub) :
    subsBehind subs (c1 ++ c2) = subsBehind (subsBehind subs c1) c2 := by
  induction c1 generalizing subs with
  | nil => rfl
  | cons b c1 ih => rw [List.cons_append, behind_cons, behind_cons, ih]

theorem walk_append {subs : List Sub} {ss : List Str} {chain : List Sub} (h : Leads subs ss chain) (rest : List Str)
    (hr : ∀ x, rest.head? = some x → ∀ b ∈ subsBehind subs chain, ¬ Named x b) :
    walk subs (ss ++ rest) = (chain.map Sub.name, subsBehind subs chain, rest) := by
  induction h with
  | here subs =>
    cases rest with
    | nil => rfl
    | cons x rest =>
      rw [List.nil_append, walk, find_none (subs := subs) (hr x rfl)]
      rfl
  | step hm hn ha _ ih =>
    rw [behind_cons] at hr ⊢
    rw [List.cons_append, walk, find_alone hm hn ha]
    simp only [ih hr, List.map_cons]

theorem walk_leads {subs : List Sub} {ss : List Str} {chain : List Sub} (h : Leads subs ss chain) :
    walk subs ss = (chain.map Sub.name, subsBehind subs chain, []) := by
  have := walk_append h [] (by simp)
  rwa [List.append_nil] at this

theorem optsDown_leads {subs : List Sub} {ss : List Str} {chain : List Sub} (h : Leads subs ss chain) :
    optsDown subs ss = chain.flatMap Sub.options := by
  induction h with
  | here => rfl
  | step hm hn ha _ ih => rw [optsDown, find_alone hm hn ha]; simp [ih]

theorem currentSub_leads {subs : List Sub} {ss : List Str} {chain : List Sub} (h : Leads subs ss chain) :
    currentSub subs ss = chain.getLast? := by
  induction h with
  | here => rfl
  | step hm hn ha h ih =>
    cases h with
    | here => simp [currentSub, find_alone hm hn ha]
    | step hm' hn' ha' h' =>
      rw [currentSub, find_alone hm hn ha]
      simp only [ih]
      simp [List.getLast?_cons]

/-- The loop over the remaining words, up to a word that ends it. -/
theorem scanRaw_leads {subs : List Sub} {ss : List Str} {chain : List Sub} (h : Leads subs ss chain) (w : Str) (hw : w ∉ ss)
    (rest : List Str) (hr : ∀ x, rest.head? = some x → (∀ b ∈ subsBehind subs chain, ¬ Named x b) ∧
      (x = w → ∀ b ∈ subsBehind subs chain, ∀ n, Named n b → ¬ w <+: n)) :
    scanRaw w subs (ss ++ rest) = (false, chain.map Sub.name, subsBehind subs chain, ss.length) := by
  induction h with
  | here subs =>
    cases rest with
    | nil => rfl
    | cons x rest =>
      obtain ⟨h1, h2⟩ := hr x rfl
      rw [List.nil_append, scanRaw, find_none (subs := subs) h1]
      dsimp only
      rw [if_neg]
      · rfl
      · rintro ⟨rfl, h⟩
        rw [List.any_eq_true] at h
        obtain ⟨b, hb, hs⟩ := h
        obtain ⟨n, hn, hp⟩ := starts_iff.1 hs
        exact h2 rfl b hb n hn hp
  | step hm hn ha _ ih =>
    rw [behind_cons] at hr ⊢
    rw [List.cons_append, scanRaw, find_alone hm hn ha]
    simp only [List.mem_cons, not_or] at hw
    dsimp only
    rw [if_neg (fun e => hw.1 e.symm), ih hw.2 hr]
    simp

/-- The loop, when it comes to the word under the caret and that begins a subcommand. -/
theorem scanRaw_current {subs : List Sub} {ss : List Str} {chain : List Sub} (h : Leads subs ss chain) (w : Str) (hw : w ∉ ss)
    (hm : ∃ b ∈ subsBehind subs chain, ∃ n, Named n b ∧ w <+: n) :
    ∃ x y, scanRaw w subs (ss ++ [w]) = (true, chain.map Sub.name, x, y) := by
  induction h with
  | here subs =>
    rw [List.nil_append, scanRaw]
    cases findSub subs w with
    | some b => exact ⟨subs, 0, by simp⟩
    | none =>
      dsimp only
      rw [if_pos]
      · exact ⟨_, _, rfl⟩
      · refine ⟨rfl, ?_⟩
        rw [List.any_eq_true]
        obtain ⟨b, hb, n, hn, hp⟩ := hm
        exact ⟨b, hb, starts_iff.2 ⟨n, hn, hp⟩⟩
  | step hm' hn ha _ ih =>
    rw [behind_cons] at hm
    rw [List.cons_append, scanRaw, find_alone hm' hn ha]
    simp only [List.mem_cons, not_or] at hw
    dsimp only
    obtain ⟨x, y, h⟩ := ih hw.2 hm
    rw [if_neg (fun e => hw.1 e.symm), h]
    exact ⟨_, _, rfl⟩

/-! ## The value of an option -/

theorem rposition_last (f : Str → Bool) (l : List Str) (w : Str) (h : f w = true) : rposition f (l ++ [w]) = some l.length := by
  unfold rposition
  rw [List.reverse_append]
  simp [List.findIdx?_cons, h]

theorem rposition_none {f : Str → Bool} {l : List Str} (h : ∀ x ∈ l, f x = false) : rposition f l = none := by
  unfold rposition
  have : l.reverse.findIdx? f = none := by
    rw [List.findIdx?_eq_none_iff]
    intro x hx
    exact h x (by simpa using hx)
  rw [this]

/-- The word under the caret is the last, if no long option with an empty value is before an empty one. -/
theorem rawIndex_last {p : Parsed} {l : List Str} {w : Str} (hr : p.raw = l ++ [w]) (hc : p.current = w)
    (hi : w = [] → ∀ x ∈ l, inlineIs [] x = false) : rawIndex p = some l.length := by
  unfold rawIndex
  rw [hr, hc, if_neg (by simp)]
  dsimp only
  by_cases h : w = []
  · subst h
    rw [if_pos rfl, rposition_none (f := inlineIs []), rposition_last _ _ _ (by simp)]
    intro x hx
    rcases List.mem_append.1 hx with hx | hx
    · exact hi rfl x hx
    · simp only [List.mem_cons, List.not_mem_nil, or_false] at hx
      subst hx; rfl
  · rw [if_neg h, rposition_last _ _ _ (by simp)]

theorem rawToken_last {p : Parsed} {l : List Str} {w : Str} (hr : p.raw = l ++ [w]) (hc : p.current = w)
    (hi : w = [] → ∀ x ∈ l, inlineIs [] x = false) : rawToken p = some w := by
  unfold rawToken
  rw [rawIndex_last hr hc hi, hr]
  simp

theorem rawPrevious_last {p : Parsed} {l : List Str} {w : Str} (hr : p.raw = l ++ [w]) (hc : p.current = w)
    (hi : w = [] → ∀ x ∈ l, inlineIs [] x = false) : rawPrevious p = l.getLast? := by
  unfold rawPrevious
  rw [rawIndex_last hr hc hi, hr, if_neg (by simp)]
  simp only [Option.getD_some]
  rcases List.eq_nil_or_concat l with rfl | ⟨m, x, rfl⟩
  · rfl
  · simp

theorem attached_not {w : Str} (h : isOpt w = false ∨ isLong w = true) (l : List Opt) : attached w l = none := by
  cases l with
  | nil => rfl
  | cons o l =>
    rw [attached, if_pos]
    rcases h with h | h <;> simp [h]

/-- Without a raw word there is no value. -/
theorem optValue_nil (d : Def) {p : Parsed} (hr : p.raw = []) : optValue d p = none := by
  have h1 : rawToken p = none := by simp [rawToken, rawIndex, hr]
  have h2 : rawPrevious p = none := by simp [rawPrevious, hr]
  unfold optValue
  rw [h1, h2]
  simp

/-- A word behind words that are no options is not a value. -/
theorem optValue_word (d : Def) {p : Parsed} {l : List Str} {w : Str} (hr : p.raw = l ++ [w]) (hc : p.current = w)
    (hw : isOpt w = false) (hl : ∀ x ∈ l, isOpt x = false) (hd : Dashed (optsAlong d p.path)) : optValue d p = none := by
  have hi : w = [] → ∀ x ∈ l, inlineIs [] x = false := by
    intro _ x hx
    unfold inlineIs
    rw [no_inline (hl x hx)]
  unfold optValue
  rw [rawToken_last hr hc hi, rawPrevious_last hr hc hi, hc]
  simp only [no_inline hw, Option.bind_some, attached_not (.inl hw), Option.map_none, hw, Bool.false_eq_true, if_false]
  split
  · rfl
  · rename_i x hx
    rw [List.find?_eq_none.2]
    intro o ho h
    simp only [Opt.named, Bool.and_eq_true, Bool.or_eq_true, decide_eq_true_eq] at h
    have := hd o ho x h.1
    rw [hl x (List.mem_of_getLast? hx)] at this
    cases this

theorem attached_two {w : Str} (h : blen w ≤ 2) (l : List Opt) : attached w l = none := by
  induction l with
  | nil => rfl
  | cons o l ih =>
    rw [attached]
    split
    · rfl
    · cases hs : o.short with
      | none => exact ih
      | some s =>
        dsimp only
        split
        · exact ih
        · rename_i hx
          simp only [Bool.or_eq_true, decide_eq_true_eq, Bool.not_eq_true', not_or] at hx
          obtain ⟨⟨h1, -⟩, h3⟩ := hx
          simp only [ne_eq, Decidable.not_not] at h1
          obtain ⟨r, rfl⟩ := isPrefixOf_eq (by simpa using h3 : s.isPrefixOf w = true)
          rw [if_pos]
          · exact ih
          · left
            have : r = [] := by
              cases r with
              | nil => rfl
              | cons c r =>
                have hc := Char.utf8Size_pos c
                simp only [blen, List.map_append, List.sum_append, List.map_cons, List.sum_cons] at h h1
                omega
            simp [this]

/-- An option itself is not a value. -/
theorem optValue_option (d : Def) {p : Parsed} {l : List Str} {w : Str} (hr : p.raw = l ++ [w]) (hc : p.current = w)
    (ho : isOpt w = true) (hs : splitInline w = none) (ha : isLong w = true ∨ blen w ≤ 2) : optValue d p = none := by
  have hne : w ≠ [] := by rintro rfl; simp [isOpt] at ho
  have hat : attached w (optsAlong d p.path) = none := by
    rcases ha with h | h
    · exact attached_not (.inr h) _
    · exact attached_two h _
  unfold optValue
  rw [rawToken_last hr hc (fun e => absurd e hne), hc]
  simp [hs, hat, ho]

/-! ## Subcommands -/

theorem Dashed.sub {l m : List Opt} (h : Dashed m) (hs : ∀ o ∈ l, o ∈ m) : Dashed l := fun o ho => h o (hs o ho)

theorem along_leads (d : Def) {ss : List Str} {chain : List Sub} (h : Leads d.subs ss chain) :
    optsAlong d ss = optionsOn d chain := by
  unfold optsAlong optionsOn
  rw [optsDown_leads h]

theorem any_starts {subs : List Sub} {w : Str} : subs.any (·.starts w) = true ↔ ∃ b ∈ subs, ∃ n, Named n b ∧ w <+: n := by
  rw [List.any_eq_true]
  exact ⟨fun ⟨b, hb, h⟩ => ⟨b, hb, starts_iff.1 h⟩, fun ⟨b, hb, h⟩ => ⟨b, hb, starts_iff.2 h⟩⟩

theorem combined_word (d : Def) {p : Parsed} {l : List Str} {w : Str} (hr : p.raw = l ++ [w]) (hc : p.current = w)
    (hw : isOpt w = false) (hl : ∀ x ∈ l, isOpt x = false) : combined d p = none := by
  unfold combined
  rw [hr, hc]
  dsimp only
  generalize (if w = [] then 1 else 2) = back
  split
  · rfl
  · split
    · rfl
    · rename_i x hx
      have : x ∈ l ++ [w] := List.mem_of_getElem? hx
      have : isOpt x = false := by
        rcases List.mem_append.1 this with h | h
        · exact hl x h
        · simp only [List.mem_cons, List.not_mem_nil, or_false] at h; rw [h]; exact hw
      simp [this]

/-- The line before the first correction: the parser's split of the words into path and rest. -/
structure Before (ss : List Str) (w : Str) (p : Parsed) : Prop where
  words : p.path ++ p.raw = ss ++ [w]
  current : p.current = w
  ctx : p.ctx = .sub ∨ ∃ i, p.ctx = .arg i

theorem correct_sub (d : Def) {ss : List Str} {w : Str} {l : Line} {chain : List Sub} (hb : Before ss w l.p)
    (hl : Leads d.subs ss chain) (hss : ∀ s ∈ ss, isOpt s = false) (hw : isOpt w = false)
    (hm : ∃ b ∈ subsBehind d.subs chain, ∃ n, Named n b ∧ w <+: n)
    (hx : ∀ b ∈ subsBehind d.subs chain, ¬ Named w b) (hnew : w ∉ ss) (hd : Dashed (optionsOn d chain)) :
    correct d l = ⟨{ l.p with path := chain.map Sub.name, ctx := .sub }, none⟩ := by
  obtain ⟨hwords, hcur, hctx⟩ := hb
  rcases List.eq_nil_or_concat l.p.raw with hr | ⟨r', w', hr⟩
  · -- all words in the path
    rw [hr, List.append_nil] at hwords
    unfold correct
    dsimp only
    rw [hwords, walk_append hl [w] (by intro x hx'; simp at hx'; subst hx'; exact hx)]
    dsimp only
    rw [if_pos ⟨rfl, hcur.symm, any_starts.2 hm, hw⟩]
  · rw [List.concat_eq_append] at hr
    rw [hr, ← List.append_assoc] at hwords
    obtain ⟨hss', hw'⟩ := List.append_inj' hwords rfl
    simp only [List.cons.injEq, and_true] at hw'
    subst hw'
    rw [← hss'] at hl hss hnew
    obtain ⟨c1, c2, rfl, h1, h2⟩ := hl.split
    have hdash : Dashed (optsAlong d l.p.path) := by
      rw [along_leads d h1]
      refine hd.sub ?_
      intro o ho
      unfold optionsOn at ho ⊢
      simp only [List.flatMap_append, List.mem_append] at ho ⊢
      rcases ho with ho | ho
      · exact .inl ho
      · exact .inr (.inl ho)
    have hl' : ∀ x ∈ r', isOpt x = false := fun x hx => hss x (by simp [hx])
    have hov : ∀ q : Parsed, q.raw = l.p.raw → q.current = l.p.current → q.path = l.p.path → optValue d q = none := by
      intro q q1 q2 q3
      exact optValue_word d (q1.trans hr) (q2.trans hcur) hw hl' (by rw [q3]; exact hdash)
    have hne : (subsBehind d.subs c1).isEmpty = false := by
      cases h2 with
      | here =>
        rw [List.append_nil] at hm
        obtain ⟨b, hb, -⟩ := hm
        cases h : subsBehind d.subs c1 with
        | nil => rw [h] at hb; cases hb
        | cons => rfl
      | step hb _ _ _ =>
        cases h : subsBehind d.subs c1 with
        | nil => rw [h] at hb; cases hb
        | cons => rfl
    rw [behind_append] at hm
    have hfin : ∀ q : Line, q.p.current = w' → finishScan d l q (c1.map Sub.name) (subsBehind d.subs c1) =
        ⟨{ q.p with ctx := .sub, path := (c1 ++ c2).map Sub.name }, none⟩ := by
      intro q hq
      obtain ⟨x, y, hs⟩ := scanRaw_current h2 w' (fun h => hnew (by simp [h])) hm
      unfold finishScan
      dsimp only
      rw [hr, hq, hs]
      simp
    unfold correct
    dsimp only
    rw [walk_leads h1]
    dsimp only
    rw [hov l.p rfl rfl rfl]
    dsimp only
    rw [if_neg (by rw [hne]; simp)]
    rcases hctx with hc | ⟨i, hc⟩
    · rw [hc]
      dsimp only
      rw [hfin l hcur]
    · rw [hc]
      dsimp only
      rw [combined_word d hr hcur hw hl']
      exact hfin ⟨{ l.p with ctx := _ }, none⟩ hcur

theorem correct_sub_again (d : Def) {ss : List Str} {w : Str} {p : Parsed} {chain : List Sub}
    (hpath : p.path = chain.map Sub.name) (hcur : p.current = w) (hctx : p.ctx = .sub)
    (hraw : p.raw <:+ ss ++ [w])
    (hl : Leads d.subs ss chain) (hss : ∀ s ∈ ss, isOpt s = false) (hw : isOpt w = false)
    (hm : ∃ b ∈ subsBehind d.subs chain, ∃ n, Named n b ∧ w <+: n)
    (hre : ∀ s ∈ ss, ∀ b ∈ subsBehind d.subs chain, ¬ Named s b) (hnew : w ∉ ss) (hd : Dashed (optionsOn d chain)) :
    correct d ⟨p, none⟩ = ⟨p, none⟩ := by
  have hne : (subsBehind d.subs chain).isEmpty = false := by
    obtain ⟨b, hb, -⟩ := hm
    cases h : subsBehind d.subs chain with
    | nil => rw [h] at hb; cases hb
    | cons => rfl
  have hcase : p.raw = [] ∨ ∃ s2, p.raw = s2 ++ [w] ∧ s2 <:+ ss := by
    obtain ⟨t, ht⟩ := hraw
    rcases List.eq_nil_or_concat p.raw with h | ⟨r, x, h⟩
    · exact .inl h
    · right
      rw [List.concat_eq_append] at h
      rw [h, ← List.append_assoc] at ht
      obtain ⟨h1, h2⟩ := List.append_inj' ht rfl
      simp only [List.cons.injEq, and_true] at h2
      subst h2
      exact ⟨r, h, ⟨t, h1⟩⟩
  have hdash : Dashed (optsAlong d p.path) := by rw [hpath, along_leads d hl.names]; exact hd
  have hov : optValue d p = none := by
    rcases hcase with h | ⟨s2, h, hs⟩
    · exact optValue_nil d h
    · exact optValue_word d h hcur hw (fun x hx => hss x (hs.subset hx)) hdash
  unfold correct
  dsimp only
  rw [hpath, walk_leads hl.names]
  dsimp only
  rw [hov]
  dsimp only
  rw [if_neg (by rw [hne]; simp), hctx]
  dsimp only
  unfold finishScan
  dsimp only
  have hp : p = { p with ctx := .sub, path := chain.map Sub.name } := by rw [← hpath, ← hctx]
  rcases hcase with h | ⟨s2, h, hs⟩
  · rw [h]
    simp only [scanRaw, Bool.false_eq_true, if_false, if_true]
    rw [hov]
  · cases s2 with
    | nil =>
      obtain ⟨x, y, hsr⟩ := scanRaw_current (.here (subsBehind d.subs chain)) w (by simp) hm
      have hsr' : scanRaw p.current (subsBehind d.subs chain) p.raw = (true, [], x, y) := by rw [h, hcur]; exact hsr
      rw [hsr']
      simp only [if_true, List.append_nil]
      rw [← hp]
    | cons s s2 =>
      have hsm : s ∈ ss := hs.subset (by simp)
      have hsr := scanRaw_leads (.here (subsBehind d.subs chain)) w (by simp) (s :: s2 ++ [w]) (by
        intro x hx
        simp only [List.cons_append, List.head?_cons, Option.some.injEq] at hx
        subst hx
        exact ⟨hre s hsm, fun e => absurd (e ▸ hsm) hnew⟩)
      rw [List.nil_append] at hsr
      rw [h, hcur, hsr]
      simp only [Bool.false_eq_true, if_false, List.length_nil, if_true]
      rw [hov]

theorem prev_typed {c : Str} {ss : List Str} (w : Str) (hc : isOpt c = false) (hss : ∀ s ∈ ss, isOpt s = false) :
    isOpt (((c :: (ss ++ [w]))[ss.length + 1 - 1]?).getD []) = false := by
  rw [Nat.add_sub_cancel]
  rcases List.eq_nil_or_concat ss with rfl | ⟨m, x, rfl⟩
  · simpa using hc
  · have : ((c :: (m.concat x ++ [w]))[(m.concat x).length]?).getD [] = x := by simp
    rw [this]
    exact hss x (by simp)

/-- What the parser finds in the words of a line. -/
theorem before_typed (u : Tables) {c : Str} {ss : List Str} {w : Str} (hc : Word c) (hco : isOpt c = false)
    (hss : ∀ s ∈ ss, Word s ∧ isOpt s = false) (hw : w = [] ∨ Word w) (hwo : isOpt w = false) :
    (parse u (typed c ss w) (typed c ss w).length).command = c ∧ Before ss w (parse u (typed c ss w) (typed c ss w).length) := by
  rw [parse_typed u hc (fun x hx => (hss x hx).1) hw, analyze_typed u c ss w _ (no_inline hwo)]
  refine ⟨rfl, List.takeWhile_append_dropWhile, rfl, ?_⟩
  rw [hasSpace_typed hc]
  exact context_word u hwo (prev_typed w hco (fun s hs => (hss s hs).2))

theorem genSub_eq (W : World) (d : Def) {p : Parsed} {chain : List Sub} (h : Leads d.subs p.path chain)
    (hm : ∃ b ∈ subsBehind d.subs chain, ∃ n, Named n b ∧ p.current <+: n) :
    ∃ extra, genSub W d p = subCands (subsBehind d.subs chain) p.current ++ extra ∧
      (p.path ≠ [] ∨ d.arguments = [] → extra = []) := by
  have hne : subCands (subsBehind d.subs chain) p.current ≠ [] := by
    obtain ⟨b, hb, n, hn, hp⟩ := hm
    have : ∃ t, matched b p.current = some t := by
      unfold matched
      split
      · exact ⟨_, rfl⟩
      · rename_i h
        rcases hn with rfl | hn
        · exact absurd (List.isPrefixOf_iff_prefix.2 hp) h
        · have : (b.aliases.find? (fun a => p.current.isPrefixOf a)).isSome := by
            rw [List.find?_isSome]
            exact ⟨n, hn, List.isPrefixOf_iff_prefix.2 hp⟩
          exact Option.isSome_iff_exists.1 this
    obtain ⟨t, ht⟩ := this
    intro h
    have : (⟨t, .sub⟩ : Cand) ∈ subCands (subsBehind d.subs chain) p.current := by
      unfold subCands
      rw [List.mem_filterMap]
      exact ⟨b, hb, by rw [ht]; rfl⟩
    rw [h] at this
    cases this
  unfold genSub
  rw [currentSub_leads h]
  cases hg : chain.getLast? with
  | some b =>
    have hsb : subsBehind d.subs chain = b.subs := by unfold subsBehind; rw [hg]
    rw [hsb] at hne ⊢
    refine ⟨[], ?_, fun _ => rfl⟩
    dsimp only
    rw [List.append_nil, if_neg]
    simpa using hne
  | none =>
    have hch : chain = [] := List.getLast?_eq_none_iff.1 hg
    have hpe : p.path = [] := by
      subst hch
      cases h' : p.path with
      | nil => rfl
      | cons => rw [h'] at h; cases h
    have hsb : subsBehind d.subs chain = d.subs := by unfold subsBehind; rw [hg]
    rw [hsb] at hne ⊢
    refine ⟨match d.arguments[p.args.length]? with
        | some a => forType W p (a.ty.getD .plain)
        | none => [], ?_, ?_⟩
    · dsimp only
      rw [if_neg (fun h => hne (List.append_eq_nil_iff.1 (List.isEmpty_iff.1 h)).1)]
      rfl
    · rintro (h | h)
      · exact absurd hpe h
      · rw [h]; rfl

theorem mem_subCands {subs : List Sub} {w : Str} {x : Cand} (h : x ∈ subCands subs w) :
    x.kind = .sub ∧ ∃ b ∈ subs, Named x.text b ∧ w <+: x.text := by
  unfold subCands at h
  rw [List.mem_filterMap] at h
  obtain ⟨b, hb, h⟩ := h
  rw [Option.map_eq_some_iff] at h
  obtain ⟨t, ht, rfl⟩ := h
  refine ⟨rfl, b, hb, ?_⟩
  unfold matched at ht
  split at ht
  · rename_i hp
    cases ht
    exact ⟨.inl rfl, List.isPrefixOf_iff_prefix.1 hp⟩
  · have h1 := List.mem_of_find?_eq_some ht
    have h2 := List.find?_some ht
    exact ⟨.inr h1, List.isPrefixOf_iff_prefix.1 h2⟩

theorem subCands_mem {subs : List Sub} {w : Str} {b : Sub} (hb : b ∈ subs) (h : ∃ n, Named n b ∧ w <+: n) :
    ∃ x ∈ subCands subs w, Named x.text b ∧ (w <+: b.name → x.text = b.name) := by
  obtain ⟨n, hn, hp⟩ := h
  unfold subCands
  by_cases hx : w <+: b.name
  · refine ⟨⟨b.name, .sub⟩, ?_, .inl rfl, fun _ => rfl⟩
    rw [List.mem_filterMap]
    refine ⟨b, hb, ?_⟩
    unfold matched
    rw [if_pos (List.isPrefixOf_iff_prefix.2 hx)]
    rfl
  · have hn' : n ∈ b.aliases := by
      rcases hn with rfl | hn
      · exact absurd hp hx
      · exact hn
    have : (b.aliases.find? (fun a => w.isPrefixOf a)).isSome := by
      rw [List.find?_isSome]
      exact ⟨n, hn', List.isPrefixOf_iff_prefix.2 hp⟩
    obtain ⟨t, ht⟩ := Option.isSome_iff_exists.1 this
    refine ⟨⟨t, .sub⟩, ?_, .inr (List.mem_of_find?_eq_some ht), fun h => absurd h hx⟩
    rw [List.mem_filterMap]
    refine ⟨b, hb, ?_⟩
    unfold matched
    rw [if_neg (fun h => hx (List.isPrefixOf_iff_prefix.1 h)), ht]
    rfl

/-- What is to be offered for the beginning `w` of a subcommand: texts that begin with `w`, each the name
of one of the subcommands possible here, and for each subcommand with such a name one, its proper name if
that begins with `w`. -/
def OffersSubs (subs : List Sub) (w : Str) (l : List Cand) : Prop :=
  (∀ x ∈ l, x.kind = .sub ∧ ∃ b ∈ subs, Named x.text b ∧ w <+: x.text) ∧
  ∀ b ∈ subs, (∃ n, Named n b ∧ w <+: n) → ∃ x ∈ l, Named x.text b ∧ (w <+: b.name → x.text = b.name)

theorem offersSubs (subs : List Sub) (w : Str) : OffersSubs subs w (subCands subs w) :=
  ⟨fun _ h => mem_subCands h, fun _ hb h => subCands_mem hb h⟩

/-- The candidates of a line corrected once. -/
theorem generate_sub (u : Tables) (W : World) (db : Str → Option Def) (f : Nat) {d : Def} {l : Line} {chain : List Sub} {w : Str}
    (hdb : db l.p.command = some d) (hcor : correct d l = ⟨{ l.p with path := chain.map Sub.name, ctx := .sub }, none⟩)
    (hcur : l.p.current = w) (hl : Leads d.subs (chain.map Sub.name) chain)
    (hm : ∃ b ∈ subsBehind d.subs chain, ∃ n, Named n b ∧ w <+: n) :
    ∃ L extra, generate u W db (f + 1) l = .ok (L ++ extra) ∧
      (chain ≠ [] ∨ d.arguments = [] → extra = []) ∧ OffersSubs (subsBehind d.subs chain) w L := by
  unfold generate
  simp only [correctWith, hdb, hcor]
  subst hcur
  obtain ⟨extra, h1, h2⟩ := genSub_eq W d (p := { l.p with path := chain.map Sub.name, ctx := .sub }) hl hm
  refine ⟨_, extra, by rw [h1], ?_, offersSubs _ _⟩
  rintro (h | h)
  · exact h2 (.inl (by simpa using h))
  · exact h2 (.inr h)

/-- **C126, subcommands.** Behind a command with a definition and any number of its subcommands, typed
under any of their names, Tab offers the subcommands possible there that begin with the word under the
caret, which may be empty: those and no others, unless the command itself also has arguments. Provided
the word is not itself the complete name of one, and the same names do not come again further down. -/
theorem C126_sub_partial (u : Tables) (W : World) (db : Str → Option Def) (f : Nat) {c : Str} {d : Def} {ss : List Str}
    {chain : List Sub} {w : Str} (hdb : db c = some d) (hc : Word c) (hco : isOpt c = false)
    (hss : ∀ s ∈ ss, Word s ∧ isOpt s = false) (hw : w = [] ∨ Word w) (hwo : isOpt w = false)
    (hl : Leads d.subs ss chain)
    (hm : ∃ b ∈ subsBehind d.subs chain, ∃ n, Named n b ∧ w <+: n)
    (hx : ∀ b ∈ subsBehind d.subs chain, ¬ Named w b)
    (hre : ∀ s ∈ ss, ∀ b ∈ subsBehind d.subs chain, ¬ Named s b) (hnew : w ∉ ss) (hd : Dashed (optionsOn d chain)) :
    ∃ L extra, tab u W db id (f + 1) (typed c ss w) (typed c ss w).length = .ok (L ++ extra) ∧
      (chain ≠ [] ∨ d.arguments = [] → extra = []) ∧ OffersSubs (subsBehind d.subs chain) w L := by
  obtain ⟨hcmd, hb⟩ := before_typed u hc hco hss hw hwo
  unfold tab seen
  generalize parse u (typed c ss w) (typed c ss w).length = p at hcmd hb
  have hss' : ∀ s ∈ ss, isOpt s = false := fun s hs => (hss s hs).2
  have h1 := correct_sub d (l := ⟨p, none⟩) hb hl hss' hwo hm hx hnew hd
  have h2 := correct_sub_again d (ss := ss) (p := { p with path := chain.map Sub.name, ctx := .sub }) rfl hb.current rfl
    (by exact ⟨p.path, hb.words⟩) hl hss' hwo hm hre hnew hd
  simp only [id, correctWith, hcmd, hdb]
  have hp : ({ p with command := c } : Parsed) = p := by rw [← hcmd]
  rw [hp, h1]
  exact generate_sub u W db f (by rw [← hdb, ← hcmd]) h2 hb.current hl.names hm

/-! ## Options -/

/-- The line before the first correction, with an option under the caret. -/
structure BeforeOpt (ss as : List Str) (w : Str) (p : Parsed) : Prop where
  words : p.path ++ p.raw = ss ++ as ++ [w]
  path : ∀ x ∈ p.path, isOpt x = false
  current : p.current = w
  ctx : p.ctx = .long

theorem correct_opt (d : Def) {ss as : List Str} {w : Str} {l : Line} {chain : List Sub} (hb : BeforeOpt ss as w l.p)
    (hty : l.ty = none) (hl : Leads d.subs ss chain) (hss : ∀ s ∈ ss, isOpt s = false)
    (hw : isOpt w = true) (hs : splitInline w = none) (ha : isLong w = true ∨ blen w ≤ 2)
    (has : ∀ a, as.head? = some a → ∀ b ∈ subsBehind d.subs chain, ¬ Named a b)
    (hx : ∀ b ∈ subsBehind d.subs chain, ∀ n, Named n b → ¬ w <+: n) :
    ∃ path raw args, correct d l = ⟨{ l.p with path := path, raw := raw, args := args }, none⟩ ∧
      Leads d.subs path chain ∧ ∃ s2, raw = s2 ++ as ++ [w] ∧ s2 <:+ ss := by
  obtain ⟨hwords, hpath, hcur, hctx⟩ := hb
  have hwss : ∀ y, isOpt y = false → y ≠ w := by rintro y hy rfl; rw [hw] at hy; cases hy
  have hraw : ∃ r, l.p.raw = r ++ [w] := by
    rcases List.eq_nil_or_concat l.p.raw with h | ⟨r, x, h⟩
    · rw [h, List.append_nil] at hwords
      exact absurd rfl (hwss w (hpath w (by rw [hwords]; simp)))
    · rw [List.concat_eq_append] at h
      rw [h, ← List.append_assoc] at hwords
      obtain ⟨-, h2⟩ := List.append_inj' hwords rfl
      simp only [List.cons.injEq, and_true] at h2
      exact ⟨r, by rw [h, h2]⟩
  obtain ⟨r, hr⟩ := hraw
  have hwords' : l.p.path ++ r = ss ++ as := by
    rw [hr, ← List.append_assoc] at hwords
    exact (List.append_inj' hwords rfl).1
  have hov : ∀ q : Parsed, q.raw = l.p.raw → q.current = l.p.current → optValue d q = none := by
    intro q q1 q2
    exact optValue_option d (q1.trans hr) (q2.trans hcur) hw hs ha
  rw [List.append_eq_append_iff] at hwords'
  have hcase : (∃ a', l.p.path = ss ++ a' ∧ as = a' ++ r ∧ a' ≠ []) ∨ ∃ s2, ss = l.p.path ++ s2 ∧ r = s2 ++ as := by
    rcases hwords' with ⟨s2, h1, h2⟩ | ⟨a', h1, h2⟩
    · exact .inr ⟨s2, h1, h2⟩
    · by_cases h : a' = []
      · subst h
        exact .inr ⟨[], by simpa using h1.symm, by simpa using h2.symm⟩
      · exact .inl ⟨a', h1, h2, h⟩
  rcases hcase with ⟨a', h1, h2, h3⟩ | ⟨s2, h1, h2⟩
  · -- words that are no subcommands in the path
    cases a' with
    | nil => exact absurd rfl h3
    | cons a a' =>
      refine ⟨chain.map Sub.name, as ++ [w], (a :: a') ++ l.p.args, ?_, hl.names, [], by simp, ⟨ss, by simp⟩⟩
      unfold correct
      dsimp only
      rw [h1, walk_append hl (a :: a') (by
        intro x hx'
        simp only [List.head?_cons, Option.some.injEq] at hx'
        subst hx'
        exact has a (by rw [h2]; rfl))]
      dsimp only
      have hao : isOpt a = false := hpath a (by rw [h1]; simp)
      rw [if_neg (by rintro ⟨-, h, -⟩; rw [hcur] at h; exact hwss a hao h),
        if_neg (by rintro ⟨-, h, -⟩; rw [hcur] at h; exact hwss a hao h),
        if_pos (.inr hctx), h2, hr]
      simp
  · rw [h1] at hl hss
    obtain ⟨c1, c2, rfl, k1, k2⟩ := hl.split
    rw [behind_append] at has hx
    have hhead : ∀ x, (as ++ [w]).head? = some x → (∀ b ∈ subsBehind (subsBehind d.subs c1) c2, ¬ Named x b) ∧
        (x = w → ∀ b ∈ subsBehind (subsBehind d.subs c1) c2, ∀ n, Named n b → ¬ w <+: n) := by
      intro x hx'
      refine ⟨?_, fun _ => hx⟩
      cases as with
      | nil =>
        simp only [List.nil_append, List.head?_cons, Option.some.injEq] at hx'
        subst hx'
        exact fun b hb hn => hx b hb w hn (List.prefix_refl _)
      | cons a as => exact has x hx'
    have hsr := scanRaw_leads k2 w (fun h => by
      exact absurd rfl (hwss w (hss w (by simp [h])))) (as ++ [w]) hhead
    have hraw2 : l.p.raw = s2 ++ (as ++ [w]) := by rw [hr, h2]; simp
    have hcor : correct d l = finishScan d l l (c1.map Sub.name) (subsBehind d.subs c1) := by
      unfold correct
      dsimp only
      rw [walk_leads k1]
      dsimp only
      rw [hov l.p rfl rfl]
      dsimp only
      rw [hctx]
      rfl
    have hl0 : l = ⟨l.p, none⟩ := by rw [← hty]
    rw [hcor]
    unfold finishScan
    dsimp only
    rw [hraw2, hcur, hsr]
    simp only [Bool.false_eq_true, if_false]
    by_cases hn : s2 = []
    · subst hn
      refine ⟨l.p.path, l.p.raw, l.p.args, ?_, ?_, [], by rw [hraw2]; simp, ⟨ss, by simp⟩⟩
      · simp only [List.length_nil, if_true]
        rw [hov l.p rfl rfl]
        dsimp only
        rw [← hcur]
        exact hl0
      · rw [List.append_nil] at hl; exact hl
    · refine ⟨(c1 ++ c2).map Sub.name, l.p.raw, l.p.args, ?_, hl.names, s2, by rw [hraw2]; simp, ⟨l.p.path, h1.symm⟩⟩
      · have hlen : s2.length ≠ 0 := fun h => hn (List.length_eq_zero_iff.1 h)
        have hany : (subsBehind (subsBehind d.subs c1) c2).any (·.is w) = false := by
          rw [List.any_eq_false]
          intro b hb h
          exact hx b hb w (is_iff.1 h) (List.prefix_refl _)
        rw [if_neg hlen, hw, hany, hctx]
        simp only [decide_true, Bool.not_false, Bool.true_and, Bool.or_true, if_true]
        rw [hov _ hraw2.symm hcur.symm, hraw2]
        simp

theorem correct_opt_again (d : Def) {ss as : List Str} {w : Str} {p : Parsed} {chain : List Sub}
    {s2 : List Str} (hraw : p.raw = s2 ++ as ++ [w]) (hs2 : s2 <:+ ss) (hcur : p.current = w) (hctx : p.ctx = .long)
    (hl : Leads d.subs p.path chain) (hre : ∀ s ∈ ss, ∀ b ∈ subsBehind d.subs chain, ¬ Named s b)
    (hw : isOpt w = true) (hs : splitInline w = none) (ha : isLong w = true ∨ blen w ≤ 2)
    (has : ∀ a, as.head? = some a → ∀ b ∈ subsBehind d.subs chain, ¬ Named a b)
    (hx : ∀ b ∈ subsBehind d.subs chain, ∀ n, Named n b → ¬ w <+: n) :
    correct d ⟨p, none⟩ = ⟨p, none⟩ := by
  have hov : optValue d p = none := optValue_option d hraw hcur hw hs ha
  have hsr := scanRaw_leads (.here (subsBehind d.subs chain)) w (by simp) p.raw (by
    intro x hx'
    refine ⟨?_, fun _ => hx⟩
    rw [hraw] at hx'
    cases s2 with
    | cons s s2 =>
      simp only [List.cons_append, List.head?_cons, Option.some.injEq] at hx'
      subst hx'
      exact hre s (hs2.subset (by simp))
    | nil =>
      cases as with
      | cons a as => exact has x hx'
      | nil =>
        simp only [List.nil_append, List.head?_cons, Option.some.injEq] at hx'
        subst hx'
        exact fun b hb hn => hx b hb w hn (List.prefix_refl _))
  rw [List.nil_append] at hsr
  unfold correct
  dsimp only
  rw [walk_leads hl]
  dsimp only
  rw [hov]
  dsimp only
  rw [hctx]
  dsimp only
  rw [if_neg (by simp)]
  unfold finishScan
  dsimp only
  rw [hcur, hsr]
  simp only [Bool.false_eq_true, if_false, List.length_nil, if_true]
  rw [hov]

theorem takeWhile_all {α : Type} {f : α → Bool} {l : List α} (h : ∀ x ∈ l, f x = true) : l.takeWhile f = l := by
  induction l with
  | nil => rfl
  | cons x l ih => rw [List.takeWhile_cons, if_pos (h x (by simp)), ih (fun y hy => h y (by simp [hy]))]

/-- Options without a value of their own, and arguments: what the parser takes for given options is what
looks like one. -/
theorem scan_plain {l : List Str} (h : ∀ x ∈ l, isRedirect x = false ∧ (isOpt x = true → '=' ∉ x ∧ takesValue x = false)) :
    (scan false false l).1 = l.filter isOpt := by
  induction l with
  | nil => rfl
  | cons x l ih =>
    obtain ⟨h1, h2⟩ := h x (by simp)
    have ih := ih (fun y hy => h y (by simp [hy]))
    rw [scan]
    simp only [Bool.false_eq_true, if_false, h1]
    by_cases hx : isOpt x = true
    · obtain ⟨h3, h4⟩ := h2 hx
      have hi : splitInline x = none := by
        unfold splitInline
        split
        · rfl
        · have : x.takeWhile (· ≠ '=') = x := by
            exact takeWhile_all (fun c hc => by
              simp only [ne_eq, decide_not, Bool.not_eq_eq_eq_not, Bool.not_true, decide_eq_false_iff_not]
              rintro rfl
              exact h3 hc)
          rw [this]
          simp
      rw [if_pos hx, hi]
      simp only [h4, Bool.and_false, ih, List.filter_cons, hx, if_true]
    · rw [if_neg hx]
      simp only [ih, List.filter_cons, hx]
      simp

theorem looksSub_opt (u : Tables) {w : Str} (h : isOpt w = true) : looksSub u w = false := by
  unfold looksSub; simp [h]

theorem no_inline_eq {w : Str} (h : '=' ∉ w) : splitInline w = none := by
  unfold splitInline
  split
  · rfl
  · have : w.takeWhile (· ≠ '=') = w := takeWhile_all (fun c hc => by
      simp only [ne_eq, decide_not, Bool.not_eq_eq_eq_not, Bool.not_true, decide_eq_false_iff_not]
      rintro rfl
      exact h hc)
    rw [this]
    simp

theorem mem_takeWhile_sub {α : Type} {f : α → Bool} {l : List α} {x : α} (h : x ∈ l.takeWhile f) : f x = true := by
  induction l with
  | nil => cases h
  | cons y l ih =>
    rw [List.takeWhile_cons] at h
    split at h
    · rcases List.mem_cons.1 h with rfl | h
      · assumption
      · exact ih h
    · cases h

theorem filter_dropWhile {l : List Str} {f g : Str → Bool} (h : ∀ x, f x = true → g x = false) :
    (l.dropWhile f).filter g = l.filter g := by
  induction l with
  | nil => rfl
  | cons x l ih =>
    rw [List.dropWhile_cons]
    split
    · rename_i hx
      rw [ih, List.filter_cons, h x hx]
      simp
    · rfl

theorem before_opt (u : Tables) {c : Str} {ss as : List Str} {w : Str} (hc : Word c)
    (hws : ∀ s ∈ ss ++ as, Word s) (hw : Word w) (hwo : isOpt w = true) (heq : '=' ∉ w) (ha : isLong w = true ∨ w = ['-'])
    (has : ∀ a ∈ ss ++ as, isOpt a = true → '=' ∉ a ∧ takesValue a = false) (hwt : takesValue w = false) :
    (parse u (typed c (ss ++ as) w) (typed c (ss ++ as) w).length).command = c ∧
    (parse u (typed c (ss ++ as) w) (typed c (ss ++ as) w).length).options = (ss ++ as ++ [w]).filter isOpt ∧
    BeforeOpt ss as w (parse u (typed c (ss ++ as) w) (typed c (ss ++ as) w).length) := by
  rw [parse_typed u hc hws (.inr hw), analyze_typed u c (ss ++ as) w _ (no_inline_eq heq)]
  have hfil : (scan false false ((ss ++ as ++ [w]).dropWhile (looksSub u))).1 = (ss ++ as ++ [w]).filter isOpt := by
    rw [scan_plain]
    · exact filter_dropWhile (fun x hx => by
        cases h : isOpt x with
        | false => rfl
        | true => rw [looksSub_opt u h] at hx; cases hx)
    · intro x hx
      have hx := (List.dropWhile_suffix _).subset hx
      rw [List.mem_append] at hx
      rcases hx with hx | hx
      · exact ⟨(hws x hx).no_redirect, has x hx⟩
      · simp only [List.mem_cons, List.not_mem_nil, or_false] at hx
        subst hx
        exact ⟨hw.no_redirect, fun _ => ⟨heq, hwt⟩⟩
  refine ⟨rfl, hfil, List.takeWhile_append_dropWhile, ?_, rfl, ?_⟩
  · intro x hx
    cases h : isOpt x with
    | false => rfl
    | true => have := mem_takeWhile_sub hx; rw [looksSub_opt u h] at this; cases this
  · unfold context
    rw [no_inline_eq heq]
    dsimp only
    rcases ha with h | rfl
    · simp [h]
    · simp [isLong, isOpt, blen]
      decide

theorem wrapped_none {d : Def} (h : ∀ a ∈ d.arguments, a.ty ≠ some .withArgs) (args : List Str) : wrapped d args = none := by
  have : ∀ (i : Nat) (l : List Str) (m : List Arg), (∀ a ∈ m, a.ty ≠ some .withArgs) → wrapped.go i l m = none := by
    intro i l m hm
    induction m generalizing i l with
    | nil => cases l <;> rfl
    | cons a m ih =>
      cases l with
      | nil => rfl
      | cons x l =>
        rw [wrapped.go, if_neg (hm a (by simp))]
        exact ih _ _ (fun b hb => hm b (by simp [hb]))
  exact this _ _ _ h

/-- **C126, options.** Behind a command with a definition, any number of its subcommands and further
words, Tab on a `-` or on the beginning of a long option offers the options of the command and of the
last subcommand that begin so, in every spelling, except those already given, and except the word itself. -/
theorem C126_option_partial (u : Tables) (W : World) (db : Str → Option Def) (f : Nat) {c : Str} {d : Def} {ss as : List Str}
    {chain : List Sub} {w : Str} (hdb : db c = some d) (hc : Word c)
    (hss : ∀ s ∈ ss, Word s ∧ isOpt s = false)
    (has : ∀ a ∈ as, Word a ∧ (isOpt a = true → '=' ∉ a ∧ takesValue a = false))
    (hw : Word w) (heq : '=' ∉ w) (ha : isLong w = true ∨ w = ['-']) (hwt : takesValue w = false)
    (hl : Leads d.subs ss chain)
    (hfirst : ∀ a, as.head? = some a → ∀ b ∈ subsBehind d.subs chain, ¬ Named a b)
    (hx : ∀ b ∈ subsBehind d.subs chain, ∀ n, Named n b → ¬ w <+: n)
    (hre : ∀ s ∈ ss, ∀ b ∈ subsBehind d.subs chain, ¬ Named s b)
    (hwrap : ∀ a ∈ d.arguments, a.ty ≠ some .withArgs) :
    ∃ L, tab u W db id (f + 1) (typed c (ss ++ as) w) (typed c (ss ++ as) w).length = .ok L ∧
      ∀ x : Cand, x ∈ L ↔ (∃ o ∈ optionsAt d chain, (o.long = some x.text ∧ x.kind = .long) ∨ (o.short = some x.text ∧ x.kind = .short)) ∧
        w <+: x.text ∧ x.text ≠ w ∧ x.text ∉ as := by
  have hwo : isOpt w = true := by
    rcases ha with h | rfl
    · obtain ⟨r, rfl⟩ := isPrefixOf_eq h; rfl
    · rfl
  have hss' : ∀ s ∈ ss, isOpt s = false := fun s hs => (hss s hs).2
  obtain ⟨hcmd, hopts, hb⟩ := before_opt u (ss := ss) (as := as) hc
    (by intro s hs; rcases List.mem_append.1 hs with h | h; exacts [(hss s h).1, (has s h).1]) hw hwo heq ha
    (by
      intro s hs ho
      rcases List.mem_append.1 hs with h | h
      · rw [hss' s h] at ho; cases ho
      · exact (has s h).2 ho) hwt
  have ha' : isLong w = true ∨ blen w ≤ 2 := by
    rcases ha with h | rfl
    · exact .inl h
    · right; decide
  unfold tab seen
  generalize parse u (typed c (ss ++ as) w) (typed c (ss ++ as) w).length = p at hcmd hopts hb
  obtain ⟨path, raw, args, h1, hlead, s2, hraw, hs2⟩ := correct_opt d (l := ⟨p, none⟩) hb rfl hl hss' hwo (no_inline_eq heq) ha' hfirst hx
  dsimp only at h1
  have h2 := correct_opt_again d (ss := ss) (as := as) (p := { p with path := path, raw := raw, args := args }) hraw hs2 hb.current hb.ctx
    hlead hre hwo (no_inline_eq heq) ha' hfirst hx
  simp only [id, correctWith, hcmd, hdb]
  have hp : ({ p with command := c } : Parsed) = p := by rw [← hcmd]
  rw [hp, h1]
  unfold generate
  simp only [correctWith, hcmd, hdb]
  simp only [hcmd] at h2
  rw [h2]
  simp only [hb.ctx, wrapped_none hwrap, hdb]
  refine ⟨_, rfl, ?_⟩
  intro x
  have hat : optsAt d path = optionsAt d chain := by
    unfold optsAt optionsAt
    rw [currentSub_leads hlead]
    rfl
  have hgiven : ∀ t : Str, w <+: t → (p.options.contains t = false ↔ t ≠ w ∧ t ∉ as) := by
    intro t hpre
    have hto : isOpt t = true := by
      obtain ⟨r, rfl⟩ := hpre
      cases w with
      | nil => simp [isOpt] at hwo
      | cons y w => simpa [isOpt] using hwo
    have htss : t ∉ ss := fun h => by rw [hss' t h] at hto; cases hto
    rw [hopts, List.contains_eq_mem, decide_eq_false_iff_not, List.mem_filter]
    simp only [hto, and_true, List.mem_append, htss, false_or, List.mem_cons, List.not_mem_nil, or_false, not_or]
    exact And.comm
  have hoffer : ∀ (k : Kind) (s : Option Str), x ∈ offer { p with command := c, path := path, raw := raw, args := args, ctx := .long } k s ↔
      s = some x.text ∧ x.kind = k ∧ w <+: x.text ∧ x.text ≠ w ∧ x.text ∉ as := by
    intro k s
    cases s with
    | none => simp [offer]
    | some s =>
      unfold offer
      dsimp only
      rw [hb.current]
      constructor
      · intro h
        split at h
        · rename_i hcond
          simp only [Bool.and_eq_true, Bool.not_eq_true', List.isPrefixOf_iff_prefix] at hcond
          simp only [List.mem_cons, List.not_mem_nil, or_false] at h
          subst h
          exact ⟨rfl, rfl, hcond.1, (hgiven s hcond.1).1 hcond.2⟩
        · cases h
      · rintro ⟨h, hk, hpre, hrest⟩
        simp only [Option.some.injEq] at h
        subst h
        rw [if_pos]
        · rw [← hk]; simp
        · simp only [Bool.and_eq_true, Bool.not_eq_true', List.isPrefixOf_iff_prefix]
          exact ⟨hpre, (hgiven _ hpre).2 hrest⟩
  unfold genLong
  simp only [hat, List.mem_flatMap, List.mem_append, hoffer]
  constructor
  · rintro ⟨o, ho, ⟨h, hk, hrest⟩ | ⟨h, hk, hrest⟩⟩
    · exact ⟨⟨o, ho, .inl ⟨h, hk⟩⟩, hrest⟩
    · exact ⟨⟨o, ho, .inr ⟨h, hk⟩⟩, hrest⟩
  · rintro ⟨⟨o, ho, ⟨h, hk⟩ | ⟨h, hk⟩⟩, hrest⟩
    · exact ⟨o, ho, .inl ⟨h, hk, hrest⟩⟩
    · exact ⟨o, ho, .inr ⟨h, hk, hrest⟩⟩

/-! ## Values of options -/

/-- The choices that fit the beginning of a value. -/
def Fits (W : World) (w v : Str) : Prop := w = [] ∨ W.fuzzy v w = true

theorem takeWhile_sub (u : Tables) {ss rest : List Str} (h : ∀ s ∈ ss, looksSub u s = true)
    (hr : ∀ x, rest.head? = some x → looksSub u x = false) :
    (ss ++ rest).takeWhile (looksSub u) = ss ∧ (ss ++ rest).dropWhile (looksSub u) = rest := by
  induction ss with
  | nil =>
    cases rest with
    | nil => simp
    | cons x rest => simp [hr x rfl]
  | cons s ss ih =>
    obtain ⟨h1, h2⟩ := ih (fun x hx => h x (by simp [hx]))
    rw [List.cons_append, List.takeWhile_cons, List.dropWhile_cons, if_pos (h s (by simp)), if_pos (h s (by simp)), h1, h2]
    exact ⟨rfl, rfl⟩

theorem correct_value (d : Def) {l : Line} {ss : List Str} {chain : List Sub} {c : Line} (hpath : l.p.path = ss)
    (hl : Leads d.subs ss chain) (h : optValue d l.p = some c) : correct d l = c := by
  unfold correct
  dsimp only
  rw [hpath, walk_leads hl]
  dsimp only
  rw [h]

theorem find_option {l : List Opt} {f : Opt → Bool} {op : Opt} (hm : op ∈ l) (hf : f op = true)
    (hu : ∀ o ∈ l, f o = true → o = op) : l.find? f = some op := by
  cases h : l.find? f with
  | none => rw [List.find?_eq_none] at h; exact absurd hf (h op hm)
  | some o => rw [hu o (List.mem_of_find?_eq_some h) (List.find?_some h)]

theorem optValue_next (d : Def) {p : Parsed} {chain : List Sub} {o w : Str} {op : Opt} (hl : Leads d.subs p.path chain)
    (hr : p.raw = [o, w]) (hc : p.current = w) (hwo : isOpt w = false) (heq : '=' ∉ o)
    (hm : op ∈ optionsOn d chain) (hn : op.named o = true) (he : op.expects = true)
    (hu : ∀ x ∈ optionsOn d chain, x.named o = true → x = op) :
    ∃ args, optValue d p = some ⟨{ p with ctx := .value o, args := args }, op.valueType⟩ := by
  have hi : w = [] → ∀ x ∈ [o], inlineIs [] x = false := by
    intro _ x hx
    simp only [List.mem_cons, List.not_mem_nil, or_false] at hx
    subst hx
    unfold inlineIs
    rw [no_inline_eq heq]
  have hr' : p.raw = [o] ++ [w] := hr
  have hf : (optsAlong d p.path).find? (fun x => x.named o && x.expects) = some op := by
    rw [along_leads d hl]
    refine find_option hm (by simp [hn, he]) ?_
    intro x hx h
    simp only [Bool.and_eq_true] at h
    exact hu x hx h.1
  refine ⟨dropCurrent p.args p.current, ?_⟩
  unfold optValue
  rw [rawToken_last hr' hc hi, rawPrevious_last hr' hc hi, hc]
  simp only [no_inline hwo, Option.bind_some, attached_not (.inl hwo), Option.map_none, hwo, Bool.false_eq_true, if_false,
    List.getLast?_singleton, hf]

theorem inline_split {o w : Str} (hlong : isLong o = true) (hlen : 2 < blen o) (heq : '=' ∉ o) :
    splitInline (o ++ '=' :: w) = some (o, w) := by
  have h1 : isLong (o ++ '=' :: w) = true := by
    obtain ⟨r, rfl⟩ := isPrefixOf_eq hlong
    unfold isLong
    rw [List.isPrefixOf_iff_prefix]
    exact ⟨r ++ '=' :: w, by simp⟩
  have h2 : (o ++ '=' :: w).takeWhile (· ≠ '=') = o := by
    clear hlong hlen h1
    induction o with
    | nil => simp
    | cons x o ih =>
      simp only [List.mem_cons, not_or] at heq
      rw [List.cons_append, List.takeWhile_cons, if_pos (by simpa using fun h => heq.1 h.symm), ih heq.2]
  unfold splitInline
  simp only [h1, h2, Bool.not_true, Bool.false_eq_true, if_false]
  rw [if_neg (by simp), if_neg (by omega)]
  have : (o ++ '=' :: w).drop (o.length + 1) = w := by
    rw [show o ++ '=' :: w = (o ++ ['=']) ++ w by simp, show o.length + 1 = (o ++ ['=']).length by simp, List.drop_left]
  rw [this]

theorem optValue_inline (d : Def) {p : Parsed} {chain : List Sub} {o w : Str} {op : Opt} (hl : Leads d.subs p.path chain)
    (hr : p.raw = [o ++ '=' :: w]) (hc : p.current = w) (hlong : isLong o = true) (hlen : 2 < blen o) (heq : '=' ∉ o)
    (hm : op ∈ optionsOn d chain) (hn : op.named o = true) (he : op.expects = true)
    (hu : ∀ x ∈ optionsOn d chain, x.named o = true → x = op) :
    ∃ opts, optValue d p = some ⟨{ p with ctx := .value o, options := opts }, op.valueType⟩ := by
  have hs := inline_split (w := w) hlong hlen heq
  have hin : inlineIs w (o ++ '=' :: w) = true := by unfold inlineIs; rw [hs]; simp
  have hidx : rawIndex p = some 0 := by
    unfold rawIndex
    rw [hr, hc, if_neg (by simp)]
    dsimp only
    by_cases h : w = []
    · subst h
      rw [if_pos rfl]
      have := rposition_last (inlineIs []) [] _ hin
      rw [List.nil_append] at this
      rw [this]
      rfl
    · rw [if_neg h]
      have := rposition_last (fun t => decide (t = w) || inlineIs w t) [] (o ++ '=' :: w) (by simp [hin])
      rw [List.nil_append] at this
      rw [this]
      rfl
  have htok : rawToken p = some (o ++ '=' :: w) := by
    unfold rawToken
    rw [hidx, hr]
    rfl
  have hf : (optsAlong d p.path).find? (·.named o) = some op := by
    rw [along_leads d hl]
    exact find_option hm hn hu
  refine ⟨normalize p.options (o ++ '=' :: w) o, ?_⟩
  unfold optValue
  rw [htok]
  simp only [hs, hf, he, if_true, hc]

theorem genValue_choice (W : World) (db : Str → Option Def) {p : Parsed} {name : Str} {l : List Str}
    (hfit : ∃ v ∈ l, Fits W p.current v) :
    ∀ x, x ∈ genValue W db ⟨p, some (.choice l)⟩ name ↔ x.kind = .arg ∧ x.text ∈ l ∧ Fits W p.current x.text := by
  have hmem : ∀ x : Cand, x ∈ forType W p (.choice l) ↔ x.kind = .arg ∧ x.text ∈ l ∧ Fits W p.current x.text := by
    intro x
    simp only [forType, List.mem_map, List.mem_filter, Bool.or_eq_true, List.isEmpty_iff, Fits]
    constructor
    · rintro ⟨a, h, rfl⟩
      exact ⟨rfl, h⟩
    · rintro ⟨h1, h2⟩
      exact ⟨x.text, h2, by rw [← h1]⟩
  intro x
  unfold genValue
  dsimp only
  rw [if_neg]
  · exact hmem x
  · intro h
    obtain ⟨v, hv, hf⟩ := hfit
    have := (hmem ⟨v, .arg⟩).2 ⟨rfl, hv, hf⟩
    rw [List.isEmpty_iff.1 h] at this
    cases this

theorem generate_value (u : Tables) (W : World) (db : Str → Option Def) (f : Nat) {d : Def} {l m : Line} {o w : Str}
    {ch : List Str} (hdb : db l.p.command = some d) (hcor : correct d l = m) (hctx : m.p.ctx = .value o)
    (hcur : m.p.current = w) (hty : m.ty = some (.choice ch)) (hfit : ∃ v ∈ ch, Fits W w v) :
    ∃ L, generate u W db (f + 1) l = .ok L ∧ ∀ x, x ∈ L ↔ x.kind = .arg ∧ x.text ∈ ch ∧ Fits W w x.text := by
  unfold generate
  simp only [correctWith, hdb, hcor, hctx]
  refine ⟨_, rfl, ?_⟩
  have hm : m = ⟨m.p, some (.choice ch)⟩ := by rw [← hty]
  rw [hm]
  subst hcur
  exact genValue_choice W db hfit

/-- **C126, the next word is the value.** Behind an option that the definition says to take one of some
values, Tab offers those of them that fit. -/
theorem C126_value_partial (u : Tables) (W : World) (db : Str → Option Def) (f : Nat) {c : Str} {d : Def} {ss : List Str}
    {chain : List Sub} {o w : Str} {op : Opt} {l : List Str} (hdb : db c = some d) (hc : Word c)
    (hss : ∀ s ∈ ss, Word s ∧ looksSub u s = true) (hw : w = [] ∨ Word w) (hwo : isOpt w = false)
    (ho : Word o) (hoo : isOpt o = true) (heq : '=' ∉ o) (hl : Leads d.subs ss chain)
    (hm : op ∈ optionsOn d chain) (hn : op.named o = true) (hty : op.valueType = some (.choice l))
    (hu : ∀ x ∈ optionsOn d chain, x.named o = true → x = op) (hfit : ∃ v ∈ l, Fits W w v) :
    ∃ L, tab u W db id (f + 1) (typed c (ss ++ [o]) w) (typed c (ss ++ [o]) w).length = .ok L ∧
      ∀ x, x ∈ L ↔ x.kind = .arg ∧ x.text ∈ l ∧ Fits W w x.text := by
  have he : op.expects = true := by
    unfold Opt.expects
    unfold Opt.valueType at hty
    cases h : op.argument with
    | some a => rfl
    | none => rw [h] at hty; simp at hty; simp [hty]
  have hp := parse_typed u (c := c) (ws := ss ++ [o]) (w := w) hc (by
    intro x hx
    rcases List.mem_append.1 hx with h | h
    · exact (hss x h).1
    · simp only [List.mem_cons, List.not_mem_nil, or_false] at h; rw [h]; exact ho) hw
  rw [analyze_typed u c (ss ++ [o]) w _ (no_inline hwo), List.append_assoc] at hp
  obtain ⟨t1, t2⟩ := takeWhile_sub u (ss := ss) (rest := [o] ++ [w]) (fun s hs => (hss s hs).2) (by
    intro x hx
    simp only [List.cons_append, List.head?_cons, Option.some.injEq] at hx
    subst hx
    exact looksSub_opt u hoo)
  rw [t1, t2] at hp
  unfold tab seen
  rw [hp]
  dsimp only [id]
  simp only [correctWith, hdb]
  generalize hP : (Parsed.mk c ss ([o] ++ [w]) _ _ w _) = P
  have hP1 : P.path = ss ∧ P.raw = [o, w] ∧ P.current = w ∧ P.command = c := by rw [← hP]; exact ⟨rfl, rfl, rfl, rfl⟩
  clear hP hp
  obtain ⟨p1, p2, p3, p4⟩ := hP1
  obtain ⟨args, h1⟩ := optValue_next d (p := P) (by rw [p1]; exact hl) p2 p3 hwo heq hm hn he hu
  rw [correct_value d (l := ⟨P, none⟩) p1 hl h1]
  obtain ⟨args', h2⟩ := optValue_next d (p := { P with ctx := .value o, args := args }) (by rw [p1]; exact hl) p2 p3 hwo heq hm hn he hu
  exact generate_value u W db f (by rw [← hdb, ← p4]) (correct_value d p1 hl h2) rfl p3 hty hfit

/-- **C126, the value behind `=`.** The same for a value written directly behind a long option. -/
theorem C126_inline_partial (u : Tables) (W : World) (db : Str → Option Def) (f : Nat) {c : Str} {d : Def} {ss : List Str}
    {chain : List Sub} {o w : Str} {op : Opt} {l : List Str} (hdb : db c = some d) (hc : Word c)
    (hss : ∀ s ∈ ss, Word s ∧ looksSub u s = true) (how : Word (o ++ '=' :: w))
    (hlong : isLong o = true) (hlen : 2 < blen o) (heq : '=' ∉ o) (hl : Leads d.subs ss chain)
    (hm : op ∈ optionsOn d chain) (hn : op.named o = true) (hty : op.valueType = some (.choice l))
    (hu : ∀ x ∈ optionsOn d chain, x.named o = true → x = op) (hfit : ∃ v ∈ l, Fits W w v) :
    ∃ L, tab u W db id (f + 1) (typed c ss (o ++ '=' :: w)) (typed c ss (o ++ '=' :: w)).length = .ok L ∧
      ∀ x, x ∈ L ↔ x.kind = .arg ∧ x.text ∈ l ∧ Fits W w x.text := by
  have he : op.expects = true := by
    unfold Opt.expects
    unfold Opt.valueType at hty
    cases h : op.argument with
    | some a => rfl
    | none => rw [h] at hty; simp at hty; simp [hty]
  have hs := inline_split (w := w) hlong hlen heq
  have hoo : isOpt (o ++ '=' :: w) = true := by
    obtain ⟨r, rfl⟩ := isPrefixOf_eq hlong; rfl
  have hp := parse_typed u (c := c) (ws := ss) (w := o ++ '=' :: w) hc (fun x hx => (hss x hx).1) (.inr how)
  obtain ⟨t1, t2⟩ := takeWhile_sub u (ss := ss) (rest := [o ++ '=' :: w]) (fun s hs => (hss s hs).2) (by
    intro x hx
    simp only [List.head?_cons, Option.some.injEq] at hx
    subst hx
    exact looksSub_opt u hoo)
  unfold tab seen
  rw [hp]
  have hP1 : ∃ P, analyze u (c :: (ss ++ [o ++ '=' :: w])) (ss.length + 1) (typed c ss (o ++ '=' :: w)) = P ∧
      P.path = ss ∧ P.raw = [o ++ '=' :: w] ∧ P.current = w ∧ P.command = c := by
    refine ⟨_, rfl, ?_⟩
    unfold analyze
    dsimp only
    rw [if_neg (by simp)]
    have hcur : ((c :: (ss ++ [o ++ '=' :: w]))[ss.length + 1]?).getD [] = o ++ '=' :: w := by simp
    simp only [List.tail_cons, List.headD_cons, t1, t2, hcur, hs, context, and_self]
  obtain ⟨P, hP, p1, p2, p3, p4⟩ := hP1
  rw [hP]
  have hPc : ({ P with command := id P.command } : Parsed) = P := rfl
  dsimp only
  rw [hPc]
  obtain ⟨opts, h1⟩ := optValue_inline d (p := P) (by rw [p1]; exact hl) p2 p3 hlong hlen heq hm hn he hu
  have hcw : correctWith db ⟨P, none⟩ = ⟨{ P with ctx := .value o, options := opts }, op.valueType⟩ := by
    unfold correctWith
    rw [show db (Line.mk P none).p.command = some d by rw [← hdb, ← p4]]
    exact correct_value d (l := ⟨P, none⟩) p1 hl h1
  rw [hcw]
  obtain ⟨opts', h2⟩ := optValue_inline d (p := { P with ctx := .value o, options := opts }) (by rw [p1]; exact hl) p2 p3 hlong hlen heq hm hn he hu
  exact generate_value u W db f (by rw [← hdb, ← p4]) (correct_value d p1 hl h2) rfl p3 hty hfit

/-! ## Behind another command -/

theorem scan_words {l : List Str} (h : ∀ x ∈ l, isRedirect x = false ∧ isOpt x = false) : scan false false l = ([], l) := by
  induction l with
  | nil => rfl
  | cons x l ih =>
    obtain ⟨h1, h2⟩ := h x (by simp)
    simp [scan, h1, h2, ih (fun y hy => h y (by simp [hy]))]

theorem walk_nil {l : List Str} : walk [] l = ([], [], l) := by
  cases l with
  | nil => rfl
  | cons x l => rfl

theorem join_typed {c : Str} {ss : List Str} {w : Str} : joinWith [' '] (c :: (ss ++ [w])) = typed c ss w := by
  rw [← line_snoc]
  generalize ss ++ [w] = l
  induction l generalizing c with
  | nil => rfl
  | cons x l ih =>
    rw [line_cons (by simp), ← ih]
    simp [joinWith]

/-- **C126, behind `sudo` and the like.** A command whose definition says that its first argument is a
command of its own, and which has no subcommands, offers what that command offers by itself: here for
subcommands, when the name of the inner command looks like one of a subcommand. -/
theorem C126_wrapper_partial (u : Tables) (W : World) (db : Str → Option Def) (f : Nat) {c0 c : Str} {d0 d : Def} {ss : List Str}
    {chain : List Sub} {w : Str} {a : Arg} {more : List Arg}
    (hdb0 : db c0 = some d0) (hc0 : Word c0)
    (hsub0 : d0.subs = []) (harg0 : d0.arguments = a :: more) (ha : a.ty = some .withArgs) (hd0 : Dashed d0.options)
    (hlook : looksSub u c = true)
    (hdb : db c = some d) (hc : Word c) (hco : isOpt c = false)
    (hss : ∀ s ∈ ss, Word s ∧ isOpt s = false) (hw : Word w) (hwo : isOpt w = false)
    (hl : Leads d.subs ss chain)
    (hm : ∃ b ∈ subsBehind d.subs chain, ∃ n, Named n b ∧ w <+: n)
    (hx : ∀ b ∈ subsBehind d.subs chain, ¬ Named w b)
    (hnew : w ∉ ss) (hd : Dashed (optionsOn d chain)) :
    ∃ L extra, tab u W db id (f + 2) (typed c0 (c :: ss) w) (typed c0 (c :: ss) w).length = .ok (L ++ extra) ∧
      (chain ≠ [] ∨ d.arguments = [] → extra = []) ∧ OffersSubs (subsBehind d.subs chain) w L := by
  have hne : w ≠ [] := hw.1.1
  have hws : ∀ s ∈ c :: ss, Word s ∧ isOpt s = false := by
    intro s hs
    rcases List.mem_cons.1 hs with rfl | hs
    · exact ⟨hc, hco⟩
    · exact hss s hs
  have hp := parse_typed u (c := c0) (ws := c :: ss) (w := w) hc0 (fun x hx => (hws x hx).1) (.inr hw)
  rw [analyze_typed u c0 (c :: ss) w _ (no_inline hwo)] at hp
  have hall : ∀ x ∈ c :: ss ++ [w], isRedirect x = false ∧ isOpt x = false := by
    intro x hx'
    rcases List.mem_append.1 hx' with h | h
    · exact ⟨(hws x h).1.no_redirect, (hws x h).2⟩
    · simp only [List.mem_cons, List.not_mem_nil, or_false] at h; rw [h]; exact ⟨hw.no_redirect, hwo⟩
  rw [scan_words (fun x hx' => hall x ((List.dropWhile_suffix _).subset hx'))] at hp
  have hctx : ∀ (args : List Str) (path : List Str) (i : Nat) (all : List Str) (b : Bool),
      context u i w path args all b ≠ .short ∧ context u i w path args all b ≠ .long := by
    intro args path i all b
    unfold context
    rw [no_inline hwo]
    simp only [not_long hwo, hwo, Bool.false_eq_true, if_false]
    constructor <;> repeat' split
    all_goals simp
  unfold tab seen
  rw [hp]
  have hpath : ∃ t, (c :: ss ++ [w]).takeWhile (looksSub u) = c :: t := by
    rw [List.cons_append, List.takeWhile_cons, if_pos hlook]
    exact ⟨_, rfl⟩
  obtain ⟨t, ht⟩ := hpath
  -- first correction: all words are arguments
  have h1 : ∀ ctx, ctx ≠ .short ∧ ctx ≠ .long → correct d0 ⟨⟨c0, (c :: ss ++ [w]).takeWhile (looksSub u), (c :: ss ++ [w]).dropWhile (looksSub u), [],
      (c :: ss ++ [w]).dropWhile (looksSub u), w, ctx⟩, none⟩ =
      ⟨⟨c0, [], c :: ss ++ [w], [], c :: ss ++ [w], w, .arg (ss.length + 1)⟩, none⟩ := by
    intro ctx hctx
    have htd : c :: t ++ (c :: ss ++ [w]).dropWhile (looksSub u) = c :: ss ++ [w] := by
      rw [← ht]; exact List.takeWhile_append_dropWhile
    unfold correct
    dsimp only
    rw [hsub0, walk_nil, ht]
    dsimp only
    rw [if_neg (by simp), if_neg (by rw [hco]; simp), if_neg (by grind), htd]
    congr 3
    unfold argIndex
    rw [if_pos (by simp)]
    simp
  simp only [id, correctWith, hdb0]
  rw [h1 _ (hctx _ _ _ _ _)]
  -- second correction: nothing changes
  have hov : ∀ i, optValue d0 ⟨c0, [], c :: ss ++ [w], [], c :: ss ++ [w], w, .arg i⟩ = none := by
    intro i
    refine optValue_word d0 (l := c :: ss) rfl rfl hwo (fun x hx' => (hws x hx').2) ?_
    simpa [optsAlong, optsDown] using hd0
  have h2 : correct d0 ⟨⟨c0, [], c :: ss ++ [w], [], c :: ss ++ [w], w, .arg (ss.length + 1)⟩, none⟩ =
      ⟨⟨c0, [], c :: ss ++ [w], [], c :: ss ++ [w], w, .arg (ss.length + 1)⟩, none⟩ := by
    unfold correct
    dsimp only
    rw [hsub0, walk_nil]
    dsimp only
    rw [hov]
    dsimp only
    rw [if_neg (by simp), combined_word d0 (l := c :: ss) rfl rfl hwo (fun x hx' => (hws x hx').2)]
    simp only [List.any_nil, Bool.false_eq_true, if_false]
    unfold finishScan
    have hsr : scanRaw w [] (c :: ss ++ [w]) = (false, [], [], 0) := by
      rw [List.cons_append, scanRaw]
      simp [findSub]
    dsimp only
    rw [hsr]
    simp only [Bool.false_eq_true, if_false, if_true]
    rw [hov]
  rw [generate]
  simp only [correctWith, hdb0, h2]
  have hwr : wrapped d0 (c :: ss ++ [w]) = some (0, c) := by
    unfold wrapped
    rw [harg0, List.cons_append, wrapped.go, if_pos ha]
  simp only [Option.bind_some, hwr, Nat.zero_lt_succ, if_true]
  have hin : inner u W ⟨c0, [], c :: ss ++ [w], [], c :: ss ++ [w], w, .arg (ss.length + 1)⟩ 0 c =
      parse u (typed c ss w) (typed c ss w).length := by
    have hmap : (ss ++ [w]).map (fun a => if a.contains ' ' || a.contains '\t' then W.quoted a else a) = ss ++ [w] := by
      have : ∀ a ∈ ss ++ [w], (if a.contains ' ' || a.contains '\t' then W.quoted a else a) = a := by
        intro a hma
        have hwa : Word a := by
          rcases List.mem_append.1 hma with h | h
          · exact (hss a h).1
          · simp only [List.mem_cons, List.not_mem_nil, or_false] at h; rw [h]; exact hw
        have hno : ∀ e, isSep .parser e = true → e ∉ a := by
          intro e he hme
          rw [(hwa.plain.2 e hme).1] at he
          cases he
        rw [if_neg]
        simp only [List.contains_eq_mem, Bool.or_eq_true, decide_eq_true_eq, not_or]
        exact ⟨hno _ (by decide), hno _ (by decide)⟩
      rw [List.map_congr_left this, List.map_id']
    have hlen : blen (typed c ss w) = (typed c ss w).length := by
      have hone : ∀ x ∈ c :: (ss ++ [w]), ∀ e ∈ x, e.utf8Size = 1 := by
        intro x hx'
        rcases List.mem_cons.1 hx' with rfl | hx'
        · exact hc.2
        · rcases List.mem_append.1 hx' with h | h
          · exact (hss x h).1.2
          · simp only [List.mem_cons, List.not_mem_nil, or_false] at h; rw [h]; exact hw.2
      rw [← line_snoc]
      refine sum_ones ?_
      generalize c :: (ss ++ [w]) = l at hone
      induction l with
      | nil => simp [line]
      | cons x l ih =>
        by_cases h : l = []
        · subst h; exact hone x (by simp)
        · rw [line_cons h]
          intro e he
          simp only [List.mem_append, List.mem_cons] at he
          rcases he with he | rfl | he
          · exact hone x (by simp) e he
          · decide
          · exact ih (fun y hy => hone y (by simp [hy])) e he
    unfold inner
    have hfi : (c :: ss ++ [w]).findIdx? (fun t => decide (t = c)) = some 0 := by simp [List.findIdx?_cons]
    have hget : ((c :: ss ++ [w])[0]?).getD [] = c := rfl
    dsimp only
    rw [hget, hfi]
    dsimp only
    rw [if_neg hne, show (c :: ss ++ [w]).drop (0 + 1) = ss ++ [w] from rfl, hmap, List.cons_append, List.append_nil, join_typed, hlen]
  rw [hin]
  obtain ⟨hcmd, hb⟩ := before_typed u hc hco hss (.inr hw) hwo
  generalize parse u (typed c ss w) (typed c ss w).length = p at hcmd hb
  have h3 := correct_sub d (l := ⟨p, none⟩) hb hl (fun s hs => (hss s hs).2) hwo hm hx hnew hd
  exact generate_sub u W db f (by rw [← hdb, ← hcmd]) h3 hb.current hl.names hm

/-! ## Where it fails -/

/-- **C126 fails: a subcommand typed in full.** On the complete name of a subcommand without arguments of
its own, Tab offers names of files, and no subcommand at all: neither this one nor those whose names go
on from there. -/
theorem C126_exact_violated (u : Tables) (W : World) (db : Str → Option Def) (f : Nat) {c : Str} {d : Def} {w : Str} {b : Sub}
    (hdb : db c = some d) (hc : Word c) (hco : isOpt c = false) (hw : Word w) (hlook : looksSub u w = true)
    (hb : b ∈ d.subs) (hn : Named w b) (hal : Alone d.subs b) (hs : b.subs = []) (hg : b.arguments = []) :
    tab u W db id (f + 1) (typed c [] w) (typed c [] w).length = .ok (W.files w) := by
  have hwo : isOpt w = false := by
    cases h : isOpt w with
    | false => rfl
    | true => rw [looksSub_opt u h] at hlook; cases hlook
  have hl : Leads d.subs [w] [b] := .step hb hn hal (.here _)
  have hsb : subsBehind d.subs [b] = [] := by simp [subsBehind, hs]
  have hcor : ∀ ctx, ctx = .sub ∨ (∃ i, ctx = .arg i) → ∃ i, correct d ⟨⟨c, [w], [], [], [], w, ctx⟩, none⟩ = ⟨⟨c, [w], [], [], [], w, .arg i⟩, none⟩ := by
    intro ctx hctx
    unfold correct
    dsimp only
    rw [walk_leads hl]
    dsimp only
    rw [optValue_nil d rfl]
    dsimp only
    rcases hctx with rfl | ⟨i, rfl⟩
    · rw [if_pos ⟨rfl, by rw [hsb]; rfl⟩]
      exact ⟨0, rfl⟩
    · rw [if_neg (by simp)]
      have hcb : combined d ⟨c, [w], [], [], [], w, .arg i⟩ = none := by
        unfold combined
        dsimp only
        rw [if_pos (by split <;> simp)]
      dsimp only
      rw [hcb, hsb]
      simp only [List.any_nil, Bool.false_eq_true, if_false]
      unfold finishScan
      simp only [scanRaw, Bool.false_eq_true, if_false, if_true]
      rw [optValue_nil d rfl]
      exact ⟨i, rfl⟩
  have hp := parse_typed u (c := c) (ws := []) (w := w) hc (by simp) (.inr hw)
  rw [analyze_typed u c [] w _ (no_inline hwo), hasSpace_typed hc] at hp
  simp only [List.nil_append, List.takeWhile_cons, List.dropWhile_cons, hlook, if_true, List.takeWhile_nil, List.dropWhile_nil, scan] at hp
  unfold tab seen
  rw [hp]
  simp only [id, correctWith, hdb]
  obtain ⟨i, h1⟩ := hcor _ (context_word u (i := ([] : List Str).length + 1) (path := [w]) (args := []) (all := c :: [w]) hwo (by simpa using hco))
  rw [h1]
  unfold generate
  simp only [correctWith, hdb]
  obtain ⟨j, h2⟩ := hcor (.arg i) (.inr ⟨i, rfl⟩)
  rw [h2]
  have hwr : wrapped d [] = none := by unfold wrapped; cases d.arguments <;> rfl
  simp only [hdb, Option.bind_some, hwr]
  have : genArg W db ⟨c, [w], [], [], [], w, .arg j⟩ j = W.files w := by
    unfold genArg
    simp only [hdb, Option.bind_some, argsAt, find_alone hb hn hal, hg, argDef]
    simp
  rw [this]

/-- A world for the examples: names of files end in `~`, names of commands in `!`, beginnings fit. -/
def W0 : World where
  files w := [⟨w ++ ['~'], .other⟩]
  commands w := [⟨w ++ ['!'], .other⟩]
  names w := [⟨w ++ ['!'], .other⟩]
  system _ p := [⟨p.current ++ ['?'], .other⟩]
  fuzzy v w := w.isPrefixOf v
  quoted := id

/-- A subcommand with nothing but a name. -/
def leaf (n : Str) : Sub := .mk n [] [] [] []

/-- A part of `completions/docker.json`. -/
def docker : Def :=
  ⟨[leaf c!"rm", leaf c!"rmi", leaf c!"run", .mk c!"node" [c!"nodes"] [] [] [leaf c!"ls", leaf c!"inspect"]], [], []⟩

/-- A part of `completions/ls.json`. -/
def lsDef : Def :=
  ⟨[], [⟨none, some c!"--time", false, none, none⟩, ⟨none, some c!"--time-style", false, none, none⟩,
    ⟨some c!"-a", some c!"--all", false, none, none⟩,
    ⟨none, some c!"--color", true, some (.choice [c!"always", c!"never"]), none⟩], []⟩

/-- A part of `completions/sudo.json`. -/
def sudoDef : Def := ⟨[], [⟨some c!"-u", some c!"--user", true, none, none⟩], [⟨true, some .withArgs⟩]⟩

/-- A part of `completions/make.json` as it would be with a fixed target. -/
def makeDef : Def := ⟨[leaf c!"install"], [], []⟩

/-- A part of `completions/go.json`. -/
def goDef : Def := ⟨[.mk c!"build" [] [⟨none, some c!"-race", false, none, none⟩] [] []], [], []⟩

/-- A command with a subcommand and two arguments. -/
def bothDef : Def := ⟨[leaf c!"add"], [], [⟨false, some (.choice [c!"one"])⟩, ⟨false, some (.choice [c!"two"])⟩]⟩

def db0 (c : Str) : Option Def :=
  if c = c!"docker" then some docker else if c = c!"ls" then some lsDef else if c = c!"sudo" then some sudoDef
  else if c = c!"make" then some makeDef else if c = c!"go" then some goDef else if c = c!"both" then some bothDef else none

/-- What Tab offers at the end of a line. -/
def offered (l : Str) : Out := tab ascii W0 db0 id 4 l l.length

/-- What Tab replaces at the end of a line. -/
def replaced (l : Str) : Option Range := range ascii db0 id l l.length

/-- **C126 fails: `docker rm`, `docker rmi`.** -/
theorem C126_exact_case_violated :
    offered c!"docker r" = .ok [⟨c!"rm", .sub⟩, ⟨c!"rmi", .sub⟩, ⟨c!"run", .sub⟩] ∧
    offered c!"docker rm" = .ok [⟨c!"rm~", .other⟩] := by decide +kernel

/-- **C126 fails: an option typed in full.** It is not offered itself; where another one goes on from
there, that is the only one offered. -/
theorem C126_option_exact_violated :
    offered c!"ls --ti" = .ok [⟨c!"--time", .long⟩, ⟨c!"--time-style", .long⟩] ∧
    offered c!"ls --time" = .ok [⟨c!"--time-style", .long⟩] := by decide +kernel

/-- **C126 fails: long options with one dash.** Behind `-` and one letter only short options are looked
at: `go build -r` offers nothing, `go build -` and `go build -ra` offer `-race`. -/
theorem C126_dash_violated :
    offered c!"go build -" = .ok [⟨c!"-race", .long⟩] ∧ offered c!"go build -r" = .ok [] ∧
    offered c!"go build -ra" = .ok [⟨c!"-race", .long⟩] := by decide +kernel

/-- **C126 fails: the text replaced.** The value is completed, but what is replaced is the option with
its value, when a word that looks like a subcommand is before it: `ls src --color=a` becomes
`ls src always`. -/
theorem C126_range_violated :
    offered c!"ls --color=a" = .ok [⟨c!"always", .arg⟩] ∧ replaced c!"ls --color=a" = some ⟨11, 12⟩ ∧
    offered c!"ls src --color=a" = .ok [⟨c!"always", .arg⟩] ∧ replaced c!"ls src --color=a" = some ⟨7, 16⟩ := by
  decide +kernel

/-- **C126 fails: behind `sudo`.** A command whose name does not look like a subcommand (`make`, `node`,
`nano`) is not completed; values behind `=` are completed as files when a word is before them. -/
theorem C126_wrapper_violated :
    offered c!"make ins" = .ok [⟨c!"install", .sub⟩] ∧ offered c!"sudo make ins" = .ok [⟨c!"ins!", .other⟩] ∧
    offered c!"sudo ls --color=a" = .ok [⟨c!"always", .arg⟩] ∧ offered c!"sudo ls src --color=a" = .ok [⟨c!"a~", .other⟩] := by
  decide +kernel

/-- **C126 fails: the argument of a command with subcommands.** In the gap behind the command the values
of its second argument are offered. -/
theorem C126_argument_violated :
    offered c!"both " = .ok [⟨c!"add", .sub⟩, ⟨c!"two", .arg⟩] ∧ offered c!"both o" = .ok [⟨c!"o~", .other⟩] := by decide +kernel

/-! ### The hypotheses are met -/

instance (n : Str) (b : Sub) : Decidable (Named n b) := by unfold Named; infer_instance

example : Word c!"docker" ∧ Word c!"nodes" ∧ Word c!"l" ∧ Word c!"--ti" := by
  simp only [Word, PlainWord]; decide

theorem nodes_alone : Alone docker.subs (.mk c!"node" [c!"nodes"] [] [] [leaf c!"ls", leaf c!"inspect"]) := by
  intro b' hb n hn hn'
  simp only [docker, List.mem_cons, List.not_mem_nil, or_false] at hb
  simp only [Named, Sub.name, Sub.aliases, List.mem_cons, List.not_mem_nil, or_false] at hn
  rcases hb with rfl | rfl | rfl | rfl
  all_goals first
    | rfl
    | (simp only [leaf, Named, Sub.name, Sub.aliases, List.not_mem_nil, or_false] at hn'
       rcases hn with rfl | rfl <;> exact absurd hn' (by decide))

/-- `docker nodes l`: the theorem applied. -/
example : ∃ L extra, tab ascii W0 db0 id 4 (typed c!"docker" [c!"nodes"] c!"l") (typed c!"docker" [c!"nodes"] c!"l").length =
    .ok (L ++ extra) ∧ extra = [] ∧ OffersSubs [leaf c!"ls", leaf c!"inspect"] c!"l" L := by
  have := C126_sub_partial ascii W0 db0 3 (c := c!"docker") (ss := [c!"nodes"]) (w := c!"l") (d := docker) rfl (by simp only [Word, PlainWord]; decide) (by decide)
    (by simp only [Word, PlainWord]; decide) (.inr (by simp only [Word, PlainWord]; decide)) (by decide)
    (chain := [.mk c!"node" [c!"nodes"] [] [] [leaf c!"ls", leaf c!"inspect"]])
    (.step (by simp [docker]) (.inr (by simp [Sub.aliases])) nodes_alone (.here _))
    ⟨leaf c!"ls", by simp [subsBehind, Sub.subs], c!"ls", .inl rfl, by decide⟩
    (by simp only [subsBehind, List.getLast?_singleton, Sub.subs]; decide)
    (by simp only [subsBehind, List.getLast?_singleton, Sub.subs]; decide) (by decide) (by
      intro o ho
      simp [optionsOn, docker, Sub.options] at ho)
  obtain ⟨L, extra, h1, h2, h3⟩ := this
  exact ⟨L, extra, h1, h2 (.inl (by simp)), h3⟩

example : offered c!"docker nodes l" = .ok [⟨c!"ls", .sub⟩] := by decide +kernel
example : offered c!"docker nodes " = .ok [⟨c!"ls", .sub⟩, ⟨c!"inspect", .sub⟩] := by decide +kernel
example : offered c!"ls src -a --" = .ok [⟨c!"--time", .long⟩, ⟨c!"--time-style", .long⟩, ⟨c!"--all", .long⟩, ⟨c!"--color", .long⟩] := by
  decide +kernel
example : offered c!"ls -a -" = .ok [⟨c!"--time", .long⟩, ⟨c!"--time-style", .long⟩, ⟨c!"--all", .long⟩, ⟨c!"--color", .long⟩] := by
  decide +kernel
example : offered c!"ls --color " = .ok [⟨c!"always", .arg⟩, ⟨c!"never", .arg⟩] := by decide +kernel
example : offered c!"sudo docker node l" = .ok [⟨c!"ls", .sub⟩] := by decide +kernel

/-- `ls src -a --`: the theorem applied. -/
example : ∃ L, tab ascii W0 db0 id 4 (typed c!"ls" ([] ++ [c!"src", c!"-a"]) c!"--a") (typed c!"ls" ([] ++ [c!"src", c!"-a"]) c!"--a").length = .ok L ∧
    (⟨c!"--all", .long⟩ : Cand) ∈ L ∧ (⟨c!"-a", .short⟩ : Cand) ∉ L := by
  have := C126_option_partial ascii W0 db0 3 (c := c!"ls") (ss := []) (as := [c!"src", c!"-a"]) (w := c!"--a") (d := lsDef) rfl (by simp only [Word, PlainWord]; decide) (by simp)
    (by simp only [Word, PlainWord]; decide) (by simp only [Word, PlainWord]; decide) (by decide) (.inl (by decide)) (by decide)
    (.here _) (by simp [subsBehind, lsDef]) (by simp [subsBehind, lsDef]) (by simp) (by simp [lsDef])
  obtain ⟨L, h1, h2⟩ := this
  refine ⟨L, h1, (h2 _).2 ⟨⟨⟨some c!"-a", some c!"--all", false, none, none⟩, by simp [optionsAt, lsDef], .inl ⟨rfl, rfl⟩⟩, by decide⟩, ?_⟩
  intro h
  have := ((h2 _).1 h).2.1
  revert this; decide

end Dsh.Defs
