import Verif.Completion.Explain
import Verif.Completion.CmdLineProps
/-!
# The explanation of the option at the caret: theorems

C160: what is explained. C161: where it is shown.
-/
namespace Dsh.Explain
open Dsh.Tokens Dsh.CmdLine Dsh.Editor

/-! ## Lines of plain words -/

/-- The position of the word behind the words `pre`. -/
def offset (pre : List Str) : Nat := (pre.map fun w => w.length + 1).sum

theorem spans_at (pre : List Str) (o : Str) (post : List Str) (hone : ∀ w ∈ pre ++ o :: post, ∀ c ∈ w, c.utf8Size = 1) (k : Nat) (hk : k ≤ o.length) :
    ∀ p : Pos, p.byte = p.char → findCursor (p.char + offset pre + k) (spansOf p (pre ++ o :: post)) = (pre.length, true) ∧
      ∃ q stop, (spansOf p (pre ++ o :: post))[pre.length]? = some ⟨o, ⟨p.char + offset pre, q⟩, stop⟩ := by
  induction pre with
  | nil =>
    intro p hp
    have hb : blen o = o.length := sum_ones fun c hc => hone o (by simp) c hc
    refine ⟨?_, p.char, p.after o, ?_⟩
    · have hle : p.char + offset [] + k ≤ (p.after o).byte := by
        show p.char + 0 + k ≤ p.byte + (o.map Char.utf8Size).sum
        have : (o.map Char.utf8Size).sum = o.length := hb
        omega
      simp only [List.nil_append, spansOf, findCursor, List.length_nil]
      rw [if_pos hle]
      simp [hp]
      omega
    · simp only [List.nil_append, spansOf, List.length_nil, List.getElem?_cons_zero, offset, List.map_nil, List.sum_nil, Nat.add_zero]
      obtain ⟨b, ch⟩ := p
      simp only at hp
      subst hp
      rfl
  | cons w pre ih =>
    intro p hp
    have hb : (w.map Char.utf8Size).sum = w.length := sum_ones fun c hc => hone w (by simp) c hc
    have hq : ((p.after w).next ' ').byte = ((p.after w).next ' ').char := by
      show p.byte + (w.map Char.utf8Size).sum + (' ').utf8Size = p.char + w.length + 1
      rw [hb, hp]
      rfl
    have hqc : ((p.after w).next ' ').char = p.char + w.length + 1 := rfl
    have ho : offset (w :: pre) = w.length + 1 + offset pre := by simp [offset]
    have ih := ih (fun x hx => hone x (by simp only [List.cons_append, List.mem_cons]; exact .inr hx)) _ hq
    rw [hqc] at ih
    have e : p.char + offset (w :: pre) + k = p.char + w.length + 1 + offset pre + k := by omega
    have e2 : p.char + offset (w :: pre) = p.char + w.length + 1 + offset pre := by omega
    rw [e, e2]
    refine ⟨?_, ?_⟩
    · simp only [List.cons_append, spansOf, findCursor, List.length_cons]
      have hn : ¬ p.char + w.length + 1 + offset pre + k ≤ (p.after w).byte := by
        show ¬ _ ≤ p.byte + (w.map Char.utf8Size).sum
        omega
      rw [if_neg hn, ih.1]
    · simpa [spansOf] using ih.2

theorem mem_line {x : Char} {w : Str} (hx : x ∈ w) : ∀ {ws : List Str}, w ∈ ws → x ∈ line ws := by
  intro ws
  induction ws with
  | nil => simp
  | cons v ws ih =>
    intro h
    cases ws with
    | nil => simp only [List.mem_singleton] at h; subst h; exact hx
    | cons a ws =>
      simp only [line, List.mem_append, List.mem_cons]
      rcases List.mem_cons.1 h with rfl | h
      · exact .inl hx
      · exact .inr (.inr (ih h))

theorem takeWhile_all {p : Char → Bool} : ∀ {l : Str}, (∀ x ∈ l, p x = true) → l.takeWhile p = l := by
  intro l
  induction l with
  | nil => simp
  | cons a l ih => intro h; rw [List.takeWhile_cons, if_pos (h a (by simp)), ih fun x hx => h x (by simp [hx])]

/-- With the caret in an option: the word is looked up in the definition. -/
theorem explain_line (u : Tables) (db : Str → Option Cmd) (c : Str) (path mid : List Str) (o : Str) (post : List Str)
    (hw : ∀ w ∈ c :: (path ++ mid) ++ o :: post, PlainWord .parser w ∧ ∀ x ∈ w, x.utf8Size = 1)
    (hpath : ∀ w ∈ path, looksSub u w = true) (hmid : ∀ w, mid.head? = some w → looksSub u w = false) (cmd : Cmd) (hc : db c = some cmd)
    (k : Nat) (hk : 1 ≤ k) (hko : k ≤ o.length) (ho : o.head? = some '-') (heq : '=' ∉ o.take k) :
    explain u db (line (c :: (path ++ mid) ++ o :: post)) (offset (c :: (path ++ mid)) + k) = explainOption (levels cmd path) o k := by
  have htok := tokenize_line (ws := c :: (path ++ mid) ++ o :: post) fun w h => (hw w h).1
  obtain ⟨hf, q, stop, hs⟩ := spans_at (c :: (path ++ mid)) o post (fun w h => (hw w h).2) k hko ⟨0, 0⟩ rfl
  simp only [Nat.zero_add] at hf hs
  have hopt : (o.take k).head? = some '-' := by
    cases o with
    | nil => cases ho
    | cons x o => cases k with
      | zero => omega
      | succ k => simpa using ho
  have hadj : adjusted (spansOf ⟨0, 0⟩ (c :: (path ++ mid) ++ o :: post)) (offset (c :: (path ++ mid)) + k) = c :: (path ++ mid) ++ o.take k :: post := by
    unfold adjusted
    simp only [hf, hs, if_true, spansOf_raw]
    have hb : blen o = o.length := sum_ones fun x hx => (hw o (by simp)).2 x hx
    have e : offset (c :: (path ++ mid)) + k - offset (c :: (path ++ mid)) = k := by omega
    rw [e, hb]
    split
    · rw [takeBytes_ones (fun x hx => (hw o (by simp)).2 x hx)]
      rw [List.set_append_right _ _ (by simp)]
      simp
    · next hn => rw [List.take_of_length_le (by omega)]
  have hnl : (line (c :: (path ++ mid) ++ o :: post)).all rustWhitespace = false := by
    have hm : '-' ∈ line (c :: (path ++ mid) ++ o :: post) := mem_line (List.mem_of_mem_head? ho) (by simp)
    cases hall : (line (c :: (path ++ mid) ++ o :: post)).all rustWhitespace with
    | false => rfl
    | true => exact absurd (List.all_eq_true.1 hall _ hm) (by decide)
  unfold explain
  rw [hnl]
  simp only [Bool.false_eq_true, if_false]
  have hnot : looksSub u (o.take k) = false := by unfold looksSub isOpt; simp [hopt]
  have htake : (path ++ mid ++ o.take k :: post).takeWhile (looksSub u) = path := by
    rw [List.append_assoc, List.takeWhile_append_of_pos hpath]
    cases mid with
    | nil => simp [hnot]
    | cons m mid => simp [hmid m rfl]
  have hdrop : (path ++ mid ++ o.take k :: post).dropWhile (looksSub u) = mid ++ o.take k :: post := by
    rw [List.append_assoc, List.dropWhile_append_of_pos hpath]
    cases mid with
    | nil => simp [hnot]
    | cons m mid => simp [hmid m rfl]
  have hparse : (parse u (line (c :: (path ++ mid) ++ o :: post)) (offset (c :: (path ++ mid)) + k)).command = c ∧
      (parse u (line (c :: (path ++ mid) ++ o :: post)) (offset (c :: (path ++ mid)) + k)).path = path ∧
      ((parse u (line (c :: (path ++ mid) ++ o :: post)) (offset (c :: (path ++ mid)) + k)).ctx = .short ∨
       (parse u (line (c :: (path ++ mid) ++ o :: post)) (offset (c :: (path ++ mid)) + k)).ctx = .long) := by
    unfold parse
    simp only [htok, hadj, hf]
    unfold analyze
    simp only [List.cons_append, List.tail_cons, List.headD_cons, htake, hdrop, List.length_cons]
    rw [if_neg (by omega)]
    refine ⟨rfl, rfl, ?_⟩
    have hget : (c :: (path ++ (mid ++ o.take k :: post)))[(path ++ mid).length + 1]? = some (o.take k) := by
      rw [List.getElem?_cons_succ, ← List.append_assoc, List.getElem?_append_right (by simp)]
      simp
    simp only [hget, Option.getD_some]
    have hsi : splitInline (o.take k) = none := by
      unfold splitInline
      split
      · rfl
      · have : (o.take k).takeWhile (· ≠ '=') = o.take k := by
          apply takeWhile_all
          intro x hx
          simp only [ne_eq, decide_not, Bool.not_eq_true', decide_eq_false_iff_not]
          rintro rfl
          exact heq hx
        simp only [this, if_true]
    unfold context
    rw [hsi]
    simp only
    split
    · exact .inr rfl
    · have : isOpt (o.take k) = true := by simp [isOpt, hopt]
      rw [if_pos this]
      split
      · exact .inl rfl
      · exact .inr rfl
  have hword : wordAt (line (c :: (path ++ mid) ++ o :: post)) (offset (c :: (path ++ mid)) + k) = some (o, k) := by
    unfold wordAt
    simp only [htok, hf, hs, if_true, Option.map_some]
    have e : offset (c :: (path ++ mid)) + k - offset (c :: (path ++ mid)) = k := by omega
    rw [e]
  rw [hparse.1, hc, hword, hparse.2.1]
  simp only [Option.bind_some]
  rcases hparse.2.2 with h | h <;> rw [h]

/-! ## C160 -/

/-- A path of subcommands by their names, no two of a level with the same name. -/
inductive Down : List Sub → List Str → List Sub → Prop where
  | nil (subs : List Sub) : Down subs [] []
  | cons {subs : List Sub} {s : Sub} {ns : List Str} {ss : List Sub} (hs : s ∈ subs) (hu : ∀ t ∈ subs, t.name = s.name → t = s) (h : Down s.subs ns ss) :
      Down subs (s.name :: ns) (s :: ss)

/-- The options that may be used there: those of the command and those of each subcommand of the path. -/
def scopes (c : Cmd) (ss : List Sub) : List (List Opt) := c.options :: ss.map Sub.options

theorem find_unique {α : Type} {p : α → Bool} {a : α} : ∀ {l : List α}, a ∈ l → p a = true → (∀ b ∈ l, p b = true → b = a) → l.find? p = some a := by
  intro l
  induction l with
  | nil => simp
  | cons b l ih =>
    intro h hp hu
    by_cases hb : p b = true
    · rw [List.find?_cons_of_pos hb, hu b (by simp) hb]
    · rw [List.find?_cons_of_neg hb]
      rcases List.mem_cons.1 h with rfl | h
      · exact absurd hp hb
      · exact ih h hp fun x hx => hu x (by simp [hx])

theorem chain_down {subs : List Sub} {ns : List Str} {ss : List Sub} (h : Down subs ns ss) : chain subs ns = ss.map Sub.options := by
  induction h with
  | nil => rfl
  | @cons subs s ns ss hs hu h ih =>
    have : subs.find? (fun t => decide (t.name = s.name)) = some s :=
      find_unique hs (by simp) fun b hb hp => hu b hb (by simpa using hp)
    rw [chain, this, List.map_cons]
    simp only
    rw [ih]

theorem levels_down {c : Cmd} {ns : List Str} {ss : List Sub} (h : Down c.subs ns ss) : levels c ns = scopes c ss := by
  rw [levels, chain_down h, scopes]

/-- The innermost option called `n` (by `name`), described by `d`. -/
def Meant (name : Opt → Option Str) (n : Str) (ls : List (List Opt)) (d : Str) : Prop :=
  ∃ outer os inner, ls = outer ++ os :: inner ∧ (∀ l ∈ inner, ∀ o ∈ l, name o ≠ some n) ∧
    ∃ o ∈ os, name o = some n ∧ o.desc = some d ∧ ∀ x ∈ os, name x = some n → x = o

theorem findSome_meant {name : Opt → Option Str} {n : Str} {ls : List (List Opt)} {d : Str} (h : Meant name n ls d) :
    ls.reverse.findSome? (fun os => (os.find? fun o => decide (name o = some n)).bind (·.desc)) = some d := by
  obtain ⟨outer, os, inner, rfl, hin, o, ho, hn, hd, hu⟩ := h
  rw [List.reverse_append, List.reverse_cons, List.append_assoc, List.findSome?_append]
  have h1 : inner.reverse.findSome? (fun os => (os.find? fun o => decide (name o = some n)).bind (·.desc)) = none := by
    rw [List.findSome?_eq_none_iff]
    intro l hl
    have : l.find? (fun o => decide (name o = some n)) = none := by
      rw [List.find?_eq_none]
      intro o ho
      simpa using hin l (List.mem_reverse.1 hl) o ho
    rw [this]
    rfl
  rw [h1, Option.none_or, List.singleton_append, List.findSome?_cons]
  rw [find_unique ho (by simpa using hn) fun b hb hp => hu b hb (by simpa using hp)]
  simp [hd]

/-- A line with an option: the command, the path of subcommands, other words, the option `o`, other words. -/
structure Edited (u : Tables) (db : Str → Option Cmd) (c : Str) (path mid : List Str) (o : Str) (post : List Str) (cmd : Cmd) (ss : List Sub) : Prop where
  words : ∀ w ∈ c :: (path ++ mid) ++ o :: post, PlainWord .parser w ∧ ∀ x ∈ w, x.utf8Size = 1
  subs : ∀ w ∈ path, looksSub u w = true
  mid : ∀ w, mid.head? = some w → looksSub u w = false
  known : db c = some cmd
  down : Down cmd.subs path ss

/-- **C160 (partial).** The caret in the name of a long option, with or without a value behind it: its description is shown. -/
theorem C160_long_partial (u : Tables) (db : Str → Option Cmd) (c : Str) (path mid : List Str) (n v : Str) (post : List Str) (cmd : Cmd) (ss : List Sub)
    (h : Edited u db c path mid (c!"--" ++ n ++ v) post cmd ss) (hn : '=' ∉ n) (hv : v = [] ∨ ∃ t, v = '=' :: t) (d : Str)
    (hd : Meant Opt.long (c!"--" ++ n) (scopes cmd ss) d) (k : Nat) (hk : 1 ≤ k) (hkn : k ≤ n.length + 2) :
    explain u db (line (c :: (path ++ mid) ++ (c!"--" ++ n ++ v) :: post)) (offset (c :: (path ++ mid)) + k) = some d := by
  have hname : '=' ∉ c!"--" ++ n := by
    simp only [List.mem_append, not_or]
    exact ⟨by decide, hn⟩
  have hself : (c!"--" ++ n).takeWhile (· ≠ '=') = c!"--" ++ n := by
    apply takeWhile_all
    intro x hx
    simp only [ne_eq, decide_not, Bool.not_eq_true', decide_eq_false_iff_not]
    rintro rfl
    exact hname hx
  have htw : (c!"--" ++ n ++ v).takeWhile (· ≠ '=') = c!"--" ++ n := by
    rcases hv with rfl | ⟨t, rfl⟩
    · rw [List.append_nil, hself]
    · rw [List.takeWhile_append_of_pos]
      · simp
      · intro x hx
        simp only [ne_eq, decide_not, Bool.not_eq_true', decide_eq_false_iff_not]
        rintro rfl
        exact hname hx
  have hlen : (c!"--" ++ n).length = n.length + 2 := by simp
  rw [explain_line u db c path mid _ post h.words h.subs h.mid cmd h.known k hk (by simp; omega) rfl
    (by rw [List.take_append_of_le_length (by omega)]; exact fun hx => hname (List.mem_of_mem_take hx)), levels_down h.down]
  unfold explainOption
  rw [if_pos (List.isPrefixOf_iff_prefix.2 ⟨n ++ v, by simp⟩), htw]
  exact findSome_meant hd

/-- **C160 (partial).** The caret on a letter of a group of short options: the description of that letter is shown. -/
theorem C160_short_partial (u : Tables) (db : Str → Option Cmd) (c : Str) (path mid : List Str) (a : Str) (x : Char) (b : Str) (post : List Str)
    (cmd : Cmd) (ss : List Sub) (h : Edited u db c path mid ('-' :: (a ++ x :: b)) post cmd ss) (hdash : (a ++ x :: b).head? ≠ some '-') (ha : '=' ∉ a) (d : Str)
    (hd : Meant Opt.short ['-', x] (scopes cmd ss) d) :
    explain u db (line (c :: (path ++ mid) ++ ('-' :: (a ++ x :: b)) :: post)) (offset (c :: (path ++ mid)) + (a.length + 1)) = some d := by
  rw [explain_line u db c path mid _ post h.words h.subs h.mid cmd h.known (a.length + 1) (by omega) (by simp) rfl (by simpa using ha), levels_down h.down]
  unfold explainOption
  have h1 : ¬ c!"--".isPrefixOf ('-' :: (a ++ x :: b)) = true := by
    intro hp
    obtain ⟨t, ht⟩ := List.isPrefixOf_iff_prefix.1 hp
    injection ht with _ ht
    rw [← ht] at hdash
    exact hdash rfl
  rw [if_neg h1, if_pos (by rfl), if_neg (by omega)]
  have h2 : ('-' :: (a ++ x :: b))[a.length + 1]? = some x := by simp
  rw [h2]
  exact findSome_meant hd

/-- A subcommand at any depth. -/
inductive Below : List Sub → Sub → Prop where
  | here {subs : List Sub} {s : Sub} (h : s ∈ subs) : Below subs s
  | deep {subs : List Sub} {s t : Sub} (h : s ∈ subs) (ht : Below s.subs t) : Below subs t

theorem chain_below : ∀ (ns : List Str) (subs : List Sub), ∀ os ∈ chain subs ns, ∃ s, Below subs s ∧ os = s.options := by
  intro ns
  induction ns with
  | nil => intro subs os h; cases h
  | cons n ns ih =>
    intro subs os h
    rw [chain] at h
    split at h
    · next s hs =>
      have hm := List.mem_of_find?_eq_some hs
      rcases List.mem_cons.1 h with rfl | h
      · exact ⟨s, .here hm, rfl⟩
      · obtain ⟨t, ht, he⟩ := ih s.subs os h
        exact ⟨t, .deep hm ht, he⟩
    · exact ih subs os h

/-- **C160 (partial).** What is shown is never made up: it describes an option of the command or of one of its subcommands, which is named in the word the caret
is in (for every line). -/
theorem C160_sound_partial (u : Tables) (db : Str → Option Cmd) (l : Str) (k : Nat) (d : Str) (h : explain u db l k = some d) :
    ∃ c cmd o, db c = some cmd ∧ (o ∈ cmd.options ∨ ∃ s, Below cmd.subs s ∧ o ∈ s.options) ∧ o.desc = some d ∧
      ∃ t ∈ tokenize l .parser, t.start.byte ≤ k ∧ k ≤ t.stop.byte ∧
        (o.long = some (t.raw.takeWhile (· ≠ '=')) ∨ ∃ x, t.raw[k - t.start.byte]? = some x ∧ o.short = some ['-', x]) := by
  unfold explain at h
  split at h
  · cases h
  · simp only [Option.bind_eq_some_iff] at h
    obtain ⟨cmd, hc, h⟩ := h
    refine ⟨(parse u l k).command, cmd, ?_⟩
    have key : ∃ w j, wordAt l k = some (w, j) ∧ explainOption (levels cmd (parse u l k).path) w j = some d := by
      split at h
      · obtain ⟨⟨w, j⟩, h1, h2⟩ := Option.bind_eq_some_iff.1 h; exact ⟨w, j, h1, h2⟩
      · obtain ⟨⟨w, j⟩, h1, h2⟩ := Option.bind_eq_some_iff.1 h; exact ⟨w, j, h1, h2⟩
      · cases h
    obtain ⟨w, j, hw, he⟩ := key
    have hlev : ∀ os ∈ levels cmd (parse u l k).path, ∀ o ∈ os, o ∈ cmd.options ∨ ∃ s, Below cmd.subs s ∧ o ∈ s.options := by
      intro os hos o ho
      rcases List.mem_cons.1 hos with rfl | hos
      · exact .inl ho
      · obtain ⟨s, hs, rfl⟩ := chain_below _ _ os hos
        exact .inr ⟨s, hs, ho⟩
    have hcur : ∀ (sp : List Span), (findCursor k sp).2 = true → ∃ t, sp[(findCursor k sp).1]? = some t ∧ t.start.byte ≤ k ∧ k ≤ t.stop.byte := by
      intro sp
      induction sp with
      | nil => intro h; cases h
      | cons t sp ih =>
        intro h
        unfold findCursor at h ⊢
        split
        · next hle => rw [if_pos hle] at h; exact ⟨t, rfl, by simpa using h, hle⟩
        · next hle => rw [if_neg hle] at h; simpa using ih h
    unfold wordAt at hw
    simp only at hw
    split at hw
    · next hin =>
      obtain ⟨t, ht, h1, h2⟩ := hcur _ hin
      rw [ht] at hw
      simp only [Option.map_some, Option.some.injEq, Prod.mk.injEq] at hw
      obtain ⟨rfl, rfl⟩ := hw
      unfold explainOption at he
      split at he
      · obtain ⟨os, hos, hf⟩ := List.exists_of_findSome?_eq_some he
        obtain ⟨o, ho, hd⟩ := Option.bind_eq_some_iff.1 hf
        have hp := List.find?_some (p := fun o : Opt => decide (o.long = some (t.raw.takeWhile (· ≠ '=')))) ho
        exact ⟨o, hc, hlev os (List.mem_reverse.1 hos) o (List.mem_of_find?_eq_some ho), hd, t, List.mem_of_getElem? ht, h1, h2, .inl (by simpa using hp)⟩
      · split at he
        · split at he
          · cases he
          · obtain ⟨x, hx, he⟩ := Option.bind_eq_some_iff.1 he
            obtain ⟨os, hos, hf⟩ := List.exists_of_findSome?_eq_some he
            obtain ⟨o, ho, hd⟩ := Option.bind_eq_some_iff.1 hf
            have hp := List.find?_some (p := fun o : Opt => decide (o.short = some ['-', x])) ho
            exact ⟨o, hc, hlev os (List.mem_reverse.1 hos) o (List.mem_of_find?_eq_some ho), hd, t, List.mem_of_getElem? ht, h1, h2, .inr ⟨x, hx, by simpa using hp⟩⟩
        · cases he
    · cases hw

/-- **C160 (violated).** With the caret behind the last letter of a short option, where it stands after typing it, nothing is shown. -/
theorem C160_end_violated (u : Tables) (db : Str → Option Cmd) (c : Str) (path mid : List Str) (a : Str) (post : List Str)
    (cmd : Cmd) (ss : List Sub) (h : Edited u db c path mid ('-' :: a) post cmd ss) (hdash : a.head? ≠ some '-') (ha : '=' ∉ a) :
    explain u db (line (c :: (path ++ mid) ++ ('-' :: a) :: post)) (offset (c :: (path ++ mid)) + (a.length + 1)) = none := by
  rw [explain_line u db c path mid _ post h.words h.subs h.mid cmd h.known (a.length + 1) (by omega) (by simp) rfl (by simpa using ha)]
  unfold explainOption
  have h1 : ¬ c!"--".isPrefixOf ('-' :: a) = true := by
    intro hp
    obtain ⟨t, ht⟩ := List.isPrefixOf_iff_prefix.1 hp
    injection ht with _ ht
    rw [← ht] at hdash
    exact hdash rfl
  rw [if_neg h1, if_pos (by rfl), if_neg (by omega)]
  have h2 : ('-' :: a)[a.length + 1]? = none := by simp
  rw [h2]
  rfl

/-- **C160 (violated).** A letter of the value given behind a short option `m` is explained as an option, whatever `m` takes. -/
theorem C160_value_violated (u : Tables) (db : Str → Option Cmd) (c : Str) (path mid : List Str) (m : Char) (a : Str) (x : Char) (b : Str) (post : List Str)
    (cmd : Cmd) (ss : List Sub) (h : Edited u db c path mid ('-' :: m :: (a ++ x :: b)) post cmd ss) (hm : m ≠ '-') (hm' : m ≠ '=') (ha : '=' ∉ a) (d : Str)
    (hd : Meant Opt.short ['-', x] (scopes cmd ss) d) :
    explain u db (line (c :: (path ++ mid) ++ ('-' :: m :: (a ++ x :: b)) :: post)) (offset (c :: (path ++ mid)) + (a.length + 2)) = some d :=
  C160_short_partial u db c path mid (m :: a) x b post cmd ss h (by simpa using hm) (by simp [ha, Ne.symm hm']) d hd

theorem bar_word : PlainWord .parser c!"|" ∧ ∀ x ∈ c!"|", x.utf8Size = 1 := by
  refine ⟨⟨by decide, by decide⟩, by decide⟩

/-- **C160 (violated).** Behind `|` the options of the first command are shown: those of `c` for `c | g --n`, whatever `g` is. -/
theorem C160_pipe_violated (u : Tables) (db : Str → Option Cmd) (c g n : Str) (cmd : Cmd)
    (hw : ∀ w ∈ [c, g, c!"--" ++ n], PlainWord .parser w ∧ ∀ x ∈ w, x.utf8Size = 1) (hc : db c = some cmd) (hn : '=' ∉ n) (d : Str)
    (hd : Meant Opt.long (c!"--" ++ n) [cmd.options] d) :
    explain u db (line [c, c!"|", g, c!"--" ++ n]) (offset [c, c!"|", g] + (n.length + 2)) = some d := by
  have h : Edited u db c [] [c!"|", g] (c!"--" ++ n ++ []) [] cmd [] := by
    refine ⟨fun w hm => ?_, by simp, fun w hm => ?_, hc, .nil _⟩
    · simp only [List.append_nil, List.nil_append, List.cons_append, List.mem_cons, List.not_mem_nil, or_false] at hm
      rcases hm with rfl | rfl | rfl | rfl
      · exact hw _ (by simp)
      · exact bar_word
      · exact hw _ (by simp)
      · exact hw _ (by simp)
    · simp only [List.head?_cons, Option.some.injEq] at hm
      subst hm
      unfold looksSub
      have : blen c!"|" = 1 := by decide
      simp [isOpt, hasExtension, this]
  have := C160_long_partial u db c [] [c!"|", g] n [] [] cmd [] h hn (.inl rfl) d hd (n.length + 2) (by omega) (by omega)
  simpa using this

/-- **C160 (violated).** Behind `--` words are explained as options. -/
theorem C160_operand_violated (u : Tables) (db : Str → Option Cmd) (c n : Str) (cmd : Cmd)
    (hw : ∀ w ∈ [c, c!"--" ++ n], PlainWord .parser w ∧ ∀ x ∈ w, x.utf8Size = 1) (hc : db c = some cmd) (hn : '=' ∉ n) (d : Str)
    (hd : Meant Opt.long (c!"--" ++ n) [cmd.options] d) :
    explain u db (line [c, c!"--", c!"--" ++ n]) (offset [c, c!"--"] + (n.length + 2)) = some d := by
  have h : Edited u db c [] [c!"--"] (c!"--" ++ n ++ []) [] cmd [] := by
    refine ⟨fun w hm => ?_, by simp, fun w hm => ?_, hc, .nil _⟩
    · simp only [List.append_nil, List.nil_append, List.cons_append, List.mem_cons, List.not_mem_nil, or_false] at hm
      rcases hm with rfl | rfl | rfl
      · exact hw _ (by simp)
      · exact ⟨⟨by decide, by decide⟩, by decide⟩
      · exact hw _ (by simp)
    · simp only [List.head?_cons, Option.some.injEq] at hm
      subst hm
      unfold looksSub
      simp [isOpt]
  have := C160_long_partial u db c [] [c!"--"] n [] [] cmd [] h hn (.inl rfl) d hd (n.length + 2) (by omega) (by omega)
  simpa using this

/-- **C160 (violated).** Behind the second name of a subcommand its options are not explained, although they are behind the first. -/
theorem C160_alias_violated (u : Tables) (db : Str → Option Cmd) (c a n : Str) (cmd : Cmd) (s : Sub) (_hs : s ∈ cmd.subs) (_ha : a ∈ s.aliases)
    (hw : ∀ w ∈ [c, a, c!"--" ++ n], PlainWord .parser w ∧ ∀ x ∈ w, x.utf8Size = 1) (hc : db c = some cmd) (hn : '=' ∉ n)
    (hsub : looksSub u a = true) (hname : ∀ t ∈ cmd.subs, t.name ≠ a) (hroot : ∀ o ∈ cmd.options, o.long ≠ some (c!"--" ++ n)) :
    explain u db (line [c, a, c!"--" ++ n]) (offset [c, a] + (n.length + 2)) = none := by
  have hl : (c!"--" ++ n).length = n.length + 2 := by simp
  have := explain_line u db c [a] [] (c!"--" ++ n) [] (by simpa using hw) (by simpa using hsub) (by simp) cmd hc (n.length + 2) (by omega) (by omega) rfl
    (by
      rw [List.take_of_length_le (by omega)]
      simp only [List.mem_append, not_or]
      exact ⟨by decide, hn⟩)
  have e : [c, a, c!"--" ++ n] = c :: ([a] ++ []) ++ (c!"--" ++ n) :: [] := rfl
  rw [e, show offset [c, a] = offset (c :: ([a] ++ [])) from rfl, this]
  have hnone : cmd.subs.find? (fun t => decide (t.name = a)) = none := by
    rw [List.find?_eq_none]
    intro t ht
    simpa using hname t ht
  have hlev : levels cmd [a] = [cmd.options] := by simp [levels, chain, hnone]
  have hself : (c!"--" ++ n).takeWhile (· ≠ '=') = c!"--" ++ n := by
    apply takeWhile_all
    intro x hx
    simp only [ne_eq, decide_not, Bool.not_eq_true', decide_eq_false_iff_not]
    rintro rfl
    rcases List.mem_append.1 hx with h | h
    · revert h; decide
    · exact hn h
  have hfn : cmd.options.find? (fun o => decide (o.long = some (c!"--" ++ n))) = none := by
    rw [List.find?_eq_none]
    intro o ho
    simpa using hroot o ho
  have hex := explainOption.eq_1 [cmd.options] (c!"--" ++ n) (n.length + 2)
  rw [hlev, hex, if_pos (List.isPrefixOf_iff_prefix.2 ⟨n, rfl⟩), hself]
  simp only [List.reverse_cons, List.reverse_nil, List.nil_append, List.findSome?_cons, List.findSome?_nil, findLong, hfn, Option.bind_none]

/-- **C160 (violated).** An option without a description is explained by another one of the same name, of the command. -/
theorem C160_described_violated (u : Tables) (db : Str → Option Cmd) (c n : Str) (cmd : Cmd) (s : Sub) (o : Opt)
    (h : Edited u db c [s.name] [] (c!"--" ++ n) [] cmd [s]) (hn : '=' ∉ n) (ho : o ∈ s.options) (hol : o.long = some (c!"--" ++ n)) (hod : o.desc = none)
    (hu : ∀ x ∈ s.options, x.long = some (c!"--" ++ n) → x = o) (d : Str) (hd : Meant Opt.long (c!"--" ++ n) [cmd.options] d) :
    explain u db (line [c, s.name, c!"--" ++ n]) (offset [c, s.name] + (n.length + 2)) = some d := by
  have hl : (c!"--" ++ n).length = n.length + 2 := by simp
  have hself : (c!"--" ++ n).takeWhile (· ≠ '=') = c!"--" ++ n := by
    apply takeWhile_all
    intro x hx
    simp only [ne_eq, decide_not, Bool.not_eq_true', decide_eq_false_iff_not]
    rintro rfl
    rcases List.mem_append.1 hx with h | h
    · revert h; decide
    · exact hn h
  have := explain_line u db c [s.name] [] (c!"--" ++ n) [] h.words h.subs h.mid cmd h.known (n.length + 2) (by omega) (by omega) rfl
    (by
      rw [List.take_of_length_le (by omega)]
      simp only [List.mem_append, not_or]
      exact ⟨by decide, hn⟩)
  have e : [c, s.name, c!"--" ++ n] = c :: ([s.name] ++ []) ++ (c!"--" ++ n) :: [] := rfl
  rw [e, show offset [c, s.name] = offset (c :: ([s.name] ++ [])) from rfl, this, levels_down h.down]
  have hex := explainOption.eq_1 (scopes cmd [s]) (c!"--" ++ n) (n.length + 2)
  rw [hex, if_pos (List.isPrefixOf_iff_prefix.2 ⟨n, rfl⟩), hself]
  have h1 : findLong (c!"--" ++ n) s.options = none := by
    unfold findLong
    rw [find_unique ho (by simpa using hol) fun b hb hp => hu b hb (by simpa using hp)]
    simpa using hod
  have h2 := findSome_meant hd
  simp only [List.reverse_cons, List.reverse_nil, List.nil_append, List.findSome?_cons, List.findSome?_nil] at h2
  simp only [scopes, List.map_cons, List.map_nil, List.reverse_cons, List.reverse_nil, List.nil_append, List.cons_append, List.findSome?_cons, List.findSome?_nil]
  rw [show findLong ('-' :: '-' :: n) s.options = none from h1]
  exact h2

/-- A definition for the examples. -/
def git : Str → Option Cmd := fun n =>
  if n = c!"git" then
    some ⟨[{ short := some c!"-v", long := some c!"--version", desc := some c!"Show version" }],
      [.mk c!"commit" [c!"ci"] [{ short := some c!"-a", long := some c!"--all", desc := some c!"All files" }, { short := some c!"-m", desc := some c!"Message" }] []]⟩
  else none

/-- **C160 (violated).** The number of characters before the caret is taken for a number of bytes: the same option is explained behind `ab`, not behind `éé`. -/
theorem C160_bytes_violated : explain ascii git c!"git commit ab. -am" 17 = some c!"Message" ∧ explain ascii git c!"git commit éé. -am" 17 ≠ some c!"Message" := by
  decide +kernel

example : explain ascii git c!"git commit -am x" 12 = some c!"All files" ∧ explain ascii git c!"git commit -am x" 13 = some c!"Message" ∧
    explain ascii git c!"git commit --all x" 14 = some c!"All files" ∧ explain ascii git c!"git commit -a" 13 = none := by decide +kernel

/-- The words of the example meet the hypotheses. -/
example : Edited ascii git c!"git" [c!"commit"] [] c!"-am" [c!"x"] ⟨[{ short := some c!"-v", long := some c!"--version", desc := some c!"Show version" }],
      [.mk c!"commit" [c!"ci"] [{ short := some c!"-a", long := some c!"--all", desc := some c!"All files" }, { short := some c!"-m", desc := some c!"Message" }] []]⟩
    [.mk c!"commit" [c!"ci"] [{ short := some c!"-a", long := some c!"--all", desc := some c!"All files" }, { short := some c!"-m", desc := some c!"Message" }] []] := by
  refine ⟨?_, by decide, by simp, rfl, ?_⟩
  · intro w hw
    simp only [List.append_nil, List.cons_append, List.nil_append, List.mem_cons, List.not_mem_nil, or_false] at hw
    rcases hw with rfl | rfl | rfl | rfl <;> exact ⟨⟨by decide, by decide⟩, by decide⟩
  · exact Down.cons (s := .mk c!"commit" [c!"ci"] [{ short := some c!"-a", long := some c!"--all", desc := some c!"All files" }, { short := some c!"-m", desc := some c!"Message" }] [])
      (by simp) (by simp) (.nil _)

/-! ## C161 -/

/-- The rows `ls` of the line are on the screen, the caret on row `y` of them. -/
def Screen.shows (s : Screen) (ls : List Str) (y : Nat) : Prop :=
  y < ls.length ∧ y ≤ s.cur ∧ s.cur - y + ls.length ≤ s.height ∧ s.above = y ∧ ∀ i, i < ls.length → s.rows (s.cur - y + i) = ls.getD i []

/-- **C161 (partial).** Drawing a line that is not higher than the screen puts it there, whatever was there before. -/
theorem C161_drawn_partial (s : Screen) (ls : List Str) (y : Nat) (hy : y < ls.length) (hh : ls.length ≤ s.height) (_hc : s.cur < s.height) :
    (s.draw ls y).shows ls y := by
  unfold Screen.shows Screen.draw
  simp only
  refine ⟨hy, by omega, by omega, trivial, ?_⟩
  intro i hi
  rw [if_neg (by omega), if_pos (by omega)]
  congr 1
  omega

/-- **C161 (partial).** Drawn again, the line takes the place of the one before: it begins on the same row, unless the screen has to move up, and what is
above stays. -/
theorem C161_again_partial (s : Screen) (ls : List Str) (y : Nat) (h : s.shows ls y) (ls' : List Str) (y' : Nat)
    : ∃ up, (s.draw ls' y').cur = s.cur - y - up + y' ∧ (s.cur - y + ls'.length ≤ s.height → up = 0) ∧
      ∀ r, r < s.cur - y - up → (s.draw ls' y').rows r = s.rows (r + up) := by
  obtain ⟨h1, h2, h3, h4, h5⟩ := h
  unfold Screen.draw
  simp only [h4]
  refine ⟨s.cur - y + ls'.length - s.height, rfl, by omega, fun r hr => ?_⟩
  rw [if_pos (by omega)]

/-- **C161 (partial).** With the caret on the last row of the line and a free row below it: the explanation is on the row below, the line and all other rows stay
as they are. -/
theorem C161_below_partial (s : Screen) (ls : List Str) (y : Nat) (h : s.shows ls y) (hy : y + 1 = ls.length) (hb : s.cur + 1 < s.height) (e : Option Str)
    (hne : e ≠ s.last) : (s.refresh e).shows ls y ∧ (s.refresh e).rows (s.cur + 1) = shown e ∧ ∀ r, r ≠ s.cur + 1 → (s.refresh e).rows r = s.rows r := by
  obtain ⟨h1, h2, h3, h4, h5⟩ := h
  have hr : min (s.cur + 1) (s.height - 1) = s.cur + 1 := by omega
  unfold Screen.shows Screen.refresh
  rw [if_neg hne, hr]
  refine ⟨⟨h1, h2, h3, h4, fun i hi => ?_⟩, by simp, fun r hr => by simp [hr]⟩
  simp only
  rw [if_neg (by omega)]
  exact h5 i hi

/-- **C161 (violated).** On the last row of the screen the explanation is written over the line. -/
theorem C161_bottom_violated (s : Screen) (ls : List Str) (y : Nat) (_h : s.shows ls y) (hb : s.cur + 1 = s.height) (e : Option Str) (hne : e ≠ s.last) :
    (s.refresh e).rows s.cur = shown e := by
  have hr : min (s.cur + 1) (s.height - 1) = s.cur := by omega
  unfold Screen.refresh
  rw [if_neg hne, hr]
  simp

/-- **C161 (violated).** With the caret above the last row of the line, the explanation is written over the row below it. -/
theorem C161_rows_violated (s : Screen) (ls : List Str) (y : Nat) (h : s.shows ls y) (hy : y + 1 < ls.length) (e : Option Str) (hne : e ≠ s.last) :
    (s.refresh e).rows (s.cur - y + (y + 1)) = shown e := by
  obtain ⟨h1, h2, h3, h4, h5⟩ := h
  have hr : min (s.cur + 1) (s.height - 1) = s.cur - y + (y + 1) := by omega
  unfold Screen.refresh
  rw [if_neg hne, hr]
  simp

/-- **C161 (violated).** When the line is drawn again, an explanation that is still the same disappears and is not written again. -/
theorem C161_gone_violated (s : Screen) (ls : List Str) (y : Nat) (_hy : y + 1 = ls.length) (hh : ls.length ≤ s.height) (hc : s.cur < s.height) (e : Option Str) :
    (((s.refresh e).draw ls y).refresh e).rows (((s.refresh e).draw ls y).cur + 1) = [] := by
  have hlast : ((s.refresh e).draw ls y).last = e := by
    unfold Screen.refresh Screen.draw
    by_cases h : e = s.last <;> simp [h]
  have h0 : (((s.refresh e).draw ls y).refresh e) = (s.refresh e).draw ls y := by
    rw [Screen.refresh.eq_1 ((s.refresh e).draw ls y), hlast, if_pos rfl]
  have hcur : (s.refresh e).height = s.height ∧ (s.refresh e).cur = s.cur := by
    unfold Screen.refresh
    by_cases h : e = s.last <;> simp [h]
  rw [h0]
  unfold Screen.draw
  simp only [hcur.1, hcur.2]
  rw [if_neg (by omega), if_neg (by omega)]

example : let s : Screen := { height := 3, rows := fun _ => [], cur := 0 }
    let t := (s.draw [c!"git -v"] 0).refresh (some c!"Show version")
    t.rows 0 = c!"git -v" ∧ t.rows 1 = c!" [ Show version ]" ∧
    ({ t with cur := 2, last := none }.refresh (some c!"x")).rows 2 = c!" [ x ]" := by decide

end Dsh.Explain
