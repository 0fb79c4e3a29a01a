import Verif.Dirs.FrecencyProps
/-!
The order of completion candidates (dsh/src/completion/integrated.rs: `deduplicate_and_sort`,
`history_boost_scores`): C100, C101.
-/
namespace Dsh.Rank
open Dsh.Frec (cmpStr Before)

abbrev Str := List Char

/-! ### Model -/

/-- `CandidateType` (integrated.rs:1031-1051). -/
inductive Ty where
  | subCommand | shortOption | longOption | argument | file | directory | process | generic
  deriving DecidableEq

/-- `sort_order` (integrated.rs:1055-1066). -/
def Ty.order : Ty → Nat
  | .subCommand => 1
  | .longOption => 2
  | .shortOption => 3
  | .argument => 4
  | .directory => 5
  | .file => 6
  | .process => 7
  | .generic => 8

/-- `EnhancedCandidate` (integrated.rs:984-994), without the description. -/
structure Cand where
  text : Str
  ty : Ty
  prio : Nat
  deriving DecidableEq

/-- The largest `u32`. -/
def maxU32 : Nat := 4294967295

/-- `candidate.priority.saturating_add(score)` (integrated.rs:719-724). -/
def Cand.boost (c : Cand) (score : Nat) : Cand := { c with prio := min (c.prio + score) maxU32 }

/-- The first order: priority, then text (integrated.rs:728-732). -/
def le1 (a b : Cand) : Bool :=
  decide (b.prio < a.prio) || (decide (a.prio = b.prio) && cmpStr a.text b.text != .gt)

/-- The final order: priority, type, text (integrated.rs:745-754). -/
def le2 (a b : Cand) : Bool :=
  decide (b.prio < a.prio) || (decide (a.prio = b.prio) &&
    (decide (a.ty.order < b.ty.order) || (decide (a.ty.order = b.ty.order) && cmpStr a.text b.text != .gt)))

/-- The first candidate of each text (integrated.rs:734-742). -/
def firsts : List Str → List Cand → List Cand
  | _, [] => []
  | seen, c :: cs => if seen.contains c.text then firsts seen cs else c :: firsts (c.text :: seen) cs

/-- `deduplicate_and_sort` (integrated.rs:702-768); without a history, or if it is in use, the scores
are all 0. -/
def rank (cands : List Cand) (scores : List Nat) (max : Nat) : List Cand :=
  (sortBy le2 (firsts [] (sortBy le1 (List.zipWith Cand.boost cands scores)))).take max

/-- `split_whitespace`, with the letters read of the current word. -/
def wordsGo : Str → Str → List Str
  | cur, [] => if cur.isEmpty then [] else [cur.reverse]
  | cur, c :: cs =>
    if rustWhitespace c then (if cur.isEmpty then wordsGo [] cs else cur.reverse :: wordsGo [] cs)
    else wordsGo (c :: cur) cs

/-- `item.entry.split_whitespace()` with `tokens_seen` (integrated.rs:817-821). -/
def distinct : List Str → List Str → List Str
  | _, [] => []
  | seen, w :: ws => if seen.contains w then distinct seen ws else w :: distinct (w :: seen) ws

/-- Candidates that take part (integrated.rs:780-785). -/
def Cand.counts (c : Cand) : Bool := c.ty != .file && c.ty != .directory

/-- `HISTORY_BOOST_SCORE_CAP` (integrated.rs:27). -/
def cap : Nat := 5000

/-- One token (integrated.rs:823-838); a candidate is capped when its score exceeds the limit. -/
def token (cands : List Cand) (add : Nat) (scores : List Nat) (w : Str) : List Nat :=
  List.zipWith (fun c s => if c.counts && c.text == w && !decide (cap < s) then s + add else s) cands scores

/-- The bonus for the same command (integrated.rs:806-815). -/
def bonus (cmd : Option Str) (entry : Str) : Nat :=
  match cmd with
  | some cmd => if entry == cmd || (cmd ++ [' ']).isPrefixOf entry then 500 else 0
  | none => 0

/-- All candidates that take part are capped (integrated.rs:841-843). -/
def allCapped (cands : List Cand) (scores : List Nat) : Bool :=
  (List.zipWith (fun c s => !c.counts || decide (cap < s)) cands scores).all id

/-- The loop over the entries, newest first (integrated.rs:805-844). -/
def boostGo (cands : List Cand) (cmd : Option Str) : List Str → List Nat → List Nat
  | [], scores => scores
  | e :: es, scores =>
    let scores := (distinct [] (wordsGo [] e)).foldl (token cands (10 + bonus cmd e)) scores
    if allCapped cands scores then scores else boostGo cands cmd es scores

/-- `history_boost_scores` (integrated.rs:771-847); `hist` is the history, newest first. -/
def boosts (cands : List Cand) (hist : List Str) (cmd : Option Str) : List Nat :=
  let zero := cands.map fun _ => 0
  if cands.any Cand.counts then boostGo cands cmd (hist.take 2000) zero else zero

/-! ### Specification -/

/-- `a` is listed before `b`, or they agree in everything that decides. -/
def Ahead (a b : Cand) : Prop :=
  b.prio < a.prio ∨ a.prio = b.prio ∧ (a.ty.order < b.ty.order ∨ a.ty.order = b.ty.order ∧ ¬ Before b.text a.text)

theorem cmp_ne_gt (s t : Str) : (cmpStr s t != .gt) = true ↔ ¬ Before t s := by
  rw [← Frec.cmpStr_gt]; simp

theorem le2_iff (a b : Cand) : le2 a b = true ↔ Ahead a b := by
  simp only [le2, Ahead, Bool.or_eq_true, Bool.and_eq_true, decide_eq_true_eq, cmp_ne_gt]

theorem nb_trans {a b c : Str} (h1 : ¬ Before b a) (h2 : ¬ Before c b) : ¬ Before c a := by
  intro h3
  rcases Frec.before_total b c with h | h | h
  · exact h1 (Frec.before_trans h h3)
  · subst h; exact h1 h3
  · exact h2 h

theorem nb_total (a b : Str) : ¬ Before b a ∨ ¬ Before a b := by
  by_cases h : Before b a
  · right
    intro h'
    exact Frec.before_irrefl _ (Frec.before_trans h h')
  · exact .inl h

theorem le2_trans (a b c : Cand) (h1 : le2 a b = true) (h2 : le2 b c = true) : le2 a c = true := by
  rw [le2_iff] at *
  unfold Ahead at *
  rcases h1 with h1 | ⟨h1, h1' | ⟨h1', h1''⟩⟩ <;> rcases h2 with h2 | ⟨h2, h2' | ⟨h2', h2''⟩⟩
  · left; omega
  · left; omega
  · left; omega
  · left; omega
  · right; exact ⟨by omega, .inl (by omega)⟩
  · right; exact ⟨by omega, .inl (by omega)⟩
  · left; omega
  · right; exact ⟨by omega, .inl (by omega)⟩
  · right; exact ⟨by omega, .inr ⟨by omega, nb_trans h1'' h2''⟩⟩

theorem le2_total (a b : Cand) : (le2 a b || le2 b a) = true := by
  rw [Bool.or_eq_true, le2_iff, le2_iff]
  unfold Ahead
  rcases Nat.lt_trichotomy a.prio b.prio with h | h | h
  · exact .inr (.inl h)
  · rcases Nat.lt_trichotomy a.ty.order b.ty.order with h' | h' | h'
    · exact .inl (.inr ⟨h, .inl h'⟩)
    · rcases nb_total a.text b.text with h'' | h''
      · exact .inl (.inr ⟨h, .inr ⟨h', h''⟩⟩)
      · exact .inr (.inr ⟨h.symm, .inr ⟨h'.symm, h''⟩⟩)
    · exact .inr (.inr ⟨h.symm, .inl h'⟩)
  · exact .inl (.inl h)

theorem le1_iff (a b : Cand) : le1 a b = true ↔ b.prio < a.prio ∨ a.prio = b.prio ∧ ¬ Before b.text a.text := by
  simp only [le1, Bool.or_eq_true, Bool.and_eq_true, decide_eq_true_eq, cmp_ne_gt]

theorem le1_trans (a b c : Cand) (h1 : le1 a b = true) (h2 : le1 b c = true) : le1 a c = true := by
  rw [le1_iff] at *
  rcases h1 with h1 | ⟨h1, h1'⟩ <;> rcases h2 with h2 | ⟨h2, h2'⟩
  · left; omega
  · left; omega
  · left; omega
  · right; exact ⟨by omega, nb_trans h1' h2'⟩

theorem le1_total (a b : Cand) : (le1 a b || le1 b a) = true := by
  rw [Bool.or_eq_true, le1_iff, le1_iff]
  rcases Nat.lt_trichotomy a.prio b.prio with h | h | h
  · exact .inr (.inl h)
  · rcases nb_total a.text b.text with h'' | h''
    · exact .inl (.inr ⟨h, h''⟩)
    · exact .inr (.inr ⟨h.symm, h''⟩)
  · exact .inl (.inl h)

theorem firsts_sub (seen : List Str) (l : List Cand) : ∀ c ∈ firsts seen l, c ∈ l ∧ c.text ∉ seen := by
  induction l generalizing seen with
  | nil => simp [firsts]
  | cons x l ih =>
    intro c hc
    rw [firsts] at hc
    split at hc
    · have := ih _ c hc
      exact ⟨List.mem_cons_of_mem _ this.1, this.2⟩
    · next hx =>
      rcases List.mem_cons.1 hc with rfl | hc
      · exact ⟨by simp, by simpa using hx⟩
      · have := ih _ c hc
        exact ⟨List.mem_cons_of_mem _ this.1, fun h => this.2 (List.mem_cons_of_mem _ h)⟩

theorem firsts_nodup (seen : List Str) (l : List Cand) : ((firsts seen l).map Cand.text).Nodup := by
  induction l generalizing seen with
  | nil => simp [firsts]
  | cons x l ih =>
    rw [firsts]
    split
    · exact ih _
    · rw [List.map_cons, List.nodup_cons]
      refine ⟨?_, ih _⟩
      intro hm
      obtain ⟨c, hc, he⟩ := List.mem_map.1 hm
      exact (firsts_sub _ _ c hc).2 (by rw [he]; simp)

theorem firsts_complete (seen : List Str) (l : List Cand) : ∀ c ∈ l, c.text ∉ seen → ∃ d ∈ firsts seen l, d.text = c.text := by
  induction l generalizing seen with
  | nil => simp
  | cons x l ih =>
    intro c hc hs
    rw [firsts]
    split
    · next hx =>
      rcases List.mem_cons.1 hc with rfl | hc
      · exact absurd (by simpa using hx) hs
      · exact ih _ c hc hs
    · by_cases he : c.text = x.text
      · exact ⟨x, by simp, he.symm⟩
      · rcases List.mem_cons.1 hc with rfl | hc
        · exact absurd rfl he
        · obtain ⟨d, hd, hd'⟩ := ih (x.text :: seen) c hc (by simp [he, hs])
          exact ⟨d, List.mem_cons_of_mem _ hd, hd'⟩

/-- In a list ordered by priority the first of each text has the highest priority. -/
theorem firsts_best (seen : List Str) (l : List Cand) (hl : l.Pairwise fun a b => le1 a b = true) :
    ∀ c ∈ firsts seen l, ∀ d ∈ l, d.text = c.text → d.prio ≤ c.prio := by
  induction l generalizing seen with
  | nil => simp [firsts]
  | cons x l ih =>
    rw [List.pairwise_cons] at hl
    intro c hc d hd he
    rw [firsts] at hc
    split at hc
    · next hx =>
      rcases List.mem_cons.1 hd with rfl | hd
      · exact absurd (by rw [← he]; simpa using hx) (firsts_sub _ _ c hc).2
      · exact ih _ hl.2 c hc d hd he
    · rcases List.mem_cons.1 hc with rfl | hc
      · rcases List.mem_cons.1 hd with rfl | hd
        · exact Nat.le_refl _
        · have := (le1_iff _ _).1 (hl.1 d hd)
          omega
      · rcases List.mem_cons.1 hd with rfl | hd
        · exact absurd (by rw [← he]; simp) (firsts_sub _ _ c hc).2
        · exact ih _ hl.2 c hc d hd he

/-- C100: the list that is shown.  For all candidates, scores and limits: everything shown was
offered; no text is shown twice; each is shown with the highest priority it was offered with; the
order is by priority, kind and text; the limit is kept; and an offered text is missing only if the
list is full, and then with candidates that come before it. -/
theorem C100_rank (cands : List Cand) (scores : List Nat) (max : Nat) :
    let offered := List.zipWith (fun c s => (⟨c.text, c.ty, min (c.prio + s) 4294967295⟩ : Cand)) cands scores
    let shown := rank cands scores max
    (∀ c ∈ shown, c ∈ offered) ∧
    (shown.map Cand.text).Nodup ∧
    (∀ c ∈ shown, ∀ d ∈ offered, d.text = c.text → d.prio ≤ c.prio) ∧
    shown.Pairwise Ahead ∧
    shown.length ≤ max ∧
    (∀ d ∈ offered, (∃ c ∈ shown, c.text = d.text) ∨
      shown.length = max ∧ ∀ c ∈ shown, ∃ e ∈ offered, e.text = d.text ∧ d.prio ≤ e.prio ∧ Ahead c e) := by
  intro offered shown
  have hoff : List.zipWith Cand.boost cands scores = offered := rfl
  have hshown : shown = (sortBy le2 (firsts [] (sortBy le1 offered))).take max := by rw [← hoff]; rfl
  have hs : (sortBy le1 offered).Pairwise fun a b => le1 a b = true := sortBy_sorted _ le1_trans le1_total _
  have p1 : ∀ c, c ∈ sortBy le1 offered ↔ c ∈ offered := fun c => (sortBy_perm le1 offered).mem_iff
  let full := sortBy le2 (firsts [] (sortBy le1 offered))
  have p2 : ∀ c, c ∈ full ↔ c ∈ firsts [] (sortBy le1 offered) := fun c => (sortBy_perm le2 _).mem_iff
  have hfull : full.Pairwise fun a b => le2 a b = true := sortBy_sorted _ le2_trans le2_total _
  have hsub : ∀ c ∈ shown, c ∈ full := fun c hc => List.mem_of_mem_take hc
  have hn : (full.map Cand.text).Nodup := ((sortBy_perm le2 _).map Cand.text).nodup_iff.2 (firsts_nodup [] _)
  refine ⟨fun c hc => (p1 c).1 (firsts_sub [] _ c ((p2 c).1 (hsub c hc))).1, ?_, ?_, ?_, ?_, ?_⟩
  · refine List.Nodup.sublist ?_ hn
    exact (List.take_sublist _ _).map _
  · intro c hc d hd he
    exact firsts_best [] _ hs c ((p2 c).1 (hsub c hc)) d ((p1 d).2 hd) he
  · exact (List.Pairwise.sublist (List.take_sublist max full) hfull).imp fun h => (le2_iff _ _).1 h
  · exact List.length_take_le _ _
  · intro d hd
    obtain ⟨e, he, het⟩ := firsts_complete [] _ d ((p1 d).2 hd) (by simp)
    have hef : e ∈ full := (p2 e).2 he
    by_cases hm : e ∈ shown
    · exact .inl ⟨e, hm, het⟩
    · right
      have hsplit : full = shown ++ full.drop max := (List.take_append_drop max full).symm
      have hed : e ∈ full.drop max := by
        rw [hsplit] at hef
        rcases List.mem_append.1 hef with h | h
        · exact absurd h hm
        · exact h
      refine ⟨?_, ?_⟩
      · have hlen : max ≤ full.length := by
          by_contra hlt
          rw [List.drop_eq_nil_of_le (by omega)] at hed
          simp at hed
        show (full.take max).length = max
        rw [List.length_take]
        omega
      · intro c hc
        refine ⟨e, (p1 e).1 (firsts_sub [] _ e he).1, het, ?_, ?_⟩
        · exact firsts_best [] _ hs e he d ((p1 d).2 hd) het.symm
        · rw [hsplit, List.pairwise_append] at hfull
          exact (le2_iff c e).1 (hfull.2.2 c hc e hed)

/-- A word of a text: a part between white space or the ends. -/
def Word (w s : Str) : Prop :=
  w ≠ [] ∧ (∀ x ∈ w, rustWhitespace x = false) ∧ ∃ a b, s = a ++ w ++ b ∧
    (a = [] ∨ ∃ q x, a = q ++ [x] ∧ rustWhitespace x = true) ∧ (b = [] ∨ ∃ x q, b = x :: q ∧ rustWhitespace x = true)

theorem word_split {x cs : Str} {c : Char} (hx : ∀ y ∈ x, rustWhitespace y = false) (hc : rustWhitespace c = true) (w : Str) :
    Word w (x ++ c :: cs) ↔ (w = x ∧ x ≠ []) ∨ Word w cs := by
  constructor
  · rintro ⟨h1, h2, a, b, h3, h4, h5⟩
    rw [List.append_assoc, List.append_eq_append_iff] at h3
    rcases h3 with ⟨a', ha, hb⟩ | ⟨x', hx1, hx2⟩
    · -- a = x ++ a'
      cases a' with
      | nil =>
        -- w begins with c
        cases w with
        | nil => exact absurd rfl h1
        | cons y w =>
          simp only [List.nil_append, List.cons_append, List.cons.injEq] at hb
          have := h2 y (by simp)
          rw [← hb.1, hc] at this
          simp at this
      | cons y a' =>
        simp only [List.cons_append, List.cons.injEq] at hb
        obtain ⟨rfl, rfl⟩ := hb
        right
        refine ⟨h1, h2, a', b, by rw [List.append_assoc], ?_, h5⟩
        rcases h4 with h4 | ⟨q, z, h4, hz⟩
        · rw [ha] at h4; simp at h4
        · cases hr : a'.reverse with
          | nil => left; simpa using hr
          | cons z' q' =>
            right
            have ha' : a' = q'.reverse ++ [z'] := by
              have := congrArg List.reverse hr
              simpa using this
            refine ⟨q'.reverse, z', ha', ?_⟩
            rw [ha, ha'] at h4
            have h6 : x ++ c :: (q'.reverse ++ [z']) = (x ++ c :: q'.reverse) ++ [z'] := by simp
            rw [h6] at h4
            have := List.append_inj' h4 rfl
            simp only [List.cons.injEq, and_true] at this
            rw [this.2]; exact hz
    · -- x = a ++ x'
      have ha : a = [] := by
        rcases h4 with h4 | ⟨q, z, h4, hz⟩
        · exact h4
        · have := hx z (by rw [hx1, h4]; simp)
          rw [hz] at this
          simp at this
      subst ha
      simp only [List.nil_append] at hx1
      subst hx1
      -- w ++ b = x ++ c :: cs
      rw [List.append_eq_append_iff] at hx2
      rcases hx2 with ⟨u, hu1, hu2⟩ | ⟨u, hu1, hu2⟩
      · left
        rcases h5 with h5 | ⟨z, q, h5, hz⟩
        · rw [h5] at hu2; simp at hu2
        · cases u with
          | nil => exact ⟨by simpa using hu1.symm, fun e => h1 (by rw [e] at hu1; simpa using hu1.symm)⟩
          | cons y u =>
            rw [h5] at hu2
            simp only [List.cons_append, List.cons.injEq] at hu2
            have := hx y (by rw [hu1]; simp)
            rw [← hu2.1, hz] at this
            simp at this
      · cases u with
        | nil =>
          left
          simp only [List.append_nil] at hu1
          exact ⟨hu1, fun e => h1 (by rw [hu1, e])⟩
        | cons y u =>
          simp only [List.cons_append, List.cons.injEq] at hu2
          have := h2 y (by rw [hu1]; simp)
          rw [← hu2.1, hc] at this
          simp at this
  · rintro (⟨rfl, h⟩ | ⟨h1, h2, a, b, rfl, h4, h5⟩)
    · exact ⟨h, hx, [], c :: cs, by simp, .inl rfl, .inr ⟨c, cs, rfl, hc⟩⟩
    · refine ⟨h1, h2, x ++ c :: a, b, by simp, .inr ?_, h5⟩
      rcases h4 with rfl | ⟨q, z, rfl, hz⟩
      · exact ⟨x, c, by simp, hc⟩
      · exact ⟨x ++ c :: q, z, by simp, hz⟩

theorem word_end {x : Str} (hx : ∀ y ∈ x, rustWhitespace y = false) (w : Str) : Word w x ↔ w = x ∧ x ≠ [] := by
  constructor
  · rintro ⟨h1, h2, a, b, rfl, h4, h5⟩
    have ha : a = [] := by
      rcases h4 with h4 | ⟨q, z, rfl, hz⟩
      · exact h4
      · have := hx z (by simp); rw [hz] at this; simp at this
    have hb : b = [] := by
      rcases h5 with h5 | ⟨z, q, rfl, hz⟩
      · exact h5
      · have := hx z (by simp); rw [hz] at this; simp at this
    subst ha hb
    exact ⟨by simp, by simpa using h1⟩
  · rintro ⟨rfl, h⟩
    exact ⟨h, hx, [], [], by simp, .inl rfl, .inl rfl⟩

theorem mem_wordsGo (w : Str) (cur s : Str) (hc : ∀ y ∈ cur, rustWhitespace y = false) :
    w ∈ wordsGo cur s ↔ Word w (cur.reverse ++ s) := by
  induction s generalizing cur with
  | nil =>
    rw [List.append_nil, word_end (by simpa using hc), wordsGo]
    cases cur with
    | nil => simp
    | cons a l => simp
  | cons c s ih =>
    rw [wordsGo]
    by_cases h : rustWhitespace c = true
    · rw [if_pos h, word_split (by simpa using hc) h]
      have ih' := ih [] (by simp)
      simp only [List.reverse_nil, List.nil_append] at ih'
      cases cur with
      | nil => simp [ih']
      | cons a l => simp [ih']
    · rw [if_neg h, ih (c :: cur) (by
        intro y hy
        rcases List.mem_cons.1 hy with rfl | hy
        · simpa using h
        · exact hc y hy)]
      simp

/-- The entry runs the command. -/
def Same (cmd : Option Str) (entry : Str) : Prop :=
  ∃ c, cmd = some c ∧ (entry = c ∨ (c ++ [' ']) <+: entry)

/-- What an entry of the history is worth to a candidate: 10, and 500 more if it runs the same
command, if the text is one of its words. -/
def worth (cmd : Option Str) (text entry : Str) (w : Nat) : Prop :=
  (Word text entry ∧ Same cmd entry ∧ w = 510) ∨ (Word text entry ∧ ¬ Same cmd entry ∧ w = 10) ∨ (¬ Word text entry ∧ w = 0)

theorem bonus_same (cmd : Option Str) (entry : Str) :
    (Same cmd entry ∧ bonus cmd entry = 500) ∨ (¬ Same cmd entry ∧ bonus cmd entry = 0) := by
  cases cmd with
  | none => right; exact ⟨by rintro ⟨c, h, _⟩; simp at h, rfl⟩
  | some c =>
    have hiff : Same (some c) entry ↔ (entry == c || (c ++ [' ']).isPrefixOf entry) = true := by
      rw [Bool.or_eq_true, beq_iff_eq, List.isPrefixOf_iff_prefix]
      constructor
      · rintro ⟨d, h1, h2⟩; simp at h1; rw [h1]; exact h2
      · intro h; exact ⟨c, rfl, h⟩
    by_cases h : (entry == c || (c ++ [' ']).isPrefixOf entry) = true
    · left; exact ⟨hiff.2 h, by rw [bonus, if_pos h]⟩
    · right; exact ⟨fun hs => h (hiff.1 hs), by rw [bonus, if_neg h]⟩

theorem mem_distinct (seen ws : List Str) (w : Str) : w ∈ distinct seen ws ↔ w ∈ ws ∧ w ∉ seen := by
  induction ws generalizing seen with
  | nil => simp [distinct]
  | cons x ws ih =>
    rw [distinct]
    split
    · next h =>
      have hx : x ∈ seen := by simpa using h
      rw [ih]
      constructor
      · rintro ⟨h1, h2⟩; exact ⟨List.mem_cons_of_mem _ h1, h2⟩
      · rintro ⟨h1, h2⟩
        rcases List.mem_cons.1 h1 with rfl | h1
        · exact absurd hx h2
        · exact ⟨h1, h2⟩
    · next h =>
      have hx : x ∉ seen := by simpa using h
      rw [List.mem_cons, ih]
      constructor
      · rintro (rfl | ⟨h1, h2⟩)
        · exact ⟨by simp, hx⟩
        · exact ⟨List.mem_cons_of_mem _ h1, fun h3 => h2 (List.mem_cons_of_mem _ h3)⟩
      · rintro ⟨h1, h2⟩
        by_cases he : w = x
        · exact .inl he
        · right
          rcases List.mem_cons.1 h1 with h1 | h1
          · exact absurd h1 he
          · exact ⟨h1, by simp [he, h2]⟩

theorem nodup_distinct (seen ws : List Str) : (distinct seen ws).Nodup := by
  induction ws generalizing seen with
  | nil => simp [distinct]
  | cons x ws ih =>
    rw [distinct]
    split
    · exact ih _
    · rw [List.nodup_cons]
      exact ⟨fun h => ((mem_distinct _ _ _).1 h).2 (by simp), ih _⟩

/-- One candidate: what an entry adds to its score. -/
def step (c : Cand) (cmd : Option Str) (s : Nat) (entry : Str) : Nat :=
  if c.counts && (wordsGo [] entry).contains c.text && !decide (cap < s) then s + (10 + bonus cmd entry) else s

theorem token_len {cands : List Cand} {add : Nat} {scores : List Nat} (h : scores.length = cands.length) (w : Str) :
    (token cands add scores w).length = cands.length := by
  simp [token, h]

theorem tokens_get (cands : List Cand) (add : Nat) (ws : List Str) (hn : ws.Nodup) (scores : List Nat)
    (h : scores.length = cands.length) (i : Nat) (c : Cand) (s : Nat) (hc : cands[i]? = some c) (hs : scores[i]? = some s) :
    (ws.foldl (token cands add) scores).length = cands.length ∧
    (ws.foldl (token cands add) scores)[i]? =
      some (if c.counts && ws.contains c.text && !decide (cap < s) then s + add else s) := by
  induction ws generalizing scores s with
  | nil => simp [h, hs]
  | cons w ws ih =>
    rw [List.nodup_cons] at hn
    have hg : (token cands add scores w)[i]? = some (if c.counts && c.text == w && !decide (cap < s) then s + add else s) := by
      simp [token, List.getElem?_zipWith, hc, hs]
    obtain ⟨h1, h2⟩ := ih hn.2 _ (token_len h w) _ hg
    rw [List.foldl_cons]
    refine ⟨h1, ?_⟩
    rw [h2]
    congr 1
    by_cases hw : c.text = w
    · have hnw : ws.contains c.text = false := by rw [hw]; simpa using hn.1
      have hcw : (w :: ws).contains c.text = true := by rw [hw]; simp
      rw [hnw, hcw]
      simp [hw]
    · have hcw : (w :: ws).contains c.text = ws.contains c.text := by simp [hw]
      rw [hcw]
      have hb : (c.text == w) = false := by simpa using hw
      rw [hb]
      simp

theorem boostGo_get (cands : List Cand) (cmd : Option Str) (es : List Str) (scores : List Nat)
    (h : scores.length = cands.length) (i : Nat) (c : Cand) (s : Nat) (hc : cands[i]? = some c) (hs : scores[i]? = some s) :
    (boostGo cands cmd es scores)[i]? = some (es.foldl (step c cmd) s) := by
  induction es generalizing scores s with
  | nil => simpa [boostGo] using hs
  | cons e es ih =>
    obtain ⟨h1, h2⟩ := tokens_get cands (10 + bonus cmd e) (distinct [] (wordsGo [] e)) (nodup_distinct _ _) scores h i c s hc hs
    have hcon : (distinct [] (wordsGo [] e)).contains c.text = (wordsGo [] e).contains c.text := by
      rw [Bool.eq_iff_iff, List.contains_iff_mem, List.contains_iff_mem, mem_distinct]
      simp
    rw [hcon] at h2
    rw [boostGo, List.foldl_cons]
    split
    · next hcap =>
      rw [h2]
      -- nothing changes any more
      have hdone : c.counts = false ∨ cap < step c cmd s e := by
        rw [allCapped, List.all_eq_true] at hcap
        have := hcap (!c.counts || decide (cap < step c cmd s e)) (by
          apply List.mem_of_getElem? (i := i)
          rw [List.getElem?_zipWith, hc, h2]
          rfl)
        simp only [id, Bool.or_eq_true, Bool.not_eq_true', decide_eq_true_eq] at this
        exact this
      have fix : ∀ (es : List Str) (v : Nat), c.counts = false ∨ cap < v → es.foldl (step c cmd) v = v := by
        intro es
        induction es with
        | nil => intros; rfl
        | cons e es ih2 =>
          intro v hv
          have hstep : step c cmd v e = v := by
            rcases hv with hv | hv <;> simp [step, hv]
          rw [List.foldl_cons, hstep]
          exact ih2 v hv
      rw [fix es _ hdone]
      rfl
    · exact ih _ h1 _ h2

/-- The score of one candidate by itself: the worth of the last 2000 entries, newest first, until it
exceeds the limit. -/
inductive Score (cmd : Option Str) (text : Str) : List Str → Nat → Nat → Prop
  | done (s) : Score cmd text [] s s
  | full {e es s} : 5000 < s → Score cmd text (e :: es) s s
  | add {e es s w r} : s ≤ 5000 → worth cmd text e w → Score cmd text es (s + w) r → Score cmd text (e :: es) s r

theorem score_fold (c : Cand) (cmd : Option Str) (hc : c.counts = true) (es : List Str) (s : Nat) :
    Score cmd c.text es s (es.foldl (step c cmd) s) := by
  induction es generalizing s with
  | nil => exact .done s
  | cons e es ih =>
    by_cases h : 5000 < s
    · have fix : ∀ (es : List Str), es.foldl (step c cmd) s = s := by
        intro es
        induction es with
        | nil => rfl
        | cons e es ih2 =>
          have : step c cmd s e = s := by simp [step, cap, h]
          rw [List.foldl_cons, this, ih2]
      rw [fix]
      exact .full h
    · rw [List.foldl_cons]
      by_cases hw : Word c.text e
      · have hm : (wordsGo [] e).contains c.text = true := by
          rw [List.contains_iff_mem, mem_wordsGo _ _ _ (by simp)]
          simpa using hw
        have hs : step c cmd s e = s + (10 + bonus cmd e) := by
          simp only [step, hc, hm, cap]; simp [h]
        rw [hs]
        refine .add (by omega) ?_ (ih _)
        rcases bonus_same cmd e with ⟨h1, h2⟩ | ⟨h1, h2⟩
        · exact .inl ⟨hw, h1, by omega⟩
        · exact .inr (.inl ⟨hw, h1, by omega⟩)
      · have hm : (wordsGo [] e).contains c.text = false := by
          rw [Bool.eq_false_iff]
          intro hm
          rw [List.contains_iff_mem, mem_wordsGo _ _ _ (by simp)] at hm
          exact hw (by simpa using hm)
        have hs : step c cmd s e = s + 0 := by
          simp only [step, hm]; simp
        rw [hs]
        exact .add (by omega) (.inr (.inr ⟨hw, rfl⟩)) (ih _)

theorem score_unique {cmd : Option Str} {text : Str} {es : List Str} {s r r' : Nat} (h : Score cmd text es s r)
    (h' : Score cmd text es s r') : r = r' := by
  induction h with
  | done s => cases h'; rfl
  | full hs =>
    cases h' with
    | full _ => rfl
    | add h1 _ _ => omega
  | add h1 h2 h3 ih =>
    cases h' with
    | full h4 => omega
    | add h4 h5 h6 =>
      have : ∀ e w w', worth cmd text e w → worth cmd text e w' → w = w' := by
        intro e w w' a b
        unfold worth at a b
        grind
      rw [this _ _ _ h5 h2] at h6
      exact ih h6

/-- C101: for all candidates and histories, the score of a candidate is that of its own text, whatever
the other candidates; files and directories get none. -/
theorem C101_boost (cands : List Cand) (hist : List Str) (cmd : Option Str) (i : Nat) (c : Cand) (hc : cands[i]? = some c) :
    ∃ r, (boosts cands hist cmd)[i]? = some r ∧
      (c.ty ≠ .file → c.ty ≠ .directory → ∀ r', Score cmd c.text (hist.take 2000) 0 r' ↔ r' = r) ∧
      (c.ty = .file ∨ c.ty = .directory → r = 0) := by
  have hz : (cands.map fun _ => 0)[i]? = some 0 := by simp [hc]
  have hmem : c ∈ cands := List.mem_of_getElem? hc
  refine ⟨if c.counts then (hist.take 2000).foldl (step c cmd) 0 else 0, ?_, ?_, ?_⟩
  · simp only [boosts]
    split
    · rw [boostGo_get cands cmd _ _ (by simp) i c 0 hc hz]
      congr 1
      split
      · rfl
      · next h =>
        have h : c.counts = false := by simpa using h
        have fix : ∀ (es : List Str), es.foldl (step c cmd) 0 = 0 := by
          intro es
          induction es with
          | nil => rfl
          | cons e es ih =>
            have : step c cmd 0 e = 0 := by simp [step, h]
            rw [List.foldl_cons, this, ih]
        exact fix _
    · next h =>
      have : c.counts = false := by
        rw [Bool.eq_false_iff]
        intro h'
        exact h (List.any_eq_true.2 ⟨c, hmem, h'⟩)
      rw [hz, this]
      rfl
  · intro hf hd r'
    have h : c.counts = true := by simp [Cand.counts, hf, hd]
    rw [if_pos h]
    constructor
    · intro hs
      exact score_unique hs (score_fold c cmd h _ 0)
    · rintro rfl
      exact score_fold c cmd h _ 0
  · intro h
    rw [if_neg]
    rcases h with h | h <;> simp [Cand.counts, h]

/-- An example: a used option moves before one of higher priority; a file is not moved. -/
def exCands : List Cand := [⟨c!"push", .subCommand, 100⟩, ⟨c!"pull", .subCommand, 95⟩, ⟨c!"pull", .file, 120⟩, ⟨c!"add", .subCommand, 100⟩]

example : boosts exCands [c!"git pull  origin pull", c!"ls"] (some c!"git") = [0, 510, 0, 0] ∧
    rank exCands (boosts exCands [c!"git pull  origin pull", c!"ls"] (some c!"git")) 2 =
      [⟨c!"pull", .subCommand, 605⟩, ⟨c!"add", .subCommand, 100⟩] := by decide +kernel

end Dsh.Rank
