import Verif.Repl.Paint
import Verif.Parse.Props
/-!
C153: the line is drawn as typed. C154: what the colours say.
-/
namespace Dsh.Paint
open Dsh.Peg Dsh.Shell Dsh.Tokens

/-! ### The matcher with positions is the matcher -/

/-- Forget the positions. -/
def erase (whole : Str) : LPair → Pair R
  | .mk r a b ps => .mk r ((whole.drop a).take (b - a)) (ps.map (erase whole))

/-- The two matchers agree. -/
inductive Agree (whole i : Str) : Option LOut → Option (Out R) → Prop
  | none : Agree whole i none none
  | fail : Agree whole i (some .fail) (some .fail)
  | ok {ps c rest} : i = c ++ rest →
      Agree whole i (some (.ok ps c.length rest)) (some (.ok (ps.map (erase whole)) c rest))

theorem agree (whole : Str) : ∀ (n : Nat) (e : PExp R) (pre i : Str), whole = pre ++ i →
    Agree whole i (runL n e pre.length i) (run G n e i) := by
  intro n
  induction n with
  | zero => intro e pre i _; exact .none
  | succ n ih =>
    intro e pre i hw
    have next : ∀ {c r : Str}, i = c ++ r → whole = (pre ++ c) ++ r ∧ (pre ++ c).length = pre.length + c.length := by
      intro c r h; exact ⟨by rw [hw, h, List.append_assoc], by simp⟩
    cases e with
    | any => cases i with
      | nil => exact .fail
      | cons c r => exact Agree.ok (c := [c]) (ps := []) rfl
    | str s =>
      simp only [runL, run]
      cases h : stripPre s i with
      | none => exact .fail
      | some r => exact Agree.ok (ps := []) (stripPre_eq h)
    | seq a b =>
      simp only [runL, run]
      have h1 := ih a pre i hw
      revert h1
      generalize runL n a pre.length i = x
      generalize run G n a i = y
      intro h1
      cases h1 with
      | none => exact .none
      | fail => exact .fail
      | @ok p1 c1 r1 e1 =>
        obtain ⟨hw2, hl⟩ := next e1
        have h2 := ih b (pre ++ c1) r1 hw2
        rw [hl] at h2
        simp only
        revert h2
        generalize runL n b (pre.length + c1.length) r1 = x2
        generalize run G n b r1 = y2
        intro h2
        cases h2 with
        | none => exact .none
        | fail => exact .fail
        | @ok p2 c2 r2 e2 =>
          have := Agree.ok (whole := whole) (i := i) (ps := p1 ++ p2) (c := c1 ++ c2) (rest := r2) (by rw [e1, e2, List.append_assoc])
          simpa using this
    | alt a b =>
      simp only [runL, run]
      have h1 := ih a pre i hw
      revert h1
      generalize runL n a pre.length i = x
      generalize run G n a i = y
      intro h1
      cases h1 with
      | none => exact .none
      | fail => exact ih b pre i hw
      | ok e1 => exact .ok e1
    | star a =>
      simp only [runL, run]
      have h1 := ih a pre i hw
      revert h1
      generalize runL n a pre.length i = x
      generalize run G n a i = y
      intro h1
      cases h1 with
      | none => exact .none
      | fail => exact Agree.ok (c := []) (ps := []) rfl
      | @ok p1 c1 r1 e1 =>
        obtain ⟨hw2, hl⟩ := next e1
        have h2 := ih (.star a) (pre ++ c1) r1 hw2
        rw [hl] at h2
        simp only
        revert h2
        generalize runL n (.star a) (pre.length + c1.length) r1 = x2
        generalize run G n (.star a) r1 = y2
        intro h2
        cases h2 with
        | none => exact .none
        | fail => exact .fail
        | @ok p2 c2 r2 e2 =>
          have := Agree.ok (whole := whole) (i := i) (ps := p1 ++ p2) (c := c1 ++ c2) (rest := r2) (by rw [e1, e2, List.append_assoc])
          simpa using this
    | opt a =>
      simp only [runL, run]
      have h1 := ih a pre i hw
      revert h1
      generalize runL n a pre.length i = x
      generalize run G n a i = y
      intro h1
      cases h1 with
      | none => exact .none
      | fail => exact Agree.ok (c := []) (ps := []) rfl
      | ok e1 => exact .ok e1
    | neg a =>
      simp only [runL, run]
      have h1 := ih a pre i hw
      revert h1
      generalize runL n a pre.length i = x
      generalize run G n a i = y
      intro h1
      cases h1 with
      | none => exact .none
      | fail => exact Agree.ok (c := []) (ps := []) rfl
      | ok e1 => exact .fail
    | rule r =>
      simp only [runL, run]
      have h1 := ih (body r) pre i hw
      rw [show G.body r = body r from rfl]
      revert h1
      generalize runL n (body r) pre.length i = x
      generalize run G n (body r) i = y
      intro h1
      cases h1 with
      | none => exact .none
      | fail => exact .fail
      | @ok ps c rest e1 =>
        have := Agree.ok (whole := whole) (i := i) (ps := wrapL r ps pre.length c.length) (c := c) (rest := rest) e1
        simp only
        have hm : (wrapL r ps pre.length c.length).map (erase whole) = G.wrap r (ps.map (erase whole)) c := by
          unfold wrapL Grammar.wrap
          show _ = if silent r then _ else _
          split
          · rfl
          · simp [erase, hw, e1]
        rwa [hm] at this

/-- With positions forgotten the parse is the one all other theorems are about. -/
theorem parseL_parse (input : Str) : Agree input input (some (parseL input)) (some (parseCommands input)) := by
  have h := agree input (wf.fuel input.length wf.top 1) (.rule .commands) [] input rfl
  have ht := run_total wf (wf.fuel input.length wf.top 1) (.rule .commands) input wf.top (Nat.le_refl _)
    (okAt_top wf _) rfl (by simp [PExp.size])
  unfold parseL parseCommands parse
  simp only [List.length_nil] at h
  revert h ht
  generalize runL _ _ 0 input = x
  generalize run G _ _ input = y
  intro h ht
  cases h with
  | none => exact absurd rfl ht
  | fail => exact .fail
  | ok e => exact .ok e

/-- No line is rejected by the grammar. -/
theorem parse_never_fails (input : Str) : parseCommands input ≠ .fail := by
  intro h
  have hp := parse_spec wf .commands input
  have h' : parse wf .commands input = .fail := h
  rw [h'] at hp
  have starN : ∀ {a : PExp R} {i}, ¬ Parses G (.star a) i .fail := star_not_fail
  have cmd : ∀ i, ¬ Parses G (.rule .command) i .fail := by
    intro i hc
    cases hc with
    | rule_fail hc =>
      simp only [G, body, PExp.seqs] at hc
      cases hc with
      | seq_fail1 h => exact starN h
      | seq_fail2 _ h =>
        cases h with
        | seq_fail1 h => exact starN h
        | seq_fail2 _ h =>
          cases h with
          | seq_fail1 h => exact starN h
          | seq_fail2 _ h => cases h
  cases hp with
  | rule_fail hp =>
    simp only [G, body] at hp
    cases hp with
    | seq_fail1 h =>
      cases h with
      | seq_fail1 h => exact starN h
      | seq_fail2 _ h => exact cmd _ h
    | seq_fail2 _ h => exact starN h

/-! ### Positions are in order -/

mutual
/-- The inner pairs of a pair are inside of it, in order, and do not overlap. -/
def LPair.Ok : LPair → Prop
  | .mk _ a b ps => OkAll a b ps
/-- Pairs in order between two positions. -/
def OkAll : Nat → Nat → List LPair → Prop
  | lo, hi, [] => lo ≤ hi
  | lo, hi, p :: ps => lo ≤ p.start ∧ p.Ok ∧ OkAll p.stop hi ps
end

theorem OkAll.le : ∀ {ps : List LPair} {lo hi}, OkAll lo hi ps → lo ≤ hi
  | [], lo, hi, h => by simpa [OkAll] using h
  | .mk r a b inner :: ps, lo, hi, h => by
    simp only [OkAll, LPair.Ok, LPair.start, LPair.stop] at h
    have h1 := OkAll.le h.2.1
    have h2 := OkAll.le h.2.2
    omega

theorem OkAll.append {lo mid hi} : ∀ {ps qs : List LPair}, OkAll lo mid ps → OkAll mid hi qs → OkAll lo hi (ps ++ qs)
  | [], qs, h1, h2 => by
    simp only [OkAll] at h1
    cases qs with
    | nil => simp only [List.nil_append, OkAll] at h2 ⊢; omega
    | cons q qs =>
      simp only [List.nil_append, OkAll] at h2 ⊢
      exact ⟨by omega, h2.2⟩
  | p :: ps, qs, h1, h2 => by
    simp only [List.cons_append, OkAll] at h1 ⊢
    exact ⟨h1.1, h1.2.1, OkAll.append h1.2.2 h2⟩

theorem placed : ∀ (n : Nat) (e : PExp R) (p : Nat) (i : Str) ps k r,
    runL n e p i = some (.ok ps k r) → OkAll p (p + k) ps := by
  intro n
  induction n with
  | zero => intro e p i ps k r h; simp [runL] at h
  | succ n ih =>
    intro e p i ps k r h
    cases e with
    | any => cases i with
      | nil => simp [runL] at h
      | cons c r => simp only [runL, Option.some.injEq, LOut.ok.injEq] at h; obtain ⟨rfl, rfl, _⟩ := h; simp [OkAll]
    | str s =>
      simp only [runL] at h
      split at h
      · simp only [Option.some.injEq, LOut.ok.injEq] at h; obtain ⟨rfl, rfl, _⟩ := h; simp [OkAll]
      · simp at h
    | seq a b =>
      simp only [runL] at h
      split at h
      · simp at h
      · simp at h
      · next h1 =>
        split at h
        · simp at h
        · simp at h
        · next h2 =>
          simp only [Option.some.injEq, LOut.ok.injEq] at h
          obtain ⟨rfl, rfl, _⟩ := h
          have := (ih _ _ _ _ _ _ h1).append (ih _ _ _ _ _ _ h2)
          rwa [Nat.add_assoc] at this
    | alt a b =>
      simp only [runL] at h
      split at h
      · simp at h
      · next h1 =>
        simp only [Option.some.injEq, LOut.ok.injEq] at h
        obtain ⟨rfl, rfl, _⟩ := h
        exact ih _ _ _ _ _ _ h1
      · exact ih _ _ _ _ _ _ h
    | star a =>
      simp only [runL] at h
      split at h
      · simp at h
      · simp only [Option.some.injEq, LOut.ok.injEq] at h; obtain ⟨rfl, rfl, _⟩ := h; simp [OkAll]
      · next h1 =>
        split at h
        · simp at h
        · simp at h
        · next h2 =>
          simp only [Option.some.injEq, LOut.ok.injEq] at h
          obtain ⟨rfl, rfl, _⟩ := h
          have := (ih _ _ _ _ _ _ h1).append (ih _ _ _ _ _ _ h2)
          rwa [Nat.add_assoc] at this
    | opt a =>
      simp only [runL] at h
      split at h
      · simp at h
      · simp only [Option.some.injEq, LOut.ok.injEq] at h; obtain ⟨rfl, rfl, _⟩ := h; simp [OkAll]
      · next h1 =>
        simp only [Option.some.injEq, LOut.ok.injEq] at h
        obtain ⟨rfl, rfl, _⟩ := h
        exact ih _ _ _ _ _ _ h1
    | neg a =>
      simp only [runL] at h
      split at h
      · simp at h
      · simp only [Option.some.injEq, LOut.ok.injEq] at h; obtain ⟨rfl, rfl, _⟩ := h; simp [OkAll]
      · simp at h
    | rule q =>
      simp only [runL] at h
      split at h
      · simp at h
      · simp at h
      · next h1 =>
        simp only [Option.some.injEq, LOut.ok.injEq] at h
        obtain ⟨rfl, rfl, _⟩ := h
        have := ih _ _ _ _ _ _ h1
        unfold wrapL
        split
        · exact this
        · exact ⟨Nat.le_refl _, this, Nat.le_refl _⟩

/-- Tokens in order between two positions, none empty. -/
def Chain : Nat → Nat → List Token → Prop
  | lo, hi, [] => lo ≤ hi
  | lo, hi, t :: ts => lo ≤ t.start ∧ t.start < t.stop ∧ Chain t.stop hi ts

theorem Chain.le : ∀ {ts : List Token} {lo hi}, Chain lo hi ts → lo ≤ hi
  | [], _, _, h => h
  | t :: ts, lo, hi, h => by
    have := Chain.le h.2.2
    have := h.1
    have := h.2.1
    omega

theorem Chain.append {lo mid hi} : ∀ {ts us : List Token}, Chain lo mid ts → Chain mid hi us → Chain lo hi (ts ++ us)
  | [], us, h1, h2 => by
    simp only [Chain] at h1
    cases us with
    | nil => simp only [List.nil_append, Chain] at h2 ⊢; omega
    | cons u us => exact ⟨Nat.le_trans h1 h2.1, h2.2⟩
  | t :: ts, us, h1, h2 => ⟨h1.1, h1.2.1, Chain.append h1.2.2 h2⟩

theorem Chain.low {lo lo' hi} : ∀ {ts : List Token}, lo' ≤ lo → Chain lo hi ts → Chain lo' hi ts
  | [], h, h1 => Nat.le_trans h h1
  | _ :: _, h, h1 => ⟨Nat.le_trans h h1.1, h1.2⟩

theorem chain_pushed {a b : Nat} (h : a ≤ b) (k : Kind) : Chain a b (pushed a b k) := by
  unfold pushed
  split
  · exact h
  · exact ⟨Nat.le_refl _, (by show a < b; omega), Nat.le_refl _⟩

mutual
theorem chain_collect (ctx : Ctx) : ∀ p : LPair, p.Ok → Chain p.start p.stop (collect ctx p)
  | .mk r a b ps, h => by
    have hi : ∀ c, Chain a b (collectAll c ps) := fun c => chain_collectAll c ps a b h
    have hp : ∀ k, Chain a b (pushed a b k) := fun k => chain_pushed (OkAll.le h) k
    show Chain a b _
    unfold collect
    split <;> first | exact hi _ | exact hp _
theorem chain_collectAll (ctx : Ctx) : ∀ (ps : List LPair) (lo hi : Nat), OkAll lo hi ps → Chain lo hi (collectAll ctx ps)
  | [], lo, hi, h => by simpa [collectAll, OkAll, Chain] using h
  | p :: ps, lo, hi, h => by
    simp only [OkAll] at h
    simp only [collectAll]
    exact (Chain.low h.1 (chain_collect ctx p h.2.1)).append (chain_collectAll ctx ps _ _ h.2.2)
end

/-! ### Ranges -/

/-- Ranges inside the line, in order, not empty, not overlapping. -/
def Good (len : Nat) (rs : List Range) : Prop :=
  (∀ r ∈ rs, r.1 < r.2.1 ∧ r.2.1 ≤ len) ∧ rs.Pairwise (fun r s => r.2.1 ≤ s.1)

theorem chain_mem {ts : List Token} : ∀ {lo hi}, Chain lo hi ts → ∀ t ∈ ts, lo ≤ t.start ∧ t.start < t.stop ∧ t.stop ≤ hi := by
  induction ts with
  | nil => intro lo hi _ t ht; cases ht
  | cons u ts ih =>
    intro lo hi h t ht
    rcases List.mem_cons.1 ht with rfl | ht
    · exact ⟨h.1, h.2.1, h.2.2.le⟩
    · have := ih h.2.2 t ht
      have := h.1
      have := h.2.1
      omega

theorem chain_pairwise {ts : List Token} : ∀ {lo hi}, Chain lo hi ts → ts.Pairwise (fun a b => a.stop ≤ b.start) := by
  induction ts with
  | nil => intros; exact .nil
  | cons u ts ih => intro lo hi h; exact .cons (fun t ht => (chain_mem h.2.2 t ht).1) (ih h.2.2)

theorem chain_inOrder : ∀ {ts : List Token} {lo hi}, Chain lo hi ts → inOrder ts = true
  | [], _, _, _ => rfl
  | [_], _, _, _ => rfl
  | a :: b :: l, lo, hi, h => by
    have h1 := h.2.1
    have h2 := h.2.2.1
    simp only [inOrder, Bool.and_eq_true, decide_eq_true_eq]
    exact ⟨by omega, chain_inOrder h.2.2⟩

theorem good_rangesOf (f : Facts) (input : Str) {ts : List Token} {hi} (h : Chain 0 hi ts) :
    Good input.length (rangesOf f input ts) := by
  unfold rangesOf
  simp only [chain_inOrder h, if_true]
  refine ⟨?_, ?_⟩
  · intro r hr
    obtain ⟨t, ht, rfl⟩ := List.mem_map.1 hr
    have := (List.mem_filter.1 ht).2
    simpa using this
  · rw [List.pairwise_map]
    exact (chain_pairwise h).filter _

theorem good_markPaths (f : Facts) (input : Str) {rs : List Range} (h : Good input.length rs) :
    Good input.length (markPaths f input rs) := by
  have h1 : ∀ r : Range, (if pathLike r.2.2 && f.path ((slice input r.1 r.2.1).getD []) then (r.1, r.2.1, Colour.path) else r).1 = r.1 := by
    intro r; split <;> rfl
  have h2 : ∀ r : Range, (if pathLike r.2.2 && f.path ((slice input r.1 r.2.1).getD []) then (r.1, r.2.1, Colour.path) else r).2.1 = r.2.1 := by
    intro r; split <;> rfl
  unfold markPaths
  refine ⟨?_, ?_⟩
  · intro r hr
    obtain ⟨t, ht, rfl⟩ := List.mem_map.1 hr
    rw [h1, h2]; exact h.1 t ht
  · rw [List.pairwise_map]
    refine h.2.imp ?_
    intro a b hab
    rw [h1, h2]; exact hab

theorem tailRange_ok (f : Facts) (input : Str) {a b k} (h : tailRange f input = some (a, b, k)) :
    a < b ∧ b ≤ input.length ∧ k = .path ∧ f.path ((input.drop a).take (b - a)) = true ∧ b = input.length := by
  unfold tailRange at h
  split at h
  · cases h
  · next t ht =>
    split at h
    · cases h
    · split at h
      · next hp =>
        simp only [Option.some.injEq, Prod.mk.injEq] at h
        obtain ⟨rfl, rfl, rfl⟩ := h
        obtain ⟨hm, h1, h2, _⟩ := (C07_caret input .completionRange input.length).1 t ht
        obtain ⟨x, y, e, hn, e1, e2, _⟩ := C07_slice input .completionRange t hm
        have hlen := List.length_pos_iff.2 hn
        have hl : input.length = x.length + t.raw.length + y.length := by rw [e]; simp only [List.length_append]
        simp only [List.length_append] at e2
        have hs : (input.drop t.start.char).take (t.stop.char - t.start.char) = t.raw := by
          rw [e1, e2, Nat.add_sub_cancel_left]
          conv => lhs; rw [e, List.append_assoc, List.drop_left, List.take_left]
        rw [hs]
        simp only [Nat.min_self] at h2
        exact ⟨by omega, by omega, rfl, hp, by omega⟩
      · cases h

theorem good_addTail (f : Facts) (input : Str) {rs : List Range} (h : Good input.length rs) :
    Good input.length (addTail f input rs) := by
  unfold addTail
  split
  · exact h
  · next a b k ht =>
    obtain ⟨hab, hb, _⟩ := tailRange_ok f input ht
    split
    · exact h
    · next hno =>
      have hno' : ∀ r ∈ rs, b ≤ r.1 ∨ r.2.1 ≤ a := by
        intro r hr
        rcases Nat.lt_or_ge r.1 b with h1 | h1
        · rcases Nat.lt_or_ge a r.2.1 with h2 | h2
          · exact (hno (List.any_eq_true.2 ⟨r, hr, by simp [overlap, h1, h2]⟩)).elim
          · exact .inr h2
        · exact .inl h1
      have hperm := sortBy_perm (fun x y : Range => decide (x.1 ≤ y.1)) (rs ++ [(a, b, k)])
      have hsort := sortBy_sorted (fun x y : Range => decide (x.1 ≤ y.1))
        (by intro a b c; simp only [decide_eq_true_eq]; omega)
        (by intro a b; simp only [Bool.or_eq_true, decide_eq_true_eq]; omega) (rs ++ [(a, b, k)])
      have hall : ∀ r ∈ rs ++ [(a, b, k)], r.1 < r.2.1 ∧ r.2.1 ≤ input.length := by
        intro r hr
        rcases List.mem_append.1 hr with hr | hr
        · exact h.1 r hr
        · rw [List.mem_singleton.1 hr]; exact ⟨hab, hb⟩
      have hdis : (rs ++ [(a, b, k)]).Pairwise (fun r s => r.2.1 ≤ s.1 ∨ s.2.1 ≤ r.1) := by
        refine List.pairwise_append.2 ⟨h.2.imp (fun x => .inl x), by simp, ?_⟩
        intro r hr s hs
        rw [List.mem_singleton.1 hs]
        exact (hno' r hr).symm
      have hdis' := (hperm.pairwise_iff (fun {x y} hxy => hxy.symm)).2 hdis
      refine ⟨fun r hr => hall r (hperm.mem_iff.1 hr), ?_⟩
      have hboth := List.Pairwise.and hsort hdis'
      refine List.Pairwise.imp_of_mem ?_ hboth
      intro x y hx hy hxy
      have h1 := hall x (hperm.mem_iff.1 hx)
      have h2 := hall y (hperm.mem_iff.1 hy)
      have := hxy.1
      simp only [decide_eq_true_eq] at this
      rcases hxy.2 with h | h
      · exact h
      · omega

theorem good_analyze (f : Facts) (input : Str) {rs} (h : analyze f input = some rs) : Good input.length rs := by
  unfold analyze at h
  split at h
  · cases h
  · split at h
    · next ps k rest hp =>
      simp only [Option.some.injEq] at h
      subst h
      have : ∃ n, runL n (.rule .commands) 0 input = some (.ok ps k rest) := by
        unfold parseL at hp
        refine ⟨wf.fuel input.length wf.top 1, ?_⟩
        cases hr : runL (wf.fuel input.length wf.top 1) (.rule .commands) 0 input with
        | none => rw [hr] at hp; cases hp
        | some o => rw [hr] at hp; simp only [Option.getD_some] at hp; rw [hp]
      obtain ⟨n, hn⟩ := this
      exact good_addTail f input (good_markPaths f input (good_rangesOf f input (chain_collectAll .none ps _ _ (placed _ _ _ _ _ _ _ hn))))
    · simp only [Option.some.injEq] at h
      subst h
      cases ht : tailRange f input with
      | none => exact ⟨by simp, by simp⟩
      | some r =>
        obtain ⟨a, b, k⟩ := r
        obtain ⟨hab, hb, _⟩ := tailRange_ok f input ht
        exact ⟨by simp; exact ⟨hab, hb⟩, by simp⟩

/-! ### What is written -/

/-- The characters written, each with its colour (`none` for the end of a line). -/
def cells : List Piece → List (Char × Option Colour)
  | [] => []
  | .text k s :: l => s.map (·, some k) ++ cells l
  | .newline :: l => ('\n', none) :: cells l

/-- A text with a colour for each position. -/
def painted (col : Nat → Colour) : Nat → Str → List (Char × Option Colour)
  | _, [] => []
  | i, c :: cs => (c, if c = '\n' then none else some (col i)) :: painted col (i + 1) cs

/-- The colour of a position. -/
def colourAt (rs : List Range) (i : Nat) : Colour :=
  match rs.find? (fun r => decide (r.1 ≤ i) && decide (i < r.2.1)) with
  | some r => r.2.2
  | none => .plain

theorem cells_append (a b : List Piece) : cells (a ++ b) = cells a ++ cells b := by
  induction a with
  | nil => rfl
  | cons p a ih => cases p <;> simp [cells, ih]

theorem splitNl_ne (s : Str) : splitNl s ≠ [] := by
  cases s with
  | nil => simp [splitNl]
  | cons c cs =>
    simp only [splitNl]
    split
    · simp
    · split <;> simp

theorem cells_pieces (k : Colour) : ∀ (s : Str) (i : Nat), cells (pieces k s) = painted (fun _ => k) i s
  | [], _ => rfl
  | c :: cs, i => by
    have ih := cells_pieces k cs (i + 1)
    unfold pieces at ih ⊢
    simp only [splitNl, painted]
    rw [← ih]
    cases hs : splitNl cs with
    | nil => exact absurd hs (splitNl_ne cs)
    | cons l ls =>
      by_cases hc : c = '\n'
      · simp [hc, cells]
      · simp [hc, cells]

theorem painted_append (col : Nat → Colour) : ∀ (a b : Str) (i : Nat),
    painted col i (a ++ b) = painted col i a ++ painted col (i + a.length) b
  | [], b, i => by simp [painted]
  | c :: a, b, i => by
    simp only [List.cons_append, painted, List.length_cons]
    rw [painted_append col a b (i + 1)]
    congr 3
    omega

theorem painted_congr {col col' : Nat → Colour} : ∀ (s : Str) (i : Nat), (∀ j, i ≤ j → j < i + s.length → col j = col' j) →
    painted col i s = painted col' i s
  | [], _, _ => rfl
  | c :: s, i, h => by
    simp only [painted]
    rw [h i (Nat.le_refl _) (by simp), painted_congr s (i + 1) (fun j h1 h2 => h j (by omega) (by simp; omega))]

theorem map_painted (col : Nat → Colour) : ∀ (s : Str) (i : Nat), (painted col i s).map Prod.fst = s
  | [], _ => rfl
  | c :: s, i => by simp [painted, map_painted col s (i + 1)]

theorem colourAt_plain {rs : List Range} {i : Nat} (h : ∀ r ∈ rs, i < r.1) : colourAt rs i = .plain := by
  unfold colourAt
  rw [List.find?_eq_none.2]
  intro r hr
  have := h r hr
  simp; omega

theorem cut {s : Str} {a b : Nat} (h : a ≤ b) : s.drop a = (s.drop a).take (b - a) ++ s.drop b := by
  conv => lhs; rw [← List.take_append_drop (b - a) (s.drop a)]
  rw [List.drop_drop]
  congr 2
  omega

theorem write_good (s : Str) : ∀ (rs : List Range) (last : Nat), Good s.length rs → (∀ r ∈ rs, last ≤ r.1) → last ≤ s.length →
    ∃ out, write s last rs = some out ∧ cells out = painted (colourAt rs) last (s.drop last)
  | [], last, _, _, hl => by
    have hc : ∀ (t : Str) i, painted (fun _ => Colour.plain) i t = painted (colourAt []) i t :=
      fun t i => painted_congr t i (fun _ _ _ => rfl)
    unfold write
    by_cases h : last < s.length
    · simp only [h, if_true, slice, Nat.le_refl, and_true, hl, Option.map_some]
      refine ⟨_, rfl, ?_⟩
      rw [cells_pieces .plain _ last, ← hc, ← List.length_drop, List.take_length]
    · refine ⟨[], by simp [h], ?_⟩
      rw [List.drop_eq_nil_of_le (by omega)]; rfl
  | (a, b, k) :: rs, last, hg, hlo, hl => by
    have hab := hg.1 (a, b, k) (by simp)
    simp only at hab
    have hla : last ≤ a := hlo (a, b, k) (by simp)
    have hrest : ∀ r ∈ rs, b ≤ r.1 := fun r hr => (List.pairwise_cons.1 hg.2).1 r hr
    have hg' : Good s.length rs := ⟨fun r hr => hg.1 r (by simp [hr]), (List.pairwise_cons.1 hg.2).2⟩
    obtain ⟨out, ho, hcells⟩ := write_good s rs b hg' hrest hab.2
    have hm : max b last = b := by omega
    have hgap : gapOf s last a =
        some (if a > last then pieces .plain ((s.drop last).take (a - last)) else []) := by
      unfold gapOf
      by_cases h : a > last
      · simp only [h, if_true, slice, if_pos (show last ≤ a ∧ a ≤ s.length by omega), Option.map_some]
      · simp only [h, if_false]
    have hhere : slice s a b = some ((s.drop a).take (b - a)) := by
      unfold slice; rw [if_pos (by omega)]
    refine ⟨_, by simp only [write, hgap, hhere, hm, ho, Option.bind_eq_bind, Option.bind_some]; rfl, ?_⟩
    have hgc : cells (if a > last then pieces .plain ((s.drop last).take (a - last)) else []) =
        painted (colourAt ((a, b, k) :: rs)) last ((s.drop last).take (a - last)) := by
      by_cases h : a > last
      · simp only [h, if_true]
        rw [cells_pieces .plain _ last]
        refine painted_congr _ _ (fun j h1 h2 => (colourAt_plain ?_).symm)
        simp only [List.length_take, List.length_drop] at h2
        intro r hr
        rcases List.mem_cons.1 hr with rfl | hr
        · show j < a; omega
        · have := hrest r hr; omega
      · have : a - last = 0 := by omega
        simp [h, this, cells, painted]
    have hlen1 : ((s.drop last).take (a - last)).length = a - last := by
      simp only [List.length_take, List.length_drop]; omega
    have hlen2 : ((s.drop a).take (b - a)).length = b - a := by
      simp only [List.length_take, List.length_drop]; omega
    rw [cells_append, cells_append, hgc, hcells, cells_pieces k _ a]
    conv => rhs; rw [cut hla, cut (s := s) (a := a) (b := b) (by omega)]
    rw [painted_append, painted_append, hlen1, hlen2, show last + (a - last) = a by omega,
      show a + (b - a) = b by omega, List.append_assoc]
    congr 2
    · refine painted_congr _ _ (fun j h1 h2 => ?_)
      rw [hlen2] at h2
      simp [colourAt, show a ≤ j from h1, show j < b by omega]
    · refine painted_congr _ _ (fun j h1 h2 => ?_)
      simp [colourAt, show ¬ j < b by omega]

theorem paint_analyze (f : Facts) (s : Str) : ∃ out, paint s (analyze f s) = some out ∧
    cells out = painted (colourAt ((analyze f s).getD [])) 0 s := by
  cases h : analyze f s with
  | none =>
    refine ⟨_, rfl, ?_⟩
    rw [cells_pieces .plain s 0]
    exact painted_congr _ _ (fun _ _ _ => rfl)
  | some rs =>
    have := write_good s rs 0 (good_analyze f s h) (fun _ _ => Nat.zero_le _) (Nat.zero_le _)
    simpa [paint] using this

/-! ### C153 -/

/-- Colours kept belong to the line that was analyzed. -/
def Fresh (l : Line) : Prop := l.colours = none ∨ l.cached = true ∧ ∃ f, l.colours = analyze f l.last

theorem fresh_step (l : Line) (op : Op) (h : Fresh l) : Fresh (l.step op) := by
  cases op with
  | edit t forget =>
    unfold Line.step
    cases forget with
    | true => exact .inl rfl
    | false => exact h
  | draw reset f =>
    simp only [Line.step]
    split
    · exact .inl rfl
    · split
      · exact h
      · exact .inr ⟨rfl, f, rfl⟩

theorem fresh_after (ops : List Op) : Fresh (after ops) := by
  have : ∀ (ops : List Op) (l : Line), Fresh l → Fresh (ops.foldl Line.step l) := by
    intro ops
    induction ops with
    | nil => intro l h; exact h
    | cons op ops ih => intro l h; exact ih _ (fresh_step l op h)
  exact this ops {} (.inl rfl)

/-- The characters written, without colours. -/
def shown (out : List Piece) : Str := (cells out).map Prod.fst

/-- **C153.** Whatever happened to the line before: drawing it does not fail, and the characters written are exactly the characters of the line. -/
theorem C153_drawn (ops : List Op) (reset : Bool) (f : Facts) :
    ∃ out, (after ops).drawn reset f = some out ∧ shown out = (after ops).text := by
  have hf := fresh_after ops
  generalize after ops = l at hf
  have key : ∀ f', ∃ out, paint l.text (analyze f' l.text) = some out ∧ shown out = l.text := by
    intro f'
    obtain ⟨out, h1, h2⟩ := paint_analyze f' l.text
    exact ⟨out, h1, by rw [shown, h2, map_painted]⟩
  have plain : ∃ out, paint l.text none = some out ∧ shown out = l.text :=
    ⟨_, rfl, by rw [shown, cells_pieces .plain _ 0, map_painted]⟩
  unfold Line.drawn
  simp only [Line.step]
  split
  · exact plain
  · split
    · next hc =>
      simp only [Bool.and_eq_true, decide_eq_true_eq] at hc
      rcases hf with h | ⟨_, f', h⟩
      · rw [h]; exact plain
      · rw [h, hc.1]; exact key f'
    · exact key f

/-! ### C154 -/

mutual
theorem collect_noError (ctx : Ctx) : ∀ (p : LPair), ∀ t ∈ collect ctx p, t.kind ≠ .error
  | .mk r a b ps => by
    have hi : ∀ c, ∀ t ∈ collectAll c ps, t.kind ≠ .error := fun c => collectAll_noError c ps
    have hp : ∀ k : Kind, k ≠ .error → ∀ t ∈ pushed a b k, t.kind ≠ .error := by
      intro k hk t ht
      unfold pushed at ht
      split at ht
      · cases ht
      · rw [List.mem_singleton.1 ht]; exact hk
    have hw : wordKind ctx ≠ .error := by cases ctx <;> decide
    unfold collect
    split <;> first | exact hi _ | exact hp _ (by decide) | exact hp _ hw
theorem collectAll_noError (ctx : Ctx) : ∀ (ps : List LPair), ∀ t ∈ collectAll ctx ps, t.kind ≠ .error
  | [] => by simp [collectAll]
  | p :: ps => by
    intro t ht
    simp only [collectAll, List.mem_append] at ht
    rcases ht with ht | ht
    · exact collect_noError ctx p t ht
    · exact collectAll_noError ctx ps t ht
end

/-- What a colour says about the text it is on: commands that can be found, commands that cannot, paths seen before; errors do not occur. -/
def Justified (f : Facts) (s : Str) (r : Range) : Prop :=
  match r.2.2 with
  | .known => f.known ((s.drop r.1).take (r.2.1 - r.1)) = true
  | .unknown => f.known ((s.drop r.1).take (r.2.1 - r.1)) = false
  | .path => f.path ((s.drop r.1).take (r.2.1 - r.1)) = true
  | .error | .plain => False
  | _ => True

theorem slice_getD {s : Str} {a b : Nat} (h : a ≤ b) (h' : b ≤ s.length) : (slice s a b).getD [] = (s.drop a).take (b - a) := by
  simp [slice, h, h']

theorem just_rangesOf (f : Facts) (s : Str) {ts : List Token} (h : ∀ t ∈ ts, t.kind ≠ .error) :
    ∀ r ∈ rangesOf f s ts, Justified f s r := by
  intro r hr
  unfold rangesOf at hr
  obtain ⟨t, ht, rfl⟩ := List.mem_map.1 hr
  obtain ⟨ht, hc⟩ := List.mem_filter.1 ht
  simp only [Bool.and_eq_true, decide_eq_true_eq] at hc
  have hk : t.kind ≠ .error := by
    split at ht
    · exact h t ht
    · exact h t ((sortBy_perm _ ts).mem_iff.1 ht)
  have he := slice_getD (s := s) (Nat.le_of_lt hc.1) hc.2
  simp only [Justified, he]
  cases hkk : t.kind with
  | command =>
    simp only [colourOf]
    cases hf : f.known ((s.drop t.start).take (t.stop - t.start)) <;> simp
  | error => exact absurd hkk hk
  | _ => simp [colourOf]

theorem just_markPaths (f : Facts) (s : Str) {rs : List Range} (hg : Good s.length rs) (h : ∀ r ∈ rs, Justified f s r) :
    ∀ r ∈ markPaths f s rs, Justified f s r := by
  intro r hr
  obtain ⟨t, ht, rfl⟩ := List.mem_map.1 hr
  have h1 := hg.1 t ht
  have he := slice_getD (s := s) (Nat.le_of_lt h1.1) h1.2
  split
  · next hc =>
    simp only [Bool.and_eq_true, he] at hc
    exact hc.2
  · exact h t ht

theorem just_addTail (f : Facts) (s : Str) {rs : List Range} (h : ∀ r ∈ rs, Justified f s r) :
    ∀ r ∈ addTail f s rs, Justified f s r := by
  intro r hr
  unfold addTail at hr
  split at hr
  · exact h r hr
  · next a b k ht =>
    obtain ⟨_, _, rfl, hp, _⟩ := tailRange_ok f s ht
    split at hr
    · exact h r hr
    · have hr := (sortBy_perm _ _).mem_iff.1 hr
      rcases List.mem_append.1 hr with hr | hr
      · exact h r hr
      · rw [List.mem_singleton.1 hr]; exact hp

theorem parseL_ok (s : Str) : ∃ ps k rest n, parseL s = .ok ps k rest ∧ runL n (.rule .commands) 0 s = some (.ok ps k rest) := by
  have h := parseL_parse s
  have hn := parse_never_fails s
  cases hp : parseL s with
  | fail =>
    rw [hp] at h
    generalize hq : parseCommands s = q at h hn
    cases h
    exact absurd rfl hn
  | ok ps k rest =>
    refine ⟨ps, k, rest, wf.fuel s.length wf.top 1, rfl, ?_⟩
    unfold parseL at hp
    cases hr : runL (wf.fuel s.length wf.top 1) (.rule .commands) 0 s with
    | none => rw [hr] at hp; cases hp
    | some o => rw [hr] at hp; simp only [Option.getD_some] at hp; rw [hp]

theorem just_analyze (f : Facts) (s : Str) {rs} (h : analyze f s = some rs) : ∀ r ∈ rs, Justified f s r := by
  obtain ⟨ps, k, rest, n, hp, hn⟩ := parseL_ok s
  unfold analyze at h
  split at h
  · cases h
  · rw [hp] at h
    simp only [Option.some.injEq] at h
    subst h
    exact just_addTail f s (just_markPaths f s (good_rangesOf f s (chain_collectAll .none ps _ _ (placed _ _ _ _ _ _ _ hn)))
      (just_rangesOf f s (collectAll_noError .none ps)))

/-- **C154 (partial).** When a line has been analyzed, every character is written in the colour of the range it is in, and every range that says "command", "no command" or "path" says so of exactly its text, and is right. -/
theorem C154_meaning_partial (f : Facts) (s : Str) (rs : List Range) (h : analyze f s = some rs) :
    (∀ r ∈ rs, Justified f s r) ∧ rs.Pairwise (fun r t => r.2.1 ≤ t.1) ∧
    ∃ out, paint s (some rs) = some out ∧ cells out = painted (colourAt rs) 0 s := by
  refine ⟨just_analyze f s h, (good_analyze f s h).2, ?_⟩
  obtain ⟨out, h1, h2⟩ := paint_analyze f s
  rw [h] at h1 h2
  exact ⟨out, h1, h2⟩

open Dsh.Syn in
/-- The parse of an unquoted word alone on the line. -/
theorem name_parse {ps : List Dsh.Syn.Piece} (hne : ps ≠ []) (hok : ps.all Dsh.Syn.Piece.ok = true) :
    ∃ inner, parseCommands (Word.bare ps).text = .ok [.mk .commands (Word.bare ps).text [.mk .command (Word.bare ps).text
      [.mk .simple_command (Word.bare ps).text [.mk .argv0 (Word.bare ps).text [.mk .span (Word.bare ps).text
        [.mk .word (Word.bare ps).text inner]]]]]] (Word.bare ps).text [] := by
  have hstop : Stop [] := by intro c r h; cases h
  have hw : (Word.bare ps).ok = true := by simp [Word.ok, hne]; simpa using hok
  have hs : (Simple.mk (.bare ps) []).ok = true := by simp [Simple.ok, hw]
  have hst : (Simple.mk (.bare ps) []).text = (Word.bare ps).text := by simp [Simple.text]
  refine ⟨(ps.map piecePairs).flatten, parse_eq wf ?_⟩
  have hspan : PE (.rule .span) (Word.bare ps).text
      [.mk .span (Word.bare ps).text [.mk .word (Word.bare ps).text (ps.map piecePairs).flatten]] [] := by
    refine PE.rule ?_ rfl
    have hq : Parses G (.rule .quoted) ((ps.map Syn.Piece.text).flatten ++ []) .fail := by
      obtain ⟨p, qs, rfl⟩ := List.exists_cons_of_ne_nil hne
      apply quoted_fail_bare
      · intro r he
        rcases bareHead hok he with hc | hc
        · cases hc
        · exact hc (by simp [metaChars])
      · intro r he
        rcases bareHead hok he with hc | hc
        · cases hc
        · exact hc (by simp [metaChars])
    exact .altR hq (.altR (glob_fail hok hstop) (.altR (brace_fail hok hstop) (.altL (word_ok hok hne hstop))))
  have hnb : NoBlank ((Word.bare ps).text ++ []) := word_noBlank hw _
  have hsimple : PE (.rule .simple_command) (Word.bare ps).text [.mk .simple_command (Word.bare ps).text
      [.mk .argv0 (Word.bare ps).text [.mk .span (Word.bare ps).text
        [.mk .word (Word.bare ps).text (ps.map piecePairs).flatten]]]] [] := by
    refine PE.rule ?_ rfl
    have := PE.seq (t2 := (Word.bare ps).text ++ []) (gap_ok (g := []) (rest := ((Word.bare ps).text ++ []) ++ []) rfl (by simpa using hnb))
      (PE.seq (t2 := []) (rest := []) (by simpa using PE.rule (r := .argv0) hspan rfl) (PE.starNil (a := .rule .args) (fail_nil rfl rfl)))
    simp only [List.append_nil, List.nil_append] at this
    exact this
  have helt : PE cmdElt (Word.bare ps).text [.mk .simple_command (Word.bare ps).text
      [.mk .argv0 (Word.bare ps).text [.mk .span (Word.bare ps).text
        [.mk .word (Word.bare ps).text (ps.map piecePairs).flatten]]]] [] := by
    refine .altR (.seq_fail2 (p1 := []) (c1 := []) (gap_ok (g := []) rfl hnb) ?_) hsimple
    have := simple_bg_fail hs (g := []) (r := []) rfl (.inl (.inl rfl))
    rw [hst] at this
    simpa using this
  have hcend : CEnd [] := .inl rfl
  have hcommand : PE (.rule .command) (Word.bare ps).text [.mk .command (Word.bare ps).text [.mk .simple_command (Word.bare ps).text
      [.mk .argv0 (Word.bare ps).text [.mk .span (Word.bare ps).text
        [.mk .word (Word.bare ps).text (ps.map piecePairs).flatten]]]]] [] := by
    refine PE.rule ?_ rfl
    have hstar := PE.starCons (t2 := []) (p2 := []) (rest := []) (by simpa using helt)
      (.starNil (cmdElt_fail (g := []) (r := []) rfl hcend.end))
    have := PE.seq (t2 := []) (rest := []) (by simpa using hstar) (PE.seq (t1 := []) (t2 := []) (gap_ok (g := []) (rest := []) rfl hcend.end.noBlank)
      (PE.seq (t1 := []) (t2 := []) (.starNil (pipeElt_fail hcend)) (Parses.opt_none (capture_fail hcend))))
    simp only [List.append_nil] at this
    exact this
  have hall : PE (.rule .commands) (Word.bare ps).text [.mk .commands (Word.bare ps).text [.mk .command (Word.bare ps).text
      [.mk .simple_command (Word.bare ps).text [.mk .argv0 (Word.bare ps).text [.mk .span (Word.bare ps).text
        [.mk .word (Word.bare ps).text (ps.map piecePairs).flatten]]]]]] [] := by
    refine PE.rule ?_ rfl
    have h1 := PE.seq (t2 := (Word.bare ps).text) (rest := []) (gap_ok (g := []) (rest := (Word.bare ps).text ++ []) rfl hnb) hcommand
    have hf : Parses G (.rule .command_list_sep) [] .fail := sep_fail (.inl rfl)
    have := PE.seq (t2 := []) (rest := []) (by simpa using h1)
      (PE.starNil (a := Dsh.Peg.PExp.seqs [.rule .command_list_sep, .star (.rule .sp), .rule .command]) (.seq_fail1 hf))
    simp only [List.append_nil] at this
    exact this
  have := hall
  unfold PE at this
  simpa using this

theorem one {α β : Type} {g : α → β} {l : List α} {b : β} (h : [b] = l.map g) : ∃ a, l = [a] ∧ b = g a := by
  match l with
  | [] => cases h
  | [a] => exact ⟨a, rfl, by simpa using h⟩
  | a :: a' :: l => simp at h

/-- An unquoted word alone on the line is one token: the command. -/
theorem name_tokens {ps : List Dsh.Syn.Piece} (hne : ps ≠ []) (hok : ps.all Dsh.Syn.Piece.ok = true) :
    ∃ qs k rest, parseL (Dsh.Syn.Word.bare ps).text = .ok qs k rest ∧
      tokensOf qs = [⟨0, (Dsh.Syn.Word.bare ps).text.length, .command⟩] := by
  obtain ⟨inner, hi⟩ := name_parse hne hok
  have hlen : 0 < (Dsh.Syn.Word.bare ps).text.length := by
    obtain ⟨p, qs, rfl⟩ := List.exists_cons_of_ne_nil hne
    cases p <;> simp [Dsh.Syn.Word.text, Dsh.Syn.Piece.text]
  obtain ⟨qs, k, rest, n, h1, h2⟩ := parseL_ok (Dsh.Syn.Word.bare ps).text
  have ha := parseL_parse (Dsh.Syn.Word.bare ps).text
  rw [h1, hi] at ha
  have hp := placed _ _ _ _ _ _ _ h2
  refine ⟨qs, k, rest, h1, ?_⟩
  clear h1 h2 hi
  generalize (Dsh.Syn.Word.bare ps).text = T at *
  generalize ho : (some (Out.ok _ T [] : Out R)) = o at ha
  generalize hl : some (LOut.ok qs k rest) = l at ha
  cases ha with
  | none => cases ho
  | fail => cases ho
  | @ok qs' c rest' hcr =>
    simp only [Option.some.injEq, LOut.ok.injEq] at hl
    obtain ⟨rfl, rfl, rfl⟩ := hl
    simp only [Option.some.injEq, Out.ok.injEq] at ho
    obtain ⟨h, rfl, rfl⟩ := ho
    obtain ⟨⟨r1, a1, b1, i1⟩, rfl, e1⟩ := one h
    simp only [erase, Pair.mk.injEq] at e1
    obtain ⟨rfl, -, h1⟩ := e1
    obtain ⟨⟨r2, a2, b2, i2⟩, rfl, e2⟩ := one h1
    simp only [erase, Pair.mk.injEq] at e2
    obtain ⟨rfl, -, h2⟩ := e2
    obtain ⟨⟨r3, a3, b3, i3⟩, rfl, e3⟩ := one h2
    simp only [erase, Pair.mk.injEq] at e3
    obtain ⟨rfl, -, h3⟩ := e3
    obtain ⟨⟨r4, a4, b4, i4⟩, rfl, e4⟩ := one h3
    simp only [erase, Pair.mk.injEq] at e4
    obtain ⟨rfl, -, h4⟩ := e4
    obtain ⟨⟨r5, a5, b5, i5⟩, rfl, e5⟩ := one h4
    simp only [erase, Pair.mk.injEq] at e5
    obtain ⟨rfl, -, h5⟩ := e5
    obtain ⟨⟨r6, a6, b6, i6⟩, rfl, e6⟩ := one h5
    simp only [erase, Pair.mk.injEq] at e6
    obtain ⟨rfl, h6, -⟩ := e6
    have hl := congrArg List.length h6
    simp only [List.length_take, List.length_drop] at hl
    simp only [OkAll, LPair.Ok, LPair.start, LPair.stop] at hp
    obtain ⟨g1, ⟨g2, ⟨g3, ⟨g4, ⟨g5, ⟨g6, g7, g8⟩, g9⟩, g10⟩, g11⟩, g12⟩, g13⟩ := hp
    have ha : a6 = 0 := by omega
    have hb : b6 = T.length := by omega
    subst ha hb
    have hne : (0 : Nat) ≠ T.length := by omega
    simp [tokensOf, collectAll, collect, pushed, wordKind, hne]

/-- **C154 (partial).** A command name alone on the line is drawn as a command that can be found, or as one that cannot,
over its whole length, by the text typed. -/
theorem C154_name_partial (f : Facts) {ps : List Dsh.Syn.Piece} (hne : ps ≠ []) (hok : ps.all Dsh.Syn.Piece.ok = true)
    (hb : (Dsh.Syn.Word.bare ps).text.head? ≠ some '!') :
    analyze f (Dsh.Syn.Word.bare ps).text =
      some [(0, (Dsh.Syn.Word.bare ps).text.length, if f.known (Dsh.Syn.Word.bare ps).text then .known else .unknown)] := by
  obtain ⟨qs, k, rest, h1, h2⟩ := name_tokens hne hok
  have hlen : 0 < (Dsh.Syn.Word.bare ps).text.length := by
    obtain ⟨p, qs, rfl⟩ := List.exists_cons_of_ne_nil hne
    cases p <;> simp [Dsh.Syn.Word.text, Dsh.Syn.Piece.text]
  generalize (Dsh.Syn.Word.bare ps).text = T at *
  unfold analyze
  rw [if_neg hb, h1]
  simp only [h2]
  have hr : markPaths f T (rangesOf f T [⟨0, T.length, .command⟩]) = [(0, T.length, if f.known T then .known else .unknown)] := by
    simp only [rangesOf, inOrder, if_true, markPaths, List.filter, hlen, decide_true, Nat.le_refl, Bool.and_self, List.map_cons, List.map_nil,
      slice, Nat.zero_le, true_and, List.drop_zero, Nat.sub_zero, List.take_length, Option.getD_some, colourOf]
    cases f.known T <;> simp [pathLike]
  rw [hr]
  unfold addTail
  split
  · rfl
  · next a b c ht =>
    obtain ⟨h3, h4, -, -, h5⟩ := tailRange_ok f T ht
    rw [if_pos]
    simp only [List.any_cons, List.any_nil, Bool.or_false, overlap, Bool.and_eq_true, decide_eq_true_eq]
    omega

/-- A name without backslashes or quotes. -/
theorem C154_plain_partial (f : Facts) (w : Str) (hne : w ≠ []) (h : ∀ c ∈ w, c ∉ Dsh.Syn.special) (hb : w.head? ≠ some '!') :
    analyze f w = some [(0, w.length, if f.known w then .known else .unknown)] := by
  have ht : (Dsh.Syn.Word.bare (w.map .plain)).text = w := by
    simp only [Dsh.Syn.Word.text]
    clear hne h hb
    induction w with
    | nil => rfl
    | cons c w ih => simpa [Dsh.Syn.Piece.text] using ih
  have := C154_name_partial f (ps := w.map .plain) (by simpa using hne) (by simpa [Dsh.Syn.Piece.ok] using h) (by rw [ht]; exact hb)
  rwa [ht] at this

/-- What `_partial` says of a known and of an unknown name. -/
example : analyze ⟨fun w => w == c!"git", fun _ => false⟩ c!"git" = some [(0, 3, .known)] ∧
    analyze ⟨fun w => w == c!"git", fun _ => false⟩ c!"gti" = some [(0, 3, .unknown)] :=
  ⟨C154_plain_partial _ _ (by decide) (by decide) (by decide), C154_plain_partial _ _ (by decide) (by decide) (by decide)⟩

/-- **C154 (violated).** The name is looked up as typed, not as read: `l\\s` runs `ls`, and is drawn as a command that does not exist. -/
theorem C154_escaped_violated (f : Facts) (_hk : f.known c!"ls" = true) (ht : f.known c!"l\\s" = false) :
    runs0 c!"l\\s" = some [{ stages := [[c!"ls"]] }] ∧ analyze f c!"l\\s" = some [(0, 3, .unknown)] := by
  refine ⟨runs0_eq 80 (by decide +kernel), ?_⟩
  have := C154_name_partial f (ps := [.plain 'l', .esc 's']) (by decide) (by decide) (by decide)
  have he : (Dsh.Syn.Word.bare [.plain 'l', .esc 's']).text = c!"l\\s" := rfl
  rw [he, ht] at this
  exact this

/-- **C154 (violated).** No line is marked as wrong, although there are lines of which the shell cannot read a part. -/
theorem C154_error_violated : (∀ f s out, paint s (analyze f s) = some out → ∀ x ∈ cells out, x.2 ≠ some .error) ∧
    ∃ s ps c r, parseCommands s = .ok ps c r ∧ r ≠ [] := by
  refine ⟨?_, c!"echo \"abc", ?_⟩
  · intro f s out ho x hx
    obtain ⟨out', h1, h2⟩ := paint_analyze f s
    rw [ho] at h1
    obtain rfl := Option.some.inj h1
    rw [h2] at hx
    have : ∀ i, colourAt ((analyze f s).getD []) i ≠ .error := by
      intro i
      unfold colourAt
      split
      · next r hr =>
        have hm := List.mem_of_find?_eq_some hr
        cases ha : analyze f s with
        | none => rw [ha] at hm; simp at hm
        | some rs =>
          rw [ha] at hm
          have := just_analyze f s ha r hm
          intro he
          simp [Justified, he] at this
      · simp
    have key : ∀ (t : Str) i, ∀ x ∈ painted (colourAt ((analyze f s).getD [])) i t, x.2 ≠ some .error := by
      intro t
      induction t with
      | nil => intro i x hx; cases hx
      | cons c t ih =>
        intro i x hx
        rcases List.mem_cons.1 hx with rfl | hx
        · simp only
          split
          · simp
          · intro he; exact this i (Option.some.inj he)
        · exact ih _ x hx
    exact key s 0 x hx
  · obtain ⟨ps, c, h⟩ := leftover_sound (line := c!"echo \"abc") (r := c!"\"abc") 400 (by decide +kernel)
    exact ⟨ps, c, _, h, by decide⟩

/-- **C154 (violated).** After the keys that delete (render with reset) the line loses its colours until the next other key, whatever they were. -/
theorem C154_delete_violated (l : Line) (f : Facts) :
    ∃ out, l.drawn true f = some out ∧ ∀ x ∈ cells out, x.2 = none ∨ x.2 = some .plain := by
  refine ⟨pieces .plain l.text, by simp [Line.drawn, Line.step, paint], ?_⟩
  rw [cells_pieces .plain l.text 0]
  have : ∀ (t : Str) i, ∀ x ∈ painted (fun _ => Colour.plain) i t, x.2 = none ∨ x.2 = some .plain := by
    intro t
    induction t with
    | nil => intro i x hx; cases hx
    | cons c t ih =>
      intro i x hx
      rcases List.mem_cons.1 hx with rfl | hx
      · simp only; split <;> simp
      · exact ih _ x hx
  exact this l.text 0

/-- **C154 (violated).** The colours of a line that has not changed are not renewed: whatever has become known in between, the line is drawn as it was,
so that a command that has come to exist stays drawn as one that does not. -/
theorem C154_stale_violated :
    (∀ (t : Str) (f f' : Facts), t ≠ [] → (after [.edit t true, .draw false f]).drawn false f' = paint t (analyze f t)) ∧
    ∀ (f f' : Facts), f.known c!"git" = false → f'.known c!"git" = true →
      (after [.edit c!"git" true, .draw false f]).drawn false f' = some [.text .unknown c!"git"] ∧
      ({ text := c!"git" } : Line).drawn false f' = some [.text .known c!"git"] := by
  have h1 : ∀ (t : Str) (f f' : Facts), t ≠ [] → (after [.edit t true, .draw false f]).drawn false f' = paint t (analyze f t) := by
    intro t f f' ht
    have he : t.isEmpty = false := by cases t <;> simp_all
    simp [after, Line.drawn, Line.step, he]
  refine ⟨h1, fun f f' hf hf' => ⟨?_, ?_⟩⟩
  · rw [h1 _ _ _ (by decide), C154_plain_partial f _ (by decide) (by decide) (by decide), hf]
    decide
  · have : ({ text := c!"git" } : Line).drawn false f' = paint c!"git" (analyze f' c!"git") := rfl
    rw [this, C154_plain_partial f' _ (by decide) (by decide) (by decide), hf']
    decide

/-- A line with a command, a path seen before, a pipe, an unknown command and a quoted text over two lines. -/
example : let f : Facts := ⟨fun w => w == c!"ls", fun p => p == c!"src"⟩
    let l := after [.edit c!"ls src|foo 'a\nb'" true, .draw false f]
    l.drawn false f = some [.text .known c!"ls", .text .plain c!" ", .text .path c!"src", .text .pipe c!"|",
      .text .unknown c!"foo", .text .plain c!" ", .text .single c!"'a", .newline, .text .single c!"b'"] := by
  decide +kernel

end Dsh.Paint
