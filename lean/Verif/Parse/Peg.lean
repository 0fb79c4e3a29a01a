import Verif.Util
/-!
A small model of the PEG engine that `pest` generates from `dsh/src/shell.pest`
(third-party code; its documented semantics is part of the trusted base): ordered choice, greedy
repetition without backtracking, negative look-ahead, silent rules.  The grammar has no
`WHITESPACE`/`COMMENT` rule, so `~` is plain sequence.

Input is a list of characters.  Byte spans are not recorded; a pair carries its text.
-/
namespace Dsh.Peg

/-- Parsing expressions over rule names `ρ`. -/
inductive PExp (ρ : Type) where
  | any
  | str (s : List Char)
  | seq (a b : PExp ρ)
  | alt (a b : PExp ρ)
  | star (a : PExp ρ)
  | opt (a : PExp ρ)
  | neg (a : PExp ρ)
  | rule (r : ρ)
deriving Repr

namespace PExp
/-- `e+` -/
def plus {ρ} (a : PExp ρ) : PExp ρ := .seq a (.star a)
/-- Ordered choice of several alternatives. -/
def alts {ρ} : List (PExp ρ) → PExp ρ
  | [] => .neg (.star .any)
  | [e] => e
  | e :: es => .alt e (alts es)
/-- Sequence of several expressions. -/
def seqs {ρ} : List (PExp ρ) → PExp ρ
  | [] => .str []
  | [e] => e
  | e :: es => .seq e (seqs es)
/-- Number of constructors. -/
def size {ρ} : PExp ρ → Nat
  | any => 1
  | str _ => 1
  | seq a b => a.size + b.size + 1
  | alt a b => a.size + b.size + 1
  | star a => a.size + 1
  | opt a => a.size + 1
  | neg a => a.size + 1
  | rule _ => 1
end PExp

/-- A `pest` pair: rule, matched text, inner pairs. -/
inductive Pair (ρ : Type) where
  | mk (rule : ρ) (text : List Char) (inner : List (Pair ρ))
deriving Repr, Inhabited

/-- `Pair::as_rule`. -/
def Pair.rule {ρ} : Pair ρ → ρ | .mk r _ _ => r
/-- `Pair::as_str`. -/
def Pair.text {ρ} : Pair ρ → List Char | .mk _ t _ => t
/-- `Pair::into_inner`. -/
def Pair.inner {ρ} : Pair ρ → List (Pair ρ) | .mk _ _ ps => ps

/-- A grammar: a body for each rule, and which rules are silent (`_{ … }`). -/
structure Grammar (ρ : Type) where
  body : ρ → PExp ρ
  silent : ρ → Bool

/-- Outcome of matching an expression at a position. -/
inductive Out (ρ : Type) where
  | fail
  | ok (pairs : List (Pair ρ)) (consumed rest : List Char)

/-- Pairs produced by rule `r`. -/
def Grammar.wrap {ρ} (G : Grammar ρ) (r : ρ) (ps : List (Pair ρ)) (c : List Char) : List (Pair ρ) :=
  if G.silent r then ps else [.mk r c ps]

/-- Drop a literal prefix. -/
def stripPre : List Char → List Char → Option (List Char)
  | [], i => some i
  | _ :: _, [] => none
  | a :: s, b :: i => if a = b then stripPre s i else none

/-- Executable matcher with fuel; `none` means out of fuel. -/
def run {ρ} (G : Grammar ρ) : Nat → PExp ρ → List Char → Option (Out ρ)
  | 0, _, _ => none
  | _ + 1, .any, [] => some .fail
  | _ + 1, .any, c :: r => some (.ok [] [c] r)
  | _ + 1, .str s, i => match stripPre s i with
    | some r => some (.ok [] s r)
    | none => some .fail
  | n + 1, .seq a b, i => match run G n a i with
    | none => none
    | some .fail => some .fail
    | some (.ok p1 c1 r1) => match run G n b r1 with
      | none => none
      | some .fail => some .fail
      | some (.ok p2 c2 r2) => some (.ok (p1 ++ p2) (c1 ++ c2) r2)
  | n + 1, .alt a b, i => match run G n a i with
    | none => none
    | some (.ok p c r) => some (.ok p c r)
    | some .fail => run G n b i
  | n + 1, .star a, i => match run G n a i with
    | none => none
    | some .fail => some (.ok [] [] i)
    | some (.ok p1 c1 r1) => match run G n (.star a) r1 with
      | none => none
      | some .fail => some .fail
      | some (.ok p2 c2 r2) => some (.ok (p1 ++ p2) (c1 ++ c2) r2)
  | n + 1, .opt a, i => match run G n a i with
    | none => none
    | some .fail => some (.ok [] [] i)
    | some (.ok p c r) => some (.ok p c r)
  | n + 1, .neg a, i => match run G n a i with
    | none => none
    | some .fail => some (.ok [] [] i)
    | some (.ok _ _ _) => some .fail
  | n + 1, .rule r, i => match run G n (G.body r) i with
    | none => none
    | some .fail => some .fail
    | some (.ok ps c rest) => some (.ok (G.wrap r ps c) c rest)

/-- Big-step PEG semantics as a relation, independent of fuel. -/
inductive Parses {ρ} (G : Grammar ρ) : PExp ρ → List Char → Out ρ → Prop
  | any_ok (c r) : Parses G .any (c :: r) (.ok [] [c] r)
  | any_fail : Parses G .any [] .fail
  | str_ok {s i r} : stripPre s i = some r → Parses G (.str s) i (.ok [] s r)
  | str_fail {s i} : stripPre s i = none → Parses G (.str s) i .fail
  | seq_ok {a b i p1 c1 r1 p2 c2 r2} : Parses G a i (.ok p1 c1 r1) → Parses G b r1 (.ok p2 c2 r2) →
      Parses G (.seq a b) i (.ok (p1 ++ p2) (c1 ++ c2) r2)
  | seq_fail1 {a b i} : Parses G a i .fail → Parses G (.seq a b) i .fail
  | seq_fail2 {a b i p1 c1 r1} : Parses G a i (.ok p1 c1 r1) → Parses G b r1 .fail →
      Parses G (.seq a b) i .fail
  | alt_l {a b i p c r} : Parses G a i (.ok p c r) → Parses G (.alt a b) i (.ok p c r)
  | alt_r {a b i o} : Parses G a i .fail → Parses G b i o → Parses G (.alt a b) i o
  | star_nil {a i} : Parses G a i .fail → Parses G (.star a) i (.ok [] [] i)
  | star_cons {a i p1 c1 r1 p2 c2 r2} : Parses G a i (.ok p1 c1 r1) →
      Parses G (.star a) r1 (.ok p2 c2 r2) →
      Parses G (.star a) i (.ok (p1 ++ p2) (c1 ++ c2) r2)
  | opt_some {a i p c r} : Parses G a i (.ok p c r) → Parses G (.opt a) i (.ok p c r)
  | opt_none {a i} : Parses G a i .fail → Parses G (.opt a) i (.ok [] [] i)
  | neg_ok {a i} : Parses G a i .fail → Parses G (.neg a) i (.ok [] [] i)
  | neg_fail {a i p c r} : Parses G a i (.ok p c r) → Parses G (.neg a) i .fail
  | rule_ok {r i ps c rest} : Parses G (G.body r) i (.ok ps c rest) →
      Parses G (.rule r) i (.ok (G.wrap r ps c) c rest)
  | rule_fail {r i} : Parses G (G.body r) i .fail → Parses G (.rule r) i .fail

variable {ρ : Type} {G : Grammar ρ}

/-! ### The matcher and the relation agree -/

theorem star_not_fail {a : PExp ρ} {i} : ¬ Parses G (.star a) i .fail := by
  intro h; cases h

theorem run_star_not_fail {n} {a : PExp ρ} : ∀ {i}, run G n (.star a) i ≠ some .fail := by
  induction n with
  | zero => intro i h; simp [run] at h
  | succ n ih =>
    intro i h
    simp only [run] at h
    split at h <;> try simp at h
    next r1 _ =>
      split at h <;> simp at h
      next h2 => exact ih h2

theorem run_sound : ∀ (n : Nat) (e : PExp ρ) (i : List Char) (o : Out ρ),
    run G n e i = some o → Parses G e i o := by
  intro n
  induction n with
  | zero => intro e i o h; simp [run] at h
  | succ n ih =>
    intro e i o h
    cases e with
    | any => cases i <;> simp [run] at h <;> subst h <;> constructor
    | str s =>
      simp only [run] at h
      split at h <;> simp at h <;> subst h
      · exact .str_ok ‹_›
      · exact .str_fail ‹_›
    | seq a b =>
      simp only [run] at h
      split at h <;> try simp at h
      · next h1 => subst h; exact .seq_fail1 (ih _ _ _ h1)
      · next h1 =>
        split at h <;> simp at h <;> subst h
        · next h2 => exact .seq_fail2 (ih _ _ _ h1) (ih _ _ _ h2)
        · next h2 => exact .seq_ok (ih _ _ _ h1) (ih _ _ _ h2)
    | alt a b =>
      simp only [run] at h
      split at h <;> try simp at h
      · next h1 => subst h; exact .alt_l (ih _ _ _ h1)
      · next h1 => exact .alt_r (ih _ _ _ h1) (ih _ _ _ h)
    | star a =>
      simp only [run] at h
      split at h <;> try simp at h
      · next h1 => subst h; exact .star_nil (ih _ _ _ h1)
      · next h1 =>
        split at h <;> simp at h
        · next h2 => exact absurd h2 run_star_not_fail
        · next h2 => subst h; exact .star_cons (ih _ _ _ h1) (ih _ _ _ h2)
    | opt a =>
      simp only [run] at h
      split at h <;> simp at h <;> subst h
      · next h1 => exact .opt_none (ih _ _ _ h1)
      · next h1 => exact .opt_some (ih _ _ _ h1)
    | neg a =>
      simp only [run] at h
      split at h <;> simp at h <;> subst h
      · next h1 => exact .neg_ok (ih _ _ _ h1)
      · next h1 => exact .neg_fail (ih _ _ _ h1)
    | rule r =>
      simp only [run] at h
      split at h <;> simp at h <;> subst h
      · next h1 => exact .rule_fail (ih _ _ _ h1)
      · next h1 => exact .rule_ok (ih _ _ _ h1)

/-- PEG matching is deterministic. -/
theorem Parses.det {e : PExp ρ} {i o1 o2} (h1 : Parses G e i o1) (h2 : Parses G e i o2) :
    o1 = o2 := by
  induction h1 generalizing o2 with
  | any_ok c r => cases h2; rfl
  | any_fail => cases h2; rfl
  | str_ok h => cases h2 with
    | str_ok h' => rw [h] at h'; cases h'; rfl
    | str_fail h' => rw [h] at h'; cases h'
  | str_fail h => cases h2 with
    | str_ok h' => rw [h] at h'; cases h'
    | str_fail h' => rfl
  | seq_ok _ _ iha ihb => cases h2 with
    | seq_ok ha hb => cases iha ha; cases ihb hb; rfl
    | seq_fail1 ha => cases iha ha
    | seq_fail2 ha hb => cases iha ha; cases ihb hb
  | seq_fail1 _ iha => cases h2 with
    | seq_ok ha hb => cases iha ha
    | seq_fail1 ha => rfl
    | seq_fail2 ha hb => rfl
  | seq_fail2 _ _ iha ihb => cases h2 with
    | seq_ok ha hb => cases iha ha; cases ihb hb
    | seq_fail1 ha => rfl
    | seq_fail2 ha hb => rfl
  | alt_l _ iha => cases h2 with
    | alt_l ha => exact iha ha
    | alt_r ha hb => cases iha ha
  | alt_r _ _ iha ihb => cases h2 with
    | alt_l ha => cases iha ha
    | alt_r ha hb => exact ihb hb
  | star_nil _ iha => cases h2 with
    | star_nil ha => rfl
    | star_cons ha hb => cases iha ha
  | star_cons _ _ iha ihb => cases h2 with
    | star_nil ha => cases iha ha
    | star_cons ha hb => cases iha ha; cases ihb hb; rfl
  | opt_some _ iha => cases h2 with
    | opt_some ha => exact iha ha
    | opt_none ha => cases iha ha
  | opt_none _ iha => cases h2 with
    | opt_some ha => cases iha ha
    | opt_none ha => rfl
  | neg_ok _ iha => cases h2 with
    | neg_ok ha => rfl
    | neg_fail ha => cases iha ha
  | neg_fail _ iha => cases h2 with
    | neg_ok ha => cases iha ha
    | neg_fail ha => rfl
  | rule_ok _ iha => cases h2 with
    | rule_ok ha => cases iha ha; rfl
    | rule_fail ha => cases iha ha
  | rule_fail _ iha => cases h2 with
    | rule_ok ha => cases iha ha
    | rule_fail ha => rfl

theorem stripPre_eq {s i r} (h : stripPre s i = some r) : i = s ++ r := by
  induction s generalizing i with
  | nil => simp [stripPre] at h; simp [h]
  | cons a s ih =>
    cases i with
    | nil => simp [stripPre] at h
    | cons b i =>
      simp only [stripPre] at h
      split at h
      · next e => subst e; simp [ih h]
      · cases h

theorem stripPre_append (s r : List Char) : stripPre s (s ++ r) = some r := by
  induction s with
  | nil => rfl
  | cons a s ih => simp [stripPre, ih]

/-- A match splits the input into the consumed text and the rest. -/
theorem Parses.split {e : PExp ρ} {i o} (h : Parses G e i o) :
    ∀ p c r, o = .ok p c r → i = c ++ r := by
  induction h with
  | any_ok c r => intro p c' r' h; cases h; rfl
  | any_fail => intro p c' r' h; cases h
  | str_ok h => intro p c' r' e; cases e; exact stripPre_eq h
  | str_fail h => intro p c' r' h; cases h
  | seq_ok _ _ iha ihb =>
    intro p c r h; cases h
    rw [iha _ _ _ rfl, ihb _ _ _ rfl]; simp
  | seq_fail1 _ iha => intro p c' r' h; cases h
  | seq_fail2 _ _ iha ihb => intro p c' r' h; cases h
  | alt_l _ iha => exact iha
  | alt_r _ _ iha ihb => exact ihb
  | star_nil _ iha => intro p c r h; cases h; rfl
  | star_cons _ _ iha ihb =>
    intro p c r h; cases h
    rw [iha _ _ _ rfl, ihb _ _ _ rfl]; simp
  | opt_some _ iha => exact iha
  | opt_none _ iha => intro p c r h; cases h; rfl
  | neg_ok _ iha => intro p c r h; cases h; rfl
  | neg_fail _ iha => intro p c' r' h; cases h
  | rule_ok _ iha => intro p c r h; cases h; exact iha _ _ _ rfl
  | rule_fail _ iha => intro p c' r' h; cases h

/-! ### Totality: a well-formed grammar never loops

`rank` orders the rules so that whatever a rule can call before consuming input has a smaller
rank; `null r` says that `r` may match the empty string. -/

/-- May match without consuming (conservative). -/
def nullable (null : ρ → Bool) : PExp ρ → Bool
  | .any => false
  | .str s => s.isEmpty
  | .seq a b => nullable null a && nullable null b
  | .alt a b => nullable null a || nullable null b
  | .star _ => true
  | .opt _ => true
  | .neg _ => true
  | .rule r => null r

/-- Repetitions are only over non-empty matches. -/
def starOk (null : ρ → Bool) : PExp ρ → Bool
  | .any => true
  | .str _ => true
  | .seq a b => starOk null a && starOk null b
  | .alt a b => starOk null a && starOk null b
  | .star a => !nullable null a && starOk null a
  | .opt a => starOk null a
  | .neg a => starOk null a
  | .rule _ => true

/-- All rules reachable before consumption have rank below `k`. -/
def okAt (null : ρ → Bool) (rank : ρ → Nat) (k : Nat) : PExp ρ → Bool
  | .any => true
  | .str _ => true
  | .seq a b => okAt null rank k a && (!nullable null a || okAt null rank k b)
  | .alt a b => okAt null rank k a && okAt null rank k b
  | .star a => okAt null rank k a
  | .opt a => okAt null rank k a
  | .neg a => okAt null rank k a
  | .rule r => decide (rank r < k)

/-- Evidence that a grammar is well-formed. -/
structure WF (G : Grammar ρ) where
  null : ρ → Bool
  rank : ρ → Nat
  top : Nat
  bodySize : Nat
  null_ok : ∀ r, nullable null (G.body r) = true → null r = true
  star_ok : ∀ r, starOk null (G.body r) = true
  rank_ok : ∀ r, okAt null rank (rank r) (G.body r) = true
  rank_lt : ∀ r, rank r < top
  size_ok : ∀ r, (G.body r).size ≤ bodySize

theorem nullable_sound (W : WF G) {e : PExp ρ} {i o} (h : Parses G e i o) :
    ∀ p r, o = .ok p [] r → nullable W.null e = true := by
  induction h with
  | any_ok c r => intro p r h; cases h
  | any_fail => intro p r h; cases h
  | str_ok h => intro p r e; cases e; rfl
  | str_fail h => intro p r h; cases h
  | @seq_ok a b i p1 c1 r1 p2 c2 r2 _ _ iha ihb =>
    intro p r h
    injection h with h1 h2 h3
    have ⟨e1, e2⟩ := List.append_eq_nil_iff.1 h2
    subst e1; subst e2
    simp [nullable, iha _ _ rfl, ihb _ _ rfl]
  | seq_fail1 _ iha => intro p r h; cases h
  | seq_fail2 _ _ iha ihb => intro p r h; cases h
  | alt_l _ iha => intro p r h; simp [nullable, iha _ _ h]
  | alt_r _ _ iha ihb => intro p r h; simp [nullable, ihb _ _ h]
  | star_nil _ iha => intro p r h; rfl
  | star_cons _ _ iha ihb => intro p r h; rfl
  | opt_some _ iha => intro p r h; rfl
  | opt_none _ iha => intro p r h; rfl
  | neg_ok _ iha => intro p r h; rfl
  | neg_fail _ iha => intro p r h; cases h
  | rule_ok _ iha => intro p r h; cases h; exact W.null_ok _ (iha _ _ rfl)
  | rule_fail _ iha => intro p r h; cases h

theorem okAt_top (W : WF G) (e : PExp ρ) : okAt W.null W.rank W.top e = true := by
  induction e with
  | any => rfl
  | str s => rfl
  | seq a b iha ihb => simp [okAt, iha, ihb]
  | alt a b iha ihb => simp [okAt, iha, ihb]
  | star a iha => simp [okAt, iha]
  | opt a iha => simp [okAt, iha]
  | neg a iha => simp [okAt, iha]
  | rule r => simp [okAt, W.rank_lt r]

/-- Fuel that suffices for an expression at level `k` on `len` characters. -/
def WF.fuel (W : WF G) (len k size : Nat) : Nat :=
  size + (W.bodySize + 1) * (k + (W.top + 1) * len)

theorem run_total (W : WF G) : ∀ (n : Nat) (e : PExp ρ) (i : List Char) (k : Nat), k ≤ W.top →
    okAt W.null W.rank k e = true → starOk W.null e = true → W.fuel i.length k e.size ≤ n →
    run G n e i ≠ none := by
  intro n
  induction n with
  | zero =>
    intro e i k _ _ _ hn
    have : 0 < e.size := by cases e <;> simp [PExp.size]
    simp only [WF.fuel] at hn; omega
  | succ n ih =>
    intro e i k hk ha hs hn
    -- continuing after a match of `a` with `b`
    have cont : ∀ (a b : PExp ρ) p c r, run G n a i = some (.ok p c r) →
        (nullable W.null a = true → okAt W.null W.rank k b = true) → starOk W.null b = true →
        (c ≠ [] → b.size ≤ e.size) → (c = [] → b.size + 1 ≤ e.size) →
        run G n b r ≠ none := by
      intro a b p c r h hb hsb hz1 hz2
      have hP := run_sound _ _ _ _ h
      have hsplit := hP.split _ _ _ rfl
      by_cases hc : c = []
      · subst hc
        have hnull := nullable_sound W hP _ _ rfl
        have e1 : i = r := by simpa using hsplit
        apply ih b r k hk (hb hnull) hsb
        have := hz2 rfl
        simp only [WF.fuel] at *; rw [e1] at hn; omega
      · apply ih b r W.top (Nat.le_refl _) (okAt_top W b) hsb
        have hl : i.length = c.length + r.length := by rw [hsplit]; simp
        have hcl : 0 < c.length := List.length_pos_iff.2 hc
        have hz := hz1 hc
        simp only [WF.fuel] at *
        have h1 : (W.top + 1) * (r.length + 1) ≤ (W.top + 1) * i.length :=
          Nat.mul_le_mul_left _ (by omega)
        have h2 : W.top + (W.top + 1) * r.length + 1 ≤ k + (W.top + 1) * i.length := by
          have : (W.top + 1) * (r.length + 1) = (W.top + 1) * r.length + (W.top + 1) := by
            rw [Nat.mul_add, Nat.mul_one]
          omega
        have h3 := Nat.mul_le_mul_left (W.bodySize + 1) h2
        rw [Nat.mul_add _ _ 1, Nat.mul_one] at h3
        omega
    have sub : ∀ a : PExp ρ, okAt W.null W.rank k a = true → starOk W.null a = true →
        a.size + 1 ≤ e.size → run G n a i ≠ none := by
      intro a h1 h2 h3
      apply ih a i k hk h1 h2
      simp only [WF.fuel] at *; omega
    cases e with
    | any => cases i <;> simp [run]
    | str s => simp only [run]; split <;> simp
    | seq a b =>
      simp only [okAt, Bool.and_eq_true, Bool.or_eq_true, Bool.not_eq_true'] at ha
      simp only [starOk, Bool.and_eq_true] at hs
      simp only [run]
      have h1 := sub a ha.1 hs.1 (by simp only [PExp.size]; omega)
      split
      · contradiction
      · simp
      · next p c r h2 =>
        have h3 := cont a b p c r h2 (fun hh => by simpa [hh] using ha.2) hs.2
          (by intro _; simp only [PExp.size]; omega) (by intro _; simp only [PExp.size]; omega)
        split
        · contradiction
        · simp
        · simp
    | alt a b =>
      simp only [okAt, Bool.and_eq_true] at ha
      simp only [starOk, Bool.and_eq_true] at hs
      simp only [run]
      have h1 := sub a ha.1 hs.1 (by simp only [PExp.size]; omega)
      split
      · contradiction
      · simp
      · exact sub b ha.2 hs.2 (by simp only [PExp.size]; omega)
    | star a =>
      simp only [okAt] at ha
      have hs' := hs
      simp only [starOk, Bool.and_eq_true, Bool.not_eq_true'] at hs'
      simp only [run]
      have h1 := sub a ha hs'.2 (by simp only [PExp.size]; omega)
      split
      · contradiction
      · simp
      · next p c r h2 =>
        have hne : c ≠ [] := by
          rintro rfl
          have := nullable_sound W (run_sound _ _ _ _ h2) _ _ rfl
          rw [hs'.1] at this; cases this
        have h3 := cont a (.star a) p c r h2 (fun hh => by rw [hs'.1] at hh; cases hh) hs
          (by intro _; exact Nat.le_refl _) (by intro h; exact absurd h hne)
        split
        · contradiction
        · simp
        · simp
    | opt a =>
      simp only [okAt] at ha
      simp only [starOk] at hs
      simp only [run]
      have h1 := sub a ha hs (by simp only [PExp.size]; omega)
      split
      · contradiction
      · simp
      · simp
    | neg a =>
      simp only [okAt] at ha
      simp only [starOk] at hs
      simp only [run]
      have h1 := sub a ha hs (by simp only [PExp.size]; omega)
      split
      · contradiction
      · simp
      · simp
    | rule r =>
      simp only [okAt, decide_eq_true_eq] at ha
      simp only [run]
      have h1 : run G n (G.body r) i ≠ none := by
        apply ih (G.body r) i (W.rank r) (by omega) (W.rank_ok r) (W.star_ok r)
        have hsz := W.size_ok r
        simp only [WF.fuel, PExp.size] at *
        have h2 : W.rank r + (W.top + 1) * i.length + 1 ≤ k + (W.top + 1) * i.length := by omega
        have h3 := Nat.mul_le_mul_left (W.bodySize + 1) h2
        rw [Nat.mul_add _ _ 1, Nat.mul_one] at h3
        omega
      split
      · contradiction
      · simp
      · simp

/-- Matching rule `r` against the whole rest of the input (`Parser::parse(Rule::r, input)`). -/
def parse (W : WF G) (r : ρ) (i : List Char) : Out ρ :=
  (run G (W.fuel i.length W.top 1) (.rule r) i).getD .fail

theorem parse_spec (W : WF G) (r : ρ) (i : List Char) : Parses G (.rule r) i (parse W r i) := by
  have h := run_total W (W.fuel i.length W.top 1) (.rule r) i W.top (Nat.le_refl _)
    (okAt_top W _) rfl (by simp [PExp.size])
  unfold parse
  cases h' : run G (W.fuel i.length W.top 1) (.rule r) i with
  | none => exact absurd h' h
  | some o => exact run_sound _ _ _ _ h'

theorem parse_eq (W : WF G) {r : ρ} {i o} (h : Parses G (.rule r) i o) : parse W r i = o :=
  (parse_spec W r i).det h

/-- Any fuel that is enough gives the same answer (used to evaluate concrete cases quickly). -/
theorem parse_eq_run (W : WF G) {r : ρ} {i o} (n : Nat) (h : run G n (.rule r) i = some o) :
    parse W r i = o := parse_eq W (run_sound _ _ _ _ h)

end Dsh.Peg
