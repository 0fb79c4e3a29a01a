import Verif.Parse.Grammar
/-!
Helper lemmas: deciding from the next character that an expression certainly fails, certainly
succeeds, or certainly consumes nothing.
-/
namespace Dsh.Peg
variable {ρ : Type} {G : Grammar ρ}

theorem exists_parse (W : WF G) (e : PExp ρ) (hs : starOk W.null e = true) (i : List Char) :
    ∃ o, Parses G e i o := by
  have h := run_total W (W.fuel i.length W.top e.size) e i W.top (Nat.le_refl _) (okAt_top W e) hs
    (Nat.le_refl _)
  cases h' : run G (W.fuel i.length W.top e.size) e i with
  | none => exact absurd h' h
  | some o => exact ⟨o, run_sound _ _ _ _ h'⟩

/-- Three verdicts about `e` on any input starting with `c`. -/
structure Verdict where
  /-- certainly fails -/
  dead : Bool
  /-- if it succeeds, consumes nothing -/
  idle : Bool
  /-- certainly succeeds -/
  must : Bool

/-- The verdicts on `e`, given verdicts on the rules. -/
def verdictE (rv : ρ → Char → Verdict) : PExp ρ → Char → Verdict
  | .any, _ => ⟨false, false, true⟩
  | .str [], _ => ⟨false, true, true⟩
  | .str [x], c => ⟨x ≠ c, x ≠ c, x = c⟩
  | .str (x :: _ :: _), c => ⟨x ≠ c, x ≠ c, false⟩
  | .seq a b, c =>
    let va := verdictE rv a c
    let vb := verdictE rv b c
    ⟨va.dead || (va.idle && vb.dead), va.dead || (va.idle && (vb.dead || vb.idle)),
      va.must && va.idle && vb.must⟩
  | .alt a b, c =>
    let va := verdictE rv a c
    let vb := verdictE rv b c
    ⟨va.dead && vb.dead, va.idle && vb.idle, va.must || vb.must⟩
  | .star a, c => ⟨false, (verdictE rv a c).dead, true⟩
  | .opt a, c => ⟨false, (verdictE rv a c).idle, true⟩
  | .neg a, c => ⟨(verdictE rv a c).must, true, (verdictE rv a c).dead⟩
  | .rule r, c => rv r c

/-- The verdicts, unrolling rules `n` times. -/
def verdict (G : Grammar ρ) : Nat → PExp ρ → Char → Verdict
  | 0 => verdictE (fun _ _ => ⟨false, false, false⟩)
  | n + 1 => verdictE (fun r => verdict G n (G.body r))

/-- What the verdicts mean. -/
structure VSound (G : Grammar ρ) (e : PExp ρ) (c : Char) (v : Verdict) : Prop where
  dead : v.dead = true → ∀ i o, Parses G e (c :: i) o → o = .fail
  idle : v.idle = true → ∀ i p k r, Parses G e (c :: i) (.ok p k r) → k = [] ∧ r = c :: i
  must : v.must = true → ∀ i, ¬ Parses G e (c :: i) .fail

theorem verdictE_sound {rv : ρ → Char → Verdict} (hr : ∀ r c, VSound G (.rule r) c (rv r c))
    (e : PExp ρ) (c : Char) : VSound G e c (verdictE rv e c) := by
  induction e with
  | any =>
    refine ⟨by simp [verdictE], by simp [verdictE], ?_⟩
    intro _ i h; cases h
  | rule r => exact hr r c
  | str s =>
    match s with
    | [] =>
      refine ⟨by simp [verdictE], ?_, ?_⟩
      · intro _ i p k r h; cases h with
        | str_ok h => simp [stripPre] at h; exact ⟨rfl, h.symm⟩
      · intro _ i h; cases h with
        | str_fail h => simp [stripPre] at h
    | [x] =>
      refine ⟨?_, ?_, ?_⟩
      · intro hx i o h
        simp [verdictE] at hx
        cases h with
        | str_ok h => simp [stripPre, hx] at h
        | str_fail h => rfl
      · intro hx i p k r h
        simp [verdictE] at hx
        cases h with
        | str_ok h => simp [stripPre, hx] at h
      · intro hx i h
        simp [verdictE] at hx
        cases h with
        | str_fail h => simp [stripPre, hx] at h
    | x :: y :: s =>
      refine ⟨?_, ?_, by simp [verdictE]⟩
      · intro hx i o h
        simp [verdictE] at hx
        cases h with
        | str_ok h => simp [stripPre, hx] at h
        | str_fail h => rfl
      · intro hx i p k r h
        simp [verdictE] at hx
        cases h with
        | str_ok h => simp [stripPre, hx] at h
  | seq a b iha ihb =>
    refine ⟨?_, ?_, ?_⟩
    · intro hv i o h
      simp only [verdictE, Bool.or_eq_true, Bool.and_eq_true] at hv
      cases h with
      | seq_ok ha hb =>
        rcases hv with hv | ⟨hv, hv'⟩
        · have := iha.dead hv _ _ ha; cases this
        · have := iha.idle hv _ _ _ _ ha
          rw [this.2] at hb
          have := ihb.dead hv' _ _ hb; cases this
      | seq_fail1 ha => rfl
      | seq_fail2 ha hb => rfl
    · intro hv i p k r h
      simp only [verdictE, Bool.or_eq_true, Bool.and_eq_true] at hv
      cases h with
      | seq_ok ha hb =>
        rcases hv with hv | ⟨hv, hv'⟩
        · have := iha.dead hv _ _ ha; cases this
        · have h1 := iha.idle hv _ _ _ _ ha
          rw [h1.2] at hb
          rcases hv' with hv' | hv'
          · have := ihb.dead hv' _ _ hb; cases this
          · have h2 := ihb.idle hv' _ _ _ _ hb
            simp [h1.1, h2.1, h2.2]
    · intro hv i h
      simp only [verdictE, Bool.and_eq_true] at hv
      cases h with
      | seq_fail1 ha => exact iha.must hv.1.1 _ ha
      | seq_fail2 ha hb =>
        have h1 := iha.idle hv.1.2 _ _ _ _ ha
        rw [h1.2] at hb
        exact ihb.must hv.2 _ hb
  | alt a b iha ihb =>
    refine ⟨?_, ?_, ?_⟩
    · intro hv i o h
      simp only [verdictE, Bool.and_eq_true] at hv
      cases h with
      | alt_l ha => exact iha.dead hv.1 _ _ ha
      | alt_r ha hb => exact ihb.dead hv.2 _ _ hb
    · intro hv i p k r h
      simp only [verdictE, Bool.and_eq_true] at hv
      cases h with
      | alt_l ha => exact iha.idle hv.1 _ _ _ _ ha
      | alt_r ha hb => exact ihb.idle hv.2 _ _ _ _ hb
    · intro hv i h
      simp only [verdictE, Bool.or_eq_true] at hv
      cases h with
      | alt_r ha hb =>
        rcases hv with hv | hv
        · exact iha.must hv _ ha
        · exact ihb.must hv _ hb
  | star a iha =>
    refine ⟨by simp [verdictE], ?_, fun _ i => star_not_fail⟩
    intro hv i p k r h
    simp only [verdictE] at hv
    cases h with
    | star_nil ha => exact ⟨rfl, rfl⟩
    | star_cons ha hb => have := iha.dead hv _ _ ha; cases this
  | opt a iha =>
    refine ⟨by simp [verdictE], ?_, ?_⟩
    · intro hv i p k r h
      simp only [verdictE] at hv
      cases h with
      | opt_some ha => exact iha.idle hv _ _ _ _ ha
      | opt_none ha => exact ⟨rfl, rfl⟩
    · intro _ i h; cases h
  | neg a iha =>
    refine ⟨?_, ?_, ?_⟩
    · intro hv i o h
      simp only [verdictE] at hv
      cases h with
      | neg_ok ha => exact absurd ha (iha.must hv _)
      | neg_fail ha => rfl
    · intro hv i p k r h
      cases h with
      | neg_ok ha => exact ⟨rfl, rfl⟩
    · intro hv i h
      simp only [verdictE] at hv
      cases h with
      | neg_fail ha => have := iha.dead hv _ _ ha; cases this

theorem verdict_sound : ∀ (n : Nat) (e : PExp ρ) (c : Char), VSound G e c (verdict G n e c) := by
  intro n
  induction n with
  | zero => exact verdictE_sound (fun r c => ⟨by simp, by simp, by simp⟩)
  | succ n ihn =>
    apply verdictE_sound
    intro r c
    have := ihn (G.body r) c
    refine ⟨?_, ?_, ?_⟩
    · intro hv i o h
      cases h with
      | rule_ok h => have := this.dead hv _ _ h; cases this
      | rule_fail h => rfl
    · intro hv i p k r h
      cases h with
      | rule_ok h => exact this.idle hv _ _ _ _ h
    · intro hv i h
      cases h with
      | rule_fail h => exact this.must hv _ h

end Dsh.Peg

namespace Dsh.Shell
open Dsh.Peg

/-- `e` fails on every input starting with `c`. -/
theorem fail_of_dead {e : PExp R} {c : Char} (n : Nat) (hs : starOk null e = true)
    (hd : (verdict G n e c).dead = true) (i : List Char) : Parses G e (c :: i) .fail := by
  obtain ⟨o, ho⟩ := exists_parse wf e hs (c :: i)
  have := (verdict_sound n e c).dead hd i o ho
  rw [this] at ho; exact ho

/-- A non-nullable expression fails at the end of the input. -/
theorem fail_nil {e : PExp R} (hs : starOk null e = true) (hn : nullable null e = false) :
    Parses G e [] .fail := by
  obtain ⟨o, ho⟩ := exists_parse wf e hs []
  cases o with
  | fail => exact ho
  | ok p c r =>
    have h1 := ho.split _ _ _ rfl
    have h2 : c = [] := (List.append_eq_nil_iff.1 h1.symm).1
    subst h2
    have := nullable_sound wf ho _ _ rfl
    have hn' : nullable wf.null e = false := hn
    rw [hn'] at this; cases this

end Dsh.Shell
