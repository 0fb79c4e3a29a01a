import Verif.Lisp.RoundTrip
/-! What is appended to a text behind a newline does not change how the text in front is read. -/
namespace Dsh.Lisp

/-- Results that do not depend on what follows the newline. -/
inductive UR where
  | no
  | err
  | at (v : Value) (y : Str)
  | broken (v : Value)

def UR.inst : UR → Str → Res
  | .no, _ => .no
  | .err, _ => .err
  | .at v y, t => .ok v (some (y ++ '\n' :: t))
  | .broken v, _ => .ok v none

/-- `f` on `x` followed by a newline does not depend on what comes behind it. -/
def Unif (f : Str → Res) (x : Str) : Prop := ∃ u : UR, ∀ t, f (x ++ '\n' :: t) = u.inst t

theorem Unif.or {f g : Str → Res} {x : Str} (hf : Unif f x) (hg : Unif g x) :
    Unif (fun s => (f s).or (g s)) x := by
  obtain ⟨u, hu⟩ := hf
  obtain ⟨w, hw⟩ := hg
  cases u with
  | no => exact ⟨w, fun t => by dsimp only; rw [hu, hw]; rfl⟩
  | err => exact ⟨.err, fun t => by dsimp only; rw [hu]; rfl⟩
  | «at» v y => exact ⟨.at v y, fun t => by dsimp only; rw [hu]; rfl⟩
  | broken v => exact ⟨.broken v, fun t => by dsimp only; rw [hu]; rfl⟩

theorem consume_unif {w : Str} (hw : w.all Char.isAlpha = true) (x : Str) :
    (∀ t, consume w (x ++ '\n' :: t) = none) ∨ ∃ y, ∀ t, consume w (x ++ '\n' :: t) = some (y ++ '\n' :: t) := by
  induction w generalizing x with
  | nil => exact Or.inr ⟨x, fun t => rfl⟩
  | cons a w ih =>
    simp only [List.all_cons, Bool.and_eq_true] at hw
    cases x with
    | nil =>
      left; intro t
      rw [List.nil_append, consume, if_neg]
      intro h
      rw [← h] at hw
      exact absurd hw.1 (by decide)
    | cons c x =>
      by_cases hc : c.toLower = a
      · rcases ih hw.2 x with h | ⟨y, h⟩
        · left; intro t; rw [List.cons_append, consume, if_pos hc, h]
        · right; exact ⟨y, fun t => by rw [List.cons_append, consume, if_pos hc, h]⟩
      · left; intro t; rw [List.cons_append, consume, if_neg hc]

theorem isBreak_unif (y : Str) : ∃ b, ∀ t, isBreak (y ++ '\n' :: t) = b := by
  cases y with
  | nil => exact ⟨true, fun t => by simp [isBreak, show rustWhitespace '\n' = true by decide]⟩
  | cons c y => exact ⟨rustWhitespace c || special c, fun t => rfl⟩

theorem parseConst_unif {w : Str} (hw : w.all Char.isAlpha = true) (v : Value) (x : Str) :
    Unif (parseConst w v) x := by
  rcases consume_unif hw x with h | ⟨y, h⟩
  · exact ⟨.no, fun t => by simp [parseConst, h, UR.inst]⟩
  · obtain ⟨b, hb⟩ := isBreak_unif y
    cases b with
    | false => exact ⟨.no, fun t => by simp [parseConst, h, hb, UR.inst]⟩
    | true => exact ⟨.at v y, fun t => by simp [parseConst, h, hb, UR.inst]⟩

theorem nl_not_numeric (U : Uni) : isNumeric U '\n' = false := break_not_numeric U (by decide)

theorem takeWhile_nl {p : Char → Bool} (hp : p '\n' = false) (x t : Str) :
    (x ++ '\n' :: t).takeWhile p = x.takeWhile p := by
  induction x with
  | nil => simp [hp]
  | cons c x ih =>
    simp only [List.cons_append, List.takeWhile_cons]
    split
    · rw [ih]
    · rfl

theorem dropWhile_nl {p : Char → Bool} (hp : p '\n' = false) (x t : Str) :
    (x ++ '\n' :: t).dropWhile p = x.dropWhile p ++ '\n' :: t := by
  induction x with
  | nil => simp [hp]
  | cons c x ih =>
    simp only [List.cons_append, List.dropWhile_cons]
    split
    · rw [ih]
    · rfl

theorem front_nl (U : Uni) (x t : Str) : front U (x ++ '\n' :: t) = front U x := by
  cases x with
  | nil => simp [front, nl_not_numeric]
  | cons c x => simp [front, takeWhile_nl (nl_not_numeric U)]

theorem back_nl (U : Uni) (x t : Str) : back U (x ++ '\n' :: t) = back U x := by
  cases x with
  | nil => simp [back, nl_not_numeric]
  | cons c x => simp [back, takeWhile_nl (nl_not_numeric U)]

theorem front_le (U : Uni) (x : Str) : (front U x).length ≤ x.length := by
  cases x with
  | nil => simp [front]
  | cons c x =>
    rw [front]; split
    · simpa using (List.takeWhile_prefix _).length_le
    · simp

theorem back_le (U : Uni) (x : Str) : (back U x).length ≤ x.length := by
  cases x with
  | nil => simp [back]
  | cons c x =>
    rw [back]; split
    · simpa using (List.takeWhile_prefix _).length_le
    · simp

theorem parseWhole_unif (m y : Str) : Unif (fun s => parseWhole m s) y := by
  obtain ⟨b, hb⟩ := isBreak_unif y
  cases b with
  | false => exact ⟨.no, fun t => by simp [parseWhole, hb, UR.inst]⟩
  | true =>
    cases hi : parseInt m with
    | none => exact ⟨.no, fun t => by simp [parseWhole, hi, UR.inst]⟩
    | some i => exact ⟨.at (.int i) y, fun t => by simp [parseWhole, hb, hi, UR.inst]⟩

theorem drop_nl {n : Nat} {x : Str} (h : n ≤ x.length) (t : Str) :
    (x ++ '\n' :: t).drop n = x.drop n ++ '\n' :: t := List.drop_append_of_le_length h

theorem parseNumber_unif (U : Uni) (x : Str) : Unif (parseNumber U) x := by
  obtain ⟨w, hw⟩ := parseWhole_unif (front U x) (x.drop (front U x).length)
  obtain ⟨b, hb⟩ := isBreak_unif ((x.drop (front U x).length).drop (back U (x.drop (front U x).length)).length)
  have key : ∀ t, parseNumber U (x ++ '\n' :: t) =
      match (front U x).getLast? with
      | none => .no
      | some l =>
        if isNumeric U l && oneByte l then
          if 2 ≤ (back U (x.drop (front U x).length)).length then
            if b && (front U x ++ back U (x.drop (front U x).length)).all oneByte then
              .ok (.float (front U x ++ back U (x.drop (front U x).length)))
                (some ((x.drop (front U x).length).drop (back U (x.drop (front U x).length)).length ++ '\n' :: t))
            else w.inst t
          else if back U (x.drop (front U x).length) = c!"." then .err
          else w.inst t
        else .no := by
    intro t
    unfold parseNumber
    dsimp only
    rw [front_nl, drop_nl (front_le U x), back_nl, drop_nl (back_le U _), hb, ← hw t]
    cases (front U x).getLast? <;> rfl
  cases hl : (front U x).getLast? with
  | none => exact ⟨.no, fun t => by rw [key, hl]; rfl⟩
  | some l =>
    rw [hl] at key
    dsimp only at key
    by_cases h1 : (isNumeric U l && oneByte l) = true
    · simp only [if_pos h1] at key
      by_cases h2 : 2 ≤ (back U (x.drop (front U x).length)).length
      · simp only [if_pos h2] at key
        by_cases h3 : (b && (front U x ++ back U (x.drop (front U x).length)).all oneByte) = true
        · simp only [if_pos h3] at key
          exact ⟨.at _ _, key⟩
        · simp only [if_neg h3] at key
          exact ⟨w, key⟩
      · simp only [if_neg h2] at key
        by_cases h3 : back U (x.drop (front U x).length) = c!"."
        · simp only [if_pos h3] at key
          exact ⟨.err, key⟩
        · simp only [if_neg h3] at key
          exact ⟨w, key⟩
    · simp only [if_neg h1] at key
      exact ⟨.no, key⟩

theorem parseSymbol_unif (U : Uni) (x : Str) : Unif (parseSymbol U) x := by
  have hn : symbolic '\n' = false := by decide
  cases x with
  | nil => exact ⟨.no, fun t => by simp [parseSymbol, symbolStart, hn, UR.inst]⟩
  | cons c x =>
    by_cases h : symbolStart U c = true
    · have key : ∀ t, parseSymbol U (c :: x ++ '\n' :: t) =
          match after (c :: x.takeWhile symbolic) (x.dropWhile symbolic ++ '\n' :: t) with
          | some rest => .ok (.sym (c :: x.takeWhile symbolic)) (some rest)
          | none => .ok (.sym []) none := by
        intro t
        rw [List.cons_append, parseSymbol, if_pos h]
        dsimp only
        rw [takeWhile_nl hn, dropWhile_nl hn]
        cases after (c :: x.takeWhile symbolic) (x.dropWhile symbolic ++ '\n' :: t) <;> rfl
      have hne : (c :: x.takeWhile symbolic) ≠ [] := by simp
      by_cases h1 : oneByte ((c :: x.takeWhile symbolic).getLast hne) = true
      · refine ⟨.at (.sym (c :: x.takeWhile symbolic)) (x.dropWhile symbolic), fun t => ?_⟩
        rw [key, after, List.getLast?_eq_some_getLast hne]
        dsimp only
        rw [if_pos h1]
        rfl
      · refine ⟨.broken (.sym []), fun t => ?_⟩
        rw [key, after, List.getLast?_eq_some_getLast hne]
        dsimp only
        rw [if_neg h1]
        rfl
    · exact ⟨.no, fun t => by rw [List.cons_append, parseSymbol, if_neg h]; rfl⟩

/-- A string is closed in front of the newline, or reading it goes beyond. -/
theorem parseString_nl (x : Str) : Unif parseString x ∨
    ∀ t v c, parseString (x ++ '\n' :: t) = .ok v c → c.text.length < t.length := by
  cases x with
  | nil => left; exact ⟨.no, fun t => by simp [parseString, UR.inst]⟩
  | cons d x =>
    by_cases hd : d = '"'
    · subst hd
      by_cases hq : '"' ∈ x
      · left
        obtain ⟨a, b, hab, ha⟩ : ∃ a b, x = a ++ '"' :: b ∧ a.all (· != '"') = true := by
          refine ⟨x.takeWhile (· != '"'), (x.dropWhile (· != '"')).tail, ?_, List.all_takeWhile⟩
          have h1 : (x.dropWhile (· != '"')) ≠ [] := by
            intro h0
            have h2 := List.takeWhile_append_dropWhile (p := (· != '"')) (l := x)
            rw [h0, List.append_nil] at h2
            have h3 := List.all_takeWhile (p := (· != '"')) (l := x)
            rw [h2, List.all_eq_true] at h3
            simpa using h3 _ hq
          have h2 := List.takeWhile_append_dropWhile (p := (· != '"')) (l := x)
          have h3 := List.head_dropWhile_not (p := (· != '"')) (l := x) h1
          have h4 := List.cons_head_tail h1
          simp at h3
          rw [h3] at h4
          rw [h4, h2]
        have hx : ∀ t, x ++ '\n' :: t = a ++ '"' :: (b ++ '\n' :: t) := fun t => by rw [hab]; simp
        have key : ∀ t, parseString ('"' :: x ++ '\n' :: t) =
            match a.getLast? with
            | none => .no
            | some l => if oneByte l then .ok (.str a) (some (b ++ '\n' :: t)) else .err := by
          intro t
          rw [List.cons_append, hx t]
          simp only [parseString]
          rw [takeWhile_break ha (by simp), dropWhile_break ha (by simp)]
          cases a.getLast? <;> rfl
        cases hl : a.getLast? with
        | none => exact ⟨.no, fun t => by rw [key, hl]; rfl⟩
        | some l =>
          rw [hl] at key
          dsimp only at key
          by_cases h1 : oneByte l = true
          · simp only [if_pos h1] at key; exact ⟨.at _ _, key⟩
          · simp only [if_neg h1] at key; exact ⟨.err, key⟩
      · right
        intro t v c h
        have hall : (x ++ ['\n']).all (· != '"') = true := by
          rw [List.all_eq_true]; intro e he; simp at he ⊢
          rcases he with he | rfl
          · rintro rfl; exact hq he
          · decide
        have hdw : (x ++ '\n' :: t).dropWhile (· != '"') = t.dropWhile (· != '"') := by
          rw [show x ++ '\n' :: t = (x ++ ['\n']) ++ t by simp]
          rw [List.dropWhile_append_of_pos (List.all_eq_true.1 hall)]
        rw [List.cons_append] at h
        simp only [parseString] at h
        split at h
        · simp at h
        · split at h
          · split at h
            · simp at h
            · next rest hr =>
              injection h with _ h
              subst h
              rw [hdw] at hr
              have := dropWhile_length_le (· != '"') t
              rw [hr] at this
              simp at this
              simp [Cur.text]; omega
          · simp at h
    · left
      refine ⟨.no, fun t => ?_⟩
      unfold parseString
      split
      · next e => simp at e; exact absurd e.1 hd
      · rfl

theorem parseAtom_nl (U : Uni) (x : Str) : Unif (parseAtom U) x ∨
    ∀ t v c, parseAtom U (x ++ '\n' :: t) = .ok v c → c.text.length < t.length := by
  rcases parseString_nl x with h | h
  · left
    exact (parseConst_unif (by decide) _ x).or <| (parseConst_unif (by decide) _ x).or <|
      (parseConst_unif (by decide) _ x).or <| (parseNumber_unif U x).or <| h.or <| parseSymbol_unif U x
  · by_cases hx : ∃ x', x = '"' :: x' ∧ ∀ t, parseAtom U (x ++ '\n' :: t) =
        (parseString (x ++ '\n' :: t)).or (parseSymbol U (x ++ '\n' :: t))
    · obtain ⟨x', rfl, hx⟩ := hx
      -- a quote: the string decides, or the symbol does
      by_cases hs : ∀ t v c, parseAtom U ('"' :: x' ++ '\n' :: t) = .ok v c → c.text.length < t.length
      · exact Or.inr hs
      · left
        -- some text is read as a symbol: then the string reader gave up at once
        have : x' ++ ['\n'] ≠ [] := by simp
        by_cases hq : x'.head? = some '"'
        · obtain ⟨u, hu⟩ := parseSymbol_unif U ('"' :: x')
          refine ⟨u, fun t => ?_⟩
          rw [hx, ← hu]
          cases x' with
          | nil => simp at hq
          | cons d x' => simp at hq; subst hq; simp [parseString, Res.or]
        · exfalso
          apply hs
          intro t v c hv
          rw [hx] at hv
          have hno : parseString ('"' :: x' ++ '\n' :: t) ≠ .no := by
            rw [List.cons_append]
            simp only [parseString]
            have hne : (x' ++ '\n' :: t).takeWhile (· != '"') ≠ [] := by
              cases x' with
              | nil => simp
              | cons d x' =>
                have : d ≠ '"' := by rintro rfl; simp at hq
                simp [this]
            rw [List.getLast?_eq_some_getLast hne]
            dsimp only
            split
            · split <;> simp
            · simp
          apply h t v c
          cases hp : parseString ('"' :: x' ++ '\n' :: t) with
          | no => exact absurd hp hno
          | out => rw [hp] at hv; exact hv
          | err => rw [hp] at hv; exact hv
          | ok v' c' => rw [hp] at hv; exact hv
    · left
      have hsno : ∀ t, parseString (x ++ '\n' :: t) = .no := by
        intro t
        unfold parseString
        split
        · next s e =>
          exfalso; apply hx
          cases x with
          | nil => simp at e
          | cons d x =>
            simp at e
            obtain ⟨rfl, _⟩ := e
            refine ⟨x, rfl, fun t => ?_⟩
            simp [parseAtom, parseConst, consume, Res.or, parseNumber, front, isNumeric,
              show Char.toLower '"' = '"' by decide, show Char.isDigit '"' = false by decide]
        · rfl
      exact (parseConst_unif (by decide) _ x).or <| (parseConst_unif (by decide) _ x).or <|
        (parseConst_unif (by decide) _ x).or <| (parseNumber_unif U x).or <|
        Unif.or ⟨.no, hsno⟩ <| parseSymbol_unif U x

/-! ### Skipping -/

theorem skipGo_nl (x : Str) : ∀ k last,
    (∃ y l, ∀ t, skipGo k last (x ++ '\n' :: t) = (l, y ++ '\n' :: t)) ∨
    (∀ t, skipGo k last (x ++ '\n' :: t) = skipGo 0 (some '\n') t) := by
  induction x with
  | nil =>
    intro k last
    right; intro t
    simp [skipGo, show rustWhitespace '\n' = true by decide]
  | cons c x ih =>
    intro k last
    by_cases h : (rustWhitespace c || c == ';' || decide (2 ≤ (if c = ';' then k + 1 else if k < 2 ∨ c = '\n' then 0 else k))) = true
    · rcases ih (if c = ';' then k + 1 else if k < 2 ∨ c = '\n' then 0 else k) (some c) with ⟨y, l, hy⟩ | hy
      · left; refine ⟨y, l, fun t => ?_⟩
        simp only [List.cons_append, skipGo]; rw [if_pos h, hy]
      · right; intro t
        simp only [List.cons_append, skipGo]; rw [if_pos h, hy]
    · left; refine ⟨c :: x, last, fun t => ?_⟩
      simp only [List.cons_append, skipGo]; rw [if_neg h]

/-- Skipping that starts behind a newline. -/
def skipNl (t : Str) : Cur :=
  match skipGo 0 (some '\n') t with
  | (some l, rest) => if oneByte l then some rest else none
  | (none, _) => some t

theorem skipGo_last (s : Str) : ∀ k (a : Char), (skipGo k (some a) s).1 ≠ none := by
  induction s with
  | nil => intro k a; simp [skipGo]
  | cons c s ih =>
    intro k a
    simp only [skipGo]
    by_cases h : (rustWhitespace c || c == ';' || decide (2 ≤ (if c = ';' then k + 1 else if k < 2 ∨ c = '\n' then 0 else k))) = true
    · rw [if_pos h]; exact ih _ _
    · rw [if_neg h]; simp

theorem skip_nl (x : Str) :
    (∃ y, ∀ t, skip (some (x ++ '\n' :: t)) = some (y ++ '\n' :: t)) ∨
    (∀ t, skip (some (x ++ '\n' :: t)) = none) ∨
    (∀ t, skip (some (x ++ '\n' :: t)) = skipNl t) := by
  rcases skipGo_nl x 0 none with ⟨y, l, h⟩ | h
  · cases l with
    | none => left; refine ⟨x, fun t => ?_⟩; simp [skip, Cur.text, h]
    | some l =>
      by_cases hl : oneByte l = true
      · left; refine ⟨y, fun t => ?_⟩; simp [skip, Cur.text, h, hl]
      · right; left; intro t; simp [skip, Cur.text, h, hl]
  · right; right; intro t
    simp only [skip, Cur.text, Option.getD_some, h, skipNl]
    have := skipGo_last t 0 '\n'
    cases hs : skipGo 0 (some '\n') t with
    | mk l r =>
      cases l with
      | none => rw [hs] at this; simp at this
      | some l => rfl

theorem skipNl_le (t : Str) : (skipNl t).text.length ≤ t.length := by
  unfold skipNl
  have := skipGo_le t 0 (some '\n')
  split
  · next l rest h =>
    rw [h] at this
    split
    · exact this
    · simp [Cur.text]
  · exact Nat.le_refl _

/-! ### Expressions -/

/-- What is left is never longer; a position inside a character stays there. -/
theorem parse_len (U : Uni) : ∀ n,
    (∀ (c : Cur) v c', parseExpr U n c = .ok v c' → c'.text.length < c.text.length) ∧
    (∀ (c : Cur) vs v c', parseMembers U n c vs = .ok v c' → c'.text.length < c.text.length) := by
  intro n
  constructor
  · intro c v c' h
    have h2 := (parse_short U (n + (2 * c.text.length + 1))).1 c (by omega)
    rw [parseExpr_mono U (by omega : n ≤ n + (2 * c.text.length + 1)) (by rw [h]; simp)] at h2
    exact h2.2 _ _ h
  · intro c vs v c' h
    have h2 := (parse_short U (n + (2 * c.text.length + 2))).2 c vs (by omega)
    rw [parseMembers_mono U (by omega : n ≤ n + (2 * c.text.length + 2)) (by rw [h]; simp)] at h2
    exact h2.2 _ _ h

theorem expr_nothing (U : Uni) (n : Nat) : parseExpr U (n + 1) none = .no := by
  rw [parseExpr.eq_def]
  simp [Cur.text, parseAtom, parseConst, consume, Res.or, parseNumber, front, parseString, parseSymbol]

theorem members_broken (U : Uni) (n : Nat) (vs : List Value) (v : Value) (c : Cur) :
    parseMembers U n none vs ≠ .ok v c := by
  cases n with
  | zero => simp [parseMembers]
  | succ n =>
    rw [parseMembers]
    cases n with
    | zero => simp [parseExpr]
    | succ n => rw [expr_nothing]; simp [close, Cur.text]

theorem expr_close (U : Uni) (n : Nat) (rest : Str) : parseExpr U (n + 1) (some (')' :: rest)) = .no := by
  rw [parseExpr.eq_def]
  simp [Cur.text, parseAtom, parseConst, consume, Res.or, parseNumber, front, isNumeric, parseString,
    parseSymbol, symbolStart, symbolic, special, show Char.toLower ')' = ')' by decide,
    show Char.isDigit ')' = false by decide]

theorem cons_nl_cases {a : Char} {x t s : Str} (h : x ++ '\n' :: t = a :: s) (ha : a ≠ '\n') :
    ∃ x', x = a :: x' ∧ s = x' ++ '\n' :: t := by
  cases x with
  | nil => simp at h; exact absurd h.1.symm ha
  | cons c x => simp at h; exact ⟨x, by rw [h.1], h.2.symm⟩

theorem parse_local (U : Uni) : ∀ n,
    (∀ x t v r, parseExpr U n (some (x ++ '\n' :: t)) = .ok v (some r) → t.length < r.length →
      ∃ y, r = y ++ '\n' :: t ∧ ∀ t', parseExpr U n (some (x ++ '\n' :: t')) = .ok v (some (y ++ '\n' :: t'))) ∧
    (∀ x t vs v r, parseMembers U n (some (x ++ '\n' :: t)) vs = .ok v (some r) → t.length < r.length →
      ∃ y, r = y ++ '\n' :: t ∧
        ∀ t', parseMembers U n (some (x ++ '\n' :: t')) vs = .ok v (some (y ++ '\n' :: t'))) := by
  intro n
  induction n with
  | zero => constructor <;> intros <;> simp_all [parseExpr, parseMembers]
  | succ n ih =>
    obtain ⟨ihE, ihM⟩ := ih
    constructor
    · intro x t v r h hlen
      have hE : ∀ s, parseExpr U (n + 1) (some s) = match s with
          | '(' :: s => parseMembers U n (skip (some s)) []
          | '\'' :: s => wrap c!"quote" (parseExpr U n (some s))
          | ',' :: s => wrap c!"comma" (parseExpr U n (some s))
          | s => parseAtom U s := fun s => by rw [parseExpr.eq_def]; rfl
      have hP : ∀ s, parseExpr U (n + 1) (some ('(' :: s)) = parseMembers U n (skip (some s)) [] := fun s => by
        rw [parseExpr.eq_def]; rfl
      have wrapCase : ∀ (a : Char) (name x' : Str), a ≠ '\n' → x = a :: x' →
          (∀ s, parseExpr U (n + 1) (some (a :: s)) = wrap name (parseExpr U n (some s))) →
          ∃ y, r = y ++ '\n' :: t ∧
            ∀ t', parseExpr U (n + 1) (some (x ++ '\n' :: t')) = .ok v (some (y ++ '\n' :: t')) := by
        intro a name x' _ e hw
        subst e
        rw [List.cons_append, hw] at h
        cases hp : parseExpr U n (some (x' ++ '\n' :: t)) with
        | ok v' c' =>
          rw [hp] at h
          simp only [wrap, Res.ok.injEq] at h
          obtain ⟨rfl, rfl⟩ := h
          obtain ⟨y, hy, hall⟩ := ihE x' t v' r hp hlen
          exact ⟨y, hy, fun t' => by rw [List.cons_append, hw, hall]; rfl⟩
        | no => rw [hp] at h; simp [wrap] at h
        | err => rw [hp] at h; simp [wrap] at h
        | out => rw [hp] at h; simp [wrap] at h
      by_cases h1 : ∃ x', x = '(' :: x'
      · obtain ⟨x', rfl⟩ := h1
        rw [List.cons_append, hP] at h
        rcases skip_nl x' with ⟨y, hy⟩ | hy | hy
        · rw [hy] at h
          obtain ⟨z, hz, hall⟩ := ihM y t [] v r h hlen
          refine ⟨z, hz, fun t' => ?_⟩
          rw [List.cons_append, hP, hy, hall]
        · rw [hy] at h; exact absurd h (members_broken U _ _ _ _)
        · rw [hy] at h
          have := (parse_len U n).2 _ _ _ _ h
          have := skipNl_le t
          simp [Cur.text] at *
          omega
      · by_cases h2 : ∃ x', x = '\'' :: x'
        · obtain ⟨x', hx⟩ := h2
          exact wrapCase '\'' c!"quote" x' (by decide) hx (fun s => by rw [hE]; rfl)
        · by_cases h3 : ∃ x', x = ',' :: x'
          · obtain ⟨x', hx⟩ := h3
            exact wrapCase ',' c!"comma" x' (by decide) hx (fun s => by rw [hE]; rfl)
          · have hat : ∀ t, parseExpr U (n + 1) (some (x ++ '\n' :: t)) = parseAtom U (x ++ '\n' :: t) := by
              intro t
              rw [hE]
              split
              · next s e =>
                obtain ⟨x', hx, _⟩ := cons_nl_cases e (by decide)
                exact absurd ⟨x', hx⟩ h1
              · next s e =>
                obtain ⟨x', hx, _⟩ := cons_nl_cases e (by decide)
                exact absurd ⟨x', hx⟩ h2
              · next s e =>
                obtain ⟨x', hx, _⟩ := cons_nl_cases e (by decide)
                exact absurd ⟨x', hx⟩ h3
              · rfl
            rw [hat] at h
            rcases parseAtom_nl U x with ⟨u, hu⟩ | hu
            · rw [hu] at h
              cases u with
              | no => simp [UR.inst] at h
              | err => simp [UR.inst] at h
              | broken v => simp [UR.inst] at h
              | «at» v' y =>
                simp only [UR.inst, Res.ok.injEq, Option.some.injEq] at h
                obtain ⟨rfl, rfl⟩ := h
                exact ⟨y, rfl, fun t' => by rw [hat, hu]; rfl⟩
            · have := hu t v _ h
              simp [Cur.text] at this
              omega
    · intro x t vs v r h hlen
      rw [parseMembers] at h
      cases hp : parseExpr U n (some (x ++ '\n' :: t)) with
      | err => rw [hp] at h; simp at h
      | out => rw [hp] at h; simp at h
      | no =>
        rw [hp] at h
        dsimp only at h
        have hx : ∃ x', x = ')' :: x' := by
          simp only [close, Cur.text, Option.getD_some] at h
          split at h
          · next s e => obtain ⟨x', hx, _⟩ := cons_nl_cases e (by decide); exact ⟨x', hx⟩
          · simp at h
        obtain ⟨x', rfl⟩ := hx
        simp only [List.cons_append, close, Cur.text, Option.getD_some, Res.ok.injEq, Option.some.injEq] at h
        obtain ⟨rfl, rfl⟩ := h
        refine ⟨x', rfl, fun t' => ?_⟩
        cases n with
        | zero => simp [parseExpr] at hp
        | succ n => rw [List.cons_append, members_close]
      | ok v' c' =>
        rw [hp] at h
        dsimp only at h
        cases c' with
        | none => 
          have hs : skip none = none := by simp [skip, Cur.text, skipGo]
          rw [hs] at h; exact absurd h (members_broken U _ _ _ _)
        | some r' =>
          have l1 := (parse_len U n).2 _ _ _ _ h
          have l2 := skip_le (some r')
          simp [Cur.text] at l1 l2
          obtain ⟨y, rfl, hall⟩ := ihE x t v' r' hp (by omega)
          rcases skip_nl y with ⟨z, hz⟩ | hz | hz
          · rw [hz] at h
            obtain ⟨w, hw, hall2⟩ := ihM z t _ v r h hlen
            refine ⟨w, hw, fun t' => ?_⟩
            rw [parseMembers, hall]
            dsimp only
            rw [hz, hall2]
          · rw [hz] at h; exact absurd h (members_broken U _ _ _ _)
          · rw [hz] at h
            have := (parse_len U n).2 _ _ _ _ h
            have := skipNl_le t
            simp [Cur.text] at *
            omega

/-! ### An expression never ends with a newline -/

/-- The last character taken is no newline. -/
def NoNl (s : Str) (r : Res) : Prop := ∀ v rest, r = .ok v (some rest) → ∃ u c, s = u ++ c :: rest ∧ c ≠ '\n'

theorem noNl_no (s : Str) : NoNl s .no := by simp [NoNl]
theorem noNl_err (s : Str) : NoNl s .err := by simp [NoNl]
theorem noNl_out (s : Str) : NoNl s .out := by simp [NoNl]
theorem NoNl.or {s : Str} {a b : Res} (ha : NoNl s a) (hb : NoNl s b) : NoNl s (a.or b) := by
  cases a <;> simp_all [Res.or]
theorem noNl_ok {s u rest : Str} {c : Char} {v : Value} (h : s = u ++ c :: rest) (hc : c ≠ '\n') :
    NoNl s (.ok v (some rest)) := by
  intro v' r e
  injection e with _ e; injection e with e; subst e
  exact ⟨u, c, h, hc⟩

/-- A taken prefix none of whose characters is a newline. -/
theorem noNl_prefix {s m rest : Str} {v : Value} (h : s = m ++ rest) (hm : m ≠ []) (hc : '\n' ∉ m) :
    NoNl s (.ok v (some rest)) := by
  rw [← List.dropLast_concat_getLast hm] at h
  refine noNl_ok (u := m.dropLast) (c := m.getLast hm) (by simpa using h) ?_
  intro e
  exact hc (e ▸ List.getLast_mem hm)

theorem consume_prefix {w s rest : Str} (hw : w.all Char.isAlpha = true) (h : consume w s = some rest) :
    ∃ m, s = m ++ rest ∧ m.length = w.length ∧ '\n' ∉ m := by
  induction w generalizing s with
  | nil => simp only [consume, Option.some.injEq] at h; exact ⟨[], by simp [h], rfl, by simp⟩
  | cons a w ih =>
    simp only [List.all_cons, Bool.and_eq_true] at hw
    cases s with
    | nil => simp [consume] at h
    | cons c s =>
      simp only [consume] at h
      split at h
      · next e =>
        obtain ⟨m, h1, h2, h3⟩ := ih hw.2 h
        refine ⟨c :: m, by rw [h1]; rfl, by simp [h2], ?_⟩
        simp only [List.mem_cons, not_or]
        refine ⟨?_, h3⟩
        rintro rfl
        rw [← e] at hw
        exact absurd hw.1 (by decide)
      · simp at h

theorem parseConst_noNl {w : Str} (hw : w.all Char.isAlpha = true) (hne : w ≠ []) (v : Value) (s : Str) :
    NoNl s (parseConst w v s) := by
  unfold parseConst
  split
  · next rest h =>
    obtain ⟨m, h1, h2, h3⟩ := consume_prefix hw h
    split
    · refine noNl_prefix h1 ?_ h3
      rintro rfl
      exact hne (List.length_eq_zero_iff.1 h2.symm)
    · exact noNl_no _
  · exact noNl_no _

theorem front_prefix (U : Uni) (s : Str) : s = front U s ++ s.drop (front U s).length ∧ '\n' ∉ front U s := by
  cases s with
  | nil => simp [front]
  | cons c s =>
    rw [front]
    split
    · next h =>
      constructor
      · have hp : (c :: s.takeWhile (isNumeric U)) <+: c :: s :=
          List.cons_prefix_cons.2 ⟨rfl, List.takeWhile_prefix _⟩
        obtain ⟨k, hk⟩ := hp
        rw [← hk]; simp
      · simp only [List.mem_cons, not_or]
        constructor
        · rintro rfl
          rcases h with h | h
          · exact absurd h (by decide)
          · rw [nl_not_numeric] at h; simp at h
        · intro hm
          have := List.all_takeWhile (p := isNumeric U) (l := s)
          rw [List.all_eq_true] at this
          have := this _ hm
          rw [nl_not_numeric] at this; simp at this
    · simp

theorem back_prefix (U : Uni) (s : Str) : s = back U s ++ s.drop (back U s).length ∧ '\n' ∉ back U s := by
  cases s with
  | nil => simp [back]
  | cons c s =>
    rw [back]
    split
    · next h =>
      constructor
      · have hp : (c :: s.takeWhile (isNumeric U)) <+: c :: s :=
          List.cons_prefix_cons.2 ⟨rfl, List.takeWhile_prefix _⟩
        obtain ⟨k, hk⟩ := hp
        rw [← hk]; simp
      · simp only [List.mem_cons, not_or]
        constructor
        · rintro rfl
          rcases h with h | h
          · exact absurd h (by decide)
          · rw [nl_not_numeric] at h; simp at h
        · intro hm
          have := List.all_takeWhile (p := isNumeric U) (l := s)
          rw [List.all_eq_true] at this
          have := this _ hm
          rw [nl_not_numeric] at this; simp at this
    · simp

theorem parseWhole_noNl {m rest s : Str} (h : s = m ++ rest) (hm : m ≠ []) (hc : '\n' ∉ m) :
    NoNl s (parseWhole m rest) := by
  unfold parseWhole
  split
  · split
    · exact noNl_prefix h hm hc
    · exact noNl_no _
  · exact noNl_no _

theorem parseNumber_noNl (U : Uni) (s : Str) : NoNl s (parseNumber U s) := by
  obtain ⟨h1, h2⟩ := front_prefix U s
  obtain ⟨h3, h4⟩ := back_prefix U (s.drop (front U s).length)
  unfold parseNumber
  dsimp only
  split
  · exact noNl_no _
  · next l hl =>
    have hm : front U s ≠ [] := by intro h; rw [h] at hl; simp at hl
    split
    · split
      · split
        · refine noNl_prefix (m := front U s ++ back U (s.drop (front U s).length)) ?_ (by simp [hm]) ?_
          · rw [List.append_assoc, ← h3]; exact h1
          · simp [h2, h4]
        · exact parseWhole_noNl h1 hm h2
      · split
        · exact noNl_err _
        · exact parseWhole_noNl h1 hm h2
    · exact noNl_no _

theorem parseString_noNl (s : Str) : NoNl s (parseString s) := by
  unfold parseString
  split
  · next s =>
    dsimp only
    split
    · exact noNl_no _
    · split
      · split
        · exact noNl_err _
        · next a rest h =>
          have h1 := List.takeWhile_append_dropWhile (p := (· != '"')) (l := s)
          have h2 : a = '"' := by
            have h3 := List.head_dropWhile_not (p := (· != '"')) (l := s) (by rw [h]; simp)
            simpa [h] using h3
          subst h2
          rw [h] at h1
          exact noNl_ok (u := '"' :: s.takeWhile (· != '"')) (by rw [List.cons_append, h1]) (by decide)
      · exact noNl_err _
  · exact noNl_no _

theorem parseSymbol_noNl (U : Uni) (s : Str) : NoNl s (parseSymbol U s) := by
  unfold parseSymbol
  split
  · exact noNl_no _
  · next c s =>
    split
    · next hc =>
      dsimp only
      split
      · next rest h =>
        have hr : rest = s.dropWhile symbolic := by
          unfold after at h
          split at h
          · split at h
            · injection h with h; exact h.symm
            · simp at h
          · injection h with h; exact h.symm
        refine noNl_prefix (m := c :: s.takeWhile symbolic) ?_ (by simp) ?_
        · rw [hr, List.cons_append, List.takeWhile_append_dropWhile]
        · have hn : symbolic '\n' = false := by decide
          simp only [List.mem_cons, not_or]
          constructor
          · rintro rfl
            simp [symbolStart, hn] at hc
          · intro hm
            have := List.all_takeWhile (p := symbolic) (l := s)
            rw [List.all_eq_true] at this
            have := this _ hm
            rw [hn] at this; simp at this
      · simp [NoNl]
    · exact noNl_no _

theorem parseAtom_noNl (U : Uni) (s : Str) : NoNl s (parseAtom U s) :=
  (parseConst_noNl (by decide) (by decide) _ _).or <| (parseConst_noNl (by decide) (by decide) _ _).or <|
    (parseConst_noNl (by decide) (by decide) _ _).or <| (parseNumber_noNl U s).or <| (parseString_noNl s).or <|
    parseSymbol_noNl U s

theorem skipGo_suffix (s : Str) : ∀ k last, ∃ u, s = u ++ (skipGo k last s).2 := by
  induction s with
  | nil => intro k last; exact ⟨[], by simp [skipGo]⟩
  | cons c s ih =>
    intro k last
    simp only [skipGo]
    by_cases h : (rustWhitespace c || c == ';' || decide (2 ≤ (if c = ';' then k + 1 else if k < 2 ∨ c = '\n' then 0 else k))) = true
    · rw [if_pos h]
      obtain ⟨u, hu⟩ := ih (if c = ';' then k + 1 else if k < 2 ∨ c = '\n' then 0 else k) (some c)
      exact ⟨c :: u, by rw [List.cons_append, ← hu]⟩
    · rw [if_neg h]; exact ⟨[], rfl⟩

theorem skip_suffix (c : Cur) : ∃ u, c.text = u ++ (skip c).text := by
  unfold skip
  obtain ⟨u, hu⟩ := skipGo_suffix c.text 0 none
  split
  · next l rest h =>
    rw [h] at hu
    split
    · exact ⟨u, hu⟩
    · exact ⟨c.text, by simp [Cur.text]⟩
  · exact ⟨[], rfl⟩

theorem NoNl.mono {s u : Str} {r : Res} (h : NoNl s r) : NoNl (u ++ s) r := by
  intro v rest e
  obtain ⟨w, c, h1, h2⟩ := h v rest e
  exact ⟨u ++ w, c, by rw [h1]; simp, h2⟩

theorem parse_noNl (U : Uni) : ∀ n,
    (∀ c : Cur, NoNl c.text (parseExpr U n c)) ∧
    (∀ (c : Cur) vs, NoNl c.text (parseMembers U n c vs)) := by
  intro n
  induction n with
  | zero => constructor <;> intros <;> simp [parseExpr, parseMembers, noNl_out]
  | succ n ih =>
    obtain ⟨ihE, ihM⟩ := ih
    have wrapCase : ∀ (a : Char) (name s : Str), NoNl (a :: s) (wrap name (parseExpr U n (some s))) := by
      intro a name s
      have h := ihE (some s)
      cases hp : parseExpr U n (some s) with
      | ok v c =>
        rw [hp] at h
        intro v' r e
        simp only [wrap, Res.ok.injEq] at e
        obtain ⟨_, rfl⟩ := e
        obtain ⟨u, d, h1, h2⟩ := h v r rfl
        exact ⟨a :: u, d, by simp [Cur.text] at h1; simp [h1], h2⟩
      | no => exact noNl_no _
      | err => exact noNl_err _
      | out => exact noNl_out _
    constructor
    · intro c
      rw [parseExpr.eq_def]
      dsimp only
      split
      · next s hs =>
        rw [hs]
        obtain ⟨u, hu⟩ := skip_suffix (some s)
        have h := (ihM (skip (some s)) []).mono (u := '(' :: u)
        rw [List.cons_append, ← hu] at h
        exact h
      · next s hs => rw [hs]; exact wrapCase _ _ _
      · next s hs => rw [hs]; exact wrapCase _ _ _
      · exact parseAtom_noNl U _
    · intro c vs
      rw [parseMembers]
      have hE := ihE c
      cases hp : parseExpr U n c with
      | no =>
        dsimp only
        unfold close
        split
        · next s e => rw [e]; exact noNl_ok (u := []) rfl (by decide)
        · exact noNl_err _
      | err => exact noNl_err _
      | out => exact noNl_out _
      | ok v c' =>
        dsimp only
        cases c' with
        | none =>
          have hs : skip none = none := by simp [skip, Cur.text, skipGo]
          rw [hs]
          intro v' r e
          exact absurd e (members_broken U _ _ _ _)
        | some r =>
          obtain ⟨u, d, h1, _⟩ := hE v r hp
          obtain ⟨w, hw⟩ := skip_suffix (some r)
          have h := (ihM (skip (some r)) (vs ++ [v])).mono (u := u ++ d :: w)
          rw [List.append_assoc, List.cons_append, ← hw] at h
          rw [h1]
          exact h

/-! ### The whole configuration -/

theorem skipNl_close : skipNl c!")" = some c!")" := by decide

/-- The members of a list closed by `\n)` at the end of the text are read the same when something else
follows the newline; what follows is then read as further members. -/
theorem members_top (U : Uni) : ∀ n x vs v,
    parseMembers U n (some (x ++ c!"\n)")) vs = .ok v (some []) →
    ∃ ws, v = .list (vs ++ ws) ∧ ∀ t m R, parseMembers U m (skipNl t) (vs ++ ws) = R → R ≠ .out →
      ∃ m', parseMembers U m' (some (x ++ '\n' :: t)) vs = R := by
  intro n
  induction n with
  | zero => intro x vs v h; simp [parseMembers] at h
  | succ n ih =>
    intro x vs v h
    rw [parseMembers] at h
    cases hp : parseExpr U n (some (x ++ c!"\n)")) with
    | err => rw [hp] at h; simp at h
    | out => rw [hp] at h; simp at h
    | no =>
      rw [hp] at h
      dsimp only at h
      simp only [close, Cur.text, Option.getD_some] at h
      split at h
      · next s e =>
        obtain ⟨x', hx, hs⟩ := cons_nl_cases e (by decide)
        simp only [Res.ok.injEq, Option.some.injEq] at h
        rw [h.2] at hs; simp at hs
      · simp at h
    | ok v' c' =>
      rw [hp] at h
      dsimp only at h
      cases c' with
      | none =>
        have hs : skip none = none := by simp [skip, Cur.text, skipGo]
        rw [hs] at h; exact absurd h (members_broken U _ _ _ _)
      | some r =>
        have hlen : 1 < r.length := by
          by_contra hcon
          match r, hcon with
          | [], _ =>
            have hs : skip (some []) = some [] := by decide
            rw [hs] at h
            have := (parse_len U n).2 _ _ _ _ h
            simp [Cur.text] at this
          | [a], _ =>
            obtain ⟨u, d, h1, h2⟩ := (parse_noNl U n).1 _ v' _ hp
            simp only [Cur.text, Option.getD_some] at h1
            have h1' : x ++ ['\n'] ++ [')'] = u ++ [d] ++ [a] := by simpa using h1
            have h3 := List.append_inj' h1' rfl
            have h4 := List.append_inj' h3.1 rfl
            simp at h4
            exact h2 h4.2.symm
          | a :: b :: r, hcon => simp at hcon
        obtain ⟨y, rfl, hall⟩ := (parse_local U n).1 x c!")" v' r hp (by simpa using hlen)
        rcases skip_nl y with ⟨z, hz⟩ | hz | hz
        · rw [hz] at h
          obtain ⟨ws, hws, hrec⟩ := ih z (vs ++ [v']) v h
          refine ⟨v' :: ws, by simpa using hws, fun t m R hR hout => ?_⟩
          obtain ⟨m', hm'⟩ := hrec t m R (by simpa using hR) hout
          refine ⟨max n m' + 1, ?_⟩
          rw [parseMembers, parseExpr_mono U (by omega : n ≤ max n m') (by rw [hall]; simp), hall]
          dsimp only
          rw [hz, parseMembers_mono U (by omega : m' ≤ max n m') (by rw [hm']; exact hout), hm']
        · rw [hz] at h; exact absurd h (members_broken U _ _ _ _)
        · rw [hz, skipNl_close] at h
          obtain ⟨k, rfl⟩ : ∃ k, n = k + 2 := by
            match n, h with
            | 0, h => simp [parseMembers] at h
            | 1, h => simp [parseMembers, parseExpr] at h
            | k + 2, _ => exact ⟨k, rfl⟩
          rw [members_close] at h
          simp only [Res.ok.injEq, and_true] at h
          refine ⟨[v'], h.symm, fun t m R hR hout => ?_⟩
          refine ⟨max (k + 2) m + 1, ?_⟩
          rw [parseMembers, parseExpr_mono U (by omega : k + 2 ≤ max (k + 2) m) (by rw [hall]; simp), hall]
          dsimp only
          rw [hz, parseMembers_mono U (by omega : m ≤ max (k + 2) m) (by rw [hR]; exact hout), hR]

/-- The definition written for a macro. -/
def macroForm (name : Str) (cmds : List Str) : Value :=
  .list (.sym c!"defun" :: .sym name :: .nil :: cmds.map shForm)

theorem parse_macro (U : Uni) {name : Str} (hname : GoodSym U name) {xs : List Str}
    (hx : ∀ x ∈ xs, Plain x) (rest : Str) {n : Nat} (hn : xs.length + 11 ≤ n) :
    parseExpr U n (some (c!"(defun " ++ name ++ c!" ()\n" ++
      xs.flatMap (fun x => c!"  (sh \"" ++ x ++ c!"\")\n") ++ c!"\n)" ++ rest)) =
      .ok (macroForm name xs) (some rest) := by
  obtain ⟨m, rfl⟩ : ∃ m, n = m + 4 := ⟨n - 4, by omega⟩
  have hb := parse_body U xs hx rest [.sym c!"defun", .sym name, .nil] m (by omega)
  rw [show c!"(defun " ++ name ++ c!" ()\n" ++
      xs.flatMap (fun x => c!"  (sh \"" ++ x ++ c!"\")\n") ++ c!"\n)" ++ rest =
      '(' :: (c!"defun" ++ ' ' :: (name ++ ' ' :: '(' :: ')' :: ('\n' ::
        (xs.flatMap (fun x => c!"  (sh \"" ++ x ++ c!"\")\n") ++ '\n' :: ')' :: rest)))) by simp]
  rw [parseExpr.eq_def]
  simp only [Cur.text, Option.getD_some]
  rw [skip_some_of_not _ (by intro d hd; simp at hd; subst hd; decide)]
  rw [members_step U (parseExpr_sym U (goodSym_defun U) (break_space _) (m + 1))]
  have hsolid : Solid (name ++ ' ' :: '(' :: ')' :: ('\n' ::
        (xs.flatMap (fun x => c!"  (sh \"" ++ x ++ c!"\")\n") ++ '\n' :: ')' :: rest))) :=
    print_solid U (.sym name) (by simpa [Readable] using hname) _ (break_space _)
  rw [skip_space _ hsolid.head]
  rw [members_step U (parseExpr_sym U hname (break_space _) m)]
  rw [skip_space _ (head_solid (by decide))]
  obtain ⟨k, rfl⟩ : ∃ k, m = k + 3 := ⟨m - 3, by omega⟩
  rw [members_step U (parseExpr_unit U _ k)]
  simp only [List.nil_append, List.cons_append] at hb ⊢
  rw [hb]
  simp [macroForm]

/-- The text of a macro, without the newline in front. -/
def macroCore (name : Str) (cmds : List Str) : Str :=
  c!"(defun " ++ name ++ c!" ()\n" ++ (cmds.map escape).flatMap (fun x => c!"  (sh \"" ++ x ++ c!"\")\n") ++ c!"\n)"

theorem macroText_eq (name : Str) (cmds : List Str) :
    macroText name cmds = '\n' :: (macroCore name cmds ++ c!"\n") := by
  simp [macroText, macroCore, List.flatMap_map]

theorem read_macro (U : Uni) {name : Str} (hname : GoodSym U name) {cmds : List Str}
    (hx : ∀ x ∈ cmds, Plain (escape x)) {n : Nat} (hn : cmds.length + 11 ≤ n) :
    readFirst U n (macroText name cmds) = .val (macroForm name (cmds.map escape)) := by
  unfold readFirst
  have hs : skip (some (macroText name cmds)) = some (macroCore name cmds ++ c!"\n") := by
    rw [macroText_eq]
    exact skip_blank (pre := c!"\n") (by decide) (by intro d hd; simp [macroCore] at hd; subst hd; decide)
  rw [hs, macroCore, parse_macro U hname (by simpa using hx) c!"\n" (by simpa using hn)]

theorem trimEnd_append_blank (s w : Str) (hw : ∀ c ∈ w, rustWhitespace c = true) :
    trimEnd (s ++ w) = trimEnd s := by
  unfold trimEnd
  rw [List.reverse_append, List.dropWhile_append_of_pos (by simpa using hw)]

theorem trimEnd_solid (s : Str) {c : Char} (hc : rustWhitespace c = false) : trimEnd (s ++ [c]) = s ++ [c] := by
  simp [trimEnd, hc]

theorem trimStart_append {s w : Str} (h : trimStart s ≠ []) : trimStart (s ++ w) = trimStart s ++ w := by
  unfold trimStart at *
  induction s with
  | nil => simp at h
  | cons c s ih =>
    simp only [List.cons_append, List.dropWhile_cons] at h ⊢
    split
    · next hc => rw [if_pos hc] at h; exact ih h
    · rfl

theorem skipNl_blank (k : Nat) {s : Str} (hs : ∀ c, s.head? = some c → rustWhitespace c = false ∧ c ≠ ';') :
    skipNl (List.replicate k '\n' ++ s) = some s := by
  unfold skipNl
  rw [skipGo_blank _ (by intro c hc; rw [List.eq_of_mem_replicate hc]; decide) s hs]
  cases hl : (List.replicate k '\n').getLast? with
  | none => simp [oneByte]
  | some l =>
    have := List.eq_of_mem_replicate (List.mem_of_getLast? hl)
    subst this
    simp [oneByte]

theorem goodSym_begin (U : Uni) : GoodSym U c!"begin" where
  ne := by decide
  chars := by decide
  start := by intro c hc; simp at hc; subst hc; simp [isNumeric]
  last := by intro c hc; simp at hc; subst hc; decide
  const := by decide
  minus := by intro c t h; simp at h
  quote := by intro t h; simp at h

/-- A configuration that can be read is still read the same with a macro of plain commands behind it. -/
theorem config_append (U : Uni) {config : Str} {forms : List Value} {n k : Nat}
    (hread : parseExpr U n (some (wrapConfig config)) = .ok (.list forms) (some []))
    (hne : trim config ≠ []) (hend : trimStart config = trim config ++ List.replicate k '\n')
    {name : Str} (hname : GoodSym U name) {cmds : List Str} (hx : ∀ x ∈ cmds, Plain (escape x)) :
    ∃ n', parseExpr U n' (some (wrapConfig (config ++ macroText name cmds ++ c!"\n"))) =
      .ok (.list (forms ++ [macroForm name (cmds.map escape)])) (some []) := by
  have hstart : trimStart config ≠ [] := by rw [hend]; simp [hne]
  have htrim : trim (config ++ macroText name cmds ++ c!"\n") =
      trim config ++ '\n' :: (List.replicate k '\n' ++ macroCore name cmds) := by
    rw [trim, List.append_assoc, trimStart_append hstart, hend, macroText_eq]
    rw [show trim config ++ List.replicate k '\n' ++ ('\n' :: (macroCore name cmds ++ c!"\n") ++ c!"\n") =
      (trim config ++ (List.replicate k '\n' ++ ['\n']) ++ macroCore name cmds) ++ c!"\n\n" by simp]
    rw [trimEnd_append_blank _ _ (by decide)]
    rw [show List.replicate k '\n' ++ ['\n'] = '\n' :: List.replicate k '\n' by
      rw [← List.replicate_succ', List.replicate_succ]]
    rw [show trim config ++ '\n' :: List.replicate k '\n' ++ macroCore name cmds =
      (trim config ++ '\n' :: List.replicate k '\n' ++ (c!"(defun " ++ name ++ c!" ()\n" ++
        (cmds.map escape).flatMap (fun x => c!"  (sh \"" ++ x ++ c!"\")\n") ++ c!"\n")) ++ [')'] by
          simp [macroCore]]
    rw [trimEnd_solid _ (by decide)]
    simp [macroCore]
  have hP : ∀ n s, parseExpr U (n + 1) (some ('(' :: s)) = parseMembers U n (skip (some s)) [] := fun n s => by
    rw [parseExpr.eq_def]; rfl
  have hw : ∀ x, c!"(begin " ++ x ++ c!"\n)" = '(' :: ((c!"begin " ++ x) ++ c!"\n)") := fun x => by simp
  have hskip : ∀ x : Str, skip (some (c!"begin " ++ x)) = some (c!"begin " ++ x) := fun x =>
    skip_some_of_not _ (by intro d hd; simp at hd; subst hd; decide)
  cases n with
  | zero => simp [parseExpr] at hread
  | succ n =>
    rw [wrapConfig, hw, hP, List.append_assoc, hskip, ← List.append_assoc] at hread
    obtain ⟨ws, hws, hall⟩ := members_top U n _ _ _ hread
    simp only [Value.list.injEq, List.nil_append] at hws
    subst hws
    have hD : parseMembers U (cmds.length + 14)
        (skipNl (List.replicate k '\n' ++ (macroCore name cmds ++ c!"\n)"))) ([] ++ forms) =
        .ok (.list (forms ++ [macroForm name (cmds.map escape)])) (some []) := by
      rw [skipNl_blank _ (by intro d hd; simp [macroCore] at hd; subst hd; decide)]
      rw [macroCore, members_step U (parse_macro U hname (xs := cmds.map escape) (by simpa using hx) _
        (n := cmds.length + 13) (by simp))]
      rw [show c!"\n)" = c!"\n" ++ c!")" by rfl, skip_blank (by decide) (head_solid (by decide)), members_close]
      rfl
    obtain ⟨m', hm'⟩ := hall _ _ _ hD (by simp)
    refine ⟨m' + 1, ?_⟩
    rw [wrapConfig, htrim, hw, hP, List.append_assoc, hskip, ← List.append_assoc]
    rw [← hm']
    simp

end Dsh.Lisp
