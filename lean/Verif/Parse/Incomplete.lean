import Verif.Util
/-!
C08: when Enter asks for a continuation line: `dsh/src/parser/check.rs`.
-/
namespace Dsh.Incomplete

/-! ### Model -/

/-- State of the scan (check.rs:9-11). -/
structure St where
  quote : Option Char := none
  bs : Bool := false
  stack : List Char := []
deriving DecidableEq, Repr

/-- Pop if the innermost open bracket is `o` (check.rs:31-51). -/
def popIf (o : Char) (st : List Char) : List Char :=
  if st.head? = some o then st.tail else st

/-- One character (check.rs:13-54). -/
def step (s : St) (c : Char) : St :=
  if s.bs then { s with bs := false }
  else match s.quote with
    | some q =>
      if c = '\\' ∧ q = '"' then { s with bs := true }
      else if c = q then { s with quote := none }
      else s
    | none =>
      if c = '\\' then { s with bs := true }
      else if c = '\'' ∨ c = '"' then { s with quote := some c }
      else if c = '(' ∨ c = '[' ∨ c = '{' then { s with stack := c :: s.stack }
      else if c = ')' then { s with stack := popIf '(' s.stack }
      else if c = ']' then { s with stack := popIf '[' s.stack }
      else if c = '}' then { s with stack := popIf '{' s.stack }
      else s

/-- The scan. -/
def scan (s : St) (l : List Char) : St := l.foldl step s

/-- The trailing-operator check (check.rs:86-97). -/
def trailingOp (l : List Char) : Bool :=
  let r := (trimEnd l).reverse
  r.take 1 == c!"|" || r.take 2 == c!"&&" || r.take 2 == c!"||"

/-- `is_incomplete_input` (check.rs:7-99). -/
def isIncomplete (l : List Char) : Bool :=
  let s := scan {} l
  s.quote.isSome || !s.stack.isEmpty || s.bs || trailingOp l

/-! ### Specification -/

/-- The closing bracket for an opening one. -/
def closer (o : Char) : Char := if o = '(' then ')' else if o = '[' then ']' else '}'

/-- Opening brackets. -/
def isOpen (c : Char) : Prop := c = '(' ∨ c = '[' ∨ c = '{'

/-- The inside of double quotes: no quote and no backslash except in an escape pair. -/
inductive DqBody : List Char → Prop where
  | nil : DqBody []
  | plain {c l} : c ≠ '"' → c ≠ '\\' → DqBody l → DqBody (c :: l)
  | esc {c l} : DqBody l → DqBody ('\\' :: c :: l)

/-- Text in which every quote, escape and bracket is closed, read inside the bracket `k` (or at the
top).  A closing bracket that does not match is an ordinary character. -/
inductive Closed : Option Char → List Char → Prop where
  | nil {k} : Closed k []
  | plain {k c l} : c ≠ '\\' → c ≠ '\'' → c ≠ '"' → ¬ isOpen c → (∀ o, k = some o → c ≠ closer o) →
      Closed k l → Closed k (c :: l)
  | esc {k c l} : Closed k l → Closed k ('\\' :: c :: l)
  | single {k q l} : '\'' ∉ q → Closed k l → Closed k ('\'' :: (q ++ '\'' :: l))
  | double {k q l} : DqBody q → Closed k l → Closed k ('"' :: (q ++ '"' :: l))
  | group {k o b l} : isOpen o → Closed (some o) b → Closed k l → Closed k (o :: (b ++ closer o :: l))

/-- The line, without trailing white space, ends in `|` or `&&`. -/
def EndsInOperator (l : List Char) : Prop :=
  ∃ a ws, (∀ c ∈ ws, rustWhitespace c = true) ∧ (l = a ++ c!"|" ++ ws ∨ l = a ++ c!"&&" ++ ws)

/-! ### Proof -/

/-- Nothing is open. -/
def Accepts (s : St) : Prop := s.quote = none ∧ s.bs = false ∧ s.stack = []

/-- Reading with open brackets `st`. -/
def idle (st : List Char) : St := { stack := st }

/-- Text that closes the open brackets of a stack. -/
inductive Fin : List Char → List Char → Prop where
  | nil {l} : Closed none l → Fin [] l
  | cons {o st b l} : Closed (some o) b → Fin st l → Fin (o :: st) (b ++ closer o :: l)

theorem scan_cons (s c l) : scan s (c :: l) = scan (step s c) l := rfl
theorem scan_append (s a b) : scan s (a ++ b) = scan (scan s a) b := List.foldl_append ..

theorem scan_sq (st : List Char) : ∀ (q : List Char), '\'' ∉ q →
    scan { quote := some '\'', stack := st } q = { quote := some '\'', stack := st }
  | [], _ => rfl
  | c :: q, h => by
    have hc : c ≠ '\'' := fun e => h (by simp [e])
    rw [scan_cons]
    simp only [step, Bool.false_eq_true, if_false]
    rw [if_neg (by simp), if_neg hc]
    exact scan_sq st q (fun hm => h (List.mem_cons_of_mem _ hm))

theorem scan_dq (st : List Char) {q : List Char} (h : DqBody q) :
    scan { quote := some '"', stack := st } q = { quote := some '"', stack := st } := by
  induction h with
  | nil => rfl
  | plain h1 h2 _ ih =>
    rw [scan_cons]
    simp only [step, Bool.false_eq_true, if_false]
    rw [if_neg (by simp [h2]), if_neg h1]
    exact ih
  | esc _ ih => rw [scan_cons, scan_cons]; simpa [step] using ih

theorem popIf_ne {o : Char} {st : List Char} (h : st.head? ≠ some o) : popIf o st = st := by
  unfold popIf; rw [if_neg h]

/-- A closed text read inside `st` leaves the state alone. -/
theorem scan_closed {k l} (h : Closed k l) : ∀ st : List Char, st.head? = k →
    (∀ o ∈ st, isOpen o) → scan (idle st) l = idle st := by
  induction h with
  | nil => intro _ _ _; rfl
  | @plain k c l h1 h2 h3 h4 h5 _ ih =>
    intro st hk hst
    rw [scan_cons]
    have : step (idle st) c = idle st := by
      simp only [isOpen, not_or] at h4
      unfold step idle
      simp only [Bool.false_eq_true, if_false]
      rw [if_neg h1, if_neg (by simp [h2, h3]), if_neg (by simp [h4])]
      have hne : ∀ o, closer o = c → st.head? ≠ some o := by
        intro o ho e
        exact h5 o (hk ▸ e) ho.symm
      split
      · next e => subst e; rw [popIf_ne (hne '(' (by decide))]
      · split
        · next e => subst e; rw [popIf_ne (hne '[' (by decide))]
        · split
          · next e => subst e; rw [popIf_ne (hne '{' (by decide))]
          · rfl
    rw [this]
    exact ih st hk hst
  | esc _ ih =>
    intro st hk hst
    rw [scan_cons, scan_cons]
    exact ih st hk hst
  | single hq _ ih =>
    intro st hk hst
    rw [scan_cons, scan_append]
    have : step (idle st) '\'' = { quote := some '\'', stack := st } := rfl
    rw [this, scan_sq st _ hq, scan_cons]
    exact ih st hk hst
  | double hq _ ih =>
    intro st hk hst
    rw [scan_cons, scan_append]
    have : step (idle st) '"' = { quote := some '"', stack := st } := rfl
    rw [this, scan_dq st hq, scan_cons]
    exact ih st hk hst
  | @group k o b l ho _ _ ih1 ih2 =>
    intro st hk hst
    rw [scan_cons, scan_append]
    have e1 : step (idle st) o = idle (o :: st) := by rcases ho with rfl | rfl | rfl <;> rfl
    rw [e1, ih1 (o :: st) rfl (by
      intro x hx
      rcases List.mem_cons.1 hx with rfl | hx
      · exact ho
      · exact hst x hx), scan_cons]
    have e2 : step (idle (o :: st)) (closer o) = idle st := by rcases ho with rfl | rfl | rfl <;> rfl
    rw [e2]
    exact ih2 st hk hst

theorem sq_split (st : List Char) : ∀ (l : List Char), Accepts (scan { quote := some '\'', stack := st } l) →
    ∃ q r, l = q ++ '\'' :: r ∧ '\'' ∉ q ∧ Accepts (scan (idle st) r)
  | [], h => by simp [Accepts, scan] at h
  | c :: l, h => by
    by_cases hc : c = '\''
    · subst hc
      exact ⟨[], l, rfl, by simp, h⟩
    · rw [scan_cons] at h
      simp only [step, Bool.false_eq_true, if_false] at h
      rw [if_neg (by simp), if_neg hc] at h
      obtain ⟨q, r, h1, h2, h3⟩ := sq_split st l h
      exact ⟨c :: q, r, by rw [h1]; rfl, by simp [h2, Ne.symm hc], h3⟩

theorem dq_split (st : List Char) : ∀ (l : List Char), Accepts (scan { quote := some '"', stack := st } l) →
    ∃ q r, l = q ++ '"' :: r ∧ DqBody q ∧ Accepts (scan (idle st) r)
  | [], h => by simp [Accepts, scan] at h
  | [c], h => by
    by_cases hc : c = '"'
    · subst hc
      exact ⟨[], [], rfl, .nil, h⟩
    · exfalso
      rw [scan_cons] at h
      simp only [step, Bool.false_eq_true, if_false] at h
      by_cases hb : c = '\\'
      · rw [if_pos (by simp [hb])] at h; simp [Accepts, scan] at h
      · rw [if_neg (by simp [hb]), if_neg hc] at h; simp [Accepts, scan] at h
  | c :: d :: l, h => by
    by_cases hc : c = '"'
    · subst hc
      exact ⟨[], d :: l, rfl, .nil, h⟩
    · by_cases hb : c = '\\'
      · subst hb
        obtain ⟨q, r, h1, h2, h3⟩ := dq_split st l h
        exact ⟨'\\' :: d :: q, r, by rw [h1]; rfl, .esc h2, h3⟩
      · rw [scan_cons] at h
        simp only [step, Bool.false_eq_true, if_false] at h
        rw [if_neg (by simp [hb]), if_neg hc] at h
        obtain ⟨q, r, h1, h2, h3⟩ := dq_split st (d :: l) h
        exact ⟨c :: q, r, by rw [h1]; rfl, .plain hc hb h2, h3⟩

/-- Prefixing an element to the text that finishes a stack. -/
theorem Fin.extend {st l} (h : Fin st l) {pre : List Char}
    (hp : ∀ l', Closed st.head? l' → Closed st.head? (pre ++ l')) : Fin st (pre ++ l) := by
  cases h with
  | nil h => exact .nil (hp _ h)
  | cons h1 h2 => rw [← List.append_assoc]; exact .cons (hp _ h1) h2

theorem fin_of_accepts : ∀ (n : Nat) (l : List Char), l.length ≤ n → ∀ st : List Char, (∀ o ∈ st, isOpen o) →
    Accepts (scan (idle st) l) → Fin st l := by
  intro n
  induction n with
  | zero =>
    intro l hl st _ h
    cases l with
    | nil =>
      have : st = [] := h.2.2
      subst this
      exact .nil .nil
    | cons _ _ => simp at hl
  | succ n ih =>
    intro l hl st hst h
    cases l with
    | nil =>
      have : st = [] := h.2.2
      subst this
      exact .nil .nil
    | cons c l =>
      simp only [List.length_cons, Nat.succ_le_succ_iff] at hl
      by_cases hb : c = '\\'
      · subst hb
        cases l with
        | nil => simp [Accepts, scan, step, idle] at h
        | cons d l =>
          have := ih l (by simp at hl; omega) st hst h
          exact this.extend (pre := ['\\', d]) (fun l' h' => .esc h')
      by_cases hs : c = '\''
      · subst hs
        obtain ⟨q, r, h1, h2, h3⟩ := sq_split st l h
        subst h1
        have := ih r (by simp at hl; omega) st hst h3
        have := this.extend (pre := '\'' :: (q ++ ['\''])) (fun l' h' => by
          have := Closed.single h2 h'
          simpa using this)
        simpa using this
      by_cases hd : c = '"'
      · subst hd
        obtain ⟨q, r, h1, h2, h3⟩ := dq_split st l h
        subst h1
        have := ih r (by simp at hl; omega) st hst h3
        have := this.extend (pre := '"' :: (q ++ ['"'])) (fun l' h' => by
          have := Closed.double h2 h'
          simpa using this)
        simpa using this
      by_cases ho : isOpen c
      · have e1 : step (idle st) c = idle (c :: st) := by rcases ho with rfl | rfl | rfl <;> rfl
        rw [scan_cons, e1] at h
        have := ih l hl (c :: st) (by
          intro x hx
          rcases List.mem_cons.1 hx with rfl | hx
          · exact ho
          · exact hst x hx) h
        cases this with
        | @cons _ _ b r h1 h2 =>
          have := h2.extend (pre := c :: (b ++ [closer c])) (fun l' h' => by
            have := Closed.group ho h1 h'
            simpa using this)
          simpa using this
      by_cases hcl : ∃ o, st.head? = some o ∧ c = closer o
      · obtain ⟨o, h1, h2⟩ := hcl
        cases st with
        | nil => simp at h1
        | cons o' st =>
          simp only [List.head?_cons, Option.some.injEq] at h1
          subst h1 h2
          have hoo : isOpen o' := hst o' (by simp)
          have e2 : step (idle (o' :: st)) (closer o') = idle st := by
            rcases hoo with rfl | rfl | rfl <;> rfl
          rw [scan_cons, e2] at h
          have := ih l hl st (fun x hx => hst x (List.mem_cons_of_mem _ hx)) h
          exact .cons (b := []) .nil this
      · have hcl' : ∀ o, st.head? = some o → c ≠ closer o := fun o h1 h2 => hcl ⟨o, h1, h2⟩
        have hplain : ∀ l', Closed st.head? l' → Closed st.head? ([c] ++ l') :=
          fun l' h' => .plain hb hs hd ho hcl' h'
        have e : step (idle st) c = idle st := by
          have h4 := ho
          simp only [isOpen, not_or] at h4
          unfold step idle
          simp only [Bool.false_eq_true, if_false]
          rw [if_neg hb, if_neg (by simp [hs, hd]), if_neg (by simp [h4])]
          have hne : ∀ o, closer o = c → st.head? ≠ some o := fun o ho e => hcl' o e ho.symm
          split
          · next e => subst e; rw [popIf_ne (hne '(' (by decide))]
          · split
            · next e => subst e; rw [popIf_ne (hne '[' (by decide))]
            · split
              · next e => subst e; rw [popIf_ne (hne '{' (by decide))]
              · rfl
        rw [scan_cons, e] at h
        exact (ih l hl st hst h).extend hplain

theorem accepts_iff_closed (l : List Char) : Accepts (scan {} l) ↔ Closed none l := by
  constructor
  · intro h
    have := fin_of_accepts l.length l (Nat.le_refl _) [] (by simp) h
    cases this with
    | nil h => exact h
  · intro h
    have := scan_closed h [] rfl (by simp)
    show Accepts (scan (idle []) l)
    rw [this]
    exact ⟨rfl, rfl, rfl⟩

theorem dropWhile_split (p : Char → Bool) (l : List Char) :
    ∃ a, l = a ++ l.dropWhile p ∧ ∀ c ∈ a, p c = true := by
  refine ⟨l.takeWhile p, List.takeWhile_append_dropWhile.symm, ?_⟩
  intro c hc
  induction l with
  | nil => simp at hc
  | cons d l ih =>
    rw [List.takeWhile_cons] at hc
    split at hc
    · next h =>
      rcases List.mem_cons.1 hc with rfl | hc
      · exact h
      · exact ih hc
    · simp at hc

theorem dropWhile_ws_append (p : Char → Bool) (ws l : List Char) (h : ∀ c ∈ ws, p c = true) :
    (ws ++ l).dropWhile p = l.dropWhile p := by
  induction ws with
  | nil => rfl
  | cons d ws ih =>
    rw [List.cons_append, List.dropWhile_cons, if_pos (h d (by simp))]
    exact ih (fun c hc => h c (List.mem_cons_of_mem _ hc))

theorem trailingOp_iff (l : List Char) : trailingOp l = true ↔ EndsInOperator l := by
  unfold trailingOp trimEnd
  simp only [List.reverse_reverse, Bool.or_eq_true, beq_iff_eq]
  constructor
  · intro h
    obtain ⟨ws, h1, h2⟩ := dropWhile_split rustWhitespace l.reverse
    generalize hr : l.reverse.dropWhile rustWhitespace = r at h h1
    have hl : l = r.reverse ++ ws.reverse := by
      have := congrArg List.reverse h1
      simpa using this
    rcases h with (h | h) | h
    · cases r with
      | nil => simp at h
      | cons a r =>
        simp only [List.take_succ_cons, List.take_zero, List.cons.injEq, and_true] at h
        subst h
        exact ⟨r.reverse, ws.reverse, by simpa using h2, .inl (by simpa using hl)⟩
    · cases r with
      | nil => simp at h
      | cons a r =>
        cases r with
        | nil => simp at h
        | cons b r =>
          simp only [List.take_succ_cons, List.take_zero, List.cons.injEq, and_true] at h
          obtain ⟨rfl, rfl⟩ := h
          exact ⟨r.reverse, ws.reverse, by simpa using h2, .inr (by simpa using hl)⟩
    · cases r with
      | nil => simp at h
      | cons a r =>
        cases r with
        | nil => simp at h
        | cons b r =>
          simp only [List.take_succ_cons, List.take_zero, List.cons.injEq, and_true] at h
          obtain ⟨rfl, rfl⟩ := h
          exact ⟨r.reverse ++ ['|'], ws.reverse, by simpa using h2, .inl (by simpa using hl)⟩
  · rintro ⟨a, ws, h1, h2⟩
    rcases h2 with rfl | rfl
    · left; left
      simp only [List.reverse_append]
      rw [dropWhile_ws_append _ _ _ (by simpa using h1)]
      simp [rustWhitespace]
    · left; right
      simp only [List.reverse_append]
      rw [dropWhile_ws_append _ _ _ (by simpa using h1)]
      simp [rustWhitespace]

/-- **C08.** Enter asks for more input exactly when the line is not closed (an open quote, bracket
or escape) or ends in `|` or `&&` (or `||`). -/
theorem C08_incomplete_iff (l : List Char) :
    isIncomplete l = true ↔ ¬ Closed none l ∨ EndsInOperator l := by
  rw [← accepts_iff_closed, ← trailingOp_iff]
  unfold isIncomplete Accepts
  simp only [Bool.or_eq_true, Bool.not_eq_true', Option.isSome_iff_ne_none]
  constructor
  · rintro (((h | h) | h) | h)
    · exact .inl (fun x => h x.1)
    · exact .inl (fun x => by rw [x.2.2] at h; simp at h)
    · exact .inl (fun x => by rw [x.2.1] at h; simp at h)
    · exact .inr h
  · rintro (h | h)
    · by_cases h1 : (scan {} l).quote = none
      · by_cases h2 : (scan {} l).bs = true
        · exact .inl (.inr h2)
        · refine .inl (.inl (.inr ?_))
          cases h3 : (scan {} l).stack with
          | nil => exact absurd ⟨h1, by simpa using h2, h3⟩ h
          | cons _ _ => rfl
      · exact .inl (.inl (.inl h1))
    · exact .inr h

/-- The closers that are missing after a scan: the escaped character, the quote, the brackets from
the inside out. -/
def missing (s : St) : List Char :=
  (if s.bs then ['\n'] else []) ++ s.quote.toList ++ s.stack.map closer

theorem reach_inv (l : List Char) : ∀ s : St,
    ((s.quote = none ∨ s.quote = some '\'' ∧ s.bs = false ∨ s.quote = some '"') ∧ ∀ o ∈ s.stack, isOpen o) →
    (((scan s l).quote = none ∨ (scan s l).quote = some '\'' ∧ (scan s l).bs = false ∨
      (scan s l).quote = some '"') ∧ ∀ o ∈ (scan s l).stack, isOpen o) := by
  induction l with
  | nil => intro s h; exact h
  | cons c l ih =>
    intro s h
    rw [scan_cons]
    apply ih
    obtain ⟨q, bs, st⟩ := s
    obtain ⟨h1, h2⟩ := h
    have hpop : ∀ o, ∀ x ∈ popIf o st, isOpen x := by
      intro o x hx
      unfold popIf at hx
      split at hx
      · exact h2 x (List.mem_of_mem_tail hx)
      · exact h2 x hx
    unfold step
    simp only
    split
    · refine ⟨?_, h2⟩
      rcases h1 with h | h | h
      · exact .inl h
      · exact .inr (.inl ⟨h.1, rfl⟩)
      · exact .inr (.inr h)
    · split
      · next q' =>
        split
        · next hq => exact ⟨.inr (.inr (by simp [hq.2])), h2⟩
        · split
          · exact ⟨.inl rfl, h2⟩
          · exact ⟨h1, h2⟩
      · split
        · exact ⟨.inl rfl, h2⟩
        · split
          · next hbs _ _ hq =>
            refine ⟨?_, h2⟩
            rcases hq with rfl | rfl
            · exact .inr (.inl ⟨rfl, by simpa using hbs⟩)
            · exact .inr (.inr rfl)
          · split
            · next ho =>
              refine ⟨.inl rfl, ?_⟩
              intro o hm
              rcases List.mem_cons.1 hm with rfl | hm
              · exact ho
              · exact h2 o hm
            · split
              · exact ⟨.inl rfl, hpop _⟩
              · split
                · exact ⟨.inl rfl, hpop _⟩
                · split
                  · exact ⟨.inl rfl, hpop _⟩
                  · exact ⟨.inl rfl, h2⟩

theorem close_brackets : ∀ st : List Char, (∀ o ∈ st, isOpen o) → scan (idle st) (st.map closer) = idle []
  | [], _ => rfl
  | o :: st, h => by
    have e2 : step (idle (o :: st)) (closer o) = idle st := by
      rcases h o (by simp) with rfl | rfl | rfl <;> rfl
    rw [List.map_cons, scan_cons, e2]
    exact close_brackets st (fun x hx => h x (List.mem_cons_of_mem _ hx))

/-- **C08, closing.** Every line can be finished: typing the missing closers (a character after a
trailing backslash, then the quote, then the brackets from the inside out) gives a closed line,
and nothing is missing exactly when the line is closed already. -/
theorem C08_close (l : List Char) :
    Closed none (l ++ missing (scan {} l)) ∧ (missing (scan {} l) = [] ↔ Closed none l) := by
  constructor
  · rw [← accepts_iff_closed, scan_append]
    have inv := reach_inv l {} ⟨.inl rfl, by simp⟩
    generalize scan {} l = s at inv
    obtain ⟨q, bs, st⟩ := s
    obtain ⟨h1, h2⟩ := inv
    simp only at h1 h2
    unfold missing
    rw [scan_append, scan_append]
    have key : scan (scan { quote := q, bs := bs, stack := st } (if bs then ['\n'] else [])) q.toList
        = idle st := by
      cases bs with
      | true =>
        rcases h1 with rfl | h | rfl
        · rfl
        · simp at h
        · rfl
      | false =>
        rcases h1 with rfl | ⟨rfl, -⟩ | rfl <;> rfl
    simp only at key ⊢
    rw [key, close_brackets st h2]
    exact ⟨rfl, rfl, rfl⟩
  · rw [← accepts_iff_closed]
    unfold missing Accepts
    generalize scan {} l = s
    obtain ⟨q, bs, st⟩ := s
    cases q <;> cases bs <;> cases st <;> simp

example : missing (scan {} c!"echo \"a ( \\\" b") = c!"\"" ∧ missing (scan {} c!"(let [x {1 ')'") = c!"}])" := by
  decide
example : Closed none c!"f (a ']' [x\\)]) )" := by
  rw [← accepts_iff_closed]; unfold Accepts; decide +kernel
example : isIncomplete c!"f (a" = true := (C08_incomplete_iff _).2 (.inl (by
  rw [← accepts_iff_closed]; unfold Accepts; decide))

/-- **C08 fails** in one respect: an operator character that is escaped, i.e. an ordinary argument,
still asks for more input; so does one after `#`. -/
theorem C08_escaped_operator_violated :
    isIncomplete c!"echo \\|" = true ∧ isIncomplete c!"echo \\&&" = true := by decide

end Dsh.Incomplete
