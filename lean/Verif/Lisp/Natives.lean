import Verif.Lisp.TailProps
/-!
Comparing, calculating and printing (C85, C86, C89): `Ord`/`PartialOrd`/`PartialEq` and the arithmetic of values
(dsh/src/lisp/model/value.rs), the functions of dsh/src/lisp/stdlib/math.rs, printing functions
(model/lambda.rs).
-/
namespace Dsh.Lisp

/-! ### Comparing -/

/-- What `Debug` writes is not modelled; the text is never reached. -/
inductive Order where
  | less
  | equal
  | greater
deriving DecidableEq

mutual
/-- `PartialOrd::partial_cmp` (model/value.rs:380-382), to a given depth of recursion; `none`: not ended. -/
def partialCmp (byText : Value → Value → Order) : Nat → Value → Value → Option (Option Order)
  | 0, _, _ => none
  | n + 1, a, b => (cmp byText n a b).map some
/-- `Ord::cmp` (model/value.rs:528-533). -/
def cmp (byText : Value → Value → Order) : Nat → Value → Value → Option Order
  | 0, _, _ => none
  | n + 1, a, b =>
    match partialCmp byText n a b with
    | none => none
    | some (some o) => some o
    | some none => some (byText a b)
end

/-- A comparison function of the language with its two arguments (default_environment.rs:455-493); `none`: not
ended. -/
def compareFn (byText : Value → Value → Order) (n : Nat) (op : Option Order → Bool) (args : List Value) : Option Ret :=
  match args with
  | a :: b :: _ =>
    match partialCmp byText n a b with
    | none => none
    | some o => some (.val (if op o then .tt else .ff))
  | _ => some .err

/-- Inserting into a sorted list by comparing. -/
def insertBy (lt : Value → Value → Option Bool) (v : Value) : List Value → Option (List Value)
  | [] => some [v]
  | w :: l =>
    match lt v w with
    | none => none
    | some true => some (v :: w :: l)
    | some false => (insertBy lt v l).map (w :: ·)

def sortBy' (lt : Value → Value → Option Bool) : List Value → Option (List Value)
  | [] => some []
  | v :: l =>
    match sortBy' lt l with
    | none => none
    | some l => insertBy lt v l

/-- `sort` (stdlib/list.rs:53-64): a sort by comparisons (here by insertion). -/
def sortFn (byText : Value → Value → Order) (n : Nat) (args : List Value) : Option Ret :=
  match args with
  | .list l :: _ =>
    (sortBy' (fun a b => (partialCmp byText n a b).map (· == some .less)) l).map (fun l => .val (.list l))
  | _ => some .err

mutual
/-- `PartialEq::eq` (model/value.rs:348-374): native functions are never equal; floats are compared as they
print (their bits determine the text and conversely). -/
def valueEq : Value → Value → Bool
  | .tt, .tt => true
  | .ff, .ff => true
  | .int a, .int b => a == b
  | .float a, .float b => floatText a == floatText b
  | .str a, .str b => a == b
  | .sym a, .sym b => a == b
  | .list a, .list b => valuesEq a b
  | .lam e a b, .lam e' a' b' => e == e' && a == a' && valuesEq b b'
  | .mac e a b, .mac e' a' b' => e == e' && a == a' && valuesEq b b'
  | .tail f a, .tail f' a' => valueEq f f' && valuesEq a a'
  | _, _ => false
def valuesEq : List Value → List Value → Bool
  | [], [] => true
  | a :: l, b :: m => valueEq a b && valuesEq l m
  | _, _ => false
end

theorem cmp_never (byText : Value → Value → Order) : ∀ n a b,
    partialCmp byText n a b = none ∧ cmp byText n a b = none := by
  intro n
  induction n with
  | zero => intro a b; simp [partialCmp, cmp]
  | succ n ih => intro a b; simp [partialCmp, cmp, ih a b]

/-- C85 is false: no comparison of two values ever ends, whatever they are. -/
theorem C85_compare_violated (byText : Value → Value → Order) (op : Option Order → Bool) (a b : Value) (l : List Value) (n : Nat) :
    compareFn byText n op (a :: b :: l) = none := by
  simp [compareFn, (cmp_never byText n a b).1]

/-- C85 is false of sorting: no list with two or more elements is ever sorted. -/
theorem C85_sort_violated (byText : Value → Value → Order) (a b : Value) (l args : List Value) (n : Nat) :
    sortFn byText n (.list (a :: b :: l) :: args) = none := by
  have hi : ∀ (v w : Value) (l : List Value),
      insertBy (fun a b => (partialCmp byText n a b).map (· == some .less)) v (w :: l) = none := by
    intro v w l
    simp [insertBy, (cmp_never byText n v w).1]
  have hs : ∀ (l : List Value), sortBy' (fun a b => (partialCmp byText n a b).map (· == some .less)) l = none ∨
      ∃ l', sortBy' (fun a b => (partialCmp byText n a b).map (· == some .less)) l = some l' ∧ l'.length = l.length := by
    intro l
    induction l with
    | nil => right; exact ⟨[], rfl, rfl⟩
    | cons v l ih =>
      rcases ih with h | ⟨l', h, hl⟩
      · left; simp [sortBy', h]
      · cases l' with
        | nil =>
          right
          refine ⟨[v], by simp [sortBy', h, insertBy], ?_⟩
          cases l with
          | nil => rfl
          | cons _ _ => simp at hl
        | cons w l' => left; simp [sortBy', h, hi]
  have : sortBy' (fun a b => (partialCmp byText n a b).map (· == some .less)) (a :: b :: l) = none := by
    rcases hs (b :: l) with h | ⟨l', h, hl⟩
    · rw [sortBy', h]
    · cases l' with
      | nil => simp at hl
      | cons w l' => rw [sortBy', h]; exact hi a w l'
  simp [sortFn, this]

/-- C85 (partial): lists of at most one element are sorted. -/
theorem C85_sort_partial (byText : Value → Value → Order) (n : Nat) (v : Value) (args : List Value) :
    sortFn byText n (.list [] :: args) = some (.val (.list [])) ∧
    sortFn byText n (.list [v] :: args) = some (.val (.list [v])) := by
  simp [sortFn, sortBy', insertBy]

mutual
/-- Values without native functions and floats. -/
def Comparable : Value → Prop
  | .native _ => False
  | .float _ => False
  | .list l => ComparableL l
  | .lam _ _ b => ComparableL b
  | .mac _ _ b => ComparableL b
  | .tail f a => Comparable f ∧ ComparableL a
  | _ => True
def ComparableL : List Value → Prop
  | [] => True
  | v :: l => Comparable v ∧ ComparableL l
end

mutual
theorem valueEq_eq : ∀ (a b : Value), valueEq a b = true → Comparable a → a = b
  | .tt, b, h, _ => by cases b <;> simp_all [valueEq]
  | .ff, b, h, _ => by cases b <;> simp_all [valueEq]
  | .int a, b, h, _ => by cases b <;> simp_all [valueEq]
  | .float a, b, _, hc => by simp [Comparable] at hc
  | .str a, b, h, _ => by cases b <;> simp_all [valueEq]
  | .sym a, b, h, _ => by cases b <;> simp_all [valueEq]
  | .list a, b, h, hc => by
    simp only [Comparable] at hc
    cases b <;> simp only [valueEq] at h <;> first | contradiction | rw [valuesEq_eq a _ h hc]
  | .native a, b, _, hc => by simp [Comparable] at hc
  | .lam e a l, b, h, hc => by
    simp only [Comparable] at hc
    cases b <;> simp only [valueEq, Bool.and_eq_true, beq_iff_eq] at h <;>
      first | contradiction | rw [valuesEq_eq l _ h.2 hc, h.1.1, h.1.2]
  | .mac e a l, b, h, hc => by
    simp only [Comparable] at hc
    cases b <;> simp only [valueEq, Bool.and_eq_true, beq_iff_eq] at h <;>
      first | contradiction | rw [valuesEq_eq l _ h.2 hc, h.1.1, h.1.2]
  | .tail f a, b, h, hc => by
    simp only [Comparable] at hc
    cases b <;> simp only [valueEq, Bool.and_eq_true] at h <;>
      first | contradiction | rw [valueEq_eq f _ h.1 hc.1, valuesEq_eq a _ h.2 hc.2]
theorem valuesEq_eq : ∀ (a b : List Value), valuesEq a b = true → ComparableL a → a = b
  | [], b, h, _ => by cases b <;> simp_all [valuesEq]
  | a :: l, b, h, hc => by
    cases b with
    | nil => simp [valuesEq] at h
    | cons b m =>
      simp only [valuesEq, Bool.and_eq_true] at h
      rw [valueEq_eq a b h.1 hc.1, valuesEq_eq l m h.2 hc.2]
end

mutual
theorem valueEq_refl : ∀ (a : Value), Comparable a → valueEq a a = true
  | .tt, _ => rfl
  | .ff, _ => rfl
  | .int a, _ => by simp [valueEq]
  | .float a, hc => by simp [Comparable] at hc
  | .str a, _ => by simp [valueEq]
  | .sym a, _ => by simp [valueEq]
  | .list a, hc => by simp only [Comparable] at hc; simp [valueEq, valuesEq_refl a hc]
  | .native a, hc => by simp [Comparable] at hc
  | .lam e a l, hc => by simp only [Comparable] at hc; simp [valueEq, valuesEq_refl l hc]
  | .mac e a l, hc => by simp only [Comparable] at hc; simp [valueEq, valuesEq_refl l hc]
  | .tail f a, hc => by
    simp only [Comparable] at hc
    simp [valueEq, valueEq_refl f hc.1, valuesEq_refl a hc.2]
theorem valuesEq_refl : ∀ (a : List Value), ComparableL a → valuesEq a a = true
  | [], _ => rfl
  | a :: l, hc => by simp [valuesEq, valueEq_refl a hc.1, valuesEq_refl l hc.2]
end

/-- C85 (partial): `==` ends and decides equality of values without native functions and floats. -/
theorem C85_equal_partial {a : Value} (hc : Comparable a) (b : Value) : valueEq a b = true ↔ a = b :=
  ⟨fun h => valueEq_eq a b h hc, fun h => h ▸ valueEq_refl a hc⟩

/-- C85 is false of native functions: none is equal to itself. -/
theorem C85_native_violated (n : Str) : valueEq (.native n) (.native n) = false := rfl

example : valueEq (.list [.int 1, .list [.str c!"a", .sym c!"b"]]) (.list [.int 1, .list [.str c!"a", .sym c!"b"]]) = true ∧
    valueEq (.list [.int 1]) (.list [.int 1, .int 2]) = false := by decide

/-! ### Calculating -/

/-- An `i64`. -/
def I64 (i : Int) : Prop := -9223372036854775808 ≤ i ∧ i ≤ 9223372036854775807

instance (i : Int) : Decidable (I64 i) := inferInstanceAs (Decidable (_ ∧ _))

/-- The `i64` with these 64 bits. -/
def wrap64 (i : Int) : Int := (i + 9223372036854775808) % 18446744073709551616 - 9223372036854775808

/-- The result of `+`, `-` or `*` of two `i64` in Rust; builds with overflow checks (`cargo build`) panic,
release builds wrap.  `none`: panic. -/
def arith (checks : Bool) (i : Int) : Option Int :=
  if I64 i then some i else if checks then none else some (wrap64 i)

/-- `a / b` in Rust (towards zero): panics for a zero divisor and when the quotient is no `i64`, in every
build. -/
def divI (a b : Int) : Option Int := if b = 0 ∨ ¬ I64 (a.tdiv b) then none else some (a.tdiv b)

/-- `(+ …)` of integers (stdlib/math.rs:20-46). -/
def sumFn (checks : Bool) (args : List Int) : Ret :=
  if args.length < 2 then .err
  else match args.foldl (fun t a => t.bind (fun t => arith checks (t + a))) (some 0) with
    | some i => .val (.int i)
    | none => .crash

/-- `(- a b)` of integers (stdlib/math.rs:48-58). -/
def diffFn (checks : Bool) (a b : Int) : Ret :=
  match arith checks (a - b) with
  | some i => .val (.int i)
  | none => .crash

/-- `(* …)` of integers (stdlib/math.rs:60-73). -/
def prodFn (checks : Bool) (args : List Int) : Ret :=
  match args.foldl (fun t a => t.bind (fun t => arith checks (t * a))) (some 1) with
  | some i => .val (.int i)
  | none => .crash

/-- `(/ a b)` (stdlib/math.rs:75-85 with model/value.rs:487) and `(truncate a b)` (stdlib/math.rs:87-103) of
integers. -/
def divFn (a b : Int) : Ret :=
  match divI a b with
  | some i => .val (.int i)
  | none => .crash

/-- The numbers `(range a b)` collects (stdlib/math.rs:105-134) until `b` comes up, within `n` steps of a
build without overflow checks. -/
def rangeGo : Nat → Int → Int → Option (List Int)
  | 0, _, _ => none
  | n + 1, a, b => if a = b then some [] else (rangeGo n (wrap64 (a + 1)) b).map (a :: ·)

theorem wrap64_of {i : Int} (h : I64 i) : wrap64 i = i := by
  unfold wrap64
  unfold I64 at h
  omega

/-- C86: division ends the shell exactly when the divisor is zero or the quotient is too large by one. -/
theorem C86_division_violated {a b : Int} (ha : I64 a) :
    divFn a b = .crash ↔ b = 0 ∨ (a = -9223372036854775808 ∧ b = -1) := by
  unfold divFn divI
  have key : (b = 0 ∨ ¬ I64 (a.tdiv b)) ↔ b = 0 ∨ (a = -9223372036854775808 ∧ b = -1) := by
    by_cases hb : b = 0
    · simp [hb]
    · simp only [hb, false_or]
      have habs : (a.tdiv b).natAbs = a.natAbs / b.natAbs := Int.natAbs_tdiv a b
      constructor
      · intro h
        by_cases hb1 : b.natAbs = 1
        · rcases Int.natAbs_eq b with h1 | h1
          · rw [hb1] at h1
            have : b = 1 := by omega
            subst this
            rw [Int.tdiv_one] at h
            exact absurd ha h
          · rw [hb1] at h1
            have hb' : b = -1 := by omega
            subst hb'
            rw [show (-1 : Int) = -(1 : Int) from rfl, Int.tdiv_neg, Int.tdiv_one] at h
            unfold I64 at h ha
            exact ⟨by omega, rfl⟩
        · exfalso
          apply h
          have hb2 : 2 ≤ b.natAbs := by omega
          have h2 : a.natAbs / b.natAbs ≤ a.natAbs / 2 := Nat.div_le_div_left hb2 (by omega)
          unfold I64 at ha ⊢
          omega
      · rintro ⟨rfl, rfl⟩
        decide
  by_cases h : b = 0 ∨ ¬ I64 (a.tdiv b)
  · rw [if_pos h]
    exact ⟨fun _ => key.1 h, fun _ => rfl⟩
  · rw [if_neg h]
    constructor
    · intro h'; simp at h'
    · intro h'; exact absurd (key.2 h') h

example : divFn 7 0 = .crash ∧ divFn (-7) 2 = .val (.int (-3)) := by decide

/-- C86 (partial: release builds): sums, differences and products never end the shell, and give an `i64`. -/
theorem C86_arithmetic_partial {args : List Int} (a b : Int) :
    (∃ i, I64 i ∧ sumFn false (a :: b :: args) = .val (.int i)) ∧ (∃ i, I64 i ∧ diffFn false a b = .val (.int i)) ∧
      ∃ i, I64 i ∧ prodFn false args = .val (.int i) := by
  have hw : ∀ i, ∃ j, I64 j ∧ arith false i = some j := by
    intro i
    unfold arith
    by_cases h : I64 i
    · exact ⟨i, h, by rw [if_pos h]⟩
    · refine ⟨wrap64 i, ?_, by rw [if_neg h]; rfl⟩
      unfold I64 wrap64
      omega
  have hf : ∀ (f : Int → Int → Int) (l : List Int) (t : Int), I64 t →
      ∃ i, I64 i ∧ l.foldl (fun t a => t.bind (fun t => arith false (f t a))) (some t) = some i := by
    intro f l
    induction l with
    | nil => intro t ht; exact ⟨t, ht, rfl⟩
    | cons x l ih =>
      intro t ht
      obtain ⟨j, hj, he⟩ := hw (f t x)
      obtain ⟨i, hi, h2⟩ := ih j hj
      exact ⟨i, hi, by rw [List.foldl_cons]; simp only [Option.bind_some, he]; exact h2⟩
  refine ⟨?_, ?_, ?_⟩
  · obtain ⟨i, hi, h⟩ := hf (· + ·) (a :: b :: args) 0 (by decide)
    refine ⟨i, hi, ?_⟩
    unfold sumFn
    rw [if_neg (by simp), h]
  · obtain ⟨i, hi, h⟩ := hw (a - b)
    exact ⟨i, hi, by simp [diffFn, h]⟩
  · obtain ⟨i, hi, h⟩ := hf (· * ·) args 1 (by decide)
    exact ⟨i, hi, by simp [prodFn, h]⟩

/-- C86 (partial): counting up ends with exactly the numbers from `a` to before `b`. -/
theorem C86_range_partial (a b : Int) (hb : I64 b) (ha : I64 a) (hab : a ≤ b) :
    rangeGo ((b - a).toNat + 1) a b = some ((List.range (b - a).toNat).map (fun i : Nat => a + (i : Int))) := by
  have key : ∀ (n : Nat) (a : Int), I64 a → b - a = n →
      rangeGo (n + 1) a b = some ((List.range n).map (fun i : Nat => a + (i : Int))) := by
    intro n
    induction n with
    | zero => intro a _ h; simp [rangeGo, show a = b by omega]
    | succ n ih =>
      intro a ha h
      rw [rangeGo, if_neg (by omega), wrap64_of (by unfold I64 at ha hb ⊢; omega), ih (a + 1) (by unfold I64 at ha hb ⊢; omega) (by omega)]
      rw [List.range_succ_eq_map, List.map_cons, List.map_map]
      simp only [Option.map_some, Option.some.injEq, List.cons.injEq]
      refine ⟨by simp, ?_⟩
      apply List.map_congr_left
      intro i _
      simp only [Function.comp, Nat.succ_eq_add_one, Int.natCast_add, Int.natCast_one]
      omega
  exact key _ a ha (by omega)

/-- C86 is false of `(range a b)` with `b` below `a`: it goes up through all integers and round to `b`, so it
collects `2^64 - (a - b)` numbers (eighteen quintillion when `a` and `b` are near) — the memory of the machine
ends first. -/
theorem C86_range_violated {a b : Int} (ha : I64 a) (hb : I64 b) (h : b < a) :
    ∀ n : Nat, (n : Int) ≤ 18446744073709551616 - (a - b) → rangeGo n a b = none := by
  have key : ∀ (n : Nat) (a : Int), I64 a → ((b < a ∧ (n : Int) ≤ 18446744073709551616 - (a - b)) ∨ (a < b ∧ (n : Int) ≤ b - a)) →
      rangeGo n a b = none := by
    intro n
    induction n with
    | zero => intros; rfl
    | succ n ih =>
      intro a ha h
      rw [rangeGo, if_neg (by omega)]
      simp only [Option.map_eq_none_iff]
      have ha' := ha
      unfold I64 at ha' hb
      by_cases hm : a = 9223372036854775807
      · have hw : wrap64 (a + 1) = -9223372036854775808 := by subst hm; decide
        rw [hw]
        cases n with
        | zero => rfl
        | succ n =>
          refine ih _ (by decide) ?_
          right
          omega
      · rw [wrap64_of (by unfold I64; omega)]
        cases n with
        | zero => rfl
        | succ n =>
          refine ih _ (by unfold I64; omega) ?_
          omega
  intro n hn
  exact key n a ha (Or.inl ⟨h, hn⟩)

example : rangeGo 10 3 1 = none := C86_range_violated (by decide) (by decide) (by decide) 10 (by decide)
example : rangeGo 10 3 6 = some [3, 4, 5] := by decide

/-- C89 (partial): as long as no intermediate result leaves the range of `i64`, sums and products are exact. -/
theorem C89_exact_partial (checks : Bool) (args : List Int) (f : Int → Int → Int) (t : Int)
    (h : ∀ n, n ≤ args.length → I64 ((args.take n).foldl f t)) :
    args.foldl (fun t a => t.bind (fun t => arith checks (f t a))) (some t) = some (args.foldl f t) := by
  induction args generalizing t with
  | nil => rfl
  | cons a args ih =>
    have h1 : I64 (f t a) := by simpa using h 1 (by simp)
    rw [List.foldl_cons, List.foldl_cons]
    simp only [Option.bind_some, arith, if_pos h1]
    exact ih (f t a) (fun n hn => by simpa using h (n + 1) (by simpa using hn))

/-- C89 is false beyond: a release build gives a wrong sum, a checked one ends the shell. -/
theorem C89_overflow_violated :
    sumFn false [9223372036854775807, 1] = .val (.int (-9223372036854775808)) ∧
      sumFn true [9223372036854775807, 1] = .crash := by decide

/-- C89: a sum of one number, or of none, is an error, while the product is not. -/
theorem C89_single_sum_violated (checks : Bool) (a : Int) (ha : I64 a) :
    sumFn checks [a] = .err ∧ sumFn checks [] = .err ∧ prodFn checks [a] = .val (.int a) ∧ prodFn checks [] = .val (.int 1) := by
  refine ⟨rfl, rfl, ?_, rfl⟩
  simp [prodFn, arith, ha]

example : sumFn false [1, 2, 3] = .val (.int 6) := by
  have := C89_exact_partial false [1, 2, 3] (· + ·) 0 (by decide)
  unfold sumFn
  rw [if_neg (by decide), this]
  rfl

/-! ### Printing a function -/

/-- The first `n` bytes of a text; `none` when the cut would be inside a character (Rust panics). -/
def takeBytes : Nat → Str → Option Str
  | 0, _ => some []
  | _ + 1, [] => none
  | n + 1, c :: s => if c.utf8Size ≤ n + 1 then (takeBytes (n + 1 - c.utf8Size) s).map (c :: ·) else none

/-- `Display` of a function or macro (model/lambda.rs:33-47): parameters, then the text of the body without
its first byte and up to the byte whose number is the number of characters minus one. -/
def printFn (ps : List Str) (body : List Value) : Option Str :=
  let b := print (.list body)
  (takeBytes (b.length - 2) b.tail).map (fun t => c!"(" ++ joinWith c!" " ps ++ c!") " ++ t)

theorem takeBytes_ascii : ∀ (s t : Str), (∀ c ∈ s, c.utf8Size = 1) → takeBytes s.length (s ++ t) = some s
  | [], t, _ => by cases t <;> rfl
  | c :: s, t, h => by
    have hc := h c (by simp)
    simp only [List.length_cons, List.cons_append, takeBytes, hc]
    rw [if_pos (by omega)]
    simp [takeBytes_ascii s t (fun d hd => h d (by simp [hd]))]

theorem print_list_ends (v : Value) (l : List Value) : ∃ t, print (.list (v :: l)) = '(' :: t ++ [')'] := by
  have : ∀ l, ∃ t, printRest l = t ++ [')'] := by
    intro l
    induction l with
    | nil => exact ⟨[], by simp [printRest]⟩
    | cons w l ih =>
      obtain ⟨t, ht⟩ := ih
      exact ⟨' ' :: print w ++ t, by simp [printRest, ht]⟩
  obtain ⟨t, ht⟩ := this l
  exact ⟨print v ++ t, by simp [print, ht]⟩

/-- C86 (partial): a function with a non-empty ASCII body prints as its parameters and its body. -/
theorem C86_print_function_partial (ps : List Str) {v : Value} {l : List Value}
    (h : ∀ c ∈ print (.list (v :: l)), c.utf8Size = 1) :
    ∃ t, print (.list (v :: l)) = '(' :: t ++ [')'] ∧
      printFn ps (v :: l) = some (c!"(" ++ joinWith c!" " ps ++ c!") " ++ t) := by
  obtain ⟨t, ht⟩ := print_list_ends v l
  refine ⟨t, ht, ?_⟩
  unfold printFn
  simp only [ht]
  have hlen : ('(' :: t ++ [')']).length - 2 = t.length := by simp
  rw [hlen]
  simp only [List.cons_append, List.tail_cons]
  rw [takeBytes_ascii t [')'] (fun c hc => h c (by rw [ht]; simp [hc]))]
  rfl

/-- C86 is false of functions whose body is a text of an odd number of `é`: printing one ends the shell (the
error message of `(+ f 1)` prints it too). -/
theorem C86_print_function_violated (ps : List Str) (n : Nat) :
    printFn ps [.str (List.replicate (2 * n + 1) 'é')] = none := by
  have ht : ∀ (m k : Nat) (t : Str), m % 2 = 1 → m ≤ 2 * k → takeBytes m (List.replicate k 'é' ++ t) = none := by
    intro m k
    induction k generalizing m with
    | zero => intro t h h2; omega
    | succ k ih =>
      intro t h h2
      have hu : Char.utf8Size 'é' = 2 := by decide
      cases m with
      | zero => omega
      | succ m =>
        simp only [List.replicate_succ, List.cons_append, takeBytes, hu]
        split
        · simp only [Option.map_eq_none_iff]
          exact ih _ t (by omega) (by omega)
        · rfl
  unfold printFn
  have hp : print (.list [.str (List.replicate (2 * n + 1) 'é')]) = '(' :: List.replicate (2 * n + 1) 'é' ++ [')'] := by
    simp [print, printRest]
  rw [hp]
  simp only [List.cons_append, List.tail_cons, List.length_cons, List.length_append, List.length_replicate,
    List.length_nil]
  rw [ht _ _ _ (by omega) (by omega)]
  rfl

/-- C86: a function without a body prints as if its body were `I`. -/
theorem C86_empty_function_violated : printFn [c!"x"] [] = some c!"(x) I" := by decide

example : printFn [c!"x", c!"y"] [.list [.sym c!"+", .sym c!"x", .sym c!"y"], .str c!"ok"] = some c!"(x y) (+ x y) ok" := by decide

end Dsh.Lisp
