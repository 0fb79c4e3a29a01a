import Verif.Util
/-!
The Lisp reader and printer (dsh/src/lisp/parser.rs, dsh/src/lisp/model/value.rs, list.rs) and the
macro recorder (dsh/src/repl/macro_utils.rs): C25, C26, C82, C83.
-/
namespace Dsh.Lisp

abbrev Str := List Char

/-- `Value` (model/value.rs:24-57).  Lists are immutable sequences (`List` has no operation that changes a
cell once the list is built).  Integers are `i64` (the default features); floats are kept as the text they
were read from.  Left out: hash maps, tables, foreign values and native closures. -/
inductive Value where
  | tt
  | ff
  | int (i : Int)
  | float (t : Str)
  | str (s : Str)
  | sym (s : Str)
  | list (l : List Value)
  /-- A native function, by its name. -/
  | native (n : Str)
  /-- A function: environment, parameters, body. -/
  | lam (env : Nat) (params : List Str) (body : List Value)
  /-- A macro. -/
  | mac (env : Nat) (params : List Str) (body : List Value)
  /-- A call still to be made. -/
  | tail (f : Value) (args : List Value)
deriving Repr

def Value.nil : Value := .list []

mutual
/-- Equality of values of the model (not `PartialEq` of the code). -/
def Value.same : Value → Value → Bool
  | .tt, .tt => true
  | .ff, .ff => true
  | .int a, .int b => a == b
  | .float a, .float b => a == b
  | .str a, .str b => a == b
  | .sym a, .sym b => a == b
  | .list a, .list b => sameL a b
  | .native a, .native b => a == b
  | .lam e a b, .lam e' a' b' => e == e' && a == a' && sameL b b'
  | .mac e a b, .mac e' a' b' => e == e' && a == a' && sameL b b'
  | .tail f a, .tail f' a' => Value.same f f' && sameL a a'
  | _, _ => false
def sameL : List Value → List Value → Bool
  | [], [] => true
  | a :: l, b :: m => Value.same a b && sameL l m
  | _, _ => false
end

mutual
theorem Value.same_refl : ∀ a : Value, Value.same a a = true
  | .tt => rfl
  | .ff => rfl
  | .int a => by simp [Value.same]
  | .float a => by simp [Value.same]
  | .str a => by simp [Value.same]
  | .sym a => by simp [Value.same]
  | .list a => by simp [Value.same, sameL_refl a]
  | .native a => by simp [Value.same]
  | .lam e a b => by simp [Value.same, sameL_refl b]
  | .mac e a b => by simp [Value.same, sameL_refl b]
  | .tail f a => by simp [Value.same, Value.same_refl f, sameL_refl a]
theorem sameL_refl : ∀ a : List Value, sameL a a = true
  | [] => rfl
  | a :: l => by simp [sameL, Value.same_refl a, sameL_refl l]
end

mutual
theorem Value.same_eq : ∀ a b : Value, Value.same a b = true → a = b
  | .tt, b, h => by cases b <;> simp_all [Value.same]
  | .ff, b, h => by cases b <;> simp_all [Value.same]
  | .int a, b, h => by cases b <;> simp_all [Value.same]
  | .float a, b, h => by cases b <;> simp_all [Value.same]
  | .str a, b, h => by cases b <;> simp_all [Value.same]
  | .sym a, b, h => by cases b <;> simp_all [Value.same]
  | .list a, b, h => by
    cases b <;> simp only [Value.same] at h <;> first | contradiction | rw [sameL_eq a _ h]
  | .native a, b, h => by cases b <;> simp_all [Value.same]
  | .lam e a l, b, h => by
    cases b <;> simp only [Value.same, Bool.and_eq_true, beq_iff_eq] at h <;>
      first | contradiction | rw [sameL_eq l _ h.2, h.1.1, h.1.2]
  | .mac e a l, b, h => by
    cases b <;> simp only [Value.same, Bool.and_eq_true, beq_iff_eq] at h <;>
      first | contradiction | rw [sameL_eq l _ h.2, h.1.1, h.1.2]
  | .tail f a, b, h => by
    cases b <;> simp only [Value.same, Bool.and_eq_true] at h <;>
      first | contradiction | rw [Value.same_eq f _ h.1, sameL_eq a _ h.2]
theorem sameL_eq : ∀ a b : List Value, sameL a b = true → a = b
  | [], b, h => by cases b <;> simp_all [sameL]
  | a :: l, b, h => by
    cases b with
    | nil => simp [sameL] at h
    | cons b m =>
      simp only [sameL, Bool.and_eq_true] at h
      rw [Value.same_eq a b h.1, sameL_eq l m h.2]
end

instance : DecidableEq Value := fun a b =>
  if h : Value.same a b = true then .isTrue (Value.same_eq a b h)
  else .isFalse (fun e => h (e ▸ Value.same_refl a))

/-! ### Positions

The reader works with byte offsets.  `consume_while` gives the offset of the last matching character and
its callers add one; when that character takes more than one byte the offset is inside it, and
`code.get(index..)` gives nothing from then on. -/

/-- A position: what follows, or a place inside a character. -/
abbrev Cur := Option Str

/-- `code.get(index..).unwrap_or("")`. -/
def Cur.text (c : Cur) : Str := c.getD []

/-- One byte in UTF-8. -/
def oneByte (c : Char) : Bool := c.toNat < 128

/-- The position one byte behind the start of the last character of `m`, what follows `m` being `rest`. -/
def after (m rest : Str) : Cur :=
  match m.getLast? with
  | some c => if oneByte c then some rest else none
  | none => some rest

/-- What is left open: which characters outside ASCII are numeric. -/
structure Uni where
  numeric : Char → Bool
  /-- No white space is numeric. -/
  noSpace : ∀ c, rustWhitespace c = true → numeric c = false

/-- `char::is_numeric`. -/
def isNumeric (U : Uni) (c : Char) : Bool := if c.toNat < 128 then c.isDigit else U.numeric c

/-- `SPECIAL_TOKENS` (parser.rs:367). -/
def special (c : Char) : Bool := c ∈ c!"()',;"

/-- `is_symbolic` (parser.rs:356-358). -/
def symbolic (c : Char) : Bool := !rustWhitespace c && !special c

/-- `is_symbol_start` (parser.rs:352-354). -/
def symbolStart (U : Uni) (c : Char) : Bool := !isNumeric U c && symbolic c

/-- `next_char_is_break` (parser.rs:360-365). -/
def isBreak : Str → Bool
  | [] => true
  | c :: _ => rustWhitespace c || special c

/-- `consume_whitespace_and_comments` (parser.rs:323-337): what is left, and the last character skipped;
`k` counts semicolons. -/
def skipGo : Nat → Option Char → Str → Option Char × Str
  | _, last, [] => (last, [])
  | k, last, c :: s =>
    let k' := if c = ';' then k + 1 else if k < 2 ∨ c = '\n' then 0 else k
    if rustWhitespace c || c == ';' || decide (2 ≤ k') then skipGo k' (some c) s else (last, c :: s)

def skip (c : Cur) : Cur :=
  match skipGo 0 none c.text with
  | (some l, rest) => if oneByte l then some rest else none
  | (none, _) => c

/-- `consume` (parser.rs:308-321): a word, ignoring case. -/
def consume : Str → Str → Option Str
  | [], s => some s
  | a :: w, c :: s => if c.toLower = a then consume w s else none
  | _ :: _, [] => none

/-- `Option<Result<ParsedAndIndex, ParseError>>`; `out`: the model's bound on the recursion was too small
(`parse_total` shows that a large enough bound always exists). -/
inductive Res where
  | out
  | no
  | err
  | ok (v : Value) (at_ : Cur)
deriving DecidableEq

/-- `parse_nil`, `parse_false`, `parse_true` (parser.rs:175-212). -/
def parseConst (w : Str) (v : Value) (s : Str) : Res :=
  match consume w s with
  | some rest => if isBreak rest then .ok v (some rest) else .no
  | none => .no

/-- Value of decimal digits. -/
def natOf (s : Str) : Nat := s.foldl (fun v c => 10 * v + (c.toNat - 48)) 0

/-- The range of `i64`. -/
def inRange (i : Int) : Bool := -(2 ^ 63 : Int) ≤ i && i < (2 ^ 63 : Int)

def signed (neg : Bool) (n : Nat) : Int := if neg then -(n : Int) else n

/-- `str::parse::<i64>` of an optional minus sign and characters. -/
def parseInt : Str → Option Int
  | '-' :: ds =>
    if ds.isEmpty || !ds.all Char.isDigit then none
    else if inRange (signed true (natOf ds)) then some (signed true (natOf ds)) else none
  | ds =>
    if ds.isEmpty || !ds.all Char.isDigit then none
    else if inRange (natOf ds) then some (natOf ds) else none

/-- The front of a number: an optional minus sign, then numeric characters. -/
def front (U : Uni) : Str → Str
  | [] => []
  | c :: s => if c = '-' ∨ isNumeric U c = true then c :: s.takeWhile (isNumeric U) else []

/-- The back of a number: a point, then numeric characters. -/
def back (U : Uni) : Str → Str
  | [] => []
  | c :: s => if c = '.' ∨ isNumeric U c = true then c :: s.takeWhile (isNumeric U) else []

/-- The integer, when no fraction has been found (parser.rs:251-264). -/
def parseWhole (m rest : Str) : Res :=
  if isBreak rest then
    match parseInt m with
    | some i => .ok (.int i) (some rest)
    | none => .no
  else .no

/-- `parse_number` (parser.rs:214-265).  A numeric character of more than one byte at the end of the
front or of the back makes the slice empty, which is no number. -/
def parseNumber (U : Uni) (s : Str) : Res :=
  let m := front U s
  let rest := s.drop m.length
  match m.getLast? with
  | none => .no
  | some l =>
    if isNumeric U l && oneByte l then
      let b := back U rest
      if 2 ≤ b.length then
        if isBreak (rest.drop b.length) && (m ++ b).all oneByte then
          .ok (.float (m ++ b)) (some (rest.drop b.length))
        else parseWhole m rest
      else if b = c!"." then .err
      else parseWhole m rest
    else .no

/-- `parse_string` (parser.rs:267-288): no escapes; nothing between the quotes is no string; a last
character of more than one byte hides the closing quote. -/
def parseString : Str → Res
  | '"' :: s =>
    let m := s.takeWhile (· != '"')
    let rest := s.dropWhile (· != '"')
    match m.getLast? with
    | none => .no
    | some l =>
      if oneByte l then
        match rest with
        | [] => .err
        | _ :: rest => .ok (.str m) (some rest)
      else .err
  | _ => .no

/-- `parse_symbol` (parser.rs:290-306): with a last character of more than one byte the slice is empty. -/
def parseSymbol (U : Uni) : Str → Res
  | [] => .no
  | c :: s =>
    if symbolStart U c then
      let m := c :: s.takeWhile symbolic
      match after m (s.dropWhile symbolic) with
      | some rest => .ok (.sym m) (some rest)
      | none => .ok (.sym []) none
    else .no

/-- First that is not `no`. -/
def Res.or : Res → Res → Res
  | .no, r => r
  | r, _ => r

/-- `parse_nil` to `parse_symbol` in order (parser.rs:126-145). -/
def parseAtom (U : Uni) (s : Str) : Res :=
  (parseConst c!"nil" .nil s).or <| (parseConst c!"f" .ff s).or <| (parseConst c!"t" .tt s).or <|
    (parseNumber U s).or <| (parseString s).or <| parseSymbol U s

/-- `'x` and `,x` (parser.rs:48-59, 147-173). -/
def wrap (name : Str) : Res → Res
  | .ok v c => .ok (.list [.sym name, v]) c
  | r => r

/-- What ends a list (parser.rs:114-123). -/
def close (vs : List Value) : Str → Res
  | ')' :: s => .ok (.list vs) (some s)
  | _ => .err

mutual
/-- `parse_expression` (parser.rs:86-96) with `parse_list`, `parse_quoted`, `parse_comma` (98-124, 147-173).  The
first argument bounds the depth of the recursion. -/
def parseExpr (U : Uni) : Nat → Cur → Res
  | 0, _ => .out
  | n + 1, c =>
    match c.text with
    | '(' :: s => parseMembers U n (skip (some s)) []
    | '\'' :: s => wrap c!"quote" (parseExpr U n (some s))
    | ',' :: s => wrap c!"comma" (parseExpr U n (some s))
    | s => parseAtom U s

/-- The loop of `parse_list`. -/
def parseMembers (U : Uni) : Nat → Cur → List Value → Res
  | 0, _, _ => .out
  | n + 1, c, vs =>
    match parseExpr U n c with
    | .ok v c' => parseMembers U n (skip c') (vs ++ [v])
    | .err => .err
    | .out => .out
    | .no => close vs c.text
end

/-- What `LispEngine::run` finds first in a text. -/
inductive First where
  | out
  | err
  | nothing
  | val (v : Value)
deriving DecidableEq

/-- What `LispEngine::run` reads (mod.rs:166-183, parser.rs:11-35): the first expression, an error, or
nothing; a text that starts with something unreadable is an error. -/
def readFirst (U : Uni) (n : Nat) (code : Str) : First :=
  match parseExpr U n (skip (some code)) with
  | .ok v _ => .val v
  | .err => .err
  | .out => .out
  | .no => if skip (some code) = some [] then .nothing else .err

/-! ### Printing -/

def digit (n : Nat) : Char := Char.ofNat (48 + n)

/-- Decimal digits; the first argument bounds their number. -/
def natText : Nat → Nat → Str
  | 0, _ => []
  | f + 1, n => if n < 10 then [digit n] else natText f (n / 10) ++ [digit (n % 10)]

/-- `Display` of `i64`. -/
def intText (i : Int) : Str :=
  if i < 0 then '-' :: natText (i.natAbs + 1) i.natAbs else natText (i.natAbs + 1) i.natAbs

/-- The digits in front of the point without superfluous zeros. -/
def trimZeros (ds : Str) : Str := match ds.dropWhile (· == '0') with
  | [] => c!"0"
  | ds => ds

/-- `Display` of `f64` for the value of a decimal text of at most fifteen significant digits: no
superfluous zeros, and no point when the value is whole. -/
def floatText : Str → Str
  | '-' :: t => '-' :: floatText t
  | t =>
    let frac := ((t.dropWhile (· != '.')).drop 1).reverse.dropWhile (· == '0')
    trimZeros (t.takeWhile (· != '.')) ++ (if frac = [] then [] else '.' :: frac.reverse)

mutual
/-- `Display` of `Value` (model/value.rs:288-321) and of lists (model/list.rs:77-94).  Strings are written
without quotes.  Functions and pending calls are only named. -/
def print : Value → Str
  | .tt => c!"T"
  | .ff => c!"F"
  | .int i => intText i
  | .float t => floatText t
  | .str s => s
  | .sym s => s
  | .list [] => c!"NIL"
  | .list (v :: l) => '(' :: print v ++ printRest l
  | .native _ => c!"<native_function>"
  | .lam _ _ _ => c!"<func>"
  | .mac _ _ _ => c!"(macro)"
  | .tail _ _ => c!"<tail-call>"

/-- What follows the first element of a list. -/
def printRest : List Value → Str
  | [] => [')']
  | v :: l => ' ' :: print v ++ printRest l
end

/-! ### Recording a macro -/

/-- `str::replace` of one character. -/
def replaceChar (a : Char) (w : Str) (s : Str) : Str := s.flatMap (fun c => if c = a then w else [c])

/-- The escaping of `generate_macro_lisp` (repl/macro_utils.rs:4-8). -/
def escape (cmd : Str) : Str := replaceChar '"' c!"\\\"" (replaceChar '\\' c!"\\\\" cmd)

/-- `generate_macro_lisp` (repl/macro_utils.rs:2-13). -/
def macroText (name : Str) (cmds : List Str) : Str :=
  c!"\n(defun " ++ name ++ c!" ()\n" ++
    cmds.flatMap (fun c => c!"  (sh \"" ++ escape c ++ c!"\")\n") ++ c!"\n)\n"

/-- The text `run_config_lisp` evaluates (lisp/mod.rs:97-100, 118). -/
def wrapConfig (config : Str) : Str := c!"(begin " ++ trim config ++ c!"\n)"

end Dsh.Lisp
