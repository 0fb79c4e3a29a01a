import Verif.Dirs.FrecencyProps
/-!
Tables of the Lisp (dsh/src/lisp/model/table.rs and stdlib/table.rs): `json-parse`, `json-stringify`, `csv-parse`,
`csv-stringify`, `table-select`, `table-head`, `table-tail`, `table-where-*`, `table-order-by`: C133 to C136.

The libraries between text and JSON values (serde_json) and between text and rows of fields (csv) are not
modelled: the model begins and ends with values and fields.  Cells are the values a table can get from JSON and
CSV; -0 is not told apart from 0; hash maps are lists of entries.  Left out: drawing (`table-display`,
`table-to-ai-context`) and the check of the types of the arguments.
-/
namespace Dsh.Tbl
open Dsh.Frec (F cmpStr Before fcmp)

abbrev Str := List Char

/-! ### Values -/

/-- The values in a table (`Value`, value.rs:24-58). -/
inductive Cell where
  | tt
  | ff
  | int (i : Int)
  | float (f : F)
  | str (s : Str)
  | list (l : List Cell)
  | hash (m : List (Str × Cell))

/-- Numbers of serde_json: integers from `i64` and `u64`, and floats. -/
inductive Num where
  | int (i : Int)
  | float (f : F)
deriving DecidableEq

/-- JSON values (`serde_json::Value`).  Objects have their entries in the order of the keys: the `Map` of serde_json
is a `BTreeMap`, as the feature `preserve_order` is off (Cargo.lock). -/
inductive Json where
  | null
  | bool (b : Bool)
  | num (n : Num)
  | str (s : Str)
  | arr (l : List Json)
  | obj (m : List (Str × Json))

/-- `BTreeMap::insert`. -/
def put {α} (k : Str) (v : α) : List (Str × α) → List (Str × α)
  | [] => [(k, v)]
  | (k', v') :: m =>
    match cmpStr k k' with
    | .lt => (k, v) :: (k', v') :: m
    | .eq => (k, v) :: m
    | .gt => (k', v') :: put k v m

/-- A `BTreeMap` of entries that come one after the other. -/
def objOf {α} (es : List (Str × α)) : List (Str × α) := es.foldl (fun m e => put e.1 e.2 m) []

/-- `u64 as f64` for numbers from 2⁶³ on: the nearest multiple of 2048, an even one if two are near. -/
def bigFloat (n : Nat) : F :=
  .fin ((if n % 2048 < 1024 ∨ (n % 2048 = 1024 ∧ n / 2048 % 2 = 0) then 2048 * (n / 2048) else 2048 * (n / 2048 + 1) : Nat) : Rat)

/-- Numbers in `json_to_value` (table.rs:507-515): `as_i64`, then `as_f64`. -/
def numCell : Num → Cell
  | .int i => if i < 2 ^ 63 then .int i else .float (bigFloat i.toNat)
  | .float f => .float f

mutual
/-- `json_to_value` (table.rs:497-532). -/
def toCell : Json → Cell
  | .null => .list []
  | .bool true => .tt
  | .bool false => .ff
  | .num n => numCell n
  | .str s => .str s
  | .arr l => .list (toCells l)
  | .obj m => .hash (toEntries m)

/-- The elements of an array. -/
def toCells : List Json → List Cell
  | [] => []
  | j :: l => toCell j :: toCells l

/-- The entries of an object. -/
def toEntries : List (Str × Json) → List (Str × Cell)
  | [] => []
  | (k, j) :: m => (k, toCell j) :: toEntries m
end

mutual
/-- `value_to_json` (table.rs:534-593). -/
def ofCell : Cell → Json
  | .list [] => .null
  | .tt => .bool true
  | .ff => .bool false
  | .int i => .num (.int i)
  | .float (.fin q) => .num (.float (.fin q))
  | .float _ => .null
  | .str s => .str s
  | .list (c :: l) => .arr (ofCell c :: ofCells l)
  | .hash m => .obj (objOf (ofEntries m))

/-- The elements of a list. -/
def ofCells : List Cell → List Json
  | [] => []
  | c :: l => ofCell c :: ofCells l

/-- The entries of a record or a hash map. -/
def ofEntries : List (Str × Cell) → List (Str × Json)
  | [] => []
  | (k, c) :: m => (k, ofCell c) :: ofEntries m
end

mutual
/-- `PartialEq for Value` (value.rs:347-375); hash maps are the same only if they are one object, which a value
from elsewhere is not. -/
def same : Cell → Cell → Bool
  | .tt, .tt => true
  | .ff, .ff => true
  | .int a, .int b => a == b
  | .float a, .float b => a == b && a != .nan
  | .str a, .str b => a == b
  | .list a, .list b => sames a b
  | _, _ => false

/-- Lists element by element. -/
def sames : List Cell → List Cell → Bool
  | [], [] => true
  | a :: l, b :: m => same a b && sames l m
  | _, _ => false
end

/-! ### Records and tables -/

/-- `Record` (table.rs:18-20): an `IndexMap`. -/
abbrev Row := List (Str × Cell)

/-- `Record::get` (table.rs:31-33). -/
def get (r : Row) (k : Str) : Option Cell := (r.find? (fun e => e.1 == k)).map (·.2)

/-- `Record::set` (table.rs:36-38): an old entry keeps its place. -/
def set (r : Row) (k : Str) (v : Cell) : Row :=
  if r.any (fun e => e.1 == k) then r.map (fun e => if e.1 = k then (k, v) else e) else r ++ [(k, v)]

/-- `Table` (table.rs:89-94). -/
structure T where
  columns : List Str
  rows : List Row

/-! ### JSON -/

def isObj : Json → Bool
  | .obj _ => true
  | _ => false

def entries : Json → List (Str × Json)
  | .obj m => m
  | _ => []

/-- Names that were not seen before, in order. -/
def newNames : List Str → List Str → List Str
  | seen, [] => seen
  | seen, k :: l => newNames (if seen.contains k then seen else seen ++ [k]) l

/-- `from_json_objects` (table.rs:168-197). -/
def fromObjects (objs : List Json) : T :=
  ⟨newNames [] (objs.flatMap fun o => (entries o).map (·.1)),
    objs.map fun o => (entries o).foldl (fun r e => set r e.1 (toCell e.2)) []⟩

/-- One cell in a column named `value` (table.rs:141-147, 158-161). -/
def single (j : Json) : Row := [(c!"value", toCell j)]

/-- `from_json_value` (table.rs:130-165). -/
def fromJson : Json → T
  | .arr [] => ⟨[], []⟩
  | .arr (j :: l) =>
    if (j :: l).all isObj then fromObjects (j :: l) else ⟨[c!"value"], (j :: l).map single⟩
  | .obj m => fromObjects [.obj m]
  | j => ⟨[c!"value"], [single j]⟩

/-- `to_json` (table.rs:282-296). -/
def toJson (t : T) : Json := .arr (t.rows.map fun r => .obj (objOf (ofEntries r)))

/-! ### CSV -/

/-- What is left open about floats in decimal: reading (`f64::from_str`), which takes `nan` in any case,
and writing (`Display`); other values as text. -/
structure Dec where
  parse : Str → Option F
  shw : F → Str
  other : Cell → Str
  nan : ∀ s, s.map Char.toLower = c!"nan" → parse s = some .nan

/-- Decimal digits. -/
def natOf (s : Str) : Option Nat :=
  if s.isEmpty || s.any (fun c => !c.isDigit) then none else some (s.foldl (fun n c => 10 * n + (c.toNat - 48)) 0)

/-- `i64::from_str`. -/
def parseInt : Str → Option Int
  | '-' :: s => (natOf s).bind fun n => if n ≤ 2 ^ 63 then some (-(n : Int)) else none
  | '+' :: s => (natOf s).bind fun n => if n < 2 ^ 63 then some (n : Int) else none
  | s => (natOf s).bind fun n => if n < 2 ^ 63 then some (n : Int) else none

/-- `Display` for an integer. -/
def showInt : Int → Str
  | .ofNat n => Nat.toDigits 10 n
  | .negSucc n => '-' :: Nat.toDigits 10 (n + 1)

/-- A field of a CSV file as a value (table.rs:214-220). -/
def cellOf (D : Dec) (s : Str) : Cell :=
  match parseInt s with
  | some i => .int i
  | none =>
    match D.parse s with
    | some f => .float f
    | none => .str s

/-- A value as text (`Display for Value`, value.rs:288-321). -/
def text (D : Dec) : Cell → Str
  | .str s => s
  | .int i => showInt i
  | .float f => D.shw f
  | .tt => c!"T"
  | .ff => c!"F"
  | c => D.other c

/-- A CSV file as fields: the first line and the others.  The reader refuses lines of another length. -/
structure Grid where
  header : List Str
  rows : List (List Str)
deriving DecidableEq

/-- The fields of a line under their names (table.rs:209-223). -/
def csvRow (D : Dec) (header fields : List Str) : Row :=
  (header.zip fields).foldl (fun r e => set r e.1 (cellOf D e.2)) []

/-- `from_csv` (table.rs:200-228). -/
def fromCsv (D : Dec) (g : Grid) : T := ⟨g.header, g.rows.map (csvRow D g.header)⟩

/-- `to_csv` (table.rs:231-258). -/
def toCsv (D : Dec) (t : T) : Grid :=
  ⟨t.columns, t.rows.map fun r => t.columns.map fun k => match get r k with | some v => text D v | none => []⟩

/-! ### Choosing rows and columns -/

/-- `select` (table.rs:326-341). -/
def select (t : T) (cols : List Str) : T :=
  ⟨cols, t.rows.map fun r => cols.foldl (fun n k => match get r k with | some v => set n k v | none => n) []⟩

/-- `head` (table.rs:344-348). -/
def head (t : T) (n : Nat) : T := ⟨t.columns, t.rows.take n⟩

/-- `tail` (table.rs:351-357). -/
def tail (t : T) (n : Nat) : T := ⟨t.columns, t.rows.drop (t.rows.length - n)⟩

/-- `where_eq` (table.rs:403-413). -/
def whereEq (t : T) (col : Str) (v : Cell) : T :=
  ⟨t.columns, t.rows.filter fun r => match get r col with | some c => same c v | none => false⟩

/-- `str::contains`. -/
def contains (s sub : Str) : Bool := match s with
  | [] => sub.isEmpty
  | c :: s => sub.isPrefixOf (c :: s) || contains s sub

/-- `where_contains` (table.rs:416-426). -/
def whereContains (t : T) (col sub : Str) : T :=
  ⟨t.columns, t.rows.filter fun r => match get r col with | some (.str s) => contains s sub | _ => false⟩

/-- The comparison named by the operator (table.rs:434-442). -/
def compares (op : Str) (n v : Int) : Bool :=
  if op = c!">" then decide (n > v)
  else if op = c!"<" then decide (n < v)
  else if op = c!">=" then decide (n ≥ v)
  else if op = c!"<=" then decide (n ≤ v)
  else if op = c!"=" ∨ op = c!"==" then decide (n = v)
  else if op = c!"!=" then decide (n ≠ v)
  else false

/-- `where_cmp` (table.rs:430-449). -/
def whereCmp (t : T) (col op : Str) (v : Int) : T :=
  ⟨t.columns, t.rows.filter fun r => match get r col with | some (.int n) => compares op n v | _ => false⟩

/-! ### Order -/

/-- `i64::cmp`. -/
def cmpI (a b : Int) : Ordering := if a < b then .lt else if b < a then .gt else .eq

/-- `partial_cmp` of floats, equal if they cannot be compared (table.rs:462-464). -/
def cmpF (a b : F) : Ordering := (Dsh.Frec.pcmp a b).getD .eq

/-- The comparison of two rows (table.rs:457-469). -/
def cmpCell : Option Cell → Option Cell → Ordering
  | some (.int a), some (.int b) => cmpI a b
  | some (.float a), some (.float b) => cmpF a b
  | some (.str a), some (.str b) => cmpStr a b
  | none, some _ => .gt
  | some _, none => .lt
  | _, _ => .eq

/-- `order_by` (table.rs:452-475); `sort_by` is stable.  If the comparison is no order, the library may give
any arrangement or panic; the model is the insertion it uses for few rows. -/
def orderBy (t : T) (col : Str) (asc : Bool) : T :=
  ⟨t.columns, sortBy (fun a b =>
    let c := cmpCell (get a col) (get b col)
    (if asc then c else c.swap) != .gt) t.rows⟩

end Dsh.Tbl
