import Verif.Util
/-!
The directory history behind `z` (dsh-frecency/src/{store,stats}.rs,
dsh/src/history/frecency_history.rs): C24, C75–C77.

Directory names are compared as Rust compares `str` (byte-wise, which for UTF-8 is the order of the
code points).  Floating point numbers are modelled by their IEEE class: finite values are rationals
and the rounding of a finite result is left open (`Ieee`), while everything that involves an infinity
or a NaN is computed as IEEE 754 does.
-/
namespace Dsh.Frec

abbrev Str := List Char

/-! ### Names and their order -/

/-- Comparison of two strings (`Ord for str`). -/
def cmpStr : Str → Str → Ordering
  | [], [] => .eq
  | [], _ :: _ => .lt
  | _ :: _, [] => .gt
  | a :: s, b :: t => if a.toNat < b.toNat then .lt else if b.toNat < a.toNat then .gt else cmpStr s t

/-- The strict order of names, stated without `cmpStr`: a proper prefix comes first, otherwise the
first differing character decides. -/
inductive Before : Str → Str → Prop
  | short (b : Char) (t : Str) : Before [] (b :: t)
  | char {a b : Char} (s t : Str) : a.toNat < b.toNat → Before (a :: s) (b :: t)
  | tail (a : Char) {s t : Str} : Before s t → Before (a :: s) (a :: t)

/-! ### Numbers -/

/-- A floating point value. -/
inductive F where
  | fin (q : Rat)
  | pinf
  | ninf
  | nan
deriving DecidableEq, Repr

/-- What is left open about the machine's arithmetic: how finite results are rounded (and when they
overflow), the value of `2^x` for `x` below 128, and the number of half lives between two times.
`long`: more than 129 half lives are computed as at least 128 (two roundings to 24 bits lose less
than one part in a million). -/
structure Ieee where
  rnd : Rat → F
  pow2 : Rat → F
  lives : (now ref half : Rat) → F
  long : ∀ now ref half, 0 < half → 129 * half ≤ now - ref →
    lives now ref half = .pinf ∨ ∃ q, lives now ref half = .fin q ∧ 128 ≤ q

/-- Product. -/
def mul (I : Ieee) : F → F → F
  | .nan, _ => .nan
  | _, .nan => .nan
  | .fin a, .fin b => I.rnd (a * b)
  | .fin a, .pinf => if 0 < a then .pinf else if a < 0 then .ninf else .nan
  | .fin a, .ninf => if 0 < a then .ninf else if a < 0 then .pinf else .nan
  | .pinf, .fin b => if 0 < b then .pinf else if b < 0 then .ninf else .nan
  | .ninf, .fin b => if 0 < b then .ninf else if b < 0 then .pinf else .nan
  | .pinf, .pinf => .pinf
  | .ninf, .ninf => .pinf
  | .pinf, .ninf => .ninf
  | .ninf, .pinf => .ninf

/-- Sum. -/
def add (I : Ieee) : F → F → F
  | .nan, _ => .nan
  | _, .nan => .nan
  | .fin a, .fin b => I.rnd (a + b)
  | .pinf, .ninf => .nan
  | .ninf, .pinf => .nan
  | .pinf, _ => .pinf
  | _, .pinf => .pinf
  | .ninf, _ => .ninf
  | _, .ninf => .ninf

/-- Quotient (the sign of a zero divisor is not tracked: a zero is taken as positive). -/
def div (I : Ieee) : F → F → F
  | .nan, _ => .nan
  | _, .nan => .nan
  | .fin a, .fin b =>
    if b = 0 then (if 0 < a then .pinf else if a < 0 then .ninf else .nan) else I.rnd (a / b)
  | .fin _, .pinf => .fin 0
  | .fin _, .ninf => .fin 0
  | .pinf, .fin b => if b < 0 then .ninf else .pinf
  | .ninf, .fin b => if b < 0 then .pinf else .ninf
  | .pinf, .pinf => .nan
  | .pinf, .ninf => .nan
  | .ninf, .pinf => .nan
  | .ninf, .ninf => .nan

/-- `2.0f32.powf(x)`: from 128 on the result does not fit. -/
def pow2 (I : Ieee) : F → F
  | .fin q => if 128 ≤ q then .pinf else I.pow2 q
  | .pinf => .pinf
  | .ninf => .fin 0
  | .nan => .nan

/-- `f32::partial_cmp`. -/
def pcmp : F → F → Option Ordering
  | .nan, _ => none
  | _, .nan => none
  | .fin a, .fin b => some (if a < b then .lt else if b < a then .gt else .eq)
  | .pinf, .pinf => some .eq
  | .ninf, .ninf => some .eq
  | .pinf, _ => some .gt
  | _, .pinf => some .lt
  | .ninf, _ => some .lt
  | _, .ninf => some .gt

/-- `partial_cmp(..).unwrap_or(Ordering::Less)` (stats.rs:67, 111-113, 118-120). -/
def fcmp (a b : F) : Ordering := (pcmp a b).getD .lt

/-! ### Items (stats.rs) -/

/-- `ItemStats` (stats.rs:9-19) without the scratch fields of fuzzy matching. -/
structure Item where
  name : Str
  half : Rat
  ref : Rat
  score : F
  last : F
  count : Int
  ctx : Option Str
deriving DecidableEq, Repr

/-- `ItemStats::new` (stats.rs:23-35). -/
def newItem (name : Str) (ref half : Rat) (ctx : Option Str) : Item :=
  ⟨name, half, ref, .fin 0, .fin 0, 0, ctx⟩

/-- `get_frecency` (stats.rs:131-133). -/
def frecency (I : Ieee) (now : Rat) (i : Item) : F :=
  div I i.score (pow2 I (I.lives now i.ref i.half))

/-- `set_frecency` (stats.rs:135-137). -/
def setFrecency (I : Ieee) (now : Rat) (v : F) (i : Item) : Item :=
  { i with score := mul I v (pow2 I (I.lives now i.ref i.half)) }

/-- `update_frecency` (stats.rs:140-143). -/
def bump (I : Ieee) (now : Rat) (w : F) (i : Item) : Item :=
  setFrecency I now (add I (frecency I now i) w) i

/-- The three updates of a visit (store.rs:70-72; stats.rs:146-153). -/
def visit (I : Ieee) (now : Rat) (i : Item) : Item :=
  let j := bump I now (.fin 1) i
  { j with count := j.count + 1, last := I.rnd (now - j.ref) }

/-- `get_effective_frecency` (stats.rs:70-80). -/
def effective (I : Ieee) (now : Rat) (cur : Option Str) (i : Item) : F :=
  if cur.isSome && i.ctx == cur then mul I (frecency I now i) (.fin 2) else frecency I now i

/-- `SortMethod` (lib.rs). -/
inductive Method where
  | recent
  | frequent
  | frecent
deriving DecidableEq, Repr

def cmpInt (a b : Int) : Ordering := if a < b then .lt else if b < a then .gt else .eq

/-- `cmp_score` (stats.rs:38-44, 105-121). -/
def cmpScore : Method → Item → Item → Ordering
  | .frequent, a, b => cmpInt a.count b.count
  | .recent, a, b => fcmp a.last b.last
  | .frecent, a, b => fcmp a.score b.score

/-! ### Searching a sorted vector -/

/-- The loop of `slice::binary_search_by` in the Rust library: `size` halves until it is one.
`f i` compares the element at `i` with what is looked for. -/
def bsLoop (f : Nat → Ordering) : Nat → Nat → Nat → Nat
  | 0, base, _ => base
  | fuel + 1, base, size =>
    if 1 < size then
      bsLoop f fuel (if f (base + size / 2) = .gt then base else base + size / 2) (size - size / 2)
    else base

/-- `slice::binary_search_by`: `Sum.inl` for `Ok`, `Sum.inr` for `Err`. -/
def bsearch (f : Nat → Ordering) (n : Nat) : Nat ⊕ Nat :=
  if n = 0 then .inr 0 else
    match f (bsLoop f n 0 n) with
    | .eq => .inl (bsLoop f n 0 n)
    | .lt => .inr (bsLoop f n 0 n + 1)
    | .gt => .inr (bsLoop f n 0 n)

/-- `slice::partition_point`. -/
def partitionPoint {α} (p : α → Bool) (l : List α) : Nat :=
  match bsearch (fun i => if (l[i]?).any p then .lt else .gt) l.length with
  | .inl i => i
  | .inr i => i

/-- Binary search for a name (store.rs:149-151, frecency_history.rs:269). -/
def searchName (l : List Item) (d : Str) : Nat ⊕ Nat :=
  bsearch (fun i => match l[i]? with | some x => cmpStr x.name d | none => .gt) l.length

/-- `search_prefix_range` (store.rs:138-146): the items in the range. -/
def prefixRange (l : List Item) (p : Str) : List Item :=
  let start := partitionPoint (fun i => cmpStr i.name p == .lt) l
  let len := partitionPoint (fun i => p.isPrefixOf i.name) (l.drop start)
  (l.drop start).take len

/-! ### The store (store.rs) -/

/-- `FrecencyStore` (store.rs:7-13). -/
structure Store where
  ref : Rat
  half : Rat
  items : List Item
  size : Nat
  changed : Bool
deriving DecidableEq, Repr

/-- `FrecencyStore::default` (store.rs:15-25). -/
def empty (now : Rat) : Store := ⟨now, 43200, [], 0, false⟩

/-- `update context if provided` (store.rs:155-158). -/
def withCtx (ctx : Option Str) (i : Item) : Item := if ctx.isSome then { i with ctx := ctx } else i

/-- `get` followed by a change of the item it returns (store.rs:148-169). -/
def getMod (g : Item → Item) (d : Str) (ctx : Option Str) (s : Store) : Store :=
  match searchName s.items d with
  | .inl i => { s with items := s.items.modify i (fun x => g (withCtx ctx x)) }
  | .inr i => { s with items := s.items.insertIdx i (g (newItem d s.ref s.half ctx)) }

/-- `add` (store.rs:67-76). -/
def addDir (I : Ieee) (now : Rat) (d : Str) (ctx : Option Str) (s : Store) : Store :=
  { getMod (visit I now) d ctx s with changed := true }

/-- The change made by `adjust` (store.rs:90-91); `w32` is the weight as an integer. -/
def adjustItem (I : Ieee) (now : Rat) (w : F) (w32 : Int) (i : Item) : Item :=
  let j := bump I now w i
  { j with count := j.count + w32 }

/-- `adjust` (store.rs:87-92). -/
def adjustDir (I : Ieee) (now : Rat) (d : Str) (w : F) (w32 : Int) (s : Store) : Store :=
  getMod (adjustItem I now w w32) d none s

/-- `check_changed` (store.rs:78-84). -/
def checkChanged (s : Store) : Store :=
  { s with changed := s.changed || s.size != s.items.length, size := s.items.length }

/-- `delete` (store.rs:95-100). -/
def deleteDir (d : Str) (s : Store) : Store :=
  checkChanged { s with items := s.items.eraseP (fun i => i.name == d) }

/-- `prune` (store.rs:102-105); `exist` tells which paths exist. -/
def prune (exist : Str → Bool) (s : Store) : Store :=
  checkChanged { s with items := s.items.filter (fun i => exist i.name) }

/-- `sorted` (store.rs:108-113): stable, best first. -/
def sorted (m : Method) (l : List Item) : List Item :=
  sortBy (fun a b => (cmpScore m a b).swap != .gt) l

/-- `truncate` (store.rs:30-38). -/
def truncate (keep : Nat) (m : Method) (s : Store) : Store :=
  { s with items := sortBy (fun a b => cmpStr a.name b.name != .gt) ((sorted m s.items).take keep) }

/-- `reset_ref_time` (stats.rs:156-162). -/
def resetItem (I : Ieee) (now : Rat) (i : Item) : Item :=
  let v := frecency I now i
  setFrecency I now v { i with ref := now, last := add I i.last (I.rnd (i.ref - now)) }

/-- `reset_time` (store.rs:56-64). -/
def resetTime (I : Ieee) (now : Rat) (s : Store) : Store :=
  { s with ref := now, items := s.items.map (resetItem I now) }

/-- `set_half_life` of an item (stats.rs:124-128). -/
def halfItem (I : Ieee) (now h : Rat) (i : Item) : Item :=
  let v := frecency I now i
  setFrecency I now v { i with half := h }

/-- `set_half_life` (store.rs:41-48). -/
def setHalf (I : Ieee) (now h : Rat) (s : Store) : Store :=
  let t := resetTime I now s
  { t with half := h, items := t.items.map (halfItem I now h) }

/-- The operations on a store. -/
inductive Op where
  | add (now : Rat) (d : Str) (ctx : Option Str)
  | adjust (now : Rat) (d : Str) (w : F) (w32 : Int)
  | delete (d : Str)
  | prune (exist : Str → Bool)
  | truncate (keep : Nat) (m : Method)
  | reset (now : Rat)
  | half (now h : Rat)

def step (I : Ieee) (s : Store) : Op → Store
  | .add now d ctx => addDir I now d ctx s
  | .adjust now d w w32 => adjustDir I now d w w32 s
  | .delete d => deleteDir d s
  | .prune e => prune e s
  | .truncate k m => truncate k m s
  | .reset now => resetTime I now s
  | .half now h => setHalf I now h s

def run (I : Ieee) (s : Store) (ops : List Op) : Store := ops.foldl (step I) s

/-! ### Specification -/

/-- Names strictly ascending: in particular no name occurs twice. -/
def Sorted (l : List Item) : Prop := l.Pairwise (fun a b => Before a.name b.name)

/-- What the user expects of the store: for each directory what is known about it. -/
abbrev View := Str → Option Item

/-- The entry kept under a name. -/
def look (l : List Item) (d : Str) : Option Item := l.find? (fun i => i.name == d)

/-- Effect of an operation on the view, one directory at a time.  `truncate` is described
separately (it depends on the ranks of all entries). -/
def specStep (I : Ieee) (ref half : Rat) (v : View) : Op → View
  | .add now d ctx => fun e =>
    if e = d then
      some (visit I now (match v d with
        | some x => if ctx.isSome then { x with ctx := ctx } else x
        | none => newItem d ref half ctx))
    else v e
  | .adjust now d w w32 => fun e =>
    if e = d then
      some (adjustItem I now w w32 (match v d with
        | some x => x
        | none => newItem d ref half none))
    else v e
  | .delete d => fun e => if e = d then none else v e
  | .prune exist => fun e => if exist e then v e else none
  | .reset now => fun e => (v e).map (resetItem I now)
  | .half now h => fun e => ((v e).map (resetItem I now)).map (halfItem I now h)
  | .truncate _ _ => v

/-- The specification's state: reference time, half life and view. -/
structure Spec where
  ref : Rat
  half : Rat
  view : View

/-- One operation on the specification's state. -/
def Spec.step (I : Ieee) (s : Spec) (op : Op) : Spec :=
  { ref := match op with | .reset now => now | .half now _ => now | _ => s.ref
    half := match op with | .half _ h => h | _ => s.half
    view := specStep I s.ref s.half s.view op }

/-! ### The database and the shell (frecency_history.rs) -/

/-- A row of `directory_snapshot` (db.rs:96-103); `path` is the primary key.  Rows are listed in the
order in which a query without `ORDER BY` returns them (SQLite: ascending row number). -/
structure Row where
  name : Str
  score : F
  last : F
  count : Int
  half : Rat
  ctx : Option Str
deriving DecidableEq, Repr

/-- The row written for an item (frecency_history.rs:218-227; stats.rs:222-232). -/
def rowOf (i : Item) : Row := ⟨i.name, i.score, i.last, i.count, 43200, i.ctx⟩

/-- `INSERT OR REPLACE`: the old row of that path is deleted, the new one gets the next row number
(frecency_history.rs:212-215). -/
def upsert (rows : List Row) (r : Row) : List Row := rows.filter (fun x => x.name != r.name) ++ [r]

/-- The transaction of `save` (frecency_history.rs:208-231).  SQLite stores a NaN as `NULL`, which
`score REAL NOT NULL` and `last_accessed INTEGER NOT NULL` refuse: then the whole transaction is
rolled back (`none`). -/
def saveTx (rows : List Row) (items : List Item) : Option (List Row) :=
  if items.any (fun i => i.score == .nan || i.last == .nan) then none
  else some ((items.map rowOf).foldl upsert rows)

/-- Can the value stored in the column `last_accessed INTEGER` be read as an `i64`?  A column of
integer affinity keeps a number with a fraction as `REAL`, and reading that as `i64` is an error. -/
def readsAsInt : F → Bool
  | .fin q => q.den == 1
  | _ => false

/-- The item made from a row: reference time `0.0`, then `set_frecency(score)`
(frecency_history.rs:90-92, 274-276). -/
def itemOf (I : Ieee) (now : Rat) (r : Row) : Item :=
  setFrecency I now r.score (newItem r.name 0 r.half r.ctx)

/-- The items `from_file` pushes (frecency_history.rs:82-99): rows with a read error are dropped by
`flatten`. -/
def loadItems (I : Ieee) (now : Rat) (rows : List Row) : List Item :=
  (rows.filter (fun r => readsAsInt r.last)).map (itemOf I now)

/-- `from_file` (frecency_history.rs:72-115). -/
def fromFile (I : Ieee) (now : Rat) (rows : List Row) : Store :=
  ⟨now, 43200, loadItems I now rows, (loadItems I now rows).length, false⟩

/-- One row of `reload` (frecency_history.rs:268-279); `last_accessed` is read as `f64` there, which
always works. -/
def reloadRow (I : Ieee) (now : Rat) (items : List Item) (r : Row) : List Item :=
  match searchName items r.name with
  | .inl _ => items
  | .inr i => items.insertIdx i (itemOf I now r)

/-- `reload` (frecency_history.rs:240-288). -/
def reload (I : Ieee) (now : Rat) (rows : List Row) (s : Store) : Store :=
  { s with items := rows.foldl (reloadRow I now) s.items }

/-- One shell and the database. -/
structure Sys where
  store : Store
  rows : List Row

/-- `save` (frecency_history.rs:203-237). -/
def save (y : Sys) : Sys :=
  if y.store.changed then
    match saveTx y.rows y.store.items with
    | some rows => ⟨{ y.store with changed := false }, rows⟩
    | none => y
  else y

/-- What happens to the directory history: operations on the store, saving (`save_background`,
periodic saving), synchronising, the command `z -c` (z.rs:94-99) and a restart of the shell
(lib.rs:177-188). -/
inductive Act where
  | op (o : Op)
  | save
  | reload (now : Rat)
  | clean (exist : Str → Bool)
  | restart (now : Rat)

def act (I : Ieee) (y : Sys) : Act → Sys
  | .op o => { y with store := step I y.store o }
  | .save => save y
  | .reload now => { y with store := reload I now y.rows y.store }
  | .clean e => save { y with store := prune e y.store }
  | .restart now => { y with store := fromFile I now y.rows }

def runs (I : Ieee) (y : Sys) (as : List Act) : Sys := as.foldl (act I) y

/-- The first start: nothing known, nothing saved. -/
def firstStart (now : Rat) : Sys := ⟨empty now, []⟩

/-- `Iterator::max_by`: of elements comparing equal or less the later one. -/
def maxBy {α} (cmp : α → α → Ordering) : List α → Option α
  | [] => none
  | x :: l => some (l.foldl (fun a b => if cmp a b = .gt then a else b) x)

/-- `search_prefix_with_context` (frecency_history.rs:370-386). -/
def searchPrefix (I : Ieee) (now : Rat) (cur : Option Str) (l : List Item) (p : Str) : Option Str :=
  (maxBy (fun a b => fcmp (effective I now cur a) (effective I now cur b)) (prefixRange l p)).map
    Item.name

/-- `search_recent_prefix` (frecency_history.rs:348-360). -/
def searchRecent (l : List Item) (p : Str) : Option Str :=
  (maxBy (fun a b => fcmp a.last b.last) (prefixRange l p)).map Item.name

end Dsh.Frec
