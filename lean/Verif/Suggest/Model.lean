import Verif.Util
/-!
Model of the typo-correction module `dsh/src/command_suggestion.rs`.

Strings are modelled as lists of characters; `str::len` is the UTF-8 length.
-/
namespace Dsh.Suggest

/-- `row[j]` on a `Vec<usize>`; out of range is a panic (`none`). -/
def rowGet (row : List Nat) (j : Nat) : Option Nat := row[j]?

/-- `row[j] = v` on a `Vec<usize>`; out of range is a panic (`none`). -/
def rowSet (row : List Nat) (j v : Nat) : Option (List Nat) :=
  if j < row.length then some (row.set j v) else none

/-- Inner loop `for (j, b_char) in b_chars.iter().enumerate()` (command_suggestion.rs:32-41),
from index `j` on. -/
def inner (aChar : Char) (prev : List Nat) : Nat → List Char → List Nat → Option (List Nat)
  | _, [], curr => some curr
  | j, bChar :: bs, curr => do
    let cost := if aChar = bChar then 0 else 1
    let del ← rowGet prev (j + 1)
    let ins ← rowGet curr j
    let sub ← rowGet prev j
    let curr ← rowSet curr (j + 1) (min (min (del + 1) (ins + 1)) (sub + cost))
    inner aChar prev (j + 1) bs curr

/-- Outer loop `for (i, a_char) in a_chars.iter().enumerate()` (command_suggestion.rs:29-44),
including the final swap of the two rows; returns `prev_row`. -/
def outer (b : List Char) : Nat → List Char → List Nat → List Nat → Option (List Nat)
  | _, [], prev, _ => some prev
  | i, aChar :: as, prev, curr => do
    let curr ← rowSet curr 0 (i + 1)
    let curr ← inner aChar prev 0 b curr
    outer b (i + 1) as curr prev

/-- `levenshtein_distance` (command_suggestion.rs:12-47). `none` is a panic. -/
def levenshtein (a b : List Char) : Option Nat :=
  if a.length = 0 then some b.length
  else if b.length = 0 then some a.length
  else do
    let prev := List.range (b.length + 1)
    let curr := List.replicate (b.length + 1) 0
    let prev ← outer b 0 a prev curr
    rowGet prev b.length

/-- `CommandSuggestion` (command_suggestion.rs:51-54). -/
structure Suggestion where
  command : List Char
  distance : Nat
deriving DecidableEq, Repr

/-- UTF-8 length of a character (`char::len_utf8`). -/
def utf8Len (c : Char) : Nat := c.utf8Size

/-- `str::len`. -/
def strLen (s : List Char) : Nat := (s.map utf8Len).sum

/-- `push_candidate` (command_suggestion.rs:138-159): state is `(seen, suggestions)`.
Simplification: the `HashSet` `seen` is a list used for membership only. -/
def pushCandidate (typo : List Char) (st : List (List Char) × List Suggestion)
    (candidate : List Char) : Option (List (List Char) × List Suggestion) :=
  let n := strLen typo
  if ¬ (2 ≤ n ∧ n ≤ 30) ∨ candidate ∈ st.1 then some st
  else do
    let maxDistance := max 2 (n * 30 / 100)
    let d ← levenshtein typo candidate
    if d ≤ maxDistance ∧ d > 0 then
      some (candidate :: st.1, st.2 ++ [⟨candidate, d⟩])
    else some st

/-- Rust's `Ord for str` on character lists (byte-wise order of UTF-8 is code point order). -/
def strLe : List Char → List Char → Bool
  | [], _ => true
  | _ :: _, [] => false
  | a :: as, b :: bs => if a.toNat < b.toNat then true else if b.toNat < a.toNat then false
      else strLe as bs

/-- The comparison of command_suggestion.rs:128-132 (`distance`, then `command`). -/
def suggLe (a b : Suggestion) : Bool :=
  if a.distance < b.distance then true
  else if b.distance < a.distance then false
  else strLe a.command b.command

/-- All candidates pushed in order. -/
def pushAll (typo : List Char) : List (List Char) → List (List Char) × List Suggestion →
    Option (List (List Char) × List Suggestion)
  | [], st => some st
  | c :: cs, st => do
    let st ← pushCandidate typo st c
    pushAll typo cs st

/-- `find_similar_candidates` (command_suggestion.rs:121-136).  `find_similar_commands`
(lines 65-118) is the same function applied to the builtins followed by the visible file names
found on PATH (its extra `seen` test repeats the one in `push_candidate`).
Rust's stable `sort_by` is modelled by a stable insertion sort. -/
def findSimilar (typo : List Char) (candidates : List (List Char)) : Option (List Suggestion) := do
  let st ← pushAll typo candidates ([], [])
  some ((sortBy suggLe st.2).take 3)

end Dsh.Suggest
