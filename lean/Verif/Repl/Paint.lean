import Verif.Parse.Grammar
import Verif.Completion.Tokens
/-!
# The line in colours

`dsh/src/parser/highlight.rs`, `dsh/src/repl/input_analysis.rs`, `dsh/src/repl/render.rs`,
`dsh/src/input/editor.rs` (`print`): the line is parsed, the words of the parse get colours, the line is
written piece by piece.

Simplified: positions are counted in characters. The positions of `pest` and of the tokens of
`shell_token.rs` are always between characters, so the texts cut out are the same. What the terminal does
with a colour is left out: a piece of output is a colour and a text.
-/
namespace Dsh.Paint
open Dsh.Peg Dsh.Shell Dsh.Tokens

abbrev Str := List Char

/-! ## Pairs with positions -/

/-- A `pest` pair with the two ends of its span. -/
inductive LPair where
  | mk (rule : R) (start stop : Nat) (inner : List LPair)
deriving Repr, Inhabited

def LPair.rule : LPair → R | .mk r _ _ _ => r
def LPair.start : LPair → Nat | .mk _ a _ _ => a
def LPair.stop : LPair → Nat | .mk _ _ b _ => b

/-- Outcome of matching: no match, or pairs, number of characters read, rest. -/
inductive LOut where
  | fail
  | ok (pairs : List LPair) (n : Nat) (rest : Str)

/-- Pairs produced by a rule that reads `n` characters at `pos`. -/
def wrapL (r : R) (ps : List LPair) (pos n : Nat) : List LPair :=
  if silent r then ps else [.mk r pos (pos + n) ps]

/-- The matcher of `Verif/Parse/Peg.lean`, with positions (`pest::Span`). -/
def runL : Nat → PExp R → Nat → Str → Option LOut
  | 0, _, _, _ => none
  | _ + 1, .any, _, [] => some .fail
  | _ + 1, .any, _, _ :: r => some (.ok [] 1 r)
  | _ + 1, .str s, _, i => match stripPre s i with
    | some r => some (.ok [] s.length r)
    | none => some .fail
  | n + 1, .seq a b, p, i => match runL n a p i with
    | none => none
    | some .fail => some .fail
    | some (.ok p1 c1 r1) => match runL n b (p + c1) r1 with
      | none => none
      | some .fail => some .fail
      | some (.ok p2 c2 r2) => some (.ok (p1 ++ p2) (c1 + c2) r2)
  | n + 1, .alt a b, p, i => match runL n a p i with
    | none => none
    | some (.ok q c r) => some (.ok q c r)
    | some .fail => runL n b p i
  | n + 1, .star a, p, i => match runL n a p i with
    | none => none
    | some .fail => some (.ok [] 0 i)
    | some (.ok p1 c1 r1) => match runL n (.star a) (p + c1) r1 with
      | none => none
      | some .fail => some .fail
      | some (.ok p2 c2 r2) => some (.ok (p1 ++ p2) (c1 + c2) r2)
  | n + 1, .opt a, p, i => match runL n a p i with
    | none => none
    | some .fail => some (.ok [] 0 i)
    | some (.ok q c r) => some (.ok q c r)
  | n + 1, .neg a, p, i => match runL n a p i with
    | none => none
    | some .fail => some (.ok [] 0 i)
    | some (.ok _ _ _) => some .fail
  | n + 1, .rule r, p, i => match runL n (body r) p i with
    | none => none
    | some .fail => some .fail
    | some (.ok ps c rest) => some (.ok (wrapL r ps p c) c rest)

/-- `ShellParser::parse(Rule::commands, input)` with positions. -/
def parseL (input : Str) : LOut :=
  (runL (wf.fuel input.length wf.top 1) (.rule .commands) 0 input).getD .fail

/-! ## Tokens -/

/-- `HighlightKind` (highlight.rs:8-21). -/
inductive Kind where
  | command | argument | variable | single | double | redirect | pipe | operator | background | procSubst
  | error | bareword
deriving DecidableEq, Repr

/-- `HighlightContext` (highlight.rs:51-55). -/
inductive Ctx where
  | none | command | argument
deriving DecidableEq, Repr

/-- `HighlightToken` (highlight.rs:24-28). -/
structure Token where
  start : Nat
  stop : Nat
  kind : Kind
deriving DecidableEq, Repr

/-- `push_token` (highlight.rs:107-114): what is pushed. -/
def pushed (a b : Nat) (k : Kind) : List Token := if a = b then [] else [⟨a, b, k⟩]

/-- The kind of a word (highlight.rs:74-78). -/
def wordKind : Ctx → Kind
  | .command => .command
  | .argument => .argument
  | .none => .bareword

mutual
/-- `collect_highlight_from_pair` (highlight.rs:57-105). -/
def collect (ctx : Ctx) : LPair → List Token
  | .mk r a b ps => match r with
    | .argv0 => collectAll .command ps
    | .args => collectAll .argument ps
    | .word | .glob_word => pushed a b (wordKind ctx)
    | .variable => pushed a b .variable
    | .s_quoted => pushed a b .single
    | .d_quoted => pushed a b .double
    | .stdout_redirect_direction | .stderr_redirect_direction | .stdouterr_redirect_direction
    | .stdin_redirect_direction | .stdin_redirect_direction_in => pushed a b .redirect
    | .proc_subst_direction | .proc_subst_direction_in => pushed a b .procSubst
    | .pipeline_op => pushed a b .pipe
    | .background_op => pushed a b .background
    | .and_op | .or_op | .sequential_op => pushed a b .operator
    | _ => collectAll ctx ps
/-- The loop over inner pairs, and `collect_highlight_tokens_from_pairs` (highlight.rs:36-48). -/
def collectAll (ctx : Ctx) : List LPair → List Token
  | [] => []
  | p :: ps => collect ctx p ++ collectAll ctx ps
end

/-- The tokens `collect_highlight_tokens_from_pairs` gives (highlight.rs:36-48); there is never an error token. -/
def tokensOf (ps : List LPair) : List Token := collectAll .none ps

/-! ## Colours -/

/-- `ColorType` (input/config.rs:47), and the colour of text outside of all ranges. -/
inductive Colour where
  | plain | known | unknown | argument | variable | single | double | redirect | operator | pipe | background
  | procSubst | error | path
deriving DecidableEq, Repr

/-- A range of the line and its colour. -/
abbrev Range := Nat × Nat × Colour

/-- A text cut out of the line; `none` is a panic. -/
def slice (s : Str) (a b : Nat) : Option Str :=
  if a ≤ b ∧ b ≤ s.length then some ((s.drop a).take (b - a)) else none

/-- What the colours depend on: the commands that can be found (`command_is_valid`, input_analysis.rs:224-245) and the texts
that stand for a path seen before (`is_path_cached_for_shell_token`). -/
structure Facts where
  known : Str → Bool
  path : Str → Bool

/-- The colour of a token (render.rs:171-190). -/
def colourOf (f : Facts) (text : Str) : Kind → Colour
  | .command => if f.known text then .known else .unknown
  | .argument | .bareword => .argument
  | .variable => .variable
  | .single => .single
  | .double => .double
  | .redirect => .redirect
  | .pipe => .pipe
  | .operator => .operator
  | .background => .background
  | .procSubst => .procSubst
  | .error => .error

/-- In order of their starts? (render.rs:154) -/
def inOrder : List Token → Bool
  | a :: b :: l => decide (a.start ≤ b.start) && inOrder (b :: l)
  | _ => true

/-- `highlight_result_to_ranges` (render.rs:145-201), for a result without error token. -/
def rangesOf (f : Facts) (input : Str) (ts : List Token) : List Range :=
  let ts := if inOrder ts then ts else sortBy (fun a b => decide (a.start ≤ b.start)) ts
  (ts.filter fun t => decide (t.start < t.stop) && decide (t.stop ≤ input.length)).map fun t =>
    (t.start, t.stop, colourOf f ((slice input t.start t.stop).getD []) t.kind)

/-- `is_path_like_argument_color` (input_analysis.rs:186-191). -/
def pathLike : Colour → Bool
  | .argument | .single | .double => true
  | _ => false

/-- `apply_cached_path_highlighting` (input_analysis.rs:136-144). -/
def markPaths (f : Facts) (input : Str) (rs : List Range) : List Range :=
  rs.map fun r => if pathLike r.2.2 && f.path ((slice input r.1 r.2.1).getD []) then (r.1, r.2.1, .path) else r

/-- `cached_tail_argument_path_range` (input_analysis.rs:146-157). -/
def tailRange (f : Facts) (input : Str) : Option Range :=
  match tokenAt input input.length .completionRange with
  | none => none
  | some t =>
    if ((input.take t.start.char).all rustWhitespace) then none
    else if f.path t.raw then some (t.start.char, t.stop.char, .path) else none

/-- `ranges_overlap` (input_analysis.rs:177-184). -/
def overlap (a b c d : Nat) : Bool := decide (a < d) && decide (c < b)

/-- `append_cached_tail_path_highlighting` (input_analysis.rs:159-175). -/
def addTail (f : Facts) (input : Str) (rs : List Range) : List Range :=
  match tailRange f input with
  | none => rs
  | some (a, b, k) =>
    if rs.any fun r => overlap a b r.1 r.2.1 then rs
    else sortBy (fun x y => decide (x.1 ≤ y.1)) (rs ++ [(a, b, k)])

/-- The colours `analyze_input` gives to a line (input_analysis.rs:31-134); for a line that does not parse only
the end is coloured, the error token is left out: see `parse_never_fails`. -/
def analyze (f : Facts) (input : Str) : Option (List Range) :=
  if input.head? = some '!' then none
  else match parseL input with
    | .ok ps _ _ => some (addTail f input (markPaths f input (rangesOf f input (tokensOf ps))))
    | .fail => some (tailRange f input).toList

/-! ## Writing -/

/-- What is written: a text in a colour, or the end of a line. -/
inductive Piece where
  | text (c : Colour) (s : Str)
  | newline
deriving DecidableEq, Repr

/-- `str::split('\n')`. -/
def splitNl : Str → List Str
  | [] => [[]]
  | c :: cs =>
    if c = '\n' then [] :: splitNl cs
    else match splitNl cs with
      | [] => [[c]]
      | l :: ls => (c :: l) :: ls

/-- The loop that writes a text line by line (editor.rs:601-608, 644-649, 671-676, 685-690). -/
def pieces (c : Colour) (s : Str) : List Piece :=
  match splitNl s with
  | [] => []
  | l :: ls => .text c l :: ls.flatMap fun m => [.newline, .text c m]

/-- The text in front of a range (editor.rs:641-650). -/
def gapOf (s : Str) (last a : Nat) : Option (List Piece) :=
  if a > last then (slice s last a).map (pieces .plain) else some []

/-- `write_colored_ranges_to` (editor.rs:628-692) from `last` on; `none` is a panic. -/
def write (s : Str) : Nat → List Range → Option (List Piece)
  | last, [] => if last < s.length then (slice s last s.length).map (pieces .plain) else some []
  | last, (a, b, k) :: rs => do
    let gap ← gapOf s last a
    let here ← slice s a b
    let rest ← write s (max b last) rs
    pure (gap ++ pieces k here ++ rest)

/-- `Input::print` (editor.rs:594-624) without the suggestion behind the line. -/
def paint (s : Str) : Option (List Range) → Option (List Piece)
  | some rs => write s 0 rs
  | none => some (pieces .plain s)

/-! ## The line while it is edited -/

/-- The line, its colours, and the line last analyzed (`last_analyzed_input`, `last_analysis_result`; repl/mod.rs:126-127). -/
structure Line where
  text : Str := []
  colours : Option (List Range) := none
  last : Str := []
  cached : Bool := false

/-- What happens to a line. -/
inductive Op where
  /-- The text changes; the colours are forgotten or not (editor.rs:43-176, 565-583). -/
  | edit (t : Str) (forget : Bool)
  /-- `print_input` (render.rs:212-334). -/
  | draw (reset : Bool) (f : Facts)

/-- The state after it. -/
def Line.step (l : Line) : Op → Line
  | .edit t forget => { l with text := t, colours := if forget then none else l.colours }
  | .draw reset f =>
    if l.text.isEmpty || reset then { l with colours := none, last := [], cached := false }
    else if decide (l.last = l.text) && l.cached then l
    else { l with colours := analyze f l.text, last := l.text, cached := true }

/-- What drawing the line writes (render.rs:225-290). -/
def Line.drawn (l : Line) (reset : Bool) (f : Facts) : Option (List Piece) :=
  paint l.text (l.step (.draw reset f)).colours

/-- The line after a sequence of events, from the start. -/
def after (ops : List Op) : Line := ops.foldl Line.step {}

end Dsh.Paint
