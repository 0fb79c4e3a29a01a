import Verif.Completion.Tokens
import Verif.Editor.Props
/-!
# The word Tab completes, and the text it replaces

`dsh/src/completion/parser.rs` (`CommandLineParser`), `dsh/src/completion/integrated.rs`
(`completion_replacement_range`). The parser finds the command, the position and the beginning of the
word the candidates are looked up for. The range is the text a chosen candidate replaces.

Simplified: the types of arguments and of values are left out, they come from the definition files.
`char::is_alphanumeric` and `char::is_alphabetic` are parameters. The correction with the definition
of a command (`context.rs`) is in `Verif.Completion.Defs`; without a definition it changes nothing.
-/
namespace Dsh.CmdLine
open Dsh.Tokens Dsh.Editor

abbrev Str := List Char

/-! ## Model -/

/-- The tables of Unicode. -/
structure Tables where
  alnum : Char → Bool
  alpha : Char → Bool

/-- The tables for ASCII, for the examples. -/
def ascii : Tables := ⟨Char.isAlphanum, Char.isAlpha⟩

/-- `is_option_token` (parser.rs:6-8). -/
def isOpt (t : Str) : Bool := t.head? = some '-'

/-- `is_long_option_token` (parser.rs:11-13). -/
def isLong (t : Str) : Bool := c!"--".isPrefixOf t

/-- `split_inline_long_option` (parser.rs:15-26). -/
def splitInline (t : Str) : Option (Str × Str) :=
  if !isLong t then none
  else
    let name := t.takeWhile (· ≠ '=')
    if name.length = t.length then none
    else if blen name ≤ 2 then none
    else some (name, t.drop (name.length + 1))

/-- `CompletionContext` (parser.rs:68-90), without types. -/
inductive Ctx where
  | command | sub | short | long
  | value (name : Str)
  | arg (index : Nat)
deriving DecidableEq, Repr

/-- `ParsedCommandLine` (parser.rs:30-53); `args`, `options` and `current_arg` are copies. -/
structure Parsed where
  command : Str
  path : List Str
  raw : List Str
  options : List Str
  args : List Str
  current : Str
  ctx : Ctx
deriving DecidableEq, Repr

/-- `token.rfind('.').is_some_and(|i| i > 0 && i < token.len() - 1)` (parser.rs:361-365, 531-534):
the last dot is neither the first nor the last character. -/
def hasExtension (t : Str) : Bool :=
  t.contains '.' && decide (t.getLast? ≠ some '.') && decide (1 < (t.reverse.dropWhile (· ≠ '.')).length)

/-- A vowel (parser.rs:390, 403-406). -/
def vowel (c : Char) : Bool := c!"aeiou".contains (if c.isUpper then c.toLower else c)

/-- No two neighbours are equal (parser.rs:409-414). -/
def alternates : List Bool → Bool
  | a :: b :: l => decide (a ≠ b) && alternates (b :: l)
  | _ => true

/-- `looks_like_subcommand` (parser.rs:354-427). -/
def looksSub (u : Tables) (t : Str) : Bool :=
  if isOpt t then false
  else if hasExtension t then false
  else if t.contains '/' || t.contains '\\' then false
  else if blen t < 2 ∨ 32 < blen t then false
  else
    let v := t.map vowel
    let consonants := (t.filter (fun c => !vowel c && u.alpha c)).length
    if t.length = 4 ∧ (v.filter id).length = 2 ∧ consonants = 2 ∧ alternates v then false
    else t.all (fun c => u.alnum c || decide (c = '-') || decide (c = '_'))

/-- `option_takes_value` (parser.rs:538-557). -/
def takesValue (t : Str) : Bool :=
  [c!"--message", c!"-m", c!"--target", c!"--features", c!"--git", c!"--path", c!"--name", c!"-u",
   c!"--user", c!"-g", c!"--group", c!"-n", c!"--namespace", c!"--context", c!"-C", c!"--chdir", c!"-c",
   c!"-o", c!"--output", c!"-f", c!"--file"].contains t

/-- `strip_suffix`. -/
def stripSuffix (s t : Str) : Option Str :=
  if s.reverse.isPrefixOf t.reverse then some (t.take (t.length - s.length)) else none

/-- `is_redirect_operator` (parser.rs:560-574). -/
def isRedirect (t : Str) : Bool :=
  if [c!">", c!">>", c!"<", c!"&>", c!"&>>"].contains t then true
  else match stripSuffix c!">>" t with
    | some p => p.isEmpty || p.all Char.isDigit
    | none => match stripSuffix c!">" t with
      | some p => p.isEmpty || p.all Char.isDigit
      | none => false

/-- `find_cursor_token_index` (parser.rs:167-185). The position is a number of bytes. -/
def findCursor (pos : Nat) : List Span → Nat × Bool
  | [] => (0, false)
  | s :: l =>
    if pos ≤ s.stop.byte then (0, decide (s.start.byte ≤ pos))
    else ((findCursor pos l).1 + 1, (findCursor pos l).2)

/-- The characters that lie completely in the first `n` bytes (the loop over `is_char_boundary`,
parser.rs:116-121). -/
def takeBytes (n : Nat) : Str → Str
  | [] => []
  | c :: l => if c.utf8Size ≤ n then c :: takeBytes (n - c.utf8Size) l else []

/-- The tokens as the parser sees them: the one at the caret ends at the caret, in a gap there is an
empty one (parser.rs:103-128). -/
def adjusted (spans : List Span) (pos : Nat) : List Str :=
  let tokens := spans.map (·.raw)
  let (i, inside) := findCursor pos spans
  if inside then
    match spans[i]? with
    | some s =>
      let rel := pos - s.start.byte
      if rel < blen s.raw then tokens.set i (takeBytes rel s.raw) else tokens
    | none => tokens
  else tokens.take i ++ [] :: tokens.drop i

/-- Options and arguments (parser.rs:244-281): `skipV`, `skipR` are the two flags. -/
def scan (skipV skipR : Bool) : List Str → List Str × List Str
  | [] => ([], [])
  | t :: l =>
    if skipV then scan false skipR l
    else if skipR then scan false false l
    else if isRedirect t then scan false true l
    else if isOpt t then
      let name := match splitInline t with
        | some (n, _) => n
        | none => t
      let skip := (splitInline t).isNone && (match l.head? with | some n => !isOpt n | none => false) && takesValue name
      (name :: (scan skip false l).1, (scan skip false l).2)
    else ((scan false false l).1, t :: (scan false false l).2)

/-- `has_space_after_command` (parser.rs:342-351). -/
def hasSpace (input command : Str) : Bool :=
  let t := input.dropWhile rustWhitespace
  if !command.isPrefixOf t then false
  else match t[command.length]? with
    | some c => rustWhitespace c
    | none => false

/-- `argument_index` (parser.rs:515-526). -/
def argIndex (args : List Str) (current : Str) : Nat :=
  args.length - (if args.contains current then 1 else 0)

/-- `looks_like_path_argument` (parser.rs:528-535). -/
def looksPath (t : Str) : Bool := t.contains '/' || t.contains '\\' || hasExtension t

/-- `determine_completion_context` (parser.rs:430-513), for `i > 0`. -/
def context (u : Tables) (i : Nat) (current : Str) (path args all : List Str) (space : Bool) : Ctx :=
  match splitInline current with
  | some (name, _) => .value name
  | none =>
    if isLong current then .long
    else if isOpt current then (if blen current = 2 then .short else .long)
    else
      let prev := (all[i - 1]?).getD []
      if isOpt prev && takesValue prev then .value prev
      else if i = 1 ∧ !space then .command
      else if isRedirect prev then .arg args.length
      else if isRedirect current then .arg args.length
      else if looksPath current then .arg (argIndex args current)
      else if path.isEmpty || looksSub u current then (if space then .sub else .command)
      else .arg (argIndex args current)

/-- `analyze_tokens` (parser.rs:188-339). The list is never empty: in an empty line the caret is in a gap. -/
def analyze (u : Tables) (tokens : List Str) (i : Nat) (input : Str) : Parsed :=
  let command := tokens.headD []
  let rest := tokens.tail
  let path := rest.takeWhile (looksSub u)
  let raw := rest.dropWhile (looksSub u)
  let (options, args) := scan false false raw
  if i = 0 then ⟨command, path, raw, options, args, command, .command⟩
  else
    let all := command :: (path ++ raw)
    let cur := (all[i]?).getD []
    let ctx := context u i cur path args all (hasSpace input command)
    let current := match ctx, splitInline cur with
      | .value _, some (_, v) => v
      | _, _ => cur
    ⟨command, path, raw, options, args, current, ctx⟩

/-- `CommandLineParser::parse` (parser.rs:102-131). The caller passes the number of characters before
the caret (`repl.input.cursor()`, key_handlers/completion.rs:122) where a number of bytes is expected. -/
def parse (u : Tables) (input : Str) (cursor : Nat) : Parsed :=
  let spans := tokenize input .parser
  analyze u (adjusted spans cursor) (findCursor cursor spans).1 input

/-- `CompletionReplacementRange` (integrated.rs:90-93), in characters. -/
structure Range where
  start : Nat
  stop : Nat
deriving DecidableEq, Repr

/-- `option_value_range_from_token` (integrated.rs:866-890). -/
def valueRange (token : Str) (start : Nat) (name : Str) : Option Range :=
  if isLong name ∧ (name ++ ['=']).isPrefixOf token then some ⟨start + (name.length + 1), start + token.length⟩
  else if blen name = 2 ∧ !isLong name ∧ name.isPrefixOf token then
    let value := token.drop name.length
    if value ≠ [] ∧ value.head? ≠ some '=' then some ⟨start + name.length, start + token.length⟩ else none
  else none

/-- `slice_chars` (integrated.rs:901-907) and `range_text` (key_handlers/completion.rs:301-307). -/
def slice (input : Str) (a b : Nat) : Str := (input.drop a).take (b - a)

/-- `completion_replacement_range` (integrated.rs:847-864). -/
def replacement (input : Str) (cursor : Nat) (ctx : Ctx) : Option Range :=
  match tokenAt input cursor .completionRange with
  | none => none
  | some s =>
    let whole : Range := ⟨s.start.char, s.stop.char⟩
    match ctx with
    | .value name => some ((valueRange (slice input s.start.char s.stop.char) s.start.char name).getD whole)
    | _ => some whole

end Dsh.CmdLine
