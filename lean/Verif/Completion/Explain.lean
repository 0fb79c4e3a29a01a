import Verif.Completion.CmdLine
/-!
# The explanation of the option at the caret

`dsh/src/argument_explainer.rs`, `dsh/src/completion/parser.rs:143-158`, `dsh/src/repl/mod.rs:441-480`: while a line is edited, the
description of the option the caret stands on is written below it.

Simplified: of the definition of a command (`dsh/src/completion/command.rs`) only names and descriptions are kept. The screen is a list of
rows; colours and columns are left out, a row holds a text of any length. The explanation by the AI service is left out.
-/
namespace Dsh.Explain
open Dsh.Tokens Dsh.CmdLine Dsh.Editor

abbrev Str := List Char

/-- `CommandOption` (command.rs:45-61). -/
structure Opt where
  short : Option Str := none
  long : Option Str := none
  desc : Option Str := none
deriving DecidableEq, Repr

/-- `SubCommand` (command.rs:24-41). -/
inductive Sub where
  | mk (name : Str) (aliases : List Str) (options : List Opt) (subs : List Sub)

def Sub.name : Sub → Str | .mk n _ _ _ => n
def Sub.aliases : Sub → List Str | .mk _ a _ _ => a
def Sub.options : Sub → List Opt | .mk _ _ o _ => o
def Sub.subs : Sub → List Sub | .mk _ _ _ s => s

/-- `CommandCompletion` (command.rs:6-20). -/
structure Cmd where
  options : List Opt
  subs : List Sub

/-- The loop of `resolve_command_chain` (argument_explainer.rs:73-81): the options of the subcommands. A word that names none is passed over. -/
def chain (subs : List Sub) : List Str → List (List Opt)
  | [] => []
  | n :: ns =>
    match subs.find? fun s => decide (s.name = n) with
    | some s => s.options :: chain s.subs ns
    | none => chain subs ns

/-- `resolve_command_chain` (argument_explainer.rs:63-83). -/
def levels (c : Cmd) (path : List Str) : List (List Opt) := c.options :: chain c.subs path

/-- `find_long_option` (argument_explainer.rs:144-153). -/
def findLong (n : Str) (os : List Opt) : Option Str := (os.find? fun o => decide (o.long = some n)).bind (·.desc)

/-- `find_short_option` (argument_explainer.rs:155-164). -/
def findShort (n : Str) (os : List Opt) : Option Str := (os.find? fun o => decide (o.short = some n)).bind (·.desc)

/-- `explain_option` (argument_explainer.rs:85-135): the innermost subcommand is asked first. -/
def explainOption (ls : List (List Opt)) (word : Str) (k : Nat) : Option Str :=
  if c!"--".isPrefixOf word then ls.reverse.findSome? (findLong (word.takeWhile (· ≠ '=')))
  else if word.head? = some '-' then
    if k = 0 then none
    else (word[k]?).bind fun x => ls.reverse.findSome? (findShort ['-', x])
  else none

/-- `token_at_cursor` (parser.rs:143-156). -/
def wordAt (line : Str) (cursor : Nat) : Option (Str × Nat) :=
  let spans := tokenize line .parser
  let (i, inside) := findCursor cursor spans
  if inside then (spans[i]?).map fun s => (s.raw, cursor - s.start.byte) else none

/-- `get_explanation` (argument_explainer.rs:35-58). The caller passes a number of characters (`self.input.cursor()`, repl/mod.rs:443-449). -/
def explain (u : Tables) (db : Str → Option Cmd) (line : Str) (cursor : Nat) : Option Str :=
  if line.all rustWhitespace then none
  else
    let p := parse u line cursor
    (db p.command).bind fun c =>
      match p.ctx with
      | .short | .long => (wordAt line cursor).bind fun wk => explainOption (levels c p.path) wk.1 wk.2
      | _ => none

/-! ## On the screen -/

/-- The rows of the screen, the row of the caret, the rows drawn above the caret (`last_drawn_cursor_y`) and the explanation written last
(`last_explanation`). -/
structure Screen where
  height : Nat
  rows : Nat → Str
  cur : Nat
  above : Nat := 0
  last : Option Str := none

/-- The text written (repl/mod.rs:471). -/
def shown : Option Str → Str
  | some e => c!" [ " ++ e ++ c!" ]"
  | none => []

/-- `refresh_argument_explanation` (repl/mod.rs:442-479). `MoveToNextLine` does not leave the screen: on the last row it stays there. -/
def Screen.refresh (s : Screen) (e : Option Str) : Screen :=
  if e = s.last then s
  else
    let r := min (s.cur + 1) (s.height - 1)
    { s with rows := fun i => if i = r then shown e else s.rows i, last := e }

/-- The part of `print_input` that clears and writes the line (render.rs:273-310), for a line of the rows `ls` with the caret on row `y` of it. What does
not fit moves the screen up. -/
def Screen.draw (s : Screen) (ls : List Str) (y : Nat) : Screen :=
  let top := s.cur - s.above
  let up := top + ls.length - s.height
  let old := fun i => if i < top then s.rows i else if i < top + ls.length then ls.getD (i - top) [] else []
  { s with rows := fun i => old (i + up), cur := top - up + y, above := y }

end Dsh.Explain
