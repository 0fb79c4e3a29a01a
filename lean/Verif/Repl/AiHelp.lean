import Verif.Jobs.Record
import Verif.Safety.Model
/-!
# Help of the AI around the line: explanations, fixes, diagnoses and commits

`dsh/src/repl/handler.rs`, `dsh/src/repl/mod.rs` and `dsh/src/repl/key_handlers/ai.rs` (the explanation under the line),
`dsh/src/repl/repl_ai.rs` and `dsh/src/ai_features/command.rs` (fixes), `dsh/src/ai_features/{analysis,ui}.rs` (diagnoses),
`dsh-builtin/src/commit_ai.rs` (`aic`).

Simplified: what a key makes of the line is a parameter of the event (C01, C02, C102, C105, C116 and others say what it is);
keys that cannot change the line leave it. Requests are events of their own: an answer belongs to a question that was asked
and not answered yet. What the argument explainer says of the line (C160) is a parameter of the refresh.
-/
namespace Dsh.AiHelp

abbrev Str := List Char

/-! ### Keys -/

/-- `KeyAction` (key_action.rs:15-74); `AcceptSuggestionWord`, `InsertChar` and so on without what they carry. -/
inductive Act where
  | cursorLeft | cursorRight | cursorWordLeft | cursorWordRight | cursorToBegin | cursorToEnd
  | historyPrevious | historyNext | historySearch
  | insertChar | insertPairedChar | backspace | deleteWordBackward | deleteToEnd | deleteToBeginning
  | triggerCompletion | acceptCompletion | acceptSuggestionFull | acceptSuggestionWord
  | rotateSuggestionForward | rotateSuggestionBackward
  | execute | executeBackground | openCommandPalette
  | aiAutoFix | aiSmartCommit | aiDiagnose | forceAiSuggestion | aiExplainCommand | macroRecord
  | paste | openEditor | clearScreen | interrupt | toggleSudo | cancelCompletion
  | overtypeClosingBracket | expandAbbreviationAndInsertSpace | unsupported
deriving DecidableEq, Repr

/-- Actions that leave the text of the line as it is (handler.rs:132-286 and the handlers called there). -/
def Act.keeps : Act → Bool
  | .cursorLeft | .cursorRight | .cursorWordLeft | .cursorWordRight | .cursorToBegin | .cursorToEnd
  | .rotateSuggestionForward | .rotateSuggestionBackward | .aiAutoFix | .forceAiSuggestion | .aiExplainCommand
  | .macroRecord | .openEditor | .cancelCompletion | .overtypeClosingBracket | .unsupported => true
  | _ => false

/-- Actions after which the handler returns before it looks at the explanation (the `return`s of handler.rs:132-286;
`TriggerCompletion` returns only if a menu of its own is to be run: here it goes on). -/
def Act.early : Act → Bool
  | .cursorToBegin | .cursorToEnd | .historySearch | .cursorLeft | .cursorRight | .cursorWordLeft | .cursorWordRight
  | .overtypeClosingBracket | .aiSmartCommit | .aiDiagnose | .execute | .executeBackground | .openCommandPalette
  | .interrupt | .clearScreen | .toggleSudo => true
  | _ => false

/-- Actions listed as changing the line (handler.rs:293-310). -/
def Act.listed : Act → Bool
  | .insertChar | .backspace | .deleteWordBackward | .deleteToEnd | .deleteToBeginning | .acceptSuggestionWord
  | .acceptSuggestionFull | .acceptCompletion | .expandAbbreviationAndInsertSpace | .insertPairedChar
  | .overtypeClosingBracket | .paste | .historyPrevious | .historyNext | .historySearch => true
  | _ => false

/-- Actions listed as ending the line (handler.rs:317-320). -/
def Act.ends : Act → Bool
  | .execute | .executeBackground | .interrupt => true
  | _ => false

/-! ### The explanation under the line -/

/-- The fields of the `Repl` (mod.rs:114-117, 312-318), the questions that are not answered, and all questions asked. -/
structure Ex where
  on : Bool
  service : Bool
  line : Str := []
  cur : Option Str := none
  pending : Option Str := none
  last : Option Str := none
  dirty : Bool := false
  waiting : List Str := []
  asked : List Str := []

/-- What the service is told of a line (analysis.rs:49, 57); `none`: the task ends with a panic. -/
def told (line : Str) : Option Str := (Safety.sanitize line 200).map (c!"Explain this briefly:\n" ++ ·)

/-- A task that asks (mod.rs:856-883, ai.rs:26-41). A task that panics asks nothing and never answers. -/
def Ex.ask (e : Ex) : Ex :=
  let e := { e with pending := some e.line }
  match told e.line with
  | some _ => { e with waiting := e.waiting ++ [e.line], asked := e.asked ++ [e.line] }
  | none => e

/-- Alt-e (ai.rs:16-43). -/
def Ex.explain (e : Ex) : Ex :=
  if e.service && !e.line.isEmpty then { e with cur := none }.ask else e

/-- One key (handler.rs:63-333, mod.rs:436-441): the line after it is `after` if the key changes it at all. -/
def Ex.key (e : Ex) (a : Act) (after : Str) : Ex :=
  let e := { e with dirty := true }
  let e := if a.keeps then e else { e with line := after }
  match a with
  | .execute | .aiSmartCommit => { e with cur := none, pending := none, last := none }
  | .aiExplainCommand => e.explain
  | _ =>
    if a.early then e
    else
      let e := if a.listed then { e with cur := none, pending := none } else e
      if a.ends then { e with cur := none, pending := none, last := none } else e

/-- Ctrl-x Ctrl-e (handler.rs:90-112): the text of the editor, or nothing if it failed. -/
def Ex.editor (e : Ex) : Option Str → Ex
  | some text => { e with line := text, cur := none, dirty := true }
  | none => { e with dirty := true }

/-- A paste by the terminal (handler.rs:40-49, editing.rs:82-96): `after` is the line with the text in it. -/
def Ex.pasted (e : Ex) (after : Str) : Ex := { e with line := after }

/-- The idle timer (mod.rs:849-886). -/
def Ex.idle (e : Ex) : Ex :=
  if e.on && e.service && !e.line.isEmpty && e.pending != some e.line && e.cur.isNone then e.ask else e

/-- An answer, or an error, to a question about `input` (mod.rs:943-954). -/
def Ex.answer (e : Ex) (input : Str) (text : Option Str) : Ex :=
  if input ∈ e.waiting then
    let e := { e with waiting := e.waiting.erase input }
    match text with
    | some x => if e.line = input then { e with cur := some x, dirty := true } else e
    | none => if e.pending = some input then { e with pending := none } else e
  else e

/-- The refresh of the line under the line (mod.rs:840-846, 442-453): what stands there is `last`. -/
def Ex.tick (e : Ex) (args : Option Str) : Ex :=
  if e.dirty then
    { e with dirty := false, last := match e.cur with | some x => some (c!"✨ " ++ x) | none => args }
  else e

inductive Ev where
  | key (a : Act) (after : Str)
  | editor (text : Option Str)
  | pasted (after : Str)
  | idle
  | answer (input : Str) (text : Option Str)
  | tick (args : Option Str)
  | set (on : Bool)

def Ex.ev (e : Ex) : Ev → Ex
  | .key a after => e.key a after
  | .editor t => e.editor t
  | .pasted after => e.pasted after
  | .idle => e.idle
  | .answer i t => e.answer i t
  | .tick args => e.tick args
  | .set on => { e with on := on }

def Ex.evs (e : Ex) (l : List Ev) : Ex := l.foldl Ex.ev e

/-! ### Fixes -/

/-- The fields of the `Repl` for fixes (mod.rs:115, repl_ai.rs:39-67): the line, the last command with its status, what is
offered, the commands a fix was asked for and is not there yet, and what was run. -/
structure Fx where
  on : Bool
  line : Str := []
  lastCmd : Str := []
  lastStatus : Int := 0
  offer : Option Str := none
  waiting : List (Str × Int) := []
  asked : List (Str × Int) := []
  ran : List Str := []

/-- `trigger_auto_fix` (repl_ai.rs:39-68), with a service; `blocked` is `is_auto_fix_blocked` (repl_ai.rs:197-202). -/
def Fx.trigger (blocked : Str → Bool) (f : Fx) : Fx :=
  if f.lastStatus ≠ 0 ∧ f.lastCmd ≠ [] ∧ f.on = true ∧ blocked f.lastCmd = false then
    { f with waiting := f.waiting ++ [(f.lastCmd, f.lastStatus)], asked := f.asked ++ [(f.lastCmd, f.lastStatus)] }
  else f

/-- Enter on a complete line (execution.rs:15-235, mod.rs:1071-1087). -/
def Fx.enter (blocked : Str → Bool) (f : Fx) (status : Int) : Fx :=
  if f.line.isEmpty then f
  else { f with ran := f.ran ++ [f.line], lastCmd := f.line, lastStatus := status, line := [] }.trigger blocked

/-- Alt-Enter (execution.rs:238-305): `last_command_time` stays, so no fix is asked for. -/
def Fx.background (f : Fx) (status : Int) : Fx :=
  if f.line.isEmpty then f
  else { f with ran := f.ran ++ [f.line], lastCmd := f.line, lastStatus := status, line := [] }

/-- Alt-f at the end of the line without a suggestion for it (key_action.rs:116-120, 196, handler.rs:119-120, 211-213): with a fix
offered on the empty line it is `AcceptSuggestionWord`, which finds no suggestion (completion.rs:11-16). -/
def Fx.altF (blocked : Str → Bool) (f : Fx) : Fx :=
  if f.line.isEmpty && f.offer.isSome then f else f.trigger blocked

/-- The answer to a question: a command with its arguments, or nothing if the request failed or is no such JSON
(command.rs:156-234, mod.rs:934-942). -/
def Fx.answer (level : Safety.Level) (allow : List Str) (f : Fx) (q : Str × Int) (a : Option (Str × List Str)) : Fx :=
  if q ∈ f.waiting then
    let f := { f with waiting := f.waiting.erase q }
    match a with
    | some (cmd, args) =>
      match Safety.suggest level allow cmd args with
      | some text => { f with offer := some text }
      | none => f
    | none => f
  else f

/-- The right arrow or Ctrl-f on the empty line (key_action.rs:130-138, 149-154, completion.rs:18-31). -/
def Fx.right (f : Fx) : Fx :=
  if f.line.isEmpty then
    match f.offer with
    | some t => { f with offer := none, line := t }
    | none => f
  else f

/-- Esc with a fix offered on the empty line is `CancelCompletion` (key_action.rs:244-250), which does something only with a
menu or a suggestion (completion.rs:55-63). -/
def Fx.esc (f : Fx) : Fx := f

/-- What stands in grey on the line (render.rs:259-263). -/
def Fx.grey (f : Fx) : Option Str := if f.line.isEmpty then f.offer else none

inductive Fv where
  | type (line : Str)
  | enter (status : Int)
  | background (status : Int)
  | altF
  | right
  | esc
  | answer (q : Str × Int) (a : Option (Str × List Str))
  | set (on : Bool)

def Fx.ev (blocked : Str → Bool) (level : Safety.Level) (allow : List Str) (f : Fx) : Fv → Fx
  | .type l => { f with line := l }
  | .enter s => f.enter blocked s
  | .background s => f.background s
  | .altF => f.altF blocked
  | .right => f.right
  | .esc => f.esc
  | .answer q a => f.answer level allow q a
  | .set on => { f with on := on }

def Fx.evs (blocked : Str → Bool) (level : Safety.Level) (allow : List Str) (f : Fx) (l : List Fv) : Fx :=
  l.foldl (Fx.ev blocked level allow) f

/-! ### Diagnoses -/

/-- The lines that begin or end a block for `extract_command` (ui.rs:180-181). -/
def fence (l : Str) : Bool := (c!"```bash").isPrefixOf (trim l) || (c!"```sh").isPrefixOf (trim l) || trim l == c!"```"

/-- The lines of the block, with the newlines put between them (ui.rs:190-195): none in front of the first that is not empty. -/
def gather : Str → List Str → Str
  | acc, [] => acc
  | acc, l :: ls => if fence l then acc else gather ((if acc.isEmpty then acc else acc ++ ['\n']) ++ l) ls

/-- The loop of `extract_command` (ui.rs:179-196) from before the block. -/
def scan : List Str → Str
  | [] => []
  | l :: ls => if fence l then gather [] ls else scan ls

/-- `extract_command` (ui.rs:175-203). -/
def extract (text : Str) : Option Str :=
  let c := scan (Record.lines text)
  if c.isEmpty then none else some (trim c)

/-- What Alt-d tells the service of a failed command (analysis.rs:151-171): `none` is a panic. The status is text here. The second cut
(analysis.rs:162-166) is never reached. -/
def diagnosis (cmd status output : Str) : Option Str :=
  match Safety.sanitize cmd 1000, Safety.sanitize output 2000 with
  | some c, some o => some (c!"Command: `" ++ c ++ c!"`\nExit code: " ++ status ++ c!"\nOutput:\n```\n" ++ o ++ c!"\n```")
  | _, _ => none

/-! ### `aic` -/

/-- What was done: a message shown for review, a commit with the message and the tree that is staged at that moment. -/
inductive Step where
  | shown (msg : Str)
  | commit (msg : Str) (tree : Nat)
deriving DecidableEq, Repr

/-- The end of `aic`; `forever` is the loop that does not end. -/
inductive End where
  | status (n : Nat)
  | forever
deriving DecidableEq, Repr

/-- A line the user types at the review: the text, what the editor gives if it is opened, whether `git commit` works, and what is
staged at that moment. -/
structure Reply where
  text : Str
  edited : Option Str := none
  commits : Bool := true
  tree : Nat := 0

/-- `to_lowercase`, for the answers that are looked for (no other letter becomes one of theirs). -/
def lower (s : Str) : Str := s.map Char.toLower

/-- The review (commit_ai.rs:65-126); the list is what there is to read: at its end `read_line` gives no bytes and no error, for ever. -/
def review : Str → List Reply → List Step × End
  | msg, [] => ([.shown msg], .forever)
  | msg, r :: rs =>
    let a := lower (trim r.text)
    if a = c!"y" ∨ a = c!"yes" then
      if r.commits then ([.shown msg, .commit msg r.tree], .status 0) else ([.shown msg], .status 1)
    else if a = c!"n" ∨ a = c!"no" then ([.shown msg], .status 0)
    else if a = c!"e" ∨ a = c!"edit" then
      match r.edited with
      | some t => let q := review (trim t) rs; (.shown msg :: q.1, q.2)
      | none => let q := review msg rs; (.shown msg :: q.1, q.2)
    else let q := review msg rs; (.shown msg :: q.1, q.2)

/-- `aic` (commit_ai.rs:14-127): the staged diff with the tree it is of, whether there is a key, the answer of the service to it. -/
def aic (diff : Option (Str × Nat)) (key : Bool) (message : Option Str) (rs : List Reply) : List Step × End :=
  match diff with
  | none => ([], .status 1)
  | some (d, _) =>
    if (trim d).isEmpty then ([], .status 1)
    else if !key then ([], .status 1)
    else match message with
      | none => ([], .status 1)
      | some m => review (trim m) rs

end Dsh.AiHelp
