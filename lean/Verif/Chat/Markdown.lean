import Verif.Jobs.Record
/-!
# An answer of the AI on the terminal

`dsh-builtin/src/markdown.rs`.

Simplified: the parser of Markdown (`pulldown_cmark`) is a parameter, an answer is the list of its events;
HTML is text and mathematics inside a line is code (markdown.rs:82, 90-91), so they have no events of their
own. Each character written is kept together with whether it comes from the answer.
-/
namespace Dsh.Md

abbrev Str := List Char

def esc : Char := '\x1b'
def reset : Str := esc :: c!"[0m"
def boldCode : Str := esc :: c!"[1m"
def italicCode : Str := esc :: c!"[3m"
def strikeCode : Str := esc :: c!"[9m"
def dim : Str := esc :: c!"[2m"
def underline : Str := esc :: c!"[4m"
/-- Colours (markdown.rs:11-22). -/
def headingColor (level : Nat) : Str :=
  esc :: match level with
    | 1 => c!"[38;5;81m"
    | 2 => c!"[38;5;110m"
    | 3 => c!"[38;5;39m"
    | 4 => c!"[38;5;153m"
    | _ => c!"[38;5;189m"
def codeColor : Str := esc :: c!"[38;5;214m"
def blockBg : Str := esc :: c!"[48;5;234m"
def blockFg : Str := esc :: c!"[38;5;223m"
def quoteColor : Str := esc :: c!"[38;5;244m"
def linkColor : Str := esc :: c!"[38;5;75m"
def markColor : Str := esc :: c!"[38;5;150m"

/-- What begins. Tables, their heads, rows and cells are one case (markdown.rs:135-138). -/
inductive Tag where
  | paragraph | heading (level : Nat) | quote | code | emphasis | strong | strike
  | list (start : Option Nat) | item | link (dest : Str) | image (dest : Str) | table | footnote (label : Str) | other

/-- What ends. -/
inductive Kind where
  | paragraph | heading | quote | code | emphasis | strong | strike | list | item | link | image | table | footnote | other

inductive Ev where
  | start (t : Tag)
  | stop (k : Kind)
  | text (t : Str)
  | code (t : Str)
  | math (t : Str)
  | soft | hard | rule
  | task (checked : Bool)
  | reference (name : Str)

/-- `InlineStyle` (markdown.rs:502-510). -/
inductive Style where
  | bold | italic | strike | code | heading (level : Nat) | link (dest : Str) | quote
deriving DecidableEq

def Style.isHeading : Style → Bool
  | .heading _ => true
  | _ => false

def Style.isLink : Style → Bool
  | .link _ => true
  | _ => false

/-- `TerminalRenderer` (markdown.rs:66-73). The newest style and list come first; a list has the number of its
next item if it is numbered (markdown.rs:513-535). -/
structure St where
  buf : List (Char × Bool) := []
  styles : List Style := []
  lists : List (Option Nat) := []
  pending : Nat := 0
  sol : Bool := false
  wrote : Bool := false

/-- Something written that is not from the answer. -/
def St.put (s : St) (t : Str) : St := { s with buf := s.buf ++ t.map (·, false) }
/-- Something written from the answer. -/
def St.say (s : St) (t : Str) : St := { s with buf := s.buf ++ t.map (·, true) }

/-- `flush_newlines` (markdown.rs:354-370). -/
def St.flush (s : St) : St :=
  if s.pending = 0 then s
  else { s with buf := if s.buf.isEmpty then s.buf else s.buf ++ List.replicate s.pending ('\n', false), pending := 0, sol := true }

/-- `ensure_newline` (markdown.rs:372-376). -/
def St.newline (s : St) : St := if s.wrote then { s with pending := max s.pending 1 } else s
/-- `ensure_blank_line` (markdown.rs:378-382). -/
def St.blank (s : St) : St := if s.wrote then { s with pending := max s.pending 2 } else s

/-- `quote_depth` (markdown.rs:448-453). -/
def St.depth (s : St) : Nat := (s.styles.filter (· = .quote)).length

/-- `quote_prefix` (markdown.rs:455-461). -/
def St.bars (s : St) : Str := (List.replicate s.depth c!"│ ").flatten

/-- `prepare_line` (markdown.rs:342-352). -/
def St.prepare (s : St) : St :=
  let s := s.flush
  if s.sol && !s.bars.isEmpty then { s.put s.bars with sol := false, wrote := true } else s

/-- `StyleFlags` (markdown.rs:538-547) as they are read in `write_styled`, of the styles, the newest first
(markdown.rs:463-479). -/
def stylePrefix (styles : List Style) (inlineCode : Bool) : Str :=
  (match styles.find? Style.isHeading with
    | some (.heading l) => headingColor l ++ boldCode ++ (if l = 1 then underline else [])
    | _ => (if Style.bold ∈ styles then boldCode else []) ++ (if Style.italic ∈ styles then italicCode else [])) ++
  (if Style.strike ∈ styles then strikeCode else []) ++ (if inlineCode then codeColor else []) ++
  (if styles.any Style.isLink then linkColor ++ underline else []) ++
  (if Style.quote ∈ styles ∧ inlineCode = false then quoteColor else [])

/-- `write_styled` (markdown.rs:388-446). -/
def St.write (s : St) (text : Str) (inlineCode : Bool) : St :=
  if text.isEmpty then s
  else
    let p := stylePrefix s.styles inlineCode
    let s := ((s.put p).say text).put (if p.isEmpty then [] else reset)
    { s with sol := false, wrote := true }

/-- `split('\n')`. -/
def splitNl : Str → List Str
  | [] => [[]]
  | c :: cs =>
    if c = '\n' then [] :: splitNl cs
    else match splitNl cs with
      | [] => [[c]]
      | l :: ls => (c :: l) :: ls

/-- A line ends (markdown.rs:218-220, 267-277). -/
def St.break (s : St) : St := ({ s.put ['\n'] with sol := true } : St).prepare

/-- The lines of a text (markdown.rs:213-226). -/
def St.writeLines (s : St) : List Str → St
  | [] => s
  | [l] => s.write l false
  | l :: ls => St.writeLines (s.write l false).break ls

/-- A line of a code block (markdown.rs:249-262). -/
def St.codeLine (s : St) (l : Str) : St :=
  let s := (((s.put (s.bars ++ (List.replicate s.lists.length c!"  ").flatten ++ blockBg ++ blockFg ++ [' '])).say l).put ([' '] ++ reset))
  { s with sol := false, wrote := true }

/-- Lines with a newline in front (markdown.rs:245-248). -/
def St.codeMore (s : St) : List Str → St
  | [] => s
  | l :: ls => St.codeMore ((s.put ['\n']).codeLine l) ls

/-- `push_code_block_text` (markdown.rs:236-265). -/
def St.codeBlock (s : St) (text : Str) : St :=
  (match splitNl text with
    | [] => s.flush
    | l :: ls => (s.flush.codeLine l).codeMore ls).newline

/-- `push_text` (markdown.rs:199-227). -/
def St.text (s : St) (t : Str) : St :=
  if t.isEmpty then s
  else if Style.code ∈ s.styles then s.codeBlock t
  else s.prepare.writeLines (splitNl t)

/-- `push_inline_code` (markdown.rs:229-234). -/
def St.inline (s : St) (t : Str) : St := s.prepare.write t true

/-- `rule` (markdown.rs:279-288). -/
def St.rule (s : St) : St :=
  { s.blank.flush.put (dim ++ List.replicate 40 '─' ++ reset ++ ['\n']) with sol := true }

/-- `task_marker` (markdown.rs:290-295). -/
def St.task (s : St) (checked : Bool) : St :=
  { s.put (markColor ++ (if checked then c!"[x]" else c!"[ ]") ++ reset ++ [' ']) with sol := false }

/-- The mark of an item: a bullet or a number (markdown.rs:314-327). -/
def mark : Option Nat → Str
  | none => markColor ++ c!"•" ++ reset ++ [' ']
  | some n => markColor ++ Record.dec n ++ ['.'] ++ reset ++ [' ']

/-- `start_list_item` (markdown.rs:297-330). -/
def St.item (s : St) : St :=
  let s := s.flush
  let s := s.put ((if s.sol then [] else ['\n']) ++ s.bars ++ (List.replicate (s.lists.length - 1) c!"  ").flatten)
  let s : St := match s.lists with
    | [] => s
    | i :: ls => { s.put (mark i) with lists := i.map (· + 1) :: ls }
  { s with sol := false, wrote := true }

/-- `append_link_suffix` (markdown.rs:332-340). -/
def St.suffix (s : St) (dest : Str) : St :=
  if dest.isEmpty then s else { ((s.put c!" (").say dest).put c!")" with sol := false, wrote := true }

def St.push (s : St) (x : Style) : St := { s with styles := x :: s.styles }
/-- `pop_style` (markdown.rs:481-490). -/
def St.pop (s : St) (p : Style → Bool) : St := { s with styles := s.styles.eraseP p }

/-- `start_tag` (markdown.rs:97-144). -/
def St.begin (s : St) : Tag → St
  | .paragraph => if s.lists.isEmpty && s.depth = 0 then s.blank else s.newline
  | .heading l => s.blank.push (.heading l)
  | .quote => s.blank.push .quote
  | .code => s.blank.push .code
  | .emphasis => s.push .italic
  | .strong => s.push .bold
  | .strike => s.push .strike
  | .list start => { s.blank with lists := start :: s.blank.lists }
  | .item => s.item
  | .link d => s.push (.link d)
  | .image _ => s
  | .table => s.blank
  | .footnote _ => s.blank
  | .other => s

/-- `end_tag` (markdown.rs:146-197). -/
def St.stop (s : St) : Kind → St
  | .paragraph => s.newline
  | .heading => (s.pop Style.isHeading).blank
  | .quote => (s.pop (· = .quote)).blank
  | .code => (s.pop (· = .code)).blank
  | .emphasis => s.pop (· = .italic)
  | .strong => s.pop (· = .bold)
  | .strike => s.pop (· = .strike)
  | .list => ({ s with lists := s.lists.tail } : St).newline
  | .item => (if s.sol then s else { s.put ['\n'] with sol := true } : St).newline
  | .link =>
    match s.styles.find? Style.isLink with
    | some (.link d) => (s.pop Style.isLink).suffix d
    | _ => s
  | .table => s.blank
  | .footnote => s.blank
  | .image => s
  | .other => s

/-- `handle_event` (markdown.rs:76-95). -/
def St.event (s : St) : Ev → St
  | .start t => s.begin t
  | .stop k => s.stop k
  | .text t => s.text t
  | .code t => s.inline t
  | .math t => s.blank.codeBlock t
  | .soft => s.break
  | .hard => s.break
  | .rule => s.rule
  | .task c => s.task c
  | .reference n => s.text (c!"[" ++ n ++ c!"]")

def St.run (s : St) (es : List Ev) : St := es.foldl St.event s

/-- `finish` (markdown.rs:492-498). -/
def St.finish (s : St) : List (Char × Bool) := (s.flush.buf.reverse.dropWhile (fun c => decide (c.1 = '\n'))).reverse

/-- `render_markdown` (markdown.rs:31-55), on events; with where each character is from. -/
def render (es : List Ev) : List (Char × Bool) := (({} : St).run es).finish

/-- What is written on the terminal. -/
def shown (es : List Ev) : Str := (render es).map (·.1)

/-- `render_markdown_with_fallback` (markdown.rs:58-63) of a text with these events. -/
def answer (parse : Str → List Ev) (input : Str) : Str :=
  if input.contains '\x00' || (trim input).isEmpty || (shown (parse input)).isEmpty then input else shown (parse input)

end Dsh.Md
