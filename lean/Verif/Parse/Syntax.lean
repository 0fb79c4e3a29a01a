import Verif.Util
/-!
Specification side of the parsing properties: a small, conventional shell syntax (words, redirects,
pipelines, lists) with its spelling and its meaning.  It mentions neither the grammar nor the code.
-/
namespace Dsh.Syn

/-- Blank characters. -/
def isBlank (c : Char) : Bool := c == ' ' || c == '\t' || c == '\r'

/-- Characters with a special meaning when unquoted. -/
def special : List Char :=
  ['|', '&', ';', ' ', '\t', '\r', '\n', '`', '{', '}', '<', '>', '(', ')', '$', '"', '\'', '*',
   '?', '[', ']', '\\']

/-- One character of an unquoted word: as it is, or behind a backslash. -/
inductive Piece where
  | plain (c : Char)
  | esc (c : Char)
deriving DecidableEq, Repr

/-- Spelling of a piece. -/
def Piece.text : Piece → List Char
  | .plain c => [c]
  | .esc c => ['\\', c]
/-- The character meant. -/
def Piece.value : Piece → Char
  | .plain c => c
  | .esc c => c
/-- Only ordinary characters may stand unescaped. -/
def Piece.ok : Piece → Bool
  | .plain c => !special.contains c
  | .esc _ => true

/-- A word: unquoted, single-quoted, double-quoted, or a variable reference `$name`. -/
inductive Word where
  | bare (ps : List Piece)
  | sq (s : List Char)
  | dq (s : List Char)
  | var (name : List Char)
deriving DecidableEq, Repr

/-- Spelling of a word. -/
def Word.text : Word → List Char
  | .bare ps => (ps.map Piece.text).flatten
  | .sq s => '\'' :: s ++ ['\'']
  | .dq s => '"' :: s ++ ['"']
  | .var name => '$' :: name
/-- The string meant; a variable reference stands for itself as long as it is not expanded. -/
def Word.value : Word → List Char
  | .bare ps => ps.map Piece.value
  | .sq s => s
  | .dq s => s
  | .var name => '$' :: name
/-- Well-spelled words.  Single quotes: no quote inside and no backslash at the end; double quotes:
no quote, backslash, backquote or dollar inside. -/
def Word.ok : Word → Bool
  | .bare ps => ps ≠ [] && ps.all Piece.ok
  | .sq s => !s.contains '\'' && s.getLast? != some '\\'
  | .dq s => s.all (fun c => c != '"' && c != '\\' && c != '`' && c != '$')
  | .var name => name ≠ [] && name.all (fun c => !special.contains c)

/-- Redirect operators. -/
inductive Redir where
  | out | append | err | errAppend | both | bothAppend | input
deriving DecidableEq, Repr
/-- Their spelling. -/
def Redir.text : Redir → List Char
  | .out => c!">"
  | .append => c!">>"
  | .err => c!"2>"
  | .errAppend => c!"2>>"
  | .both => c!"&>"
  | .bothAppend => c!"&>>"
  | .input => c!"<"

/-- An argument or a redirect, with the blanks before it; a redirect has blanks before its
target. -/
inductive Arg where
  | word (sep : List Char) (w : Word)
  | redir (sep : List Char) (r : Redir) (gap : List Char) (w : Word)
deriving DecidableEq, Repr

/-- Spelling. -/
def Arg.text : Arg → List Char
  | .word sep w => sep ++ w.text
  | .redir sep r gap w => sep ++ (r.text ++ (gap ++ w.text))
/-- Well-formed: separated by at least one blank; redirect targets are unquoted plain words. -/
def Arg.ok : Arg → Bool
  | .word sep w => sep ≠ [] && sep.all isBlank && w.ok
  | .redir sep _ gap w => sep ≠ [] && sep.all isBlank && gap.all isBlank && w.ok &&
      (match w with
       | .bare ps => ps.all (fun p => match p with | .plain _ => true | .esc _ => false)
       | _ => false)

/-- The string of an argument. -/
def Arg.wordVal : Arg → Option (List Char)
  | .word _ w => some w.value
  | .redir .. => none
/-- Operator and target of a redirect. -/
def Arg.redirVal : Arg → Option (Redir × List Char)
  | .word .. => none
  | .redir _ r _ w => some (r, w.value)

/-- A simple command. -/
structure Simple where
  name : Word
  args : List Arg
deriving DecidableEq, Repr
/-- Spelling. -/
def Simple.text (s : Simple) : List Char := s.name.text ++ (s.args.map Arg.text).flatten
/-- Well-formed. -/
def Simple.ok (s : Simple) : Bool := s.name.ok && s.args.all Arg.ok
/-- The argument vector meant. -/
def Simple.argv (s : Simple) : List (List Char) :=
  s.name.value :: s.args.filterMap Arg.wordVal
/-- The last redirect written. -/
def Simple.redirect (s : Simple) : Option (Redir × List Char) :=
  (s.args.filterMap Arg.redirVal).getLast?

/-- A command: background commands `s &`, then possibly a foreground pipeline.  Each background
command carries the blanks before and after `&`; each further stage the blanks before and after
`|`. -/
structure Cmd where
  bgs : List (Simple × List Char × List Char)
  main : Option (Simple × List (List Char × List Char × Simple))
deriving DecidableEq, Repr

/-- Spelling of the background part. -/
def bgsText (l : List (Simple × List Char × List Char)) : List Char :=
  (l.map (fun b => b.1.text ++ (b.2.1 ++ ('&' :: b.2.2)))).flatten
/-- Spelling of the further stages. -/
def stagesText (l : List (List Char × List Char × Simple)) : List Char :=
  (l.map (fun b => b.1 ++ ('|' :: (b.2.1 ++ b.2.2.text)))).flatten
/-- Spelling of the pipeline. -/
def mainText : Option (Simple × List (List Char × List Char × Simple)) → List Char
  | none => []
  | some (s, st) => s.text ++ stagesText st
/-- Spelling of a command. -/
def Cmd.text (c : Cmd) : List Char := bgsText c.bgs ++ mainText c.main
/-- Well-formed: not empty, blanks where blanks stand, and `|` is not followed directly by `:`
(`|:` is another operator). -/
def Cmd.ok (c : Cmd) : Bool :=
  (c.bgs ≠ [] || c.main.isSome) &&
  c.bgs.all (fun b => b.1.ok && b.2.1.all isBlank && b.2.2.all isBlank) &&
  (match c.main with
   | none => true
   | some (s, st) => s.ok && st.all (fun b => b.1.all isBlank && b.2.1.all isBlank && b.2.2.ok &&
       (b.2.1 ≠ [] || b.2.2.text.head? != some ':')))

/-- List operators. -/
inductive Sep where | seq | and | or
deriving DecidableEq, Repr
/-- Spelling. -/
def Sep.text : Sep → List Char
  | .seq => c!";"
  | .and => c!"&&"
  | .or => c!"||"

/-- A command line: a command, then operator and command repeatedly, with blanks. -/
structure Line where
  lead : List Char
  first : Cmd
  rest : List (List Char × Sep × List Char × Cmd)
  trail : List Char
deriving DecidableEq, Repr

/-- Spelling of the rest of the line. -/
def restText : List (List Char × Sep × List Char × Cmd) → List Char → List Char
  | [], trail => trail
  | (g, s, g', c) :: r, trail => g ++ (s.text ++ (g' ++ (c.text ++ restText r trail)))
/-- Spelling of a line. -/
def Line.text (l : Line) : List Char := l.lead ++ (l.first.text ++ restText l.rest l.trail)

/-- `prev & && next` needs a blank between the two operators. -/
def sepOk (prev : Cmd) (g : List Char) (s : Sep) : Bool :=
  g.all isBlank && (s != .and || g ≠ [] || prev.main.isSome ||
    (match prev.bgs.getLast? with | some b => b.2.2 ≠ [] | none => false))
/-- Well-formed rest. -/
def restOk : Cmd → List (List Char × Sep × List Char × Cmd) → Bool
  | _, [] => true
  | prev, (g, s, g', c) :: r => sepOk prev g s && g'.all isBlank && c.ok && restOk c r
/-- Well-formed line. -/
def Line.ok (l : Line) : Bool :=
  l.lead.all isBlank && l.first.ok && restOk l.first l.rest && l.trail.all isBlank

/-- What is to be run: one entry per job. -/
structure Want where
  /-- argument vectors of the pipeline stages -/
  stages : List (List (List Char))
  background : Bool
  redirect : Option (Redir × List Char)
  /-- operator between this job and the next -/
  op : Sep
deriving DecidableEq, Repr

/-- Last redirect written in a sequence of commands. -/
def lastRedir (l : List Simple) : Option (Redir × List Char) :=
  (l.filterMap Simple.redirect).getLast?

/-- Jobs meant by a command. -/
def Cmd.want (c : Cmd) : List Want :=
  c.bgs.map (fun b => ⟨[b.1.argv], true, b.1.redirect, .seq⟩) ++
  (match c.main with
   | none => []
   | some (s, st) => [⟨s.argv :: st.map (fun b => b.2.2.argv), false,
       lastRedir (s :: st.map (fun b => b.2.2)), .seq⟩])

/-- Put operator `s` on the last entry. -/
def setLastOp (s : Sep) (l : List Want) : List Want :=
  match l.getLast? with
  | none => []
  | some w => l.dropLast ++ [{ w with op := s }]

/-- Jobs meant by the rest of a line. -/
def restWant : Cmd → List (List Char × Sep × List Char × Cmd) → List Want
  | c, [] => c.want
  | c, (_, s, _, c') :: r => setLastOp s c.want ++ restWant c' r
/-- Jobs meant by a line. -/
def Line.want (l : Line) : List Want := restWant l.first l.rest

end Dsh.Syn

/-! ### Filling in variables -/
namespace Dsh.Syn

/-- Replace a reference to a set variable by a word that stands for its value. -/
def Word.fill (σ : List Char → Option (List Char)) : Word → Word
  | .var n => match σ n with
    | some v => .sq v
    | none => .var n
  | w => w
/-- Apply `f` to the arguments; redirect targets are not changed. -/
def Arg.mapW (f : Word → Word) : Arg → Arg
  | .word sep w => .word sep (f w)
  | .redir sep r gap w => .redir sep r gap w
/-- Apply `f` to command name and arguments. -/
def Simple.mapW (f : Word → Word) (s : Simple) : Simple := ⟨f s.name, s.args.map (Arg.mapW f)⟩
/-- Apply `f` to all words of a command. -/
def Cmd.mapW (f : Word → Word) (c : Cmd) : Cmd :=
  ⟨c.bgs.map (fun b => (b.1.mapW f, b.2)),
   c.main.map (fun m => (m.1.mapW f, m.2.map (fun b => (b.1, b.2.1, b.2.2.mapW f))))⟩
/-- Apply `f` to all words of a line. -/
def Line.mapW (f : Word → Word) (l : Line) : Line :=
  { l with first := l.first.mapW f, rest := l.rest.map (fun r => (r.1, r.2.1, r.2.2.1, r.2.2.2.mapW f)) }

/-- All simple commands of a command. -/
def Cmd.simples (c : Cmd) : List Simple :=
  c.bgs.map (·.1) ++ (match c.main with | none => [] | some (s, st) => s :: st.map (·.2.2))
/-- All commands of a line. -/
def Line.cmds (l : Line) : List Cmd := l.first :: l.rest.map (·.2.2.2)
/-- All simple commands of a line. -/
def Line.simples (l : Line) : List Simple := l.cmds.flatMap Cmd.simples

end Dsh.Syn
