import Verif.Fs.Dmv
/-!
The directory in the prompt (dsh/src/prompt/modules/directory.rs): C139.

A directory is the list of its names; colours are left out.
-/
namespace Dsh.Prm

abbrev Str := List Char
abbrev Path := List Str

/-- Names with a bar in front of each. -/
def below (p : Path) : Str := p.flatMap fun c => '/' :: c

/-- `Path::display` of an absolute path. -/
def text : Path → Str
  | [] => ['/']
  | p => below p

/-- `format_prompt_path` (directory.rs:43-82): the text, and whether it is shown as a place in a repository.  `marked` says
whether the directory contains `.git`. -/
def promptPath (dir : Path) (root home : Option Path) (marked : Bool) : Str × Bool :=
  let plain : Str × Bool :=
    if marked then ((dir.getLast?).getD [], false)
    else match home with
      | some h => (Dsh.Fs.Dmv.replaceAll (text h) ['~'] (text dir), false)
      | none => (text dir, false)
  match root with
  | some r =>
    if r.isPrefixOf dir then
      let name := (r.getLast?).getD []
      let rel := dir.drop r.length
      (if rel.isEmpty then name else name ++ '/' :: joinWith ['/'] rel, true)
    else plain
  | none => plain

end Dsh.Prm
