import Verif.Fs.Model
/-!
The `dmv` builtin (dsh-builtin/src/dmv.rs): batch renaming.

Simplifications: the regular expression made from the pattern is modelled in `DmvPattern.lean`; here the plan (which file
gets which new path) is a parameter of `executeDmv`, the texts of the capture groups are a parameter
of `substitute`.
-/
namespace Dsh.Fs.Dmv

open Dsh.Fs

/-- The file system after moving what is at `l` (with everything below it) to `t`. -/
def FS.move (fs : FS) (l t : Loc) : FS := fun x =>
  if t.isPrefixOf x then fs (l ++ x.drop t.length)
  else if l.isPrefixOf x then none
  else fs x

/-- Is the directory at `l` empty?  (`rename` only replaces an empty directory.) -/
def EmptyDir (fs : FS) (l : Loc) : Prop := ∀ n, fs (l ++ [n]) = none

open Classical in
/-- `rename(2)`: no link in last position is followed; an existing target is replaced. -/
noncomputable def rename (fs : FS) (lim : Nat) (p q : Path) : Option FS :=
  match resolve fs lim false p with
  | .at l n =>
    if l = [] then none
    else match (if q.slash && n ≠ .dir then .notDir else walk fs false lim [] q.comps) with
      | .missing d m => if l.isPrefixOf (d ++ [m]) then none else some (FS.move fs l (d ++ [m]))
      | .at t n' =>
        if l = t then some fs
        else if l.isPrefixOf t || t.isPrefixOf l then none
        else if n = .dir then (if n' = .dir ∧ EmptyDir fs t then some (FS.move fs l t) else none)
        else if n' = .dir then none
        else some (FS.move fs l t)
      | _ => none
  | _ => none

/-- `check_rename_conflicts` (dmv.rs:464-490). -/
def checkConflicts (fs : FS) (lim : Nat) (force : Bool) : List Path → List (Loc × Path) → Bool
  | _, [] => true
  | seen, (_, t) :: ops =>
    if exists? fs lim t && !force then false
    else if seen.contains t then false
    else checkConflicts fs lim force (t :: seen) ops

/-- Making the parent directory of a target (dmv.rs:165-172). -/
def makeParent (fs : FS) (lim : Nat) (t : Path) : FS × Bool :=
  match t.parent with
  | none => (fs, true)
  | some q => if exists? fs lim q then (fs, true) else createDirs fs lim q

/-- One rename (dmv.rs:164-184). -/
noncomputable def renameOne (fs : FS) (lim : Nat) (op : Loc × Path) : FS × Bool :=
  match makeParent fs lim op.2 with
  | (fs1, false) => (fs1, false)
  | (fs1, true) =>
    match rename fs1 lim (Path.ofLoc op.1) op.2 with
    | none => (fs1, false)
    | some fs2 => (fs2, true)

/-- The loop over the plan (dmv.rs:143-187): the first failure ends it. -/
noncomputable def renameAll (fs : FS) (lim : Nat) : List (Loc × Path) → FS × Bool
  | [] => (fs, true)
  | op :: ops =>
    match renameOne fs lim op with
    | (fs1, false) => (fs1, false)
    | (fs1, true) => renameAll fs1 lim ops

/-- `execute_dmv` (dmv.rs:111-188) on a plan. -/
noncomputable def executeDmv (fs : FS) (lim : Nat) (force dry : Bool) (plan : List (Loc × Path)) : FS × Bool :=
  if !checkConflicts fs lim force [] plan then (fs, false)
  else if dry then (fs, true)
  else renameAll fs lim plan

/-! ### The matcher -/

/-- The attempts at each byte position after `*` (dmv.rs:390-399); a position inside a character
panics (`none`). -/
def tryAll (f : List Char → Option Bool) : List Char → Option Bool
  | [] => f []
  | c :: cs =>
    match f (c :: cs) with
    | none => none
    | some true => some true
    | some false => if c.utf8Size = 1 then tryAll f cs else none

/-- `pattern_match_impl` (dmv.rs:377-424), pattern first; `none` is a panic. -/
def patternMatch : List Char → List Char → Option Bool
  | [], [] => some true
  | [], _ :: _ => some false
  | '*' :: ps, text => if ps.isEmpty then some true else tryAll (patternMatch ps) text
  | '?' :: _, [] => some false
  | '?' :: ps, _ :: cs => patternMatch ps cs
  | _ :: _, [] => some false
  | p :: ps, c :: cs => if c = p then patternMatch ps cs else some false

/-! ### The replacement -/

/-- `str::replace` with a non-empty pattern; `skip` counts the rest of an occurrence. -/
def replaceGo (pat by_ : List Char) : Nat → List Char → List Char
  | _, [] => []
  | skip + 1, _ :: s => replaceGo pat by_ skip s
  | 0, c :: s =>
    if pat.isPrefixOf (c :: s) then by_ ++ replaceGo pat by_ (pat.length - 1) s
    else c :: replaceGo pat by_ 0 s

/-- `str::replace`. -/
def replaceAll (pat by_ s : List Char) : List Char := replaceGo pat by_ 0 s

/-- The decimal digits of a group number. -/
def groupRef (i : Nat) : List Char := '$' :: (toString i).toList

/-- The substitutions of `generate_replacement` (dmv.rs:441-452): `$0`, then `$1`, … in turn. -/
def substitute (caps : List (List Char)) (template : List Char) : List Char :=
  (caps.zipIdx).foldl (fun s ci => replaceAll (groupRef ci.2) ci.1 s) template

end Dsh.Fs.Dmv
