import Verif.Fs.DmvProps
/-!
Which files `dmv` renames (C223): `parse_pattern` (dsh-builtin/src/dmv.rs:190-274), `glob_to_regex` (dsh-builtin/src/dmv.rs:276-309),
`find_matching_files` (dsh-builtin/src/dmv.rs:311-321), `find_matches_recursive` (dsh-builtin/src/dmv.rs:323-347), `find_matches_in_dir`
(dsh-builtin/src/dmv.rs:349-368), the match in `generate_replacement` (dsh-builtin/src/dmv.rs:436-439).

The regular expression is modelled as the list of its parts instead of its text (groups do not matter for what it accepts, there are no
alternatives); what a set `[…]` accepts is any relation `cls`; sets that begin with `]` are left out.  Names have no `/`.  `patternMatch` is
the matcher of `Verif/Fs/Dmv.lean`.
-/
namespace Dsh.DmvPat
open Dsh.Fs.Dmv

abbrev Str := List Char

/-- A part of the regular expression: a character, `[^/]*`, `.*`, `[^/]`, a set. -/
inductive Item where
  | lit (c : Char)
  | many
  | deep
  | one
  | cls (text : Str)
deriving DecidableEq

/-- The rest of a group (dmv.rs:205-219): the text up to the parenthesis that ends it, and what follows. -/
def takeGroup : Nat → Str → Option (Str × Str)
  | _, [] => none
  | d, c :: s =>
    if c = '(' then (takeGroup (d + 1) s).map fun r => (c :: r.1, r.2)
    else if c = ')' then (if d = 0 then some ([], s) else (takeGroup (d - 1) s).map fun r => (c :: r.1, r.2))
    else (takeGroup d s).map fun r => (c :: r.1, r.2)

/-- The rest of a set (dmv.rs:244-253, 290-297); one without an end is no regular expression. -/
def takeClass : Str → Option (Str × Str)
  | [] => none
  | c :: s => if c = ']' then some ([], s) else (takeClass s).map fun r => (c :: r.1, r.2)

/-- `glob_to_regex` (dmv.rs:276-309): the text of a group; parentheses in it are characters.  The first argument bounds the steps. -/
def inner : Nat → Str → Option (List Item)
  | _, [] => some []
  | 0, _ :: _ => none
  | n + 1, c :: s =>
    if c = '*' then (if s.head? = some '*' then (inner n s.tail).map (.deep :: ·) else (inner n s).map (.many :: ·))
    else if c = '?' then (inner n s).map (.one :: ·)
    else if c = '[' then match takeClass s with
      | none => none
      | some r => (inner n r.2).map (.cls r.1 :: ·)
    else (inner n s).map (.lit c :: ·)

/-- `parse_pattern` (dmv.rs:190-274): the pattern for the search and the regular expression.  A `)` of its own is no regular expression. -/
def parse : Nat → Str → Option (Str × List Item)
  | _, [] => some ([], [])
  | 0, _ :: _ => none
  | n + 1, c :: s =>
    if c = '(' then match takeGroup 0 s with
      | none => none
      | some r => match inner r.1.length r.1 with
        | none => none
        | some is => (parse n r.2).map fun q => ('*' :: q.1, is ++ q.2)
    else if c = '*' then
      (if s.head? = some '*' then (parse n s.tail).map fun q => ('*' :: '*' :: q.1, .deep :: q.2)
      else (parse n s).map fun q => ('*' :: q.1, .many :: q.2))
    else if c = '?' then (parse n s).map fun q => ('?' :: q.1, .one :: q.2)
    else if c = '[' then match takeClass s with
      | none => none
      | some r => (parse n r.2).map fun q => ('[' :: r.1 ++ ']' :: q.1, .cls r.1 :: q.2)
    else if c = ')' then none
    else (parse n s).map fun q => (c :: q.1, .lit c :: q.2)

def parsePattern (p : Str) : Option (Str × List Item) := parse p.length p

/-- What the regular expression accepts, from `^` to `$`; `.` is no end of line. -/
def Matches (cls : Str → Char → Prop) : List Item → Str → Prop
  | [], s => s = []
  | .lit c :: r, s => ∃ t, s = c :: t ∧ Matches cls r t
  | .one :: r, s => ∃ c t, s = c :: t ∧ c ≠ '/' ∧ Matches cls r t
  | .cls x :: r, s => ∃ c t, s = c :: t ∧ cls x c ∧ Matches cls r t
  | .many :: r, s => ∃ u t, s = u ++ t ∧ '/' ∉ u ∧ Matches cls r t
  | .deep :: r, s => ∃ u t, s = u ++ t ∧ '\n' ∉ u ∧ Matches cls r t

/-- `strip_prefix("**/")` (dmv.rs:328). -/
def strip : Str → Option Str
  | '*' :: '*' :: '/' :: s => some s
  | _ => none

/-- The file `name` in the directory `d` is renamed; `dirs` are the names in the current directory and in those below it: found by the
search (dmv.rs:323-368) and accepted by the regular expression, which is given the name alone (dmv.rs:431-439). -/
def Renamed (cls : Str → Char → Prop) (p : Str) (dirs : List (List Str)) (d : Nat) (name : Str) : Prop :=
  ∃ q, parsePattern p = some q ∧ name ∈ dirs.getD d [] ∧
    (match strip q.1 with
      | some sub => patternMatch sub name = some true
      | none => d = 0 ∧ patternMatch q.1 name = some true) ∧ Matches cls q.2 name

/-! ### What a pattern means, by the help text -/

inductive Tok0 where
  | lit (c : Char)
  | many
  | deep
  | one
deriving DecidableEq

inductive Tok where
  | plain (t : Tok0)
  | group (ts : List Tok0)

def Tok0.text : Tok0 → Str
  | .lit c => [c]
  | .many => ['*']
  | .deep => ['*', '*']
  | .one => ['?']

def text0 (ts : List Tok0) : Str := ts.flatMap Tok0.text

def Tok.text : Tok → Str
  | .plain t => t.text
  | .group ts => '(' :: text0 ts ++ [')']

/-- How the pattern is written. -/
def text (ts : List Tok) : Str := ts.flatMap Tok.text

/-- The names the pattern stands for: a star is any text, `?` any character, a group what is in it. -/
def Lang0 : List Tok0 → Str → Prop
  | [], s => s = []
  | .lit c :: r, s => ∃ t, s = c :: t ∧ Lang0 r t
  | .one :: r, s => ∃ c t, s = c :: t ∧ Lang0 r t
  | .many :: r, s => ∃ u t, s = u ++ t ∧ Lang0 r t
  | .deep :: r, s => ∃ u t, s = u ++ t ∧ Lang0 r t

def flat (ts : List Tok) : List Tok0 := ts.flatMap fun
  | .plain t => [t]
  | .group l => l

def Lang (ts : List Tok) (s : Str) : Prop := Lang0 (flat ts) s

/-- Characters that stand for themselves. -/
def plainChar (c : Char) : Bool := !['(', ')', '[', '*', '?', '/'].contains c

def ok0 (ts : List Tok0) : Bool := ts.all fun
  | .lit c => plainChar c
  | _ => true

/-- `*` before `*` or `**` would be read as `**`. -/
def sep0 : List Tok0 → Bool
  | .many :: .many :: _ => false
  | .many :: .deep :: _ => false
  | _ :: r => sep0 r
  | [] => true

def ok (ts : List Tok) : Bool := ts.all fun
  | .plain t => ok0 [t]
  | .group l => ok0 l && sep0 l

def sep : List Tok → Bool
  | .plain .many :: .plain .many :: _ => false
  | .plain .many :: .plain .deep :: _ => false
  | _ :: r => sep r
  | [] => true

/-! ### Lemmas -/

def item : Tok0 → Item
  | .lit c => .lit c
  | .many => .many
  | .deep => .deep
  | .one => .one

def globOf : Tok → Str
  | .plain t => t.text
  | .group _ => ['*']

theorem plainChar_iff (c : Char) : plainChar c = true ↔ c ≠ '(' ∧ c ≠ ')' ∧ c ≠ '[' ∧ c ≠ '*' ∧ c ≠ '?' ∧ c ≠ '/' := by
  simp [plainChar]

theorem head0 (ts : List Tok0) (s : Str) (hs : s.head? ≠ some '*') (ho : ok0 ts = true)
    (hm : ∀ t r, ts = t :: r → t ≠ .many ∧ t ≠ .deep) : (text0 ts ++ s).head? ≠ some '*' := by
  cases ts with
  | nil => simpa [text0] using hs
  | cons t r =>
    have := hm t r rfl
    cases t with
    | lit c =>
      simp only [ok0, List.all_cons, Bool.and_eq_true, plainChar_iff] at ho
      simpa [text0, Tok0.text] using ho.1.2.2.2.1
    | many => exact absurd rfl this.1
    | deep => exact absurd rfl this.2
    | one => simp [text0, Tok0.text]

theorem inner_text (ts : List Tok0) (s : Str) (hs : s.head? ≠ some '*') (ho : ok0 ts = true) (hp : sep0 ts = true) (n : Nat)
    (hn : (text0 ts ++ s).length ≤ n) : ∃ m, s.length ≤ m ∧ inner n (text0 ts ++ s) = (inner m s).map (ts.map item ++ ·) := by
  induction ts generalizing n with
  | nil => exact ⟨n, by simpa [text0] using hn, by simp [text0]⟩
  | cons t r ih =>
    have hor : ok0 r = true := by simp only [ok0, List.all_cons, Bool.and_eq_true] at ho; exact ho.2
    have hpr : sep0 r = true := by
      cases t <;> first | (simpa [sep0] using hp) | skip
      cases r with
      | nil => rfl
      | cons t' r' => cases t' <;> simp_all [sep0]
    have hx : text0 (t :: r) ++ s = t.text ++ (text0 r ++ s) := by simp [text0]
    rw [hx] at hn ⊢
    have hlen : 0 < t.text.length := by cases t <;> simp [Tok0.text]
    obtain ⟨n, rfl⟩ : ∃ k, n = k + 1 := ⟨n - 1, by simp only [List.length_append] at hn; omega⟩
    have hn' : (text0 r ++ s).length ≤ n := by simp only [List.length_append] at hn ⊢; omega
    obtain ⟨m, hm, e⟩ := ih hor hpr n hn'
    refine ⟨m, hm, ?_⟩
    cases t with
    | lit c =>
      simp only [ok0, List.all_cons, Bool.and_eq_true, plainChar_iff] at ho
      obtain ⟨⟨_, _, h3, h4, h5, _⟩, _⟩ := ho
      simp only [Tok0.text, List.cons_append, List.nil_append, inner, h3, h4, h5, if_false, e, Option.map_map, List.map_cons, item]
      rfl
    | one =>
      simp only [Tok0.text, List.cons_append, List.nil_append, inner, e, Option.map_map, List.map_cons, item]
      rfl
    | deep =>
      simp only [Tok0.text, List.cons_append, List.nil_append, inner, List.head?_cons, List.tail_cons, e, Option.map_map, List.map_cons, item]
      rfl
    | many =>
      have hh : (text0 r ++ s).head? ≠ some '*' := head0 r s hs hor fun t' r' e' => by
        subst e'; cases t' <;> simp_all [sep0]
      simp only [Tok0.text, List.cons_append, List.nil_append, inner, hh, if_true, if_false, e, Option.map_map, List.map_cons, item]
      rfl

theorem noparen (ts : List Tok0) (ho : ok0 ts = true) : ∀ c ∈ text0 ts, c ≠ '(' ∧ c ≠ ')' ∧ c ≠ '[' ∧ c ≠ '/' := by
  intro c hc
  simp only [text0, List.mem_flatMap] at hc
  obtain ⟨t, ht, hc⟩ := hc
  simp only [ok0, List.all_eq_true] at ho
  have := ho t ht
  cases t with
  | lit x =>
    simp only [plainChar_iff] at this
    simp only [Tok0.text, List.mem_singleton] at hc
    subst hc; exact ⟨this.1, this.2.1, this.2.2.1, this.2.2.2.2.2⟩
  | many => simp only [Tok0.text, List.mem_singleton] at hc; subst hc; decide
  | deep => simp only [Tok0.text, List.mem_cons, List.not_mem_nil, or_false, or_self] at hc; subst hc; decide
  | one => simp only [Tok0.text, List.mem_singleton] at hc; subst hc; decide

theorem takeGroup_plain (d : Nat) (a r : Str) (h : ∀ c ∈ a, c ≠ '(' ∧ c ≠ ')') :
    takeGroup d (a ++ r) = (takeGroup d r).map fun q => (a ++ q.1, q.2) := by
  induction a with
  | nil => simp
  | cons c a ih =>
    have hc := h c (by simp)
    simp only [List.cons_append, takeGroup, hc.1, hc.2, if_false, ih fun x hx => h x (by simp [hx]), Option.map_map]
    rfl

theorem takeGroup_text (ts : List Tok0) (ho : ok0 ts = true) (r : Str) : takeGroup 0 (text0 ts ++ ')' :: r) = some (text0 ts, r) := by
  rw [takeGroup_plain 0 _ _ fun c hc => ⟨(noparen ts ho c hc).1, (noparen ts ho c hc).2.1⟩]
  simp [takeGroup]

theorem head_text (ts : List Tok) (s : Str) (hs : s.head? ≠ some '*') (ho : ok ts = true)
    (hm : ∀ t r, ts = t :: r → t ≠ .plain .many ∧ t ≠ .plain .deep) : (text ts ++ s).head? ≠ some '*' := by
  cases ts with
  | nil => simpa [text] using hs
  | cons t r =>
    have := hm t r rfl
    cases t with
    | group l => simp [text, Tok.text]
    | plain t =>
      cases t with
      | lit c =>
        simp only [ok, List.all_cons, Bool.and_eq_true] at ho
        have hc : plainChar c = true := by simpa [ok0] using ho.1
        rw [plainChar_iff] at hc
        simpa [text, Tok.text, Tok0.text] using hc.2.2.2.1
      | many => exact absurd rfl this.1
      | deep => exact absurd rfl this.2
      | one => simp [text, Tok.text, Tok0.text]

theorem parse_text (ts : List Tok) (s : Str) (hs : s.head? ≠ some '*') (ho : ok ts = true) (hp : sep ts = true) (n : Nat)
    (hn : (text ts ++ s).length ≤ n) :
    ∃ m, s.length ≤ m ∧ parse n (text ts ++ s) = (parse m s).map fun q => (ts.flatMap globOf ++ q.1, (flat ts).map item ++ q.2) := by
  induction ts generalizing n with
  | nil => exact ⟨n, by simpa [text] using hn, by simp [text, flat]⟩
  | cons t r ih =>
    have hor : ok r = true := by simp only [ok, List.all_cons, Bool.and_eq_true] at ho; exact ho.2
    have hpr : sep r = true := by
      cases t with
      | group l => simpa [sep] using hp
      | plain t =>
        cases t <;> first | (simpa [sep] using hp) | skip
        cases r with
        | nil => rfl
        | cons t' r' =>
          cases t' with
          | group l => simpa [sep] using hp
          | plain t' => cases t' <;> simp_all [sep]
    have hx : text (t :: r) ++ s = t.text ++ (text r ++ s) := by simp [text]
    rw [hx] at hn ⊢
    have hlen : 0 < t.text.length := by
      cases t with
      | group l => simp [Tok.text]
      | plain t => cases t <;> simp [Tok.text, Tok0.text]
    obtain ⟨n, rfl⟩ : ∃ k, n = k + 1 := ⟨n - 1, by simp only [List.length_append] at hn; omega⟩
    have hn' : (text r ++ s).length ≤ n := by simp only [List.length_append] at hn ⊢; omega
    obtain ⟨m, hm, e⟩ := ih hor hpr n hn'
    refine ⟨m, hm, ?_⟩
    have ho1 := ho
    simp only [ok, List.all_cons, Bool.and_eq_true] at ho1
    cases t with
    | group l =>
      have hl : ok0 l = true ∧ sep0 l = true := by simpa using ho1.1
      obtain ⟨m', _, e'⟩ := inner_text l [] (by simp) hl.1 hl.2 (text0 l).length (by simp)
      rw [List.append_nil] at e'
      have e'' : inner (text0 l).length (text0 l) = some (l.map item) := by rw [e']; cases m' <;> simp [inner]
      have hg : (Tok.group l).text ++ (text r ++ s) = '(' :: (text0 l ++ ')' :: (text r ++ s)) := by simp [Tok.text]
      rw [hg, parse, if_pos rfl, takeGroup_text l hl.1]
      simp only [e'', e, Option.map_map]
      cases parse m s <;> simp [flat, globOf]
    | plain t =>
      cases t with
      | lit c =>
        have hc : plainChar c = true := by simpa [ok0] using ho1.1
        rw [plainChar_iff] at hc
        obtain ⟨h1, h2, h3, h4, h5, _⟩ := hc
        simp only [Tok.text, Tok0.text, List.cons_append, List.nil_append, parse, h1, h2, h3, h4, h5, if_false, e, Option.map_map]
        cases parse m s <;> simp [flat, globOf, Tok0.text, item]
      | one =>
        simp only [Tok.text, Tok0.text, List.cons_append, List.nil_append, parse, e, Option.map_map]
        cases parse m s <;> simp [flat, globOf, Tok0.text, item]
      | deep =>
        simp only [Tok.text, Tok0.text, List.cons_append, List.nil_append, parse, List.head?_cons, List.tail_cons, e, Option.map_map]
        cases parse m s <;> simp [flat, globOf, Tok0.text, item]
      | many =>
        have hh : (text r ++ s).head? ≠ some '*' := head_text r s hs hor fun t' r' e' => by
          subst e'
          cases t' with
          | group l => simp
          | plain t' => cases t' <;> simp_all [sep]
        simp only [Tok.text, Tok0.text, List.cons_append, List.nil_append, parse, hh, if_true, if_false, e, Option.map_map]
        cases parse m s <;> simp [flat, globOf, Tok0.text, item]

theorem parse_ok (ts : List Tok) (ho : ok ts = true) (hp : sep ts = true) :
    parsePattern (text ts) = some (ts.flatMap globOf, (flat ts).map item) := by
  obtain ⟨m, _, e⟩ := parse_text ts [] (by simp) ho hp (text ts).length (by simp)
  rw [List.append_nil] at e
  rw [parsePattern, e]
  cases m <;> simp [parse]

theorem matches_lang (cls : Str → Char → Prop) (ts : List Tok0) (s : Str) (hs : '/' ∉ s) (hn : '\n' ∉ s) :
    Matches cls (ts.map item) s ↔ Lang0 ts s := by
  induction ts generalizing s with
  | nil => simp [Matches, Lang0]
  | cons t r ih =>
    have tail : ∀ u t, s = u ++ t → ('/' ∉ u ∧ '\n' ∉ u) ∧ '/' ∉ t ∧ '\n' ∉ t := by
      intro u t e; subst e; simp only [List.mem_append, not_or] at hs hn; exact ⟨⟨hs.1, hn.1⟩, hs.2, hn.2⟩
    cases t with
    | lit c =>
      simp only [List.map_cons, item, Matches, Lang0]
      exact exists_congr fun t => and_congr_right fun e => ih t (tail [c] t (by simpa using e)).2.1 (tail [c] t (by simpa using e)).2.2
    | one =>
      simp only [List.map_cons, item, Matches, Lang0]
      refine exists_congr fun c => exists_congr fun t => and_congr_right fun e => ?_
      have h := tail [c] t (by simpa using e)
      rw [ih t h.2.1 h.2.2]
      have : c ≠ '/' := by rintro rfl; exact h.1.1 (by simp)
      simp [this]
    | many =>
      simp only [List.map_cons, item, Matches, Lang0]
      refine exists_congr fun u => exists_congr fun t => and_congr_right fun e => ?_
      have h := tail u t e
      rw [ih t h.2.1 h.2.2]; simp [h.1.1]
    | deep =>
      simp only [List.map_cons, item, Matches, Lang0]
      refine exists_congr fun u => exists_congr fun t => and_congr_right fun e => ?_
      have h := tail u t e
      rw [ih t h.2.1 h.2.2]; simp [h.1.2]

theorem Glob_star (u s p : Str) (h : Glob p s) : Glob ('*' :: p) (u ++ s) := .star u s rfl h

/-- A name a text of a group stands for is any text for the search. -/
theorem lang_append (a b : List Tok0) (s : Str) : Lang0 (a ++ b) s ↔ ∃ u t, s = u ++ t ∧ Lang0 a u ∧ Lang0 b t := by
  induction a generalizing s with
  | nil =>
    simp only [List.nil_append, Lang0]
    exact ⟨fun h => ⟨[], s, rfl, rfl, h⟩, by rintro ⟨u, t, rfl, rfl, h⟩; exact h⟩
  | cons x a ih =>
    cases x <;> simp only [List.cons_append, Lang0, ih]
    · constructor
      · rintro ⟨_, rfl, u, t, rfl, h1, h2⟩; exact ⟨_ :: u, t, rfl, ⟨u, rfl, h1⟩, h2⟩
      · rintro ⟨_, t, rfl, ⟨u, rfl, h1⟩, h2⟩; exact ⟨u ++ t, rfl, u, t, rfl, h1, h2⟩
    · constructor
      · rintro ⟨v, _, rfl, u, t, rfl, h1, h2⟩; exact ⟨v ++ u, t, by simp, ⟨v, u, rfl, h1⟩, h2⟩
      · rintro ⟨_, t, rfl, ⟨v, u, rfl, h1⟩, h2⟩; exact ⟨v, u ++ t, by simp, u, t, rfl, h1, h2⟩
    · constructor
      · rintro ⟨v, _, rfl, u, t, rfl, h1, h2⟩; exact ⟨v ++ u, t, by simp, ⟨v, u, rfl, h1⟩, h2⟩
      · rintro ⟨_, t, rfl, ⟨v, u, rfl, h1⟩, h2⟩; exact ⟨v, u ++ t, by simp, u, t, rfl, h1, h2⟩
    · constructor
      · rintro ⟨c, _, rfl, u, t, rfl, h1, h2⟩; exact ⟨c :: u, t, rfl, ⟨c, u, rfl, h1⟩, h2⟩
      · rintro ⟨_, t, rfl, ⟨c, u, rfl, h1⟩, h2⟩; exact ⟨c, u ++ t, rfl, u, t, rfl, h1, h2⟩

theorem glob_lang (ts : List Tok) (ho : ok ts = true) (s : Str) (h : Lang ts s) : Glob (ts.flatMap globOf) s := by
  induction ts generalizing s with
  | nil => simp only [Lang, flat, List.flatMap_nil, Lang0] at h; subst h; exact .nil
  | cons t r ih =>
    simp only [ok, List.all_cons, Bool.and_eq_true] at ho
    have ihr := ih ho.2
    cases t with
    | group l =>
      have : flat (.group l :: r) = l ++ flat r := by simp [flat]
      rw [Lang, this, lang_append] at h
      obtain ⟨u, t, rfl, _, h2⟩ := h
      exact .star u t rfl (ihr t h2)
    | plain t =>
      have : flat (.plain t :: r) = t :: flat r := by simp [flat]
      rw [Lang, this] at h
      cases t with
      | lit c =>
        have hc : plainChar c = true := by simpa [ok0] using ho.1
        rw [plainChar_iff] at hc
        obtain ⟨t, rfl, h⟩ := h
        exact .lit c hc.2.2.2.1 hc.2.2.2.2.1 (ihr t h)
      | many => obtain ⟨u, t, rfl, h⟩ := h; exact .star u t rfl (ihr t h)
      | deep => obtain ⟨u, t, rfl, h⟩ := h; exact .star u t rfl (.star [] t rfl (ihr t h))
      | one => obtain ⟨c, t, rfl, h⟩ := h; exact .one c (ihr t h)

theorem globOf_noslash (ts : List Tok) (ho : ok ts = true) : '/' ∉ ts.flatMap globOf := by
  intro h
  rw [List.mem_flatMap] at h
  obtain ⟨t, ht, h⟩ := h
  simp only [ok, List.all_eq_true] at ho
  have := ho t ht
  cases t with
  | group l => simp [globOf] at h
  | plain t =>
    have hx := noparen [t] this '/' (by simpa [text0, globOf] using h)
    exact hx.2.2.2 rfl

theorem strip_none (g : Str) (h : '/' ∉ g) : strip g = none := by
  unfold strip
  split
  · simp at h
  · rfl

/-- The regular expression asks for its characters. -/
theorem matches_mem (cls : Str → Char → Prop) (is : List Item) (s : Str) (h : Matches cls is s) (c : Char) (hc : .lit c ∈ is) : c ∈ s := by
  induction is generalizing s with
  | nil => simp at hc
  | cons i r ih =>
    rcases List.mem_cons.1 hc with e | hr
    · subst e; obtain ⟨t, rfl, _⟩ := h; simp
    · cases i <;> simp only [Matches] at h
      · obtain ⟨t, rfl, h⟩ := h; exact List.mem_cons_of_mem _ (ih t h hr)
      · obtain ⟨u, t, rfl, _, h⟩ := h; exact List.mem_append_right _ (ih t h hr)
      · obtain ⟨u, t, rfl, _, h⟩ := h; exact List.mem_append_right _ (ih t h hr)
      · obtain ⟨x, t, rfl, _, h⟩ := h; exact List.mem_cons_of_mem _ (ih t h hr)
      · obtain ⟨x, t, rfl, _, h⟩ := h; exact List.mem_cons_of_mem _ (ih t h hr)

/-- So does the search. -/
theorem glob_mem (p s : Str) (h : Glob p s) (c : Char) (h1 : c ≠ '*') (h2 : c ≠ '?') (hc : c ∈ p) : c ∈ s := by
  induction h with
  | nil => simp at hc
  | star u v e _ ih => subst e; exact List.mem_append_right _ (ih (by simpa [h1] using hc))
  | one x _ ih => exact List.mem_cons_of_mem _ (ih (by simpa [h2] using hc))
  | lit x _ _ _ ih =>
    rcases List.mem_cons.1 hc with e | hr
    · subst e; simp
    · exact List.mem_cons_of_mem _ (ih hr)

/-! ### C223 -/

/-- **C223, patterns of characters, `*`, `**`, `?` and groups.** In the current directory, exactly the names the pattern stands for are renamed
(names of one-byte characters, C42); nothing in the directories below. -/
theorem C223_names_partial (cls : Str → Char → Prop) (ts : List Tok) (ho : ok ts = true) (hp : sep ts = true) (dirs : List (List Str)) (d : Nat) (name : Str)
    (ha : ∀ c ∈ name, c.utf8Size = 1) (hs : '/' ∉ name) (hn : '\n' ∉ name) :
    Renamed cls (text ts) dirs d name ↔ d = 0 ∧ name ∈ dirs.getD 0 [] ∧ Lang ts name := by
  unfold Renamed
  simp only [parse_ok ts ho hp, Option.some.injEq, exists_eq_left']
  rw [strip_none _ (globOf_noslash ts ho)]
  simp only [matches_lang cls (flat ts) name hs hn]
  constructor
  · rintro ⟨h1, ⟨rfl, _⟩, h3⟩; exact ⟨rfl, h1, h3⟩
  · rintro ⟨rfl, h1, h3⟩
    refine ⟨h1, ⟨rfl, ?_⟩, h3⟩
    cases hm : patternMatch (ts.flatMap globOf) name with
    | none => exact absurd hm (C42_ascii_partial _ _ ha)
    | some b => rw [(C42_answer_partial _ _ _ hm).2 (glob_lang ts ho name h3)]

/-- **C223 fails: `**/`.** A pattern that begins with `**/` renames nothing, in no directory: the files are found, but the regular expression
asks for a `/` in the name. -/
theorem C223_deep_violated (cls : Str → Char → Prop) (rest : Str) (dirs : List (List Str)) (d : Nat) (name : Str) (hs : '/' ∉ name) :
    ¬ Renamed cls ('*' :: '*' :: '/' :: rest) dirs d name := by
  rintro ⟨q, hq, _, _, hm⟩
  apply hs
  simp only [parsePattern, List.length_cons, parse, List.head?_cons, List.tail_cons] at hq
  cases h : parse rest.length.succ rest with
  | none =>
    simp only [Nat.succ_eq_add_one] at h
    simp [h] at hq
  | some r =>
    simp only [Nat.succ_eq_add_one] at h
    simp [h] at hq
    subst hq
    exact matches_mem cls _ _ hm '/' (by simp)

/-- **C223 fails: `/`.** A pattern with a `/` anywhere renames nothing. -/
theorem C223_slash_violated (cls : Str → Char → Prop) (ts : List Tok) (ho : ok ts = true) (hp : sep ts = true) (rest : Str) (dirs : List (List Str))
    (d : Nat) (name : Str) (hs : '/' ∉ name) : ¬ Renamed cls (text ts ++ '/' :: rest) dirs d name := by
  rintro ⟨q, hq, _, _, hm⟩
  apply hs
  obtain ⟨m, hm', e⟩ := parse_text ts ('/' :: rest) (by simp) ho hp _ (Nat.le_refl _)
  rw [parsePattern, e] at hq
  obtain ⟨m, rfl⟩ : ∃ k, m = k + 1 := ⟨m - 1, by simp at hm'; omega⟩
  cases h : parse m rest with
  | none => simp [parse, h] at hq
  | some r =>
    simp [parse, h] at hq
    subst hq
    exact matches_mem cls _ _ hm '/' (by simp)

/-- **C223 fails: sets.** A pattern with a set `[…]` renames no file whose name has no `[`: the search takes the set literally. -/
theorem C223_set_violated (cls : Str → Char → Prop) (ts : List Tok) (ho : ok ts = true) (hp : sep ts = true) (rest : Str) (dirs : List (List Str))
    (d : Nat) (name : Str) (hb : '[' ∉ name) : ¬ Renamed cls (text ts ++ '[' :: rest) dirs d name := by
  rintro ⟨q, hq, _, hg, hm⟩
  obtain ⟨m, hm', e⟩ := parse_text ts ('[' :: rest) (by simp) ho hp _ (Nat.le_refl _)
  rw [parsePattern, e] at hq
  obtain ⟨m, rfl⟩ : ∃ k, m = k + 1 := ⟨m - 1, by simp at hm'; omega⟩
  cases hc : takeClass rest with
  | none => simp [parse, hc] at hq
  | some r =>
    cases h : parse m r.2 with
    | none => simp [parse, hc, h] at hq
    | some r' =>
      simp [parse, hc, h] at hq
      subst hq
      have hin : '[' ∈ ts.flatMap globOf ++ '[' :: (r.1 ++ ']' :: r'.1) := by simp
      cases hst : strip (ts.flatMap globOf ++ '[' :: (r.1 ++ ']' :: r'.1)) with
      | none =>
        simp only [hst] at hg
        exact hb (glob_mem _ _ ((C42_answer_partial _ _ _ hg.2).1 rfl) '[' (by decide) (by decide) hin)
      | some sub =>
        simp only [hst] at hg
        have hsub : ts.flatMap globOf ++ '[' :: (r.1 ++ ']' :: r'.1) = '*' :: '*' :: '/' :: sub := by
          revert hst; unfold strip; split
          · intro hst; rename_i heq; rw [heq]; simpa using hst
          · simp
        rw [hsub] at hin
        exact hb (glob_mem _ _ ((C42_answer_partial _ _ _ hg).1 rfl) '[' (by decide) (by decide) (by simpa using hin))

/-- **C223 fails: a group in a group.** It renames only names with a parenthesis: the inner ones are characters. -/
theorem C223_nested_violated (cls : Str → Char → Prop) (a b c : List Tok0) (ha : ok0 a = true) (hsa : sep0 a = true) (hb : ok0 b = true) (hc : ok0 c = true)
    (dirs : List (List Str)) (d : Nat) (name : Str) (hs : '(' ∉ name) :
    ¬ Renamed cls ('(' :: (text0 a ++ '(' :: (text0 b ++ ')' :: (text0 c ++ [')'])))) dirs d name := by
  rintro ⟨q, hq, _, _, hm⟩
  apply hs
  have np : ∀ (ts : List Tok0), ok0 ts = true → ∀ x ∈ text0 ts, x ≠ '(' ∧ x ≠ ')' := fun ts h x hx => ⟨(noparen ts h x hx).1, (noparen ts h x hx).2.1⟩
  have hg : takeGroup 0 (text0 a ++ '(' :: (text0 b ++ ')' :: (text0 c ++ [')']))) =
      some (text0 a ++ '(' :: (text0 b ++ ')' :: text0 c), []) := by
    rw [takeGroup_plain 0 _ _ (np a ha)]
    simp only [takeGroup, if_true]
    rw [takeGroup_plain _ _ _ (np b hb)]
    simp only [takeGroup, if_true]
    simp only [show ¬ (')' = '(') by decide, if_false, Nat.zero_add, Nat.one_ne_zero, Nat.sub_self]
    rw [takeGroup_plain _ _ _ (np c hc)]
    simp [takeGroup]
  obtain ⟨m, hm', e⟩ := inner_text a ('(' :: (text0 b ++ ')' :: text0 c)) (by simp) ha hsa _ (Nat.le_refl _)
  obtain ⟨m, rfl⟩ : ∃ k, m = k + 1 := ⟨m - 1, by simp at hm'; omega⟩
  simp only [parsePattern, List.length_cons, parse, if_true, hg] at hq
  cases h : inner m (text0 b ++ ')' :: text0 c) with
  | none => rw [e] at hq; simp [inner, h] at hq
  | some is =>
    rw [e] at hq
    simp [inner, h] at hq
    subst hq
    exact matches_mem cls _ _ hm '(' (by simp)

/-- **C223 fails: a new name without a reference.** However the files are called, all get the same name, also with a `*` in it as in the help;
with two files or more nothing is renamed, with or without force. -/
theorem C223_fixed_violated (template : Str) (h : '$' ∉ template) (caps : List Str) : substitute caps template = template := by
  have key : ∀ (pat by_ s : Str), pat.head? = some '$' → '$' ∉ s → replaceGo pat by_ 0 s = s := by
    intro pat by_ s hp
    induction s with
    | nil => intro _; rfl
    | cons c s ih =>
      intro hs
      simp only [List.mem_cons, not_or] at hs
      cases pat with
      | nil => simp at hp
      | cons x pat =>
        simp only [List.head?_cons, Option.some.injEq] at hp
        subst hp
        have : (('$' :: pat).isPrefixOf (c :: s)) = false := by
          simp [List.isPrefixOf, hs.1]
        simp only [replaceGo, this, Bool.false_eq_true, if_false, ih hs.2]
  unfold substitute
  generalize caps.zipIdx = l
  induction l with
  | nil => rfl
  | cons a l ih =>
    rw [List.foldl_cons, replaceAll, key _ _ _ (by simp [groupRef]) h]
    exact ih

theorem C223_conflict_violated (fs : Dsh.Fs.FS) (lim : Nat) (force dry : Bool) (a b : Dsh.Fs.Loc) (t : Dsh.Fs.Path) (plan : List (Dsh.Fs.Loc × Dsh.Fs.Path)) :
    executeDmv fs lim force dry ((a, t) :: (b, t) :: plan) = (fs, false) := by
  have : checkConflicts fs lim force [] ((a, t) :: (b, t) :: plan) = false := by
    simp only [checkConflicts]
    cases (Dsh.Fs.exists? fs lim t && !force) <;> simp
  simp [executeDmv, this]

/-! ### Examples -/

/-- `IMG_(*).jpg`: hypotheses are met. -/
example : ok [.plain (.lit 'I'), .plain (.lit '_'), .group [.many], .plain (.lit '.'), .plain (.lit 'j')] = true ∧
    sep [.plain (.lit 'I'), .plain (.lit '_'), .group [.many], .plain (.lit '.'), .plain (.lit 'j')] = true ∧
    parsePattern c!"I_(*).j" = some (c!"I_*.j", [.lit 'I', .lit '_', .many, .lit '.', .lit 'j']) ∧
    parsePattern c!"**/(*).txt" = some (c!"**/*.txt", [.deep, .lit '/', .many, .lit '.', .lit 't', .lit 'x', .lit 't']) ∧
    parsePattern c!"a[12]" = some (c!"a[12]", [.lit 'a', .cls c!"12"]) ∧
    parsePattern c!"((*).t)" = some (c!"*", [.lit '(', .many, .lit ')', .lit '.', .lit 't']) ∧
    parsePattern c!"a)" = none ∧ parsePattern c!"(a" = none := by decide

example : Renamed (fun _ _ => False) c!"I_(*).j" [[c!"I_1.j", c!"x"]] 0 c!"I_1.j" := by
  have := (C223_names_partial (fun _ _ => False) [.plain (.lit 'I'), .plain (.lit '_'), .group [.many], .plain (.lit '.'), .plain (.lit 'j')]
    (by decide) (by decide) [[c!"I_1.j", c!"x"]] 0 c!"I_1.j" (by decide) (by decide) (by decide)).2
    ⟨rfl, by decide, ⟨_, rfl, _, rfl, ['1'], _, rfl, _, rfl, _, rfl, rfl⟩⟩
  exact this

end Dsh.DmvPat
