import Verif.Util
/-!
Comments in `deno.json` and `deno.jsonc` (C208): dsh-builtin/src/task.rs:442-468, 509-514.

`serde_json` is a parameter, of which is used that it refuses a text with a line break inside a string and a text
that ends inside a string.
-/
namespace Dsh.Jsonc

abbrev Str := List Char

/-- The text after the first `*/`. -/
def afterBlock : Str → Option Str
  | [] => none
  | c :: r =>
    match c, r with
    | '*', '/' :: r' => some r'
    | _, _ => afterBlock r

/-- `replace_all` of `(?s)//[^\n]*|/\*.*?\*/` by nothing (task.rs:509-514); the number bounds the steps. -/
def stripGo : Nat → Str → Str
  | 0, s => s
  | _ + 1, [] => []
  | n + 1, c :: r =>
    match c, r with
    | '/', '/' :: r' => stripGo n (r'.dropWhile (· ≠ '\n'))
    | '/', '*' :: r' =>
      match afterBlock r' with
      | some t => stripGo n t
      | none => c :: stripGo n r
    | _, _ => c :: stripGo n r

/-- `remove_jsonc_comments` (task.rs:512-514). -/
def strip (s : Str) : Str := stripGo s.length s

/-- The names under `tasks` (task.rs:453-468), where `parse` gives those of a JSON text, and nothing for a text that is none. -/
def denoTasks (parse : Str → Option (List Str)) (content : Str) : List Str := (parse (strip content)).getD []

/-! ### Equations -/

theorem afterBlock_some : ∀ {s t : Str}, afterBlock s = some t → ∃ m, s = m ++ '*' :: '/' :: t
  | [], t, h => by cases h
  | c :: r, t, h => by
    rw [afterBlock.eq_def] at h
    simp only at h
    split at h
    · cases h; exact ⟨[], rfl⟩
    · obtain ⟨m, hm⟩ := afterBlock_some h
      exact ⟨c :: m, by rw [hm]; rfl⟩

theorem afterBlock_length {s t : Str} (h : afterBlock s = some t) : t.length < s.length := by
  obtain ⟨m, rfl⟩ := afterBlock_some h
  simp; omega

theorem dropWhile_length (p : Char → Bool) : ∀ s : Str, (s.dropWhile p).length ≤ s.length
  | [] => Nat.le_refl _
  | c :: r => by
    rw [List.dropWhile_cons]; split
    · exact Nat.le_trans (dropWhile_length p r) (by simp)
    · exact Nat.le_refl _

/-- More steps than characters make no difference. -/
theorem stripGo_enough : ∀ (n m : Nat) (s : Str), s.length ≤ n → s.length ≤ m → stripGo n s = stripGo m s
  | 0, 0, s, _, _ => rfl
  | 0, m + 1, s, h, _ => by
    have : s = [] := List.length_eq_zero_iff.mp (Nat.le_zero.mp h)
    subst this; rfl
  | n + 1, 0, s, _, h => by
    have : s = [] := List.length_eq_zero_iff.mp (Nat.le_zero.mp h)
    subst this; rfl
  | n + 1, m + 1, [], _, _ => rfl
  | n + 1, m + 1, c :: r, h1, h2 => by
    simp only [List.length_cons] at h1 h2
    rw [stripGo.eq_def, stripGo.eq_def (m + 1)]
    simp only
    split
    · rename_i r' 
      have := dropWhile_length (· ≠ '\n') r'
      simp only [List.length_cons] at h1 h2
      exact stripGo_enough n m _ (by omega) (by omega)
    · rename_i r'
      cases ha : afterBlock r' with
      | none => simp only; rw [stripGo_enough n m _ (by omega) (by omega)]
      | some t =>
        have := afterBlock_length ha
        simp only [List.length_cons] at h1 h2
        exact stripGo_enough n m _ (by omega) (by omega)
    · rw [stripGo_enough n m r (by omega) (by omega)]

theorem strip_nil : strip [] = [] := rfl

theorem strip_line (r : Str) : strip ('/' :: '/' :: r) = strip (r.dropWhile (· ≠ '\n')) := by
  have := dropWhile_length (· ≠ '\n') r
  rw [strip, List.length_cons, stripGo.eq_def]
  simp only
  exact stripGo_enough _ _ _ (by simp only [List.length_cons]; omega) (Nat.le_refl _)

theorem strip_block (r t : Str) (h : afterBlock r = some t) : strip ('/' :: '*' :: r) = strip t := by
  have := afterBlock_length h
  rw [strip, List.length_cons, stripGo.eq_def]
  simp only [h]
  exact stripGo_enough _ _ _ (by simp only [List.length_cons]; omega) (Nat.le_refl _)

theorem strip_open (r : Str) (h : afterBlock r = none) : strip ('/' :: '*' :: r) = '/' :: strip ('*' :: r) := by
  rw [strip, List.length_cons, stripGo.eq_def]
  simp only [h]
  rfl

/-- No comment begins here. -/
def plainAt (c : Char) (r : Str) : Prop := c ≠ '/' ∨ (r.head? ≠ some '/' ∧ r.head? ≠ some '*')

theorem strip_plain (c : Char) (r : Str) (h : plainAt c r) : strip (c :: r) = c :: strip r := by
  rw [strip, List.length_cons, stripGo.eq_def]
  simp only
  split
  · rcases h with h | ⟨h, _⟩
    · exact absurd rfl h
    · exact absurd rfl h
  · rcases h with h | ⟨_, h⟩
    · exact absurd rfl h
    · exact absurd rfl h
  · rfl

/-- Text without a beginning of a comment, and none where it meets what follows, stays. -/
def NoStart : Str → Str → Prop
  | [], _ => True
  | c :: a, r => plainAt c (a ++ r) ∧ NoStart a r

theorem strip_noStart : ∀ (a r : Str), NoStart a r → strip (a ++ r) = a ++ strip r
  | [], r, _ => rfl
  | c :: a, r, h => by
    rw [List.cons_append, strip_plain c _ h.1, strip_noStart a r h.2]; rfl

/-! ### Specification: the pieces of a file with comments -/

/-- A character of a string in a file: itself, or with a backslash. -/
inductive SChar where
  | plain (c : Char)
  | esc (c : Char)

/-- As written. -/
def SChar.text : SChar → Str
  | .plain c => [c]
  | .esc c => ['\\', c]

/-- Allowed inside a string. -/
def SChar.Ok : SChar → Prop
  | .plain c => c ≠ '"' ∧ c ≠ '\\' ∧ c ≠ '\n'
  | .esc c => c ≠ '\n'

/-- What a file consists of. -/
inductive Piece where
  | code (c : Char)
  | str (body : List SChar)
  | line (text : Str)
  | block (text : Str)

/-- A string as written, without its quotes. -/
def bodyText (b : List SChar) : Str := b.flatMap SChar.text

/-- As written; a line comment ends with the line, which is a piece of its own. -/
def Piece.text : Piece → Str
  | .code c => [c]
  | .str b => '"' :: bodyText b ++ ['"']
  | .line t => '/' :: '/' :: t ++ ['\n']
  | .block t => '/' :: '*' :: t ++ ['*', '/']

/-- What is left of a piece when comments are taken out. -/
def Piece.kept : Piece → Str
  | .code c => [c]
  | .str b => '"' :: bodyText b ++ ['"']
  | .line _ => ['\n']
  | .block _ => []

/-- The text has no `//` and no `/*`. -/
def Free (s : Str) : Prop := NoStart s []

/-- A well-formed piece.  Outside strings and comments JSON has no quote and no slash. -/
def Piece.Ok : Piece → Prop
  | .code c => c ≠ '"' ∧ c ≠ '/'
  | .str b => ∀ x ∈ b, x.Ok
  | .line t => '\n' ∉ t
  | .block t => afterBlock (t ++ ['*']) = none

/-- The strings have no beginning of a comment in them. -/
def Piece.Plain : Piece → Prop
  | .str b => Free (bodyText b)
  | _ => True

/-! ### Specification: strings in JSON -/

/-- Where a reader of JSON is. -/
inductive Lex where
  | out | inside | escaped | bad
deriving DecidableEq

/-- One character; a line break inside a string is an error. -/
def lexStep : Lex → Char → Lex
  | .out, c => if c = '"' then .inside else .out
  | .inside, c => if c = '"' then .out else if c = '\\' then .escaped else if c = '\n' then .bad else .inside
  | .escaped, c => if c = '\n' then .bad else .inside
  | .bad, _ => .bad

/-- The strings of the text are closed on their lines. -/
def Closed (s : Str) : Prop := s.foldl lexStep .out = .out

/-- A reader of JSON refuses texts with open strings. -/
def Strict (parse : Str → Option (List Str)) : Prop := ∀ s, ¬ Closed s → parse s = none

/-! ### C208 -/

theorem afterBlock_ext : ∀ (t r : Str), afterBlock (t ++ ['*']) = none → afterBlock (t ++ '*' :: '/' :: r) = some r
  | [], r, _ => rfl
  | c :: t, r, h => by
    rw [List.cons_append, afterBlock.eq_def] at h ⊢
    simp only at h ⊢
    split at h
    · cases h
    · rename_i hne
      split
      · rename_i c' r'' hc
        exfalso
        cases t with
        | nil => simp at hc
        | cons d t => exact hne _ rfl (by rw [List.cons_append]; simp only [List.cons_append, List.cons.injEq] at hc; rw [hc.1])
      · exact afterBlock_ext t r h

theorem NoStart_quote : ∀ (a r : Str), Free a → NoStart a ('"' :: r)
  | [], _, _ => trivial
  | [c], r, h => ⟨by
      rcases h.1 with h | _
      · exact .inl h
      · exact .inr ⟨by simp, by simp⟩, trivial⟩
  | c :: d :: a, r, h => ⟨by
      rcases h.1 with h | h
      · exact .inl h
      · exact .inr (by simpa using h), NoStart_quote (d :: a) r h.2⟩

theorem strip_piece (p : Piece) (h : p.Ok) (hp : p.Plain) (r : Str) : strip (p.text ++ r) = p.kept ++ strip r := by
  cases p with
  | code c => exact strip_plain c r (.inl h.2)
  | str b =>
    have e : (Piece.str b).text ++ r = '"' :: (bodyText b ++ ('"' :: r)) := by simp [Piece.text]
    rw [e, strip_plain _ _ (.inl (by decide)), strip_noStart _ _ (NoStart_quote _ r hp), strip_plain _ _ (.inl (by decide))]
    simp [Piece.kept]
  | line t =>
    have e : (Piece.line t).text ++ r = '/' :: '/' :: (t ++ '\n' :: r) := by simp [Piece.text]
    have hd : (t ++ '\n' :: r).dropWhile (· ≠ '\n') = '\n' :: r := by
      clear e
      induction t with
      | nil => simp
      | cons c t ih =>
        simp only [Piece.Ok, List.mem_cons, not_or] at h
        rw [List.cons_append, List.dropWhile_cons, if_pos (by simpa using fun e => h.1 e.symm)]
        exact ih h.2 trivial
    rw [e, strip_line, hd, strip_plain _ _ (.inl (by decide))]
    rfl
  | block t =>
    have e : (Piece.block t).text ++ r = '/' :: '*' :: (t ++ '*' :: '/' :: r) := by simp [Piece.text]
    rw [e, strip_block _ r (afterBlock_ext t r h)]
    rfl

/-- C208, what holds: in a file whose strings have no `//` and no `/*` exactly the comments are taken out, so the names offered are those of
the file without its comments.  Missing: strings with addresses and patterns (`C208_address_violated`, `C208_pattern_violated`). -/
theorem C208_comments_partial (parse : Str → Option (List Str)) (ps : List Piece) (h : ∀ p ∈ ps, p.Ok) (hp : ∀ p ∈ ps, p.Plain) :
    strip (ps.flatMap Piece.text) = ps.flatMap Piece.kept ∧
    denoTasks parse (ps.flatMap Piece.text) = (parse (ps.flatMap Piece.kept)).getD [] := by
  have key : strip (ps.flatMap Piece.text) = ps.flatMap Piece.kept := by
    induction ps with
    | nil => rfl
    | cons p ps ih =>
      rw [List.flatMap_cons, List.flatMap_cons, strip_piece p (h p (List.mem_cons_self ..)) (hp p (List.mem_cons_self ..)),
        ih (fun q hq => h q (List.mem_cons_of_mem _ hq)) (fun q hq => hp q (List.mem_cons_of_mem _ hq))]
  exact ⟨key, by rw [denoTasks, key]⟩

theorem lex_body : ∀ (b : List SChar), (∀ x ∈ b, x.Ok) → (bodyText b).foldl lexStep .inside = .inside
  | [], _ => rfl
  | x :: b, h => by
    have hx := h x (List.mem_cons_self ..)
    rw [bodyText, List.flatMap_cons, List.foldl_append]
    have : x.text.foldl lexStep .inside = .inside := by
      cases x with
      | plain c => simp [SChar.text, lexStep, hx.1, hx.2.1, hx.2.2]
      | esc c =>
        have hc : c ≠ '\n' := hx
        simp [SChar.text, lexStep, hc]
    rw [this]
    exact lex_body b (fun y hy => h y (List.mem_cons_of_mem _ hy))

theorem lex_bad (s : Str) : s.foldl lexStep .bad = .bad := by
  induction s with
  | nil => rfl
  | cons c s ih => exact ih

/-- What is left of the pieces in front is closed. -/
theorem lex_kept : ∀ (ps : List Piece), (∀ p ∈ ps, p.Ok) → (ps.flatMap Piece.kept).foldl lexStep .out = .out
  | [], _ => rfl
  | p :: ps, h => by
    have hp := h p (List.mem_cons_self ..)
    rw [List.flatMap_cons, List.foldl_append]
    have : p.kept.foldl lexStep .out = .out := by
      cases p with
      | code c => simp [Piece.kept, lexStep, hp.1]
      | str b =>
        have e : (Piece.str b).kept = ['"'] ++ (bodyText b ++ ['"']) := rfl
        rw [e, List.foldl_append, List.foldl_append]
        have : ['"'].foldl lexStep .out = .inside := rfl
        rw [this, lex_body b hp]; rfl
      | line t => rfl
      | block t => rfl
    rw [this]
    exact lex_kept ps (fun q hq => h q (List.mem_cons_of_mem _ hq))

theorem strip_front (ps : List Piece) (h : ∀ p ∈ ps, p.Ok) (hp : ∀ p ∈ ps, p.Plain) (r : Str) :
    strip (ps.flatMap Piece.text ++ r) = ps.flatMap Piece.kept ++ strip r := by
  induction ps with
  | nil => rfl
  | cons p ps ih =>
    rw [List.flatMap_cons, List.flatMap_cons, List.append_assoc, List.append_assoc,
      strip_piece p (h p (List.mem_cons_self ..)) (hp p (List.mem_cons_self ..)),
      ih (fun q hq => h q (List.mem_cons_of_mem _ hq)) (fun q hq => hp q (List.mem_cons_of_mem _ hq))]

/-- No `//`, no `/*`, and no slash at the end. -/
def Quiet (a : Str) : Prop := Free a ∧ a.getLast? ≠ some '/'

theorem NoStart_slash : ∀ (a r : Str), Quiet a → NoStart a ('/' :: r)
  | [], _, _ => trivial
  | [c], r, h => ⟨.inl (by have := h.2; simpa using this), trivial⟩
  | c :: d :: a, r, h => ⟨by
      rcases h.1.1 with h | h
      · exact .inl h
      · exact .inr (by simpa using h), NoStart_slash (d :: a) r ⟨h.1.2, by have := h.2; simpa [List.getLast?_cons_cons] using this⟩⟩

/-- C208 fails: one string with `//` in it — an address — and no task of the file is offered, whether the file has comments or not.  The rest
of its line is taken for a comment, with the end of the string. -/
theorem C208_address_violated (parse : Str → Option (List Str)) (hs : Strict parse) (ps : List Piece) (h : ∀ p ∈ ps, p.Ok) (hp : ∀ p ∈ ps, p.Plain)
    (a : List SChar) (ha : ∀ x ∈ a, x.Ok) (hq : Quiet (bodyText a)) (rest : Str) :
    denoTasks parse (ps.flatMap Piece.text ++ '"' :: (bodyText a ++ '/' :: '/' :: rest)) = [] := by
  have key : strip (ps.flatMap Piece.text ++ '"' :: (bodyText a ++ '/' :: '/' :: rest)) =
      ps.flatMap Piece.kept ++ (['"'] ++ (bodyText a ++ strip (rest.dropWhile (· ≠ '\n')))) := by
    rw [strip_front ps h hp, strip_plain _ _ (.inl (by decide)), strip_noStart _ _ (NoStart_slash _ _ hq), strip_line]
    rfl
  have tail : ∀ r : Str, (r.head? = none ∨ r.head? = some '\n') → (strip r).foldl lexStep .inside ≠ .out := by
    intro r hr
    cases r with
    | nil => decide
    | cons c r =>
      have : c = '\n' := by simpa using hr
      subst this
      rw [strip_plain _ _ (.inl (by decide)), List.foldl_cons]
      have : lexStep .inside '\n' = .bad := rfl
      rw [this, lex_bad]; decide
  have hd : ∀ r : Str, (r.dropWhile (· ≠ '\n')).head? = none ∨ (r.dropWhile (· ≠ '\n')).head? = some '\n' := by
    intro r
    induction r with
    | nil => exact .inl rfl
    | cons c r ih =>
      rw [List.dropWhile_cons]; split
      · exact ih
      · rename_i hc
        have : c = '\n' := by simpa using hc
        exact .inr (by rw [this]; rfl)
  have open_ : ¬ Closed (strip (ps.flatMap Piece.text ++ '"' :: (bodyText a ++ '/' :: '/' :: rest))) := by
    rw [key, Closed, List.foldl_append, List.foldl_append, List.foldl_append, lex_kept ps h]
    have : ['"'].foldl lexStep .out = .inside := rfl
    rw [this, lex_body a ha]
    exact tail _ (hd rest)
  rw [denoTasks, hs _ open_]; rfl

/-- C208 fails: from a pattern with `/*` in one string to one with `*/` in another everything is taken out — the tasks, if they are between. -/
theorem C208_pattern_violated (parse : Str → Option (List Str)) (ps : List Piece) (h : ∀ p ∈ ps, p.Ok) (hp : ∀ p ∈ ps, p.Plain)
    (a : List SChar) (hq : Quiet (bodyText a)) (between between' rest : Str)
    (hb : afterBlock (between ++ ['*']) = none) (hb' : afterBlock (between' ++ ['*']) = none) :
    denoTasks parse (ps.flatMap Piece.text ++ '"' :: (bodyText a ++ '/' :: '*' :: (between ++ '*' :: '/' :: rest))) =
    denoTasks parse (ps.flatMap Piece.text ++ '"' :: (bodyText a ++ '/' :: '*' :: (between' ++ '*' :: '/' :: rest))) := by
  have key : ∀ b : Str, afterBlock (b ++ ['*']) = none →
      strip (ps.flatMap Piece.text ++ '"' :: (bodyText a ++ '/' :: '*' :: (b ++ '*' :: '/' :: rest))) =
      ps.flatMap Piece.kept ++ ('"' :: (bodyText a ++ strip rest)) := by
    intro b hb
    rw [strip_front ps h hp, strip_plain _ _ (.inl (by decide)), strip_noStart _ _ (NoStart_slash _ _ hq),
      strip_block _ rest (afterBlock_ext b rest hb)]
  rw [denoTasks, denoTasks, key _ hb, key _ hb']

/-! ### Concrete cases -/

/-- Comments of both kinds go. -/
theorem comments_run : strip c!"{ // names\n \"a/b\": 1 /* x * y */ }" = c!"{ \n \"a/b\": 1  }" := by decide

/-- An address takes the end of its string along. -/
theorem address_run : strip c!"{\"x\": \"https://deno.land\",\n\"tasks\": {}}" = c!"{\"x\": \"https:\n\"tasks\": {}}" := by decide

/-- Two patterns take the tasks between them along. -/
theorem pattern_run : strip c!"{\"i\": [\"src/*\"], \"tasks\": {\"dev\": \"x\"}, \"e\": [\"**/a\"]}" = c!"{\"i\": [\"srca\"]}" := by decide

/-- The address above, in the shape of the theorem. -/
example : ∃ (ps : List Piece) (a : List SChar) (rest : Str), c!"{\"x\": \"https://deno.land\"}" = ps.flatMap Piece.text ++ '"' :: (bodyText a ++ '/' :: '/' :: rest) ∧
    (∀ p ∈ ps, p.Ok) ∧ (∀ p ∈ ps, p.Plain) ∧ (∀ x ∈ a, x.Ok) :=
  ⟨[.code '{', .str [.plain 'x'], .code ':', .code ' '], [.plain 'h', .plain 't', .plain 't', .plain 'p', .plain 's', .plain ':'], c!"deno.land\"}",
    rfl, by simp [Piece.Ok, SChar.Ok], by simp [Piece.Plain, Free, NoStart, bodyText, SChar.text, plainAt], by simp [SChar.Ok]⟩

end Dsh.Jsonc
