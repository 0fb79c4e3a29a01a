import Verif.Parse.Alias
import Verif.Parse.Props

/-!
# The built-in `alias` (dsh-builtin/src/alias.rs) and what its aliases do to lines
-/

namespace Dsh.Alias
open Dsh Dsh.Shell Dsh.Syn

/-- Strings. -/
abbrev Str := List Char

/-- Unicode classes of characters asked for by the code (`char::is_alphabetic`,
`char::is_alphanumeric`). -/
structure Classes where
  alpha : Char → Bool
  alnum : Char → Bool

/-- The table of aliases (a `HashMap<String, String>` of the environment). -/
abbrev Tbl := List (Str × Str)

/-- `HashMap::get` (proxy/mod.rs:174-177). -/
def get (t : Tbl) (n : Str) : Option Str := (t.find? (fun e => e.1 == n)).map Prod.snd

/-- `HashMap::insert` (proxy/mod.rs:179-182). -/
def put (t : Tbl) (n v : Str) : Tbl := (n, v) :: t.filter (fun e => !(e.1 == n))

/-- What a call leaves: status, lines written, the entries of the table shown by a listing (the drawing of
the table itself is not modelled). -/
structure Res where
  status : Nat
  out : List Str := []
  err : List Str := []
  shown : List (Str × Str) := []
deriving DecidableEq, Repr

/-- `remove_surrounding_quotes` (alias.rs:142-149). -/
def unquote (s : Str) : Str :=
  if 2 ≤ s.length ∧ ((s.head? = some '"' ∧ s.getLast? = some '"') ∨
      (s.head? = some '\'' ∧ s.getLast? = some '\'')) then (s.drop 1).dropLast else s

/-- `is_valid_alias_name` (alias.rs:153-175). -/
def validName (C : Classes) : Str → Bool
  | [] => false
  | c :: cs => (C.alpha c || c == '_') && cs.all (fun c => C.alnum c || c == '_' || c == '-')

/-- Byte order of names: `String::cmp`, here by code points, which is the same order (UTF-8). -/
def strLe : Str → Str → Bool
  | [], _ => true
  | _ :: _, [] => false
  | a :: as, b :: bs => if a = b then strLe as bs else a.val ≤ b.val

/-- `splitn(2, '=')`: what is in front of the first `=` and what follows it. -/
def splitEq : Str → Option (Str × Str)
  | [] => none
  | c :: s => if c = '=' then some ([], s) else (splitEq s).map (fun x => (c :: x.1, x.2))

/-- `set_alias_from_assignment` (alias.rs:98-139). -/
def setFrom (C : Classes) (t : Tbl) (arg : Str) : Res × Tbl :=
  match splitEq arg with
  | none => ({ status := 1, err := [c!"alias: invalid assignment format"] }, t)
  | some (n, v) =>
    if trim n = [] then ({ status := 1, err := [c!"alias: empty alias name"] }, t)
    else if trim v = [] then
      ({ status := 1, err := [c!"alias: empty command (use unalias to remove aliases)"] }, t)
    else if validName C (trim n) then ({ status := 0 }, put t (trim n) (unquote (trim v)))
    else ({ status := 1, err := [c!"alias: invalid alias name: " ++ trim n] }, t)

/-- `show_specific_alias` (alias.rs:76-95). -/
def showOne (t : Tbl) (n : Str) : Res :=
  match get t n with
  | some v => { status := 0, out := [n ++ (c!"='" ++ (v ++ c!"'"))] }
  | none => { status := 1, err := [c!"alias: " ++ n ++ c!": not found"] }

/-- `list_all_aliases` (alias.rs:46-73). -/
def listAll (t : Tbl) : Res :=
  if t = [] then { status := 0, out := [c!"No aliases defined"] }
  else { status := 0, shown := sortBy (fun a b => strLe a.1 b.1) t }

/-- `command` (alias.rs:19-43); `argv` with the name of the command. -/
def command (C : Classes) (t : Tbl) (argv : List Str) : Res × Tbl :=
  match argv with
  | [_] => (listAll t, t)
  | [_, a] => if a.contains '=' then setFrom C t a else (showOne t a, t)
  | _ => ({ status := 1, err := [c!"alias: invalid number of arguments", c!"Usage: alias [name[=command]]"] }, t)

/-- A session: calls of `alias` one after the other. -/
def session (C : Classes) (t : Tbl) (calls : List (List Str)) : Tbl :=
  calls.foldl (fun t a => (command C t a).2) t

/-- The environment of a line with this table. -/
def envOf (E : Env) (t : Tbl) : Env := { E with aliasOf := get t, noAlias := t.isEmpty }

/-! ### The table -/

theorem get_put (t : Tbl) (n v m : Str) : get (put t n v) m = if m = n then some v else get t m := by
  unfold get put
  by_cases h : m = n
  · subst h; simp
  · have h' : ¬ n = m := fun e => h e.symm
    simp only [List.find?_cons, h, if_false]
    have : (n == m) = false := by simp [h']
    rw [this]
    simp only
    congr 1
    induction t with
    | nil => rfl
    | cons e t ih =>
      by_cases he : e.1 = n
      · have h1 : (e.1 == m) = false := by simp [he, h']
        simp [he, h'] at ih ⊢
        exact ih
      · by_cases hm : e.1 = m
        · simp [hm, h]
        · simp [he, hm, ih]

theorem splitEq_append {n : Str} (h : '=' ∉ n) (v : Str) : splitEq (n ++ '=' :: v) = some (n, v) := by
  induction n with
  | nil => simp [splitEq]
  | cons c n ih =>
    simp only [List.mem_cons, not_or] at h
    simp [splitEq, Ne.symm h.1, ih h.2]

/-- A name a user may give: not empty, a letter or `_` first, then letters, digits, `_`, `-`. -/
def GoodName (C : Classes) (n : Str) : Prop :=
  ∃ c cs, n = c :: cs ∧ (C.alpha c = true ∨ c = '_') ∧ ∀ d ∈ cs, C.alnum d = true ∨ d = '_' ∨ d = '-'

/-- The classes hold no `=` and no white space. -/
structure Sane (C : Classes) : Prop where
  alpha : ∀ c, C.alpha c = true → c ≠ '=' ∧ rustWhitespace c = false
  alnum : ∀ c, C.alnum c = true → c ≠ '=' ∧ rustWhitespace c = false

theorem goodName_valid {C : Classes} {n : Str} (h : GoodName C n) : validName C n = true := by
  obtain ⟨c, cs, rfl, h1, h2⟩ := h
  simp only [validName, Bool.and_eq_true, Bool.or_eq_true, beq_iff_eq, List.all_eq_true]
  exact ⟨h1, fun d hd => by rcases h2 d hd with h | h | h <;> simp [h]⟩

theorem goodName_chars {C : Classes} (hC : Sane C) {n : Str} (h : GoodName C n) :
    ∀ d ∈ n, d ≠ '=' ∧ rustWhitespace d = false := by
  obtain ⟨c, cs, rfl, h1, h2⟩ := h
  intro d hd
  rcases List.mem_cons.1 hd with rfl | hd
  · rcases h1 with h1 | rfl
    · exact hC.alpha _ h1
    · decide
  · rcases h2 d hd with h | rfl | rfl
    · exact hC.alnum _ h
    · decide
    · decide

/-- Text without white space at its ends. -/
def Trimmed (v : Str) : Prop :=
  (∀ c, v.head? = some c → rustWhitespace c = false) ∧ (∀ c, v.getLast? = some c → rustWhitespace c = false)

theorem trim_trimmed {v : Str} (h : Trimmed v) : trim v = v := by
  unfold trim
  have h1 : trimStart v = v := by
    cases v with
    | nil => rfl
    | cons c v => simp [trimStart, h.1 c rfl]
  rw [h1]
  unfold trimEnd
  cases hv : v.reverse with
  | nil => have : v = [] := by simpa using hv
           subst this; rfl
  | cons c r =>
    have : v = r.reverse ++ [c] := by
      have := congrArg List.reverse hv; simpa using this
    have hc := h.2 c (by rw [this]; simp)
    simp [hc, this]

theorem goodName_trim {C : Classes} (hC : Sane C) {n : Str} (h : GoodName C n) : trim n = n :=
  trim_trimmed ⟨fun c hc => (goodName_chars hC h c (List.mem_of_mem_head? hc)).2,
    fun c hc => (goodName_chars hC h c (List.mem_of_getLast? hc)).2⟩

theorem set_eq {C : Classes} (hC : Sane C) {n : Str} (hn : GoodName C n) {v : Str} (hv : Trimmed v)
    (hv0 : v ≠ []) (name : Str) (t : Tbl) :
    command C t [name, n ++ '=' :: v] = ({ status := 0 }, put t n (unquote v)) := by
  have hne : n ≠ [] := by obtain ⟨c, cs, rfl, -⟩ := hn; simp
  have hs := splitEq_append (fun h => (goodName_chars hC hn _ h).1 rfl) v
  simp only [command, List.contains_eq_mem, List.mem_append, List.mem_cons, true_or, or_true, decide_true,
    if_true, setFrom, hs, goodName_trim hC hn, trim_trimmed hv, if_neg hne, if_neg hv0, goodName_valid hn]

theorem unquote_quoted (v : Str) (q : Char) (hq : q = '\'' ∨ q = '"') : unquote (q :: (v ++ [q])) = v := by
  unfold unquote
  rw [if_pos]
  · simp
  · rcases hq with rfl | rfl <;> simp [List.getLast?_cons]

theorem trimmed_quoted (v : Str) (q : Char) (hq : q = '\'' ∨ q = '"') : Trimmed (q :: (v ++ [q])) := by
  rcases hq with rfl | rfl
  · constructor
    · simp; decide
    · intro c hc
      rw [List.getLast?_cons] at hc
      simp at hc; subst hc; decide
  · constructor
    · simp; decide
    · intro c hc
      rw [List.getLast?_cons] at hc
      simp at hc; subst hc; decide

/-- The text is wrapped in a pair of equal quotes. -/
def Wrapped (v : Str) : Prop := ∃ q m, (q = '\'' ∨ q = '"') ∧ v = q :: (m ++ [q])

theorem unquote_plain {v : Str} (h : ¬ Wrapped v) : unquote v = v := by
  unfold unquote
  apply if_neg
  rintro ⟨hl, hq⟩
  apply h
  cases v with
  | nil => simp at hl
  | cons c v =>
    have hv : v ≠ [] := by rintro rfl; simp at hl
    have hlast : (c :: v).getLast? = some (v.getLast hv) := by
      rw [List.getLast?_cons, List.getLast?_eq_some_getLast hv]; rfl
    have hd : v = v.dropLast ++ [v.getLast hv] := (List.dropLast_concat_getLast hv).symm
    rcases hq with ⟨h1, h2⟩ | ⟨h1, h2⟩
    · simp at h1; rw [hlast] at h2; injection h2 with h2
      exact ⟨'"', v.dropLast, .inr rfl, by rw [h2] at hd; rw [← hd, h1]⟩
    · simp at h1; rw [hlast] at h2; injection h2 with h2
      exact ⟨'\'', v.dropLast, .inl rfl, by rw [h2] at hd; rw [← hd, h1]⟩

/-- **C124 (partial)**: `alias n=v` with a good name defines `n` as `v` and leaves every other alias alone.
`v` must be a non-empty text without white space at its ends that is not wrapped in quotes. -/
theorem C124_set_partial {C : Classes} (hC : Sane C) {n v : Str} (hn : GoodName C n) (hv : Trimmed v)
    (hv0 : v ≠ []) (hw : ¬ Wrapped v) (name : Str) (t : Tbl) :
    (command C t [name, n ++ '=' :: v]).1.status = 0 ∧
    ∀ m, get (command C t [name, n ++ '=' :: v]).2 m = if m = n then some v else get t m := by
  rw [set_eq hC hn hv hv0, unquote_plain hw]
  exact ⟨rfl, fun m => get_put t n v m⟩

/-- **C124 (partial)**: wrapped in quotes the text is taken as it is, whatever it holds. -/
theorem C124_quoted_partial {C : Classes} (hC : Sane C) {n : Str} (hn : GoodName C n) (v : Str) {q : Char}
    (hq : q = '\'' ∨ q = '"') (name : Str) (t : Tbl) :
    (command C t [name, n ++ '=' :: q :: (v ++ [q])]).1.status = 0 ∧
    ∀ m, get (command C t [name, n ++ '=' :: q :: (v ++ [q])]).2 m = if m = n then some v else get t m := by
  rw [set_eq hC hn (trimmed_quoted v q hq) (by simp), unquote_quoted v q hq]
  exact ⟨rfl, fun m => get_put t n v m⟩

/-- **C124 (partial)**: `alias n` writes one line for a defined alias, and this line given to `alias` as one
argument, in any other session, defines the same alias; for a name not defined it says so. -/
theorem C124_show_partial {C : Classes} (hC : Sane C) {n : Str} (hn : GoodName C n) (name : Str) (t : Tbl) :
    (∀ v, get t n = some v → ∃ line, command C t [name, n] = ({ status := 0, out := [line] }, t) ∧
      ∀ t' : Tbl, (command C t' [name, line]).1.status = 0 ∧
        ∀ m, get (command C t' [name, line]).2 m = if m = n then some v else get t' m) ∧
    (get t n = none → command C t [name, n] = ({ status := 1, err := [c!"alias: " ++ n ++ c!": not found"] }, t)) := by
  have hc : n.contains '=' = false := by
    simp only [List.contains_eq_mem, decide_eq_false_iff_not]
    exact fun h => (goodName_chars hC hn _ h).1 rfl
  constructor
  · intro v hv
    refine ⟨n ++ (c!"='" ++ (v ++ c!"'")), ?_, fun t' => ?_⟩
    · rw [command, hc]; simp [showOne, hv]
    · exact C124_quoted_partial hC hn v (.inl rfl) name t'
  · intro hv
    rw [command, hc]; simp [showOne, hv]

/-- **C124 (partial)**: a call that fails says why and changes no alias; one that succeeds changes the alias
of one name at most, and only when it was written `name=…`. -/
theorem C124_refused_partial (C : Classes) (t : Tbl) (argv : List Str) :
    ((command C t argv).1.status = 0 ∨
      ((command C t argv).1.status = 1 ∧ (command C t argv).1.err ≠ [] ∧ (command C t argv).2 = t)) ∧
    ((command C t argv).2 = t ∨ ∃ name x n v, argv = [name, x] ∧ splitEq x = some (n, v) ∧
      GoodName C (trim n) ∧ ∀ m, m ≠ trim n → get (command C t argv).2 m = get t m) := by
  unfold command
  match argv with
  | [] => simp
  | [_] => simp only [listAll]; split <;> simp
  | [name, a] =>
    simp only
    by_cases ha : a.contains '=' = true
    · rw [if_pos ha]
      unfold setFrom
      cases hs : splitEq a with
      | none => simp
      | some p =>
        obtain ⟨n, v⟩ := p
        simp only
        by_cases h1 : trim n = []
        · rw [if_pos h1]; simp
        · rw [if_neg h1]
          by_cases h2 : trim v = []
          · rw [if_pos h2]; simp
          · rw [if_neg h2]
            by_cases h3 : validName C (trim n) = true
            · rw [if_pos h3]
              refine ⟨.inl rfl, .inr ⟨name, a, n, v, rfl, hs, ?_, fun m hm => ?_⟩⟩
              · cases hn : trim n with
                | nil => exact (h1 hn).elim
                | cons c cs =>
                  rw [hn] at h3
                  simp only [validName, Bool.and_eq_true, Bool.or_eq_true, beq_iff_eq, List.all_eq_true] at h3
                  exact ⟨c, cs, rfl, h3.1, fun d hd => or_assoc.1 (h3.2 d hd)⟩
              · rw [get_put, if_neg hm]
            · rw [if_neg h3]; simp
    · rw [if_neg ha]
      unfold showOne
      split <;> simp
  | _ :: _ :: _ :: _ => simp

theorem put_nodup {t : Tbl} (h : (t.map Prod.fst).Nodup) (n v : Str) : ((put t n v).map Prod.fst).Nodup := by
  unfold put
  simp only [List.map_cons, List.nodup_cons, List.mem_map, List.mem_filter, Bool.not_eq_true', beq_eq_false_iff_ne]
  refine ⟨fun ⟨e, he, hn⟩ => he.2 hn, ?_⟩
  exact List.Sublist.nodup (List.Sublist.map _ List.filter_sublist) h

theorem command_nodup (C : Classes) {t : Tbl} (h : (t.map Prod.fst).Nodup) (a : List Str) :
    ((command C t a).2.map Prod.fst).Nodup := by
  unfold command
  split
  · exact h
  · split
    · unfold setFrom
      split
      · exact h
      · split
        · exact h
        · split
          · exact h
          · split
            · exact put_nodup h _ _
            · exact h
    · exact h
  · exact h

theorem session_nodup (C : Classes) {t : Tbl} (h : (t.map Prod.fst).Nodup) (calls) :
    ((session C t calls).map Prod.fst).Nodup := by
  unfold session
  induction calls generalizing t with
  | nil => exact h
  | cons a calls ih => exact ih (command_nodup C h a)

theorem get_some_mem {t : Tbl} {n v : Str} (h : get t n = some v) : (n, v) ∈ t := by
  unfold get at h
  cases hf : t.find? (fun e => e.1 == n) with
  | none => rw [hf] at h; cases h
  | some e =>
    rw [hf] at h
    have h1 := List.find?_some hf
    simp at h1
    simp at h
    have := List.mem_of_find?_eq_some hf
    rw [← h1, ← h]; exact this

theorem mem_get_some {t : Tbl} (hd : (t.map Prod.fst).Nodup) {n v : Str} (h : (n, v) ∈ t) : get t n = some v := by
  induction t with
  | nil => simp at h
  | cons e t ih =>
    simp only [List.map_cons, List.nodup_cons] at hd
    rcases List.mem_cons.1 h with rfl | h
    · simp [get]
    · have hne : e.1 ≠ n := by
        rintro rfl; exact hd.1 (List.mem_map.2 ⟨_, h, rfl⟩)
      have := ih hd.2 h
      unfold get at this ⊢
      simp [hne, this]

/-- **C124 (partial)**: whatever was called before, `alias` alone lists every alias defined, each once, with its
text, and nothing else. -/
theorem C124_list_partial (C : Classes) (calls : List (List Str)) (name : Str) :
    let t := session C [] calls
    (command C t [name]).2 = t ∧ (command C t [name]).1.status = 0 ∧
    ((command C t [name]).1.shown.map Prod.fst).Nodup ∧
    ∀ n v, (n, v) ∈ (command C t [name]).1.shown ↔ get t n = some v := by
  intro t
  have hd : (t.map Prod.fst).Nodup := session_nodup C (t := []) (by simp) calls
  have hm : ∀ n v, (n, v) ∈ t ↔ get t n = some v := fun n v => ⟨mem_get_some hd, get_some_mem⟩
  simp only [command, listAll]
  by_cases ht : t = []
  · rw [if_pos ht]
    refine ⟨trivial, rfl, by simp, fun n v => ?_⟩
    rw [← hm, ht]
  · rw [if_neg ht]
    have hp := sortBy_perm (fun (a b : Str × Str) => strLe a.1 b.1) t
    refine ⟨trivial, rfl, (hp.map Prod.fst).nodup_iff.2 hd, fun n v => ?_⟩
    rw [← hm]
    exact hp.mem_iff

/-- **C124 fails**: an alias cannot be taken back. After any calls of `alias` every name that was defined still
is; the built-in `unalias` its message speaks of does not exist. -/
theorem C124_remove_violated (C : Classes) (t : Tbl) (calls : List (List Str)) (n : Str)
    (h : (get t n).isSome = true) : (get (session C t calls) n).isSome = true := by
  unfold session
  induction calls generalizing t with
  | nil => exact h
  | cons a calls ih =>
    apply ih
    dsimp only
    rcases (C124_refused_partial C t a).2 with he | ⟨name, x, m, v, rfl, hs, -, hg⟩
    · rw [he]; exact h
    · by_cases hm : n = trim m
      · unfold command
        simp only
        split
        · unfold setFrom
          rw [hs]
          simp only
          split
          · exact h
          · split
            · exact h
            · split
              · rw [get_put, if_pos hm]; rfl
              · exact h
        · exact h
      · rw [hg n hm]; exact h

/-! ### Use -/

/-- **C124 (partial)**: from the definition to the use. After `alias n=v`, where `v` spells a simple command `a`
without variables, a line in which no other alias stands runs `a`'s words in place of each command name `n`. -/
theorem C124_use_partial {C : Classes} (hC : Sane C) {n : Str} (hn : GoodName C n) {a : Simple}
    (ha : a.ok = true) (hva : ¬ HasVar a) (hta : Trimmed a.text) (hne : a.text ≠ []) (hwa : ¬ Wrapped a.text)
    {E : Env} (hg : E.getVar a.text = none) (name : Str) (t : Tbl) {W : World} {l : Line} (h : l.ok = true)
    (A : List Char → Option Simple) (hAdef : ∀ m, A m = if m = n then some a else none)
    (hf : FitAliasLine (envOf E (command C t [name, n ++ '=' :: a.text]).2) A l)
    (hr : ∀ s ∈ ((l.mapS (useAlias A)).mapW (Word.fill (valOf E))).simples, Runs W s) (id : Nat) :
    ∃ js id', lineJobs (envOf E (command C t [name, n ++ '=' :: a.text]).2) W id l.text = some (js, id') ∧
      RealizesAll js ((l.mapS (useAlias A)).mapW (Word.fill (valOf E))).want := by
  obtain ⟨-, hget⟩ := C124_set_partial hC hn hta hne hwa name t
  refine C124_line_partial (E := envOf E _) h (A := A) ⟨?_, ?_, ?_⟩ hf hr id
  · intro m b hb
    rw [hAdef] at hb
    split at hb
    · injection hb with hb; subst hb; exact ⟨ha, hva⟩
    · cases hb
  · intro m b hb
    rw [hAdef] at hb
    by_cases hm : m = n
    · rw [if_pos hm] at hb
      injection hb with hb; subst hb
      exact ⟨a.text, by rw [envOf]; simp only; rw [hget, if_pos hm], trim_trimmed hta, hg⟩
    · rw [if_neg hm] at hb; cases hb
  · intro hfl m
    simp only [envOf, List.isEmpty_iff] at hfl ⊢
    rw [hfl]; rfl

/-- What the shell runs for a line with the aliases `t`, otherwise as `runs0`. -/
def runsT (t : Tbl) (line : Str) := summary (lineJobs (envOf E0 t) W0 0 line)

theorem runsT_eq {t line} (n : Nat) {x} (h : summary (lineJobsF n (envOf E0 t) W0 0 line) = some x) :
    runsT t line = some x := by
  unfold runsT
  cases hj : lineJobsF n (envOf E0 t) W0 0 line with
  | none => rw [hj] at h; cases h
  | some y => rw [lineJobsF_sound hj, ← hj]; exact h

/-- ASCII classes for the examples. -/
def C0 : Classes := ⟨Char.isAlpha, Char.isAlphanum⟩

theorem C0_sane : Sane C0 := by
  have key : ∀ c : Char, c.isAlphanum = true → c ≠ '=' ∧ rustWhitespace c = false := by
    intro c hc
    refine ⟨by rintro rfl; revert hc; decide, ?_⟩
    cases hw : rustWhitespace c with
    | false => rfl
    | true =>
      exfalso
      simp only [rustWhitespace, decide_eq_true_eq, Bool.or_eq_true, Bool.and_eq_true] at hw
      simp only [Char.isAlphanum, Char.isAlpha, Char.isUpper, Char.isLower, Char.isDigit, Bool.or_eq_true,
        Bool.and_eq_true, decide_eq_true_eq, UInt32.le_iff_toNat_le] at hc
      have e : c.toNat = c.val.toNat := rfl
      rw [e] at hw
      simp at hc
      omega
  exact ⟨fun c hc => key c (by simp [C0] at hc; simp [Char.isAlphanum, hc]), fun c hc => key c hc⟩

/-- The hypotheses are met: `say` defined with quotes and `=` in its text, shown, defined again elsewhere. -/
example : get (command C0 [] [c!"alias", c!"say='it's = \"x\"'"]).2 c!"say" = some c!"it's = \"x\"" ∧
    ∃ line, command C0 [(c!"say", c!"it's")] [c!"alias", c!"say"] = ({ status := 0, out := [line] }, [(c!"say", c!"it's")]) ∧
      get (command C0 [(c!"b", c!"c")] [c!"alias", line]).2 c!"say" = some c!"it's" := by
  have hn : GoodName C0 c!"say" := ⟨'s', c!"ay", rfl, by decide, by decide⟩
  refine ⟨?_, ?_⟩
  · exact (C124_quoted_partial C0_sane hn c!"it's = \"x\"" (.inl rfl) c!"alias" []).2 c!"say"
  · obtain ⟨line, h1, h2⟩ := (C124_show_partial C0_sane hn c!"alias" [(c!"say", c!"it's")]).1 c!"it's" (by decide)
    exact ⟨line, h1, (h2 [(c!"b", c!"c")]).2 c!"say"⟩

/-- `ls -l` -/
def exAlias : Simple := ⟨.bare (c!"ls".map .plain), [.word c!" " (.bare (c!"-l".map .plain))]⟩

/-- `ll 'a b' >out | wc && ll $s` -/
def exUse : Line :=
  let w (s : Str) : Word := .bare (s.map .plain)
  ⟨[], ⟨[], some (⟨w c!"ll", [.word c!" " (.sq c!"a b"), .redir c!" " .out [] (w c!"out")]⟩,
      [(c!" ", c!" ", ⟨w c!"wc", []⟩)])⟩,
   [(c!" ", .and, c!" ", ⟨[], some (⟨w c!"ll", [.word c!" " (.var c!"s")]⟩, [])⟩)], []⟩

/-- The only alias of the example. -/
def exA (m : Str) : Option Simple := if m = c!"ll" then some exAlias else none

theorem exUse_text : exUse.text = c!"ll 'a b' >out | wc && ll $s" := by decide

theorem exUse_fit : FitAliasLine (envOf E0 (command C0 [] [c!"alias", c!"ll" ++ '=' :: exAlias.text]).2) exA
    exUse := by
  have ht : (command C0 [] [c!"alias", c!"ll" ++ '=' :: exAlias.text]).2 = [(c!"ll", c!"ls -l")] := by decide
  rw [ht]
  refine ⟨?_, ?_, ?_⟩
  · intro s hs
    simp only [exUse, Line.simples, Line.cmds, Cmd.simples, List.map_cons, List.map_nil, List.flatMap_cons,
      List.flatMap_nil, List.append_nil, List.nil_append, List.cons_append, List.mem_cons,
      List.not_mem_nil, or_false] at hs
    rcases hs with rfl | rfl | rfl <;>
    · refine ⟨⟨by decide, by decide⟩, by decide, fun v _ => ?_, ?_, ?_⟩
      · first
          | exact ⟨by decide, by decide⟩
          | (rename_i h; exact absurd (show (none : Option Str) = some v from h) (by simp))
      · intro sep w hm
        simp at hm
        try (obtain ⟨-, rfl⟩ := hm; exact ⟨by decide, by decide⟩)
        try (obtain ⟨-, rfl⟩ := hm
             intro v hv
             have : v = c!"one two" := by
               have h2 : E0.getVar ('$' :: c!"s") = some c!"one two" := by decide
               have h3 : E0.getVar ('$' :: c!"s") = some v := hv
               rw [h2] at h3; injection h3 with h3; exact h3.symm
             subst this
             exact .inr (.inl (by decide)))
      · intro sep k gap w hm
        simp at hm
        try (obtain ⟨-, -, -, rfl⟩ := hm; exact ⟨by decide, by decide⟩)
  · intro k; cases k <;> decide
  · decide

/-- The theorem on this line: `ls -l 'a b'` writes the file, `ls -l "one two"` runs after `&&`. -/
example : ∃ js id', lineJobs (envOf E0 (command C0 [] [c!"alias", c!"ll" ++ '=' :: exAlias.text]).2) W0 0
      exUse.text = some (js, id') ∧
    RealizesAll js [⟨[[c!"ls", c!"-l", c!"a b"], [c!"wc"]], false, some (.out, c!"out"), .and⟩,
      ⟨[[c!"ls", c!"-l", c!"one two"]], false, none, .seq⟩] := by
  have := C124_use_partial C0_sane (n := c!"ll") ⟨'l', c!"l", rfl, by decide, by decide⟩ (a := exAlias)
    (by decide) (by simp [HasVar, IsVar, exAlias]) ⟨by decide, by decide⟩ (by decide)
    (by rintro ⟨q, m, hq, h⟩
        have h1 := congrArg List.head? h
        rcases hq with rfl | rfl <;> revert h1 <;> simp <;> decide)
    (E := E0) (by decide) c!"alias" [] (W := W0) (l := exUse) (by decide) exA (fun m => rfl) exUse_fit
    (fun s hs => ⟨.inr rfl, by revert s; decide⟩) 0
  have hw : ((exUse.mapS (useAlias exA)).mapW (Word.fill (valOf E0))).want =
      [⟨[[c!"ls", c!"-l", c!"a b"], [c!"wc"]], false, some (.out, c!"out"), .and⟩,
       ⟨[[c!"ls", c!"-l", c!"one two"]], false, none, .seq⟩] := by decide
  rw [hw] at this
  exact this

/-- **C124 fails**: the usual spelling does not define an alias. The line reaches the built-in as two arguments,
which it refuses. (`alias "ll=ls -l"` works.) -/
theorem C124_typed_violated :
    runs0 c!"alias ll='ls -l'" = some [{ stages := [[c!"alias", c!"ll=", c!"ls -l"]] }] ∧
    (command C0 [] [c!"alias", c!"ll=", c!"ls -l"]).1.status = 1 ∧
    runs0 c!"alias \"ll=ls -l\"" = some [{ stages := [[c!"alias", c!"ll=ls -l"]] }] ∧
    command C0 [] [c!"alias", c!"ll=ls -l"] = ({ status := 0 }, [(c!"ll", c!"ls -l")]) :=
  ⟨runs0_eq 100 (by decide +kernel), by decide, runs0_eq 100 (by decide +kernel), by decide⟩

/-- **C124 fails**: an alias whose text begins and ends with a quoted word loses the outer two quotes. -/
theorem C124_quotes_violated :
    command C0 [] [c!"alias", c!"p='my prog' x 'a b'"] = ({ status := 0 }, [(c!"p", c!"my prog' x 'a b")]) := by
  decide

/-- **C124 fails**: variables in an alias are not filled in, an alias in an alias is not replaced, and `~` and
patterns in it reach the program as they are. -/
theorem C124_once_violated :
    runsT [(c!"e", c!"echo $s")] c!"e b" = some [{ stages := [[c!"echo", c!"$s", c!"b"]] }] ∧
    runsT [(c!"la", c!"ll -a"), (c!"ll", c!"ls -l")] c!"la b" = some [{ stages := [[c!"ll", c!"-a", c!"b"]] }] ∧
    runsT [(c!"h", c!"ls ~")] c!"h" = some [{ stages := [[c!"ls", c!"~"]] }] :=
  ⟨runsT_eq 100 (by decide +kernel), runsT_eq 100 (by decide +kernel), runsT_eq 100 (by decide +kernel)⟩

end Dsh.Alias
