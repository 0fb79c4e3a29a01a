import Verif.Hist.Listing
/-!
C137: what `history` shows.
-/
namespace Dsh.HistCmd
open Dsh.HistStore (Entry Mem Query Status Scope Matches MemOp takeLimit C72_search)

/-! ### The options as they are documented -/

/-- An option of a command line; `long` chooses between `-q` and `--query` and the like. -/
inductive Opt where
  | text (long : Bool) (s : Str)
  | first (s : Str)
  | scope (long : Bool) (s : Scope)
  | status (s : Status)
  | slow (ms : Nat)
  | limit (long : Bool) (n : Nat)
  | verbose (long : Bool)

def scopeName : Scope → Str
  | .global => c!"global"
  | .session => c!"session"
  | .cwd => c!"cwd"
  | .project => c!"project"

def statusName : Status → Str
  | .any => c!"any"
  | .success => c!"success"
  | .failure => c!"failure"

/-- As it is typed. -/
def Opt.typed : Opt → List Str
  | .text long s => [if long then c!"--query" else c!"-q", s]
  | .first s => [s]
  | .scope long s => [if long then c!"--scope" else c!"-s", scopeName s]
  | .status s => [c!"--status", statusName s]
  | .slow ms => [c!"--slow", Nat.toDigits 10 ms]
  | .limit long n => [if long then c!"--limit" else c!"-n", Nat.toDigits 10 n]
  | .verbose long => [if long then c!"--verbose" else c!"-v"]

/-- The options of the help. -/
def names : List Str := [c!"-h", c!"--help", c!"-v", c!"--verbose", c!"-q", c!"--query", c!"-s", c!"--scope", c!"--status",
  c!"--slow", c!"-n", c!"--limit"]

/-- Numbers fit, limits are not zero, a word without an option is not the name of one. -/
def Opt.ok : Opt → Prop
  | .first s => s ∉ names
  | .slow ms => ms < 2 ^ 64
  | .limit _ n => 0 < n ∧ n < 2 ^ 64
  | _ => True

/-- What an option is about. -/
def Opt.kind : Opt → Nat
  | .text _ _ => 0
  | .first _ => 0
  | .scope _ _ => 1
  | .status _ => 2
  | .slow _ => 3
  | .limit _ _ => 4
  | .verbose _ => 5

/-- The entries an option asks for. -/
def Opt.Wants (lower : Str → Str) (p : Place) (e : Entry) : Opt → Prop
  | .text _ s => lower s <:+: lower e.cmd
  | .first s => lower s <:+: lower e.cmd
  | .scope _ .global => True
  | .scope _ .session => e.info.session = some p.session
  | .scope _ .cwd => e.info.cwd = p.cwd
  | .scope _ .project => e.ctx = p.project
  | .status .any => True
  | .status .success => e.info.code = some 0
  | .status .failure => ∃ k, e.info.code = some k ∧ k ≠ 0
  | .slow ms => ms = 0 ∨ ∃ n, e.info.duration = some n ∧ ms ≤ n
  | .limit _ _ => True
  | .verbose _ => True

/-- How many entries are asked for. -/
def limitOf : List Opt → Nat
  | [] => 200
  | .limit _ n :: _ => n
  | _ :: l => limitOf l

/-! ### Reading them -/

theorem digits_toDigits (n : Nat) : digits (Nat.toDigits 10 n) = some n := by
  have hf : ∀ (l : Str) a, l.foldl (fun n c => 10 * n + (c.toNat - 48)) a = Nat.ofDigitChars 10 l a := by
    intro l
    induction l with
    | nil => intro a; rfl
    | cons c l ih => intro a; rw [List.foldl_cons, ih, Nat.ofDigitChars_cons]; rfl
  rw [digits, if_neg, hf, Nat.ofDigitChars_ten_toDigits]
  rw [Bool.or_eq_true, not_or]
  constructor
  · rw [List.isEmpty_iff]
    exact Nat.toDigits_ne_nil
  · intro h
    obtain ⟨c, hc, hd⟩ := List.any_eq_true.1 h
    have := Nat.isDigit_of_mem_toDigits (by decide) (by decide) hc
    rw [this] at hd
    exact absurd hd (by decide)

theorem parseNat_toDigits (n : Nat) (h : n < 2 ^ 64) : parseNat (Nat.toDigits 10 n) = some n := by
  have hp : unplus (Nat.toDigits 10 n) = Nat.toDigits 10 n := by
    unfold unplus
    split
    · rename_i s hs
      have : '+' ∈ Nat.toDigits 10 n := by rw [hs]; exact List.mem_cons_self ..
      have := Nat.isDigit_of_mem_toDigits (by decide) (by decide) this
      exact absurd this (by decide)
    · rfl
  rw [parseNat, hp, digits_toDigits]
  simp only [Option.bind_some]
  rw [if_pos h]

theorem word_other {s : Str} (h : s ∉ names) : word s = .other := by
  simp only [names, List.mem_cons, List.not_mem_nil, or_false, not_or] at h
  obtain ⟨h1, h2, h3, h4, h5, h6, h7, h8, h9, h10, h11, h12⟩ := h
  simp [word, h1, h2, h3, h4, h5, h6, h7, h8, h9, h10, h11, h12]

/-- What an option does. -/
def Opt.apply (o : Options) : Opt → Options
  | .text _ s => { o with query := some s }
  | .first s => if o.query = none then { o with query := some s } else o
  | .scope _ s => { o with scope := s }
  | .status s => { o with status := s }
  | .slow ms => { o with slow := some ms }
  | .limit _ n => { o with limit := n }
  | .verbose _ => { o with verbose := true }

theorem parse_key {a v : Str} {k : Key} (h : word a = .key k) (rest : List Str) (o : Options) :
    parse (a :: v :: rest) o = parse rest (put o v k) := by
  rw [parse, h]

theorem parse_typed (x : Opt) (hx : x.ok) (rest : List Str) (o : Options) :
    parse (x.typed ++ rest) o = parse rest (x.apply o) := by
  cases x with
  | text long s =>
    have : word (if long then c!"--query" else c!"-q") = .key .query := by cases long <;> decide
    exact parse_key this rest o
  | first s =>
    show parse (s :: rest) o = _
    rw [parse, word_other hx]
    rfl
  | scope long s =>
    have : word (if long then c!"--scope" else c!"-s") = .key .scope := by cases long <;> decide
    refine (parse_key this rest o).trans ?_
    cases s <;> rfl
  | status s =>
    have : word c!"--status" = .key .status := by decide
    refine (parse_key this rest o).trans ?_
    cases s <;> rfl
  | slow ms =>
    have : word c!"--slow" = .key .slow := by decide
    refine (parse_key this rest o).trans ?_
    rw [put, parseNat_toDigits ms hx]
    rfl
  | limit long n =>
    have : word (if long then c!"--limit" else c!"-n") = .key .limit := by cases long <;> decide
    refine (parse_key this rest o).trans ?_
    rw [put, parseNat_toDigits n hx.2]
    dsimp only
    rw [Nat.max_eq_left hx.1]
    rfl
  | verbose long =>
    have : word (if long then c!"--verbose" else c!"-v") = .verbose := by cases long <;> decide
    show parse ((if long then c!"--verbose" else c!"-v") :: rest) o = _
    rw [parse, this]
    rfl

theorem parse_all : ∀ (l : List Opt) (o : Options), (∀ x ∈ l, x.ok) → parse (l.flatMap Opt.typed) o = l.foldl Opt.apply o := by
  intro l
  induction l with
  | nil => intro o _; rfl
  | cons x l ih =>
    intro o h
    rw [List.flatMap_cons, parse_typed x (h x (List.mem_cons_self ..)), List.foldl_cons,
      ih _ fun y hy => h y (List.mem_cons_of_mem _ hy)]

/-- What the option is about has not been set. -/
def Unset (o : Options) : Nat → Prop
  | 0 => o.query = none
  | 1 => o.scope = .global
  | 2 => o.status = .any
  | 3 => o.slow = none
  | _ => True

theorem apply_unset (o : Options) (x : Opt) (k : Nat) (hk : x.kind ≠ k) (h : Unset o k) : Unset (x.apply o) k := by
  match k with
  | 0 => cases x <;> simp_all [Unset, Opt.apply, Opt.kind]
  | 1 => cases x <;> simp_all [Unset, Opt.apply, Opt.kind]; split <;> simp_all
  | 2 => cases x <;> simp_all [Unset, Opt.apply, Opt.kind]; split <;> simp_all
  | 3 => cases x <;> simp_all [Unset, Opt.apply, Opt.kind]; split <;> simp_all
  | n + 4 => trivial

theorem apply_matches (lower : Str → Str) (p : Place) (o : Options) (x : Opt) (h : Unset o x.kind) (e : Entry) :
    Matches lower (toQuery p (x.apply o)) e ↔ Matches lower (toQuery p o) e ∧ x.Wants lower p e := by
  constructor
  · rintro ⟨a, b, c, d, f, g, i⟩
    cases x <;> simp only [Unset, Opt.kind, Opt.apply, toQuery, Opt.Wants] at *
    case text long s => exact ⟨⟨by simp [h], b, c, d, f, g, i⟩, a s rfl⟩
    case first s =>
      rw [if_pos h] at a b c d f g i
      exact ⟨⟨by simp [h], b, c, d, f, g, i⟩, a s rfl⟩
    case scope long s =>
      refine ⟨⟨a, b, c, d, by simp [h], by simp [h], by simp [h]⟩, ?_⟩
      cases s
      · trivial
      · exact f rfl
      · exact g rfl
      · exact i rfl
    case status s =>
      refine ⟨⟨a, by simp [h], by simp [h], d, f, g, i⟩, ?_⟩
      cases s
      · trivial
      · exact b rfl
      · exact c rfl
    case slow ms => exact ⟨⟨a, b, c, by simp [h], f, g, i⟩, d ms rfl⟩
    case limit long n => exact ⟨⟨a, b, c, d, f, g, i⟩, trivial⟩
    case verbose long => exact ⟨⟨a, b, c, d, f, g, i⟩, trivial⟩
  · rintro ⟨⟨a, b, c, d, f, g, i⟩, w⟩
    cases x <;> simp only [Unset, Opt.kind, Opt.apply, toQuery, Opt.Wants] at *
    case text long s => exact ⟨by intro t ht; injection ht with ht; subst ht; exact w, b, c, d, f, g, i⟩
    case first s =>
      rw [if_pos h]
      exact ⟨by intro t ht; injection ht with ht; subst ht; exact w, b, c, d, f, g, i⟩
    case scope long s =>
      refine ⟨a, b, c, d, ?_, ?_, ?_⟩ <;> (dsimp only; intro hs; subst hs; exact w)
    case status s =>
      refine ⟨a, ?_, ?_, d, f, g, i⟩ <;> (dsimp only; intro hs; subst hs; exact w)
    case slow ms => exact ⟨a, b, c, by intro t ht; injection ht with ht; subst ht; exact w, f, g, i⟩
    case limit long n => exact ⟨a, b, c, d, f, g, i⟩
    case verbose long => exact ⟨a, b, c, d, f, g, i⟩

theorem all_matches (lower : Str → Str) (p : Place) (e : Entry) : ∀ (l : List Opt) (o : Options), (l.map Opt.kind).Nodup →
    (∀ x ∈ l, Unset o x.kind) →
    (Matches lower (toQuery p (l.foldl Opt.apply o)) e ↔ Matches lower (toQuery p o) e ∧ ∀ x ∈ l, x.Wants lower p e) := by
  intro l
  induction l with
  | nil => intro o _ _; simp
  | cons x l ih =>
    intro o hn hu
    rw [List.map_cons, List.nodup_cons] at hn
    rw [List.foldl_cons, ih (x.apply o) hn.2, apply_matches lower p o x (hu x (List.mem_cons_self ..)) e, List.forall_mem_cons, and_assoc]
    intro y hy
    refine apply_unset o x _ ?_ (hu y (List.mem_cons_of_mem _ hy))
    intro hxy
    exact hn.1 (List.mem_map.2 ⟨y, hy, hxy.symm⟩)

theorem all_limit : ∀ (l : List Opt) (o : Options), (l.map Opt.kind).Nodup →
    (l.foldl Opt.apply o).limit = if 4 ∈ l.map Opt.kind then limitOf l else o.limit := by
  intro l
  induction l with
  | nil => intro o _; simp
  | cons x l ih =>
    intro o hn
    rw [List.map_cons, List.nodup_cons] at hn
    rw [List.foldl_cons, ih _ hn.2]
    cases x with
    | limit long n =>
      have h4 : ¬ 4 ∈ l.map Opt.kind := hn.1
      rw [if_neg h4, if_pos (by simp [Opt.kind])]
      rfl
    | text long s => simp [Opt.kind, Opt.apply, limitOf]
    | first s =>
      have : (Opt.apply o (.first s)).limit = o.limit := by rw [Opt.apply]; split <;> rfl
      rw [this]
      simp [Opt.kind, limitOf]
    | scope long s => simp [Opt.kind, Opt.apply, limitOf]
    | status s => simp [Opt.kind, Opt.apply, limitOf]
    | slow ms => simp [Opt.kind, Opt.apply, limitOf]
    | verbose long => simp [Opt.kind, Opt.apply, limitOf]

theorem limitOf_none : ∀ (l : List Opt), 4 ∉ l.map Opt.kind → limitOf l = 200 := by
  intro l
  induction l with
  | nil => intro _; rfl
  | cons x l ih =>
    intro h
    rw [List.map_cons, List.mem_cons, not_or] at h
    cases x with
    | limit long n => exact absurd rfl h.1
    | _ => exact ih h.2

theorem all_help : ∀ (l : List Opt) (o : Options), (l.foldl Opt.apply o).help = o.help := by
  intro l
  induction l with
  | nil => intro o; rfl
  | cons x l ih =>
    intro o
    rw [List.foldl_cons, ih]
    cases x <;> simp only [Opt.apply]
    split <;> rfl

theorem format_suffix (stamp : Int → Str) (e : Entry) : e.cmd <:+ format stamp e := by
  unfold format
  dsimp only
  exact (List.suffix_cons ..).trans (List.suffix_append ..)

theorem only_limits : ∀ (l : List Opt) (o : Options), (∀ x ∈ l, ∃ b n, x = .limit b n) →
    (l.foldl Opt.apply o).verbose = o.verbose ∧ hasFilters (l.foldl Opt.apply o) = hasFilters o := by
  intro l
  induction l with
  | nil => intro o _; exact ⟨rfl, rfl⟩
  | cons x l ih =>
    intro o h
    obtain ⟨b, n, rfl⟩ := h x (List.mem_cons_self ..)
    rw [List.foldl_cons]
    exact ih _ fun y hy => h y (List.mem_cons_of_mem _ hy)

open Classical in
/-- **C137, what is shown.** `history` with options of the help, each at most once and in any order, shows exactly the entries that
every option asks for, the latest first, as many as asked for (200 without a number).  The last part of each line is
the command; without options (or with a number only) the line is the command. -/
theorem C137_shown_partial (lower : Str → Str) (stamp : Int → Str) (p : Place) (ops : List MemOp) (l : List Opt)
    (hok : ∀ x ∈ l, x.ok) (hn : (l.map Opt.kind).Nodup) :
    let m := ops.foldl (Mem.step lower) ⟨[], [], []⟩
    ∃ es lines, listing lower stamp p m (l.flatMap Opt.typed) = some (es, lines) ∧
      es = (m.hist.reverse.filter (fun e => decide (∀ x ∈ l, x.Wants lower p e))).take (limitOf l) ∧
      lines.length = es.length ∧ ∀ (i : Nat) e t, es[i]? = some e → lines[i]? = some t → e.cmd <:+ t ∧
        ((∀ x ∈ l, ∃ b n, x = .limit b n) → t = e.cmd) := by
  intro m
  have hp := parse_all l {} hok
  have hh : (l.foldl Opt.apply {}).help = false := all_help l {}
  refine ⟨_, _, by rw [listing, hp, hh]; rfl, ?_, by simp, ?_⟩
  · rw [C72_search lower ops]
    have hl : (l.foldl Opt.apply {}).limit = limitOf l := by
      rw [all_limit l {} hn]
      split
      · rfl
      · rename_i h
        exact (limitOf_none l h).symm
    have hq : (toQuery p (l.foldl Opt.apply {})).limit = some (limitOf l) := by rw [← hl]; rfl
    rw [hq]
    show List.take _ _ = _
    congr 1
    refine List.filter_congr fun e _ => ?_
    have := all_matches lower p e l {} hn (by
      intro x _
      cases x <;> simp [Unset, Opt.kind])
    have hbase : Matches lower (toQuery p {}) e :=
      ⟨fun t ht => (by cases ht), fun h => (by cases h), fun h => (by cases h), fun d hd => (by cases hd), fun h => (by cases h),
        fun h => (by cases h), fun h => (by cases h)⟩
    refine decide_eq_decide.2 ?_
    exact this.trans ⟨fun h => h.2, fun h => ⟨hbase, h⟩⟩
  · intro i e t he ht
    rw [List.getElem?_map, he] at ht
    injection ht with ht
    subst ht
    constructor
    · split
      · exact format_suffix stamp e
      · exact List.suffix_refl _
    · intro h
      have := only_limits l {} h
      rw [this.1, this.2]
      rfl

/-- `history --status failure make -n 5` after four commands. -/
example :
    let low := fun s : Str => s.map Char.toLower
    let m := ([.write [(c!"make a", 1), (c!"ls", 2), (c!"Make b", 3)] none, .outcome none c!"Make b" { code := some 2 },
      .outcome none c!"make a" { code := some 1 }, .outcome none c!"ls" { code := some 1 }] : List MemOp).foldl (Mem.step low) ⟨[], [], []⟩
    (listing low (fun _ => []) ⟨none, none, []⟩ m [c!"--status", c!"failure", c!"make", c!"-n", c!"5"]).map (·.1.map Entry.cmd) =
      some [c!"Make b", c!"make a"] := by decide

example : let l : List Opt := [.status .failure, .first c!"make", .limit false 5]
    (∀ x ∈ l, x.ok) ∧ (l.map Opt.kind).Nodup ∧ l.flatMap Opt.typed = [c!"--status", c!"failure", c!"make", c!"-n", c!"5"] := by
  refine ⟨?_, by decide, by decide⟩
  intro x hx
  simp only [List.mem_cons, List.not_mem_nil, or_false] at hx
  rcases hx with rfl | rfl | rfl
  · trivial
  · show c!"make" ∉ names
    decide
  · exact ⟨by decide, by decide⟩

/-! ### What goes wrong -/

section
variable (lower : Str → Str) (stamp : Int → Str) (p : Place) (m : Mem)

/-- **C137 fails for misspelled values**: another word behind `--status` or `--scope`, or something that is no number behind
`--slow` or `--limit`, is taken without a message, and everything is shown. -/
theorem C137_value_violated (v : Str) :
    (v ∉ [c!"success", c!"failure", c!"failed"] → listing lower stamp p m [c!"--status", v] = listing lower stamp p m []) ∧
    (v ∉ [c!"session", c!"cwd", c!"project"] → listing lower stamp p m [c!"--scope", v] = listing lower stamp p m []) ∧
    (parseNat v = none → listing lower stamp p m [c!"--slow", v] = listing lower stamp p m []) ∧
    (parseNat v = none → listing lower stamp p m [c!"--limit", v] = listing lower stamp p m []) := by
  refine ⟨?_, ?_, ?_, ?_⟩
  · intro h
    simp only [List.mem_cons, List.not_mem_nil, or_false, not_or] at h
    have : parse [c!"--status", v] {} = {} := by
      rw [parse_key (k := .status) (by decide), put, parseStatus, if_neg h.1, if_neg (by simp [h.2.1, h.2.2])]
      rfl
    rw [listing, this]
    rfl
  · intro h
    simp only [List.mem_cons, List.not_mem_nil, or_false, not_or] at h
    have : parse [c!"--scope", v] {} = {} := by
      rw [parse_key (k := .scope) (by decide), put, parseScope, if_neg h.1, if_neg h.2.1, if_neg h.2.2]
      rfl
    rw [listing, this]
    rfl
  · intro h
    have : parse [c!"--slow", v] {} = {} := by
      rw [parse_key (k := .slow) (by decide), put, h]
      rfl
    rw [listing, this]
    rfl
  · intro h
    have : parse [c!"--limit", v] {} = {} := by
      rw [parse_key (k := .limit) (by decide), put, h]
      rfl
    rw [listing, this]
    rfl

/-- `history --status fail` and `history --slow 1s`. -/
example : listing lower stamp p m [c!"--status", c!"fail"] = listing lower stamp p m [] ∧
    listing lower stamp p m [c!"--slow", c!"1s"] = listing lower stamp p m [] :=
  ⟨(C137_value_violated lower stamp p m _).1 (by decide), (C137_value_violated lower stamp p m _).2.2.1 (by decide)⟩

/-- **C137 fails for a second word**: it is dropped. -/
theorem C137_words_violated (a b : Str) (rest : List Str) (ha : a ∉ names) (hb : b ∉ names) :
    listing lower stamp p m (a :: b :: rest) = listing lower stamp p m (a :: rest) := by
  have h1 : ∀ o : Options, parse (a :: b :: rest) {} = parse (a :: rest) {} := by
    intro o
    rw [parse, word_other ha]
    dsimp only
    rw [parse, word_other hb]
    dsimp only
    rw [parse, word_other ha]
    rfl
  rw [listing, listing, h1 {}]

/-- `history git push`. -/
example : listing lower stamp p m [c!"git", c!"push"] = listing lower stamp p m [c!"git"] :=
  C137_words_violated lower stamp p m _ _ _ (by decide) (by decide)

/-- **C137 fails for options that do not exist**: they are searched for as text. -/
theorem C137_unknown_violated (o : Str) (h : o ∉ names) :
    listing lower stamp p m [o] = listing lower stamp p m [c!"--query", o] := by
  have : parse [o] {} = parse [c!"--query", o] {} := by
    rw [parse, word_other h, parse_key (k := .query) (by decide)]
    rfl
  rw [listing, listing, this]

/-- `history --failed`. -/
example : listing lower stamp p m [c!"--failed"] = listing lower stamp p m [c!"--query", c!"--failed"] :=
  C137_unknown_violated lower stamp p m _ (by decide)

/-- **C137 fails for a forgotten value**: the option is dropped; and for the number 0, which is 1. -/
theorem C137_forgotten_violated :
    (∀ o ∈ [c!"-q", c!"--query", c!"-s", c!"--scope", c!"--status", c!"--slow", c!"-n", c!"--limit"],
      listing lower stamp p m [o] = listing lower stamp p m []) ∧
    listing lower stamp p m [c!"-n", c!"0"] = listing lower stamp p m [c!"-n", c!"1"] := by
  constructor
  · intro o ho
    have : parse [o] {} = {} := by
      revert o
      decide
    rw [listing, listing, this]
    rfl
  · have : parse [c!"-n", c!"0"] {} = parse [c!"-n", c!"1"] {} := by decide
    rw [listing, listing, this]

/-- **C137 fails for commands that were run again**: a command that failed and then succeeded is not among the
failures, one that was run here and then elsewhere is not among the commands of this directory. -/
theorem C137_again_violated (c : Str) (t t' : Int) (ctx ctx' : Option Str) (i i' : Dsh.HistStore.Meta) :
    let m := ([.write [(c, t)] ctx, .outcome ctx c i, .write [(c, t')] ctx', .outcome ctx' c i'] : List MemOp).foldl
      (Mem.step lower) ⟨[], [], []⟩
    (i'.code = some 0 → (listing lower stamp p m [c!"--status", c!"failure"]).map (·.1) = some []) ∧
    (i'.cwd ≠ p.cwd → (listing lower stamp p m [c!"--scope", c!"cwd"]).map (·.1) = some []) := by
  intro m
  have hm : m.hist = [⟨c, t', 2, ctx', i'⟩] := by
    simp [m, Mem.step, Mem.write, Dsh.HistStore.rememberBoth, Dsh.HistStore.remember, Dsh.HistStore.fresh, Dsh.HistStore.isCmd,
      Dsh.HistStore.setOutcome, List.findIdx?, List.findIdx?.go]
  constructor
  · intro hc
    have hp : parse [c!"--status", c!"failure"] {} = { status := .failure } := by decide
    rw [listing, hp]
    rw [if_neg (by simp), Option.map_some]
    dsimp only
    rw [C72_search lower, hm]
    congr 1
    rw [List.reverse_singleton, List.filter_eq_nil_iff.2]
    · rfl
    · intro e he
      rw [List.mem_singleton] at he
      subst he
      simp only [decide_eq_true_eq]
      intro h
      obtain ⟨k, hk, h0⟩ := h.failure rfl
      rw [hc] at hk
      injection hk with hk
      exact h0 hk.symm
  · intro hc
    have hp : parse [c!"--scope", c!"cwd"] {} = { scope := .cwd } := by decide
    rw [listing, hp]
    rw [if_neg (by simp), Option.map_some]
    dsimp only
    rw [C72_search lower, hm]
    congr 1
    rw [List.reverse_singleton, List.filter_eq_nil_iff.2]
    · rfl
    · intro e he
      rw [List.mem_singleton] at he
      subst he
      simp only [decide_eq_true_eq]
      intro h
      exact hc (h.cwd rfl)

end

end Dsh.HistCmd
