import Verif.Env.Commands
import Verif.Env.Vars
/-!
C148: `read NAME` reads one line into a variable.
C149: builtins leave the descriptors of the shell alone.
C150: `set` sets what it is given, and `export` lists what can be read back.
-/
namespace Dsh.EnvCmd
open Dsh.Env

/-! ### C148 -/

theorem chop_line (l : Str) (h : '\n' ∉ l) (k : Nat) :
    ((l ++ List.replicate k '\n').reverse.dropWhile (· == '\n')).reverse = l := by
  have h1 : ∀ (k : Nat) (r : Str), (List.replicate k '\n' ++ r).dropWhile (· == '\n') = r.dropWhile (· == '\n') := by
    intro k r
    induction k with
    | zero => rfl
    | succ k ih => rw [List.replicate_succ, List.cons_append, List.dropWhile_cons_of_pos (by simp), ih]
  rw [List.reverse_append, List.reverse_replicate, h1]
  have h2 : l.reverse.dropWhile (· == '\n') = l.reverse := by
    cases hr : l.reverse with
    | nil => rfl
    | cons c cs =>
      have : c ∈ l := List.mem_reverse.1 (hr ▸ List.mem_cons_self ..)
      rw [List.dropWhile_cons_of_neg (by
        have : c ≠ '\n' := fun e => h (e ▸ this)
        simpa using this)]
  rw [h2, List.reverse_reverse]

theorem get_setVar (e : State) (k v n : Str) : (setVar e k v).vars.get n = if k = n then some v else e.vars.get n := by
  show Map.get ((k, v) :: e.vars.erase k) n = _
  rw [Map.get]
  split
  · rfl
  · next h =>
    show Map.get (e.vars.filter fun p => !(p.1 == k)) n = _
    induction e.vars with
    | nil => rfl
    | cons p m ih =>
      rw [List.filter_cons]
      split
      · rw [Map.get, Map.get, ih]
      · next hp =>
        have : p.1 = k := by simpa using hp
        rw [ih, Map.get, if_neg (by rw [this]; exact h)]

/-- One line, with or without its newline, is stored whole under the name; all else stays; and input that is no text changes nothing. -/
theorem C148_line_partial (e : State) (cmd n l : Str) (rest : List Str) (hn : Ordinary n) (hl : '\n' ∉ l) (k : Nat) :
    (∃ e', execRead e (cmd :: n :: rest) (some (l ++ List.replicate k '\n')) = .stored e' ∧
      getVar e' ('$' :: n) = some l ∧ (∀ m, m ≠ '$' :: n → e'.vars.get m = e.vars.get m) ∧
      e'.sys = e.sys ∧ e'.exported = e.exported ∧ e'.paths = e.paths) ∧
    execRead e (cmd :: n :: rest) none = .failed e := by
  refine ⟨⟨_, rfl, ?_, ?_, rfl, rfl, rfl⟩, rfl⟩
  · rw [getVar_dollar hn]
    show ((setVar e ('$' :: n) _).vars.get ('$' :: n)).or _ = _
    rw [get_setVar, if_pos rfl, chop_line l hl]
    rfl
  · intro m hm
    show (setVar e ('$' :: n) _).vars.get m = _
    rw [get_setVar, if_neg (Ne.symm hm)]

example : Ordinary c!"answer" ∧ '\n' ∉ c!"a line" := by decide

/-- More than one line is read: the value is not the first line but all of them. -/
theorem C148_lines_violated (e : State) (cmd n a b : Str) (hn : Ordinary n) (hb : '\n' ∉ b) (hne : b ≠ []) :
    ∃ e', execRead e [cmd, n] (some (a ++ '\n' :: b ++ ['\n'])) = .stored e' ∧
      getVar e' ('$' :: n) = some (a ++ '\n' :: b) ∧ getVar e' ('$' :: n) ≠ some a := by
  have hv : (((a ++ '\n' :: b) ++ ['\n']).reverse.dropWhile (· == '\n')).reverse = a ++ '\n' :: b := by
    rw [List.reverse_append, List.reverse_singleton, List.singleton_append, List.dropWhile_cons_of_pos (by simp)]
    cases hr : b.reverse with
    | nil => exact absurd (List.reverse_eq_nil_iff.1 hr) hne
    | cons c cs =>
      have hc : c ∈ b := List.mem_reverse.1 (hr ▸ List.mem_cons_self ..)
      have e1 : (a ++ '\n' :: b).reverse = c :: (cs ++ '\n' :: a.reverse) := by simp [hr]
      rw [e1, List.dropWhile_cons_of_neg (by
        have : c ≠ '\n' := fun e => hb (e ▸ hc)
        simpa using this), ← e1, List.reverse_reverse]
  have key : getVar (readVar e n (a ++ '\n' :: b ++ ['\n'])) ('$' :: n) = some (a ++ '\n' :: b) := by
    rw [getVar_dollar hn]
    show ((setVar e ('$' :: n) _).vars.get ('$' :: n)).or _ = _
    rw [get_setVar, if_pos rfl, hv]
    rfl
  refine ⟨_, rfl, key, ?_⟩
  rw [key]
  intro h
  have := congrArg (fun o => (o.getD []).length) h
  simp at this

/-- Without a name the shell ends. -/
theorem C148_noname_violated (e : State) (cmd : Str) (input : Option Str) : execRead e [cmd] input = .panic := rfl

/-- What was read cannot be exported: `export NAME` afterwards gives programs no value. -/
theorem C148_export_violated (e : State) (n s : Str) (h : Clean e) (hn : Name n) (ht : n ≠ TERM) (hs : '\x00' ∉ s)
    (hv : e.vars.get n = none) : getenv (prepare (run e [.read n s, .exp n])) n = none := by
  have hc := clean_run h (l := [.read n s, .exp n]) (by
    intro op ho
    rcases List.mem_cons.1 ho with rfl | ho
    · exact hs
    · rcases List.mem_singleton.1 ho with rfl
      exact hn.2)
  have hso : splitOnce '=' n = none := by
    cases hx : splitOnce '=' n with
    | none => rfl
    | some p =>
      obtain ⟨x, y⟩ := p
      have := (splitOnce_some hx).1
      exact absurd (by rw [this]; simp) hn.1
  have e1 : run e [.read n s, .exp n] = exportVar (readVar e n s) n := by
    show exportArg (readVar e n s) n = _
    rw [exportArg, hso]
  rw [visible_prepare hc.toSound hn ht, e1]
  have hx : n ∈ (exportVar (readVar e n s) n).exported := by
    show n ∈ insertSet _ n
    unfold insertSet
    split
    · assumption
    · exact List.mem_cons_self ..
  rw [if_pos hx]
  show (setVar e ('$' :: n) _).vars.get n = none
  rw [get_setVar, if_neg (by intro e; have := congrArg List.length e; simp at this), hv]

/-! ### C149 -/

/-- The descriptors opened for one command, which it has to close; that of the shell and that of the terminal are not among them. -/
def owned : Source → List Nat
  | .file n => [n]
  | .pipe n => [n]
  | _ => []

/-- A builtin other than `read` closes exactly what was opened for it, once, and one that can write closes nothing. -/
theorem C149_others_partial (s : Source) (h : ∀ n, s = .pipe n → n ≠ 0) (fd : Nat) (k : Nat) :
    closes false s = owned s ∧ writesClose fd (List.replicate k true) = [] := by
  constructor
  · cases s with
    | pipe n => simp [closes, bodyCloses, launchCloses, guardCloses, owned, h n rfl]
    | _ => rfl
  · unfold writesClose
    rw [List.flatMap_eq_nil_iff]
    intro x hx
    rw [List.eq_of_mem_replicate hx]
    rfl

/-- `read` closes the input of the shell itself, and what was opened for it twice; the terminal of a job it closes as well. -/
theorem C149_read_violated (n : Nat) (hn : n ≠ 0) :
    closes true .shell = [0] ∧ closes true (.file n) = [n, n] ∧ closes true (.pipe n) = [n, n] ∧ closes true (.pty n) = [n] ∧
    ∀ s, (∀ m, s = .pipe m → m ≠ 0) → closes true s ≠ owned s := by
  refine ⟨rfl, rfl, by simp [closes, bodyCloses, launchCloses, guardCloses, hn, Source.fd], rfl, ?_⟩
  intro s h e
  have := congrArg List.length e
  cases s with
  | pipe m => simp [closes, bodyCloses, launchCloses, guardCloses, owned, h m rfl, Source.fd] at this
  | _ => simp [closes, bodyCloses, launchCloses, guardCloses, owned] at this

/-- Every text a builtin cannot write closes its output, even that of the shell, once for each text. -/
theorem C149_write_violated (fd : Nat) (oks : List Bool) :
    writesClose fd oks = List.replicate (oks.count false) fd := by
  unfold writesClose
  induction oks with
  | nil => rfl
  | cons b bs ih =>
    rw [List.flatMap_cons, ih]
    cases b
    · rw [List.count_cons_self, List.replicate_succ]; rfl
    · rw [List.count_cons_of_ne (by decide)]; rfl

example : writesClose 1 [true, false, true, false] = [1, 1] := by decide

/-! ### C150 -/

/-- An argument that does not look like an option. -/
def Wordy (s : Str) : Prop := s.head? ≠ some '-' ∨ s = ['-']

theorem classify_wordy {s : Str} (h : Wordy s) : classify s = .free := by
  unfold Wordy at h
  match s, h with
  | [], _ => rfl
  | ['-'], _ => rfl
  | [c], h =>
    unfold classify; split <;> simp_all
  | c :: d :: r, h =>
    have : c ≠ '-' := by rcases h with h | h <;> simp_all
    unfold classify; split <;> simp_all

/-- A name and a value that do not look like options are set, for the shell or (with `-x` or `--export`, wherever it stands) for programs; after
`--` any name and value are; all with status 0. Asking for help sets nothing, and a flag given twice is an error. -/
theorem C150_set_partial (e : State) (k v : Str) (hk : Wordy k) (hv : Wordy v) :
    setCmd e [k, v] = (0, setVar e k v) ∧
    (∀ f ∈ [c!"-x", c!"--export"], setCmd e [f, k, v] = (0, setSys e k v) ∧ setCmd e [k, f, v] = (0, setSys e k v) ∧
      setCmd e [k, v, f] = (0, setSys e k v)) ∧
    (∀ a b : Str, setCmd e [c!"--", a, b] = (0, setVar e a b) ∧ setCmd e [c!"-x", c!"--", a, b] = (0, setSys e a b)) ∧
    (∀ args, (setCmd e (c!"-h" :: args)).2 = e) ∧ (∀ args, setCmd e (c!"-x" :: c!"-x" :: args) = (1, e)) := by
  have h1 := classify_wordy hk
  have h2 := classify_wordy hv
  refine ⟨by simp [setCmd, getopts, parseArgs, h1, h2], ?_, ?_, ?_, ?_⟩
  · intro f hf
    have h3 : classify f = .flags [.x] := by
      revert f; decide
    simp [setCmd, getopts, parseArgs, h1, h2, h3]
  · intro a b
    have h3 : classify c!"-x" = .flags [.x] := by decide
    have h4 : classify c!"--" = .stop := by decide
    simp [setCmd, getopts, parseArgs, h3, h4]
  · intro args
    have h3 : classify c!"-h" = .flags [.h] := by decide
    have h4 : getopts (c!"-h" :: args) = none ∨ ∃ fs free, getopts (c!"-h" :: args) = some (.h :: fs, free) := by
      unfold getopts
      rw [parseArgs, h3]
      dsimp only
      cases parseArgs args with
      | none => exact Or.inl rfl
      | some p =>
        simp only [Option.map_some, List.singleton_append]
        split
        · exact Or.inr ⟨_, _, rfl⟩
        · exact Or.inl rfl
    rcases h4 with h4 | ⟨fs, free, h4⟩
    · simp [setCmd, h4]
    · simp [setCmd, h4]
  · intro args
    have h3 : classify c!"-x" = .flags [.x] := by decide
    have h4 : getopts (c!"-x" :: c!"-x" :: args) = none := by
      unfold getopts
      rw [parseArgs, h3]
      dsimp only
      rw [parseArgs, h3]
      cases parseArgs args with
      | none => rfl
      | some p => simp
    simp [setCmd, h4]

example : setCmd ex0 [c!"name", c!"some value"] = (0, setVar ex0 c!"name" c!"some value") :=
  (C150_set_partial ex0 _ _ (by unfold Wordy; decide) (by unfold Wordy; decide)).1

/-- A negative number cannot be set; the value `-x` sets nothing and is no error, nor is a value of several words. -/
theorem C150_set_violated (e : State) (k : Str) (hk : Wordy k) :
    (∀ (c : Char) (r : Str), flagOf c = none → c ≠ '-' → setCmd e [k, '-' :: c :: r] = (1, e)) ∧
    setCmd e [k, c!"-x"] = (0, e) ∧ setCmd e [k] = (0, e) ∧
    (∀ v w : Str, Wordy v → Wordy w → setCmd e [k, v, w] = (0, e)) := by
  have h1 := classify_wordy hk
  refine ⟨?_, ?_, ?_, ?_⟩
  · intro c r hc hd
    have h2 : classify ('-' :: c :: r) = .bad := by
      unfold classify
      split
      · simp_all
      · simp_all
      · next h => simp only [List.cons.injEq, true_and] at h; obtain ⟨rfl, rfl⟩ := h; simp [cluster, hc, shortArg]
      · simp_all
    simp [setCmd, getopts, parseArgs, h1, h2]
  · have h2 : classify c!"-x" = .flags [.x] := by decide
    simp [setCmd, getopts, parseArgs, h1, h2]
  · simp [setCmd, getopts, parseArgs, h1]
  · intro v w hv hw
    simp [setCmd, getopts, parseArgs, h1, classify_wordy hv, classify_wordy hw]

example : flagOf '5' = none ∧ setCmd ex0 [c!"n", c!"-5"] = (1, ex0) :=
  ⟨rfl, (C150_set_violated ex0 c!"n" (by unfold Wordy; decide)).1 '5' [] rfl (by decide)⟩

/-- Reading a value in double quotes as a POSIX shell does: up to the next quote, `\` protects the special characters; `none` if something
would be expanded or the quote is not closed. -/
def quoted : Str → Option (Str × Str)
  | [] => none
  | '"' :: r => some ([], r)
  | '$' :: _ => none
  | '`' :: _ => none
  | ['\\'] => none
  | '\\' :: c :: r =>
    if c ∈ ['$', '`', '"', '\\'] then (quoted r).map fun p => (c :: p.1, p.2)
    else (quoted r).map fun p => ('\\' :: c :: p.1, p.2)
  | c :: r => (quoted r).map fun p => (c :: p.1, p.2)

/-- What is after a name: the value in quotes and the end of the line. -/
def afterName (s : Str) : Option (Str × Str) :=
  match s with
  | '=' :: '"' :: r =>
    match quoted r with
    | some (v, '\n' :: rest) => some (v, rest)
    | _ => none
  | _ => none

/-- Reading declarations back. -/
def readDecls : Nat → Str → Option (List (Str × Str))
  | _, [] => some []
  | 0, _ => none
  | n + 1, s =>
    if c!"declare -x ".isPrefixOf s then
      match afterName ((s.drop 11).dropWhile (· ≠ '=')) with
      | some (v, rest) => (readDecls n rest).map fun l => ((s.drop 11).takeWhile (· ≠ '='), v) :: l
      | none => none
    else none

/-- No character that is special in double quotes. -/
def Simple (v : Str) : Prop := ∀ c ∈ v, c ≠ '"' ∧ c ≠ '$' ∧ c ≠ '`' ∧ c ≠ '\\'

theorem quoted_simple (v : Str) (h : Simple v) (r : Str) : quoted (v ++ '"' :: r) = some (v, r) := by
  induction v with
  | nil => rfl
  | cons c cs ih =>
    have hc := h c (List.mem_cons_self ..)
    have ih := ih fun x hx => h x (List.mem_cons_of_mem _ hx)
    rw [List.cons_append, quoted.eq_def]
    split <;> simp_all

theorem name_split (k r : Str) (h : '=' ∉ k) :
    (k ++ '=' :: r).takeWhile (· ≠ '=') = k ∧ (k ++ '=' :: r).dropWhile (· ≠ '=') = '=' :: r := by
  induction k with
  | nil => simp
  | cons c cs ih =>
    have hc : c ≠ '=' := fun e => h (e ▸ List.mem_cons_self ..)
    have ih := ih fun hm => h (List.mem_cons_of_mem _ hm)
    rw [List.cons_append, List.takeWhile_cons_of_pos (by simpa using hc), List.dropWhile_cons_of_pos (by simpa using hc), ih.1, ih.2]
    exact ⟨rfl, rfl⟩

theorem readDecls_lines (l : List (Str × Str)) (h : ∀ p ∈ l, '=' ∉ p.1 ∧ Simple p.2) (n : Nat) (hn : l.length ≤ n) :
    readDecls n (l.flatMap declLine) = some l := by
  induction l generalizing n with
  | nil => cases n <;> rfl
  | cons p l ih =>
    obtain ⟨n, rfl⟩ : ∃ m, n = m + 1 := ⟨n - 1, by simp at hn; omega⟩
    have hp := h p (List.mem_cons_self ..)
    have ih := ih (fun q hq => h q (List.mem_cons_of_mem _ hq)) n (by simpa using hn)
    have e : (p :: l).flatMap declLine = c!"declare -x " ++ (p.1 ++ '=' :: ('"' :: (p.2 ++ '"' :: '\n' :: l.flatMap declLine))) := by
      simp [declLine]
    rw [e]
    have hs := name_split p.1 ('"' :: (p.2 ++ '"' :: '\n' :: l.flatMap declLine)) hp.1
    have ha : afterName ('=' :: '"' :: (p.2 ++ '"' :: '\n' :: l.flatMap declLine)) = some (p.2, l.flatMap declLine) := by
      simp only [afterName, quoted_simple p.2 hp.2]
    rw [readDecls.eq_def]
    simp only [List.cons_append, List.nil_append, List.isPrefixOf, beq_self_eq_true, Bool.and_self, if_true, List.drop_succ_cons, List.drop_zero]
    rw [hs.1, hs.2, ha]
    dsimp only
    rw [ih]
    rfl

/-- The listing, read back by a shell, declares exactly the exported variables that have a value, if no name contains `=` and no value a
character that is special in double quotes. -/
theorem C150_listing_partial (e : State) (h1 : ∀ k ∈ e.exported, '=' ∉ k) (h2 : ∀ k ∈ e.exported, ∀ v, e.vars.get k = some v → Simple v) :
    ∃ l, readDecls (exportedVars e).length (listing e) = some l ∧
      (∀ k v, (k, v) ∈ l ↔ k ∈ e.exported ∧ e.vars.get k = some v) := by
  refine ⟨exportedVars e, readDecls_lines _ ?_ _ (Nat.le_refl _), ?_⟩
  · intro p hp
    obtain ⟨k, hk, hm⟩ := List.mem_filterMap.1 hp
    obtain ⟨v, hv, rfl⟩ := Option.map_eq_some_iff.1 hm
    exact ⟨h1 k hk, h2 k hk v hv⟩
  · intro k v
    unfold exportedVars
    rw [List.mem_filterMap]
    constructor
    · rintro ⟨k', hk, hm⟩
      obtain ⟨v', hv, he⟩ := Option.map_eq_some_iff.1 hm
      cases he
      exact ⟨hk, hv⟩
    · rintro ⟨hk, hv⟩
      exact ⟨k, hk, by rw [hv]; rfl⟩

example : let e := exportArg ex0 c!"A=b c"
    readDecls 1 (listing e) = some [(c!"A", c!"b c")] := by decide +kernel

/-- A value with a quote in it is read back as another one or not at all, one with a `$` would be expanded. -/
theorem C150_listing_violated (k a b : Str) (hk : '=' ∉ k) (ha : Simple a) (hb : b.head? ≠ some '\n') (n : Nat) (rest : Str) :
    readDecls n (declLine (k, a ++ '"' :: b) ++ rest) = none ∧ readDecls n (declLine (k, a ++ '$' :: b) ++ rest) = none := by
  have q1 : ∀ r : Str, quoted (a ++ '$' :: r) = none := by
    intro r
    have ha := ha
    induction a with
    | nil => rfl
    | cons c cs ih =>
      have hc := ha c (List.mem_cons_self ..)
      have ih := ih (fun x hx => ha x (List.mem_cons_of_mem _ hx))  (fun x hx => ha x (List.mem_cons_of_mem _ hx))
      rw [List.cons_append, quoted.eq_def]
      split <;> simp_all
  cases n with
  | zero =>
    constructor <;> simp [declLine, readDecls]
  | succ n =>
    constructor
    · have e : declLine (k, a ++ '"' :: b) ++ rest = c!"declare -x " ++ (k ++ '=' :: ('"' :: (a ++ '"' :: (b ++ '"' :: '\n' :: rest)))) := by
        simp [declLine]
      rw [e]
      have hs := name_split k ('"' :: (a ++ '"' :: (b ++ '"' :: '\n' :: rest))) hk
      have hq : afterName ('=' :: '"' :: (a ++ '"' :: (b ++ '"' :: '\n' :: rest))) = none := by
        rw [afterName, quoted_simple a ha]
        cases b with
        | nil => rfl
        | cons c cs =>
          have : c ≠ '\n' := by simpa using hb
          rw [List.cons_append]
          split <;> simp_all
      rw [readDecls.eq_def]
      simp only [List.cons_append, List.nil_append, List.isPrefixOf, beq_self_eq_true, Bool.and_self, if_true, List.drop_succ_cons, List.drop_zero]
      rw [hs.2, hq]
    · have e : declLine (k, a ++ '$' :: b) ++ rest = c!"declare -x " ++ (k ++ '=' :: ('"' :: (a ++ '$' :: (b ++ '"' :: '\n' :: rest)))) := by
        simp [declLine]
      rw [e]
      have hs := name_split k ('"' :: (a ++ '$' :: (b ++ '"' :: '\n' :: rest))) hk
      have hq : afterName ('=' :: '"' :: (a ++ '$' :: (b ++ '"' :: '\n' :: rest))) = none := by
        rw [afterName, q1]
      rw [readDecls.eq_def]
      simp only [List.cons_append, List.nil_append, List.isPrefixOf, beq_self_eq_true, Bool.and_self, if_true, List.drop_succ_cons, List.drop_zero]
      rw [hs.2, hq]

/-- What programs get otherwise is not listed: a variable set with `set -x`, or one the shell was started with. -/
theorem C150_sysvars_violated (e : State) (h : Clean e) (k v : Str) (hk : Name k) (ht : k ≠ TERM) (hv : '\x00' ∉ v) (hx : k ∉ e.exported) :
    getenv (prepare (setSys e k v)) k = some v ∧ (∀ w, (k, w) ∉ exportedVars (setSys e k v)) ∧
    listing (setSys e k v) = listing e := by
  have hc := clean_run h (l := [.setx k v]) (by
    intro op ho
    rcases List.mem_singleton.1 ho with rfl
    exact ⟨hk, hv⟩)
  have hrest : (setSys e k v).vars = e.vars ∧ (setSys e k v).exported = e.exported := by
    unfold setSys reloadPath
    dsimp only
    split <;> exact ⟨rfl, rfl⟩
  have hs : (setSys e k v).sys.get k = some v := by
    have := sys_step e k (.setx k v)
    simpa [step] using this
  have hl : exportedVars (setSys e k v) = exportedVars e := by
    unfold exportedVars; rw [hrest.1, hrest.2]
  refine ⟨?_, ?_, ?_⟩
  · have := visible_prepare hc.toSound hk ht
    show getenv (prepare (run e [.setx k v])) k = some v
    rw [this]
    show (if k ∈ (setSys e k v).exported then _ else (setSys e k v).sys.get k) = _
    rw [hrest.2, if_neg hx, hs]
  · intro w hw
    rw [hl] at hw
    obtain ⟨k', hk', hm⟩ := List.mem_filterMap.1 hw
    obtain ⟨v', _, he⟩ := Option.map_eq_some_iff.1 hm
    cases he
    exact hx hk'
  · unfold listing; rw [hl]

end Dsh.EnvCmd
