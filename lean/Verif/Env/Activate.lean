import Verif.Env.Direnv
/-!
Taking over variables from scripts and projects (dsh-builtin/src/include.rs,
dsh-builtin/src/project.rs) and `cd -` (dsh-builtin/src/cd.rs): C96, C97, C98.
-/
namespace Dsh.Env

/-! ### C96: `include` -/

/-- `PROTECTED_ENV_VARS` (include.rs:6-8) and the names that start with `DSH_` (include.rs:127). -/
def keepName (k : Str) : Bool :=
  [c!"HOME", c!"PATH", c!"PWD", c!"OLDPWD", c!"SHELL", c!"TERM", c!"USER", c!"LOGNAME", c!"LANG"].contains k ||
    (c!"DSH_").isPrefixOf k

/-- The loop that assigns (include.rs:113-120); `proc` is the environment of the shell's own process. -/
def includeSet (proc : Map) (e : State) : Map → State
  | [] => e
  | (k, v) :: l => includeSet proc (if (proc.get k).getD [] = v then e else setSys e k v) l

/-- The loop that unsets (include.rs:124-132). -/
def includeUnset (new : Map) (e : State) : Map → State
  | [] => e
  | (k, _) :: l => includeUnset new (if new.get k = none ∧ keepName k = false then unsetSys e k else e) l

/-- `include` of a script that succeeds (include.rs:113-132); `new` is what `env -0` prints after the
script.  The script runs in the environment `proc` of the shell's own process, not in `prepare e`. -/
def includeScript (proc new : Map) (e : State) : State := includeUnset new (includeSet proc e new) proc

theorem includeSet_get (proc : Map) (n : Str) : ∀ (l : Map) (e : State), (l.map (·.1)).Nodup →
    (includeSet proc e l).sys.get n = match l.get n with
      | some v => if (proc.get n).getD [] = v then e.sys.get n else some v
      | none => e.sys.get n := by
  intro l
  induction l with
  | nil => intro e _; rfl
  | cons p l ih =>
    intro e hn
    obtain ⟨k, v⟩ := p
    rw [List.map_cons, List.nodup_cons] at hn
    rw [includeSet, ih _ hn.2]
    by_cases hk : k = n
    · subst hk
      have hnone : Map.get l k = none := by
        rw [Map.get_none]
        intro p hp hpk
        exact hn.1 (List.mem_map.2 ⟨p, hp, hpk⟩)
      rw [hnone]
      simp only [Map.get, if_pos]
      split
      · rfl
      · rw [setSys_sys, Map.get_insert, if_pos rfl]
    · simp only [Map.get, if_neg hk]
      have hs : ∀ x : State, (if (proc.get k).getD [] = v then x else setSys x k v).sys.get n = x.sys.get n := by
        intro x
        split
        · rfl
        · rw [setSys_sys, Map.get_insert, if_neg (fun h => hk h.symm)]
      rw [hs]

theorem includeUnset_get (new : Map) (n : Str) : ∀ (l : Map) (e : State),
    (includeUnset new e l).sys.get n =
      if (∃ p ∈ l, p.1 = n) ∧ new.get n = none ∧ keepName n = false then none else e.sys.get n := by
  intro l
  induction l with
  | nil => intro e; simp [includeUnset]
  | cons p l ih =>
    intro e
    obtain ⟨k, v⟩ := p
    rw [includeUnset, ih]
    by_cases hc : new.get n = none ∧ keepName n = false
    · by_cases hl : ∃ p ∈ l, p.1 = n
      · rw [if_pos ⟨hl, hc⟩, if_pos ⟨by obtain ⟨p, hp, h⟩ := hl; exact ⟨p, List.mem_cons_of_mem _ hp, h⟩, hc⟩]
      · rw [if_neg (fun h => hl h.1)]
        by_cases hk : k = n
        · subst hk
          rw [if_pos hc, if_pos ⟨⟨(k, v), by simp, rfl⟩, hc⟩, unsetSys_sys, Map.get_erase, if_pos rfl]
        · rw [if_neg (c := (∃ p ∈ (k, v) :: l, p.1 = n) ∧ _)]
          · split
            · rw [unsetSys_sys, Map.get_erase, if_neg (fun h => hk h.symm)]
            · rfl
          · rintro ⟨⟨p, hp, h⟩, _⟩
            rcases List.mem_cons.1 hp with rfl | hp
            · exact hk h
            · exact hl ⟨p, hp, h⟩
    · have h1 : ∀ a : Prop, ¬ (a ∧ new.get n = none ∧ keepName n = false) := fun a h => hc h.2
      rw [if_neg (h1 _), if_neg (h1 _)]
      by_cases hk : new.get k = none ∧ keepName k = false
      · have : k ≠ n := fun h => hc (h ▸ hk)
        rw [if_pos hk, unsetSys_sys, Map.get_erase, if_neg (fun h => this h.symm)]
      · rw [if_neg hk]

/-- C96, what holds: if no system variable has been changed since the shell was started, then after
`include` every variable has the value it has at the end of the script, and is unset if it is not set
there, for every name the shell does not protect, every script and every order in which the variables
are handled — except a variable newly set to the empty text. -/
theorem C96_include_partial (proc new : Map) (e : State) (hn : (new.map (·.1)).Nodup)
    (he : ∀ k, e.sys.get k = proc.get k) (n : Str) (hempty : new.get n = some [] → proc.get n ≠ none) :
    (new.get n ≠ none → (includeScript proc new e).sys.get n = new.get n) ∧
    (new.get n = none → keepName n = false → (includeScript proc new e).sys.get n = none) ∧
    (new.get n = none → keepName n = true → (includeScript proc new e).sys.get n = e.sys.get n) := by
  simp only [includeScript, includeUnset_get, includeSet_get proc n new e hn]
  refine ⟨?_, ?_, ?_⟩
  · intro h
    obtain ⟨v, hv⟩ := Option.ne_none_iff_exists'.1 h
    rw [if_neg (by rintro ⟨_, h', _⟩; exact h h'), hv]
    dsimp only
    split
    · next heq =>
      rw [he]
      cases hp : proc.get n with
      | none =>
        rw [hp] at heq
        simp only [Option.getD_none] at heq
        exact absurd hp (hempty (by rw [hv, ← heq]))
      | some w => rw [hp] at heq; simpa using heq
    · rfl
  · intro h hk
    rw [h]
    split
    · rfl
    · next hc =>
      dsimp only
      rw [he]
      cases hp : proc.get n with
      | none => rfl
      | some w => exact absurd ⟨⟨(n, w), Map.get_mem hp, rfl⟩, rfl, hk⟩ hc
  · intro h hk
    rw [h, if_neg (by rintro ⟨_, _, h'⟩; rw [hk] at h'; simp at h')]

example : let proc : Map := [(PATH, c!"/bin:/usr/bin"), (c!"HOME", c!"/h"), (TERM, c!"vt100"), (c!"OLD", c!"1")]
    let e := { ex0 with sys := proc }
    let new : Map := [(c!"NEW", c!"2"), (PATH, c!"/opt:/bin")]
    let e' := includeScript proc new e
    e'.sys.get c!"NEW" = some c!"2" ∧ e'.sys.get PATH = some c!"/opt:/bin" ∧ e'.sys.get c!"OLD" = none ∧
    e'.sys.get c!"HOME" = some c!"/h" := by decide +kernel

/-- C96, what does not hold: a variable to which the script gives the value it had when the shell was
started keeps the value the user has given it since; a variable set since can never be unset by a
script; and one newly set to the empty text stays unset — for all states and scripts. -/
theorem C96_violated :
    (∀ (proc new : Map) (e : State) (n v : Str), (new.map (·.1)).Nodup → proc.get n = some v → new.get n = some v →
      (includeScript proc new e).sys.get n = e.sys.get n) ∧
    (∀ (proc new : Map) (e : State) (n : Str), (new.map (·.1)).Nodup → proc.get n = none → new.get n = none →
      (includeScript proc new e).sys.get n = e.sys.get n) ∧
    (∀ (proc new : Map) (e : State) (n : Str), (new.map (·.1)).Nodup → proc.get n = none → new.get n = some [] →
      (includeScript proc new e).sys.get n = e.sys.get n) ∧
    (let proc : Map := [(c!"LANG", c!"C")]
     let e := step { ex0 with sys := proc } (.setx c!"LANG" c!"de")
     e.sys.get c!"LANG" = some c!"de" ∧ (includeScript proc [(c!"LANG", c!"C")] e).sys.get c!"LANG" = some c!"de") := by
  refine ⟨?_, ?_, ?_, by decide +kernel⟩
  · intro proc new e n v hn hp hv
    simp only [includeScript, includeUnset_get, includeSet_get proc n new e hn]
    rw [if_neg (by rintro ⟨_, h', _⟩; rw [hv] at h'; simp at h'), hv]
    simp [hp]
  · intro proc new e n hn hp hv
    simp only [includeScript, includeUnset_get, includeSet_get proc n new e hn]
    rw [if_neg, hv]
    rintro ⟨⟨p, hp', h⟩, _⟩
    rw [Map.get_none] at hp
    exact hp p hp' h
  · intro proc new e n hn hp hv
    simp only [includeScript, includeUnset_get, includeSet_get proc n new e hn]
    rw [if_neg (by rintro ⟨_, h', _⟩; rw [hv] at h'; simp at h'), hv]
    simp [hp]

/-! ### C97: `pm activate` -/

/-- `is_valid_env_key` (project.rs:316-323). -/
def validKey : Str → Bool
  | [] => false
  | c :: k => (c == '_' || c.isAlpha) && k.all fun c => c == '_' || c.isAlphanum

/-- `parse_assignment` (project.rs:300-307) with `unquote` (project.rs:325-335). -/
def parseAssignment (s : Str) : Option (Str × Str) :=
  match splitOnce '=' s with
  | none => none
  | some (k, v) => if validKey (trim k) then some (trim k, unquote (trim (trim v))) else none

/-- `strip_prefix("export ").unwrap_or(…)`. -/
def stripExport (s : Str) : Str := if (c!"export ").isPrefixOf s then s.drop 7 else s

/-- `parse_assignment_line` (project.rs:290-298). -/
def parseAssignmentLine (l : Str) : Option (Str × Str) :=
  let t := trim l
  if t = [] ∨ t.head? = some '#' then none
  else parseAssignment (trim (stripExport t))

/-- `parse_dotenv_file` (project.rs:252-255). -/
def parseDotenv (s : Str) : List (Str × Str) := (lines s).filterMap parseAssignmentLine

/-- `prepend_path` (project.rs:358-377) for an absolute directory; `proc` is the `PATH` of the
process. -/
def prependPath (e : State) (proc : Option Str) (dir : Str) : State × Bool :=
  let cur := ((getVar e PATH).or proc).getD []
  if (splitOn ':' cur).contains dir then (e, false)
  else (setSys e PATH (if cur = [] then dir else dir ++ ':' :: cur), true)

/-- A line of a `.env` file as people write it. -/
inductive Line
  | blank (ws : Str)
  | comment (ws text : Str)
  | assign (indent : Str) (export_ : Bool) (name : Str) (quote : Option Char) (value : Str)

/-- The text of a line. -/
def Line.text : Line → Str
  | .blank ws => ws
  | .comment ws t => ws ++ '#' :: t
  | .assign ind ex n q v =>
    ind ++ (if ex then c!"export " else []) ++ n ++ '=' :: (match q with
      | some c => c :: v ++ [c]
      | none => v)

/-- A line that can be written down: names are names, values contain no line break, and a value
without quotes has no white space at its ends and is not itself in quotes. -/
def Line.Ok : Line → Prop
  | .blank ws => Blank ws
  | .comment ws t => Blank ws ∧ '\n' ∉ t
  | .assign ind _ n q v => Blank ind ∧ validKey n = true ∧ '\n' ∉ v ∧
    match q with
    | some c => c = '"' ∨ c = '\''
    | none => trim v = v ∧ unquote v = v

/-- What the line means. -/
def Line.meaning : Line → Option (Str × Str)
  | .assign _ _ n _ v => some (n, v)
  | _ => none

theorem alpha_not_ws {c : Char} (h : c = '_' ∨ c.isAlphanum = true) : rustWhitespace c = false := by
  have hn : (65 ≤ c.toNat ∧ c.toNat ≤ 90) ∨ (97 ≤ c.toNat ∧ c.toNat ≤ 122) ∨ (48 ≤ c.toNat ∧ c.toNat ≤ 57) ∨ c.toNat = 95 := by
    rcases h with h | h
    · subst h; exact .inr (.inr (.inr rfl))
    · simp only [Char.isAlphanum, Char.isAlpha, Char.isUpper, Char.isLower, Char.isDigit, Bool.or_eq_true, Bool.and_eq_true,
        decide_eq_true_eq, UInt32.le_iff_toNat_le, ge_iff_le] at h
      rcases h with (h | h) | h
      · exact .inl h
      · exact .inr (.inl h)
      · exact .inr (.inr (.inl h))
  rw [Bool.eq_false_iff]
  intro hw
  simp only [rustWhitespace, Bool.or_eq_true, Bool.and_eq_true, decide_eq_true_eq] at hw
  omega

theorem validKey_chars {n : Str} (h : validKey n = true) : n ≠ [] ∧ ∀ c ∈ n, c = '_' ∨ c.isAlphanum = true := by
  cases n with
  | nil => simp [validKey] at h
  | cons c k =>
    refine ⟨by simp, ?_⟩
    simp only [validKey, Bool.and_eq_true, Bool.or_eq_true, beq_iff_eq, List.all_eq_true] at h
    intro x hx
    rcases List.mem_cons.1 hx with rfl | hx
    · rcases h.1 with h1 | h1
      · exact .inl h1
      · exact .inr (by simp [Char.isAlphanum, h1])
    · exact h.2 x hx

theorem key_trim {n : Str} (h : validKey n = true) : trim n = n := by
  have h2 := fun c hc => alpha_not_ws ((validKey_chars h).2 c hc)
  rw [trim, trimStart_id h2]
  simpa using trimEnd_append (a := n) (v := []) h2 rfl

theorem key_no {n : Str} (h : validKey n = true) {c : Char} (hc : c ≠ '_' ∧ c.isAlphanum = false) : c ∉ n := by
  intro hm
  rcases (validKey_chars h).2 c hm with h' | h'
  · exact hc.1 h'
  · rw [hc.2] at h'; simp at h'

/-- The part of the line after the `=`. -/
def shown (q : Option Char) (v : Str) : Str := match q with
  | some c => c :: v ++ [c]
  | none => v

theorem shown_trim {q : Option Char} {v : Str} (h : match q with
    | some c => c = '"' ∨ c = '\''
    | none => trim v = v ∧ unquote v = v) : trim (shown q v) = shown q v ∧ unquote (shown q v) = v := by
  cases q with
  | none => exact h
  | some c =>
    have hc : rustWhitespace c = false := by rcases h with rfl | rfl <;> decide
    simp only [shown]
    constructor
    · have h1 : trimStart (c :: v ++ [c]) = c :: v ++ [c] := by simp [trimStart, hc]
      rw [trim, h1]
      simp [trimEnd, hc]
    · rw [unquote, if_pos]
      · simp
      · refine ⟨?_, by simp⟩
        rcases h with rfl | rfl
        · exact .inl ⟨by simp, by rw [List.getLast?_append]; simp⟩
        · exact .inr ⟨by simp, by rw [List.getLast?_append]; simp⟩

theorem parse_assign {n : Str} (hn : validKey n = true) {q : Option Char} {v : Str} (h : match q with
    | some c => c = '"' ∨ c = '\''
    | none => trim v = v ∧ unquote v = v) : parseAssignment (n ++ '=' :: shown q v) = some (n, v) := by
  obtain ⟨h1, h2⟩ := shown_trim h
  have hne : '=' ∉ n := key_no hn (by decide)
  simp only [parseAssignment, splitOnce_of _ hne, key_trim hn, hn, if_true, h1, h2]

theorem trim_assign {n : Str} (hn : validKey n = true) {s : Str} (hs : trim s = s) : trim (n ++ '=' :: s) = n ++ '=' :: s := by
  have h2 := fun c hc => alpha_not_ws ((validKey_chars hn).2 c hc)
  have := trim_append (a := n ++ ['=']) (v := s) (by
    intro c hc
    simp only [List.mem_append, List.mem_singleton] at hc
    rcases hc with hc | rfl
    · exact h2 c hc
    · decide) (by simp) hs
  simpa using this

theorem parse_line {x : Line} (h : x.Ok) : parseAssignmentLine x.text = x.meaning := by
  cases x with
  | blank ws =>
    have : trim ws = [] := by
      have := trim_blank (s := []) h
      simpa [trim, trimStart, trimEnd] using this
    simp [Line.text, Line.meaning, parseAssignmentLine, this]
  | comment ws t =>
    have h1 : (trim (ws ++ '#' :: t)).head? = some '#' := by
      rw [trim_blank h.1]
      have h2 : trimStart ('#' :: t) = '#' :: t := by
        simp only [trimStart, List.dropWhile_cons]
        rw [if_neg (by decide)]
      rw [trim, h2]
      have : ∀ t : Str, (trimEnd ('#' :: t)).head? = some '#' := by
        intro t
        simp only [trimEnd, List.reverse_cons]
        rw [List.head?_reverse, List.dropWhile_append]
        split
        · rw [show List.dropWhile rustWhitespace ['#'] = ['#'] from by decide]; rfl
        · simp
      exact this t
    simp [Line.text, Line.meaning, parseAssignmentLine, h1]
  | assign ind ex n q v =>
    obtain ⟨h1, h2, h3, h4⟩ := h
    obtain ⟨h5, h6⟩ := shown_trim h4
    obtain ⟨hne, hch⟩ := validKey_chars h2
    have htext : (Line.assign ind ex n q v).text = ind ++ ((if ex then c!"export " else []) ++ (n ++ '=' :: shown q v)) := by
      cases q <;> simp [Line.text, shown]
    have ht := trim_assign h2 h5
    have hhead : (n ++ '=' :: shown q v).head? ≠ some '#' := by
      cases n with
      | nil => exact absurd rfl hne
      | cons c n =>
        intro hc
        simp only [List.cons_append, List.head?_cons, Option.some.injEq] at hc
        exact key_no h2 (c := '#') (by decide) (by simp [hc])
    have hne' : n ++ '=' :: shown q v ≠ [] := by simp
    have hsp : (c!"export ").isPrefixOf (n ++ '=' :: shown q v) = false := by
      rw [Bool.eq_false_iff]
      intro hp
      obtain ⟨t, ht⟩ := List.isPrefixOf_iff_prefix.1 hp
      have hspace : ' ' ∉ n := key_no h2 (by decide)
      have hlen : n.length ≤ 6 := by
        by_contra hgt
        have h7 : (n ++ '=' :: shown q v)[6]? = some ' ' := by rw [← ht]; rfl
        rw [List.getElem?_append_left (by omega)] at h7
        exact hspace (List.mem_of_getElem? h7)
      have h8 : '=' ∈ c!"export " := by
        have h9 : (n ++ '=' :: shown q v)[n.length]? = some '=' := by simp
        rw [← ht, List.getElem?_append_left (by simp; omega)] at h9
        exact List.mem_of_getElem? h9
      revert h8; decide
    rw [htext]
    simp only [Line.meaning, parseAssignmentLine, trim_blank h1]
    cases ex with
    | false =>
      simp only [Bool.false_eq_true, if_false, List.nil_append, ht]
      rw [if_neg (by rintro (h | h); exacts [hne' h, hhead h])]
      rw [stripExport, hsp, if_neg (by decide), ht]
      exact parse_assign h2 h4
    | true =>
      simp only [if_true]
      have he : trim (c!"export " ++ (n ++ '=' :: shown q v)) = c!"export " ++ (n ++ '=' :: shown q v) := by
        have hE : trimEnd (n ++ '=' :: shown q v) = n ++ '=' :: shown q v := by
          have hts : trimStart (n ++ '=' :: shown q v) = n ++ '=' :: shown q v :=
            trimStart_append (fun c hc => alpha_not_ws (hch c hc)) hne
          rw [trim, hts] at ht
          exact ht
        have h10 : trimStart (c!"export " ++ (n ++ '=' :: shown q v)) = c!"export " ++ (n ++ '=' :: shown q v) := by
          show List.dropWhile rustWhitespace ('e' :: _) = _
          rw [List.dropWhile_cons, if_neg (by decide)]
          rfl
        rw [trim, h10]
        have hrev : ∀ s : Str, trimEnd s = s → s ≠ [] → ∀ a : Str, trimEnd (a ++ s) = a ++ s := by
          intro s hs hne a
          have hs' : s.reverse.dropWhile rustWhitespace = s.reverse := by
            rw [← List.reverse_inj, List.reverse_reverse]; exact hs
          simp only [trimEnd, List.reverse_append]
          rw [List.dropWhile_append, hs']
          simp [hne]
        exact hrev _ hE hne' _
      rw [he, if_neg (by rintro (h | h) <;> simp at h)]
      have h11 : stripExport (c!"export " ++ (n ++ '=' :: shown q v)) = n ++ '=' :: shown q v := by
        rw [stripExport, if_pos (List.isPrefixOf_iff_prefix.2 (List.prefix_append _ _))]
        rfl
      rw [h11, ht]
      exact parse_assign h2 h4

theorem ok_no_newline {x : Line} (h : x.Ok) : '\n' ∉ x.text := by
  have hb : ∀ {ws : Str}, Blank ws → '\n' ∉ ws := fun h hm => (h _ hm).2 rfl
  cases x with
  | blank ws => exact hb h
  | comment ws t => simp [Line.text, hb h.1, h.2]
  | assign ind ex n q v =>
    obtain ⟨h1, h2, h3, h4⟩ := h
    have hn : '\n' ∉ n := key_no h2 (by decide)
    have he : '\n' ∉ (if ex then c!"export " else []) := by cases ex <;> decide
    cases q with
    | none => simp only [Line.text, List.mem_append, List.mem_cons, not_or]; exact ⟨⟨⟨hb h1, he⟩, hn⟩, by decide, h3⟩
    | some c =>
      have hc : '\n' ≠ c := by rcases h4 with rfl | rfl <;> decide
      simp only [Line.text, List.mem_append, List.mem_cons, List.cons_append, List.not_mem_nil, or_false, not_or]
      exact ⟨⟨⟨hb h1, he⟩, hn⟩, by decide, hc, h3, hc⟩

/-- C97, first part: `pm activate` reads a `.env` file of blank lines, comments and assignments — with
or without `export`, quotes and indentation — exactly as it is meant, for all files. -/
theorem C97_dotenv (l : List Line) (h : ∀ x ∈ l, x.Ok) :
    parseDotenv (l.flatMap fun x => x.text ++ ['\n']) = l.filterMap Line.meaning := by
  rw [parseDotenv, lines_flatMap fun x hx => ok_no_newline (h x hx), List.filterMap_map]
  induction l with
  | nil => rfl
  | cons x l ih =>
    simp only [List.filterMap_cons, Function.comp_apply, parse_line (h x (by simp))]
    rw [ih fun y hy => h y (by simp [hy])]

example : let l : List Line := [.comment [] c!" settings", .blank c!"  ", .assign c!" " true c!"API_URL" (some '"') c!" a b ",
      .assign [] false c!"n" none c!"1=2"]
    (∀ x ∈ l, x.Ok) ∧ l.flatMap (fun x => x.text ++ ['\n']) = c!"# settings\n  \n export API_URL=\" a b \"\nn=1=2\n" ∧
    l.filterMap Line.meaning = [(c!"API_URL", c!" a b "), (c!"n", c!"1=2")] := by
  refine ⟨?_, by decide +kernel, by decide +kernel⟩
  intro x hx
  simp only [List.mem_cons, List.not_mem_nil, or_false] at hx
  rcases hx with rfl | rfl | rfl | rfl
  · simp only [Line.Ok, Blank]; decide +kernel
  · simp only [Line.Ok, Blank]; decide +kernel
  · simp only [Line.Ok, Blank]; decide +kernel
  · simp only [Line.Ok, Blank]; decide +kernel

/-- C97, second part: unless the user has a variable of their own named `PATH`, the directory is
searched — first, if it was not searched before —, the other directories stay in their order, and
activating again changes nothing. -/
theorem C97_path_partial (e : State) (proc : Option Str) (dir v : Str) (hv : e.sys.get PATH = some v) (hne : v ≠ [])
    (hown : e.vars.get PATH = none) (hd : ':' ∉ dir) :
    let e' := (prependPath e proc dir).1
    dir ∈ pathDirs e'.sys ∧ (pathDirs e'.sys = pathDirs e.sys ∨ pathDirs e'.sys = dir :: pathDirs e.sys) ∧
    (dir ∉ pathDirs e.sys → pathDirs e'.sys = dir :: pathDirs e.sys) ∧
    (prependPath e' proc dir).1 = e' := by
  have hget : ∀ x : State, x.vars.get PATH = none → getVar x PATH = x.sys.get PATH := by
    intro x hx
    simp only [getVar]
    rw [show OutHist.parseOutputVar PATH c!"OUT" = none from by decide, show OutHist.parseOutputVar PATH c!"ERR" = none from by decide]
    dsimp only
    rw [if_neg (by decide), if_neg (by decide), if_neg (by decide), hx]
    rfl
  have hcur : ((getVar e PATH).or proc).getD [] = v := by rw [hget e hown, hv]; rfl
  have hdirs : pathDirs e.sys = splitOn ':' v := by rw [pathDirs, hv]
  dsimp only
  by_cases hc : (splitOn ':' v).contains dir = true
  · have hm : dir ∈ splitOn ':' v := List.contains_iff_mem.1 hc
    have hp : (prependPath e proc dir).1 = e := by
      simp only [prependPath, hcur]; rw [if_pos hc]
    rw [hp]
    refine ⟨hdirs ▸ hm, .inl rfl, fun h => absurd (hdirs ▸ hm) h, hp⟩
  · have hp : (prependPath e proc dir).1 = setSys e PATH (dir ++ ':' :: v) := by
      simp only [prependPath, hcur]; rw [if_neg hc, if_neg hne]
    have hg : (setSys e PATH (dir ++ ':' :: v)).sys.get PATH = some (dir ++ ':' :: v) := by
      rw [setSys_sys, Map.get_insert, if_pos rfl]
    have hd2 : pathDirs (setSys e PATH (dir ++ ':' :: v)).sys = dir :: pathDirs e.sys := by
      rw [hdirs, pathDirs, hg]
      exact splitOn_append dir v hd
    rw [hp, hd2]
    refine ⟨by simp, .inr rfl, fun _ => rfl, ?_⟩
    have hcur2 : ((getVar (setSys e PATH (dir ++ ':' :: v)) PATH).or proc).getD [] = dir ++ ':' :: v := by
      rw [hget _ (by rw [(setSys_rest _ _ _).1]; exact hown), hg]; rfl
    simp only [prependPath, hcur2]
    rw [if_pos]
    rw [splitOn_append dir v hd]
    simp

example : ex0.sys.get PATH = some c!"/bin:/usr/bin" ∧ ex0.vars.get PATH = none ∧
    (prependPath ex0 none c!"/w/.venv/bin").1.paths = [c!"/w/.venv/bin", c!"/bin", c!"/usr/bin"] := by decide +kernel

/-- C97, what does not hold: if the user has assigned `PATH` with `export`, programs keep seeing that
value whatever is activated — for all states and directories. -/
theorem C97_violated :
    (∀ (e : State) (proc : Option Str) (dir v : Str), Sound e → '\x00' ∉ dir → PATH ∈ e.exported → e.vars.get PATH = some v →
      getenv (prepare (prependPath e proc dir).1) PATH = some v) ∧
    (let e := step ex0 (.exp c!"PATH=/my/bin")
     (prependPath e none c!"/w/.venv/bin").2 = true ∧
     getenv (prepare (prependPath e none c!"/w/.venv/bin").1) PATH = some c!"/my/bin") := by
  refine ⟨?_, by decide +kernel⟩
  intro e proc dir v hs hz hm hv
  have key : ∀ e' : State, Sound e' → PATH ∈ e'.exported → e'.vars.get PATH = some v → getenv (prepare e') PATH = some v := by
    intro e' hs hm hv
    rw [getenv_prepare hs (by decide)]
    simp [Given, hm, hv, show PATH ≠ TERM from by decide]
  have hcur : ((getVar e PATH).or proc).getD [] = v := by
    simp only [getVar]
    rw [show OutHist.parseOutputVar PATH c!"OUT" = none from by decide, show OutHist.parseOutputVar PATH c!"ERR" = none from by decide]
    dsimp only
    rw [if_neg (by decide), if_neg (by decide), if_neg (by decide), hv]
    rfl
  have hvz := hs.expVals _ hm _ hv
  simp only [prependPath, hcur]
  split
  · exact key e hs hm hv
  · refine key _ ?_ ?_ ?_
    · constructor
      · rw [setSys_sys]; exact insert_keys hs.sysKeys
      · rw [(setSys_rest _ _ _).2]; exact hs.expKeys
      · rw [setSys_sys]
        intro p hp
        rcases List.mem_cons.1 hp with rfl | hp
        · refine ⟨(by decide : Name PATH), ?_⟩
          dsimp only
          split
          · exact hz
          · simp [hz, hvz]
        · exact hs.sysNames p (List.mem_filter.1 hp).1
      · rw [(setSys_rest _ _ _).2]; exact hs.expNames
      · rw [(setSys_rest _ _ _).1, (setSys_rest _ _ _).2]; exact hs.expVals
    · rw [(setSys_rest _ _ _).2]; exact hm
    · rw [(setSys_rest _ _ _).1]; exact hv

/-! ### C98: `cd -` -/

/-- The working directory and the variable `OLDPWD`. -/
structure Where where
  cwd : Str
  old : Option Str

/-- The file system for `cd`: the canonical path of what exists, and the directory one ends up in
after a successful change. -/
structure Disk where
  canon : Str → Option Str
  enter : Str → Option Str
  home : Str

/-- `changepwd` (proxy/mod.rs:90-105). -/
def changepwd (d : Disk) (w : Where) (dir : Str) : Where × Bool :=
  let w := { w with old := some w.cwd }
  match d.enter dir with
  | some c => ({ w with cwd := c }, true)
  | none => (w, false)

/-- `cd` (cd.rs:17-80) with at most one argument; `~user` is not modelled. -/
def cd (d : Disk) (w : Where) : Option Str → Where × Bool
  | none => changepwd d w d.home
  | some ['-'] => match w.old with
    | some o => changepwd d w o
    | none => (w, false)
  | some ('/' :: s) => changepwd d w ('/' :: s)
  | some ('~' :: s) => changepwd d w (d.home ++ s)
  | some s => match d.canon (join w.cwd s) with
    | some c => changepwd d w c
    | none => (w, false)

/-- A sequence of `cd`s; the second component is what the user thinks of as the previous directory:
the one left by the last `cd` that succeeded. -/
def cds (d : Disk) : Where × Option Str → List (Option Str) → Where × Option Str
  | p, [] => p
  | (w, prev), a :: l => let r := cd d w a
    cds d (r.1, if r.2 then some w.cwd else prev) l

/-- The `cd`s of the sequence that fail are given a name that does not exist, relative to the working
directory. -/
def Tidy (d : Disk) : Where → List (Option Str) → Prop
  | _, [] => True
  | w, a :: l => ((cd d w a).2 = true ∨ (cd d w a).1 = w) ∧ Tidy d (cd d w a).1 l

/-- Every `cd` that fails for a missing relative name leaves everything as it was. -/
theorem cd_missing (d : Disk) (w : Where) {s : Str} (h1 : s ≠ ['-']) (h2 : s.head? ≠ some '/') (h3 : s.head? ≠ some '~')
    (h : d.canon (join w.cwd s) = none) : cd d w (some s) = (w, false) := by
  unfold cd
  split
  · simp at *
  · next hs => simp only [Option.some.injEq] at hs; exact absurd hs h1
  · next t hs => simp only [Option.some.injEq] at hs; rw [hs] at h2; simp at h2
  · next t hs => simp only [Option.some.injEq] at hs; rw [hs] at h3; simp at h3
  · next t _ _ _ hs =>
    simp only [Option.some.injEq] at hs
    subst hs
    rw [h]

theorem cd_old (d : Disk) (w : Where) (a : Option Str) (h : (cd d w a).2 = true) : (cd d w a).1.old = some w.cwd := by
  have hc : ∀ dir, (changepwd d w dir).1.old = some w.cwd := by
    intro dir
    simp only [changepwd]
    split <;> rfl
  unfold cd at h ⊢
  split at h
  · exact hc _
  · split at h
    · exact hc _
    · simp at h
  · exact hc _
  · exact hc _
  · split at h
    · exact hc _
    · simp at h

theorem cds_old (d : Disk) : ∀ (l : List (Option Str)) (w : Where), Tidy d w l → (cds d (w, w.old) l).1.old = (cds d (w, w.old) l).2 := by
  intro l
  induction l with
  | nil => intro w _; rfl
  | cons a l ih =>
    intro w h
    obtain ⟨h1, h2⟩ := h
    rw [cds]
    have : (if (cd d w a).2 = true then some w.cwd else w.old) = (cd d w a).1.old := by
      split
      · next h => exact (cd_old d w a h).symm
      · next h => rcases h1 with h1 | h1
                  · exact absurd h1 h
                  · rw [h1]
    rw [this]
    exact ih _ h2

/-- C98, what holds: after any sequence of `cd`s in which the failing ones name something that does
not exist relative to the working directory, `cd -` goes to the directory left by the last successful
one, and once more `cd -` comes back. -/
theorem C98_dash_partial (d : Disk) (w : Where) (l : List (Option Str)) (h : Tidy d w l) {prev : Str}
    (hp : (cds d (w, w.old) l).2 = some prev) (hd : d.enter prev = some prev)
    (hc : d.enter (cds d (w, w.old) l).1.cwd = some (cds d (w, w.old) l).1.cwd) :
    let w' := (cds d (w, w.old) l).1
    let r := cd d w' (some ['-'])
    r = (⟨prev, some w'.cwd⟩, true) ∧ cd d r.1 (some ['-']) = (⟨w'.cwd, some prev⟩, true) := by
  have ho := cds_old d l w h
  rw [hp] at ho
  have hr : cd d (cds d (w, w.old) l).1 (some ['-']) = (⟨prev, some (cds d (w, w.old) l).1.cwd⟩, true) := by
    simp only [cd, ho, changepwd, hd]
  refine ⟨hr, ?_⟩
  rw [hr]
  simp only [cd, changepwd, hc]

/-- A disk with a few directories. -/
def exDisk : Disk where
  canon p := if p = c!"/a" ∨ p = c!"/a/b" ∨ p = c!"/a/f" then some p else none
  enter p := if p = c!"/a" ∨ p = c!"/a/b" then some p else none
  home := c!"/a"

example : Tidy exDisk ⟨c!"/a", none⟩ [some c!"b", some c!"missing"] ∧
    (cds exDisk (⟨c!"/a", none⟩, none) [some c!"b", some c!"missing"]).2 = some c!"/a" ∧
    (cds exDisk (⟨c!"/a", none⟩, none) [some c!"b", some c!"missing"]).1.cwd = c!"/a/b" := by
  refine ⟨⟨.inl (by decide +kernel), .inr ?_, trivial⟩, by decide +kernel, by decide +kernel⟩
  rw [show (cd exDisk ⟨c!"/a", none⟩ (some c!"b")).1 = ⟨c!"/a/b", some c!"/a"⟩ from rfl]
  rw [cd_missing _ _ (by decide) (by decide) (by decide) (by decide +kernel)]

/-- C98, what does not hold: a `cd` that fails for an absolute name, for a name below the home
directory, for a plain file, or `cd -` itself when the directory is gone, makes the shell forget the
previous directory: the next `cd -` stays where it is — for all directories and disks. -/
theorem C98_violated :
    (∀ (d : Disk) (w : Where) (s : Str), d.enter ('/' :: s) = none →
      cd d w (some ('/' :: s)) = (⟨w.cwd, some w.cwd⟩, false)) ∧
    (∀ (d : Disk) (w : Where) (o : Str), w.old = some o → d.enter o = none →
      cd d w (some ['-']) = (⟨w.cwd, some w.cwd⟩, false)) ∧
    (let r := cds exDisk (⟨c!"/a", none⟩, none) [some c!"b", some c!"/typo"]
     r.2 = some c!"/a" ∧ (cd exDisk r.1 (some ['-'])).1.cwd = c!"/a/b") ∧
    (let r := cds exDisk (⟨c!"/a/b", none⟩, none) [some c!"/a", some c!"f"]
     r.2 = some c!"/a/b" ∧ (cd exDisk r.1 (some ['-'])).1.cwd = c!"/a") := by
  refine ⟨?_, ?_, by decide +kernel, by decide +kernel⟩
  · intro d w s h
    simp only [cd, changepwd, h]
  · intro d w o ho h
    simp only [cd, ho, changepwd, h]

end Dsh.Env
