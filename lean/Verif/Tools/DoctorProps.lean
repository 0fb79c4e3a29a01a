import Verif.Tools.Doctor
/-!
# C193–C195: what is proved of `doctor`
-/
namespace Dsh.Doctor

/-! ## C193: `doctor ai` -/

/-- The key is not told: the line is the same for all keys with the same last four characters. -/
theorem C193_hidden_partial (a b t : Str) (ht : t.length = 4) : mask (some (a ++ t)) = mask (some (b ++ t)) := by
  have h : ∀ a : Str, mask (some (a ++ t)) = c!"***" ++ t := by
    intro a
    have hne : (a ++ t).isEmpty = false := by
      cases a with
      | nil => cases t with
        | nil => simp at ht
        | cons c t => rfl
      | cons c a => rfl
    unfold mask
    dsimp only
    rw [hne, List.reverse_append, List.take_left' (by rw [List.length_reverse, ht]), List.reverse_reverse]
    rfl
  rw [h, h]

/-- The variables of the environment are those of the shell: none was taken away with `unset`. -/
def Kept (shell env : Str → Option Str) : Prop := ∀ n, shell n = none → env n = none

theorem Kept.lookup {shell env : Str → Option Str} (h : Kept shell env) (n : Str) : Setup.lookup shell env n = shell n := by
  unfold Setup.lookup
  cases hs : shell n with
  | none => rw [h n hs]; rfl
  | some v => rfl

/-- `ok` is said of the key exactly if a request is sent with a key that is not blank, and what is shown is of this key. -/
theorem C193_key_partial {shell env : Str → Option Str} (h : Kept shell env) :
    ((ai shell).ok = true ↔ ∃ r, Setup.request shell env = some r ∧ trim r.2 ≠ []) ∧
    (ai shell).key = mask ((Setup.request shell env).map (·.2)) := by
  have hk : (Setup.request shell env).map (·.2) =
      ((shell c!"AI_CHAT_API_KEY").or (shell c!"OPENAI_API_KEY")).or (shell c!"OPEN_AI_API_KEY") := by
    unfold Setup.request Setup.config
    dsimp only
    simp only [h.lookup, Option.map_map, Function.comp_def, Option.map_id']
  constructor
  · unfold ai
    dsimp only
    rw [← hk]
    cases Setup.request shell env with
    | none => simp
    | some r => simp
  · unfold ai
    dsimp only
    rw [hk]

/-- The model shown is the one used, unless it is blank. -/
theorem C193_model_partial {shell env : Str → Option Str} (h : Kept shell env) (hm : trim (ai shell).model ≠ []) :
    (ai shell).model = (Setup.config shell env).model := by
  unfold ai at hm ⊢
  unfold Setup.config
  dsimp only at hm ⊢
  rw [h.lookup, h.lookup]
  cases ho : (shell c!"AI_CHAT_MODEL").or (shell c!"OPENAI_MODEL") with
  | none => rfl
  | some m =>
    rw [ho] at hm
    rw [Option.filter_some, if_pos]
    simpa using hm

/-- The address shown is the one used if it has `https://` in front, and no slash or blank at its end. -/
theorem C193_address_partial {shell env : Str → Option Str} (h : Kept shell env) (hs : c!"https://" <+: (ai shell).base)
    (hl : ∀ c ∈ (ai shell).base.getLast?, c ≠ '/' ∧ rustWhitespace c = false) :
    (ai shell).base = (Setup.config shell env).base := by
  unfold ai at hs hl ⊢
  unfold Setup.config
  dsimp only at hs hl ⊢
  rw [h.lookup, h.lookup]
  cases ho : (shell c!"AI_CHAT_BASE_URL").or (shell c!"OPENAI_BASE_URL") with
  | none =>
    unfold Setup.sanitize
    rw [if_pos (by rw [Bool.or_eq_true]; right; decide)]
    rfl
  | some u =>
    rw [ho] at hs hl
    simp only [Option.getD_some] at hs hl ⊢
    obtain ⟨t, rfl⟩ := hs
    have ht : trim (c!"https://" ++ t) = c!"https://" ++ t := by
      unfold trim trimEnd
      rw [show trimStart (c!"https://" ++ t) = c!"https://" ++ t from rfl]
      have : (c!"https://" ++ t).reverse.dropWhile rustWhitespace = (c!"https://" ++ t).reverse := by
        cases hr : (c!"https://" ++ t).reverse with
        | nil => rfl
        | cons c l =>
          rw [List.dropWhile_cons_of_neg]
          have := (hl c (by rw [List.getLast?_eq_head?_reverse, hr]; rfl)).2
          rw [this]; simp
      rw [this, List.reverse_reverse]
    have hn : Setup.noSlashes (c!"https://" ++ t) = c!"https://" ++ t := by
      unfold Setup.noSlashes
      have : (c!"https://" ++ t).reverse.dropWhile (fun c => decide (c = '/')) = (c!"https://" ++ t).reverse := by
        cases hr : (c!"https://" ++ t).reverse with
        | nil => rfl
        | cons c l =>
          rw [List.dropWhile_cons_of_neg]
          have := (hl c (by rw [List.getLast?_eq_head?_reverse, hr]; rfl)).1
          simpa using this
      rw [this, List.reverse_reverse]
    have hw : Setup.wish (some (c!"https://" ++ t)) = c!"https://" ++ t := by
      unfold Setup.wish
      dsimp only
      rw [ht, hn]
      rfl
    unfold Setup.sanitize
    rw [hw, if_pos]
    rw [Bool.or_eq_true]; right
    exact List.isPrefixOf_iff_prefix.2 ⟨t, rfl⟩

/-- Without a word all sections are shown, once each; with a name only the one named, under any of its names; other
words fail and show nothing. -/
theorem C193_sections_partial :
    sections none = some ([c!"config", c!"ai", c!"mcp", c!"project", c!"runtimes", c!"performance", c!"skills", c!"dev"], 0) ∧
    (∀ a ∈ known, ∃ s, sections (some a) = some ([s], 0) ∧
      (s = a ∨ (a, s) ∈ [(c!"runtime", c!"runtimes"), (c!"perf", c!"performance"), (c!"validate", c!"dev")])) ∧
    (∀ a, a ∉ known → a ∉ [c!"-h", c!"--help", c!"help"] → sections (some a) = some ([], 1)) := by
  refine ⟨by decide, ?_, ?_⟩
  · intro a ha
    simp only [known, List.mem_cons, List.not_mem_nil, or_false] at ha
    rcases ha with rfl | rfl | rfl | rfl | rfl | rfl | rfl | rfl | rfl | rfl | rfl
    · exact ⟨c!"config", by decide, by decide⟩
    · exact ⟨c!"ai", by decide, by decide⟩
    · exact ⟨c!"mcp", by decide, by decide⟩
    · exact ⟨c!"project", by decide, by decide⟩
    · exact ⟨c!"runtimes", by decide, by decide⟩
    · exact ⟨c!"runtimes", by decide, by decide⟩
    · exact ⟨c!"performance", by decide, by decide⟩
    · exact ⟨c!"performance", by decide, by decide⟩
    · exact ⟨c!"skills", by decide, by decide⟩
    · exact ⟨c!"dev", by decide, by decide⟩
    · exact ⟨c!"dev", by decide, by decide⟩
  · intro a h1 h2
    simp only [List.mem_cons, List.not_mem_nil, or_false, not_or] at h2
    unfold sections
    rw [if_neg (by simp only [Option.some.injEq, not_or]; exact h2), if_pos (by simp [h1])]

/-- A key of up to four characters is shown whole. -/
theorem C193_short_violated (k : Str) (h0 : k ≠ []) (h : k.length ≤ 4) : mask (some k) = c!"***" ++ k := by
  unfold mask
  dsimp only
  rw [if_neg (by rwa [List.isEmpty_iff]), List.take_of_length_le (by rwa [List.length_reverse]), List.reverse_reverse]

/-- The address shown is not the one used: one without `https://` is shown with an `ok`, and the conversation with the key
goes to another server. -/
theorem C193_address_violated (shell env : Str → Option Str) (hf : Setup.Forbidden env) (u k : Str) (hu : ¬ c!"https://" <+: trim u)
    (hb : shell c!"AI_CHAT_BASE_URL" = some u) (hk : (Setup.config shell env).key = some k) :
    (ai shell).base = u ∧ Setup.request shell env = some (c!"https://api.openai.com/v1/chat/completions", k) := by
  refine ⟨by simp [ai, hb], Setup.C170_elsewhere_violated shell env hf u hu ?_ k hk⟩
  simp [Setup.address, Setup.first, hb]

/-- A blank model is shown, another one is used. -/
theorem C193_model_violated (shell env : Str → Option Str) (m : Str) (hm : trim m = []) (h : shell c!"AI_CHAT_MODEL" = some m) :
    (ai shell).model = m ∧ (Setup.config shell env).model = c!"gpt-5-mini" := by
  refine ⟨by simp [ai, h], Setup.C170_blank_violated shell env m hm ?_⟩
  simp [Setup.lookup, h]

/-- A key taken away with `unset` is said to be missing, and conversations are sent with it all the same. -/
theorem C193_unset_violated (shell env : Str → Option Str) (k : Str)
    (h1 : shell c!"AI_CHAT_API_KEY" = none) (h2 : shell c!"OPENAI_API_KEY" = none) (h3 : shell c!"OPEN_AI_API_KEY" = none)
    (h : env c!"AI_CHAT_API_KEY" = some k) :
    (ai shell).ok = false ∧ (ai shell).key = c!"missing" ∧ ∃ a, Setup.request shell env = some (a, k) := by
  refine ⟨by simp [ai, h1, h2, h3], by simp [ai, h1, h2, h3, mask], ?_⟩
  refine ⟨Setup.endpoint (Setup.config shell env).base, ?_⟩
  have : (Setup.config shell env).key = some k := by simp [Setup.config, Setup.lookup, h1, h]
  unfold Setup.request
  rw [this]
  rfl

/-! ## C194: `doctor dev` -/

theorem rsplit_isSome {pat : Str} (hp : pat ≠ []) (u v : Str) : rsplit pat (u ++ pat ++ v) ≠ none := by
  induction u with
  | nil =>
    cases pat with
    | nil => exact absurd rfl hp
    | cons c pat =>
      show rsplit (c :: pat) (c :: (pat ++ v)) ≠ none
      rw [rsplit]
      split
      · simp
      · rw [if_pos]
        · simp
        · exact List.isPrefixOf_iff_prefix.2 ⟨v, rfl⟩
  | cons c u ih =>
    show rsplit pat (c :: (u ++ pat ++ v)) ≠ none
    rw [rsplit]
    cases h : rsplit pat (u ++ pat ++ v) with
    | none => exact absurd h ih
    | some p => simp

theorem rsplit_none {pat s : Str} (hp : pat ≠ []) (h : ¬ pat <:+: s) : rsplit pat s = none := by
  induction s with
  | nil => rfl
  | cons c s ih =>
    rw [rsplit, ih (fun hh => h (hh.trans (List.suffix_cons c s).isInfix))]
    dsimp only
    rw [if_neg]
    intro hh
    exact h (List.isPrefixOf_iff_prefix.1 hh).isInfix

/-- Split at a separator behind which it does not occur, nor across its end. -/
theorem rsplit_at {pat : Str} {c : Char} (a b : Str) (h : ¬ (c :: pat) <:+: pat ++ b) :
    rsplit (c :: pat) (a ++ (c :: pat) ++ b) = some (a, b) := by
  induction a with
  | nil =>
    show rsplit (c :: pat) (c :: (pat ++ b)) = some ([], b)
    rw [rsplit, rsplit_none (by simp) h]
    dsimp only
    rw [if_pos (show (c :: pat).isPrefixOf (c :: (pat ++ b)) = true from List.isPrefixOf_iff_prefix.2 ⟨b, rfl⟩)]
    simp
  | cons x a ih =>
    show rsplit (c :: pat) (x :: (a ++ (c :: pat) ++ b)) = some (x :: a, b)
    rw [rsplit, ih]

/-- Names of files with no character that `git` escapes. -/
structure Good (p : Str) : Prop where
  ne : p ≠ []
  ok : ∀ c ∈ p, c.utf8Size = 1 ∧ ' '.val ≤ c.val ∧ c ≠ '"' ∧ c ≠ '\\' ∧ (rustWhitespace c = true → c = ' ')
  arrow : ¬ c!" -> " <:+: p

/-- The name in quotes. -/
def inQuotes (p : Str) : Str := ['"'] ++ p ++ ['"']

/-- A name as `git status --short` prints it: in quotes if there is a blank in it. -/
def printed (p : Str) : Str := if ' ' ∈ p then inQuotes p else p

/-- An entry: two letters, the name, and the old one if the file was renamed. -/
structure Entry where
  x : Char
  y : Char
  old : Option Str
  path : Str

/-- The line of an entry. -/
def Entry.line (e : Entry) : Str :=
  [e.x, e.y, ' '] ++ (match e.old with | some o => printed o ++ c!" -> " | none => []) ++ printed e.path

structure Entry.Good (e : Entry) : Prop where
  x : e.x.utf8Size = 1 ∧ e.x ≠ '\n'
  y : e.y.utf8Size = 1 ∧ e.y ≠ '\n'
  old : ∀ o, e.old = some o → Doctor.Good o
  path : Doctor.Good e.path

theorem printed_ends {p : Str} (h : Good p) : ∃ f l m, printed p = f :: m ∧ (printed p).getLast? = some l ∧
    rustWhitespace f = false ∧ rustWhitespace l = false := by
  unfold printed inQuotes
  split
  · refine ⟨'"', '"', p ++ ['"'], rfl, ?_, by decide, by decide⟩
    rw [List.getLast?_append]; rfl
  · rename_i hb
    have hw : ∀ c ∈ p, rustWhitespace c = false := by
      intro c hc
      cases hx : rustWhitespace c with
      | false => rfl
      | true => rw [(h.ok c hc).2.2.2.2 hx] at hc; exact absurd hc hb
    cases hp : p with
    | nil => exact absurd hp h.ne
    | cons f m =>
      obtain ⟨l, hl⟩ : ∃ l, (f :: m).getLast? = some l := ⟨_, List.getLast?_eq_some_getLast (by simp)⟩
      refine ⟨f, l, m, rfl, hl, hw f (by rw [hp]; simp), hw l ?_⟩
      rw [hp]; exact List.mem_of_getLast? hl

theorem printed_noQuotes {p : Str} (h : Good p) : noQuotes (printed p) = p := by
  have hd : ∀ l : Str, (∀ c ∈ l, c ≠ '"') → l.dropWhile (fun c => decide (c = '"')) = l := by
    intro l hl
    cases l with
    | nil => rfl
    | cons c l => rw [List.dropWhile_cons_of_neg]; simpa using hl c (by simp)
  have hq : ∀ c ∈ p, c ≠ '"' := fun c hc => (h.ok c hc).2.2.1
  have hr : ∀ c ∈ p.reverse, c ≠ '"' := fun c hc => hq c (List.mem_reverse.1 hc)
  unfold noQuotes printed inQuotes
  split
  · rw [List.append_assoc, List.singleton_append, List.dropWhile_cons_of_pos (by decide)]
    have h1 : (p ++ ['"']).dropWhile (fun c => decide (c = '"')) = p ++ ['"'] := by
      cases hp : p with
      | nil => exact absurd hp h.ne
      | cons c l =>
        rw [List.cons_append, List.dropWhile_cons_of_neg]
        simpa using hq c (by rw [hp]; simp)
    rw [h1, List.reverse_append, List.reverse_singleton, List.singleton_append, List.dropWhile_cons_of_pos (by decide), hd _ hr,
      List.reverse_reverse]
  · rw [hd _ hq, hd _ hr, List.reverse_reverse]

/-- Quotes make no arrow. -/
theorem quotes_arrow {p : Str} (h : ¬ c!" -> " <:+: p) : ¬ c!" -> " <:+: inQuotes p := by
  unfold inQuotes
  rintro ⟨u, v, e⟩
  cases u with
  | nil => simp at e
  | cons c u =>
    simp only [List.cons_append, List.nil_append, List.append_assoc, List.cons.injEq] at e
    obtain ⟨-, e⟩ := e
    rcases List.eq_nil_or_concat v with rfl | ⟨v, d, rfl⟩
    · have := congrArg List.getLast? e
      simp at this
    · have e' : (u ++ c!" -> " ++ v) ++ [d] = p ++ ['"'] := by simpa using e
      exact h ⟨u, v, (List.append_inj_left' e' rfl)⟩

/-- No arrow in a printed name, nor one that begins with the blank in front of it. -/
theorem printed_arrow {p : Str} (h : Good p) : ¬ c!" -> " <:+: c!"-> " ++ printed p := by
  have key : ¬ c!" -> " <:+: printed p ∧ ∀ s, printed p ≠ c!"-> " ++ s := by
    unfold printed
    split
    · constructor
      · exact quotes_arrow h.arrow
      · intro s e; simp [inQuotes] at e
    · rename_i hb
      refine ⟨h.arrow, ?_⟩
      intro s e
      exact hb (by rw [e]; simp)
  intro hh
  obtain ⟨u, v, e⟩ := hh
  match u, e with
  | [], e => simp at e
  | [_], e => simp at e
  | [_, _], e =>
    simp only [List.cons_append, List.nil_append, List.cons.injEq] at e
    exact key.2 v (by rw [← e.2.2.2]; simp)
  | _ :: _ :: _ :: u, e =>
    simp only [List.cons_append, List.nil_append, List.cons.injEq] at e
    exact key.1 ⟨u, v, by rw [← e.2.2.2]⟩

theorem trim_between {s : Str} {f l : Char} {m : Str} (h1 : s = f :: m) (h2 : s.getLast? = some l) (hf : rustWhitespace f = false)
    (hl : rustWhitespace l = false) : trim s = s := by
  have h : trimStart s = s := by
    unfold trimStart
    rw [h1, List.dropWhile_cons_of_neg (by rw [hf]; simp)]
  unfold trim trimEnd
  rw [h]
  have : s.reverse.dropWhile rustWhitespace = s.reverse := by
    cases hr : s.reverse with
    | nil => rfl
    | cons c r =>
      have hc : s.getLast? = some c := by rw [List.getLast?_eq_head?_reverse, hr]; rfl
      rw [h2] at hc
      cases hc
      rw [List.dropWhile_cons_of_neg (by rw [hl]; simp)]
  rw [this, List.reverse_reverse]

theorem split3 {x y : Char} (hx : x.utf8Size = 1) (hy : y.utf8Size = 1) (s : Str) : Editor.splitByte (x :: y :: ' ' :: s) 3 = some ([x, y, ' '], s) := by
  have hs : (' ' : Char).utf8Size = 1 := by decide
  have h0 : Editor.splitByte s 0 = some ([], s) := by cases s <;> rfl
  simp [Editor.splitByte, hx, hy, hs, h0]

theorem fileOf_good {e : Entry} (h : e.Good) : fileOf e.line = some e.path := by
  obtain ⟨f, l, m, h1, h2, hf, hl⟩ := printed_ends h.path
  have hend : ∀ pre : Str, (pre ++ printed e.path).getLast? = some l := by
    intro pre; rw [List.getLast?_append, h2]; rfl
  unfold fileOf Entry.line
  cases ho : e.old with
  | none =>
    have e1 : [e.x, e.y, ' '] ++ [] ++ printed e.path = e.x :: e.y :: ' ' :: printed e.path := by simp
    dsimp only
    rw [e1, split3 h.x.1 h.y.1]
    dsimp only
    rw [trim_between h1 h2 hf hl, if_neg (by rw [h1]; simp), rsplit_none (by simp)
      (fun hh => printed_arrow h.path (hh.trans (List.suffix_append ..).isInfix))]
    dsimp only
    rw [printed_noQuotes h.path]
  | some o =>
    obtain ⟨f', l', m', h1', h2', hf', hl'⟩ := printed_ends (h.old o ho)
    have e1 : [e.x, e.y, ' '] ++ (printed o ++ c!" -> ") ++ printed e.path = e.x :: e.y :: ' ' :: (printed o ++ c!" -> " ++ printed e.path) := by simp
    dsimp only
    rw [e1, split3 h.x.1 h.y.1]
    dsimp only
    rw [trim_between (s := printed o ++ c!" -> " ++ printed e.path) (f := f') (m := m' ++ c!" -> " ++ printed e.path) (by rw [h1']; simp)
      (hend _) hf' hl, if_neg (by rw [h1']; simp), rsplit_at _ _ (printed_arrow h.path)]
    dsimp only
    rw [printed_noQuotes h.path]

/-- Every changed file is listed by its name, a renamed one by its new name, in the order of `git`: for names without
characters that are escaped and without ` -> `. -/
theorem C194_files_partial (l : List Entry) (h : ∀ e ∈ l, e.Good) : changed (l.flatMap (fun e => e.line ++ ['\n'])) = l.map (·.path) := by
  have hc : ∀ e ∈ l, ∀ c ∈ e.line, c ≠ '\n' := by
    intro e he c hcm
    have hp : ∀ p : Str, Good p → ∀ c ∈ printed p, c ≠ '\n' := by
      intro p hp c hc heq
      unfold printed inQuotes at hc
      have : c ∈ p ∨ c = '"' := by
        split at hc
        · simp only [List.singleton_append, List.cons_append, List.mem_cons, List.mem_append, List.not_mem_nil, or_false] at hc
          grind
        · exact .inl hc
      rcases this with h' | h'
      · have := (hp.ok c h').2.1
        rw [heq] at this
        exact absurd this (by decide)
      · rw [heq] at h'; exact absurd h' (by decide)
    have hg := h e he
    unfold Entry.line at hcm
    rcases List.mem_append.1 hcm with h1 | h1
    · rcases List.mem_append.1 h1 with h2 | h2
      · simp only [List.mem_cons, List.not_mem_nil, or_false] at h2
        rcases h2 with rfl | rfl | rfl
        · exact hg.x.2
        · exact hg.y.2
        · decide
      · cases ho : e.old with
        | none => rw [ho] at h2; simp at h2
        | some o =>
          rw [ho] at h2
          rcases List.mem_append.1 h2 with h3 | h3
          · exact hp o (hg.old o ho) c h3
          · simp only [List.mem_cons, List.not_mem_nil, or_false] at h3
            rcases h3 with rfl | rfl | rfl | rfl <;> decide
    · exact hp e.path hg.path c h1
  have hr : ∀ e ∈ l, ¬ ['\r'].isSuffixOf e.line := by
    intro e he hs
    obtain ⟨f, c, m, _, h2, _, hw⟩ := printed_ends (h e he).path
    have hl : e.line.getLast? = some c := by unfold Entry.line; rw [List.getLast?_append, h2]; rfl
    obtain ⟨t, ht⟩ := List.isSuffixOf_iff_suffix.1 hs
    rw [← ht, List.getLast?_append] at hl
    simp at hl
    rw [← hl] at hw
    revert hw; decide
  unfold changed
  have hl : Record.lines (l.flatMap (fun e => e.line ++ ['\n'])) = l.map (·.line) := by
    have := Setup.lines_more (l.map (·.line)) (by
      intro p hp
      obtain ⟨e, he, rfl⟩ := List.mem_map.1 hp
      exact ⟨fun hm => hc e he _ hm rfl, hr e he⟩) []
    rw [List.append_nil, List.flatMap_map] at this
    rw [this]
    simp [Record.lines, Record.linesGo]
  rw [hl, List.filterMap_map]
  clear hl hc hr
  induction l with
  | nil => rfl
  | cons e l ih =>
    rw [List.filterMap_cons, Function.comp_apply, fileOf_good (h e (by simp)), List.map_cons, ih (fun e he => h e (List.mem_cons_of_mem _ he))]

theorem addTo_mem {l acc : List Str} {c : Str} : c ∈ l.foldl addTo acc ↔ c ∈ acc ∨ c ∈ l := by
  induction l generalizing acc with
  | nil => simp
  | cons x l ih =>
    rw [List.foldl_cons, ih]
    unfold addTo
    split
    · rename_i hx
      have : x ∈ acc := by simpa using hx
      simp only [List.mem_cons]
      constructor
      · rintro (h | h)
        · exact .inl h
        · exact .inr (.inr h)
      · rintro (h | rfl | h)
        · exact .inl h
        · exact .inl this
        · exact .inr h
    · simp only [List.mem_append, List.mem_singleton, List.mem_cons]
      grind

/-- No command is said twice. -/
theorem C194_once_partial (paths : List Str) : (commands paths).Nodup := by
  have : ∀ (l acc : List Str), acc.Nodup → (l.foldl addTo acc).Nodup := by
    intro l
    induction l with
    | nil => intro acc h; exact h
    | cons x l ih =>
      intro acc h
      rw [List.foldl_cons]
      apply ih
      unfold addTo
      split
      · exact h
      · rename_i hx
        rw [List.nodup_append]
        refine ⟨h, by simp, ?_⟩
        intro a ha b hb hab
        simp only [List.mem_singleton] at hb
        subst hb; subst hab
        exact hx (by simpa using ha)
  exact this _ _ List.nodup_nil

/-- The packages of the workspace with their directories. -/
def crates : List (Str × Str) :=
  [(c!"dsh-builtin", c!"dsh-builtin/"), (c!"doge-shell", c!"dsh/"), (c!"dsh-openai", c!"dsh-openai/"), (c!"dsh-types", c!"dsh-types/"),
   (c!"dsh-frecency", c!"dsh-frecency/")]

/-- Two prefixes of one text, of which none is a prefix of the other. -/
theorem prefix_clash {a b p : Str} (ha : a <+: p) (hb : b <+: p) (h : a.isPrefixOf b = false ∧ b.isPrefixOf a = false) : False := by
  rcases Nat.le_total a.length b.length with hl | hl
  · have := List.prefix_of_prefix_length_le ha hb hl
    rw [List.isPrefixOf_iff_prefix.2 this] at h; exact absurd h.1 (by simp)
  · have := List.prefix_of_prefix_length_le hb ha hl
    rw [List.isPrefixOf_iff_prefix.2 this] at h; exact absurd h.2 (by simp)

theorem package_iff {p k d : Str} (h : (k, d) ∈ crates) : package p = some k ↔ d <+: p := by
  have hp : ∀ {x : Str}, x.isPrefixOf p = true ↔ x <+: p := List.isPrefixOf_iff_prefix
  simp only [crates, List.mem_cons, Prod.mk.injEq, List.not_mem_nil, or_false] at h
  unfold package
  simp only [hp]
  rcases h with ⟨rfl, rfl⟩ | ⟨rfl, rfl⟩ | ⟨rfl, rfl⟩ | ⟨rfl, rfl⟩ | ⟨rfl, rfl⟩
  all_goals
    constructor
    · intro h
      repeat' split at h
      all_goals first
        | assumption
        | (exfalso; revert h; decide)
    · intro h
      repeat' split
      all_goals first
        | rfl
        | (exfalso; exact prefix_clash h (by assumption) (by decide))
        | (exfalso; contradiction)

/-- A file without a backslash is looked at as it is named. -/
theorem slashes_id {p : Str} (h : '\\' ∉ p) : slashes p = p := by
  unfold slashes
  induction p with
  | nil => rfl
  | cons c p ih =>
    simp only [List.mem_cons, not_or] at h
    rw [List.map_cons, ih h.2, if_neg (fun e => h.1 e.symm)]

theorem slashes_paths {paths : List Str} (h : ∀ p ∈ paths, '\\' ∉ p) : paths.map slashes = paths := by
  induction paths with
  | nil => rfl
  | cons p ps ih =>
    rw [List.map_cons, slashes_id (h p (by simp)), ih (fun q hq => h q (List.mem_cons_of_mem _ hq))]

theorem commands_mem {paths : List Str} (h : ∀ p ∈ paths, '\\' ∉ p) (c : Str) : c ∈ commands paths ↔
    (c = c!"cargo fmt --check" ∧ ∃ p ∈ paths, c!".rs" <:+ p) ∨
    (∃ k d, (k, d) ∈ crates ∧ c = c!"cargo test -p " ++ k ∧ ∃ p ∈ paths, d <+: p) ∨
    (c = c!"cargo check --workspace" ∧ ((∃ p ∈ paths, p = c!"Cargo.toml" ∨ p = c!"Cargo.lock") ∨
      1 < (order.filter (fun k => paths.any (fun p => package p == some k))).length)) ∨
    (c = c!"cargo clippy -p doge-shell -- -D warnings" ∧ ∃ p ∈ paths, c!"dsh/" <+: p) ∨
    (c ∈ [c!"scripts/check-ai-guidance.sh", c!"scripts/install-runtime-skills.sh --list",
        c!"scripts/install-runtime-skills.sh --status --target codex --profile codex-core"] ∧
      ∃ p ∈ paths, p = c!"AGENTS.md" ∨ c!"docs/ai/" <+: p ∨ p = c!"scripts/install-runtime-skills.sh") := by
  have hfound : ∀ k, k ∈ order.filter (fun k => paths.any (fun p => package p == some k)) ↔
      ∃ d, (k, d) ∈ crates ∧ ∃ p ∈ paths, d <+: p := by
    intro k
    rw [List.mem_filter, List.any_eq_true]
    constructor
    · rintro ⟨hk, p, hp, hpk⟩
      have hk : ∃ d, (k, d) ∈ crates := by
        simp only [order, List.mem_cons, List.not_mem_nil, or_false] at hk
        rcases hk with rfl | rfl | rfl | rfl | rfl
        · exact ⟨c!"dsh-builtin/", by decide⟩
        · exact ⟨c!"dsh/", by decide⟩
        · exact ⟨c!"dsh-openai/", by decide⟩
        · exact ⟨c!"dsh-types/", by decide⟩
        · exact ⟨c!"dsh-frecency/", by decide⟩
      obtain ⟨d, hd⟩ := hk
      exact ⟨d, hd, p, hp, (package_iff hd).1 (by simpa using hpk)⟩
    · rintro ⟨d, hd, p, hp, hpd⟩
      refine ⟨?_, p, hp, by simpa using (package_iff hd).2 hpd⟩
      simp only [crates, List.mem_cons, Prod.mk.injEq, List.not_mem_nil, or_false] at hd
      rcases hd with ⟨rfl, -⟩ | ⟨rfl, -⟩ | ⟨rfl, -⟩ | ⟨rfl, -⟩ | ⟨rfl, -⟩ <;> decide
  have hshell : (order.filter (fun k => paths.any (fun p => package p == some k))).contains c!"doge-shell" = true ↔ ∃ p ∈ paths, c!"dsh/" <+: p := by
    rw [List.contains_iff_mem, hfound]
    constructor
    · rintro ⟨d, hd, h⟩
      have : d = c!"dsh/" := by
        simp only [crates, List.mem_cons, Prod.mk.injEq, List.not_mem_nil, or_false] at hd
        rcases hd with ⟨h, -⟩ | ⟨-, h⟩ | ⟨h, -⟩ | ⟨h, -⟩ | ⟨h, -⟩ <;> first | exact h | (exfalso; revert h; decide)
      subst this; exact h
    · intro h; exact ⟨_, by decide, h⟩
  have hrs : paths.any (fun p => c!".rs".isSuffixOf p) = true ↔ ∃ p ∈ paths, c!".rs" <:+ p := by
    rw [List.any_eq_true]; simp only [List.isSuffixOf_iff_suffix]
  have hcargo : paths.any (fun p => p = c!"Cargo.toml" || p = c!"Cargo.lock") = true ↔ ∃ p ∈ paths, p = c!"Cargo.toml" ∨ p = c!"Cargo.lock" := by
    rw [List.any_eq_true]; simp only [Bool.or_eq_true, decide_eq_true_eq]
  have hguide : paths.any guidance = true ↔ ∃ p ∈ paths, p = c!"AGENTS.md" ∨ c!"docs/ai/" <+: p ∨ p = c!"scripts/install-runtime-skills.sh" := by
    rw [List.any_eq_true]
    unfold guidance
    simp only [Bool.or_eq_true, decide_eq_true_eq, List.isPrefixOf_iff_prefix, or_assoc]
  have hif : ∀ (p : Prop) [Decidable p] (l : List Str), c ∈ (if p then l else []) ↔ c ∈ l ∧ p := by
    intro p _ l
    split
    · rename_i hp; exact ⟨fun h => ⟨h, hp⟩, fun h => h.1⟩
    · rename_i hp; exact ⟨fun h => absurd h (by simp), fun h => absurd h.2 hp⟩
  unfold commands
  dsimp only
  rw [slashes_paths h, addTo_mem]
  simp only [List.not_mem_nil, false_or, List.mem_append, hif, List.mem_map, hfound, hrs, hshell, hguide, Bool.or_eq_true, hcargo,
    decide_eq_true_eq, List.mem_singleton, or_assoc]
  constructor
  · rintro (h | ⟨k, ⟨d, hd, h⟩, rfl⟩ | h | h | h)
    · exact .inl h
    · exact .inr (.inl ⟨k, d, hd, rfl, h⟩)
    · exact .inr (.inr (.inl h))
    · exact .inr (.inr (.inr (.inl h)))
    · exact .inr (.inr (.inr (.inr h)))
  · rintro (h | ⟨k, d, hd, rfl, h⟩ | h | h | h)
    · exact .inl h
    · exact .inr (.inl ⟨k, ⟨d, hd, h⟩, rfl⟩)
    · exact .inr (.inr (.inl h))
    · exact .inr (.inr (.inr (.inl h)))
    · exact .inr (.inr (.inr (.inr h)))

/-- The tests of a package are proposed exactly if a file of it is listed. -/
theorem C194_tests_partial {paths : List Str} (h : ∀ p ∈ paths, '\\' ∉ p) {k d : Str} (hk : (k, d) ∈ crates) :
    c!"cargo test -p " ++ k ∈ commands paths ↔ ∃ p ∈ paths, d <+: p := by
  rw [commands_mem h]
  constructor
  · rintro (⟨e, -⟩ | ⟨k', d', hk', e, h⟩ | ⟨e, -⟩ | ⟨e, -⟩ | ⟨e, -⟩)
    · simp at e
    · have e : k = k' := List.append_cancel_left e
      have : d = d' := by
        subst e
        simp only [crates, List.mem_cons, Prod.mk.injEq, List.not_mem_nil, or_false] at hk hk'
        rcases hk with ⟨rfl, rfl⟩ | ⟨rfl, rfl⟩ | ⟨rfl, rfl⟩ | ⟨rfl, rfl⟩ | ⟨rfl, rfl⟩ <;>
          rcases hk' with ⟨hh, rfl⟩ | ⟨hh, rfl⟩ | ⟨hh, rfl⟩ | ⟨hh, rfl⟩ | ⟨hh, rfl⟩ <;> first | rfl | (exfalso; exact absurd hh (by decide))
      rw [this]; exact h
    · simp at e
    · simp at e
    · simp at e
  · intro h; exact .inr (.inl ⟨k, d, hk, rfl, h⟩)

/-- The format is checked exactly if a listed name ends in `.rs`; clippy is run exactly if a file of the shell is listed. -/
theorem C194_checks_partial {paths : List Str} (h : ∀ p ∈ paths, '\\' ∉ p) :
    (c!"cargo fmt --check" ∈ commands paths ↔ ∃ p ∈ paths, c!".rs" <:+ p) ∧
    (c!"cargo clippy -p doge-shell -- -D warnings" ∈ commands paths ↔ ∃ p ∈ paths, c!"dsh/" <+: p) := by
  constructor
  · rw [commands_mem h]
    constructor
    · rintro (⟨-, h⟩ | ⟨k', d', hk', e, h⟩ | ⟨e, -⟩ | ⟨e, -⟩ | ⟨e, -⟩)
      · exact h
      · simp at e
      · simp at e
      · simp at e
      · simp at e
    · intro h; exact .inl ⟨rfl, h⟩
  · rw [commands_mem h]
    constructor
    · rintro (⟨e, -⟩ | ⟨k', d', hk', e, h⟩ | ⟨e, -⟩ | ⟨-, h⟩ | ⟨e, -⟩)
      · simp at e
      · simp at e
      · simp at e
      · exact h
      · simp at e
    · intro h; exact .inr (.inr (.inr (.inl ⟨rfl, h⟩)))

/-- A renamed file is missing where it was: what it was called changes nothing, so the package it was taken out of is not
tested. -/
theorem C194_renamed_violated (e : Entry) (h : e.Good) (o : Str) (ho : Good o) : fileOf e.line = fileOf { e with old := some o }.line := by
  rw [fileOf_good h, fileOf_good (e := { e with old := some o }) ⟨h.x, h.y, fun o' h' => by cases h'; exact ho, h.path⟩]

/-- A new directory is listed by its name alone: the format of the files in it is not checked. -/
theorem C194_directory_violated (d : Str) (hd : '\\' ∉ d) : c!"cargo fmt --check" ∉ commands [d ++ ['/']] := by
  have h : ∀ p ∈ [d ++ ['/']], '\\' ∉ p := by
    intro p hp
    simp only [List.mem_singleton] at hp
    rw [hp]; simp [hd]
  rw [(C194_checks_partial h).1]
  rintro ⟨p, hp, t, ht⟩
  simp only [List.mem_singleton] at hp
  rw [hp] at ht
  have := congrArg List.getLast? ht
  simp at this

theorem inQuotes_trim (s : Str) : trim (inQuotes s) = inQuotes s :=
  trim_between (f := '"') (l := '"') (m := s ++ ['"']) rfl (by unfold inQuotes; rw [List.getLast?_append]; rfl) (by decide) (by decide)

/-- A name with ` -> ` in it: only what is behind the last one is listed. -/
theorem C194_arrow_violated (a p : Str) (hp : Good p) (hb : ' ' ∉ p) (x y : Char) (hx : x.utf8Size = 1) (hy : y.utf8Size = 1) :
    fileOf ([x, y, ' '] ++ inQuotes (a ++ c!" -> " ++ p)) = some p := by
  have hb' : ' ' ∉ p ++ ['"'] := by simp [hb]
  have ha : ¬ c!" -> " <:+: c!"-> " ++ (p ++ ['"']) := by
    rintro ⟨u, v, e⟩
    match u, e with
    | [], e => simp at e
    | [_], e => simp at e
    | [_, _], e =>
      simp only [List.cons_append, List.nil_append, List.cons.injEq] at e
      exact hb' (by rw [← e.2.2.2]; simp)
    | _ :: _ :: _ :: u, e =>
      simp only [List.cons_append, List.nil_append, List.cons.injEq] at e
      exact hb' (by rw [← e.2.2.2]; simp)
  have hd : ∀ l : Str, (∀ c ∈ l, c ≠ '"') → l.dropWhile (fun c => decide (c = '"')) = l := by
    intro l hl
    cases l with
    | nil => rfl
    | cons c l => rw [List.dropWhile_cons_of_neg]; simpa using hl c (by simp)
  have hq : ∀ c ∈ p.reverse, c ≠ '"' := fun c hc => (hp.ok c (List.mem_reverse.1 hc)).2.2.1
  have hn : noQuotes (p ++ ['"']) = p := by
    unfold noQuotes
    have h1 : (p ++ ['"']).dropWhile (fun c => decide (c = '"')) = p ++ ['"'] := by
      cases hpp : p with
      | nil => exact absurd hpp hp.ne
      | cons c l =>
        rw [List.cons_append, List.dropWhile_cons_of_neg]
        simpa using (hp.ok c (by rw [hpp]; simp)).2.2.1
    rw [h1, List.reverse_append, List.reverse_singleton, List.singleton_append, List.dropWhile_cons_of_pos (by decide), hd _ hq,
      List.reverse_reverse]
  unfold fileOf
  rw [show [x, y, ' '] ++ inQuotes (a ++ c!" -> " ++ p) = x :: y :: ' ' :: inQuotes (a ++ c!" -> " ++ p) from rfl, split3 hx hy]
  dsimp only
  rw [inQuotes_trim, if_neg (by simp [inQuotes]),
    show inQuotes (a ++ c!" -> " ++ p) = ('"' :: a) ++ c!" -> " ++ (p ++ ['"']) by simp [inQuotes], rsplit_at _ _ ha]
  dsimp only
  rw [hn]

theorem mem_dropWhile {q : Char → Bool} {c : Char} {l : Str} (h : c ∈ l) (hq : q c = false) : c ∈ l.dropWhile q := by
  induction l with
  | nil => cases h
  | cons d l ih =>
    rw [List.dropWhile_cons]
    split
    · rename_i hd
      rcases List.mem_cons.1 h with rfl | h
      · rw [hq] at hd; cases hd
      · exact ih h
    · exact h

/-- A name with a character that `git` escapes is listed with the escape, not by its name. -/
theorem C194_escaped_violated (s : Str) (hs : '\\' ∈ s) (ha : ¬ c!" -> " <:+: s) (x y : Char) (hx : x.utf8Size = 1) (hy : y.utf8Size = 1)
    (p : Str) (hp : '\\' ∉ p) : fileOf ([x, y, ' '] ++ inQuotes s) ≠ some p := by
  unfold fileOf
  rw [show [x, y, ' '] ++ inQuotes s = x :: y :: ' ' :: inQuotes s from rfl, split3 hx hy]
  dsimp only
  rw [inQuotes_trim, if_neg (by simp [inQuotes]), rsplit_none (by simp) (quotes_arrow ha)]
  intro h
  have h : noQuotes (inQuotes s) = p := Option.some.inj h
  refine hp (h ▸ ?_)
  unfold noQuotes
  rw [List.mem_reverse]
  refine mem_dropWhile ?_ (by decide)
  rw [List.mem_reverse]
  refine mem_dropWhile ?_ (by decide)
  simp [inQuotes, hs]

/-! ## C195: `doctor skills` and `doctor runtime` -/

/-- A skill is said to be missing exactly if the repository has it and there is no directory where it belongs. -/
theorem C195_missing_partial (s d : Place) : skill s d = .missing ↔ s ≠ none ∧ d = none := by
  unfold skill
  cases s with
  | none => simp
  | some s =>
    cases d with
    | none => simp
    | some d => simp; split <;> simp

/-- A skill is said to be `ok` exactly if it is installed with the same files, all of them readable. -/
theorem C195_skill_partial (s d : Place) : skill s d = .ok ↔ ∃ l, s = some (some l) ∧ d = some (some l) ∧ ∀ f ∈ l, f.2 ≠ none := by
  have hm : ∀ a b : Dir, (a.map (·.1) = b.map (·.1) ∧ (a.zip b).all (fun p => p.1.2.isSome && p.2.2.isSome && p.1.2 == p.2.2) = true) ↔
      a = b ∧ ∀ f ∈ a, f.2 ≠ none := by
    intro a
    induction a with
    | nil => intro b; cases b <;> simp
    | cons x a ih =>
      intro b
      cases b with
      | nil => simp
      | cons y b =>
        have := ih b
        simp only [List.map_cons, List.cons.injEq, List.zip_cons_cons, List.all_cons, Bool.and_eq_true, List.mem_cons, forall_eq_or_imp]
        obtain ⟨x1, x2⟩ := x
        obtain ⟨y1, y2⟩ := y
        simp only [Prod.mk.injEq, beq_iff_eq, Option.isSome_iff_ne_none]
        grind
  unfold skill
  cases s with
  | none => simp
  | some s =>
    cases d with
    | none => simp
    | some d =>
      dsimp only
      cases s with
      | none => simp [dirsMatch]
      | some a =>
        cases d with
        | none => simp [dirsMatch]
        | some b =>
          have := hm a b
          simp only [dirsMatch, Bool.and_eq_true, decide_eq_true_eq]
          rw [if_congr this rfl rfl]
          simp only [Option.some.injEq]
          constructor
          · intro h
            split at h
            · rename_i hh; exact ⟨a, rfl, hh.1.symm, hh.2⟩
            · cases h
          · rintro ⟨l, rfl, rfl, h⟩
            rw [if_pos ⟨rfl, h⟩]

/-- The last line says `ok` exactly if all skills are, where all of them are there to compare with. -/
theorem C195_summary_partial (l : List (Place × Place)) (h : ∀ p ∈ l, p.1 ≠ none) :
    (profile l).2 = true ↔ ∀ p ∈ l, skill p.1 p.2 = .ok := by
  unfold profile
  simp only [Bool.and_eq_true, Bool.not_eq_true', List.contains_eq_mem, decide_eq_false_iff_not, List.mem_map, not_exists, not_and]
  constructor
  · rintro ⟨h1, h2⟩ p hp
    cases hs : skill p.1 p.2 with
    | ok => rfl
    | stale => exact absurd hs (h1 p hp)
    | missing => exact absurd hs (h2 p hp)
    | sourceMissing =>
      exfalso
      unfold skill at hs
      cases hp1 : p.1 with
      | none => exact h p hp hp1
      | some s =>
        rw [hp1] at hs
        dsimp only at hs
        split at hs
        · cases hs
        · split at hs <;> cases hs
  · intro hh
    constructor <;> intro p hp hs <;> rw [hh p hp] at hs <;> cases hs

/-- Skills that cannot be compared are left out of the last line: it says `ok` if none of them was compared at all. -/
theorem C195_summary_violated (l : List (Place × Place)) (h : ∀ p ∈ l, p.1 = none) : (profile l).2 = true ∧ ∀ s ∈ (profile l).1, s ≠ .ok := by
  have hs : ∀ p ∈ l, skill p.1 p.2 = .sourceMissing := by
    intro p hp; unfold skill; rw [h p hp]
  constructor
  · unfold profile
    simp only [Bool.and_eq_true, Bool.not_eq_true', List.contains_eq_mem, decide_eq_false_iff_not, List.mem_map, not_exists, not_and]
    constructor <;> intro p hp hh <;> rw [hs p hp] at hh <;> cases hh
  · intro s hs'
    obtain ⟨p, hp, rfl⟩ := List.mem_map.1 hs'
    rw [hs p hp]; decide

/-- A tool is found in the first directory of the `PATH` of the process that has it. -/
theorem C195_tool_partial (dirs : List Str) (exec : Str → Bool) (cmd p : Str) : resolve (some dirs) exec cmd = some p ↔
    ∃ a d b, dirs = a ++ d :: b ∧ p = Env.join d cmd ∧ exec p = true ∧ ∀ d' ∈ a, exec (Env.join d' cmd) = false := by
  unfold resolve
  dsimp only
  induction dirs with
  | nil => simp
  | cons d dirs ih =>
    rw [List.map_cons, List.find?_cons]
    cases he : exec (Env.join d cmd) with
    | true =>
      constructor
      · intro h
        have h : Env.join d cmd = p := Option.some.inj h
        exact ⟨[], d, dirs, rfl, h.symm, h ▸ he, by simp⟩
      · rintro ⟨a, d', b, e, rfl, hx, ha⟩
        cases a with
        | nil => cases e; rfl
        | cons a0 a =>
          cases e
          have := ha d (by simp)
          rw [he] at this; cases this
    | false =>
      dsimp only
      rw [ih]
      constructor
      · rintro ⟨a, d', b, rfl, rfl, hx, ha⟩
        refine ⟨d :: a, d', b, rfl, rfl, hx, ?_⟩
        intro x hx'
        rcases List.mem_cons.1 hx' with rfl | h
        · exact he
        · exact ha x h
      · rintro ⟨a, d', b, e, rfl, hx, ha⟩
        cases a with
        | nil => cases e; rw [he] at hx; cases hx
        | cons a0 a => cases e; exact ⟨a, d', b, rfl, rfl, hx, fun x h => ha x (List.mem_cons_of_mem _ h)⟩

/-- The `PATH` of the shell is not looked at: a tool in a directory added to it is run by the shell, and `doctor` says that it
is not there. -/
theorem C195_tool_violated (dirs : List Str) (exec : Str → Bool) (fs : Env.Fs) (cmd d : Str) (paths : List Str)
    (h : ∀ d' ∈ dirs, exec (Env.join d' cmd) = false) (hf : fs.isFile (Env.join d cmd) = true) :
    resolve (some dirs) exec cmd = none ∧ Env.uncached (d :: paths) fs cmd = some (Env.join d cmd) := by
  constructor
  · unfold resolve
    dsimp only
    rw [List.find?_eq_none]
    intro x hx
    obtain ⟨d', hd, rfl⟩ := List.mem_map.1 hx
    rw [h d' hd]; simp
  · unfold Env.uncached; rw [if_pos hf]

/-! ### Cases -/

/-- Variables of the cases. -/
def vars (n : Str) : Option Str :=
  if n = c!"AI_CHAT_API_KEY" then some c!"sk-0123456789" else if n = c!"AI_CHAT_BASE_URL" then some c!"http://localhost:8080/v1" else none

example : ai vars = ⟨true, c!"***6789", c!"gpt-5-mini", c!"http://localhost:8080/v1"⟩ ∧ mask (some c!"abc") = c!"***abc" := by decide

example : Kept vars vars ∧ (Setup.config vars vars).base = c!"https://api.openai.com/v1" := ⟨fun _ h => h, by decide⟩

example : changed c!" M dsh/src/main.rs\n?? \"my file.txt\"\nR  a.rs -> dsh-types/src/b.rs\n?? \"caf\\303\\251\"\n" =
    [c!"dsh/src/main.rs", c!"my file.txt", c!"dsh-types/src/b.rs", c!"caf\\303\\251"] := by decide +kernel

example : commands [c!"dsh/src/main.rs", c!"dsh-types/src/b.rs", c!"docs/x.md"] =
    [c!"cargo fmt --check", c!"cargo test -p doge-shell", c!"cargo test -p dsh-types", c!"cargo check --workspace",
     c!"cargo clippy -p doge-shell -- -D warnings"] ∧ commands [c!"dsh-builtin/src/new/"] = [c!"cargo test -p dsh-builtin"] := by decide +kernel

example : fileOf c!"?? \"a -> b\"" = some c!"b" := by decide

example : profile [(some (some [(c!"SKILL.md", some c!"x")]), some (some [(c!"SKILL.md", some c!"x")])),
    (some (some [(c!"SKILL.md", some c!"x")]), some (some [(c!"SKILL.md", some c!"y")])), (none, none)] = ([.ok, .stale, .sourceMissing], false) ∧
    profile [(none, none)] = ([.sourceMissing], true) := by decide

example : resolve (some [c!"/bin", c!"/usr/bin"]) (fun p => p = c!"/usr/bin/go") c!"go" = some c!"/usr/bin/go" := by decide

theorem good_of {p : Str} (h : p ≠ [] ∧ (∀ c ∈ p, c.utf8Size = 1 ∧ ' '.val ≤ c.val ∧ c ≠ '"' ∧ c ≠ '\\' ∧ (rustWhitespace c = true → c = ' ')) ∧
    rsplit c!" -> " p = none) : Good p :=
  ⟨h.1, h.2.1, fun ⟨u, v, e⟩ => rsplit_isSome (by simp) u v (e ▸ h.2.2)⟩

example : Entry.Good ⟨'R', ' ', some c!"a b.rs", c!"dsh-types/src/b.rs"⟩ :=
  ⟨by decide, by decide, fun o h => by cases h; exact good_of (by decide), good_of (by decide)⟩

end Dsh.Doctor
