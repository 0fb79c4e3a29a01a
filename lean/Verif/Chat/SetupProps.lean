import Verif.Chat.Setup
import Verif.Completion.LiveProps
import Verif.Prompt.GitProps
/-!
# C170, C171: where the conversation goes, and the skills told
-/
namespace Dsh.Setup

/-! ## Slashes -/

theorem dropWhile_head {p : Char → Bool} {s : Str} (h : ∀ c ∈ s.head?, p c = false) : s.dropWhile p = s := by
  cases s with
  | nil => rfl
  | cons c s => rw [List.dropWhile_cons, h c (by simp)]; rfl

theorem noSlashes_id {s : Str} (h : s.getLast? ≠ some '/') : noSlashes s = s := by
  unfold noSlashes
  rw [dropWhile_head, List.reverse_reverse]
  intro c hc
  rw [List.head?_reverse] at hc
  simp only [decide_eq_false_iff_not]
  rintro rfl
  exact h hc

theorem noSlashes_prefix (s : Str) : noSlashes s <+: s := by
  unfold noSlashes
  have := List.dropWhile_suffix (l := s.reverse) (fun c => decide (c = '/'))
  obtain ⟨t, ht⟩ := this
  refine ⟨t.reverse, ?_⟩
  rw [← List.reverse_append, ht, List.reverse_reverse]

theorem noSlashes_last (s : Str) : (noSlashes s).getLast? ≠ some '/' := by
  unfold noSlashes
  rw [List.getLast?_reverse]
  induction s.reverse with
  | nil => simp
  | cons c t ih =>
    rw [List.dropWhile_cons]
    split
    · exact ih
    · rename_i h; simpa using h

theorem noSlashes_more (s : Str) (n : Nat) (h : s.getLast? ≠ some '/') : noSlashes (s ++ List.replicate n '/') = s := by
  have h0 := noSlashes_id h
  unfold noSlashes at h0 ⊢
  rw [List.reverse_append, List.reverse_replicate]
  induction n with
  | zero => exact h0
  | succ n ih => rw [List.replicate_succ, List.cons_append, List.dropWhile_cons, if_pos (by simp), ih]

theorem sanitize_last (allow url : Option Str) : (sanitize allow url).getLast? ≠ some '/' := by
  have ho : openai.getLast? ≠ some '/' := by decide
  have hw : (wish url).getLast? ≠ some '/' := by
    cases url with
    | none => exact ho
    | some v =>
      rw [wish]
      split
      · exact ho
      · exact noSlashes_last _
  unfold sanitize
  split
  · exact hw
  · exact ho

/-! ## C170: the service -/

/-- Nothing in the environment allows other addresses. -/
def Forbidden (env : Str → Option Str) : Prop :=
  ∀ v, env c!"AI_CHAT_ALLOW_INSECURE_HTTP" = some v → (trim v).map Char.toLower ∉ [c!"1", c!"true", c!"yes", c!"on"]

theorem Forbidden.allows {env : Str → Option Str} (h : Forbidden env) : allows (env c!"AI_CHAT_ALLOW_INSECURE_HTTP") = false := by
  unfold Setup.allows
  split
  · rfl
  · rename_i v hv
    have := h v hv
    rw [Bool.eq_false_iff]
    intro hc
    exact this (List.contains_iff_mem.1 hc)

theorem prefix_of {a b c : Str} (h : a <+: b) (hb : b <+: c) : a.isPrefixOf c = true := by
  rw [List.isPrefixOf_iff_prefix]; exact h.trans hb

/-- **C170, the key goes out encrypted.** If the environment does not allow otherwise, every request with the key
goes to an address with `https://`, whatever is set. -/
theorem C170_https_partial (shell env : Str → Option Str) (hf : Forbidden env) (r : Str × Str) (h : request shell env = some r) :
    c!"https://" <+: r.1 := by
  unfold request at h
  obtain ⟨k, -, rfl⟩ := Option.map_eq_some_iff.1 h
  dsimp only
  have hb : c!"https://" <+: (config shell env).base := by
    unfold config
    dsimp only
    unfold sanitize
    rw [hf.allows, Bool.false_or]
    split
    · rename_i h; exact List.isPrefixOf_iff_prefix.1 h
    · decide
  have hl : (config shell env).base.getLast? ≠ some '/' := sanitize_last _ _
  unfold endpoint
  rw [noSlashes_id hl]
  split
  · exact hb
  · exact hb.trans (List.prefix_append _ _)

/-- The first that is set. -/
def first (l : List (Option Str)) : Option Str := (l.filterMap id).head?

/-- The address set: that for the shell's own use, else the usual one; a shell variable hides one of the
environment. -/
def address (shell env : Str → Option Str) : Option Str :=
  first [shell c!"AI_CHAT_BASE_URL", env c!"AI_CHAT_BASE_URL", shell c!"OPENAI_BASE_URL", env c!"OPENAI_BASE_URL"]

theorem base_eq (shell env : Str → Option Str) :
    (config shell env).base = sanitize (env c!"AI_CHAT_ALLOW_INSECURE_HTTP") (address shell env) := by
  unfold config address first lookup
  dsimp only
  congr 1
  cases shell c!"AI_CHAT_BASE_URL" <;> cases env c!"AI_CHAT_BASE_URL" <;> cases shell c!"OPENAI_BASE_URL" <;>
    cases env c!"OPENAI_BASE_URL" <;> rfl

/-- **C170, the address set is used.** An address with `https://`, with or without slashes at its end, gets the
requests. -/
theorem C170_address_partial (shell env : Str → Option Str) (u : Str) (n : Nat)
    (hu : c!"https://" <+: u) (hl : ∀ c ∈ u.getLast?, c ≠ '/' ∧ rustWhitespace c = false)
    (hb : address shell env = some (u ++ List.replicate n '/')) (k : Str) (hk : (config shell env).key = some k) :
    request shell env = some (if c!"chat/completions" <:+ u then u else u ++ c!"/chat/completions", k) := by
  unfold request
  rw [hk, Option.map_some, base_eq, hb]
  obtain ⟨t, ht⟩ := hu
  have hne : u ≠ [] := by rw [← ht]; simp
  have hlast : u.getLast? ≠ some '/' := fun h => (hl '/' h).1 rfl
  have htrim : trim (u ++ List.replicate n '/') = u ++ List.replicate n '/' := by
    apply Live.trim_ends
    · intro c hc
      rw [← ht] at hc
      simp only [List.cons_append, List.head?_cons, Option.mem_def, Option.some.injEq] at hc
      subst hc; decide
    · intro c hc
      rw [List.getLast?_append] at hc
      cases n with
      | zero => exact (hl c (by simpa using hc)).2
      | succ n =>
        have : (List.replicate (n + 1) '/').getLast? = some '/' := by rw [List.getLast?_replicate]; rfl
        rw [this] at hc
        cases hc; decide
  have hs : sanitize (env c!"AI_CHAT_ALLOW_INSECURE_HTTP") (some (u ++ List.replicate n '/')) = u := by
    have hw : wish (some (u ++ List.replicate n '/')) = u := by
      rw [wish, htrim, if_neg (by simp [hne]), noSlashes_more u n hlast]
    unfold sanitize
    rw [hw, if_pos (by rw [Bool.or_eq_true]; exact .inr (prefix_of ⟨t, ht⟩ List.prefix_rfl))]
  rw [hs]
  unfold endpoint
  rw [noSlashes_id hlast]
  by_cases h : c!"chat/completions" <:+ u
  · rw [if_pos h, if_pos (by rw [List.isSuffixOf_iff_suffix]; exact h)]
  · rw [if_neg h, if_neg (by rw [List.isSuffixOf_iff_suffix]; exact h)]

/-- **C170, the key.** It is the first that is set. -/
theorem C170_key_partial (shell env : Str → Option Str) :
    (request shell env).map (·.2) = first [shell c!"AI_CHAT_API_KEY", env c!"AI_CHAT_API_KEY", shell c!"OPENAI_API_KEY",
      env c!"OPENAI_API_KEY", shell c!"OPEN_AI_API_KEY", env c!"OPEN_AI_API_KEY"] := by
  unfold request config first lookup
  dsimp only
  cases shell c!"AI_CHAT_API_KEY" <;> cases env c!"AI_CHAT_API_KEY" <;> cases shell c!"OPENAI_API_KEY" <;>
    cases env c!"OPENAI_API_KEY" <;> cases shell c!"OPEN_AI_API_KEY" <;> cases env c!"OPEN_AI_API_KEY" <;> rfl

/-- **C170 fails: the conversation goes elsewhere.** An address without `https://` in front, a server on the
same machine for instance, is not an error: the key and all requests go to api.openai.com. -/
theorem C170_elsewhere_violated (shell env : Str → Option Str) (hf : Forbidden env) (u : Str) (hu : ¬ c!"https://" <+: trim u)
    (hb : address shell env = some u) (k : Str) (hk : (config shell env).key = some k) :
    request shell env = some (c!"https://api.openai.com/v1/chat/completions", k) := by
  unfold request
  rw [hk, Option.map_some, base_eq, hb]
  have hs : sanitize (env c!"AI_CHAT_ALLOW_INSECURE_HTTP") (some u) = openai := by
    unfold sanitize
    rw [hf.allows, Bool.false_or]
    split
    · rename_i h
      rw [List.isPrefixOf_iff_prefix] at h
      rw [wish] at h ⊢
      split at h
      · rename_i h'; rw [if_pos h']
      · exact absurd (h.trans (noSlashes_prefix _)) hu
    · rfl
  rw [hs]
  rfl

/-- **C170 fails: the permission is not heard.** Allowing plain addresses by a shell variable changes nothing. -/
theorem C170_allowed_violated (shell env : Str → Option Str) (v : Str) :
    request (fun n => if n = c!"AI_CHAT_ALLOW_INSECURE_HTTP" then some v else shell n) env = request shell env := rfl

/-- **C170 fails: an empty key hides the others.** Requests are sent with no key although one is set. -/
theorem C170_empty_violated (shell env : Str → Option Str) (h : lookup shell env c!"AI_CHAT_API_KEY" = some []) :
    (request shell env).map (·.2) = some [] := by
  unfold request config
  dsimp only
  rw [h]
  rfl

/-- **C170, the model.** It is the one set; the shell's own variable first. -/
theorem C170_model_partial (shell env : Str → Option Str) (m : Str) (hm : trim m ≠ [])
    (h : first [shell c!"AI_CHAT_MODEL", env c!"AI_CHAT_MODEL", shell c!"OPENAI_MODEL", env c!"OPENAI_MODEL"] = some m) :
    (config shell env).model = m := by
  unfold first at h
  have : (lookup shell env c!"AI_CHAT_MODEL").or (lookup shell env c!"OPENAI_MODEL") = some m := by
    rw [← h]
    unfold lookup
    cases shell c!"AI_CHAT_MODEL" <;> cases env c!"AI_CHAT_MODEL" <;> cases shell c!"OPENAI_MODEL" <;>
      cases env c!"OPENAI_MODEL" <;> rfl
  unfold config
  dsimp only
  rw [this, Option.filter_some, if_pos (by simpa using hm)]
  rfl

/-- **C170 fails: a blank model hides the other.** -/
theorem C170_blank_violated (shell env : Str → Option Str) (m : Str) (hm : trim m = [])
    (h : lookup shell env c!"AI_CHAT_MODEL" = some m) : (config shell env).model = c!"gpt-5-mini" := by
  unfold config
  dsimp only
  rw [h, Option.some_or, Option.filter_some, if_neg (by simp [hm])]
  rfl

/-! ## C171: skills -/

theorem nameLe_trans (a b c : Str × Str) (h1 : nameLe a b = true) (h2 : nameLe b c = true) : nameLe a c = true := by
  simp only [nameLe, decide_eq_true_eq] at *
  exact List.le_trans h1 h2

theorem nameLe_total (a b : Str × Str) : (nameLe a b || nameLe b a) = true := by
  simp only [nameLe, Bool.or_eq_true, decide_eq_true_eq]
  exact List.le_total a.1 b.1

/-- What a skill is: a directory with a `SKILL.md`, or a file `name.md`; with the summary of its text. -/
def IsSkill (es : List Entry) (n s : Str) : Prop :=
  (∃ t m, .folder n (some (t, m)) ∈ es ∧ s = summary t) ∨ (∃ t m, .note n t m ∈ es ∧ s = summary t)

/-- **C171, what is read.** The skills there are, in the order of their names. -/
theorem C171_list_partial (es : List Entry) :
    (∀ n s, (n, s) ∈ load (some es) ↔ IsSkill es n s) ∧ (load (some es)).Pairwise (fun a b => a.1 ≤ b.1) ∧
      (load (some es)).length = (es.filter (fun e => e.skill.isSome)).length := by
  refine ⟨?_, ?_, ?_⟩
  · intro n s
    unfold load
    rw [(sortBy_perm nameLe _).mem_iff]
    simp only [Option.getD_some, List.mem_filterMap, IsSkill]
    constructor
    · rintro ⟨e, he, hs⟩
      cases e with
      | folder n' sk =>
        cases sk with
        | none => cases hs
        | some p =>
          obtain ⟨t, m⟩ := p
          cases hs
          exact .inl ⟨t, m, he, rfl⟩
      | note n' t m => cases hs; exact .inr ⟨t, m, he, rfl⟩
      | other _ => cases hs
    · rintro (⟨t, m, he, rfl⟩ | ⟨t, m, he, rfl⟩)
      · exact ⟨_, he, rfl⟩
      · exact ⟨_, he, rfl⟩
  · have := sortBy_sorted nameLe nameLe_trans nameLe_total ((Option.getD (some es) []).filterMap Entry.skill)
    exact this.imp (fun h => by simpa [nameLe] using h)
  · unfold load
    rw [(sortBy_perm nameLe _).length_eq, List.length_filterMap_eq_countP, List.countP_eq_length_filter]
    rfl

theorem after_mem (ds : List (Option (List Entry))) (s : Bool × Nat × Nat) (f : List (Str × Str)) (h : after ds = some (s, f)) :
    ∃ d ∈ ds, signature d = s ∧ load d = f := by
  induction ds with
  | nil => cases h
  | cons d ds ih =>
    rw [after, fragment.eq_def] at h
    have new : some (signature d, load d) = some (s, f) → ∃ d' ∈ d :: ds, signature d' = s ∧ load d' = f := by
      intro h; cases h; exact ⟨d, List.mem_cons_self .., rfl, rfl⟩
    split at h
    · rename_i s' f' hm
      split at h
      · obtain ⟨d', k1, k2⟩ := ih (by rw [← h])
        exact ⟨d', List.mem_cons_of_mem _ k1, k2⟩
      · exact new h
    · exact new h

/-- **C171, the skills told are those there.** For every history of conversations: if the number of entries and
the newest time told the states of the directory apart, the service is told the skills of now. -/
theorem C171_fresh_partial (ds : List (Option (List Entry))) (d : Option (List Entry))
    (h : ∀ d' ∈ ds, signature d' = signature d → load d' = load d) : (fragment (after ds) d).1 = load d := by
  unfold fragment
  split
  · rename_i s f hm
    split
    · rename_i hs
      obtain ⟨d', k1, k2, k3⟩ := after_mem ds s f hm
      rw [← k3]
      exact h d' k1 (k2.trans hs)
    · rfl
  · rfl

/-- A file of the directory, or a `SKILL.md` in it, was changed at that time. -/
def Changed (d : Option (List Entry)) (m : Nat) : Prop :=
  ∃ es, d = some es ∧ ((∃ n t, .folder n (some (t, m)) ∈ es) ∨ (∃ n t, .note n t m ∈ es) ∨ .other m ∈ es)

theorem foldl_max (es : List Entry) (k : Nat) : k ≤ es.foldl (fun n e => max n e.time) k ∧
    (∀ e ∈ es, e.time ≤ es.foldl (fun n e => max n e.time) k) ∧
    (es.foldl (fun n e => max n e.time) k = k ∨ ∃ e ∈ es, e.time = es.foldl (fun n e => max n e.time) k) := by
  induction es generalizing k with
  | nil => exact ⟨Nat.le_refl _, by simp, .inl rfl⟩
  | cons x es ih =>
    rw [List.foldl_cons]
    obtain ⟨h1, h2, h3⟩ := ih (max k x.time)
    refine ⟨by omega, ?_, ?_⟩
    · intro e he
      rcases List.mem_cons.1 he with rfl | he
      · omega
      · exact h2 e he
    · rcases h3 with h3 | ⟨e, he, h3⟩
      · rw [h3]
        by_cases hk : x.time ≤ k
        · exact .inl (by omega)
        · exact .inr ⟨x, List.mem_cons_self .., by omega⟩
      · exact .inr ⟨e, List.mem_cons_of_mem _ he, h3⟩

/-- **C171, a skill just saved.** If a file was changed later than all that were there in earlier conversations,
the service is told the skills of now. -/
theorem C171_saved_partial (ds : List (Option (List Entry))) (d : Option (List Entry)) (m : Nat) (h0 : 0 < m) (hm : Changed d m)
    (h : ∀ d' ∈ ds, ∀ k, Changed d' k → k < m) : (fragment (after ds) d).1 = load d := by
  apply C171_fresh_partial
  intro d' hd' hs
  exfalso
  obtain ⟨es, rfl, he⟩ := hm
  have hle : m ≤ es.foldl (fun n e => max n e.time) 0 := by
    rcases he with ⟨n, t, he⟩ | ⟨n, t, he⟩ | he
    · exact (foldl_max es 0).2.1 _ he
    · exact (foldl_max es 0).2.1 _ he
    · exact (foldl_max es 0).2.1 _ he
  cases d' with
  | none => simp [signature] at hs
  | some es' =>
    simp only [signature, Prod.mk.injEq, true_and] at hs
    have hk := h _ hd'
    rcases (foldl_max es' 0).2.2 with h1 | ⟨e, he', h1⟩
    · omega
    · have hc : Changed (some es') e.time := by
        refine ⟨es', rfl, ?_⟩
        cases e with
        | folder n sk =>
          cases sk with
          | none =>
            rw [← h1] at hs
            have : (Entry.folder n none).time = 0 := rfl
            omega
          | some p => exact .inl ⟨n, p.1, he'⟩
        | note n t k => exact .inr (.inl ⟨n, t, he'⟩)
        | other k => exact .inr (.inr he')
      have := hk _ hc
      omega

/-- **C171 fails: old skills.** If the newest of the files stays, another can be replaced by one with another
name and text: the service is still told the old one, and not the new one. -/
theorem C171_stale_violated (ds : List (Option (List Entry))) (b tb a ta c tc : Str) (m ma mc : Nat) (h1 : ma ≤ m) (h2 : mc ≤ m)
    (hfresh : ∀ d' ∈ ds, signature d' ≠ (true, 2, m)) :
    (fragment (after (some [.note b tb m, .note a ta ma] :: ds)) (some [.note b tb m, .note c tc mc])).1 =
      load (some [.note b tb m, .note a ta ma]) := by
  have s1 : signature (some [.note b tb m, .note a ta ma]) = (true, 2, m) := by
    simp only [signature, List.foldl, Entry.time, List.length_cons, List.length_nil, Prod.mk.injEq, true_and]
    omega
  have s2 : signature (some [.note b tb m, .note c tc mc]) = (true, 2, m) := by
    simp only [signature, List.foldl, Entry.time, List.length_cons, List.length_nil, Prod.mk.injEq, true_and]
    omega
  have ha : after (some [.note b tb m, .note a ta ma] :: ds) = some ((true, 2, m), load (some [.note b tb m, .note a ta ma])) := by
    rw [after, fragment.eq_def]
    split
    · rename_i s f hm
      obtain ⟨d', k1, k2, -⟩ := after_mem ds s f hm
      rw [if_neg (by rw [s1, ← k2]; exact hfresh d' k1), s1]
    · rw [s1]
  rw [ha, fragment.eq_def]; dsimp only; rw [if_pos s2.symm]

/-- **C171 fails: a file that is not there.** For a skill that is a file `name.md` the service is told to read a
file that is not there, unless there is a directory of the same name too. -/
theorem C171_path_violated (es : List Entry) (n t : Str) (m : Nat) (h : .note n t m ∈ es) (hn : ∀ s, .folder n s ∉ es) :
    (n, summary t) ∈ load (some es) ∧ present (some es) (told (n, summary t)) = false := by
  refine ⟨((C171_list_partial es).1 _ _).2 (.inr ⟨t, m, h, rfl⟩), ?_⟩
  unfold present told
  rw [Bool.eq_false_iff]
  intro hc
  obtain ⟨e, he, hp⟩ := List.any_eq_true.1 hc
  cases e with
  | folder n' s =>
    cases s with
    | none => cases hp
    | some p =>
      have : n' = n := by simpa using hp
      subst this
      exact hn _ he
  | note _ _ _ => cases hp
  | other _ => cases hp

/-- For a directory the file is there. -/
theorem C171_path_partial (es : List Entry) (n : Str) (p : Str × Nat) (h : .folder n (some p) ∈ es) (s : Str) :
    present (some es) (told (n, s)) = true := by
  unfold present told
  rw [List.any_eq_true]
  exact ⟨_, h, by simp⟩

/-! ### Summaries -/

theorem lines_cons (p : Str) (hn : '\n' ∉ p) (hr : ¬ ['\r'].isSuffixOf p) (r : Str) : Record.lines (p ++ '\n' :: r) = p :: Record.lines r := by
  unfold Record.lines
  rw [Record.linesGo_part [] p hn, List.append_nil, Record.linesGo, List.reverse_reverse, Record.stripCr, if_neg hr]

theorem lines_more (ps : List Str) (h : ∀ p ∈ ps, '\n' ∉ p ∧ ¬ ['\r'].isSuffixOf p) (r : Str) :
    Record.lines (ps.flatMap (· ++ ['\n']) ++ r) = ps ++ Record.lines r := by
  induction ps with
  | nil => rfl
  | cons p ps ih =>
    have hp := h p (List.mem_cons_self ..)
    rw [List.flatMap_cons, List.append_assoc, List.append_assoc, List.singleton_append, lines_cons p hp.1 hp.2,
      ih (fun q hq => h q (List.mem_cons_of_mem _ hq))]
    rfl

theorem cut_at (ls : List Str) (h : ∀ l ∈ ls, trim l ≠ c!"---") (rest : List Str) : cut (ls ++ c!"---" :: rest) = some (ls, rest) := by
  induction ls with
  | nil => rw [List.nil_append, cut, if_pos (by decide)]
  | cons l ls ih =>
    rw [List.cons_append, cut, if_neg (h l (List.mem_cons_self ..)), ih (fun x hx => h x (List.mem_cons_of_mem _ hx))]
    rfl

theorem trimEnd_prefix (s : Str) : trimEnd s <+: s := by
  unfold trimEnd
  obtain ⟨t, ht⟩ := List.dropWhile_suffix (l := s.reverse) rustWhitespace
  exact ⟨t.reverse, by rw [← List.reverse_append, ht, List.reverse_reverse]⟩

theorem trimStart_head (s : Str) : ∀ c ∈ (trimStart s).head?, rustWhitespace c = false := by
  unfold trimStart
  induction s with
  | nil => simp
  | cons c s ih =>
    rw [List.dropWhile_cons]
    split
    · exact ih
    · rename_i h; simpa using h

theorem prefix_head {a b : Str} (h : a <+: b) : ∀ c ∈ a.head?, c ∈ b.head? := by
  obtain ⟨t, rfl⟩ := h
  cases a <;> simp

/-- A line that does not begin like that is no such field. -/
theorem field_other (key : Str) (l : Str) (h : ¬ key <+: trim l) (ls : List Str) : field key (l :: ls) = field key ls := by
  rw [field]
  split
  · rfl
  · split
    · rfl
    · rename_i f v hs
      rw [if_neg]
      intro hk
      apply h
      have hf : f <+: trim l := by
        unfold splitColon at hs
        split at hs
        · cases hs; exact List.takeWhile_prefix _
        · cases hs
      have hid : trim f = trimEnd f := by
        unfold trim
        rw [Live.trimStart_id]
        intro c hc
        exact trimStart_head l c (prefix_head (trimEnd_prefix _) c (prefix_head hf c hc))
      rw [← hk, hid]
      exact (trimEnd_prefix f).trans hf

theorem takeWhile_colon (a b : Str) (h : ':' ∉ a) : (a ++ ':' :: b).takeWhile (· ≠ ':') = a ∧ (a ++ ':' :: b).dropWhile (· ≠ ':') = ':' :: b := by
  induction a with
  | nil => simp
  | cons c a ih =>
    simp only [List.mem_cons, not_or] at h
    obtain ⟨h1, h2⟩ := ih h.2
    have hc : c ≠ ':' := fun e => h.1 e.symm
    constructor
    · rw [List.cons_append, List.takeWhile_cons, if_pos (by simp [hc]), h1]
    · rw [List.cons_append, List.dropWhile_cons, if_pos (by simp [hc]), h2]

theorem trim_blank (s : Str) : trim (' ' :: s) = trim s := rfl

theorem field_here (v : Str) (hne : v ≠ []) (hv : trim v = v) (ls : List Str) :
    field c!"description" ((c!"description: " ++ v) :: ls) = some (unquote v) := by
  have hl : ∀ c ∈ v.getLast?, rustWhitespace c = false := by
    intro c hc
    rw [← hv] at hc
    unfold trim at hc
    unfold trimEnd at hc
    rw [List.getLast?_reverse] at hc
    exact trimStart_head (trimStart v).reverse c hc
  have ht : trim (c!"description: " ++ v) = c!"description: " ++ v := by
    apply Live.trim_ends
    · intro c hc; cases hc; decide
    · intro c hc
      rw [List.getLast?_append] at hc
      cases hg : v.getLast? with
      | none => exact absurd (List.getLast?_eq_none_iff.1 hg) hne
      | some y =>
        rw [hg] at hc
        have hy := hl y hg
        cases hc
        exact hy
  rw [field, ht, if_neg (by simp)]
  have hs : splitColon (c!"description: " ++ v) = some (c!"description", ' ' :: v) := by
    have := takeWhile_colon c!"description" (' ' :: v) (by decide)
    unfold splitColon
    rw [if_pos (by simp), show c!"description: " ++ v = c!"description" ++ ':' :: ' ' :: v from rfl, this.1, this.2]
    rfl
  rw [hs]
  dsimp only
  rw [if_pos (by decide), trim_blank, hv, if_neg (by simp [hne])]

/-- A sentence: words with a blank between them. -/
def sentence (ws : List Str) : Str := joinWith [' '] ws

theorem words_sentence (ws : List Str) (h : ∀ w ∈ ws, Prm.Name w) : Prm.words (sentence ws) = ws := by
  unfold sentence
  induction ws with
  | nil => rfl
  | cons w ws ih =>
    cases ws with
    | nil => exact Prm.words_last w (h w (by simp))
    | cons v ws =>
      rw [joinWith, List.append_assoc, List.singleton_append, Prm.words_word w (h w (by simp)), ih (fun x hx => h x (List.mem_cons_of_mem _ hx))]
      simp

/-- A skill file: a header with these lines, then the text. -/
def skillFile (header : List Str) (body : Str) : Str := ([c!"---"] ++ header ++ [c!"---"]).flatMap (· ++ ['\n']) ++ body

/-- Lines of a text that are not the end of the header. -/
def Plain (l : Str) : Prop := '\n' ∉ l ∧ ¬ ['\r'].isSuffixOf l ∧ trim l ≠ c!"---"

theorem summary_header (header : List Str) (hh : ∀ l ∈ header, Plain l) (body : Str) (d : Str) (hd : field c!"description" header = some d) :
    summary (skillFile header body) = truncate (collapse d) 140 := by
  have hl : Record.lines (skillFile header body) = c!"---" :: (header ++ c!"---" :: Record.lines body) := by
    unfold skillFile
    rw [lines_more]
    · simp
    · intro p hp
      simp only [List.mem_append, List.mem_singleton] at hp
      rcases hp with (rfl | hp) | rfl
      · decide
      · exact ⟨(hh p hp).1, (hh p hp).2.1⟩
      · decide
  unfold summary
  rw [hl, splitFront, if_neg (by decide), cut_at header (fun l hl => (hh l hl).2.2)]
  dsimp only
  rw [Option.bind_some, hd]

theorem field_skip (key : Str) (pre : List Str) (h : ∀ l ∈ pre, ¬ key <+: trim l) (ls : List Str) : field key (pre ++ ls) = field key ls := by
  induction pre with
  | nil => rfl
  | cons l pre ih => rw [List.cons_append, field_other key l (h l (List.mem_cons_self ..)), ih (fun x hx => h x (List.mem_cons_of_mem _ hx))]

/-- **C171, the description.** A description on one line of the header is told, bare or in quotes; one of more
than 140 characters is cut and marked. -/
theorem C171_description_partial (pre more : List Str) (body : Str) (ws : List Str) (hw : ∀ w ∈ ws, Prm.Name w) (hne : ws ≠ [])
    (v : Str) (hv : (v = sentence ws ∧ (sentence ws).head? ≠ some '"' ∧ (sentence ws).head? ≠ some '\'') ∨
      v = ['"'] ++ sentence ws ++ ['"'] ∨ v = ['\''] ++ sentence ws ++ ['\'']) (htrim : trim v = v)
    (hp : ∀ l ∈ pre, ¬ c!"description" <+: trim l) (hh : ∀ l ∈ pre ++ (c!"description: " ++ v) :: more, Plain l) :
    summary (skillFile (pre ++ (c!"description: " ++ v) :: more) body) =
      if (sentence ws).length ≤ 140 then sentence ws else (sentence ws).take 140 ++ c!"..." := by
  have hs : sentence ws ≠ [] := by
    intro h0
    have := words_sentence ws hw
    rw [h0] at this
    exact hne this.symm
  have hvne : v ≠ [] := by
    rcases hv with ⟨rfl, -⟩ | rfl | rfl
    · exact hs
    · simp
    · simp
  have hu : unquote v = sentence ws := by
    rcases hv with ⟨rfl, h1, h2⟩ | rfl | rfl
    · unfold unquote
      rw [if_neg]
      rintro ⟨-, ⟨h, -⟩ | ⟨h, -⟩⟩
      · exact h1 h
      · exact h2 h
    · unfold unquote
      rw [if_pos ⟨by simp only [List.length_append, List.length_singleton]; omega, .inl ⟨rfl, by rw [List.getLast?_append]; rfl⟩⟩]
      simp
    · unfold unquote
      rw [if_pos ⟨by simp only [List.length_append, List.length_singleton]; omega, .inr ⟨rfl, by rw [List.getLast?_append]; rfl⟩⟩]
      simp
  rw [summary_header _ hh body (sentence ws) (by rw [field_skip _ _ hp, field_here v hvne htrim, hu])]
  unfold collapse
  rw [words_sentence ws hw]
  rfl

/-- **C171 fails: a description over several lines.** The usual ways to write one give the mark as its text,
whatever follows. -/
theorem C171_block_violated (pre more : List Str) (body : Str) (m : Char) (hm : m = '>' ∨ m = '|')
    (hp : ∀ l ∈ pre, ¬ c!"description" <+: trim l) (hpre : ∀ l ∈ pre ++ more, Plain l) :
    summary (skillFile (pre ++ (c!"description: " ++ [m]) :: more) body) = [m] := by
  have h := C171_description_partial pre more body [[m]] (by
      intro w hw
      rw [List.mem_singleton] at hw
      subst hw
      rcases hm with rfl | rfl
      · exact ⟨by simp, by decide⟩
      · exact ⟨by simp, by decide⟩) (by simp) [m] (.inl ⟨rfl, by rcases hm with rfl | rfl <;> decide⟩) (by rcases hm with rfl | rfl <;> decide) hp (by
      intro l hl
      simp only [List.mem_append, List.mem_cons] at hl
      rcases hl with hl | rfl | hl
      · exact hpre l (List.mem_append_left _ hl)
      · rcases hm with rfl | rfl
        · exact ⟨by decide, by decide, by decide⟩
        · exact ⟨by decide, by decide, by decide⟩
      · exact hpre l (List.mem_append_right _ hl))
  rw [h]
  rfl

/-- **C171, no header.** The first line of the text that is no heading is told. -/
theorem C171_text_partial (heads : List Str) (hh : ∀ l ∈ heads, '\n' ∉ l ∧ ¬ ['\r'].isSuffixOf l ∧ (trim l = [] ∨ (trim l).head? = some '#'))
    (ws : List Str) (hw : ∀ w ∈ ws, Prm.Name w) (hne : ws ≠ []) (hs : trim (sentence ws) = sentence ws) (h1 : (sentence ws).head? ≠ some '#')
    (h2 : '\n' ∉ sentence ws ∧ ¬ ['\r'].isSuffixOf (sentence ws)) (h3 : heads ≠ [] ∨ sentence ws ≠ c!"---") (rest : Str) :
    summary (heads.flatMap (· ++ ['\n']) ++ sentence ws ++ '\n' :: rest) =
      if (sentence ws).length ≤ 140 then sentence ws else (sentence ws).take 140 ++ c!"..." := by
  have hsne : sentence ws ≠ [] := by
    intro h0
    have := words_sentence ws hw
    rw [h0] at this
    exact hne this.symm
  have hl : Record.lines (heads.flatMap (· ++ ['\n']) ++ sentence ws ++ '\n' :: rest) = heads ++ sentence ws :: Record.lines rest := by
    rw [List.append_assoc, lines_more heads (fun p hp => ⟨(hh p hp).1, (hh p hp).2.1⟩), lines_cons _ h2.1 h2.2]
  have hf : splitFront (heads ++ sentence ws :: Record.lines rest) = (none, heads ++ sentence ws :: Record.lines rest) := by
    cases heads with
    | nil =>
      rw [List.nil_append, splitFront, if_pos]
      rw [hs]
      rcases h3 with h3 | h3
      · exact absurd rfl h3
      · exact h3
    | cons l heads =>
      rw [List.cons_append, splitFront, if_pos]
      rcases (hh l (List.mem_cons_self ..)).2.2 with h | h
      · rw [h]; decide
      · intro h'; rw [h'] at h; exact absurd h (by decide)
  unfold summary
  rw [hl, hf]
  dsimp only
  rw [Option.bind_none, List.map_append, List.find?_append]
  have hnone : (heads.map trim).find? (fun l => !l.isEmpty && decide (l.head? ≠ some '#')) = none := by
    rw [List.find?_eq_none]
    intro x hx
    obtain ⟨l, hl, rfl⟩ := List.mem_map.1 hx
    rcases (hh l hl).2.2 with h | h
    · simp [h]
    · simp [h]
  rw [hnone, Option.none_or, List.map_cons, hs, List.find?_cons_of_pos (by simp [hsne, h1])]
  dsimp only [Option.getD_some]
  unfold collapse
  rw [words_sentence ws hw]
  rfl

/-! ## Cases -/

def noVars : Str → Option Str := fun _ => none
def local' : Str → Option Str := fun n =>
  if n = c!"AI_CHAT_BASE_URL" then some c!"http://localhost:11434/v1" else if n = c!"OPENAI_API_KEY" then some c!"sk-1" else none

example : request local' noVars = some (c!"https://api.openai.com/v1/chat/completions", c!"sk-1") := by decide +kernel
example : request local' (fun n => if n = c!"AI_CHAT_ALLOW_INSECURE_HTTP" then some c!"On" else none) =
    some (c!"http://localhost:11434/v1/chat/completions", c!"sk-1") := by decide +kernel
example : request (fun n => if n = c!"OPENAI_BASE_URL" then some c!" https://ai.example/v1// " else local' n |>.filter (· = c!"sk-1")) noVars =
    some (c!"https://ai.example/v1/chat/completions", c!"sk-1") := by decide +kernel

example : summary c!"---\nname: a\ndescription: \"Writes  tests\"\n---\nmore" = c!"Writes tests" := by decide +kernel
example : summary c!"---\nname: a\ndescription: >\n  Writes tests\n---\nmore" = c!">" := by decide +kernel
example : summary c!"# Title\n\nWrites tests.\nMore." = c!"Writes tests." := by decide +kernel

example : (fragment (after [some [.note c!"b" c!"B" 9, .note c!"a" c!"A" 5]]) (some [.note c!"b" c!"B" 9, .note c!"c" c!"C" 3])).1 =
    [(c!"a", c!"A"), (c!"b", c!"B")] := by decide +kernel
example : load (some [.note c!"b" c!"B" 9, .note c!"c" c!"C" 3]) = [(c!"b", c!"B"), (c!"c", c!"C")] := by decide +kernel

end Dsh.Setup
