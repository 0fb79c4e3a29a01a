import Verif.Env.Model
/-!
What programs and the user see of variables: C34, C90, C91.
-/
namespace Dsh.Env

/-! ### Specification -/

/-- `getenv(3)`: a program finds the value of a name in the first text that starts with the name
and a `=`. -/
def getenv : List Str → Str → Option Str
  | [], _ => none
  | s :: l, n => if (n ++ ['=']).isPrefixOf s then some (s.drop (n.length + 1)) else getenv l n

/-- A text that can be the name of an environment variable. -/
def Name (n : Str) : Prop := '=' ∉ n ∧ '\x00' ∉ n

instance (n : Str) : Decidable (Name n) := by unfold Name; infer_instance

/-- What C34 asks for: an exported variable with a value hides the system variable of that name;
the kind of terminal is never missing and never empty. -/
def Wanted (e : State) (n : Str) : Option Str :=
  let own := if n ∈ e.exported then e.vars.get n else none
  let v := own.or (e.sys.get n)
  if n = TERM then
    match v with
    | some (c :: t) => some (c :: t)
    | _ => some defaultTerm
  else v

/-- A state all of whose names and values can be handed to programs. -/
structure Sound (e : State) : Prop where
  sysKeys : (e.sys.map (·.1)).Nodup
  expKeys : e.exported.Nodup
  sysNames : ∀ p ∈ e.sys, Name p.1 ∧ '\x00' ∉ p.2
  expNames : ∀ k ∈ e.exported, Name k
  expVals : ∀ k ∈ e.exported, ∀ v, e.vars.get k = some v → '\x00' ∉ v

/-! ### Maps -/

theorem Map.get_mem {m : Map} {k v : Str} (h : m.get k = some v) : (k, v) ∈ m := by
  induction m with
  | nil => simp [Map.get] at h
  | cons p m ih =>
    obtain ⟨a, b⟩ := p
    simp only [Map.get] at h
    split at h
    · next hk => subst hk; simp only [Option.some.injEq] at h; subst h; simp
    · exact List.mem_cons_of_mem _ (ih h)

theorem Map.get_of_mem {m : Map} (hn : (m.map (·.1)).Nodup) {k v : Str} (h : (k, v) ∈ m) : m.get k = some v := by
  induction m with
  | nil => simp at h
  | cons p m ih =>
    obtain ⟨a, b⟩ := p
    simp only [List.map_cons, List.nodup_cons] at hn
    simp only [Map.get]
    rcases List.mem_cons.1 h with h | h
    · simp only [Prod.mk.injEq] at h
      rw [if_pos h.1.symm, h.2]
    · have : a ≠ k := by
        rintro rfl
        exact hn.1 (List.mem_map.2 ⟨_, h, rfl⟩)
      rw [if_neg this, ih hn.2 h]

theorem Map.get_none {m : Map} {k : Str} : m.get k = none ↔ ∀ p ∈ m, p.1 ≠ k := by
  induction m with
  | nil => simp [Map.get]
  | cons p m ih =>
    obtain ⟨a, b⟩ := p
    simp only [Map.get, List.forall_mem_cons]
    by_cases h : a = k
    · simp [h]
    · simp [h, ih]

theorem Map.get_erase (m : Map) (a k : Str) : (m.erase a).get k = if k = a then none else m.get k := by
  induction m with
  | nil => simp [Map.erase, Map.get]
  | cons p m ih =>
    obtain ⟨x, y⟩ := p
    simp only [Map.erase] at ih
    simp only [Map.erase, List.filter_cons]
    by_cases h : x = a
    · subst h
      simp only [beq_self_eq_true, Bool.not_true, if_neg Bool.false_ne_true, ih, Map.get]
      by_cases hk : k = x
      · simp [hk]
      · rw [if_neg hk, if_neg hk, if_neg (fun h => hk h.symm)]
    · have hb : (x == a) = false := by simpa using h
      simp only [hb, Bool.not_false, if_true, Map.get, ih]
      by_cases hk : x = k
      · subst hk
        simp [h]
      · simp [hk]

theorem Map.get_insert (m : Map) (a v k : Str) : (m.insert a v).get k = if k = a then some v else m.get k := by
  simp only [Map.insert, Map.get, Map.get_erase]
  by_cases h : k = a
  · simp [h]
  · rw [if_neg (fun x => h x.symm), if_neg h, if_neg h]

theorem mem_insertSet {s : List Str} {a k : Str} : k ∈ insertSet s a ↔ k = a ∨ k ∈ s := by
  simp only [insertSet]
  split
  · next h => constructor
              · exact .inr
              · rintro (rfl | h'); exacts [h, h']
  · simp

/-! ### Looking up a name among the texts -/

theorem isPrefix_entry {n k v : Str} (hn : Name n) (hk : Name k) :
    (n ++ ['=']).isPrefixOf (entry k v) = true ↔ n = k := by
  rw [List.isPrefixOf_iff_prefix]
  constructor
  · rintro ⟨t, ht⟩
    simp only [entry, List.append_assoc, List.cons_append, List.nil_append] at ht
    rcases List.append_eq_append_iff.1 ht with ⟨a, h1, h2⟩ | ⟨a, h1, h2⟩
    · cases a with
      | nil => simpa using h1.symm
      | cons c a =>
        simp only [List.cons_append, List.cons.injEq] at h2
        exfalso
        refine hk.1 ?_
        rw [h1]
        simp only [List.mem_append, List.mem_cons]
        exact .inr (.inl h2.1)
    · cases a with
      | nil => simpa using h1
      | cons c a =>
        simp only [List.cons_append, List.cons.injEq] at h2
        exfalso
        refine hn.1 ?_
        rw [h1]
        simp only [List.mem_append, List.mem_cons]
        exact .inr (.inl h2.1)
  · rintro rfl
    exact ⟨v, by simp [entry]⟩

theorem getenv_entry {n k v : Str} (l : List Str) (hn : Name n) (hk : Name k) :
    getenv (entry k v :: l) n = if n = k then some v else getenv l n := by
  rw [getenv]
  by_cases h : n = k
  · rw [if_pos ((isPrefix_entry hn hk).2 h), if_pos h]
    subst h
    rw [entry, ← List.singleton_append, ← List.append_assoc, List.drop_left' (by simp)]
  · rw [if_neg (fun x => h ((isPrefix_entry hn hk).1 x)), if_neg h]

theorem getenv_append (a b : List Str) (n : Str) : getenv (a ++ b) n = (getenv a n).or (getenv b n) := by
  induction a with
  | nil => simp [getenv]
  | cons s a ih =>
    simp only [List.cons_append, getenv]
    split
    · simp
    · exact ih

theorem getenv_none {l : List Str} {n : Str} (hn : Name n) (h : ∀ s ∈ l, ∃ k v, Name k ∧ k ≠ n ∧ s = entry k v) :
    getenv l n = none := by
  induction l with
  | nil => rfl
  | cons s l ih =>
    obtain ⟨k, v, hk, hkn, rfl⟩ := h s (by simp)
    rw [getenv_entry _ hn hk, if_neg (fun x => hkn x.symm)]
    exact ih fun s hs => h s (by simp [hs])

theorem getenv_some {l : List Str} {n v : Str} (hn : Name n)
    (h : ∀ s ∈ l, ∃ k w, Name k ∧ s = entry k w ∧ (k = n → w = v)) (hm : entry n v ∈ l) :
    getenv l n = some v := by
  induction l with
  | nil => simp at hm
  | cons s l ih =>
    obtain ⟨k, w, hk, hs, hw⟩ := h s (by simp)
    subst hs
    rw [getenv_entry _ hn hk]
    by_cases hkn : n = k
    · rw [if_pos hkn, hw hkn.symm]
    · rw [if_neg hkn]
      refine ih (fun s hs => h s (by simp [hs])) ?_
      rcases List.mem_cons.1 hm with hm | hm
      · exfalso
        have h1 : (n ++ ['=']).isPrefixOf (entry k w) = true := by
          rw [← hm]; exact (isPrefix_entry hn hn).2 rfl
        exact hkn ((isPrefix_entry hn hk).1 h1)
      · exact hm

theorem cstring_entry {k v s : Str} (h : cstring (entry k v) = some s) : s = entry k v := by
  simp only [cstring] at h
  split at h
  · simp at h
  · simpa using h.symm

theorem cstring_ok {k v : Str} (hk : Name k) (hv : '\x00' ∉ v) : cstring (entry k v) = some (entry k v) := by
  rw [cstring, if_neg]
  simp only [entry, List.mem_append, List.mem_cons, not_or]
  exact ⟨hk.2, by decide, hv⟩

/-! ### The entries -/

theorem mem_sysEntries {e : State} (h : Sound e) {s : Str} :
    s ∈ sysEntries e ↔ ∃ k v, e.sys.get k = some v ∧ k ∉ e.exported ∧ ¬ (k = TERM ∧ v = []) ∧ s = entry k v := by
  simp only [sysEntries, List.mem_filterMap]
  constructor
  · rintro ⟨⟨k, v⟩, hp, hs⟩
    by_cases h1 : k ∈ e.exported
    · simp [h1] at hs
    · rw [if_neg h1] at hs
      by_cases h2 : k = TERM ∧ v = []
      · rw [if_pos h2] at hs; simp at hs
      · rw [if_neg h2] at hs
        exact ⟨k, v, Map.get_of_mem h.sysKeys hp, h1, h2, cstring_entry hs⟩
  · rintro ⟨k, v, hg, h1, h2, rfl⟩
    have hp := Map.get_mem hg
    refine ⟨(k, v), hp, ?_⟩
    have := h.sysNames _ hp
    rw [if_neg h1, if_neg h2, cstring_ok this.1 this.2]

theorem mem_expEntries {e : State} (h : Sound e) {s : Str} :
    s ∈ expEntries e ↔ ∃ k v, k ∈ e.exported ∧ e.vars.get k = some v ∧ ¬ (k = TERM ∧ v = []) ∧ s = entry k v := by
  simp only [expEntries, List.mem_filterMap]
  constructor
  · rintro ⟨k, hk, hs⟩
    cases hv : e.vars.get k with
    | none => simp [hv] at hs
    | some v =>
      rw [hv] at hs
      dsimp only at hs
      by_cases h2 : k = TERM ∧ v = []
      · rw [if_pos h2] at hs; simp at hs
      · rw [if_neg h2] at hs
        exact ⟨k, v, hk, hv, h2, cstring_entry hs⟩
  · rintro ⟨k, v, hk, hv, h2, rfl⟩
    refine ⟨k, hk, ?_⟩
    rw [hv]
    dsimp only
    rw [if_neg h2, cstring_ok (h.expNames k hk) (h.expVals k hk v hv)]

theorem name_TERM : Name TERM := by decide

/-- What a program is given, as a relation. -/
def Given (e : State) (k v : Str) : Prop :=
  (k ∉ e.exported ∧ e.sys.get k = some v ∧ ¬ (k = TERM ∧ v = [])) ∨
  (k ∈ e.exported ∧ e.vars.get k = some v ∧ ¬ (k = TERM ∧ v = [])) ∨
  (k = TERM ∧ v = defaultTerm ∧ termSet e = false)

theorem mem_prepare {e : State} (h : Sound e) {s : Str} :
    s ∈ prepare e ↔ ∃ k v, Name k ∧ Given e k v ∧ s = entry k v := by
  simp only [prepare, List.mem_append, mem_sysEntries h, mem_expEntries h]
  constructor
  · rintro ((⟨k, v, h1, h2, h3, rfl⟩ | ⟨k, v, h1, h2, h3, rfl⟩) | hs)
    · exact ⟨k, v, (h.sysNames _ (Map.get_mem h1)).1, .inl ⟨h2, h1, h3⟩, rfl⟩
    · exact ⟨k, v, h.expNames k h1, .inr (.inl ⟨h1, h2, h3⟩), rfl⟩
    · cases ht : termSet e with
      | true => simp [ht] at hs
      | false =>
        simp only [ht, Bool.false_eq_true, if_false, List.mem_singleton] at hs
        exact ⟨TERM, defaultTerm, name_TERM, .inr (.inr ⟨rfl, rfl, ht⟩), hs⟩
  · rintro ⟨k, v, _, (⟨h1, h2, h3⟩ | ⟨h1, h2, h3⟩ | ⟨rfl, rfl, ht⟩), rfl⟩
    · exact .inl (.inl ⟨k, v, h2, h1, h3, rfl⟩)
    · exact .inl (.inr ⟨k, v, h1, h2, h3, rfl⟩)
    · exact .inr (by simp [ht])

theorem given_unique {e : State} {k v w : Str} (h1 : Given e k v) (h2 : Given e k w) : v = w := by
  rcases h1 with ⟨a1, a2, a3⟩ | ⟨a1, a2, a3⟩ | ⟨rfl, a2, a3⟩ <;>
    rcases h2 with ⟨b1, b2, b3⟩ | ⟨b1, b2, b3⟩ | ⟨b1, b2, b3⟩
  · rw [a2] at b2; simpa using b2
  · exact absurd b1 a1
  · subst b1
    exfalso
    have hv : v ≠ [] := fun h => a3 ⟨rfl, h⟩
    simp [termSet, a1, a2, hv] at b3
  · exact absurd a1 b1
  · rw [a2] at b2; simpa using b2
  · subst b1
    exfalso
    have hv : v ≠ [] := fun h => a3 ⟨rfl, h⟩
    simp [termSet, a1, a2, hv] at b3
  · exfalso
    have hv : w ≠ [] := fun h => b3 ⟨rfl, h⟩
    simp [termSet, b1, b2, hv] at a3
  · exfalso
    have hv : w ≠ [] := fun h => b3 ⟨rfl, h⟩
    simp [termSet, b1, b2, hv] at a3
  · rw [a2, b2]

/-- A program finds exactly what it is given. -/
theorem getenv_prepare {e : State} (h : Sound e) {n : Str} (hn : Name n) (v : Str) :
    getenv (prepare e) n = some v ↔ Given e n v := by
  constructor
  · intro hg
    by_contra hc
    by_cases hex : ∃ w, Given e n w
    · obtain ⟨w, hw⟩ := hex
      have hm : entry n w ∈ prepare e := (mem_prepare h).2 ⟨n, w, hn, hw, rfl⟩
      have : getenv (prepare e) n = some w := by
        refine getenv_some hn ?_ hm
        intro s hs
        obtain ⟨k, u, hk, hgk, rfl⟩ := (mem_prepare h).1 hs
        exact ⟨k, u, hk, rfl, fun hkn => by subst hkn; exact given_unique hgk hw⟩
      rw [this] at hg
      simp only [Option.some.injEq] at hg
      exact hc (hg ▸ hw)
    · have : getenv (prepare e) n = none := by
        refine getenv_none hn ?_
        intro s hs
        obtain ⟨k, u, hk, hgk, rfl⟩ := (mem_prepare h).1 hs
        exact ⟨k, u, hk, fun hkn => hex ⟨u, hkn ▸ hgk⟩, rfl⟩
      rw [this] at hg
      simp at hg
  · intro hw
    refine getenv_some hn ?_ ((mem_prepare h).2 ⟨n, v, hn, hw, rfl⟩)
    intro s hs
    obtain ⟨k, u, hk, hgk, rfl⟩ := (mem_prepare h).1 hs
    exact ⟨k, u, hk, rfl, fun hkn => by subst hkn; exact given_unique hgk hw⟩

theorem entry_name {k v : Str} (hk : Name k) : (entry k v).takeWhile (fun c => !(c == '=')) = k := by
  rw [entry, List.takeWhile_append_of_pos]
  · simp
  · intro c hc
    have : c ≠ '=' := fun h => hk.1 (h ▸ hc)
    simpa using this

theorem nodup_filterMap_keys {α : Type} (key : α → Str) (f : α → Option Str) (name : Str → Str) :
    ∀ l : List α, (∀ a ∈ l, ∀ s, f a = some s → name s = key a) → (l.map key).Nodup →
      ((l.filterMap f).map name).Nodup
  | [], _, _ => by simp
  | a :: l, hf, h => by
    simp only [List.map_cons, List.nodup_cons] at h
    have ih := nodup_filterMap_keys key f name l (fun b hb => hf b (by simp [hb])) h.2
    cases hfa : f a with
    | none => simpa [hfa] using ih
    | some s =>
      rw [List.filterMap_cons_some hfa, List.map_cons, List.nodup_cons]
      refine ⟨?_, ih⟩
      intro hmem
      obtain ⟨t, ht, hts⟩ := List.mem_map.1 hmem
      obtain ⟨b, hb, hbt⟩ := List.mem_filterMap.1 ht
      refine h.1 (List.mem_map.2 ⟨b, hb, ?_⟩)
      rw [← hf a (by simp) s hfa, ← hf b (by simp [hb]) t hbt, hts]

/-- The name in front of the first `=`. -/
def nameOf (s : Str) : Str := s.takeWhile fun c => !(c == '=')

theorem prepare_nodup {e : State} (h : Sound e) : ((prepare e).map nameOf).Nodup := by
  have hs : ((sysEntries e).map nameOf).Nodup := by
    refine nodup_filterMap_keys (fun p : Str × Str => p.1) _ nameOf e.sys ?_ h.sysKeys
    intro q hq t ht
    split at ht
    · simp at ht
    · split at ht
      · simp at ht
      · rw [cstring_entry ht]; exact entry_name (h.sysNames q hq).1
  have he : ((expEntries e).map nameOf).Nodup := by
    refine nodup_filterMap_keys (fun k : Str => k) _ nameOf e.exported ?_ (by simpa using h.expKeys)
    intro q hq t ht
    split at ht
    · simp at ht
    · split at ht
      · simp at ht
      · rw [cstring_entry ht]; exact entry_name (h.expNames q hq)
  have nm : ∀ k v, Name k → nameOf (entry k v) = k := fun k v hk => entry_name hk
  simp only [prepare, List.map_append]
  rw [List.nodup_append, List.nodup_append]
  refine ⟨⟨hs, he, ?_⟩, ?_, ?_⟩
  · intro a ha b hb hab
    subst hab
    obtain ⟨s, hs', rfl⟩ := List.mem_map.1 ha
    obtain ⟨t, ht', hts⟩ := List.mem_map.1 hb
    obtain ⟨k, v, h1, h2, h3, rfl⟩ := (mem_sysEntries h).1 hs'
    obtain ⟨k', v', h1', h2', h3', rfl⟩ := (mem_expEntries h).1 ht'
    rw [nm k v (h.sysNames _ (Map.get_mem h1)).1, nm k' v' (h.expNames k' h1')] at hts
    exact h2 (hts ▸ h1')
  · split <;> simp
  · intro a ha b hb hab
    subst hab
    cases ht : termSet e with
    | true => simp [ht] at hb
    | false =>
      simp only [ht, Bool.false_eq_true, if_false, List.map_cons, List.map_nil, List.mem_singleton] at hb
      rw [nm _ _ name_TERM] at hb
      subst hb
      have hg : Given e TERM defaultTerm := .inr (.inr ⟨rfl, rfl, ht⟩)
      rw [← List.map_append] at ha
      obtain ⟨s, hs', hst⟩ := List.mem_map.1 ha
      rcases List.mem_append.1 hs' with hs' | hs'
      · obtain ⟨k, v, h1, h2, h3, rfl⟩ := (mem_sysEntries h).1 hs'
        rw [nm k v (h.sysNames _ (Map.get_mem h1)).1] at hst
        subst hst
        have hv : v ≠ [] := fun hv => h3 ⟨rfl, hv⟩
        simp [termSet, h2, h1, hv] at ht
      · obtain ⟨k, v, h1, h2, h3, rfl⟩ := (mem_expEntries h).1 hs'
        rw [nm k v (h.expNames k h1)] at hst
        subst hst
        have hv : v ≠ [] := fun hv => h3 ⟨rfl, hv⟩
        simp [termSet, h2, h1, hv] at ht

/-! ### C34 -/

/-- C34, first part: where every exported name that is also a system variable has a value, a program
finds for every name exactly what C34 asks for, every text it is given is one of these, and no name
is given twice. -/
theorem C34_programs_partial {e : State} (h : Sound e)
    (hset : ∀ k ∈ e.exported, e.vars.get k = none → e.sys.get k = none) :
    (∀ n, Name n → getenv (prepare e) n = Wanted e n) ∧
    (∀ s ∈ prepare e, ∃ n v, Name n ∧ s = entry n v ∧ Wanted e n = some v) ∧
    ((prepare e).map nameOf).Nodup := by
  have key : ∀ n, Name n → getenv (prepare e) n = Wanted e n := by
    intro n hn
    cases hw : Wanted e n with
    | some v =>
      refine (getenv_prepare h hn v).2 ?_
      simp only [Wanted] at hw
      by_cases hx : n ∈ e.exported
      · rw [if_pos hx] at hw
        cases hv : e.vars.get n with
        | none =>
          rw [hv, hset n hx hv] at hw
          by_cases ht : n = TERM
          · subst ht
            simp only [Option.or_none, if_true, Option.some.injEq] at hw
            exact .inr (.inr ⟨rfl, hw.symm, by simp [termSet, hx, hv]⟩)
          · simp [ht] at hw
        | some u =>
          rw [hv] at hw
          by_cases ht : n = TERM
          · subst ht
            cases u with
            | nil =>
              simp only [Option.some_or, if_true, Option.some.injEq] at hw
              exact .inr (.inr ⟨rfl, hw.symm, by simp [termSet, hx, hv]⟩)
            | cons c u =>
              simp only [Option.some_or, if_true, Option.some.injEq] at hw
              exact .inr (.inl ⟨hx, by rw [hv, hw], by rw [← hw]; simp⟩)
          · simp only [Option.some_or, ht, if_false, Option.some.injEq] at hw
            exact .inr (.inl ⟨hx, by rw [hv, hw], by simp [ht]⟩)
      · rw [if_neg hx, Option.none_or] at hw
        by_cases ht : n = TERM
        · subst ht
          rw [if_pos rfl] at hw
          cases hs : e.sys.get TERM with
          | none =>
            rw [hs] at hw
            simp only [Option.some.injEq] at hw
            exact .inr (.inr ⟨rfl, hw.symm, by simp [termSet, hx, hs]⟩)
          | some u =>
            rw [hs] at hw
            cases u with
            | nil =>
              simp only [Option.some.injEq] at hw
              exact .inr (.inr ⟨rfl, hw.symm, by simp [termSet, hx, hs]⟩)
            | cons c u =>
              simp only [Option.some.injEq] at hw
              exact .inl ⟨hx, by rw [hs, hw], by rw [← hw]; simp⟩
        · rw [if_neg ht] at hw
          exact .inl ⟨hx, hw, by simp [ht]⟩
    | none =>
      cases hg : getenv (prepare e) n with
      | none => rfl
      | some v =>
        exfalso
        have hg' := (getenv_prepare h hn v).1 hg
        simp only [Wanted] at hw
        by_cases ht : n = TERM
        · rw [if_pos ht] at hw
          split at hw <;> simp at hw
        · rw [if_neg ht, Option.or_eq_none_iff] at hw
          rcases hg' with ⟨h1, h2, _⟩ | ⟨h1, h2, _⟩ | ⟨h1, _⟩
          · rw [h2] at hw; simp at hw
          · rw [if_pos h1, h2] at hw; simp at hw
          · exact ht h1
  refine ⟨key, ?_, prepare_nodup h⟩
  intro s hs
  obtain ⟨n, v, hn, hg, rfl⟩ := (mem_prepare h).1 hs
  refine ⟨n, v, hn, rfl, ?_⟩
  rw [← key n hn]
  exact (getenv_prepare h hn v).2 hg

theorem foldl_exports (vars : Map) (n : Str) : ∀ (l : List Str) (m : Map),
    (l.foldl (fun m k => match vars.get k with
      | some v => m.insert k v
      | none => m) m).get n = (if n ∈ l then vars.get n else none).or (m.get n)
  | [], m => by simp
  | k :: l, m => by
    rw [List.foldl_cons, foldl_exports vars n l]
    cases hv : vars.get k with
    | none =>
      by_cases hkn : n = k
      · subst hkn
        simp [hv]
      · simp [hkn]
    | some v =>
      simp only [Map.get_insert]
      by_cases hkn : n = k
      · subst hkn
        by_cases hl : n ∈ l <;> simp [hv, hl]
      · simp [hkn]

/-- C34, second part: programs started by a builtin find exactly what C34 asks for, whatever the
state. -/
theorem C34_builtins_partial (e : State) (n : Str) : (childEnv e).get n = Wanted e n := by
  have hm := fun k => foldl_exports e.vars k e.exported e.sys
  simp only [childEnv, Wanted]
  generalize hgen : (e.exported.foldl (fun m k => match e.vars.get k with
      | some v => m.insert k v
      | none => m) e.sys : Map) = m at hm ⊢
  have hT := hm TERM
  have hN := hm n
  by_cases ht : n = TERM
  · subst ht
    rw [if_pos rfl, ← hT]
    cases hg : m.get TERM with
    | none => simp [Map.get_insert]
    | some v =>
      cases v with
      | nil => simp [Map.get_insert]
      | cons c t => simp [hg]
  · rw [if_neg ht, ← hN]
    cases hg : m.get TERM with
    | none => simp [Map.get_insert, ht]
    | some v =>
      cases v with
      | nil => simp [Map.get_insert, ht]
      | cons c t => simp

/-- A state of a shell started with a search path. -/
def ex0 : State :=
  { vars := [(c!"SAFETY_LEVEL", c!"normal")], exported := [], sys := [(PATH, c!"/bin:/usr/bin"), (c!"HOME", c!"/h"), (TERM, c!"vt100")],
    paths := [c!"/bin", c!"/usr/bin"], cache := [], names := [], outs := fun _ => none, errs := fun _ => none, mcp := (0, 0, 0) }

theorem sound_ex0 : Sound ex0 where
  sysKeys := by decide
  expKeys := by decide
  sysNames := by decide
  expNames := by decide
  expVals := by decide

/-- C34, third part: `export NAME` for a variable the shell was started with takes it away from every
program started from the command line — for all names and states. -/
theorem C34_violated :
    (∀ (e : State) (n : Str), Sound e → Name n → n ≠ TERM → e.vars.get n = none →
      getenv (prepare (exportArg e n)) n = none) ∧
    (let e := exportArg ex0 PATH
     Sound e ∧ Wanted e PATH = some c!"/bin:/usr/bin" ∧ getenv (prepare e) PATH = none ∧
     (childEnv e).get PATH = some c!"/bin:/usr/bin") := by
  constructor
  · intro e n h hn ht hv
    have hnone : splitOnce '=' n = none := by
      have : ∀ s : Str, '=' ∉ s → splitOnce '=' s = none := by
        intro s
        induction s with
        | nil => intro _; rfl
        | cons a s ih =>
          intro hs
          simp only [List.mem_cons, not_or] at hs
          rw [splitOnce, if_neg (fun x => hs.1 x.symm), ih hs.2]
      exact this n hn.1
    have he : exportArg e n = exportVar e n := by simp [exportArg, hnone]
    rw [he]
    have hs : Sound (exportVar e n) := by
      refine ⟨h.sysKeys, ?_, h.sysNames, ?_, ?_⟩
      · simp only [exportVar, insertSet]
        split
        · exact h.expKeys
        · next hx => exact List.nodup_cons.2 ⟨hx, h.expKeys⟩
      · intro k hk
        rcases mem_insertSet.1 hk with rfl | hk
        exacts [hn, h.expNames k hk]
      · intro k hk v hv'
        rcases mem_insertSet.1 hk with rfl | hk
        · rw [show (exportVar e k).vars = e.vars from rfl, hv] at hv'; simp at hv'
        · exact h.expVals k hk v hv'
    cases hg : getenv (prepare (exportVar e n)) n with
    | none => rfl
    | some v =>
      exfalso
      have hx : n ∈ (exportVar e n).exported := mem_insertSet.2 (.inl rfl)
      rcases (getenv_prepare hs hn v).1 hg with ⟨h1, _⟩ | ⟨_, h2, _⟩ | ⟨h1, _⟩
      · exact h1 hx
      · rw [show (exportVar e n).vars = e.vars from rfl, hv] at h2; simp at h2
      · exact ht h1
  · refine ⟨⟨?_, ?_, ?_, ?_, ?_⟩, ?_, ?_, ?_⟩ <;> decide

example : Sound (exportArg ex0 c!"X=1") ∧ (∀ k ∈ (exportArg ex0 c!"X=1").exported, (exportArg ex0 c!"X=1").vars.get k = none →
    (exportArg ex0 c!"X=1").sys.get k = none) ∧ getenv (prepare (exportArg ex0 c!"X=1")) c!"X" = some c!"1" := by
  refine ⟨⟨?_, ?_, ?_, ?_, ?_⟩, ?_, ?_⟩ <;> decide

/-! ### C90: assignments reach programs -/

/-- What the user did to one name: its value, and whether programs are to see it. -/
structure Cell where
  val : Option Str
  seen : Bool

/-- What a program is to find. -/
def Cell.visible (c : Cell) : Option Str := if c.seen then c.val else none

/-- The effect a command is meant to have on the name `n`. -/
def meant (n : Str) (c : Cell) : Op → Cell
  | .set k v => if k = n then { c with val := some v } else c
  | .setx k v => if k = n then ⟨some v, true⟩ else c
  | .exp a => match splitOnce '=' a with
    | some (k, v) => if k = n then ⟨some v, true⟩ else c
    | none => if a = n then { c with seen := true } else c
  | .read _ _ => c
  | .unset k => if k = n then ⟨none, false⟩ else c

/-- The command is `set` or `export` for the name `n`. -/
def byVar (n : Str) : Op → Bool
  | .set k _ => k == n
  | .exp a => match splitOnce '=' a with
    | some (k, _) => k == n
    | none => a == n
  | _ => false

/-- The command sets or unsets the system variable `n`. -/
def bySys (n : Str) : Op → Bool
  | .setx k _ => k == n
  | .unset k => k == n
  | _ => false

/-- The command stores a shell variable whose name begins with a dollar sign. -/
def dollarName : Op → Bool
  | .set ('$' :: _) _ => true
  | .exp ('$' :: _) => true
  | _ => false

/-- No character zero, and names without `=`. -/
def OpOk : Op → Prop
  | .set _ v => '\x00' ∉ v
  | .setx k v => Name k ∧ '\x00' ∉ v
  | .exp a => '\x00' ∉ a
  | .read _ s => '\x00' ∉ s
  | .unset _ => True

/-- A state without the character zero. -/
structure Clean (e : State) : Prop extends Sound e where
  varVals : ∀ k v, e.vars.get k = some v → '\x00' ∉ v

theorem splitOnce_some {c : Char} : ∀ {s x y : Str}, splitOnce c s = some (x, y) → s = x ++ c :: y ∧ c ∉ x
  | [], _, _, h => by simp [splitOnce] at h
  | a :: s, x, y, h => by
    rw [splitOnce] at h
    by_cases ha : a = c
    · rw [if_pos ha] at h
      simp only [Option.some.injEq, Prod.mk.injEq] at h
      obtain ⟨rfl, rfl⟩ := h
      simp [ha]
    · rw [if_neg ha] at h
      cases hs : splitOnce c s with
      | none => simp [hs] at h
      | some p =>
        rw [hs] at h
        simp only [Option.some.injEq, Prod.mk.injEq] at h
        obtain ⟨rfl, rfl⟩ := h
        obtain ⟨h1, h2⟩ := splitOnce_some (x := p.1) (y := p.2) hs
        refine ⟨by rw [h1]; simp, ?_⟩
        simp only [List.mem_cons, not_or]
        exact ⟨fun h => ha h.symm, h2⟩

theorem splitOnce_none {c : Char} : ∀ {s : Str}, splitOnce c s = none → c ∉ s
  | [], _ => by simp
  | a :: s, h => by
    rw [splitOnce] at h
    by_cases ha : a = c
    · simp [ha] at h
    · rw [if_neg ha] at h
      cases hs : splitOnce c s with
      | some p => simp [hs] at h
      | none =>
        simp only [List.mem_cons, not_or]
        exact ⟨fun h => ha h.symm, splitOnce_none hs⟩

theorem splitOnce_of {c : Char} : ∀ {x : Str} (y : Str), c ∉ x → splitOnce c (x ++ c :: y) = some (x, y)
  | [], y, _ => by simp [splitOnce]
  | a :: x, y, h => by
    simp only [List.mem_cons, not_or] at h
    rw [List.cons_append, splitOnce, if_neg (fun x => h.1 x.symm), splitOnce_of y h.2]

theorem splitOnce_of_not_mem {c : Char} : ∀ {x : Str}, c ∉ x → splitOnce c x = none
  | [], _ => rfl
  | a :: x, h => by
    simp only [List.mem_cons, not_or] at h
    rw [splitOnce, if_neg (fun x => h.1 x.symm), splitOnce_of_not_mem h.2]

theorem nodup_insertSet {s : List Str} {k : Str} (h : s.Nodup) : (insertSet s k).Nodup := by
  simp only [insertSet]
  split
  · exact h
  · next hx => exact List.nodup_cons.2 ⟨hx, h⟩

theorem setSys_parts (e : State) (k v : Str) :
    (setSys e k v).sys = e.sys.insert k v ∧ (setSys e k v).vars = e.vars ∧ (setSys e k v).exported = e.exported := by
  simp only [setSys, reloadPath]
  split <;> exact ⟨rfl, rfl, rfl⟩

theorem unsetSys_parts (e : State) (k : Str) :
    (unsetSys e k).sys = e.sys.erase k ∧ (unsetSys e k).vars = e.vars ∧ (unsetSys e k).exported = e.exported := by
  simp only [unsetSys, reloadPath]
  split <;> exact ⟨rfl, rfl, rfl⟩

theorem erase_keys {m : Map} {k : Str} (h : (m.map (·.1)).Nodup) : ((m.erase k).map (·.1)).Nodup :=
  List.Sublist.nodup (List.Sublist.map _ List.filter_sublist) h

theorem insert_keys {m : Map} {k v : Str} (h : (m.map (·.1)).Nodup) : ((m.insert k v).map (·.1)).Nodup := by
  rw [Map.insert, List.map_cons, List.nodup_cons]
  refine ⟨?_, erase_keys h⟩
  intro hm
  obtain ⟨p, hp, hpk⟩ := List.mem_map.1 hm
  simp [Map.erase, List.mem_filter, hpk] at hp

theorem clean_of {e e' : State} (h : Clean e) (hs : e'.sys = e.sys)
    (hx : ∀ k ∈ e'.exported, k ∈ e.exported ∨ Name k) (hd : e'.exported.Nodup)
    (hv : ∀ k v, e'.vars.get k = some v → '\x00' ∉ v) : Clean e' where
  sysKeys := hs ▸ h.sysKeys
  expKeys := hd
  sysNames := hs ▸ h.sysNames
  expNames := fun k hk => (hx k hk).elim (h.expNames k) id
  expVals := fun k _ v hkv => hv k v hkv
  varVals := hv

theorem clean_step {e : State} (h : Clean e) {op : Op} (hop : OpOk op) : Clean (step e op) := by
  have hins : ∀ k v : Str, '\x00' ∉ v → ∀ a b, (e.vars.insert k v).get a = some b → '\x00' ∉ b := by
    intro k v hv a b hab
    rw [Map.get_insert] at hab
    split at hab
    · simp only [Option.some.injEq] at hab; exact hab ▸ hv
    · exact h.varVals a b hab
  cases op with
  | set k v => exact clean_of h rfl (fun k hk => .inl hk) h.expKeys (hins k v hop)
  | read k s =>
    refine clean_of h rfl (fun k hk => .inl hk) h.expKeys (hins _ _ ?_)
    intro hm
    simp only [List.mem_reverse] at hm
    exact hop (by simpa using (List.dropWhile_sublist _).mem hm)
  | exp a =>
    simp only [step, exportArg]
    split
    · next k v hs =>
      obtain ⟨h1, h2⟩ := splitOnce_some hs
      simp only [OpOk, h1, List.mem_append, List.mem_cons, not_or] at hop
      refine clean_of h rfl ?_ (nodup_insertSet h.expKeys) (hins k v hop.2.2)
      intro x hx
      rcases mem_insertSet.1 hx with rfl | hx
      exacts [.inr ⟨h2, hop.1⟩, .inl hx]
    · next hs =>
      refine clean_of h rfl ?_ (nodup_insertSet h.expKeys) h.varVals
      intro x hx
      rcases mem_insertSet.1 hx with rfl | hx
      exacts [.inr ⟨splitOnce_none hs, hop⟩, .inl hx]
  | setx k v =>
    obtain ⟨h1, h2, h3⟩ := setSys_parts e k v
    simp only [step]
    refine ⟨⟨?_, ?_, ?_, ?_, ?_⟩, ?_⟩
    · rw [h1]; exact insert_keys h.sysKeys
    · rw [h3]; exact h.expKeys
    · rw [h1]
      intro p hp
      rcases List.mem_cons.1 hp with rfl | hp
      · exact hop
      · exact h.sysNames p ((List.mem_filter.1 hp).1)
    · rw [h3]; exact h.expNames
    · rw [h3, h2]; exact h.expVals
    · rw [h2]; exact h.varVals
  | unset k =>
    obtain ⟨h1, h2, h3⟩ := unsetSys_parts e k
    simp only [step]
    refine ⟨⟨?_, ?_, ?_, ?_, ?_⟩, ?_⟩
    · rw [h1]; exact erase_keys h.sysKeys
    · rw [h3]; exact h.expKeys
    · rw [h1]
      intro p hp
      exact h.sysNames p ((List.mem_filter.1 hp).1)
    · rw [h3]; exact h.expNames
    · rw [h3, h2]; exact h.expVals
    · rw [h2]; exact h.varVals

theorem clean_run {e : State} (h : Clean e) : ∀ {l : List Op}, (∀ op ∈ l, OpOk op) → Clean (run e l) := by
  intro l
  induction l generalizing e with
  | nil => intro _; exact h
  | cons op l ih =>
    intro hl
    exact ih (clean_step h (hl op (by simp))) fun o ho => hl o (by simp [ho])

theorem sys_step (e : State) (n : Str) (op : Op) : (step e op).sys.get n =
    match op with
    | .setx k v => if k = n then some v else e.sys.get n
    | .unset k => if k = n then none else e.sys.get n
    | _ => e.sys.get n := by
  cases op with
  | set k v => rfl
  | read k s => rfl
  | exp a => simp only [step, exportArg]; split <;> rfl
  | setx k v =>
    simp only [step, (setSys_parts e k v).1, Map.get_insert]
    by_cases h : n = k
    · simp [h]
    · rw [if_neg h, if_neg (fun x => h x.symm)]
  | unset k =>
    simp only [step, (unsetSys_parts e k).1, Map.get_erase]
    by_cases h : n = k
    · simp [h]
    · rw [if_neg h, if_neg (fun x => h x.symm)]

theorem exported_step (e : State) (n : Str) (op : Op) : n ∈ (step e op).exported ↔
    n ∈ e.exported ∨ (byVar n op = true ∧ ∃ a, op = .exp a) := by
  cases op with
  | set k v => simp [step, setVar]
  | read k s => simp [step, readVar, setVar]
  | setx k v => simp [step, (setSys_parts e k v).2.2]
  | unset k => simp [step, (unsetSys_parts e k).2.2]
  | exp a =>
    simp only [step, exportArg, byVar]
    split
    · next k v hs =>
      simp only [setAndExport, mem_insertSet, hs, beq_iff_eq]
      constructor
      · rintro (rfl | h); exacts [.inr ⟨rfl, a, rfl⟩, .inl h]
      · rintro (h | ⟨h, _⟩); exacts [.inr h, .inl h.symm]
    · next hs =>
      simp only [exportVar, mem_insertSet, hs, beq_iff_eq]
      constructor
      · rintro (rfl | h); exacts [.inr ⟨rfl, n, rfl⟩, .inl h]
      · rintro (h | ⟨h, _⟩); exacts [.inr h, .inl h.symm]

theorem vars_step (e : State) (n : Str) (op : Op) : (step e op).vars.get n =
    match op with
    | .set k v => if k = n then some v else e.vars.get n
    | .exp a => match splitOnce '=' a with
      | some (k, v) => if k = n then some v else e.vars.get n
      | none => e.vars.get n
    | .read k s => if '$' :: k = n then some (s.reverse.dropWhile (· == '\n')).reverse else e.vars.get n
    | _ => e.vars.get n := by
  cases op with
  | set k v =>
    simp only [step, setVar, Map.get_insert]
    by_cases h : n = k
    · simp [h]
    · rw [if_neg h, if_neg (fun x => h x.symm)]
  | read k s =>
    simp only [step, readVar, setVar, Map.get_insert]
    by_cases h : n = '$' :: k
    · simp [h]
    · rw [if_neg h, if_neg (fun x => h x.symm)]
  | exp a =>
    simp only [step, exportArg]
    split
    · next k v hs =>
      simp only [setAndExport, Map.get_insert, hs]
      by_cases h : n = k
      · simp [h]
      · rw [if_neg h, if_neg (fun x => h x.symm)]
    · next hs => simp [exportVar, hs]
  | setx k v => simp [step, (setSys_parts e k v).2.1]
  | unset k => simp [step, (unsetSys_parts e k).2.1]

/-- What the model hands to a program, without the special case of the terminal. -/
theorem visible_prepare {e : State} (h : Sound e) {n : Str} (hn : Name n) (ht : n ≠ TERM) :
    getenv (prepare e) n = if n ∈ e.exported then e.vars.get n else e.sys.get n := by
  apply Option.ext
  intro v
  rw [getenv_prepare h hn v]
  simp only [Given, ht, false_and, not_false_eq_true, and_true, or_false]
  by_cases hx : n ∈ e.exported <;> simp [hx]

/-- C90, what holds: (1) a name never given to `export` and never assigned with `set`: programs find
the value of the last `set -x`; (2) a name that is no system variable and is never given to `set -x`:
programs find the value of the last `set` or `export` as soon as it has been exported.  For every
history of commands. -/
theorem C90_assignments_partial {e : State} (h : Clean e) {l : List Op} (hl : ∀ op ∈ l, OpOk op) {n : Str}
    (hn : Name n) (ht : n ≠ TERM) :
    (n ∉ e.exported → (∀ op ∈ l, byVar n op = false) →
      getenv (prepare (run e l)) n = (l.foldl (meant n) ⟨e.sys.get n, (e.sys.get n).isSome⟩).visible) ∧
    (e.sys.get n = none → n.head? ≠ some '$' → (∀ op ∈ l, bySys n op = false) →
      getenv (prepare (run e l)) n = (l.foldl (meant n) ⟨e.vars.get n, e.exported.contains n⟩).visible) := by
  rw [visible_prepare (clean_run h hl).toSound hn ht]
  constructor
  · intro hx hb
    have key : ∀ (l : List Op) (e : State), n ∉ e.exported → (∀ op ∈ l, byVar n op = false) →
        n ∉ (run e l).exported ∧ (run e l).sys.get n =
          (l.foldl (meant n) ⟨e.sys.get n, (e.sys.get n).isSome⟩).visible := by
      intro l
      induction l with
      | nil =>
        intro e hx _
        refine ⟨hx, ?_⟩
        simp only [run, List.foldl_nil, Cell.visible]
        cases e.sys.get n <;> simp
      | cons op l ih =>
        intro e hx hb
        have hop := hb op (by simp)
        have hx' : n ∉ (step e op).exported := by
          rw [exported_step]
          rintro (h | ⟨h, _⟩)
          · exact hx h
          · rw [hop] at h; simp at h
        have := ih (step e op) hx' fun o ho => hb o (by simp [ho])
        refine ⟨this.1, ?_⟩
        rw [show run e (op :: l) = run (step e op) l from rfl, this.2, List.foldl_cons]
        have hc : meant n ⟨e.sys.get n, (e.sys.get n).isSome⟩ op =
            ⟨(step e op).sys.get n, ((step e op).sys.get n).isSome⟩ := by
          rw [sys_step]
          cases op with
          | set k v => simp only [byVar, beq_eq_false_iff_ne] at hop; simp [meant, hop]
          | exp a =>
            simp only [byVar] at hop
            simp only [meant]
            split at hop
            · next k v hs => simp only [beq_eq_false_iff_ne] at hop; simp [hop]
            · next hs => simp only [beq_eq_false_iff_ne] at hop; simp [hop]
          | read k s => rfl
          | setx k v => by_cases hk : k = n <;> simp [meant, hk]
          | unset k => by_cases hk : k = n <;> simp [meant, hk]
        rw [hc]
    have := key l e hx hb
    rw [if_neg this.1, this.2]
  · intro hs hd hb
    have key : ∀ (l : List Op) (e : State), e.sys.get n = none → (∀ op ∈ l, bySys n op = false) →
        (run e l).sys.get n = none ∧
        (if n ∈ (run e l).exported then (run e l).vars.get n else none) =
          (l.foldl (meant n) ⟨e.vars.get n, e.exported.contains n⟩).visible := by
      intro l
      induction l with
      | nil =>
        intro e hs _
        refine ⟨hs, ?_⟩
        simp only [run, List.foldl_nil, Cell.visible]
        by_cases hx : n ∈ e.exported <;> simp [hx]
      | cons op l ih =>
        intro e hs hb
        have hop := hb op (by simp)
        have hs' : (step e op).sys.get n = none := by
          rw [sys_step]
          cases op with
          | setx k v => simp only [bySys, beq_eq_false_iff_ne] at hop; simp [hop, hs]
          | unset k => simp only [bySys, beq_eq_false_iff_ne] at hop; simp [hop, hs]
          | set k v => exact hs
          | exp a => exact hs
          | read k s => exact hs
        have := ih (step e op) hs' fun o ho => hb o (by simp [ho])
        refine ⟨this.1, ?_⟩
        rw [show run e (op :: l) = run (step e op) l from rfl, this.2, List.foldl_cons]
        have hc : meant n ⟨e.vars.get n, e.exported.contains n⟩ op =
            ⟨(step e op).vars.get n, (step e op).exported.contains n⟩ := by
          have hx : (step e op).exported.contains n = (e.exported.contains n || (byVar n op && match op with
              | .exp _ => true
              | _ => false)) := by
            rw [Bool.eq_iff_iff, List.contains_iff_mem, exported_step]
            cases op <;> simp [byVar]
          rw [hx, vars_step]
          cases op with
          | set k v => by_cases hk : k = n <;> simp [meant, hk]
          | exp a =>
            simp only [meant, byVar]
            cases hsp : splitOnce '=' a with
            | none =>
              by_cases hk : a = n <;> simp [hk]
            | some p =>
              by_cases hk : p.1 = n <;> simp [hk]
          | read k s =>
            have : '$' :: k ≠ n := by rintro rfl; simp at hd
            simp [meant, this, byVar]
          | setx k v => simp only [bySys, beq_eq_false_iff_ne] at hop; simp [meant, hop, byVar]
          | unset k => simp only [bySys, beq_eq_false_iff_ne] at hop; simp [meant, hop, byVar]
        rw [hc]
    have := key l e hs hb
    rw [this.1, this.2]

theorem clean_ex0 : Clean ex0 where
  toSound := sound_ex0
  varVals := by
    intro k v h
    simp only [ex0, Map.get] at h
    split at h
    · simp only [Option.some.injEq] at h; subst h; decide
    · simp at h

/-- C90, what does not hold: after `export NAME=v`, `set -x NAME w` has no effect on programs; `set`
has no effect on a variable the shell was started with — for all names, values and states. -/
theorem C90_violated :
    (∀ (e : State) (n v w : Str), Clean e → Name n → n ≠ TERM → '\x00' ∉ v → '\x00' ∉ w →
      getenv (prepare (run e [.exp (n ++ '=' :: v), .setx n w])) n = some v) ∧
    (∀ (e : State) (n w : Str), Clean e → Name n → n ≠ TERM → '\x00' ∉ w → n ∉ e.exported →
      getenv (prepare (run e [.set n w])) n = e.sys.get n) ∧
    (let l := [Op.exp c!"LANG=C", Op.setx c!"LANG" c!"ja_JP"]
     (l.foldl (meant c!"LANG") ⟨none, false⟩).visible = some c!"ja_JP" ∧
     getenv (prepare (run ex0 l)) c!"LANG" = some c!"C") := by
  refine ⟨?_, ?_, ?_⟩
  · intro e n v w h hn ht hv hw
    have hok : ∀ op ∈ [Op.exp (n ++ '=' :: v), Op.setx n w], OpOk op := by
      intro op hop
      simp only [List.mem_cons, List.not_mem_nil, or_false] at hop
      rcases hop with rfl | rfl
      · simp only [OpOk, List.mem_append, List.mem_cons, not_or]
        exact ⟨hn.2, by decide, hv⟩
      · exact ⟨hn, hw⟩
    rw [visible_prepare (clean_run h hok).toSound hn ht]
    have hx : n ∈ (step e (.exp (n ++ '=' :: v))).exported := by
      rw [exported_step]
      exact .inr ⟨by simp [byVar, splitOnce_of v hn.1], _, rfl⟩
    have hval : (step e (.exp (n ++ '=' :: v))).vars.get n = some v := by
      rw [vars_step]
      simp [splitOnce_of v hn.1]
    have hx' : n ∈ (run e [Op.exp (n ++ '=' :: v), Op.setx n w]).exported :=
      (exported_step (step e (.exp (n ++ '=' :: v))) n (.setx n w)).2 (.inl hx)
    rw [if_pos hx']
    exact (vars_step (step e (.exp (n ++ '=' :: v))) n (.setx n w)).trans hval
  · intro e n w h hn ht hw hx
    have hok : ∀ op ∈ [Op.set n w], OpOk op := by
      intro op hop
      simp only [List.mem_singleton] at hop
      subst hop
      exact hw
    rw [visible_prepare (clean_run h hok).toSound hn ht]
    exact if_neg hx
  · decide

example : (∀ op ∈ [Op.setx c!"LANG" c!"C", .setx c!"LANG" c!"de"], OpOk op ∧ byVar c!"LANG" op = false) ∧
    getenv (prepare (run ex0 [Op.setx c!"LANG" c!"C", .setx c!"LANG" c!"de"])) c!"LANG" = some c!"de" := by
  constructor
  · intro op hop
    simp only [List.mem_cons, List.not_mem_nil, or_false] at hop
    rcases hop with rfl | rfl <;> exact ⟨⟨by decide, by decide⟩, by decide⟩
  · decide

/-! ### C91: `$NAME` -/

/-- A name that is not one of the names of captured outputs. -/
def Ordinary (n : Str) : Prop :=
  OutHist.parseOutputVar ('$' :: n) c!"OUT" = none ∧ OutHist.parseOutputVar ('$' :: n) c!"ERR" = none

instance (n : Str) : Decidable (Ordinary n) := by unfold Ordinary; infer_instance

theorem getVar_dollar {e : State} {n : Str} (hn : Ordinary n) :
    getVar e ('$' :: n) = (e.vars.get ('$' :: n)).or (e.sys.get n) := by
  have h1 : ('$' :: n) ≠ c!"MCP_SERVERS" := by intro h; simp at h
  have h2 : ('$' :: n) ≠ c!"MCP_CONNECTED" := by intro h; simp at h
  have h3 : ('$' :: n) ≠ c!"MCP_TOOLS" := by intro h; simp at h
  simp only [getVar, hn.1, hn.2, if_neg h1, if_neg h2, if_neg h3]
  cases e.vars.get ('$' :: n) <;> simp

/-- The last value assigned to `n` in any of the four ways. -/
def lastValue (n : Str) (c : Option Str) : Op → Option Str
  | .set k v => if k = n then some v else c
  | .setx k v => if k = n then some v else c
  | .exp a => match splitOnce '=' a with
    | some (k, v) => if k = n then some v else c
    | none => c
  | .read k s => if k = n then some (s.reverse.dropWhile (· == '\n')).reverse else c
  | .unset k => if k = n then none else c

/-- The command is `read` for the name `n`. -/
def byRead (n : Str) : Op → Bool
  | .read k _ => k == n
  | _ => false

/-- C91, what holds: for a name assigned with `set -x` only, `$NAME` is the last value; for a name
assigned with `read` only and not a system variable, `$NAME` is the last value.  For every history of
commands. -/
theorem C91_dollar_partial (e : State) (l : List Op) {n : Str} (hn : Ordinary n)
    (hd : ∀ op ∈ l, dollarName op = false) (hb : ∀ op ∈ l, byVar n op = false) :
    (e.vars.get ('$' :: n) = none → (∀ op ∈ l, byRead n op = false) →
      getVar (run e l) ('$' :: n) = l.foldl (lastValue n) (e.sys.get n)) ∧
    (e.sys.get n = none → (∀ op ∈ l, bySys n op = false) →
      getVar (run e l) ('$' :: n) = l.foldl (lastValue n) (e.vars.get ('$' :: n))) := by
  rw [getVar_dollar hn]
  have hne : ∀ (op : Op) (k : Str), dollarName op = false → (∃ v, op = .set k v) → k ≠ '$' :: n := by
    rintro op k h ⟨v, rfl⟩ rfl
    simp [dollarName] at h
  have hne' : ∀ (a k v : Str), dollarName (.exp a) = false → splitOnce '=' a = some (k, v) → k ≠ '$' :: n := by
    rintro a k v h hs rfl
    have := (splitOnce_some hs).1
    subst this
    simp [dollarName] at h
  constructor
  · intro hv hr
    have key : ∀ (l : List Op) (e : State), e.vars.get ('$' :: n) = none → (∀ op ∈ l, dollarName op = false) →
        (∀ op ∈ l, byVar n op = false) → (∀ op ∈ l, byRead n op = false) →
        (run e l).vars.get ('$' :: n) = none ∧ (run e l).sys.get n = l.foldl (lastValue n) (e.sys.get n) := by
      intro l
      induction l with
      | nil => intro e hv _ _ _; exact ⟨hv, rfl⟩
      | cons op l ih =>
        intro e hv hd hb hr
        have h1 := hd op (by simp)
        have h2 := hb op (by simp)
        have h3 := hr op (by simp)
        have hv' : (step e op).vars.get ('$' :: n) = none := by
          rw [vars_step]
          cases op with
          | set k v => simp only; rw [if_neg (hne _ k h1 ⟨v, rfl⟩), hv]
          | exp a =>
            simp only
            split
            · next k v hs => rw [if_neg (hne' a k v h1 hs), hv]
            · exact hv
          | read k s =>
            simp only [byRead, beq_eq_false_iff_ne] at h3
            simp [h3, hv]
          | setx k v => exact hv
          | unset k => exact hv
        have := ih (step e op) hv' (fun o ho => hd o (by simp [ho])) (fun o ho => hb o (by simp [ho]))
          (fun o ho => hr o (by simp [ho]))
        refine ⟨this.1, ?_⟩
        rw [show run e (op :: l) = run (step e op) l from rfl, this.2, List.foldl_cons]
        congr 1
        rw [sys_step]
        cases op with
        | set k v => simp only [byVar, beq_eq_false_iff_ne] at h2; simp [lastValue, h2]
        | exp a =>
          simp only [lastValue]
          simp only [byVar] at h2
          split at h2
          · simp only [beq_eq_false_iff_ne] at h2; simp [h2]
          · rfl
        | read k s => simp only [byRead, beq_eq_false_iff_ne] at h3; simp [lastValue, h3]
        | setx k v => rfl
        | unset k => rfl
    have := key l e hv hd hb hr
    rw [this.1, this.2, Option.none_or]
  · intro hs hy
    have key : ∀ (l : List Op) (e : State), e.sys.get n = none → (∀ op ∈ l, dollarName op = false) →
        (∀ op ∈ l, byVar n op = false) → (∀ op ∈ l, bySys n op = false) →
        (run e l).sys.get n = none ∧ (run e l).vars.get ('$' :: n) = l.foldl (lastValue n) (e.vars.get ('$' :: n)) := by
      intro l
      induction l with
      | nil => intro e hv _ _ _; exact ⟨hv, rfl⟩
      | cons op l ih =>
        intro e hv hd hb hr
        have h1 := hd op (by simp)
        have h2 := hb op (by simp)
        have h3 := hr op (by simp)
        have hv' : (step e op).sys.get n = none := by
          rw [sys_step]
          cases op with
          | setx k v => simp only [bySys, beq_eq_false_iff_ne] at h3; simp [h3, hv]
          | unset k => simp only [bySys, beq_eq_false_iff_ne] at h3; simp [h3, hv]
          | set k v => exact hv
          | exp a => exact hv
          | read k s => exact hv
        have := ih (step e op) hv' (fun o ho => hd o (by simp [ho])) (fun o ho => hb o (by simp [ho]))
          (fun o ho => hr o (by simp [ho]))
        refine ⟨this.1, ?_⟩
        rw [show run e (op :: l) = run (step e op) l from rfl, this.2, List.foldl_cons]
        congr 1
        rw [vars_step]
        cases op with
        | set k v =>
          simp only [byVar, beq_eq_false_iff_ne] at h2
          simp only [lastValue, if_neg h2]
          rw [if_neg (hne _ k h1 ⟨v, rfl⟩)]
        | exp a =>
          simp only [lastValue]
          simp only [byVar] at h2
          split
          · next k v hsp =>
            rw [if_neg (hne' a k v h1 hsp)]
            simp only [hsp, beq_eq_false_iff_ne] at h2
            rw [if_neg h2]
          · rfl
        | read k s => simp [lastValue]
        | setx k v => simp only [bySys, beq_eq_false_iff_ne] at h3; simp [lastValue, h3]
        | unset k => simp only [bySys, beq_eq_false_iff_ne] at h3; simp [lastValue, h3]
    have := key l e hs hd hb hy
    rw [this.1, this.2, Option.or_none]

/-- C91, what does not hold: `set NAME v` and `export NAME=v` never change what `$NAME` stands for,
while the bare word `NAME` becomes `v` in every later command — for all names, values and states. -/
theorem C91_violated :
    (∀ (e : State) (n v : Str), Ordinary n → getVar (step e (.set n v)) ('$' :: n) = getVar e ('$' :: n)) ∧
    (∀ (e : State) (n v : Str), Ordinary n → Name n →
      getVar (step e (.exp (n ++ '=' :: v))) ('$' :: n) = getVar e ('$' :: n)) ∧
    (∀ (e : State) (n v : Str), OutHist.parseOutputVar n c!"OUT" = none → OutHist.parseOutputVar n c!"ERR" = none →
      n ≠ c!"MCP_SERVERS" → n ≠ c!"MCP_CONNECTED" → n ≠ c!"MCP_TOOLS" → getVar (step e (.set n v)) n = some v) ∧
    (getVar (step ex0 (.set c!"x" c!"1")) c!"$x" = none ∧ getVar (step ex0 (.exp c!"x=1")) c!"$x" = none ∧
      getVar (step ex0 (.set c!"x" c!"1")) c!"x" = some c!"1") := by
  have hne : ∀ n : Str, n ≠ '$' :: n := by
    intro n h
    have := congrArg List.length h
    simp at this
  refine ⟨?_, ?_, ?_, by decide⟩
  · intro e n v hn
    rw [getVar_dollar hn, getVar_dollar hn, vars_step, sys_step]
    simp [hne n]
  · intro e n v hn hnm
    rw [getVar_dollar hn, getVar_dollar hn, vars_step, sys_step]
    simp [splitOnce_of v hnm.1, hne n]
  · intro e n v h1 h2 h3 h4 h5
    simp only [getVar, h1, h2, if_neg h3, if_neg h4, if_neg h5, vars_step, if_true]

example : Ordinary c!"EDITOR" ∧ getVar (run ex0 [.setx c!"EDITOR" c!"vi", .setx c!"EDITOR" c!"ed"]) c!"$EDITOR" = some c!"ed" ∧
    getVar (run ex0 [.read c!"answer" c!"yes\n"]) c!"$answer" = some c!"yes" := by decide

end Dsh.Env
