import Verif.Lisp.Eval
/-!
C27: Lisp variables are lexically scoped.
-/
namespace Dsh.Lisp

/-! ### Specification -/

/-- Every scope lies inside an older one. -/
def WF (s : List Scope) : Prop := ∀ (i : Nat) (sc : Scope) (p : Nat), s[i]? = some sc → sc.parent = some p → p < i

/-- What the scope itself says about a name. -/
def own (s : List Scope) (k : Str) (i : Nat) : Option Value := s[i]?.bind (fun sc => sc.vars.lookup k)

/-- The scopes around a place, innermost first. -/
inductive Chain (s : List Scope) : Nat → List Nat → Prop where
  | top {e sc} (h : s[e]? = some sc) (hp : sc.parent = none) : Chain s e [e]
  | up {e sc p l} (h : s[e]? = some sc) (hp : sc.parent = some p) (hl : Chain s p l) : Chain s e (e :: l)

theorem Chain.unique {s e l l'} (h : Chain s e l) (h' : Chain s e l') : l = l' := by
  induction h generalizing l' with
  | top h hp => cases h' with
    | top _ _ => rfl
    | up h2 hp2 _ => rw [h] at h2; cases h2; rw [hp] at hp2; cases hp2
  | up h hp hl ih => cases h' with
    | top h2 hp2 => rw [h] at h2; cases h2; rw [hp] at hp2; cases hp2
    | up h2 hp2 hl2 =>
      rw [h] at h2; cases h2; rw [hp] at hp2; cases hp2
      rw [ih hl2]

theorem Chain.le {s e l} (w : WF s) (h : Chain s e l) : ∀ i ∈ l, i ≤ e := by
  induction h with
  | top => simp
  | up h hp hl ih =>
    intro i hi
    rcases List.mem_cons.1 hi with rfl | hi
    · exact Nat.le_refl _
    · exact Nat.le_of_lt (Nat.lt_of_le_of_lt (ih i hi) (w _ _ _ h hp))

theorem Chain.head {s e l} (h : Chain s e l) : ∃ t, l = e :: t := by
  cases h <;> exact ⟨_, rfl⟩

theorem Chain.lt {s e l} (h : Chain s e l) : e < s.length := by
  cases h with
  | top h _ => exact (List.getElem?_eq_some_iff.1 h).1
  | up h _ _ => exact (List.getElem?_eq_some_iff.1 h).1

/-- A chain only descends: no scope is met twice. -/
theorem Chain.not_mem_tail {s e t} (w : WF s) (h : Chain s e (e :: t)) : e ∉ t := by
  cases h with
  | top => simp
  | up h hp hl => exact fun hm => absurd (hl.le w e hm) (by have := w _ _ _ h hp; omega)

theorem Chain.sub {s e l} (h : Chain s e l) : ∀ i ∈ l, ∃ l', Chain s i l' ∧ l' <:+ l := by
  induction h with
  | top h hp =>
    intro i hi; simp at hi; subst hi
    exact ⟨_, .top h hp, List.suffix_refl _⟩
  | up h hp hl ih =>
    intro i hi
    rcases List.mem_cons.1 hi with rfl | hi
    · exact ⟨_, .up h hp hl, List.suffix_refl _⟩
    · obtain ⟨l', h1, h2⟩ := ih i hi
      exact ⟨l', h1, h2.trans (List.suffix_cons _ _)⟩

/-- In a well-formed list every scope has a chain. -/
theorem exists_chain {s : List Scope} (w : WF s) (e : Nat) (he : e < s.length) : ∃ l, Chain s e l := by
  induction e using Nat.strongRecOn with
  | _ e ih =>
    obtain ⟨sc, hsc⟩ : ∃ sc, s[e]? = some sc := ⟨s[e], List.getElem?_eq_getElem he⟩
    cases hp : sc.parent with
    | none => exact ⟨_, .top hsc hp⟩
    | some p =>
      have hlt := w _ _ _ hsc hp
      obtain ⟨l, hl⟩ := ih p hlt (by omega)
      exact ⟨_, .up hsc hp hl⟩

/-! ### Lookup -/

theorem getGo_chain {s e l} (h : Chain s e l) (w : WF s) (k : Str) :
    ∀ f, e < f → getGo s f e k = l.findSome? (own s k) := by
  induction h with
  | @top e sc h hp =>
    intro f hf
    obtain ⟨f, rfl⟩ : ∃ g, f = g + 1 := ⟨f - 1, by omega⟩
    simp only [getGo, h, hp, List.findSome?_cons, own, Option.bind_some, List.findSome?_nil]
    cases sc.vars.lookup k <;> rfl
  | @up e sc p l h hp hl ih =>
    intro f hf
    obtain ⟨f, rfl⟩ : ∃ g, f = g + 1 := ⟨f - 1, by omega⟩
    simp only [getGo, h, hp, List.findSome?_cons, own, Option.bind_some]
    have := w _ _ _ h hp
    rw [ih f (by omega)]
    cases sc.vars.lookup k <;> rfl

/-- **C27 (lookup)**: the value of a name is the one in the innermost scope around that has it. -/
theorem C27_lookup {s : List Scope} (w : WF s) {e : Nat} {l : List Nat} (h : Chain s e l) (k : Str) :
    get s e k = l.findSome? (own s k) :=
  getGo_chain h w k _ (Nat.lt_succ_self e)

/-! ### Changing a scope -/

theorem lookup_insertVar (k k' : Str) (v : Value) (vars : List (Str × Value)) :
    (insertVar k v vars).lookup k' = if k' = k then some v else vars.lookup k' := by
  unfold insertVar
  by_cases h : k' = k
  · subst h; simp [List.lookup]
  · rw [if_neg h]
    have : (k' == k) = false := by simp [h]
    rw [List.lookup_cons, this]
    induction vars with
    | nil => rfl
    | cons p vars ih =>
      obtain ⟨a, b⟩ := p
      simp only [List.filter_cons]
      by_cases ha : a = k
      · subst ha; simp [ih, List.lookup_cons, this]
      · simp only [bne_iff_ne, ne_eq, ha, not_false_eq_true, if_true, List.lookup_cons, ih]

theorem lookup_filter (k k' : Str) (vars : List (Str × Value)) :
    (vars.filter (fun p => p.1 != k)).lookup k' = if k' = k then none else vars.lookup k' := by
  induction vars with
  | nil => simp
  | cons p vars ih =>
    obtain ⟨a, b⟩ := p
    simp only [List.filter_cons]
    by_cases ha : a = k
    · subst ha
      by_cases hk : k' = a
      · subst hk; simp [ih]
      · have : (k' == a) = false := by simp [hk]
        simp [ih, hk, List.lookup_cons, this]
    · simp only [bne_iff_ne, ne_eq, ha, not_false_eq_true, if_true, List.lookup_cons, ih]
      by_cases hk : k' = k
      · subst hk
        have : (k' == a) = false := by simp [Ne.symm ha]
        simp [this]
      · simp [hk]

theorem own_define (s : List Scope) (e : Nat) (k : Str) (v : Value) (i : Nat) (k' : Str) (he : e < s.length) :
    own (define s e k v) k' i = if i = e ∧ k' = k then some v else own s k' i := by
  unfold own define
  rw [List.getElem?_modify]
  by_cases h : e = i
  · subst h
    rw [List.getElem?_eq_getElem he]
    simp [lookup_insertVar]
  · rw [if_neg (by rintro ⟨rfl, _⟩; exact h rfl)]
    simp [h]

theorem define_parent (s : List Scope) (e : Nat) (k : Str) (v : Value) (i : Nat) :
    (define s e k v)[i]?.map Scope.parent = s[i]?.map Scope.parent := by
  unfold define
  rw [List.getElem?_modify]
  cases s[i]? with
  | none => rfl
  | some sc => simp; split <;> rfl

/-- Two lists of scopes with the same parents. -/
def SameShape (s s' : List Scope) : Prop := ∀ i : Nat, s'[i]?.map Scope.parent = s[i]?.map Scope.parent

theorem SameShape.wf {s s'} (h : SameShape s s') (w : WF s) : WF s' := by
  intro i sc p hsc hp
  have := h i
  rw [hsc] at this
  cases hs : s[i]? with
  | none => rw [hs] at this; simp at this
  | some sc' =>
    rw [hs] at this
    simp at this
    exact w i sc' p hs (by rw [← this, hp])

theorem SameShape.chain {s s'} (h : SameShape s s') {e l} (c : Chain s e l) : Chain s' e l := by
  induction c with
  | @top e sc hsc hp =>
    have := h e
    rw [hsc] at this
    cases hs : s'[e]? with
    | none => rw [hs] at this; simp at this
    | some sc' => rw [hs] at this; simp at this; exact .top hs (by rw [this, hp])
  | @up e sc p l hsc hp _ ih =>
    have := h e
    rw [hsc] at this
    cases hs : s'[e]? with
    | none => rw [hs] at this; simp at this
    | some sc' => rw [hs] at this; simp at this; exact .up hs (by rw [this, hp]) ih

theorem define_shape (s : List Scope) (e : Nat) (k : Str) (v : Value) : SameShape s (define s e k v) :=
  define_parent s e k v

/-- Same values as seen from every scope of a chain give the same lookup. -/
theorem findSome_congr {l : List Nat} {f g : Nat → Option Value} (h : ∀ i ∈ l, f i = g i) :
    l.findSome? f = l.findSome? g := by
  induction l with
  | nil => rfl
  | cons a l ih =>
    simp only [List.findSome?_cons]
    rw [h a (by simp), ih (fun i hi => h i (by simp [hi]))]

/-- **C27 (define)**: the name has its new value in the scope where it is defined. -/
theorem C27_define_here {s : List Scope} (w : WF s) {e : Nat} {l : List Nat} (h : Chain s e l) (k : Str)
    (v : Value) : get (define s e k v) e k = some v := by
  have sh := define_shape s e k v
  rw [C27_lookup (sh.wf w) (sh.chain h)]
  obtain ⟨t, rfl⟩ := h.head
  simp [own_define _ _ _ _ _ _ h.lt]

/-- **C27 (define)**: every other name keeps its value, everywhere. -/
theorem C27_define_other_name {s : List Scope} (w : WF s) {e e' : Nat} {l : List Nat} (he : e < s.length)
    (h : Chain s e' l) {k k' : Str} (hk : k' ≠ k) (v : Value) :
    get (define s e k v) e' k' = get s e' k' := by
  have sh := define_shape s e k v
  rw [C27_lookup (sh.wf w) (sh.chain h), C27_lookup w h]
  apply findSome_congr
  intro i _
  rw [own_define _ _ _ _ _ _ he, if_neg (by simp [hk])]

/-- **C27 (define)**: a scope that does not lie inside the changed one is not affected… -/
theorem C27_define_elsewhere {s : List Scope} (w : WF s) {e e' : Nat} {l : List Nat} (he : e < s.length)
    (h : Chain s e' l) (hout : e ∉ l) (k k' : Str) (v : Value) :
    get (define s e k v) e' k' = get s e' k' := by
  have sh := define_shape s e k v
  rw [C27_lookup (sh.wf w) (sh.chain h), C27_lookup w h]
  apply findSome_congr
  intro i hi
  rw [own_define _ _ _ _ _ _ he, if_neg (by rintro ⟨rfl, _⟩; exact hout hi)]

/-- …in particular no scope around it. -/
theorem C27_define_outer {s : List Scope} (w : WF s) {e o : Nat} {l : List Nat} (h : Chain s e l) (ho : o ∈ l)
    (hne : o ≠ e) (k k' : Str) (v : Value) : get (define s e k v) o k' = get s o k' := by
  obtain ⟨t, rfl⟩ := h.head
  have hm : o ∈ t := by simpa [hne] using ho
  obtain ⟨l', hl', hs⟩ := h.sub o ho
  refine C27_define_elsewhere w h.lt hl' ?_ k k' v
  intro hmem
  have h1 := hl'.le w e hmem
  have h2 := h.le w o ho
  exact hne (by omega)

/-! ### `set` -/

/-- The innermost scope of a chain that has the name. -/
def holder (s : List Scope) (k : Str) (l : List Nat) : Option Nat := l.find? (fun i => (own s k i).isSome)

theorem setGo_chain {s e l} (h : Chain s e l) (w : WF s) (k : Str) (v : Value) :
    ∀ f, e < f → setGo s f e k v = (holder s k l).map (fun i => define s i k v) := by
  induction h with
  | @top e sc h hp =>
    intro f hf
    obtain ⟨f, rfl⟩ : ∃ g, f = g + 1 := ⟨f - 1, by omega⟩
    simp only [setGo, h, hp, holder, List.find?_cons, own, Option.bind_some, List.find?_nil]
    cases sc.vars.lookup k <;> simp
  | @up e sc p l h hp hl ih =>
    intro f hf
    obtain ⟨f, rfl⟩ : ∃ g, f = g + 1 := ⟨f - 1, by omega⟩
    have := w _ _ _ h hp
    simp only [setGo, h, hp, holder, List.find?_cons, own, Option.bind_some]
    rw [ih f (by omega)]
    cases sc.vars.lookup k <;> simp [holder, own]

/-- **C27 (set)**: `set` fails exactly when the name is not bound. -/
theorem C27_set_fails {s : List Scope} (w : WF s) {e : Nat} {l : List Nat} (h : Chain s e l) (k : Str)
    (v : Value) : set s e k v = none ↔ get s e k = none := by
  unfold set
  rw [setGo_chain h w k v _ (Nat.lt_succ_self e), C27_lookup w h]
  simp [holder]

/-- **C27 (set)**: otherwise exactly one scope changes, the innermost one around that has the name, and
there only this name. -/
theorem C27_set {s s' : List Scope} (w : WF s) {e : Nat} {l : List Nat} (h : Chain s e l) {k : Str}
    {v : Value} (hs : set s e k v = some s') :
    ∃ a i b, l = a ++ i :: b ∧ (∀ j ∈ a, own s k j = none) ∧ own s k i ≠ none ∧
      (∀ j k', own s' k' j = if j = i ∧ k' = k then some v else own s k' j) ∧ SameShape s s' := by
  unfold set at hs
  rw [setGo_chain h w k v _ (Nat.lt_succ_self e)] at hs
  simp only [Option.map_eq_some_iff] at hs
  obtain ⟨i, hi, rfl⟩ := hs
  unfold holder at hi
  rw [List.find?_eq_some_iff_append] at hi
  obtain ⟨h1, a, b, rfl, h2⟩ := hi
  have hlt : i < s.length := by
    obtain ⟨l', hl', _⟩ := h.sub i (by simp)
    exact hl'.lt
  refine ⟨a, i, b, rfl, fun j hj => by simpa using h2 j hj, by
    intro h0; simp [h0] at h1, fun j k' => own_define _ _ _ _ _ _ hlt, define_shape _ _ _ _⟩

/-- **C27 (set)**: afterwards the name has the new value. -/
theorem C27_set_here {s s' : List Scope} (w : WF s) {e : Nat} {l : List Nat} (h : Chain s e l) {k : Str}
    {v : Value} (hs : set s e k v = some s') : get s' e k = some v := by
  obtain ⟨a, i, b, rfl, h1, h2, h3, h4⟩ := C27_set w h hs
  rw [C27_lookup (h4.wf w) (h4.chain h), List.findSome?_append]
  have ha : a.findSome? (own s' k) = none := by
    rw [List.findSome?_eq_none_iff]
    intro j hj
    rw [h3]
    split
    · next hc => rw [← hc.1] at h2; exact absurd (h1 j hj) h2
    · exact h1 j hj
  rw [ha]
  simp [h3]

/-! ### `undefine` -/

theorem undefineGo_chain {s e l} (h : Chain s e l) (w : WF s) (k : Str) :
    ∀ f, e < f → undefineGo s f e k = match holder s k l with
      | some i => s.modify i (fun sc => { sc with vars := sc.vars.filter (fun p => p.1 != k) })
      | none => s := by
  induction h with
  | @top e sc h hp =>
    intro f hf
    obtain ⟨f, rfl⟩ : ∃ g, f = g + 1 := ⟨f - 1, by omega⟩
    simp only [undefineGo, h, hp, holder, List.find?_cons, own, Option.bind_some, List.find?_nil]
    cases sc.vars.lookup k <;> simp
  | @up e sc p l h hp hl ih =>
    intro f hf
    obtain ⟨f, rfl⟩ : ∃ g, f = g + 1 := ⟨f - 1, by omega⟩
    have := w _ _ _ h hp
    simp only [undefineGo, h, hp, holder, List.find?_cons, own, Option.bind_some]
    rw [ih f (by omega)]
    cases sc.vars.lookup k <;> simp [holder, own]

/-- **C27 (undefine)**: the innermost scope around that has the name loses it, and nothing else changes;
if no scope has it nothing changes at all. -/
theorem C27_undefine {s : List Scope} (w : WF s) {e : Nat} {l : List Nat} (h : Chain s e l) (k : Str) :
    (get s e k = none ∧ undefine s e k = s) ∨
    ∃ a i b, l = a ++ i :: b ∧ (∀ j ∈ a, own s k j = none) ∧ own s k i ≠ none ∧
      (∀ j k', own (undefine s e k) k' j = if j = i ∧ k' = k then none else own s k' j) ∧
      SameShape s (undefine s e k) := by
  unfold undefine
  rw [undefineGo_chain h w k _ (Nat.lt_succ_self e), C27_lookup w h]
  cases hh : holder s k l with
  | none =>
    left
    simp [holder] at hh
    simpa using hh
  | some i =>
    right
    unfold holder at hh
    rw [List.find?_eq_some_iff_append] at hh
    obtain ⟨h1, a, b, rfl, h2⟩ := hh
    have hlt : i < s.length := by
      obtain ⟨l', hl', _⟩ := h.sub i (by simp)
      exact hl'.lt
    refine ⟨a, i, b, rfl, fun j hj => by simpa using h2 j hj, by intro h0; simp [h0] at h1, ?_, ?_⟩
    · intro j k'
      simp only [own]
      rw [List.getElem?_modify]
      by_cases hij : i = j
      · subst hij
        rw [List.getElem?_eq_getElem hlt]
        simp [lookup_filter]
      · rw [if_neg (by rintro ⟨rfl, _⟩; exact hij rfl)]
        simp [hij]
    · intro j
      rw [List.getElem?_modify]
      cases s[j]? with
      | none => rfl
      | some sc => simp; split <;> rfl

/-! ### The scope of a call -/

theorem extend_wf {s : List Scope} (w : WF s) {p : Nat} (hp : p < s.length) (vars : List (Str × Value)) :
    WF (extend s p vars).2 := by
  intro i sc q hsc hq
  simp only [extend] at hsc
  rw [List.getElem?_append] at hsc
  split at hsc
  · exact w i sc q hsc hq
  · next hi =>
    cases hj : i - s.length with
    | zero =>
      rw [hj] at hsc
      simp at hsc
      subst hsc
      simp at hq
      omega
    | succ n => rw [hj] at hsc; simp at hsc

theorem extend_chain {s : List Scope} {e l} (h : Chain s e l) (p : Nat) (vars : List (Str × Value)) :
    Chain (extend s p vars).2 e l := by
  induction h with
  | top h hp => exact .top (by simp only [extend]; rw [List.getElem?_append_left (List.getElem?_eq_some_iff.1 h).1, h]) hp
  | up h hp _ ih =>
    exact .up (by simp only [extend]; rw [List.getElem?_append_left (List.getElem?_eq_some_iff.1 h).1, h]) hp ih

theorem extend_new {s : List Scope} {p l} (h : Chain s p l) (vars : List (Str × Value)) :
    Chain (extend s p vars).2 (extend s p vars).1 ((extend s p vars).1 :: l) :=
  .up (sc := ⟨some p, vars⟩) (by simp [extend]) rfl (extend_chain h p vars)

/-- **C27 (new scope)**: inside a new scope a name means what the scope says, or else what it means around
the scope; nothing changes for the other scopes. -/
theorem C27_extend {s : List Scope} (w : WF s) {p : Nat} {l : List Nat} (h : Chain s p l)
    (vars : List (Str × Value)) (k : Str) :
    get (extend s p vars).2 (extend s p vars).1 k = (vars.lookup k).or (get s p k) ∧
    ∀ e l', Chain s e l' → get (extend s p vars).2 e k = get s e k := by
  have w' := extend_wf w h.lt vars
  have ho : ∀ i, i < s.length → own (extend s p vars).2 k i = own s k i := by
    intro i hi
    simp [own, extend, List.getElem?_append_left hi]
  have key : ∀ e l', Chain s e l' → get (extend s p vars).2 e k = get s e k := by
    intro e l' hl
    rw [C27_lookup w' (extend_chain hl p vars), C27_lookup w hl]
    apply findSome_congr
    intro i hi
    exact ho i (by have := hl.le w i hi; have := hl.lt; omega)
  refine ⟨?_, key⟩
  rw [C27_lookup w' (extend_new h vars), ← key p l h, C27_lookup w' (extend_chain h p vars),
    List.findSome?_cons]
  have : own (extend s p vars).2 k (extend s p vars).1 = vars.lookup k := by simp [own, extend]
  rw [this]
  cases vars.lookup k <;> rfl

theorem bindArgs_lookup (k : Str) : ∀ (ps : List Str) (args : List Value) (vars : List (Str × Value)),
    c!"..." ∉ ps → ps.Nodup →
    (bindArgs ps args vars).lookup k = ((ps.zip args).lookup k).or (vars.lookup k)
  | [], args, vars, _, _ => by simp [bindArgs]
  | p :: ps, [], vars, h, hn => by
    simp only [List.mem_cons, not_or] at h
    simp only [bindArgs]
    rw [if_neg (Ne.symm h.1), bindArgs_lookup k ps [] vars h.2 (List.nodup_cons.1 hn).2]
    simp
  | p :: ps, a :: args, vars, h, hn => by
    simp only [List.mem_cons, not_or] at h
    simp only [bindArgs]
    rw [if_neg (Ne.symm h.1), bindArgs_lookup k ps args _ h.2 (List.nodup_cons.1 hn).2, lookup_insertVar]
    simp only [List.zip_cons_cons, List.lookup_cons]
    by_cases hk : k = p
    · subst hk
      have : (ps.zip args).lookup k = none := by
        rw [List.lookup_eq_none_iff]
        rintro ⟨x, y⟩ hxy
        have := (List.of_mem_zip hxy).1
        simp only [bne_iff_ne]
        rintro rfl; exact (List.nodup_cons.1 hn).1 this
      simp [this]
    · have : (k == p) = false := by simp [hk]
      simp [this, hk]

theorem bindArgs_rest (ps : List Str) (args : List Value) (vars : List (Str × Value)) (more : List Str)
    (h : c!"..." ∉ ps) : ∀ (hl : ps.length ≤ args.length),
    bindArgs (ps ++ c!"..." :: more) args vars =
      insertVar c!"..." (.list (args.drop ps.length)) (bindArgs ps args vars) := by
  induction ps generalizing args vars with
  | nil => intro _; simp [bindArgs]
  | cons p ps ih =>
    intro hl
    simp only [List.mem_cons, not_or] at h
    cases args with
    | nil => simp at hl
    | cons a args =>
      simp only [List.cons_append, bindArgs]
      rw [if_neg (Ne.symm h.1), if_neg (Ne.symm h.1), ih _ _ h.2 (by simpa using hl)]
      rfl

/-- **C27 (calls)**: inside a call a parameter means its argument, and every other name what it means where
the function was made — whoever calls it.  (`vars` of the new scope are those of
`call_function_or_macro`.) -/
theorem C27_call_scope {s : List Scope} (w : WF s) {p : Nat} {l : List Nat} (h : Chain s p l) {ps : List Str}
    (hd : c!"..." ∉ ps) (hn : ps.Nodup) (args : List Value) (k : Str) :
    get (extend s p (bindArgs ps args [])).2 (extend s p (bindArgs ps args [])).1 k =
      ((ps.zip args).lookup k).or (get s p k) := by
  rw [(C27_extend w h _ k).1, bindArgs_lookup k ps args [] hd hn]
  simp

/-- A chain of three scopes in which the middle one hides a name of the outermost. -/
def ex3 : List Scope :=
  [⟨none, [(c!"x", .int 1), (c!"y", .int 2)]⟩, ⟨some 0, [(c!"x", .int 10)]⟩, ⟨some 1, [(c!"z", .int 100)]⟩]

theorem ex3_wf : WF ex3 := by
  intro i sc p h hp
  match i, h with
  | 0, h => simp [ex3] at h; subst h; simp at hp
  | 1, h => simp [ex3] at h; subst h; simp at hp; omega
  | 2, h => simp [ex3] at h; subst h; simp at hp; omega
  | _ + 3, h => simp [ex3] at h

theorem ex3_chain : Chain ex3 2 [2, 1, 0] := .up rfl rfl (.up rfl rfl (.top rfl rfl))

example : get ex3 2 c!"x" = some (.int 10) ∧ get ex3 0 c!"x" = some (.int 1) ∧
    (set ex3 2 c!"x" (.int 7)).map (fun s => (get s 2 c!"x", get s 0 c!"x")) = some (some (.int 7), some (.int 1)) ∧
    get (define ex3 2 c!"x" (.int 7)) 1 c!"x" = some (.int 10) ∧
    get (undefine ex3 2 c!"x") 2 c!"x" = some (.int 1) := by decide

end Dsh.Lisp
