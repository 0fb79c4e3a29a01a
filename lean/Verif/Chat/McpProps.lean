import Verif.Chat.Mcp
import Verif.Lisp.ReadProps
/-!
# Servers with tools for the AI: theorems (C175-C177)
-/
namespace Dsh.Mcp

/-! ### Names -/

theorem halve_le (s : Str) : (halve s).length ≤ s.length := by
  induction s using halve.induct with
  | case1 cs ih => rw [halve]; simp only [List.length_cons]; omega
  | case2 c cs h ih => rw [halve]; simp only [List.length_cons]; omega; exact h
  | case3 => simp [halve]

theorem halve_lt (s : Str) (h : hasPair s = true) : (halve s).length < s.length := by
  induction s using halve.induct with
  | case1 cs ih => rw [halve]; have := halve_le cs; simp only [List.length_cons]; omega
  | case2 c cs hc ih =>
    rw [halve]
    · rw [hasPair] at h
      · have := ih h; simp only [List.length_cons]; omega
      · exact hc
    · exact hc
  | case3 => simp [hasPair] at h

theorem halve_mem (s : Str) : ∀ c ∈ halve s, c ∈ s := by
  induction s using halve.induct with
  | case1 cs ih =>
    rw [halve]
    intro c hc
    rcases List.mem_cons.1 hc with rfl | hc
    · simp
    · simp [ih c hc]
  | case2 d cs h ih =>
    rw [halve]
    · intro c hc
      rcases List.mem_cons.1 hc with rfl | hc
      · simp
      · simp [ih c hc]
    · exact h
  | case3 => simp [halve]

theorem squeeze_mem (n : Nat) (s : Str) : ∀ c ∈ squeeze n s, c ∈ s := by
  induction n generalizing s with
  | zero => intro c hc; exact hc
  | succ n ih =>
    intro c hc
    rw [squeeze] at hc
    split at hc
    · exact halve_mem s c (ih _ c hc)
    · exact hc

theorem squeeze_none (n : Nat) (s : Str) (h : s.length ≤ n) : hasPair (squeeze n s) = false := by
  induction n generalizing s with
  | zero =>
    have : s = [] := List.length_eq_zero_iff.1 (by omega)
    subst this
    rfl
  | succ n ih =>
    rw [squeeze]
    split
    · rename_i hp
      exact ih _ (by have := halve_lt s hp; omega)
    · rename_i hp; simpa using hp

theorem trimUnder_mem (s : Str) : ∀ c ∈ trimUnder s, c ∈ s := by
  intro c hc
  unfold trimUnder at hc
  rw [List.mem_reverse] at hc
  have h1 := (List.dropWhile_sublist (· = '_')).mem hc
  rw [List.mem_reverse] at h1
  exact (List.dropWhile_sublist _).mem h1

/-- Lower case letters, digits and `_`. -/
def Proper (c : Char) : Prop := ('a'.toNat ≤ c.toNat ∧ c.toNat ≤ 'z'.toNat) ∨ ('0'.toNat ≤ c.toNat ∧ c.toNat ≤ '9'.toNat) ∨ c = '_'

theorem lower_proper (c : Char) : Proper (if c.isAlphanum then c.toLower else '_') := by
  split
  · rename_i h
    unfold Char.isAlphanum Char.isAlpha Char.isUpper Char.isLower Char.isDigit at h
    simp only [Bool.or_eq_true, Bool.and_eq_true, decide_eq_true_eq, UInt32.le_iff_toNat_le] at h
    unfold Char.toLower
    split
    · rename_i hu
      left
      simp only [UInt32.le_iff_toNat_le, Char.toNat] at hu ⊢
      have h1 : 65 ≤ c.val.toNat := hu.1
      have h2 : c.val.toNat ≤ 90 := hu.2
      have h3 : (c.val + 32).toNat = c.val.toNat + 32 := by rw [UInt32.toNat_add]; change (c.val.toNat + 32) % 4294967296 = _; omega
      show 97 ≤ (c.val + 32).toNat ∧ (c.val + 32).toNat ≤ 122
      omega
    · rename_i hu
      simp only [UInt32.le_iff_toNat_le] at hu
      rcases h with (h | h) | h
      · exact absurd h hu
      · left; exact h
      · right; left; exact h
  · right; right; rfl

theorem sanitize_proper (s : Str) : ∀ c ∈ sanitize s, Proper c := by
  intro c hc
  have hx : ∀ c ∈ (if (s.map (fun c => if c.isAlphanum then c.toLower else '_')).isEmpty then ['x'] else s.map (fun c => if c.isAlphanum then c.toLower else '_')), Proper c := by
    intro c hc
    split at hc
    · have : ∀ c ∈ (['x'] : Str), Proper c := by unfold Proper; decide
      exact this c hc
    · obtain ⟨d, -, rfl⟩ := List.mem_map.1 hc
      exact lower_proper d
  unfold sanitize at hc
  dsimp only at hc
  generalize (if (s.map (fun c => if c.isAlphanum then c.toLower else '_')).isEmpty then ['x'] else s.map (fun c => if c.isAlphanum then c.toLower else '_')) = r at hx hc
  split at hc
  · have : ∀ c ∈ c!"mcp_tool", Proper c := by unfold Proper; decide
    exact this c hc
  · exact hx c (squeeze_mem _ _ c (trimUnder_mem _ c hc))

theorem dec_proper (n : Nat) : ∀ c ∈ Record.dec n, Proper c := by
  intro c hc
  have h : Record.dec n = Nat.toDigits 10 n := by simp [Record.dec, toString, Nat.repr]
  rw [h] at hc
  have := Nat.isDigit_of_mem_toDigits (by decide) (by decide) hc
  unfold Char.isDigit at this
  simp only [Bool.and_eq_true, decide_eq_true_eq, UInt32.le_iff_toNat_le] at this
  exact Or.inr (Or.inl this)

theorem dec_inj {a b : Nat} (h : Record.dec a = Record.dec b) : a = b := by
  have hd : ∀ n, Record.dec n = Nat.toDigits 10 n := fun n => by simp [Record.dec, toString, Nat.repr]
  rw [hd, hd] at h
  rw [← Nat.ofDigitChars_ten_toDigits (n := a), ← Nat.ofDigitChars_ten_toDigits (n := b), h]

theorem nodup_length (l m : List Str) (h : l.Nodup) (hs : ∀ x ∈ l, x ∈ m) : l.length ≤ m.length := by
  induction l generalizing m with
  | nil => simp
  | cons x l ih =>
    rw [List.nodup_cons] at h
    have hx := hs x (List.mem_cons_self ..)
    have := ih (m.erase x) h.2 (by
      intro y hy
      rw [List.mem_erase_of_ne (by rintro rfl; exact h.1 hy)]
      exact hs y (List.mem_cons_of_mem _ hy))
    rw [List.length_erase_of_mem hx] at this
    have : 0 < m.length := List.length_pos_of_mem hx
    simp only [List.length_cons]
    omega

theorem candidates_nodup (base : Str) (n : Nat) : ((List.range n).map (fun k => base ++ '_' :: Record.dec (k + 2))).Nodup := by
  induction n with
  | zero => simp
  | succ n ih =>
    rw [List.range_succ, List.map_append, List.nodup_append]
    refine ⟨ih, by simp, ?_⟩
    intro a ha b hb e
    obtain ⟨i, hi, rfl⟩ := List.mem_map.1 ha
    simp only [List.map_cons, List.map_nil, List.mem_singleton] at hb
    subst hb
    have := List.append_cancel_left e
    rw [List.cons.injEq] at this
    have := dec_inj this.2
    have := List.mem_range.1 hi
    omega

/-- The loop finds a name, and the name is new. -/
theorem uniqueName_new (base : Str) (used : List Str) : uniqueName base used ∉ used := by
  unfold uniqueName
  split
  · assumption
  · cases hf : ((List.range (used.length + 1)).map (fun k => base ++ '_' :: Record.dec (k + 2))).find? (fun n => decide (n ∉ used)) with
    | some n =>
      have := List.find?_some (p := fun n => decide (n ∉ used)) hf
      simpa using this
    | none =>
      exfalso
      have := nodup_length _ used (candidates_nodup base (used.length + 1)) (by
        intro x hx
        have := List.find?_eq_none.1 hf x hx
        simpa using this)
      simp only [List.length_map, List.length_range] at this
      omega

theorem uniqueName_shape (base : Str) (used : List Str) : ∃ x, uniqueName base used = base ++ x ∧ ∀ c ∈ x, Proper c := by
  unfold uniqueName
  split
  · exact ⟨[], by simp, by simp⟩
  · cases hf : ((List.range (used.length + 1)).map (fun k => base ++ '_' :: Record.dec (k + 2))).find? (fun n => decide (n ∉ used)) with
    | some n =>
      obtain ⟨k, -, rfl⟩ := List.mem_map.1 (List.mem_of_find?_eq_some hf)
      refine ⟨_, rfl, ?_⟩
      intro c hc
      rcases List.mem_cons.1 hc with rfl | hc
      · exact Or.inr (Or.inr rfl)
      · exact dec_proper _ c hc
    | none => exact ⟨[], by simp, by simp⟩

/-- A function name: `mcp__` first, and nothing but lower case letters, digits and `_`. -/
def FunctionName (f : Str) : Prop := c!"mcp__" <+: f ∧ ∀ c ∈ f, Proper c

theorem base_name (l t : Str) (used : List Str) : FunctionName (uniqueName (baseName l t) used) := by
  obtain ⟨x, hx, hp⟩ := uniqueName_shape (baseName l t) used
  rw [hx]
  refine ⟨⟨_, by rw [baseName, List.append_assoc, List.append_assoc, List.append_assoc]⟩, ?_⟩
  intro c hc
  rcases List.mem_append.1 hc with hc | hc
  · rw [baseName] at hc
    rcases List.mem_append.1 hc with hc | hc
    · rcases List.mem_append.1 hc with hc | hc
      · rcases List.mem_append.1 hc with hc | hc
        · have : ∀ c ∈ c!"mcp__", Proper c := by unfold Proper; decide
          exact this c hc
        · exact sanitize_proper l c hc
      · have : ∀ c ∈ c!"__", Proper c := by unfold Proper; decide
        exact this c hc
    · exact sanitize_proper t c hc
  · exact hp c hc

theorem bindAll_spec (l : Str) (ts : List Tool) (bs : List (Str × Bind)) :
    ∃ ns : List (Str × Bind), bindAll l ts bs = bs ++ ns ∧ ns.map (·.2) = ts.map (fun t => (⟨l, t.name⟩ : Bind)) ∧
      (∀ b ∈ ns, FunctionName b.1) ∧ ((bs.map (·.1)).Nodup → ((bs ++ ns).map (·.1)).Nodup) := by
  induction ts generalizing bs with
  | nil => exact ⟨[], by simp [bindAll]⟩
  | cons t ts ih =>
    obtain ⟨ns, h1, h2, h3, h4⟩ := ih (bs ++ [(uniqueName (baseName l t.name) (bs.map (·.1)), ⟨l, t.name⟩)])
    refine ⟨(uniqueName (baseName l t.name) (bs.map (·.1)), ⟨l, t.name⟩) :: ns, ?_, ?_, ?_, ?_⟩
    · rw [bindAll, h1]; simp
    · simp [h2]
    · intro b hb
      rcases List.mem_cons.1 hb with rfl | hb
      · exact base_name l t.name _
      · exact h3 b hb
    · intro hn
      have := h4 (by
        rw [List.map_append, List.nodup_append]
        refine ⟨hn, by simp, ?_⟩
        intro a ha b hb e
        simp only [List.map_cons, List.map_nil, List.mem_singleton] at hb
        subst hb e
        exact uniqueName_new _ _ ha)
      simpa using this

/-! ### What holds of every manager -/

structure Good (m : Mgr) : Prop where
  labels : (m.servers.map (·.conf.label)).Nodup
  names : (m.binds.map (·.1)).Nodup
  sound : ∀ b ∈ m.binds, ∃ s ∈ m.servers, s.conf.label = b.2.label ∧ ∃ t ∈ s.tools, t.name = b.2.tool
  full : ∀ s ∈ m.servers, ∀ t ∈ s.tools, ∃ f, (f, (⟨s.conf.label, t.name⟩ : Bind)) ∈ m.binds
  proper : ∀ b ∈ m.binds, FunctionName b.1

theorem good_empty : Good {} := ⟨by simp, by simp, by simp, by simp, by simp⟩

theorem Good.register {m : Mgr} (h : Good m) (s : Server) : Good (m.register s).2 := by
  unfold Mgr.register
  split
  · exact h
  · rename_i hn
    have hn : ∀ x ∈ m.servers, x.conf.label ≠ s.conf.label := by simpa using hn
    obtain ⟨ns, h1, h2, h3, h4⟩ := bindAll_spec s.conf.label s.tools m.binds
    dsimp only
    rw [h1]
    refine ⟨?_, h4 h.names, ?_, ?_, ?_⟩
    · rw [List.map_append, List.nodup_append]
      refine ⟨h.labels, by simp, ?_⟩
      intro a ha b hb e
      obtain ⟨x, hx, rfl⟩ := List.mem_map.1 ha
      simp only [List.map_cons, List.map_nil, List.mem_singleton] at hb
      exact hn x hx (e.trans hb)
    · intro b hb
      rcases List.mem_append.1 hb with hb | hb
      · obtain ⟨x, hx, hl⟩ := h.sound b hb
        exact ⟨x, List.mem_append_left _ hx, hl⟩
      · have : b.2 ∈ ns.map (·.2) := List.mem_map_of_mem hb
        rw [h2] at this
        obtain ⟨t, ht, e⟩ := List.mem_map.1 this
        exact ⟨s, by simp, by rw [← e], t, ht, by rw [← e]⟩
    · intro x hx t ht
      rcases List.mem_append.1 hx with hx | hx
      · obtain ⟨f, hf⟩ := h.full x hx t ht
        exact ⟨f, List.mem_append_left _ hf⟩
      · rw [List.mem_singleton] at hx
        subst hx
        have : (⟨x.conf.label, t.name⟩ : Bind) ∈ ns.map (·.2) := by rw [h2]; exact List.mem_map_of_mem ht
        obtain ⟨b, hb, e⟩ := List.mem_map.1 this
        exact ⟨b.1, List.mem_append_right _ (by rw [← e]; exact hb)⟩
    · intro b hb
      rcases List.mem_append.1 hb with hb | hb
      · exact h.proper b hb
      · exact h3 b hb

theorem Good.remove {m : Mgr} (h : Good m) (l : Str) : Good (m.remove l) := by
  unfold Mgr.remove
  split
  · refine ⟨h.labels.sublist (List.filter_sublist.map _), h.names.sublist (List.filter_sublist.map _), ?_, ?_, ?_⟩
    · intro b hb
      obtain ⟨hb, hl⟩ := List.mem_filter.1 hb
      obtain ⟨s, hs, e, ht⟩ := h.sound b hb
      refine ⟨s, List.mem_filter.2 ⟨hs, ?_⟩, e, ht⟩
      simpa [e] using hl
    · intro s hs t ht
      obtain ⟨hs, hl⟩ := List.mem_filter.1 hs
      obtain ⟨f, hf⟩ := h.full s hs t ht
      exact ⟨f, List.mem_filter.2 ⟨hf, by simpa using hl⟩⟩
    · intro b hb; exact h.proper b (List.mem_filter.1 hb).1
  · exact h

theorem Good.add {m : Mgr} (h : Good m) (w : World) (c : Config) : Good (m.add w c).2 := by
  unfold Mgr.add
  split
  · exact h
  · exact h.register _

theorem Good.replace {m : Mgr} (h : Good m) (w : World) (c : Config) : Good (m.replace w c).2 := by
  unfold Mgr.replace
  split
  · exact h
  · exact (h.remove _).register _

theorem Good.want {m : Mgr} (h : Good m) (w : World) (old : List Config) (d : Config) : Good (m.want w old d) := by
  unfold Mgr.want
  split
  · split
    · exact h
    · exact h.replace w d
  · exact h.add w d

theorem Good.sync {m : Mgr} (h : Good m) (w : World) (ds : List Config) : Good (m.sync w ds) := by
  unfold Mgr.sync
  dsimp only
  have h1 : ∀ (ls : List Str) (m : Mgr), Good m → Good (ls.foldl Mgr.remove m) := by
    intro ls
    induction ls with
    | nil => intro m h; exact h
    | cons l ls ih => intro m h; exact ih _ (h.remove l)
  have h2 : ∀ (cs : List Config) (m' : Mgr), Good m' → Good (cs.foldl (Mgr.want w m.configs) m') := by
    intro cs
    induction cs with
    | nil => intro m h; exact h
    | cons c cs ih => intro m h; exact ih _ (h.want w _ c)
  exact h2 _ _ (h1 _ _ h)

theorem Good.connect {m : Mgr} (h : Good m) (w : World) (l : Str) : Good (m.connect w l).2 := by
  unfold Mgr.connect
  split
  · exact h
  · split <;> exact ⟨h.labels, h.names, h.sound, h.full, h.proper⟩

theorem valid_mem (cs : List Config) (seen : List Str) (c : Config) : c ∈ valid cs seen ↔
    trim c.label ≠ [] ∧ c.label ∉ seen ∧ ∃ pre post, cs = pre ++ c :: post ∧ ∀ x ∈ pre, x.label ≠ c.label := by
  induction cs generalizing seen with
  | nil => simp [valid]
  | cons d cs ih =>
    rw [valid]
    have hcons : (∃ pre post, d :: cs = pre ++ c :: post ∧ ∀ x ∈ pre, x.label ≠ c.label) ↔
        d = c ∨ (d.label ≠ c.label ∧ ∃ pre post, cs = pre ++ c :: post ∧ ∀ x ∈ pre, x.label ≠ c.label) := by
      constructor
      · rintro ⟨pre, post, h1, h2⟩
        cases pre with
        | nil => left; exact (List.cons.inj h1).1
        | cons x pre =>
          obtain ⟨rfl, h3⟩ := List.cons.inj h1
          exact Or.inr ⟨h2 _ (by simp), pre, post, h3, fun y hy => h2 y (by simp [hy])⟩
      · rintro (rfl | ⟨h1, pre, post, rfl, h2⟩)
        · exact ⟨[], cs, rfl, by simp⟩
        · exact ⟨d :: pre, post, rfl, by simpa [h1] using h2⟩
    rw [hcons]
    split
    · rename_i hb
      rw [ih]
      have hb : trim d.label = [] := by simpa using hb
      constructor
      · rintro ⟨h1, h2, h3⟩
        exact ⟨h1, h2, Or.inr ⟨fun e => h1 (by rw [← e]; exact hb), h3⟩⟩
      · rintro ⟨h1, h2, rfl | h3⟩
        · exact absurd hb h1
        · exact ⟨h1, h2, h3.2⟩
    · rename_i hb
      split
      · rename_i hs
        rw [ih]
        constructor
        · rintro ⟨h1, h2, h3⟩
          exact ⟨h1, h2, Or.inr ⟨fun e => h2 (by rw [← e]; exact hs), h3⟩⟩
        · rintro ⟨h1, h2, rfl | h3⟩
          · exact absurd hs h2
          · exact ⟨h1, h2, h3.2⟩
      · rename_i hs
        rw [List.mem_cons, ih]
        constructor
        · rintro (rfl | ⟨h1, h2, h3⟩)
          · exact ⟨by simpa using hb, hs, Or.inl rfl⟩
          · simp only [List.mem_cons, not_or] at h2
            exact ⟨h1, h2.2, Or.inr ⟨fun e => h2.1 e.symm, h3⟩⟩
        · rintro ⟨h1, h2, rfl | ⟨h3, h4⟩⟩
          · exact Or.inl rfl
          · exact Or.inr ⟨h1, by simp [h2, Ne.symm h3], h4⟩

theorem valid_labels (cs : List Config) (seen : List Str) : ((valid cs seen).map (·.label)).Nodup := by
  induction cs generalizing seen with
  | nil => simp [valid]
  | cons d cs ih =>
    rw [valid]
    split
    · exact ih _
    · split
      · exact ih _
      · rw [List.map_cons, List.nodup_cons]
        refine ⟨?_, ih _⟩
        intro hm
        obtain ⟨c, hc, e⟩ := List.mem_map.1 hm
        have := ((valid_mem _ _ c).1 hc).2.1
        simp [e] at this

theorem fold_register (ss : List Server) (m : Mgr) (hn : ((m.servers ++ ss).map (·.conf.label)).Nodup) :
    ss.foldl (fun m s => (m.register s).2) m =
      { m with servers := m.servers ++ ss, binds := ss.foldl (fun bs s => bindAll s.conf.label s.tools bs) m.binds } := by
  induction ss generalizing m with
  | nil => simp
  | cons s ss ih =>
    have hr : m.register s = (true, { m with binds := bindAll s.conf.label s.tools m.binds, servers := m.servers ++ [s] }) := by
      unfold Mgr.register
      rw [if_neg]
      simp only [List.any_eq_true, decide_eq_true_eq, not_exists, not_and]
      intro x hx e
      rw [List.map_append, List.nodup_append] at hn
      exact hn.2.2 _ (List.mem_map_of_mem hx) _ (List.mem_map_of_mem (List.mem_cons_self ..)) e
    rw [List.foldl_cons, hr, ih]
    · simp
    · simpa using hn

theorem loaded_labels (w : World) (hash : Config → Nat) (cache : Cache) (cs : List Config) :
    ((load w hash cache cs).1.servers.map (·.conf.label)).Nodup := by
  have : ((load w hash cache cs).1.servers.map (·.conf.label)).Sublist ((valid cs []).map (·.label)) := by
    show (((valid cs []).filterMap _).map _).Sublist _
    generalize valid cs [] = l
    induction l with
    | nil => simp
    | cons c l ih =>
      rw [List.filterMap_cons]
      cases ht : toolsOf w hash cache c with
      | none => exact ih.cons _
      | some ts => exact ih.cons_cons _
  exact (valid_labels cs []).sublist this

theorem good_load (w : World) (hash : Config → Nat) (cache : Cache) (cs : List Config) : Good (load w hash cache cs).1 := by
  have h := fold_register (load w hash cache cs).1.servers {} (by simpa using loaded_labels w hash cache cs)
  have : (load w hash cache cs).1 = (load w hash cache cs).1.servers.foldl (fun m s => (m.register s).2) {} := by
    rw [h]; rfl
  rw [this]
  have key : ∀ (ss : List Server) (m : Mgr), Good m → Good (ss.foldl (fun m s => (m.register s).2) m) := by
    intro ss
    induction ss with
    | nil => intro m h; exact h
    | cons s ss ih => intro m h; exact ih _ (h.register s)
  exact key _ _ good_empty

/-- What happens to the servers of the shell. -/
inductive Op where
  | add (w : World) (c : Config)
  | remove (label : Str)
  | sync (w : World) (ds : List Config)
  | connect (w : World) (label : Str)
  | disconnect (label : Str)

def Mgr.op (m : Mgr) : Op → Mgr
  | .add w c => (m.add w c).2
  | .remove l => m.remove l
  | .sync w ds => m.sync w ds
  | .connect w l => (m.connect w l).2
  | .disconnect l => (m.disconnect l).2

/-- A manager there can be: that of the shell after anything, or one made for a conversation. -/
inductive Reached : Mgr → Prop where
  | start : Reached {}
  | loaded (w : World) (hash : Config → Nat) (cache : Cache) (cs : List Config) : Reached (load w hash cache cs).1
  | op (m : Mgr) (o : Op) : Reached m → Reached (m.op o)

theorem Reached.good {m : Mgr} (h : Reached m) : Good m := by
  induction h with
  | start => exact good_empty
  | loaded w hash cache cs => exact good_load w hash cache cs
  | op m o _ ih =>
    cases o with
    | add w c => exact ih.add w c
    | remove l => exact ih.remove l
    | sync w ds => exact ih.sync w ds
    | connect w l => exact ih.connect w l
    | disconnect l => exact ⟨ih.labels, ih.names, ih.sound, ih.full, ih.proper⟩

/-! ### C175 -/

theorem nodup_find (ss : List Server) (h : (ss.map (·.conf.label)).Nodup) (s : Server) (hs : s ∈ ss) :
    ss.find? (fun x => decide (x.conf.label = s.conf.label)) = some s := by
  induction ss with
  | nil => cases hs
  | cons x ss ih =>
    rw [List.map_cons, List.nodup_cons] at h
    rw [List.find?_cons]
    rcases List.mem_cons.1 hs with rfl | hs
    · simp
    · have : x.conf.label ≠ s.conf.label := fun e => h.1 (by rw [e]; exact List.mem_map_of_mem hs)
      simp [this, ih h.2 hs]

theorem nodup_lookup (bs : List (Str × Bind)) (h : (bs.map (·.1)).Nodup) (b : Str × Bind) (hb : b ∈ bs) : bs.lookup b.1 = some b.2 := by
  induction bs with
  | nil => cases hb
  | cons x bs ih =>
    obtain ⟨f, y⟩ := x
    rw [List.map_cons, List.nodup_cons] at h
    rw [List.lookup_cons]
    rcases List.mem_cons.1 hb with rfl | hb
    · simp
    · have : b.1 ≠ f := fun e => h.1 (by show f ∈ _; rw [← e]; exact List.mem_map_of_mem (f := fun x : Str × Bind => x.1) hb)
      simp [beq_eq_false_iff_ne.2 this, ih h.2 hb]

theorem Good.execute {m : Mgr} (h : Good m) {f : Str} {b : Bind} (hb : (f, b) ∈ m.binds) :
    ∃ s ∈ m.servers, s.conf.label = b.label ∧ m.execute f = some (s.conf.way, b.tool) := by
  obtain ⟨s, hs, hl, -⟩ := h.sound _ hb
  refine ⟨s, hs, hl, ?_⟩
  unfold Mgr.execute
  rw [nodup_lookup _ h.names _ hb]
  have := nodup_find _ h.labels s hs
  rw [hl] at this
  simp only at this ⊢
  rw [this]
  rfl

/-- A text about a tool: its server, its name and its description are in it. -/
def About (d : Str) (s : Server) (t : Tool) : Prop :=
  (['`'] ++ s.conf.label ++ ['`']) <:+: d ∧ (['`'] ++ t.name ++ ['`']) <:+: d ∧ (∀ x, t.desc = some x → x <:+: d) ∧
    (∀ x, s.conf.desc = some x → x <:+: d)

theorem infix_mid (a b c : Str) : b <:+: a ++ b ++ c := ⟨a, c, rfl⟩

theorem describe_about (s : Server) (t : Tool) : About (describe s.conf t) s t := by
  obtain ⟨⟨l, sd, way⟩, ts⟩ := s
  obtain ⟨n, td⟩ := t
  unfold About describe
  cases sd with
  | none =>
    cases td with
    | none =>
      refine ⟨⟨c!"MCP server ", c!" tool `" ++ n ++ c!"`", by simp⟩, ⟨c!"MCP server `" ++ l ++ c!"` tool ", [], by simp⟩, nofun, nofun⟩
    | some b =>
      dsimp only
      split
      · refine ⟨⟨c!"MCP server ", c!" tool `" ++ n ++ c!"`: " ++ b, by simp⟩, ⟨c!"MCP server `" ++ l ++ c!"` tool ", c!": " ++ b, by simp⟩, ?_, nofun⟩
        intro x hx; cases hx
        exact ⟨c!"MCP server `" ++ l ++ c!"` tool `" ++ n ++ c!"`: ", [], by simp⟩
      · rename_i hb
        have hb : b = [] := by simpa using hb
        refine ⟨⟨c!"MCP server ", c!" tool `" ++ n ++ c!"`", by simp⟩, ⟨c!"MCP server `" ++ l ++ c!"` tool ", [], by simp⟩, ?_, nofun⟩
        intro x hx; cases hx; subst hb; exact ⟨[], _, rfl⟩
  | some a =>
    cases td with
    | none =>
      dsimp only
      split
      · refine ⟨⟨c!"MCP server ", c!" — " ++ a ++ c!"\nTool `" ++ n ++ c!"`", by simp⟩, ⟨c!"MCP server `" ++ l ++ c!"` — " ++ a ++ c!"\nTool ", [], by simp⟩, nofun, ?_⟩
        intro x hx; cases hx
        exact ⟨c!"MCP server `" ++ l ++ c!"` — ", c!"\nTool `" ++ n ++ c!"`", by simp⟩
      · rename_i ha
        have ha : a = [] := by simpa using ha
        refine ⟨⟨c!"MCP server ", c!" tool `" ++ n ++ c!"`", by simp⟩, ⟨c!"MCP server `" ++ l ++ c!"` tool ", [], by simp⟩, nofun, ?_⟩
        intro x hx; cases hx; subst ha; exact ⟨[], _, rfl⟩
    | some b =>
      dsimp only
      split
      · refine ⟨⟨c!"MCP server ", c!" — " ++ a ++ c!"\nTool `" ++ n ++ c!"`: " ++ b, by simp⟩, ⟨c!"MCP server `" ++ l ++ c!"` — " ++ a ++ c!"\nTool ", c!": " ++ b, by simp⟩, ?_, ?_⟩
        · intro x hx; cases hx
          exact ⟨c!"MCP server `" ++ l ++ c!"` — " ++ a ++ c!"\nTool `" ++ n ++ c!"`: ", [], by simp⟩
        · intro x hx; cases hx
          exact ⟨c!"MCP server `" ++ l ++ c!"` — ", c!"\nTool `" ++ n ++ c!"`: " ++ b, by simp⟩
      · rename_i ha
        have ha : a = [] := by simpa using ha
        subst ha
        split
        · refine ⟨⟨c!"MCP server ", c!" tool `" ++ n ++ c!"`: " ++ b, by simp⟩, ⟨c!"MCP server `" ++ l ++ c!"` tool ", c!": " ++ b, by simp⟩, ?_, ?_⟩
          · intro x hx; cases hx
            exact ⟨c!"MCP server `" ++ l ++ c!"` tool `" ++ n ++ c!"`: ", [], by simp⟩
          · intro x hx; cases hx; exact ⟨[], _, rfl⟩
        · rename_i hb
          have hb : b = [] := by simpa using hb
          subst hb
          refine ⟨⟨c!"MCP server ", c!" tool `" ++ n ++ c!"`", by simp⟩, ⟨c!"MCP server `" ++ l ++ c!"` tool ", [], by simp⟩, ?_, ?_⟩
          · intro x hx; cases hx; exact ⟨[], _, rfl⟩
          · intro x hx; cases hx; exact ⟨[], _, rfl⟩

theorem definition_of {m : Mgr} (h : Good m) {f : Str} {b : Bind} (hb : (f, b) ∈ m.binds) :
    ∃ s ∈ m.servers, ∃ t ∈ s.tools, s.conf.label = b.label ∧ t.name = b.tool ∧
      (m.servers.find? (fun s => decide (s.conf.label = b.label))).bind (fun s =>
        (s.tools.find? (fun t => decide (t.name = b.tool))).map (fun t => (f, describe s.conf t))) = some (f, describe s.conf t) := by
  obtain ⟨s, hs, hl, t, ht, hn⟩ := h.sound _ hb
  have hf := nodup_find _ h.labels s hs
  rw [hl] at hf
  simp only at hf hn hl
  cases hg : s.tools.find? (fun t => decide (t.name = b.tool)) with
  | none => exact absurd hn (by simpa using List.find?_eq_none.1 hg t ht)
  | some t' =>
    refine ⟨s, hs, t', List.mem_of_find?_eq_some hg, hl, ?_, ?_⟩
    · simpa using List.find?_some (p := fun t : Tool => decide (t.name = b.tool)) hg
    · rw [hf]; simp [hg]

/-- **C175, a tool called is the tool told of.** For every manager there can be: a function the AI is told of has a
text with the names of its server and its tool, and a call of it goes to this tool of this server. -/
theorem C175_called_partial (m : Mgr) (hm : Reached m) (f d : Str) (h : (f, d) ∈ m.definitions) :
    ∃ s ∈ m.servers, ∃ t ∈ s.tools, About d s t ∧ m.execute f = some (s.conf.way, t.name) := by
  unfold Mgr.definitions at h
  obtain ⟨⟨f', b⟩, hb, he⟩ := List.mem_filterMap.1 h
  obtain ⟨s, hs, t, ht, hl, hn, hd⟩ := definition_of hm.good hb
  simp only at he
  rw [hd] at he
  cases he
  obtain ⟨s', hs', hl', hx⟩ := hm.good.execute hb
  have h1 := nodup_find _ hm.good.labels s hs
  have h2 := nodup_find _ hm.good.labels s' hs'
  rw [hl] at h1
  rw [hl', h1] at h2
  cases h2
  exact ⟨s, hs, t, ht, describe_about s t, by rw [hx, hn]⟩

/-- **C175, every tool is told of**, and can be called. -/
theorem C175_told_partial (m : Mgr) (hm : Reached m) (s : Server) (hs : s ∈ m.servers) (t : Tool) (ht : t ∈ s.tools) :
    ∃ f d, (f, d) ∈ m.definitions ∧ m.execute f = some (s.conf.way, t.name) := by
  obtain ⟨f, hf⟩ := hm.good.full s hs t ht
  obtain ⟨s1, _, t1, _, _, _, hd⟩ := definition_of hm.good hf
  obtain ⟨s', hs', hl', hx⟩ := hm.good.execute hf
  have h1 := nodup_find _ hm.good.labels s hs
  have h2 := nodup_find _ hm.good.labels s' hs'
  rw [hl', h1] at h2
  cases h2
  exact ⟨f, _, List.mem_filterMap.2 ⟨_, hf, hd⟩, hx⟩

/-- **C175, names.** Functions have different names, and each name has nothing but lower case letters, digits
and `_`, so no other tool of the AI has one of them. -/
theorem C175_names_partial (m : Mgr) (hm : Reached m) :
    (m.definitions.map (·.1)).Nodup ∧ ∀ d ∈ m.definitions, c!"mcp__" <+: d.1 ∧ ∀ c ∈ d.1, Proper c := by
  constructor
  · refine hm.good.names.sublist ?_
    unfold Mgr.definitions
    generalize m.binds = bs
    induction bs with
    | nil => simp
    | cons b bs ih =>
      rw [List.filterMap_cons]
      cases hs : m.servers.find? (fun s => decide (s.conf.label = b.2.label)) with
      | none => exact ih.cons _
      | some s =>
        cases ht : s.tools.find? (fun t => decide (t.name = b.2.tool)) with
        | none => simp only [Option.bind_some, ht, Option.map_none]; exact ih.cons _
        | some t => simp only [Option.bind_some, ht, Option.map_some]; exact ih.cons_cons _
  · intro d hd
    unfold Mgr.definitions at hd
    obtain ⟨⟨f', b⟩, hb, he⟩ := List.mem_filterMap.1 hd
    obtain ⟨s, hs, t, ht, hl, hn, h⟩ := definition_of hm.good hb
    simp only at he
    rw [h] at he
    cases he
    exact hm.good.proper _ hb

/-! ### Servers by label -/

def Mgr.server (m : Mgr) (l : Str) : Option Server := m.servers.find? (fun s => decide (s.conf.label = l))

theorem server_label {m : Mgr} {l : Str} {s : Server} (h : m.server l = some s) : s ∈ m.servers ∧ s.conf.label = l :=
  ⟨List.mem_of_find?_eq_some h, by simpa using List.find?_some (p := fun s : Server => decide (s.conf.label = l)) h⟩

theorem find_filter (ss : List Server) (l l' : Str) :
    (ss.filter (fun x => decide (x.conf.label ≠ l))).find? (fun s => decide (s.conf.label = l')) =
      if l' = l then none else ss.find? (fun s => decide (s.conf.label = l')) := by
  induction ss with
  | nil => simp
  | cons s ss ih =>
    rw [List.filter_cons]
    by_cases h : s.conf.label = l
    · simp only [h, ne_eq, not_true_eq_false, decide_false, Bool.false_eq_true, if_false, ih, List.find?_cons]
      by_cases hl : l' = l
      · simp [hl]
      · simp [hl, Ne.symm hl]
    · simp only [h, ne_eq, not_false_eq_true, decide_true, if_true, List.find?_cons, ih]
      by_cases hl : l' = l
      · subst hl; simp [h]
      · simp [hl]

theorem remove_server (m : Mgr) (l l' : Str) : (m.remove l).server l' = if l' = l then none else m.server l' := by
  unfold Mgr.remove Mgr.server
  split
  · exact find_filter _ _ _
  · rename_i h
    split
    · rename_i e
      subst e
      rw [List.find?_eq_none]
      simpa using h
    · rfl

theorem register_server (m : Mgr) (s : Server) (h : m.server s.conf.label = none) (l : Str) :
    (m.register s).2.server l = if l = s.conf.label then some s else m.server l := by
  have hn : ¬ m.servers.any (fun x => decide (x.conf.label = s.conf.label)) = true := by
    simpa [Mgr.server, List.find?_eq_none] using h
  unfold Mgr.register
  rw [if_neg hn]
  show (m.servers ++ [s]).find? _ = _
  rw [List.find?_append]
  split
  · rename_i e
    subst e
    rw [show m.servers.find? _ = none from h]
    simp
  · rename_i e
    simp [Mgr.server, Ne.symm e]

/-- What a wanted server becomes. -/
def wished (w : World) (s : Option Server) (d : Config) : Option Server :=
  match s with
  | none => (listTools w d.way).map (fun ts => ⟨d, ts⟩)
  | some s => if s.conf = d then some s else match listTools w d.way with
    | some ts => some ⟨d, ts⟩
    | none => some s

theorem want_server (w : World) (old : List Config) (m : Mgr) (d : Config) (l : Str)
    (h : old.find? (fun c => decide (c.label = d.label)) = (m.server d.label).map (·.conf)) :
    (m.want w old d).server l = if l = d.label then wished w (m.server d.label) d else m.server l := by
  unfold Mgr.want wished
  rw [h]
  cases hs : m.server d.label with
  | none =>
    simp only [Option.map_none]
    unfold Mgr.add
    cases hl : listTools w d.way with
    | none =>
      simp only [Option.map_none]
      split
      · rename_i e; rw [e, hs]
      · rfl
    | some ts => exact register_server m ⟨d, ts⟩ hs l
  | some s =>
    simp only [Option.map_some]
    split
    · split
      · rename_i e; rw [e, hs]
      · rfl
    · unfold Mgr.replace
      cases hl : listTools w d.way with
      | none =>
        dsimp only
        split
        · rename_i e; rw [e, hs]
        · rfl
      | some ts =>
        dsimp only
        rw [register_server _ ⟨d, ts⟩ (by rw [remove_server]; simp)]
        dsimp only
        split
        · rfl
        · rename_i e; rw [remove_server, if_neg e]

theorem configs_find (m : Mgr) (l : Str) : m.configs.find? (fun c => decide (c.label = l)) = (m.server l).map (·.conf) := by
  unfold Mgr.configs Mgr.server
  rw [List.find?_map]
  rfl

theorem wants_server (w : World) (m0 : Mgr) (cs : List Config) (hn : (cs.map (·.label)).Nodup) (m : Mgr)
    (h : ∀ c ∈ cs, m.server c.label = m0.server c.label) (l : Str) :
    (cs.foldl (Mgr.want w m0.configs) m).server l = match cs.find? (fun c => decide (c.label = l)) with
      | none => m.server l
      | some d => wished w (m.server l) d := by
  induction cs generalizing m with
  | nil => rfl
  | cons c cs ih =>
    rw [List.map_cons, List.nodup_cons] at hn
    have hw := fun l => want_server w m0.configs m c l (by rw [configs_find, h c (List.mem_cons_self ..)])
    rw [List.foldl_cons, ih hn.2]
    · rw [List.find?_cons]
      by_cases e : c.label = l
      · have : cs.find? (fun c => decide (c.label = l)) = none := by
          rw [List.find?_eq_none]
          intro x hx
          simp only [decide_eq_true_eq]
          intro e'
          exact hn.1 (by rw [e, ← e']; exact List.mem_map_of_mem hx)
        simp only [e, decide_true, this, hw, if_true]
      · simp only [e, decide_false, hw, if_neg (Ne.symm e)]
    · intro x hx
      rw [hw, if_neg (fun e => hn.1 (by rw [← e]; exact List.mem_map_of_mem hx))]
      exact h x (List.mem_cons_of_mem _ hx)

theorem removes_server (ls : List Str) (m : Mgr) (l : Str) : (ls.foldl Mgr.remove m).server l = if l ∈ ls then none else m.server l := by
  induction ls generalizing m with
  | nil => simp
  | cons x ls ih =>
    rw [List.foldl_cons, ih, remove_server]
    by_cases h1 : l = x
    · simp [h1]
    · simp [h1]

theorem find_sorted (cs : List Config) (hn : (cs.map (·.label)).Nodup) (le : Config → Config → Bool) (l : Str) :
    (sortBy le cs).find? (fun c => decide (c.label = l)) = cs.find? (fun c => decide (c.label = l)) := by
  have hp := sortBy_perm le cs
  cases h : cs.find? (fun c => decide (c.label = l)) with
  | none =>
    rw [List.find?_eq_none] at h ⊢
    intro x hx
    exact h x (hp.mem_iff.1 hx)
  | some c =>
    have hc := List.mem_of_find?_eq_some h
    have hl : c.label = l := by simpa using List.find?_some (p := fun c : Config => decide (c.label = l)) h
    cases h' : (sortBy le cs).find? (fun c => decide (c.label = l)) with
    | none =>
      rw [List.find?_eq_none] at h'
      exact absurd hl (by simpa using h' c (hp.mem_iff.2 hc))
    | some c' =>
      have hc' := hp.mem_iff.1 (List.mem_of_find?_eq_some h')
      have hl' : c'.label = l := by simpa using List.find?_some (p := fun c : Config => decide (c.label = l)) h'
      congr 1
      clear h h' hp
      induction cs with
      | nil => cases hc
      | cons x cs ih =>
        rw [List.map_cons, List.nodup_cons] at hn
        rcases List.mem_cons.1 hc with rfl | hc2 <;> rcases List.mem_cons.1 hc' with rfl | hc3
        · rfl
        · exact absurd (List.mem_map_of_mem (f := fun x : Config => x.label) hc3) (by rw [hl', ← hl]; exact hn.1)
        · exact absurd (List.mem_map_of_mem (f := fun x : Config => x.label) hc2) (by rw [hl, ← hl']; exact hn.1)
        · exact ih hn.2 hc2 hc3

theorem sync_server (w : World) (m : Mgr) (ds : List Config) (l : Str) :
    (m.sync w ds).server l = ((valid ds []).find? (fun c => decide (c.label = l))).bind (wished w (m.server l)) := by
  have hn := valid_labels ds []
  unfold Mgr.sync
  dsimp only
  have hgone : ∀ l, ((sortBy Suggest.strLe ((m.configs.map (·.label)).filter (fun l => decide (l ∉ (valid ds []).map (·.label))))).foldl Mgr.remove m).server l =
      if l ∈ (valid ds []).map (·.label) then m.server l else none := by
    intro l
    rw [removes_server]
    have hmem : l ∈ sortBy Suggest.strLe ((m.configs.map (·.label)).filter (fun l => decide (l ∉ (valid ds []).map (·.label)))) ↔
        l ∈ m.configs.map (·.label) ∧ l ∉ (valid ds []).map (·.label) := by
      rw [(sortBy_perm _ _).mem_iff, List.mem_filter, decide_eq_true_eq]
    by_cases hv : l ∈ (valid ds []).map (·.label)
    · rw [if_neg (fun h => (hmem.1 h).2 hv), if_pos hv]
    · rw [if_neg hv]
      by_cases hc : l ∈ m.configs.map (·.label)
      · rw [if_pos (hmem.2 ⟨hc, hv⟩)]
      · rw [if_neg (fun h => hc (hmem.1 h).1)]
        unfold Mgr.server
        rw [List.find?_eq_none]
        intro x hx
        simp only [decide_eq_true_eq]
        intro e
        exact hc (by unfold Mgr.configs; rw [List.map_map, ← e]; exact List.mem_map_of_mem hx)
  rw [wants_server]
  · rw [find_sorted _ hn]
    cases hf : (valid ds []).find? (fun c => decide (c.label = l)) with
    | none =>
      rw [hgone, if_neg]
      · rfl
      · intro hm
        obtain ⟨x, hx, e⟩ := List.mem_map.1 hm
        exact absurd e (by simpa using List.find?_eq_none.1 hf x hx)
    | some d =>
      have hl : d.label = l := by simpa using List.find?_some (p := fun c : Config => decide (c.label = l)) hf
      simp only [Option.bind_some]
      rw [hgone, if_pos]
      rw [← hl]
      exact List.mem_map_of_mem (List.mem_of_find?_eq_some hf)
  · exact ((sortBy_perm _ _).map _).nodup_iff.2 hn
  · intro c hc
    rw [hgone, if_pos]
    exact List.mem_map_of_mem ((sortBy_perm _ _).mem_iff.1 hc)

/-! ### C176 -/

/-- A server that was set: its label is not blank, and no earlier one has it. -/
def Set' (cs : List Config) (c : Config) : Prop :=
  trim c.label ≠ [] ∧ ∃ pre post, cs = pre ++ c :: post ∧ ∀ x ∈ pre, x.label ≠ c.label

theorem set_iff (cs : List Config) (c : Config) : Set' cs c ↔ c ∈ valid cs [] := by
  rw [valid_mem]; simp [Set']

theorem set_find (cs : List Config) (c : Config) (h : Set' cs c) : (valid cs []).find? (fun x => decide (x.label = c.label)) = some c := by
  rw [set_iff] at h
  have hn := valid_labels cs []
  generalize valid cs [] = l at h hn
  induction l with
  | nil => cases h
  | cons x l ih =>
    rw [List.map_cons, List.nodup_cons] at hn
    rw [List.find?_cons]
    rcases List.mem_cons.1 h with rfl | h
    · simp
    · have : x.label ≠ c.label := fun e => hn.1 (by rw [e]; exact List.mem_map_of_mem h)
      simp [this, ih h hn.2]

theorem server_mem {m : Mgr} (hm : Good m) (s : Server) : s ∈ m.servers ↔ m.server s.conf.label = some s :=
  ⟨fun h => nodup_find _ hm.labels s h, fun h => (server_label h).1⟩

/-- **C176, after the configuration was read** the servers are exactly those set, if those set answer. -/
theorem C176_reload_partial (m : Mgr) (hm : Reached m) (w : World) (ds : List Config) (hw : ∀ c, Set' ds c → w c.way ≠ none) (c : Config) :
    (∃ s ∈ (m.sync w ds).servers, s.conf = c) ↔ Set' ds c := by
  have hg := hm.good.sync w ds
  constructor
  · rintro ⟨s, hs, rfl⟩
    rw [server_mem hg, sync_server] at hs
    cases hf : (valid ds []).find? (fun c => decide (c.label = s.conf.label)) with
    | none => rw [hf] at hs; cases hs
    | some d =>
      rw [hf, Option.bind_some] at hs
      have hd := List.mem_of_find?_eq_some hf
      rw [← set_iff] at hd
      have hwd := hw d hd
      have hlt : listTools w d.way ≠ none := by simpa [listTools] using hwd
      unfold wished at hs
      cases ho : m.server s.conf.label with
      | none =>
        rw [ho] at hs
        simp only at hs
        cases hl : listTools w d.way with
        | none => exact absurd hl hlt
        | some ts => rw [hl] at hs; cases hs; exact hd
      | some s0 =>
        rw [ho] at hs
        simp only at hs
        split at hs
        · rename_i e; cases hs; rw [e]; exact hd
        · cases hl : listTools w d.way with
          | none => exact absurd hl hlt
          | some ts => rw [hl] at hs; cases hs; exact hd
  · intro hc
    have h := sync_server w m ds c.label
    rw [set_find ds c hc, Option.bind_some] at h
    have hlt : listTools w c.way ≠ none := by simpa [listTools] using hw c hc
    unfold wished at h
    split at h
    · cases hl : listTools w c.way with
      | none => exact absurd hl hlt
      | some ts => rw [hl] at h; exact ⟨_, (server_label h).1, rfl⟩
    · split at h
      · rename_i e; exact ⟨_, (server_label h).1, e⟩
      · cases hl : listTools w c.way with
        | none => exact absurd hl hlt
        | some ts => rw [hl] at h; exact ⟨_, (server_label h).1, rfl⟩

/-- **C176, new and changed servers** have the tools they name now (the first page of them), whatever the other
servers do. -/
theorem C176_new_partial (m : Mgr) (w : World) (ds : List Config) (c : Config) (hc : Set' ds c) (hn : c ∉ m.configs)
    (p : List Tool) (ps : List (List Tool)) (hw : w c.way = some (p :: ps)) : ⟨c, p⟩ ∈ (m.sync w ds).servers := by
  have h := sync_server w m ds c.label
  rw [set_find ds c hc, Option.bind_some] at h
  have hl : listTools w c.way = some p := by simp [listTools, hw]
  unfold wished at h
  rw [hl] at h
  split at h
  · exact (server_label h).1
  · rename_i s hs
    rw [if_neg (fun e => hn (by rw [← e]; exact List.mem_map_of_mem (server_label hs).1))] at h
    exact (server_label h).1

/-- **C176, a server no longer set** is gone, and so are its tools. -/
theorem C176_gone_partial (m : Mgr) (hm : Reached m) (w : World) (ds : List Config) (l : Str) (hl : ∀ c, Set' ds c → c.label ≠ l) :
    (∀ s ∈ (m.sync w ds).servers, s.conf.label ≠ l) ∧ ∀ b ∈ (m.sync w ds).binds, b.2.label ≠ l := by
  have hg := hm.good.sync w ds
  have h1 : ∀ s ∈ (m.sync w ds).servers, s.conf.label ≠ l := by
    intro s hs e
    rw [server_mem hg, sync_server] at hs
    cases hf : (valid ds []).find? (fun c => decide (c.label = s.conf.label)) with
    | none => rw [hf] at hs; cases hs
    | some d =>
      have hd := List.mem_of_find?_eq_some hf
      rw [← set_iff] at hd
      have : d.label = s.conf.label := by simpa using List.find?_some (p := fun c : Config => decide (c.label = s.conf.label)) hf
      exact hl d hd (this.trans e)
  refine ⟨h1, ?_⟩
  intro b hb e
  obtain ⟨s, hs, hsl, -⟩ := hg.sound b hb
  exact h1 s hs (hsl.trans e)

/-- **C176 fails: tools of servers that stay.** A server that is set as before keeps the tools it named when it was
added, whatever it names now. -/
theorem C176_stale_violated (m : Mgr) (ds : List Config) (s : Server) (hs : m.server s.conf.label = some s) (hd : Set' ds s.conf) (w : World) :
    (m.sync w ds).server s.conf.label = some s := by
  rw [sync_server, set_find ds _ hd, Option.bind_some, hs]
  simp [wished]

/-- **C176 fails: changes that do not answer.** If a server is set differently and does not answer, the one there
was stays. -/
theorem C176_old_violated (m : Mgr) (ds : List Config) (s : Server) (c : Config) (hs : m.server c.label = some s) (hc : Set' ds c) (w : World)
    (hw : w c.way = none) : (m.sync w ds).server c.label = some s := by
  rw [sync_server, set_find ds _ hc, Option.bind_some, hs]
  simp [wished, listTools, hw]

/-- **C176 fails: `mcp-clear`.** No server is set any more, but all tools are told of and can be called. -/
theorem C176_clear_violated (s : Shell) : s.clear.wanted = [] ∧ s.clear.mgr.definitions = s.mgr.definitions ∧
    ∀ f, s.clear.mgr.execute f = s.mgr.execute f := ⟨rfl, rfl, fun _ => rfl⟩

/-- **C176 fails: a server set again.** `mcp-add-…` with the label of a server there is adds it to the list, but its
tools are never told of: the manager stays as it was. -/
theorem C176_again_violated (s : Shell) (c : Config) (h : c.label ∈ s.mgr.configs.map (·.label)) (w : World) :
    c ∈ (s.add w c).wanted ∧ (s.add w c).mgr = s.mgr := by
  refine ⟨by simp [Shell.add], ?_⟩
  unfold Shell.add
  dsimp only
  split
  · rfl
  · unfold Mgr.add
    split
    · rfl
    · unfold Mgr.register
      rw [if_pos]
      obtain ⟨x, hx, e⟩ := List.mem_map.1 h
      obtain ⟨y, hy, rfl⟩ := List.mem_map.1 hx
      simp only [List.any_eq_true, decide_eq_true_eq]
      exact ⟨y, hy, e⟩

/-- **C176 fails: further pages.** Only the first page of the tools of a server is told of. -/
theorem C176_pages_violated (m : Mgr) (c : Config) (w w' : World) (p : List Tool) (ps : List (List Tool))
    (h : w c.way = some (p :: ps)) (h' : w' c.way = some [p]) : m.add w c = m.add w' c := by
  simp [Mgr.add, listTools, h, h']

theorem put_lookup (c : Cache) (l l' : Str) (e : Nat × List Tool) : (c.put l e).lookup l' = if l' = l then some e else c.lookup l' := by
  unfold Cache.put
  rw [List.lookup_cons]
  by_cases h : l' = l
  · simp [h]
  · rw [beq_eq_false_iff_ne.2 h, if_neg h]
    simp only
    induction c with
    | nil => rfl
    | cons x c ih =>
      obtain ⟨a, b⟩ := x
      rw [List.filter_cons]
      by_cases ha : a = l
      · subst ha
        simp only [ne_eq, not_true_eq_false, decide_false, Bool.false_eq_true, if_false, ih]
        rw [List.lookup_cons, beq_eq_false_iff_ne.2 h]
      · simp only [ne_eq, ha, not_false_eq_true, decide_true, if_true]
        rw [List.lookup_cons, List.lookup_cons, ih]

theorem puts_lookup (hash : Config → Nat) (ss : List Server) (hn : (ss.map (·.conf.label)).Nodup) (c : Cache) (s : Server) (hs : s ∈ ss) :
    (ss.foldl (fun k s => k.put s.conf.label (hash s.conf, s.tools)) c).lookup s.conf.label = some (hash s.conf, s.tools) := by
  have hother : ∀ (ss : List Server) (c : Cache) (l : Str), l ∉ ss.map (·.conf.label) →
      (ss.foldl (fun k s => k.put s.conf.label (hash s.conf, s.tools)) c).lookup l = c.lookup l := by
    intro ss
    induction ss with
    | nil => intro c l _; rfl
    | cons x ss ih =>
      intro c l hl
      rw [List.map_cons, List.mem_cons, not_or] at hl
      rw [List.foldl_cons, ih _ _ hl.2, put_lookup, if_neg hl.1]
  induction ss generalizing c with
  | nil => cases hs
  | cons x ss ih =>
    rw [List.map_cons, List.nodup_cons] at hn
    rw [List.foldl_cons]
    rcases List.mem_cons.1 hs with rfl | hs
    · rw [hother _ _ _ hn.1, put_lookup, if_pos rfl]
    · exact ih hn.2 _ hs

/-- **C176, conversations.** A server that is set and answers has in a conversation the tools it has now, if nothing is
remembered of it or what is remembered is of another configuration. -/
theorem C176_load_partial (w : World) (hash : Config → Nat) (cache : Cache) (cs : List Config) (c : Config) (p : List Tool) (ps : List (List Tool))
    (hc : Set' cs c) (hw : w c.way = some (p :: ps)) (hh : ∀ e, cache.lookup c.label = some e → e.1 ≠ hash c) :
    ⟨c, p⟩ ∈ (load w hash cache cs).1.servers := by
  rw [set_iff] at hc
  refine List.mem_filterMap.2 ⟨c, hc, ?_⟩
  unfold toolsOf
  split
  · rename_i e he
    rw [if_neg (hh e he)]
    simp [listTools, hw]
  · simp [listTools, hw]

/-- Every server of a conversation was set. -/
theorem C176_only_partial (w : World) (hash : Config → Nat) (cache : Cache) (cs : List Config) (s : Server)
    (hs : s ∈ (load w hash cache cs).1.servers) : Set' cs s.conf := by
  obtain ⟨c, hc, he⟩ := List.mem_filterMap.1 hs
  rw [set_iff]
  cases ht : toolsOf w hash cache c with
  | none => rw [ht] at he; cases he
  | some ts => rw [ht] at he; cases he; exact hc

/-- **C176 fails: tools are asked for once.** The tools of a server are remembered on disk without end: as long as it
is set as before, every later conversation has the tools of the first, whatever the server names now. -/
theorem C176_cache_violated (w w' : World) (hash : Config → Nat) (cache : Cache) (cs cs' : List Config) (s : Server)
    (hs : s ∈ (load w hash cache cs).1.servers) (hc : Set' cs' s.conf) : s ∈ (load w' hash (load w hash cache cs).2 cs').1.servers := by
  rw [set_iff] at hc
  refine List.mem_filterMap.2 ⟨s.conf, hc, ?_⟩
  have : (load w hash cache cs).2.lookup s.conf.label = some (hash s.conf, s.tools) :=
    puts_lookup hash _ (loaded_labels w hash cache cs) cache s hs
  simp [toolsOf, this]

/-! ### C175, over time -/

theorem Good.lookup {m : Mgr} (h : Good m) {f : Str} {b : Bind} (hb : (f, b) ∈ m.binds) {s : Server} (hs : m.server b.label = some s) :
    m.execute f = some (s.conf.way, b.tool) := by
  unfold Mgr.execute
  rw [nodup_lookup _ h.names _ hb]
  simp only
  rw [show m.servers.find? _ = some s from hs]
  rfl

theorem register_binds (m : Mgr) (s : Server) : ∀ b ∈ m.binds, b ∈ (m.register s).2.binds := by
  intro b hb
  unfold Mgr.register
  split
  · exact hb
  · obtain ⟨ns, h1, -⟩ := bindAll_spec s.conf.label s.tools m.binds
    show b ∈ bindAll s.conf.label s.tools m.binds
    rw [h1]
    exact List.mem_append_left _ hb

theorem remove_binds (m : Mgr) (l : Str) : ∀ b ∈ m.binds, b.2.label ≠ l → b ∈ (m.remove l).binds := by
  intro b hb hl
  unfold Mgr.remove
  split
  · exact List.mem_filter.2 ⟨hb, by simpa using hl⟩
  · exact hb

theorem want_binds (w : World) (old : List Config) (m : Mgr) (d : Config) (b : Str × Bind) (hb : b ∈ m.binds)
    (h : b.2.label ≠ d.label ∨ old.find? (fun c => decide (c.label = d.label)) = some d ∨ listTools w d.way = none) : b ∈ (m.want w old d).binds := by
  unfold Mgr.want
  split
  · rename_i c hc
    split
    · exact hb
    · rename_i hne
      unfold Mgr.replace
      split
      · exact hb
      · rename_i ts hts
        rcases h with h | h | h
        · exact register_binds _ _ b (remove_binds m _ b hb h)
        · rw [hc] at h; exact absurd (Option.some.inj h) hne
        · rw [hts] at h; cases h
  · unfold Mgr.add
    split
    · exact hb
    · exact register_binds _ _ b hb

theorem sync_binds (w : World) (m : Mgr) (ds : List Config) (b : Str × Bind) (hb : b ∈ m.binds) (c : Config) (hc : Set' ds c) (hl : c.label = b.2.label)
    (h : m.configs.find? (fun x => decide (x.label = c.label)) = some c ∨ listTools w c.way = none) : b ∈ (m.sync w ds).binds := by
  unfold Mgr.sync
  dsimp only
  have hv := (set_iff ds c).1 hc
  have h1 : ∀ (ls : List Str) (m : Mgr), b ∈ m.binds → b.2.label ∉ ls → b ∈ (ls.foldl Mgr.remove m).binds := by
    intro ls
    induction ls with
    | nil => intro m hb _; exact hb
    | cons l ls ih =>
      intro m hb hn
      rw [List.mem_cons, not_or] at hn
      exact ih _ (remove_binds m l b hb hn.1) hn.2
  have h2 : ∀ (cs : List Config) (m' : Mgr), b ∈ m'.binds → (∀ x ∈ cs, x.label = c.label → x = c) → b ∈ (cs.foldl (Mgr.want w m.configs) m').binds := by
    intro cs
    induction cs with
    | nil => intro m hb _; exact hb
    | cons x cs ih =>
      intro m' hb hx
      refine ih _ (want_binds w _ m' x b hb ?_) (fun y hy => hx y (List.mem_cons_of_mem _ hy))
      by_cases e : x.label = c.label
      · cases hx x (List.mem_cons_self ..) e
        exact Or.inr h
      · left; rw [← hl]; exact Ne.symm e
  refine h2 _ _ (h1 _ _ hb ?_) ?_
  · intro hm
    rw [(sortBy_perm _ _).mem_iff, List.mem_filter, decide_eq_true_eq] at hm
    exact hm.2 (by rw [← hl]; exact List.mem_map_of_mem hv)
  · intro x hx e
    rw [(sortBy_perm _ _).mem_iff, ← set_iff] at hx
    have := set_find ds x hx
    rw [e, set_find ds c hc] at this
    exact (Option.some.inj this).symm

/-- **C175, names stay.** A function the AI was told of does the same after the configuration was read again, if its
server is set as before. -/
theorem C175_stay_partial (m : Mgr) (hm : Reached m) (w : World) (ds : List Config) (f : Str) (b : Bind) (hb : (f, b) ∈ m.binds)
    (hc : ∀ s ∈ m.servers, s.conf.label = b.label → Set' ds s.conf) : (m.sync w ds).execute f = m.execute f := by
  obtain ⟨s, hs, hl, -⟩ := hm.good.sound _ hb
  have hset := hc s hs hl
  have hsv := (server_mem hm.good s).1 hs
  have h1 := C176_stale_violated m ds s hsv hset w
  have h2 := sync_binds w m ds (f, b) hb s.conf hset hl (Or.inl (by rw [configs_find, hsv]; rfl))
  rw [(hm.good.sync w ds).lookup h2 (by rw [← hl]; exact h1), hm.good.lookup hb (by rw [← hl]; exact hsv)]

/-- ... and after servers were added, removed, connected and disconnected, unless its own was removed. -/
theorem C175_others_partial (m : Mgr) (hm : Reached m) (o : Op) (f : Str) (b : Bind) (hb : (f, b) ∈ m.binds)
    (ho : ∀ w ds, o ≠ .sync w ds) (hr : o ≠ .remove b.label) : (m.op o).execute f = m.execute f := by
  obtain ⟨s, hs, hl, -⟩ := hm.good.sound _ hb
  have hsv : m.server b.label = some s := by rw [← show s.conf.label = b.label from hl]; exact (server_mem hm.good s).1 hs
  have hg := (Reached.op m o hm).good
  rw [hm.good.lookup hb hsv]
  have hreg : ∀ x : Server, (f, b) ∈ (m.register x).2.binds ∧ (m.register x).2.server b.label = some s := by
    intro x
    refine ⟨register_binds m x _ hb, ?_⟩
    cases hx : m.server x.conf.label with
    | none =>
      rw [register_server m x hx, if_neg, hsv]
      intro e
      rw [e, hx] at hsv
      cases hsv
    | some y =>
      have : (m.register x).2 = m := by
        unfold Mgr.register
        rw [if_pos]
        simp only [List.any_eq_true, decide_eq_true_eq]
        exact ⟨y, server_label hx⟩
      rw [this]; exact hsv
  cases o with
  | add w c =>
    refine hg.lookup (b := b) ?_ ?_
    · show _ ∈ (m.add w c).2.binds
      unfold Mgr.add
      split
      · exact hb
      · exact (hreg _).1
    · show (m.add w c).2.server _ = _
      unfold Mgr.add
      split
      · exact hsv
      · exact (hreg _).2
  | remove l =>
    have hne : b.label ≠ l := fun e => hr (by rw [e])
    refine hg.lookup (b := b) (remove_binds m l _ hb hne) ?_
    show (m.remove l).server _ = _
    rw [remove_server, if_neg hne, hsv]
  | sync w ds => exact absurd rfl (ho w ds)
  | connect w l =>
    refine hg.lookup (b := b) ?_ ?_
    · show _ ∈ (m.connect w l).2.binds
      unfold Mgr.connect
      split
      · exact hb
      · split <;> exact hb
    · show (m.connect w l).2.server _ = _
      unfold Mgr.connect
      split
      · exact hsv
      · split <;> exact hsv
  | disconnect l => exact hg.lookup (b := b) hb hsv

/-- **C175 fails: a function that is not there.** The AI is told that it was executed. -/
theorem C175_unknown_violated (m : Mgr) (f : Str) (h : f ∉ m.binds.map (·.1)) (run : Nat × Str → Str) :
    m.told run f = c!"Tool executed successfully (no output)" := by
  unfold Mgr.told Mgr.execute
  have : m.binds.lookup f = none := by
    generalize m.binds = bs at h
    induction bs with
    | nil => rfl
    | cons x bs ih =>
      obtain ⟨a, b⟩ := x
      rw [List.map_cons, List.mem_cons, not_or] at h
      rw [List.lookup_cons, beq_eq_false_iff_ne.2 h.1]
      exact ih h.2
  rw [this]
  rfl

/-- Each server has a tool `x`. -/
def oneTool : World := fun _ => some [[⟨c!"x", none⟩]]

/-- **C175 fails: a name goes to another server.** The AI was told of `mcp__a_b__x` of server `a.b`. The configuration
is read again, with a server `a b` instead: now the same name calls the tool of `a b`. -/
theorem C175_moved_violated :
    let m := Mgr.sync oneTool {} [⟨c!"a.b", none, 1⟩]
    m.execute c!"mcp__a_b__x" = some (1, c!"x") ∧
      (m.sync oneTool [⟨c!"a b", none, 2⟩]).execute c!"mcp__a_b__x" = some (2, c!"x") := by decide +kernel

theorem squeeze_as (k n : Nat) : squeeze k (List.replicate n 'a') = List.replicate n 'a' := by
  have h : hasPair (List.replicate n 'a') = false := by
    induction n with
    | zero => rfl
    | succ n ih => rw [List.replicate_succ, hasPair]; exact ih; nofun
  cases k with
  | zero => rfl
  | succ k => rw [squeeze, h]; rfl

/-- **C175 fails: long names.** A name is as long as label and tool together and more; services refuse requests with
names of more than 64 characters. -/
theorem C175_long_violated (n : Nat) (t : Str) : n < (baseName (List.replicate n 'a') t).length := by
  have : (sanitize (List.replicate n 'a')).length ≥ n := by
    cases n with
    | zero => exact Nat.zero_le _
    | succ n =>
      unfold sanitize
      dsimp only
      rw [show (List.replicate (n + 1) 'a').map (fun c => if c.isAlphanum then c.toLower else '_') = List.replicate (n + 1) 'a' by
        rw [List.map_replicate]; rfl]
      have hE : (List.replicate (n + 1) 'a').isEmpty = false := by simp
      simp only [hE, Bool.false_eq_true, if_false, squeeze_as]
      have ht : trimUnder (List.replicate (n + 1) 'a') = List.replicate (n + 1) 'a' := by
        unfold trimUnder
        have hd : (List.replicate (n + 1) 'a').dropWhile (fun c => decide (c = '_')) = List.replicate (n + 1) 'a' := by
          rw [List.replicate_succ, List.dropWhile_cons]; rfl
        rw [hd, List.reverse_replicate, hd, List.reverse_replicate]
      rw [ht, if_neg (by simp)]
      simp
  simp only [baseName, List.length_append, List.length_cons]
  omega

/-- **C176 fails: calls.** A server is set differently but does not answer: its tools are still told of, and the
calls go where they went before. -/
theorem C176_elsewhere_violated (m : Mgr) (hm : Reached m) (w : World) (ds : List Config) (s : Server) (c : Config) (hs : m.server c.label = some s)
    (hc : Set' ds c) (hw : w c.way = none) (f tool : Str) (hb : (f, (⟨c.label, tool⟩ : Bind)) ∈ m.binds) :
    (m.sync w ds).execute f = some (s.conf.way, tool) := by
  have h1 := C176_old_violated m ds s c hs hc w hw
  have h2 := sync_binds w m ds _ hb c hc rfl (Or.inr (by simp [listTools, hw]))
  exact (hm.good.sync w ds).lookup h2 h1

/-! ### C177 -/

/-- **C177, a server that answers** is connected afterwards. -/
theorem C177_connected_partial (m : Mgr) (w : World) (s : Server) (hs : m.server s.conf.label = some s) (hw : w s.conf.way ≠ none) :
    (m.connect w s.conf.label).1 = true ∧ (m.connect w s.conf.label).2.status s.conf.label = .connected := by
  have hl : ∃ ts, listTools w s.conf.way = some ts := by
    cases h : w s.conf.way with
    | none => exact absurd h hw
    | some ps => exact ⟨ps.head?.getD [], by simp [listTools, h]⟩
  obtain ⟨ts, hl⟩ := hl
  unfold Mgr.connect
  rw [show m.servers.find? _ = some s from hs]
  simp only [hl]
  simp [Mgr.status]

/-- **C177, a server that does not answer** and was not connected before has the state of an error. -/
theorem C177_error_partial (m : Mgr) (w : World) (s : Server) (hs : m.server s.conf.label = some s) (hw : w s.conf.way = none)
    (ho : s.conf.label ∉ m.online) : (m.connect w s.conf.label).1 = false ∧ (m.connect w s.conf.label).2.status s.conf.label = .error := by
  unfold Mgr.connect
  rw [show m.servers.find? _ = some s from hs]
  simp only [listTools, hw, Option.map_none]
  simp [Mgr.status, ho]

/-- **C177, `disconnect`** ends the state of a connection, and that of no other server. -/
theorem C177_disconnect_partial (m : Mgr) (l l' : Str) :
    (m.disconnect l).2.status l ≠ .connected ∧ (l' ≠ l → (m.disconnect l).2.status l' = m.status l') := by
  constructor
  · unfold Mgr.disconnect Mgr.status
    simp only [List.mem_filter, ne_eq, decide_not, Bool.not_eq_true', decide_eq_false_iff_not, not_true_eq_false, and_false, if_false]
    split <;> nofun
  · intro h
    simp [Mgr.disconnect, Mgr.status, h]

/-- **C177 fails: a server that does not answer any more** stays connected, even when connecting to it again has
just failed. -/
theorem C177_failed_violated (m : Mgr) (w : World) (s : Server) (hs : m.server s.conf.label = some s) (ho : s.conf.label ∈ m.online)
    (hw : w s.conf.way = none) : (m.connect w s.conf.label).1 = false ∧ (m.connect w s.conf.label).2.status s.conf.label = .connected := by
  unfold Mgr.connect
  rw [show m.servers.find? _ = some s from hs]
  simp only [listTools, hw, Option.map_none]
  simp [Mgr.status, ho]

/-- **C177 fails: a server that was disconnected** is used as before: the AI is told of its tools, and calls reach it. -/
theorem C177_off_violated (m : Mgr) (l : Str) :
    (m.disconnect l).2.definitions = m.definitions ∧ ∀ f, (m.disconnect l).2.execute f = m.execute f := ⟨rfl, fun _ => rfl⟩

/-- **C177 fails: a label that is not there** can be disconnected all the same. -/
theorem C177_nobody_violated (m : Mgr) (l : Str) : (m.disconnect l).1 = true := rfl

/-- **C177 fails: exit status.** `mcp connect` succeeds also when it fails. -/
theorem C177_exit_violated (m : Mgr) (w : World) (l : Str) : (connectCommand w m l).1 = 0 := rfl

/-- **C177 fails: labels with quotes** and some others never reach `mcp-connect`: the expression made of them is not
that of the label. -/
theorem C177_quote_violated (U : Dsh.Lisp.Uni) (l : Str) (h : l = [] ∨ '"' ∈ l ∨ ∃ c, l.getLast? = some c ∧ 128 ≤ c.toNat) :
    ¬ Dsh.Lisp.ReadsAs U (connectCode l) (.list [.sym c!"mcp-connect", .str l]) := by
  intro hr
  exact Dsh.Lisp.C25_unwritable_strings_violated U _ _ hr l h (by simp [Dsh.Lisp.strings, Dsh.Lisp.stringsL])

/-- **C177 fails: a label is run as a program.** -/
theorem C177_code_violated : Dsh.Lisp.ReadsAs Dsh.Lisp.U0 (connectCode c!"a\" (sh \"rm x\") \"b")
    (.list [.sym c!"mcp-connect", .str c!"a", .list [.sym c!"sh", .str c!"rm x"], .str c!"b"]) :=
  Dsh.Lisp.readsAs_of Dsh.Lisp.U0 (n := 80) (by decide +kernel)

/-! ### The list of tools -/

theorem takeBytes_plain (n : Nat) (s : Str) (h : ∀ c ∈ s, c.utf8Size = 1) (hn : n ≤ s.length) : takeBytes n s = some (s.take n) := by
  induction s generalizing n with
  | nil => have : n = 0 := by simpa using hn
           subst this; rfl
  | cons c s ih =>
    cases n with
    | zero => rfl
    | succ n =>
      have hc := h c (List.mem_cons_self ..)
      rw [takeBytes, hc, if_pos (by omega), Nat.add_sub_cancel, ih n (fun x hx => h x (List.mem_cons_of_mem _ hx)) (by simpa using hn)]
      rfl

theorem bytes_plain (s : Str) (h : ∀ c ∈ s, c.utf8Size = 1) : bytes s = s.length := by
  induction s with
  | nil => rfl
  | cons c s ih =>
    have := ih (fun x hx => h x (List.mem_cons_of_mem _ hx))
    unfold bytes at this ⊢
    rw [List.map_cons, List.sum_cons, this, h c (List.mem_cons_self ..), List.length_cons]
    omega

/-- **C177, the list of tools** shows the beginning of each text that has nothing but ASCII characters. -/
theorem C177_clip_partial (d : Str) (h : ∀ c ∈ d, c.utf8Size = 1) :
    clip d = some (if d.length ≤ 50 then d else d.take 47 ++ c!"...") := by
  unfold clip
  rw [bytes_plain d h]
  by_cases hl : d.length ≤ 50
  · rw [if_neg (by omega), if_pos hl]
  · rw [if_pos (by omega), if_neg hl, takeBytes_plain 47 d h (by omega)]
    rfl

theorem mapM_none {α β : Type} (f : α → Option β) (l : List α) (x : α) (hx : x ∈ l) (h : f x = none) : l.mapM f = none := by
  induction l with
  | nil => cases hx
  | cons y l ih =>
    rw [List.mapM_cons]
    rcases List.mem_cons.1 hx with rfl | hx
    · rw [h]; rfl
    · rw [ih hx]
      cases f y <;> rfl

theorem bytes_append (a b : Str) : bytes (a ++ b) = bytes a + bytes b := by simp [bytes]

theorem takeBytes_skip (a b : Str) (n : Nat) (h : ∀ c ∈ a, c.utf8Size = 1) (hn : a.length ≤ n) :
    takeBytes n (a ++ b) = (takeBytes (n - a.length) b).map (a ++ ·) := by
  induction a generalizing n with
  | nil => simp
  | cons c a ih =>
    cases n with
    | zero => simp at hn
    | succ n =>
      have hc := h c (List.mem_cons_self ..)
      rw [List.cons_append, takeBytes, hc, if_pos (by omega), Nat.add_sub_cancel, ih n (fun x hx => h x (List.mem_cons_of_mem _ hx)) (by simpa using hn),
        List.length_cons, Nat.add_sub_add_right, Option.map_map]
      rfl

/-- **C177 fails: the list of tools ends in a panic.** The texts have a dash of three bytes behind the label, and the
text is cut after 47 bytes: if the label of a server with a description has 31 or 32 letters, `mcp tools` panics,
whatever the tools are. -/
theorem C177_panic_violated (m : Mgr) (hm : Reached m) (s : Server) (hs : s ∈ m.servers) (t : Tool) (ht : t ∈ s.tools) (a : Str)
    (ha : s.conf.desc = some a) (hne : a ≠ []) (hp : ∀ c ∈ s.conf.label, c.utf8Size = 1)
    (hl : s.conf.label.length = 31 ∨ s.conf.label.length = 32) : m.listing = none := by
  obtain ⟨f, hf⟩ := hm.good.full s hs t ht
  obtain ⟨s1, hs1, t1, ht1, hl1, hn1, hd⟩ := definition_of hm.good hf
  have h1 := nodup_find _ hm.good.labels s hs
  have h2 := nodup_find _ hm.good.labels s1 hs1
  rw [hl1, h1] at h2
  cases h2
  have hmem : (f, describe s.conf t1) ∈ m.definitions := List.mem_filterMap.2 ⟨_, hf, hd⟩
  refine mapM_none _ _ _ hmem ?_
  have hshape : ∃ y, describe s.conf t1 = (c!"MCP server `" ++ s.conf.label ++ c!"` ") ++ ('—' :: ' ' :: y) := by
    unfold describe
    rw [ha]
    cases t1.desc with
    | none => exact ⟨a ++ c!"\nTool `" ++ t1.name ++ c!"`", by simp [hne]⟩
    | some b => exact ⟨a ++ c!"\nTool `" ++ t1.name ++ c!"`: " ++ b, by simp [hne]⟩
  obtain ⟨y, hy⟩ := hshape
  have hbig : bytes (describe s.conf t1) > 50 := by
    have hab := describe_about s t1
    unfold describe
    rw [ha]
    have h12 : bytes c!"MCP server `" = 12 := by decide
    have h5 : bytes c!"` — " = 6 := by decide
    have h7 : bytes c!"\nTool `" = 7 := by decide
    have hlab := bytes_plain s.conf.label hp
    cases t1.desc with
    | none => simp only [if_pos hne, bytes_append, h12, h5, h7, hlab]; omega
    | some b => simp only [if_pos hne, bytes_append, h12, h5, h7, hlab]; omega
  show (clip (describe s.conf t1)).map _ = none
  unfold clip
  rw [if_pos hbig, hy, takeBytes_skip]
  · have hlen : (c!"MCP server `" ++ s.conf.label ++ c!"` ").length = 14 + s.conf.label.length := by simp; omega
    rw [hlen]
    rcases hl with h | h <;> rw [h] <;> rfl
  · intro c hc
    rcases List.mem_append.1 hc with hc | hc
    · rcases List.mem_append.1 hc with hc | hc
      · have : ∀ c ∈ c!"MCP server `", c.utf8Size = 1 := by decide
        exact this c hc
      · exact hp c hc
    · have : ∀ c ∈ c!"` ", c.utf8Size = 1 := by decide
      exact this c hc
  · simp; omega

/-! ## Cases -/

def w0 : World := fun n => if n = 9 then none else some [[⟨c!"read-file", some c!"Reads"⟩, ⟨c!"Read.File", none⟩], [⟨c!"more", none⟩]]

example : (Mgr.sync w0 {} [⟨c!"My Files", some c!"docs", 1⟩, ⟨c!"off", none, 9⟩, ⟨c!" ", none, 2⟩]).definitions =
    [(c!"mcp__my_files__read_file", c!"MCP server `My Files` — docs\nTool `read-file`: Reads"),
      (c!"mcp__my_files__read_file_2", c!"MCP server `My Files` — docs\nTool `Read.File`")] := by decide +kernel

example : (Mgr.sync w0 {} [⟨c!"My Files", some c!"docs", 1⟩]).execute c!"mcp__my_files__read_file_2" = some (1, c!"Read.File") := by decide +kernel

example : Set' [⟨c!" ", none, 1⟩, ⟨c!"a", none, 2⟩, ⟨c!"a", none, 3⟩] ⟨c!"a", none, 2⟩ := by rw [set_iff]; decide

example : (load w0 (fun c => c.way) [] [⟨c!"a", none, 1⟩, ⟨c!"b", none, 9⟩]).1.servers.length = 1 := by decide +kernel

end Dsh.Mcp
