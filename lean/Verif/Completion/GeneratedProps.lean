import Verif.Completion.Generated
/-!
# C178-C180: definitions made by `comp-gen`, scripts in definitions, and which definition is used
-/
namespace Dsh.CompGen

/-! ### Entries -/

theorem nodup_field (m : List (Str × J)) (h : (m.map (·.1)).Nodup) (k : Str) : field m k = some (m.lookup k) := by
  unfold field
  induction m with
  | nil => rfl
  | cons e m ih =>
    obtain ⟨k', j⟩ := e
    rw [List.map_cons, List.nodup_cons] at h
    by_cases hk : k' = k
    · subst hk
      have : m.filter (fun e => decide (e.1 = k')) = [] := by
        rw [List.filter_eq_nil_iff]
        intro e he hd
        rw [decide_eq_true_eq] at hd
        exact h.1 (List.mem_map.2 ⟨e, he, hd⟩)
      rw [List.filter_cons_of_pos (by simp), this]
      simp
    · rw [List.filter_cons_of_neg (by simp [hk]), ih h.2, List.lookup_cons, beq_eq_false_iff_ne.2 (Ne.symm hk)]

theorem lookup_append (a b : List (Str × J)) (k : Str) : (a ++ b).lookup k = (a.lookup k).or (b.lookup k) := by
  induction a with
  | nil => simp
  | cons e a ih =>
    obtain ⟨k', j⟩ := e
    rw [List.cons_append, List.lookup_cons, List.lookup_cons, ih]
    cases k == k' <;> simp

theorem lookup_none (m : List (Str × J)) (k : Str) (h : k ∉ m.map (·.1)) : m.lookup k = none := by
  induction m with
  | nil => rfl
  | cons e m ih =>
    rw [List.map_cons, List.mem_cons, not_or] at h
    obtain ⟨k', j⟩ := e
    rw [List.lookup_cons, beq_eq_false_iff_ne.2 h.1]
    exact ih h.2

theorem field_get (m : List (Str × J)) (k : Str) (o : Option J) (h : field m k = some o) : get m k = o := by
  unfold get
  induction m with
  | nil => cases h; rfl
  | cons e m ih =>
    obtain ⟨k', j⟩ := e
    rw [List.reverse_cons, lookup_append]
    unfold field at h
    by_cases hk : k' = k
    · subst hk
      rw [List.filter_cons_of_pos (by simp)] at h
      cases hf : m.filter (fun e => decide (e.1 = k')) with
      | cons x y => rw [hf] at h; cases h
      | nil =>
        rw [hf] at h
        cases h
        rw [lookup_none]
        · simp
        · rw [List.filter_eq_nil_iff] at hf
          intro hm
          obtain ⟨e, he, hd⟩ := List.mem_map.1 hm
          exact hf e (List.mem_reverse.1 he) (by simp [hd])
    · rw [List.filter_cons_of_neg (by simp [hk])] at h
      rw [ih h, List.lookup_cons, beq_eq_false_iff_ne.2 (Ne.symm hk)]
      simp

theorem nodup_get (m : List (Str × J)) (h : (m.map (·.1)).Nodup) (k : Str) : get m k = m.lookup k :=
  field_get m k _ (nodup_field m h k)

/-- An entry that is there or not. -/
def ent (k : Str) : Option J → List (Str × J)
  | none => []
  | some j => [(k, j)]

theorem lookup_ent (k k' : Str) (o : Option J) : (ent k' o).lookup k = if k = k' then o else none := by
  cases o with
  | none => simp [ent]
  | some j =>
    by_cases h : k = k'
    · subst h; simp [ent]
    · rw [ent, List.lookup_cons, beq_eq_false_iff_ne.2 h, if_neg h]; rfl

theorem ent_keys (k : Str) (o : Option J) : ((ent k o).map (·.1)).Sublist [k] := by
  cases o with
  | none => exact List.nil_sublist _
  | some j => exact List.Sublist.refl _

/-! ### Definitions as they are written -/

/-- A type as `comp-gen` asks for it, but with `data` for files. -/
def Ty.json : Ty → J
  | .file e => .obj [(c!"type", .str c!"File"), (c!"data", .obj (ent c!"extensions" (e.map (fun l => .arr (l.map .str)))))]
  | .choice l => .obj [(c!"type", .str c!"Choice"), (c!"data", .arr (l.map .str))]
  | .script s => .obj [(c!"type", .str c!"Script"), (c!"data", .str s)]
  | .other n => .obj [(c!"type", .str n)]

def Arg.json (a : Arg) : J := .obj (ent c!"name" (some (.str a.name)) ++ (ent c!"description" (a.desc.map .str) ++
  (ent c!"multiple" (some (.bool a.multiple)) ++ ent c!"type" (a.ty.map Ty.json))))

def Opt.json (o : Opt) : J := .obj (ent c!"short" (o.short.map .str) ++ (ent c!"long" (o.long.map .str) ++
  (ent c!"description" (o.desc.map .str) ++ (ent c!"takes_value" (some (.bool o.takes)) ++ (ent c!"value_type" (o.valueTy.map Ty.json) ++
  ent c!"argument" (o.argument.map Arg.json))))))

mutual
def Sub.json : Sub → J
  | .mk n e al os as ss => .obj (ent c!"name" (some (.str n)) ++ (ent c!"description" (e.map .str) ++
    (ent c!"aliases" (some (.arr (al.map .str))) ++ (ent c!"options" (some (.arr (os.map Opt.json))) ++
    (ent c!"arguments" (some (.arr (as.map Arg.json))) ++ ent c!"subcommands" (some (.arr (subsJson ss))))))))
def subsJson : List Sub → List J
  | [] => []
  | s :: ss => s.json :: subsJson ss
end

def Def.json (d : Def) : J := .obj (ent c!"command" (some (.str d.command)) ++ (ent c!"description" (d.desc.map .str) ++
  (ent c!"subcommands" (some (.arr (subsJson d.subs))) ++ (ent c!"global_options" (some (.arr (d.options.map Opt.json))) ++
  ent c!"arguments" (some (.arr (d.arguments.map Arg.json)))))))

/-- The types that stand without data (command.rs:97-145). -/
def known : List Str :=
  [c!"Directory", c!"String", c!"Number", c!"Command", c!"Environment", c!"Url", c!"Regex", c!"Process", c!"CommandWithArgs", c!"User", c!"Group",
    c!"Signal", c!"Interface"]

theorem known_iff (n : Str) : n ∈ known ↔ n ∈ others := by
  have h : known = others := by decide
  rw [h]

/-- A type without script; `other` has one of the names there are. -/
def Ty.fine : Ty → Prop
  | .script _ => False
  | .other n => n ∈ known
  | _ => True

/-- A text that is not blank. -/
def Said (s : Str) : Prop := ∃ c ∈ s, rustWhitespace c = false

def Arg.fine (a : Arg) : Prop := Said a.name ∧ ∀ t ∈ a.ty, t.fine

/-- A flag: one dash and something else, or dashes and something. -/
def Opt.fine (o : Opt) : Prop :=
  (o.short ≠ none ∨ o.long ≠ none) ∧ (∀ s ∈ o.short, ∃ t, s = '-' :: t ∧ t.head? ≠ some '-') ∧
    (∀ l ∈ o.long, ∃ t, l = '-' :: t ∧ t ≠ [] ∧ t ≠ ['-']) ∧ (∀ t ∈ o.valueTy, t.fine) ∧ ∀ a ∈ o.argument, a.fine

/-- A name: not empty, without white space. -/
def Name (s : Str) : Prop := s ≠ [] ∧ ∀ c ∈ s, rustWhitespace c = false

mutual
def Sub.fine : Sub → Prop
  | .mk n _ _ os as ss => Name n ∧ (∀ o ∈ os, o.fine) ∧ (∀ a ∈ as, a.fine) ∧ subsFine ss
def subsFine : List Sub → Prop
  | [] => True
  | s :: ss => s.fine ∧ subsFine ss
end

def Def.fine (d : Def) : Prop := Name d.command ∧ subsFine d.subs ∧ (∀ o ∈ d.options, o.fine) ∧ ∀ a ∈ d.arguments, a.fine

/-! ### Reading back -/

theorem toStrs (l : List Str) : (l.map J.str).mapM toStr = some l := by
  induction l with
  | nil => rfl
  | cons s l ih => rw [List.map_cons, List.mapM_cons, ih]; rfl

theorem mapM_id {α : Type} (f : α → J) (g : J → Option α) (l : List α) (h : ∀ a ∈ l, g (f a) = some a) : (l.map f).mapM g = some l := by
  induction l with
  | nil => rfl
  | cons s l ih =>
    rw [List.map_cons, List.mapM_cons, h s (List.mem_cons_self ..), ih (fun a ha => h a (List.mem_cons_of_mem _ ha))]; rfl

theorem toStrs_bind {β : Type} (o : Option Str) (f : Option Str → Option β) (m : List (Str × J)) (k : Str)
    (h : field m k = some (o.map J.str)) : (may m k toStr).bind f = f o := by
  unfold may; rw [h]; cases o <;> rfl

theorem toTy_json (t : Ty) (ht : ∀ n, t = .other n → n ∈ others) : toTy t.json = some t := by
  cases t with
  | file e =>
    cases e with
    | none => rfl
    | some l =>
      have : (may (ent c!"extensions" (some (J.arr (l.map .str)))) c!"extensions" (toList toStr)) = some (some l) := by
        unfold may
        rw [nodup_field _ ((ent_keys _ _).nodup (by simp)), lookup_ent, if_pos rfl]
        simp only [toList]
        rw [toStrs]; rfl
      show ((may _ _ (toList toStr)).map Ty.file) = _
      exact congrArg (Option.map Ty.file) this
  | choice l =>
    show (Option.map Ty.choice ((l.map J.str).mapM toStr)) = _
    rw [toStrs]; rfl
  | script s => rfl
  | other n =>
    have := ht n rfl
    have h : n ≠ c!"File" ∧ n ≠ c!"Choice" ∧ n ≠ c!"Script" := by
      have : ∀ n ∈ others, n ≠ c!"File" ∧ n ≠ c!"Choice" ∧ n ≠ c!"Script" := by decide
      exact this n (ht n rfl)
    show (if n = c!"File" then _ else _) = _
    rw [if_neg h.1, if_neg h.2.1, if_neg h.2.2, if_pos this]
    rfl

theorem Ty.json_obj (t : Ty) : t.json ≠ .null := by cases t <;> nofun

theorem may_map {α : Type} (m : List (Str × J)) (k : Str) (o : Option α) (f : α → J) (g : J → Option α) (h : field m k = some (o.map f))
    (hf : ∀ a ∈ o, g (f a) = some a ∧ f a ≠ .null) : may m k g = some o := by
  unfold may; rw [h]
  cases o with
  | none => rfl
  | some a =>
    obtain ⟨h1, h2⟩ := hf a rfl
    show (match some (some (f a)) with | none => none | some none => some none | some (some .null) => some none | some (some j) => (g j).map some) = _
    cases e : f a with
    | null => exact absurd e h2
    | _ => rw [e] at h1; simp only [h1]; rfl

theorem Arg.keys (a : Arg) : ∃ m, a.json = .obj m ∧ (∀ k, field m k = some (m.lookup k)) ∧ (∀ k, get m k = m.lookup k) ∧
    m.lookup c!"name" = some (.str a.name) ∧ m.lookup c!"description" = a.desc.map .str ∧ m.lookup c!"multiple" = some (.bool a.multiple) ∧
    m.lookup c!"type" = a.ty.map Ty.json ∧ m.lookup c!"required" = none := by
  refine ⟨_, rfl, ?_⟩
  have hn : ((ent c!"name" (some (.str a.name)) ++ (ent c!"description" (a.desc.map .str) ++
      (ent c!"multiple" (some (.bool a.multiple)) ++ ent c!"type" (a.ty.map Ty.json)))).map (·.1)).Nodup := by
    simp only [List.map_append]
    exact ((ent_keys _ _).append ((ent_keys _ _).append ((ent_keys _ _).append (ent_keys _ _)))).nodup (by decide)
  refine ⟨nodup_field _ hn, nodup_get _ hn, ?_⟩
  simp [lookup_append, lookup_ent]

theorem toArg_json (a : Arg) (h : ∀ t ∈ a.ty, ∀ n, t = .other n → n ∈ others) : toArg a.json = some a := by
  obtain ⟨m, e, hf, -, h1, h2, h3, h4, -⟩ := a.keys
  rw [e]
  show (must m c!"name" toStr).bind _ = _
  unfold must
  rw [hf, h1]
  show (may m c!"description" toStr).bind _ = _
  rw [toStrs_bind a.desc _ m _ (by rw [hf, h2])]
  unfold orElse
  rw [hf, h3]
  show (may m c!"type" toTy).map _ = _
  rw [may_map m _ a.ty Ty.json toTy (by rw [hf, h4]) (fun t ht => ⟨toTy_json t (h t ht), t.json_obj⟩)]
  rfl

theorem Opt.keys (o : Opt) : ∃ m, o.json = .obj m ∧ (∀ k, field m k = some (m.lookup k)) ∧ (∀ k, get m k = m.lookup k) ∧
    m.lookup c!"short" = o.short.map .str ∧ m.lookup c!"long" = o.long.map .str ∧ m.lookup c!"description" = o.desc.map .str ∧
    m.lookup c!"takes_value" = some (.bool o.takes) ∧ m.lookup c!"value_type" = o.valueTy.map Ty.json ∧
    m.lookup c!"argument" = o.argument.map Arg.json := by
  refine ⟨_, rfl, ?_⟩
  have hn : ((ent c!"short" (o.short.map .str) ++ (ent c!"long" (o.long.map .str) ++
      (ent c!"description" (o.desc.map .str) ++ (ent c!"takes_value" (some (.bool o.takes)) ++ (ent c!"value_type" (o.valueTy.map Ty.json) ++
      ent c!"argument" (o.argument.map Arg.json)))))).map (·.1)).Nodup := by
    simp only [List.map_append]
    exact ((ent_keys _ _).append ((ent_keys _ _).append ((ent_keys _ _).append ((ent_keys _ _).append
      ((ent_keys _ _).append (ent_keys _ _)))))).nodup (by decide)
  refine ⟨nodup_field _ hn, nodup_get _ hn, ?_⟩
  simp [lookup_append, lookup_ent]

theorem toOpt_json (o : Opt) (hv : ∀ t ∈ o.valueTy, ∀ n, t = .other n → n ∈ others)
    (ha : ∀ a ∈ o.argument, ∀ t ∈ a.ty, ∀ n, t = .other n → n ∈ others) : toOpt o.json = some o := by
  obtain ⟨m, e, hf, -, h1, h2, h3, h4, h5, h6⟩ := o.keys
  rw [e]
  show (may m c!"short" toStr).bind _ = _
  rw [toStrs_bind o.short _ m _ (by rw [hf, h1]), toStrs_bind o.long _ m _ (by rw [hf, h2]), toStrs_bind o.desc _ m _ (by rw [hf, h3])]
  unfold orElse
  rw [hf, h4]
  show (may m c!"value_type" toTy).bind _ = _
  rw [may_map m _ o.valueTy Ty.json toTy (by rw [hf, h5]) (fun t ht => ⟨toTy_json t (hv t ht), t.json_obj⟩)]
  show (may m c!"argument" toArg).map _ = _
  rw [may_map m _ o.argument Arg.json toArg (by rw [hf, h6]) (fun a h => ⟨toArg_json a (ha a h), nofun⟩)]
  rfl

theorem depths_mem (l : List J) (j : J) (h : j ∈ l) : j.depth ≤ depths l := by
  induction l with
  | nil => cases h
  | cons x l ih =>
    rw [depths]
    rcases List.mem_cons.1 h with rfl | h
    · exact Nat.le_max_left ..
    · exact Nat.le_trans (ih h) (Nat.le_max_right ..)

theorem depthm_mem (m : List (Str × J)) (k : Str) (j : J) (h : m.lookup k = some j) : j.depth ≤ depthm m := by
  induction m with
  | nil => cases h
  | cons e m ih =>
    obtain ⟨k', x⟩ := e
    rw [depthm]
    rw [List.lookup_cons] at h
    split at h
    · cases h; exact Nat.le_max_left ..
    · exact Nat.le_trans (ih h) (Nat.le_max_right ..)

theorem subsJson_map (ss : List Sub) : subsJson ss = ss.map Sub.json := by
  induction ss with
  | nil => rfl
  | cons s ss ih => rw [subsJson, ih]; rfl

theorem subsFine_iff (ss : List Sub) : subsFine ss ↔ ∀ s ∈ ss, s.fine := by
  induction ss with
  | nil => simp [subsFine]
  | cons s ss ih => rw [subsFine, ih]; simp

theorem okSubs_iff (ss : List Sub) : okSubs ss = true ↔ ∀ s ∈ ss, okSub s = true := by
  induction ss with
  | nil => simp [okSubs]
  | cons s ss ih => rw [okSubs, Bool.and_eq_true, ih]; simp

theorem Sub.keys (n : Str) (e : Option Str) (al : List Str) (os : List Opt) (as : List Arg) (ss : List Sub) :
    ∃ m, (Sub.mk n e al os as ss).json = .obj m ∧ (∀ k, field m k = some (m.lookup k)) ∧ (∀ k, get m k = m.lookup k) ∧
    m.lookup c!"name" = some (.str n) ∧ m.lookup c!"description" = e.map .str ∧ m.lookup c!"aliases" = some (.arr (al.map .str)) ∧
    m.lookup c!"options" = some (.arr (os.map Opt.json)) ∧ m.lookup c!"arguments" = some (.arr (as.map Arg.json)) ∧
    m.lookup c!"subcommands" = some (.arr (ss.map Sub.json)) := by
  refine ⟨_, by rw [Sub.json], ?_⟩
  rw [subsJson_map]
  have hn : ((ent c!"name" (some (.str n)) ++ (ent c!"description" (e.map .str) ++
    (ent c!"aliases" (some (.arr (al.map .str))) ++ (ent c!"options" (some (.arr (os.map Opt.json))) ++
    (ent c!"arguments" (some (.arr (as.map Arg.json))) ++ ent c!"subcommands" (some (.arr (ss.map Sub.json)))))))).map (·.1)).Nodup := by
    simp only [List.map_append]
    exact ((ent_keys _ _).append ((ent_keys _ _).append ((ent_keys _ _).append ((ent_keys _ _).append
      ((ent_keys _ _).append (ent_keys _ _)))))).nodup (by decide)
  refine ⟨nodup_field _ hn, nodup_get _ hn, ?_⟩
  simp [lookup_append, lookup_ent]

theorem Ty.fine.known {t : Ty} (h : t.fine) : ∀ n, t = .other n → n ∈ others := by rintro n rfl; exact (known_iff n).1 h

theorem toSub_json (n : Nat) (s : Sub) (hs : s.fine) (hn : s.json.depth < n) : toSub n s.json = some s := by
  induction n generalizing s with
  | zero => omega
  | succ n ih =>
    obtain ⟨nm, e, al, os, as, ss⟩ := s
    rw [Sub.fine, subsFine_iff] at hs
    obtain ⟨m, hj, hf, -, h1, h2, h3, h4, h5, h6⟩ := Sub.keys nm e al os as ss
    rw [hj] at hn
    rw [hj]
    show (must m c!"name" toStr).bind _ = _
    unfold must
    rw [hf, h1]
    show (may m c!"description" toStr).bind _ = _
    rw [toStrs_bind e _ m _ (by rw [hf, h2])]
    unfold orElse
    rw [hf, hf, hf, hf, h3, h4, h5, h6]
    simp only [toList]
    rw [toStrs, mapM_id _ _ os (fun o ho => toOpt_json o (fun t ht => ((hs.2.1 o ho).2.2.2.1 t ht).known)
        (fun a ha t ht => (((hs.2.1 o ho).2.2.2.2 a ha).2 t ht).known)),
      mapM_id _ _ as (fun a ha => toArg_json a (fun t ht => ((hs.2.2.1 a ha).2 t ht).known)),
      mapM_id _ _ ss (fun s h => ih s (hs.2.2.2 s h) ?_)]
    · rfl
    · have d1 := depths_mem _ _ (List.mem_map_of_mem (f := Sub.json) h)
      have d2 := depthm_mem m _ _ h6
      simp only [J.depth] at d2 hn
      omega

theorem Def.keys (d : Def) : ∃ m, d.json = .obj m ∧ (∀ k, field m k = some (m.lookup k)) ∧ (∀ k, get m k = m.lookup k) ∧
    m.lookup c!"command" = some (.str d.command) ∧ m.lookup c!"description" = d.desc.map .str ∧
    m.lookup c!"subcommands" = some (.arr (d.subs.map Sub.json)) ∧
    m.lookup c!"global_options" = some (.arr (d.options.map Opt.json)) ∧ m.lookup c!"arguments" = some (.arr (d.arguments.map Arg.json)) := by
  refine ⟨_, rfl, ?_⟩
  rw [subsJson_map]
  have hn : ((ent c!"command" (some (.str d.command)) ++ (ent c!"description" (d.desc.map .str) ++
      (ent c!"subcommands" (some (.arr (d.subs.map Sub.json))) ++ (ent c!"global_options" (some (.arr (d.options.map Opt.json))) ++
      ent c!"arguments" (some (.arr (d.arguments.map Arg.json))))))).map (·.1)).Nodup := by
    simp only [List.map_append]
    exact ((ent_keys _ _).append ((ent_keys _ _).append ((ent_keys _ _).append ((ent_keys _ _).append (ent_keys _ _))))).nodup (by decide)
  refine ⟨nodup_field _ hn, nodup_get _ hn, ?_⟩
  simp [lookup_append, lookup_ent]

theorem toDef_json (d : Def) (hd : d.fine) : toDef d.json = some d := by
  obtain ⟨m, hj, hf, -, h1, h2, h3, h4, h5⟩ := d.keys
  obtain ⟨-, hs, ho, ha⟩ := hd
  rw [subsFine_iff] at hs
  unfold toDef
  rw [hj]
  show (must m c!"command" toStr).bind _ = _
  unfold must
  rw [hf, h1]
  show (may m c!"description" toStr).bind _ = _
  rw [toStrs_bind d.desc _ m _ (by rw [hf, h2])]
  unfold orElse
  rw [hf, hf, hf, h3, h4, h5]
  simp only [toList]
  rw [mapM_id _ _ d.options (fun o h => toOpt_json o (fun t ht => ((ho o h).2.2.2.1 t ht).known)
        (fun a ha t ht => (((ho o h).2.2.2.2 a ha).2 t ht).known)),
      mapM_id _ _ d.arguments (fun a h => toArg_json a (fun t ht => ((ha a h).2 t ht).known)),
      mapM_id _ _ d.subs (fun s h => toSub_json _ s (hs s h) ?_)]
  · rfl
  · have d1 := depths_mem _ _ (List.mem_map_of_mem (f := Sub.json) h)
    have d2 := depthm_mem m _ _ h3
    simp only [J.depth] at d2 ⊢
    omega

theorem oneWord_iff (s : Str) : oneWord s = true ↔ Name s := by
  unfold oneWord Name
  simp

theorem okOpt_of (o : Opt) (h : o.fine) : okOpt o = true := by
  obtain ⟨h1, h2, h3, -, -⟩ := h
  unfold okOpt
  rw [Bool.and_eq_true, Bool.and_eq_true]
  refine ⟨⟨?_, ?_⟩, ?_⟩
  · rw [Bool.or_eq_true, Option.isSome_iff_ne_none, Option.isSome_iff_ne_none]; exact h1
  · cases hs : o.short with
    | none => rfl
    | some s =>
      obtain ⟨t, rfl, ht⟩ := h2 s hs
      cases t with
      | nil => rfl
      | cons c t =>
        have : c ≠ '-' := fun e => ht (by rw [e]; rfl)
        simp [List.isPrefixOf, Ne.symm this]
  · cases hl : o.long with
    | none => rfl
    | some l =>
      obtain ⟨t, rfl, ht, ht'⟩ := h3 l hl
      simp [List.isPrefixOf, ht, ht']

mutual
theorem okSub_of (s : Sub) (h : s.fine) : okSub s = true := by
  cases s with
  | mk n e al os as ss =>
    rw [Sub.fine] at h
    rw [okSub, Bool.and_eq_true, Bool.and_eq_true, oneWord_iff, List.all_eq_true]
    exact ⟨⟨h.1, fun o ho => okOpt_of o (h.2.1 o ho)⟩, okSubs_of ss h.2.2.2⟩
theorem okSubs_of (ss : List Sub) (h : subsFine ss) : okSubs ss = true := by
  cases ss with
  | nil => rfl
  | cons s ss =>
    rw [subsFine] at h
    rw [okSubs, okSub_of s h.1, okSubs_of ss h.2]; rfl
end

theorem Said.ne {s : Str} (h : Said s) : s ≠ [] := by rintro rfl; obtain ⟨c, hc, -⟩ := h; cases hc

theorem okDef_of (d : Def) (h : d.fine) : okDef d = true := by
  unfold okDef
  simp only [Bool.and_eq_true, oneWord_iff, List.all_eq_true, Bool.not_eq_true', List.isEmpty_eq_false_iff]
  exact ⟨⟨⟨h.1, okSubs_of _ h.2.1⟩, fun o ho => okOpt_of o (h.2.2.1 o ho)⟩, fun a ha => (h.2.2.2 a ha).1.ne⟩

theorem read_json (d : Def) (h : d.fine) : read d.json = some d := by
  unfold read
  rw [toDef_json d h]
  simp [okDef_of d h]

/-! ### Being accepted -/

theorem Said.need {s : Str} (h : Said s) : needText (.str s) = some s := by
  obtain ⟨c, hc, hw⟩ := h
  show (if (trim s).isEmpty = true then none else some s) = some s
  rw [if_neg]
  intro he
  rw [List.isEmpty_iff] at he
  unfold trim trimEnd trimStart at he
  rw [List.reverse_eq_nil_iff] at he
  have key : ∀ (l : Str), c ∈ l → c ∈ l.dropWhile rustWhitespace := by
    intro l hl
    have hp : l.takeWhile rustWhitespace ++ l.dropWhile rustWhitespace = l := List.takeWhile_append_dropWhile
    rw [← hp] at hl
    rcases List.mem_append.1 hl with h | h
    · exfalso
      have : ∀ l : Str, c ∈ l.takeWhile rustWhitespace → rustWhitespace c = true := by
        intro l
        induction l with
        | nil => nofun
        | cons x l ih =>
          rw [List.takeWhile_cons]
          split
          · rename_i hx
            intro h
            rcases List.mem_cons.1 h with rfl | h
            · exact hx
            · exact ih h
          · nofun
      rw [this l h] at hw; cases hw
    · exact h
  have := key _ (List.mem_reverse.2 (key s hc))
  rw [he] at this
  cases this

theorem Name.said {s : Str} (h : Name s) : Said s := by
  cases s with
  | nil => exact absurd rfl h.1
  | cons c s => exact ⟨c, List.mem_cons_self .., h.2 c (List.mem_cons_self ..)⟩

theorem all_strs (l : List Str) : all isStr (.arr (l.map .str)) = true := by
  unfold all; simp [isStr]

theorem ext_get (e : Option (List Str)) :
    get (ent c!"extensions" (e.map (fun l => J.arr (l.map .str)))) c!"extensions" = e.map (fun l => J.arr (l.map .str)) := by
  rw [nodup_get _ ((ent_keys _ _).nodup (by simp)), lookup_ent, if_pos rfl]

theorem checkType_json (t : Ty) (h : t.fine) : checkType t.json = true := by
  cases t with
  | file e =>
    show ifThere _ c!"extensions" (all isStr) = true
    unfold ifThere
    rw [ext_get]
    cases e with
    | none => rfl
    | some l => exact all_strs l
  | choice l =>
    show (all isStr (.arr (l.map .str)) && true) = true
    rw [all_strs]; rfl
  | script s => cases h
  | other n =>
    have : ∀ n ∈ known, checkType (Ty.other n).json = true := by decide
    exact this n h

theorem checkArg_json (a : Arg) (h : a.fine) : checkArg a.json = true := by
  obtain ⟨m, e, -, hg, h1, h2, h3, h4, h5⟩ := a.keys
  rw [e]
  simp only [checkArg, object, ifThere, hg, h1, h3, h4, h5, Option.bind_some, h.1.need, Option.isSome_some, Bool.true_and, Bool.and_true, isBool]
  cases ht : a.ty with
  | none => rfl
  | some t => exact checkType_json t (h.2 t ht)

theorem optText_str (m : List (Str × J)) (k : Str) (o : Option Str) (h : get m k = o.map .str) (hs : ∀ s ∈ o, Said s) : optText m k = some o := by
  unfold optText
  rw [h]
  cases o with
  | none => rfl
  | some s =>
    show (needText (.str s)).map some = _
    rw [(hs s rfl).need]; rfl

theorem dash_said (t : Str) : Said ('-' :: t) := ⟨'-', List.mem_cons_self .., by decide⟩

theorem checkOpt_json (o : Opt) (h : o.fine) : checkOpt o.json = true := by
  obtain ⟨m, e, -, hg, h1, h2, h3, h4, h5, h6⟩ := o.keys
  rw [e]
  simp only [checkOpt, object]
  rw [optText_str m _ o.short (by rw [hg, h1]) (fun s hs => by obtain ⟨t, rfl, -⟩ := h.2.1 s hs; exact dash_said t),
    optText_str m _ o.long (by rw [hg, h2]) (fun s hs => by obtain ⟨t, rfl, -⟩ := h.2.2.1 s hs; exact dash_said t)]
  simp only [ifThere, hg, h4, h5, isBool, Bool.and_true, Bool.and_eq_true, Bool.or_eq_true, Option.isSome_iff_ne_none]
  refine ⟨h.1, ?_⟩
  cases ht : o.valueTy with
  | none => rfl
  | some t => exact checkType_json t (h.2.2.2.1 t ht)

theorem all_map {α : Type} (p : J → Bool) (f : α → J) (l : List α) (h : ∀ a ∈ l, p (f a) = true) : all p (.arr (l.map f)) = true := by
  unfold all
  simpa using h

theorem checkSub_json (n : Nat) (s : Sub) (hs : s.fine) (hn : s.json.depth < n) : checkSub n s.json = true := by
  induction n generalizing s with
  | zero => omega
  | succ n ih =>
    obtain ⟨nm, e, al, os, as, ss⟩ := s
    rw [Sub.fine, subsFine_iff] at hs
    obtain ⟨m, hj, -, hg, h1, h2, h3, h4, h5, h6⟩ := Sub.keys nm e al os as ss
    rw [hj] at hn ⊢
    simp only [checkSub, object, ifThere, hg, h1, h4, h5, h6, Option.bind_some, hs.1.said.need, Option.isSome_some, Bool.true_and]
    rw [all_map _ _ os (fun o ho => checkOpt_json o (hs.2.1 o ho)), all_map _ _ as (fun a ha => checkArg_json a (hs.2.2.1 a ha)),
      all_map _ _ ss (fun s h => ih s (hs.2.2.2 s h) ?_)]
    · rfl
    · have d1 := depths_mem _ _ (List.mem_map_of_mem (f := Sub.json) h)
      have d2 := depthm_mem m _ _ h6
      simp only [J.depth] at d2 hn
      omega

/-- **C178, a proper definition is accepted.** -/
theorem C178_accepted_partial (d : Def) (h : d.fine) : check d.command d.json = true := by
  obtain ⟨m, hj, -, hg, h1, h2, h3, h4, h5⟩ := d.keys
  obtain ⟨hc, hs, ho, ha⟩ := h
  rw [subsFine_iff] at hs
  unfold check
  rw [hj]
  simp only [object, ifThere, hg, h1, h3, h4, h5, Option.bind_some, hc.said.need, decide_true, Bool.true_and]
  rw [all_map _ _ d.options (fun o h => checkOpt_json o (ho o h)), all_map _ _ d.arguments (fun a h => checkArg_json a (ha a h)),
    all_map _ _ d.subs (fun s h => checkSub_json _ s (hs s h) ?_)]
  · rfl
  · have d1 := depths_mem _ _ (List.mem_map_of_mem (f := Sub.json) h)
    have d2 := depthm_mem m _ _ h3
    simp only [J.depth] at d2 ⊢
    omega

/-- **C178, a proper definition is used.** The AI answers with a proper definition: `comp-gen` succeeds, and the next
Tab for that command uses exactly that definition, if there was none before and none is built in. -/
theorem C178_used_partial (w : World) (db : Db) (d : Def) (h : d.fine) (hb : (w.builtin d.command).bind read = none)
    (hdb : db.lookup d.command = none) :
    (compGen w d.command d.json).1 = 0 ∧ (tab (compGen w d.command d.json).2 db d.command).1 = some d := by
  have hne : d.command.isEmpty = false := by
    rw [List.isEmpty_eq_false_iff]; exact h.1.1
  unfold compGen
  rw [C178_accepted_partial d h]
  refine ⟨rfl, ?_⟩
  simp only [if_true]
  unfold tab Db.ensure World.find
  simp only [hne, hdb, Bool.false_eq_true, if_false, Option.isSome_none, World.save, hb, if_true, Option.bind_some, read_json d h]
  simp [Db.add]

/-! ### What was accepted and is not read -/

theorem lookup_filter (db : Db) (k n : Str) (h : n ≠ k) : (db.filter (fun e => decide (e.1 ≠ k))).lookup n = db.lookup n := by
  induction db with
  | nil => rfl
  | cons e db ih =>
    obtain ⟨a, d⟩ := e
    by_cases ha : a = k
    · rw [List.filter_cons_of_neg (by simp [ha]), ih, List.lookup_cons, beq_eq_false_iff_ne.2 (by rw [ha]; exact h)]
    · rw [List.filter_cons_of_pos (by simp [ha]), List.lookup_cons, List.lookup_cons, ih]

/-- A definition nobody can read: `comp-gen` succeeds, and Tab has no definition, now or later. -/
theorem useless (w : World) (db : Db) (name : Str) (j : J) (hc : check name j = true) (hr : read j = none)
    (hb : (w.builtin name).bind read = none) (hh : (w.here name).bind read = none) (hdb : db.lookup name = none) :
    (compGen w name j).1 = 0 ∧ (tab (compGen w name j).2 db name).1 = none := by
  unfold compGen
  rw [hc]
  refine ⟨rfl, ?_⟩
  simp only [if_true, tab]
  have : (w.save name j).find name = none := by
    unfold World.find World.save
    simp [hb, hr, hh]
  unfold Db.ensure
  rw [this]
  split
  · exact hdb
  · split <;> exact hdb

/-- A definition with one argument. -/
def argDef (name arg : Str) (ty : J) : J :=
  .obj [(c!"command", .str name), (c!"arguments", .arr [.obj [(c!"name", .str arg), (c!"type", ty)]])]

theorem argDef_check (name arg : Str) (ty : J) (hn : Said name) (ha : Said arg) (ht : checkType ty = true) : check name (argDef name arg ty) = true := by
  have h1 := hn.need
  have h2 := ha.need
  simp [check, argDef, object, get, List.lookup_cons, ifThere, all, checkArg, h1, h2, ht]

theorem argDef_read (name arg : Str) (ty : J) (hnn : ty ≠ .null) (ht : toTy ty = none) : read (argDef name arg ty) = none := by
  have : toArg (.obj [(c!"name", .str arg), (c!"type", ty)]) = none := by
    show (may [(c!"name", .str arg), (c!"type", ty)] c!"type" toTy).map _ = none
    have hf : field [(c!"name", .str arg), (c!"type", ty)] c!"type" = some (some ty) := rfl
    have : may [(c!"name", .str arg), (c!"type", ty)] c!"type" toTy = none := by
      unfold may
      rw [hf]
      cases ty with
      | null => exact absurd rfl hnn
      | _ => simp only [ht]; rfl
    rw [this]; rfl
  unfold read
  have h2 : toDef (argDef name arg ty) = none := by
    show Option.map _ (List.mapM toArg [.obj [(c!"name", .str arg), (c!"type", ty)]]) = none
    rw [List.mapM_cons, this]; rfl
  rw [h2]; rfl

/-- **C178 fails: files.** The AI is asked to write `{"type": "File"}` for a file, and `comp-gen` accepts it; but a
definition with this type cannot be read, as `data` is missing: nothing of it is ever offered. -/
theorem C178_file_violated (w : World) (db : Db) (name arg : Str) (hn : Said name) (ha : Said arg)
    (hb : (w.builtin name).bind read = none) (hh : (w.here name).bind read = none) (hdb : db.lookup name = none) :
    (compGen w name (argDef name arg (.obj [(c!"type", .str c!"File")]))).1 = 0 ∧
      (tab (compGen w name (argDef name arg (.obj [(c!"type", .str c!"File")]))).2 db name).1 = none :=
  useless w db name _ (argDef_check name arg _ hn ha (by decide)) (argDef_read name arg _ nofun rfl) hb hh hdb

/-- **C178 fails: unknown types.** The same holds for each type whose name is unknown. -/
theorem C178_type_violated (w : World) (db : Db) (name arg ty : Str) (hn : Said name) (ha : Said arg) (ht : Said ty) (ho : ty ∉ known)
    (h3 : ty ∉ [c!"File", c!"Choice", c!"Script"])
    (hb : (w.builtin name).bind read = none) (hh : (w.here name).bind read = none) (hdb : db.lookup name = none) :
    (compGen w name (argDef name arg (.obj [(c!"type", .str ty)]))).1 = 0 ∧
      (tab (compGen w name (argDef name arg (.obj [(c!"type", .str ty)]))).2 db name).1 = none := by
  simp only [List.mem_cons, List.not_mem_nil, or_false, not_or] at h3
  refine useless w db name _ (argDef_check name arg _ hn ha ?_) (argDef_read name arg _ nofun ?_) hb hh hdb
  · have := ht.need
    simp [checkType, object, get, this, h3.1, h3.2.1, h3.2.2]
  · show (if ty = c!"File" then _ else _) = _
    rw [if_neg h3.1, if_neg h3.2.1, if_neg h3.2.2, if_neg (fun h => ho ((known_iff ty).2 h))]

/-- A definition with one option. -/
def optDef (name flag : Str) : J :=
  .obj [(c!"command", .str name), (c!"global_options", .arr [.obj [(c!"long", .str flag)]])]

/-- **C178 fails: flags without dashes** are accepted and make the whole definition useless. -/
theorem C178_flag_violated (w : World) (db : Db) (name flag : Str) (hn : Said name) (hf : Said flag) (hd : flag.head? ≠ some '-')
    (hb : (w.builtin name).bind read = none) (hh : (w.here name).bind read = none) (hdb : db.lookup name = none) :
    (compGen w name (optDef name flag)).1 = 0 ∧ (tab (compGen w name (optDef name flag)).2 db name).1 = none := by
  refine useless w db name _ ?_ ?_ hb hh hdb
  · have h1 := hn.need
    have h2 := hf.need
    simp [check, optDef, object, get, List.lookup_cons, ifThere, all, checkOpt, optText, h1, h2]
  · have : toDef (optDef name flag) = some ⟨name, none, [], [⟨none, some flag, none, false, none, none⟩], []⟩ := rfl
    unfold read
    rw [this]
    have hno : okOpt ⟨none, some flag, none, false, none, none⟩ = false := by
      obtain ⟨c, hc, -⟩ := hf
      cases flag with
      | nil => cases hc
      | cons x t =>
        have : x ≠ '-' := fun e => hd (by rw [e]; rfl)
        simp [okOpt, List.isPrefixOf, Ne.symm this]
    simp [okDef, hno]

/-- **C178 fails: a definition that worked is lost.** `comp-gen` overwrites the user's definition with one that cannot
be read, and succeeds; with the next shell the old definition is gone. -/
theorem C178_lost_violated (w : World) (d : Def) (j : J) (hc : check d.command j = true) (hr : read j = none) (hne : d.command ≠ [])
    (hu : (w.user d.command).bind read = some d) (hb : (w.builtin d.command).bind read = none) (hh : (w.here d.command).bind read = none) :
    (tab w [] d.command).1 = some d ∧ (compGen w d.command j).1 = 0 ∧ (tab (compGen w d.command j).2 [] d.command).1 = none := by
  refine ⟨?_, useless w [] d.command j hc hr hb hh rfl⟩
  have hne' : d.command.isEmpty = false := by rw [List.isEmpty_eq_false_iff]; exact hne
  unfold tab Db.ensure World.find
  simp [hne', hb, hu, Db.add]

/-! ### What is read -/

/-- The subcommands of a list, at all depths. -/
inductive Within : List Sub → Sub → Prop
  | here {ss s} : s ∈ ss → Within ss s
  | deeper {ss n e al os as ss' s} : Sub.mk n e al os as ss' ∈ ss → Within ss' s → Within ss s

theorem ok_within {ss : List Sub} {s : Sub} (h : Within ss s) (ho : okSubs ss = true) : okSub s = true := by
  induction h with
  | here hm => exact (okSubs_iff _).1 ho _ hm
  | deeper hm _ ih =>
    have := (okSubs_iff _).1 ho _ hm
    rw [okSub, Bool.and_eq_true] at this
    exact ih this.2

theorem okOpt_iff (o : Opt) (h : okOpt o = true) : (o.short ≠ none ∨ o.long ≠ none) ∧ (∀ s ∈ o.short, ∃ t, s = '-' :: t ∧ t.head? ≠ some '-') ∧
    ∀ l ∈ o.long, ∃ t, l = '-' :: t ∧ t ≠ [] ∧ t ≠ ['-'] := by
  unfold okOpt at h
  rw [Bool.and_eq_true, Bool.and_eq_true] at h
  obtain ⟨⟨h1, h2⟩, h3⟩ := h
  refine ⟨?_, ?_, ?_⟩
  · rw [Bool.or_eq_true, Option.isSome_iff_ne_none, Option.isSome_iff_ne_none] at h1; exact h1
  · intro s hs
    rw [Option.mem_def.1 hs] at h2
    cases s with
    | nil => simp [List.isPrefixOf] at h2
    | cons c s =>
      simp only [List.isPrefixOf, Bool.and_true, Bool.and_eq_true, beq_iff_eq, Bool.not_eq_true'] at h2
      refine ⟨s, by rw [← h2.1], ?_⟩
      cases s with
      | nil => nofun
      | cons x s =>
        rintro hx
        cases hx
        rw [← h2.1] at h2
        simp [List.isPrefixOf] at h2
  · intro l hl
    rw [Option.mem_def.1 hl] at h3
    cases l with
    | nil => simp [List.isPrefixOf] at h3
    | cons c s =>
      simp only [List.isPrefixOf, Bool.and_true, Bool.and_eq_true, beq_iff_eq, decide_eq_true_eq] at h3
      obtain ⟨⟨rfl, hb⟩, hc⟩ := h3
      exact ⟨s, rfl, fun e => hb (by rw [e]), fun e => hc (by rw [e])⟩

theorem read_ok {j : J} {d : Def} (h : read j = some d) : okDef d = true := by
  unfold read at h
  cases ht : toDef j with
  | none => rw [ht] at h; cases h
  | some d' =>
    rw [ht] at h
    simp only [Option.bind_some] at h
    split at h
    · cases h; assumption
    · cases h

/-- **C178, what is offered.** Whatever files there are: in a definition that is read, all subcommands at all depths
have names of one word, and all options have flags with dashes. -/
theorem C178_sound_partial (j : J) (d : Def) (h : read j = some d) : Name d.command ∧
    (∀ s, Within d.subs s → ∀ n e al os as ss, s = .mk n e al os as ss → Name n ∧ ∀ o ∈ os, (o.short ≠ none ∨ o.long ≠ none) ∧
      (∀ s ∈ o.short, ∃ t, s = '-' :: t ∧ t.head? ≠ some '-') ∧ ∀ l ∈ o.long, ∃ t, l = '-' :: t ∧ t ≠ [] ∧ t ≠ ['-']) ∧
    ∀ o ∈ d.options, (o.short ≠ none ∨ o.long ≠ none) ∧ (∀ s ∈ o.short, ∃ t, s = '-' :: t ∧ t.head? ≠ some '-') ∧
      ∀ l ∈ o.long, ∃ t, l = '-' :: t ∧ t ≠ [] ∧ t ≠ ['-'] := by
  have hk := read_ok h
  unfold okDef at hk
  simp only [Bool.and_eq_true, oneWord_iff, List.all_eq_true] at hk
  obtain ⟨⟨⟨h1, h2⟩, h3⟩, -⟩ := hk
  refine ⟨h1, ?_, fun o ho => okOpt_iff o (h3 o ho)⟩
  rintro s hs n e al os as ss rfl
  have := ok_within hs h2
  rw [okSub, Bool.and_eq_true, Bool.and_eq_true, oneWord_iff, List.all_eq_true] at this
  exact ⟨this.1.1, fun o ho => okOpt_iff o (this.1.2 o ho)⟩

/-! ### C179: scripts -/

theorem mapM_mem {α β : Type} (f : α → Option β) (l : List α) (r : List β) (h : l.mapM f = some r) (b : β) (hb : b ∈ r) : ∃ a ∈ l, f a = some b := by
  induction l generalizing r with
  | nil => cases h; cases hb
  | cons x l ih =>
    rw [List.mapM_cons] at h
    cases hx : f x with
    | none => rw [hx] at h; cases h
    | some y =>
      rw [hx] at h
      cases hl : l.mapM f with
      | none => rw [hl] at h; cases h
      | some ys =>
        rw [hl] at h
        cases h
        rcases List.mem_cons.1 hb with rfl | hb
        · exact ⟨x, List.mem_cons_self .., hx⟩
        · obtain ⟨a, ha, he⟩ := ih ys hl hb
          exact ⟨a, List.mem_cons_of_mem _ ha, he⟩

theorem toTy_checked (j : J) (t : Ty) (h : toTy j = some t) (hc : checkType j = true) : ∀ s, t ≠ .script s := by
  rintro s rfl
  cases j with
  | obj m =>
    simp only [toTy, toStruct, checkType, object] at h hc
    unfold must at h
    cases hf : field m c!"type" with
    | none => rw [hf] at h; cases h
    | some o =>
      rw [hf] at h
      cases o with
      | none => cases h
      | some x =>
        cases x with
        | str n =>
          rw [field_get m _ _ hf] at hc
          have : n = c!"Script" := by
            simp only [Option.bind_some, toStr] at h
            split at h
            · exfalso
              cases hd : field m c!"data" with
              | none => rw [hd] at h; cases h
              | some o =>
                rw [hd] at h
                cases o with
                | none => cases h
                | some x =>
                  cases x with
                  | obj d =>
                    simp only [Option.bind_some, toStruct] at h
                    cases hm : may d c!"extensions" (toList toStr) with
                    | none => rw [hm] at h; cases h
                    | some e => rw [hm] at h; cases h
                  | _ => cases h
            · split at h
              · exfalso
                cases hd : (field m c!"data").bind (fun f => f.bind (toList toStr)) with
                | none => rw [hd] at h; cases h
                | some e => rw [hd] at h; cases h
              · split at h
                · assumption
                · exfalso
                  split at h
                  · split at h <;> cases h
                  · cases h
          subst this
          simp [needText] at hc
          split at hc
          · cases hc
          · rename_i heq
            simp at heq
            simp [← heq.2] at hc
        | _ => cases h
  | _ => cases h

theorem may_some {α : Type} {m : List (Str × J)} {k : Str} {d : J → Option α} {o : Option α} (h : may m k d = some o) (a : α) (ha : a ∈ o) :
    ∃ j, get m k = some j ∧ d j = some a := by
  unfold may at h
  cases hf : field m k with
  | none => rw [hf] at h; cases h
  | some x =>
    rw [hf] at h
    cases x with
    | none => cases h; cases ha
    | some j =>
      refine ⟨j, field_get m k _ hf, ?_⟩
      cases j with
      | null => cases h; cases ha
      | _ =>
        simp only at h
        obtain ⟨b, hb, hbo⟩ := Option.map_eq_some_iff.1 h
        subst hbo
        cases ha
        exact hb

theorem orElse_some {α : Type} {m : List (Str × J)} {k : Str} {d : J → Option (List α)} {l : List α} (h : orElse m k [] d = some l) (a : α) (ha : a ∈ l) :
    ∃ j, get m k = some j ∧ d j = some l := by
  unfold orElse at h
  cases hf : field m k with
  | none => rw [hf] at h; cases h
  | some x =>
    rw [hf] at h
    cases x with
    | none => cases h; cases ha
    | some j => exact ⟨j, field_get m k _ hf, h⟩

theorem bind_eq {α β : Type} {o : Option α} {f : α → Option β} {b : β} (h : o.bind f = some b) : ∃ a, o = some a ∧ f a = some b := by
  cases o with
  | none => cases h
  | some a => exact ⟨a, rfl, h⟩

theorem map_eq {α β : Type} {o : Option α} {f : α → β} {b : β} (h : o.map f = some b) : ∃ a, o = some a ∧ f a = b := by
  cases o with
  | none => cases h
  | some a => exact ⟨a, rfl, by cases h; rfl⟩

/-- An argument without script. -/
def Arg.quiet (a : Arg) : Prop := ∀ t ∈ a.ty, ∀ s, t ≠ .script s

theorem toArg_checked (j : J) (a : Arg) (h : toArg j = some a) (hc : checkArg j = true) : a.quiet := by
  cases j with
  | obj m =>
    simp only [toArg, toStruct] at h
    obtain ⟨n, -, h⟩ := bind_eq h
    obtain ⟨e, -, h⟩ := bind_eq h
    obtain ⟨b, -, h⟩ := bind_eq h
    obtain ⟨t, ht, rfl⟩ := map_eq h
    intro x hx
    obtain ⟨j, hg, hd⟩ := may_some ht x hx
    simp only [checkArg, object, Bool.and_eq_true] at hc
    have := hc.1.1.2
    unfold ifThere at this
    rw [hg] at this
    exact toTy_checked j x hd this
  | _ => cases h

theorem toOpt_checked (j : J) (o : Opt) (h : toOpt j = some o) (hc : checkOpt j = true) : ∀ t ∈ o.valueTy, ∀ s, t ≠ .script s := by
  cases j with
  | obj m =>
    simp only [toOpt, toStruct] at h
    obtain ⟨s, -, h⟩ := bind_eq h
    obtain ⟨l, -, h⟩ := bind_eq h
    obtain ⟨e, -, h⟩ := bind_eq h
    obtain ⟨b, -, h⟩ := bind_eq h
    obtain ⟨v, hv, h⟩ := bind_eq h
    obtain ⟨a, -, rfl⟩ := map_eq h
    intro x hx
    obtain ⟨j, hg, hd⟩ := may_some hv x hx
    simp only [checkOpt, object] at hc
    split at hc
    · simp only [Bool.and_eq_true] at hc
      have := hc.2
      unfold ifThere at this
      rw [hg] at this
      exact toTy_checked j x hd this
    · cases hc
  | _ => cases h

theorem list_checked {α : Type} (m : List (Str × J)) (k : Str) (d : J → Option α) (p : J → Bool) (l : List α) (h : orElse m k [] (toList d) = some l)
    (hc : ifThere m k (all p) = true) (a : α) (ha : a ∈ l) : ∃ j, d j = some a ∧ p j = true := by
  obtain ⟨j, hg, hl⟩ := orElse_some h a ha
  unfold ifThere at hc
  rw [hg] at hc
  cases j with
  | arr js =>
    obtain ⟨x, hx, he⟩ := mapM_mem d js l hl a ha
    simp only [all, List.all_eq_true] at hc
    exact ⟨x, he, hc x hx⟩
  | _ => cases hl

/-- A subcommand without scripts in arguments and values of options, at all depths. -/
def Sub.quiet (s : Sub) : Prop :=
  ∀ s', Within [s] s' → ∀ n e al os as ss, s' = .mk n e al os as ss → (∀ a ∈ as, a.quiet) ∧ ∀ o ∈ os, ∀ t ∈ o.valueTy, ∀ x, t ≠ .script x

theorem within_mono {ss ss' : List Sub} (hs : ∀ s ∈ ss, s ∈ ss') {s : Sub} (h : Within ss s) : Within ss' s := by
  cases h with
  | here hm => exact .here (hs _ hm)
  | deeper hm hw => exact .deeper (hs _ hm) hw

theorem toSub_checked (n n' : Nat) (j : J) (s : Sub) (h : toSub n j = some s) (hc : checkSub n' j = true) : s.quiet := by
  induction n generalizing n' j s with
  | zero => cases h
  | succ n ih =>
    cases n' with
    | zero => cases hc
    | succ n' =>
      cases j with
      | obj m =>
        simp only [toSub, toStruct] at h
        obtain ⟨nm, -, h⟩ := bind_eq h
        obtain ⟨e, -, h⟩ := bind_eq h
        obtain ⟨al, -, h⟩ := bind_eq h
        obtain ⟨os, hos, h⟩ := bind_eq h
        obtain ⟨as, has, h⟩ := bind_eq h
        obtain ⟨ss, hss, rfl⟩ := map_eq h
        simp only [checkSub, object, Bool.and_eq_true] at hc
        obtain ⟨⟨⟨-, c1⟩, c2⟩, c3⟩ := hc
        intro s' hw
        cases hw with
        | here hm =>
          rw [List.mem_singleton] at hm
          subst hm
          rintro n1 e1 al1 os1 as1 ss1 heq
          cases heq
          refine ⟨fun a ha => ?_, fun o ho => ?_⟩
          · obtain ⟨j, h1, h2⟩ := list_checked m _ toArg checkArg as has c2 a ha
            exact toArg_checked j a h1 h2
          · obtain ⟨j, h1, h2⟩ := list_checked m _ toOpt checkOpt os hos c1 o ho
            exact toOpt_checked j o h1 h2
        | deeper hm hw' =>
          rw [List.mem_singleton] at hm
          cases hm
          have key : ∀ x ∈ ss, x.quiet := by
            intro x hx
            obtain ⟨j, h1, h2⟩ := list_checked m _ (toSub n) (checkSub n') ss hss c3 x hx
            exact ih n' j x h1 h2
          cases hw' with
          | here hm => exact key _ hm _ (.here (List.mem_cons_self ..))
          | deeper hm hw => exact key _ hm _ (.deeper (List.mem_cons_self ..) hw)
      | _ => cases h

/-- **C179, generated definitions.** In a definition that `comp-gen` accepts there is no script in the arguments of
the command or of a subcommand, nor as type of the value of an option, at any depth. -/
theorem C179_checked_partial (cmd : Str) (j : J) (d : Def) (hc : check cmd j = true) (h : read j = some d) :
    (∀ a ∈ d.arguments, a.quiet) ∧ (∀ o ∈ d.options, ∀ t ∈ o.valueTy, ∀ s, t ≠ .script s) ∧
      ∀ s, Within d.subs s → ∀ n e al os as ss, s = .mk n e al os as ss → (∀ a ∈ as, a.quiet) ∧ ∀ o ∈ os, ∀ t ∈ o.valueTy, ∀ x, t ≠ .script x := by
  have hd : toDef j = some d := by
    unfold read at h
    cases ht : toDef j with
    | none => rw [ht] at h; cases h
    | some d' =>
      rw [ht] at h
      simp only [Option.bind_some] at h
      split at h
      · exact h
      · cases h
  cases j with
  | obj m =>
    simp only [toDef, toStruct] at hd
    obtain ⟨c, -, hd⟩ := bind_eq hd
    obtain ⟨e, -, hd⟩ := bind_eq hd
    obtain ⟨ss, hss, hd⟩ := bind_eq hd
    obtain ⟨os, hos, hd⟩ := bind_eq hd
    obtain ⟨as, has, rfl⟩ := map_eq hd
    simp only [check, object, Bool.and_eq_true] at hc
    obtain ⟨⟨⟨-, c1⟩, c2⟩, c3⟩ := hc
    refine ⟨fun a ha => ?_, fun o ho => ?_, fun s hs => ?_⟩
    · obtain ⟨j, h1, h2⟩ := list_checked m _ toArg checkArg as has c2 a ha
      exact toArg_checked j a h1 h2
    · obtain ⟨j, h1, h2⟩ := list_checked m _ toOpt checkOpt os hos c1 o ho
      exact toOpt_checked j o h1 h2
    · have key : ∀ x ∈ ss, x.quiet := by
        intro x hx
        obtain ⟨j, h1, h2⟩ := list_checked m _ _ _ ss hss c3 x hx
        exact toSub_checked _ _ j x h1 h2
      cases hs with
      | here hm => exact key _ hm _ (.here (List.mem_cons_self ..))
      | deeper hm hw => exact key _ hm _ (.deeper (List.mem_cons_self ..) hw)
  | _ => cases hd

/-- An option whose argument is a script. -/
def scriptOpt (script : Str) : J :=
  .obj [(c!"long", .str c!"--to"), (c!"argument", .obj [(c!"name", .str c!"x"), (c!"type", .obj [(c!"type", .str c!"Script"), (c!"data", .str script)])])]

/-- **C179 fails: scripts of the AI.** Scripts are to be refused, but the argument of an option is not looked at: a
definition with any script in it is accepted, saved and used by Tab. -/
theorem C179_script_violated (w : World) (db : Db) (name script : Str) (hn : Name name) (hb : (w.builtin name).bind read = none)
    (hdb : db.lookup name = none) :
    let j := .obj [(c!"command", .str name), (c!"global_options", .arr [scriptOpt script])]
    (compGen w name j).1 = 0 ∧ ∃ d, (tab (compGen w name j).2 db name).1 = some d ∧
      ∃ o ∈ d.options, ∃ a ∈ o.argument, a.ty = some (.script script) := by
  intro j
  have hc : check name j = true := by
    have h1 := hn.said.need
    have h2 : needText (.str c!"--to") = some c!"--to" := (dash_said _).need
    simp [check, j, scriptOpt, object, get, List.lookup_cons, ifThere, all, checkOpt, optText, h1, h2]
  have hr : read j = some ⟨name, none, [], [⟨none, some c!"--to", none, false, none, some ⟨c!"x", none, false, some (.script script)⟩⟩], []⟩ := by
    unfold read
    have : toDef j = some ⟨name, none, [], [⟨none, some c!"--to", none, false, none, some ⟨c!"x", none, false, some (.script script)⟩⟩], []⟩ := rfl
    rw [this]
    have h1 := (oneWord_iff name).2 hn
    simp [okDef, h1, okSubs, okOpt, List.isPrefixOf]
  have hne : name.isEmpty = false := by rw [List.isEmpty_eq_false_iff]; exact hn.1
  unfold compGen
  rw [hc]
  refine ⟨rfl, ⟨name, none, [], [⟨none, some c!"--to", none, false, none, some ⟨c!"x", none, false, some (.script script)⟩⟩], []⟩, ?_,
    _, List.mem_cons_self .., ⟨c!"x", none, false, some (.script script)⟩, rfl, rfl⟩
  simp only [if_true]
  unfold tab Db.ensure World.find
  simp only [hne, hdb, Bool.false_eq_true, if_false, Option.isSome_none, World.save, hb, if_true, Option.bind_some, hr]
  simp [Db.add]

/-- **C179 fails: foreign directories.** For a command without definition Tab takes whatever is in `completions` of
the current directory, scripts included. -/
theorem C179_here_violated (w : World) (db : Db) (j : J) (d : Def) (hr : read j = some d) (hb : (w.builtin d.command).bind read = none)
    (hu : (w.user d.command).bind read = none) (hdb : db.lookup d.command = none) (hh : w.here d.command = some j) :
    (tab w db d.command).1 = some d := by
  have hne : d.command.isEmpty = false := by rw [List.isEmpty_eq_false_iff]; exact (C178_sound_partial j d hr).1.1
  unfold tab Db.ensure World.find
  simp only [hne, hdb, Bool.false_eq_true, if_false, Option.isSome_none, hb, hu, hh, Option.bind_some, hr]
  simp [Db.add]

/-- **C179, commands that are built in.** In a new shell the first Tab for them takes nothing from a directory. -/
theorem C179_builtin_partial (w w' : World) (name : Str) (h : ((w.builtin name).bind read).isSome) (he : w'.builtin = w.builtin) :
    w'.find name = w.find name := by
  unfold World.find
  rw [he]
  cases hb : (w.builtin name).bind read with
  | none => rw [hb] at h; cases h
  | some d => rfl

/-! ### C180: which definition -/

theorem add_lookup (db : Db) (d : Def) (n : Str) : (db.add d).lookup n = if n = d.command then some d else db.lookup n := by
  unfold Db.add
  rw [List.lookup_cons]
  by_cases h : n = d.command
  · rw [if_pos h]; simp [h]
  · rw [if_neg h, beq_eq_false_iff_ne.2 h]; exact lookup_filter db _ n h

/-- What a shell remembers after Tab for some commands, with any files there were at each time. -/
def after (db : Db) : List (World × Str) → Db
  | [] => db
  | x :: xs => after (tab x.1 db x.2).2 xs

/-- **C180, one's own.** The definition used for a command names that command, and comes from one of the files. -/
theorem C180_named_partial (xs : List (World × Str)) (w : World) (name : Str) (d : Def) (h : (tab w (after [] xs) name).1 = some d) :
    d.command = name ∧ ∃ x ∈ (w, name) :: xs, x.1.find x.2 = some d := by
  have step : ∀ (src : List (World × Str)) (w : World) (nm : Str) (db : Db),
      (∀ n d, db.lookup n = some d → d.command = n ∧ ∃ x ∈ src, x.1.find x.2 = some d) →
      ∀ n d, (db.ensure w nm).lookup n = some d → d.command = n ∧ ∃ x ∈ (w, nm) :: src, x.1.find x.2 = some d := by
    intro src w nm db hdb n d hl
    have old : db.lookup n = some d → d.command = n ∧ ∃ x ∈ (w, nm) :: src, x.1.find x.2 = some d := by
      intro h
      obtain ⟨a, x, hx, b⟩ := hdb n d h
      exact ⟨a, x, List.mem_cons_of_mem _ hx, b⟩
    unfold Db.ensure at hl
    split at hl
    · exact old hl
    · split at hl
      · exact old hl
      · cases hf : w.find nm with
        | none => rw [hf] at hl; exact old hl
        | some e =>
          rw [hf] at hl
          simp only at hl
          rw [add_lookup] at hl
          split at hl
          · cases hl; rename_i hn; exact ⟨hn.symm, _, List.mem_cons_self .., hf⟩
          · exact old hl
  have all : ∀ (xs src : List (World × Str)) (db : Db), (∀ n d, db.lookup n = some d → d.command = n ∧ ∃ x ∈ src, x.1.find x.2 = some d) →
      ∀ n d, (after db xs).lookup n = some d → d.command = n ∧ ∃ x, (x ∈ xs ∨ x ∈ src) ∧ x.1.find x.2 = some d := by
    intro xs
    induction xs with
    | nil =>
      intro src db hdb n d hl
      obtain ⟨a, x, hx, b⟩ := hdb n d hl
      exact ⟨a, x, Or.inr hx, b⟩
    | cons y xs ih =>
      intro src db hdb n d hl
      obtain ⟨a, x, hx, b⟩ := ih (y :: src) _ (step src y.1 y.2 db hdb) n d hl
      refine ⟨a, x, ?_, b⟩
      rcases hx with hx | hx
      · exact Or.inl (List.mem_cons_of_mem _ hx)
      · rcases List.mem_cons.1 hx with rfl | hx
        · exact Or.inl (List.mem_cons_self ..)
        · exact Or.inr hx
  refine step xs w name (after [] xs) ?_ name d h
  intro n d hl
  obtain ⟨a, x, hx, b⟩ := all xs [] [] (fun _ _ h => by cases h) n d hl
  rcases hx with hx | hx
  · exact ⟨a, x, hx, b⟩
  · cases hx

/-- **C180, no definition.** A command without definition is looked for again at the next Tab. -/
theorem C180_later_partial (w w' : World) (db : Db) (name : Str) (d : Def) (h : (tab w db name).1 = none) (hn : name ≠ [])
    (hf : w'.find name = some d) (hd : d.command = name) : (tab w' (tab w db name).2 name).1 = some d := by
  unfold tab at h ⊢
  simp only at h ⊢
  generalize db.ensure w name = db' at h
  unfold Db.ensure
  have hne : name.isEmpty = false := by rw [List.isEmpty_eq_false_iff]; exact hn
  simp only [hne, Bool.false_eq_true, if_false, h, Option.isSome_none, hf]
  rw [add_lookup, if_pos hd.symm]

/-- **C180 fails: the user's definition of a command that is built in** is never used. -/
theorem C180_own_violated (w : World) (name : Str) (d : Def) (h : (w.builtin name).bind read = some d) (j : J) :
    (compGen w name j).2.find name = some d := by
  unfold compGen
  split <;> simp [World.find, World.save, h]

/-- **C180 fails: changed definitions.** A definition found once is used until the shell ends, whatever becomes of the
file; `comp-gen` for this command has no effect. -/
theorem C180_old_violated (w : World) (db : Db) (name : Str) (d : Def) (h : db.lookup name = some d) : tab w db name = (some d, db) := by
  unfold tab Db.ensure
  rw [h]
  split <;> simp [h]

/-- **C180 fails: a file for another command.** A file can name a command other than the one it is found for: Tab for
the one then replaces the definition of the other. -/
theorem C180_other_violated (w : World) (db : Db) (name : Str) (d : Def) (hn : name ≠ []) (hdb : db.lookup name = none)
    (hf : w.find name = some d) (hd : d.command ≠ name) :
    (tab w db name).1 = none ∧ ∀ w', (tab w' (tab w db name).2 d.command).1 = some d := by
  have he : db.ensure w name = db.add d := by
    unfold Db.ensure
    have hne : name.isEmpty = false := by rw [List.isEmpty_eq_false_iff]; exact hn
    simp [hne, hdb, hf]
  refine ⟨?_, fun w' => ?_⟩
  · show (db.ensure w name).lookup name = none
    rw [he, add_lookup, if_neg (Ne.symm hd), hdb]
  · show (tab w' (db.ensure w name) d.command).1 = _
    rw [C180_old_violated w' _ d.command d (by rw [he, add_lookup, if_pos rfl])]

/-- **C178, refusals.** When `comp-gen` fails no file is changed; when it succeeds, what it saved is nothing else than a
definition for the command it was asked for. -/
theorem C178_refused_partial (w : World) (name : Str) (j : J) : ((compGen w name j).1 ≠ 0 → (compGen w name j).2 = w) ∧
    ((compGen w name j).1 = 0 → ∀ d, read j = some d → d.command = name) := by
  unfold compGen
  by_cases hc : check name j = true
  · rw [if_pos hc]
    refine ⟨fun h => absurd rfl h, fun _ d h => ?_⟩
    unfold read at h
    obtain ⟨d', ht, h⟩ := bind_eq h
    split at h
    · cases h
      cases j with
      | obj m =>
        simp only [toDef, toStruct] at ht
        obtain ⟨c, h1, ht⟩ := bind_eq ht
        obtain ⟨e, -, ht⟩ := bind_eq ht
        obtain ⟨ss, -, ht⟩ := bind_eq ht
        obtain ⟨os, -, ht⟩ := bind_eq ht
        obtain ⟨as, -, rfl⟩ := map_eq ht
        unfold must at h1
        obtain ⟨o, h2, h1⟩ := bind_eq h1
        obtain ⟨x, rfl, h1⟩ := bind_eq h1
        simp only [check, object, Bool.and_eq_true, decide_eq_true_eq] at hc
        have h3 := hc.1.1.1
        rw [field_get m _ _ h2] at h3
        cases x with
        | str s =>
          cases h1
          simp only [Option.bind_some, needText] at h3
          split at h3
          · cases h3
          · cases h3; rfl
        | _ => cases h1
      | _ => cases ht
    · cases h
  · rw [if_neg hc]
    exact ⟨fun _ => rfl, fun h => by cases h⟩

/-! ## Cases -/

def d0 : Def :=
  ⟨c!"foo", some c!"Foo", [.mk c!"add" none [c!"a"] [⟨some c!"-n", some c!"--dry-run", none, false, none, none⟩] [⟨c!"path", none, true, some (.file none)⟩]
    [.mk c!"all" none [] [] [] []]], [⟨none, some c!"-json", some c!"J", true, some (.choice [c!"x", c!"y"]), some ⟨c!"n", none, false, some (.other c!"Number")⟩⟩],
    [⟨c!"f", none, false, some (.file (some [c!".rs"]))⟩]⟩

example : check c!"foo" d0.json = true := by decide +kernel
example : ((read d0.json).map (fun d => (d.command, d.options, d.arguments))) = some (d0.command, d0.options, d0.arguments) := by decide +kernel
example : check c!"foo" (argDef c!"foo" c!"f" (.obj [(c!"type", .str c!"File")])) = true ∧
    (read (argDef c!"foo" c!"f" (.obj [(c!"type", .str c!"File")]))).isNone = true := by decide +kernel

end Dsh.CompGen
