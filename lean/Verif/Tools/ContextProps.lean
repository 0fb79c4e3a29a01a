import Verif.Tools.Context
import Verif.Prompt.GitProps
/-!
C198: what `doctor project` says.
-/
namespace Dsh.Context

open Dsh.Record (lines)
open Dsh.Prm (words)
open Dsh.Live (markers)

/-! ## The specification: what files say -/

/-- A directory has something of that name. -/
def Has (ls : List Level) (i : Nat) (n : Str) : Prop := ∃ l node, ls[i]? = some l ∧ l n = some node

/-- The nearest one of that name. -/
def Nearest (ls : List Level) (i : Nat) (n : Str) : Prop := Has ls i n ∧ ∀ j < i, ¬ Has ls j n

/-- The readable text of a file. -/
def Text (ls : List Level) (i : Nat) (n s : Str) : Prop := ∃ l, ls[i]? = some l ∧ l n = some (.file (some s))

/-- A line that says nothing. -/
def Idle (l : Str) : Prop := trim l = [] ∨ (trim l).head? = some '#'

/-- The first line that says something is the version. -/
def SaysText (s v : Str) : Prop := ∃ before l after, lines s = before ++ l :: after ∧ (∀ b ∈ before, Idle b) ∧ ¬ Idle l ∧ v = trim l

/-- A line has the name of the tool and behind it the version; no line before is about the tool. -/
def SaysTool (names : List Str) (s v : Str) : Prop :=
  ∃ before l after n more, lines s = before ++ l :: after ∧ (∀ b ∈ before, Idle b ∨ ∃ t r, words b = t :: r ∧ t ∉ names) ∧ ¬ Idle l ∧
    words l = n :: v :: more ∧ n ∈ names

/-- The names of a language in lists of tools. -/
def toolNames (lang : Str) : List Str :=
  if lang = c!"node" then [c!"node", c!"nodejs"] else if lang = c!"go" then [c!"go", c!"golang"] else [lang]

/-- The files with nothing but a version. -/
def versionFiles (lang : Str) : List Str :=
  if lang = c!"node" then [c!".node-version", c!".nvmrc"] else if lang = c!"python" then [c!".python-version"]
  else if lang = c!"rust" then [c!"rust-toolchain"] else []

/-- The file `n` with the text `s` wants the language in the version `v`. -/
def Says (toml : Str → Option Toml) (lang n s v : Str) : Prop :=
  (n ∈ versionFiles lang ∧ SaysText s v) ∨ (n = c!".tool-versions" ∧ SaysTool (toolNames lang) s v) ∨
  (n = c!"mise.toml" ∧ ∃ t l k x, toml s = some t ∧ t.get c!"tools" = some (.table l) ∧ k ∈ toolNames lang ∧ l.lookup k = some x ∧ version x = some v) ∨
  (n = c!"rust-toolchain.toml" ∧ lang = c!"rust" ∧ ∃ t u, toml s = some t ∧ t.get c!"toolchain" = some u ∧ u.get c!"channel" = some (.str v))

/-! ## The functions meet it -/

theorem upwards_some {ls : List Level} {n : Str} {i : Nat} : upwards ls n = some i ↔ Nearest ls i n := by
  unfold upwards Nearest Has
  rw [List.findIdx?_eq_some_iff_getElem]
  constructor
  · rintro ⟨h, h1, h2⟩
    obtain ⟨nd, hn⟩ := Option.isSome_iff_exists.1 h1
    refine ⟨⟨ls[i], nd, List.getElem?_eq_getElem h, hn⟩, ?_⟩
    rintro j hj ⟨l, nd', hl, hnd⟩
    have := h2 j hj
    rw [List.getElem?_eq_getElem (by omega)] at hl
    cases hl
    simp [hnd] at this
  · rintro ⟨⟨l, nd, hl, hnd⟩, h⟩
    have hi : i < ls.length := by
      rcases Nat.lt_or_ge i ls.length with h | h
      · exact h
      · rw [List.getElem?_eq_none h] at hl; cases hl
    rw [List.getElem?_eq_getElem hi] at hl
    cases hl
    refine ⟨hi, by simp [hnd], ?_⟩
    intro j hj hs
    obtain ⟨nd', hn'⟩ := Option.isSome_iff_exists.1 hs
    exact h j hj ⟨ls[j], nd', List.getElem?_eq_getElem (by omega), hn'⟩

theorem upwards_none {ls : List Level} {n : Str} : upwards ls n = none ↔ ∀ i, ¬ Has ls i n := by
  unfold upwards Has
  rw [List.findIdx?_eq_none_iff]
  constructor
  · rintro h i ⟨l, nd, hl, hnd⟩
    have := h l (List.mem_of_getElem? hl)
    simp [hnd] at this
  · intro h l hl
    obtain ⟨i, hi, rfl⟩ := List.getElem_of_mem hl
    cases hx : ls[i] n with
    | none => rfl
    | some nd => exact absurd ⟨ls[i], nd, List.getElem?_eq_getElem hi, hx⟩ (h i)

theorem text_some {ls : List Level} {i : Nat} {n s : Str} : text ls i n = some s ↔ Text ls i n s := by
  unfold text Text
  cases h : ls[i]? with
  | none => simp
  | some l =>
    cases h2 : l n with
    | none => simp [h2]
    | some nd => cases nd <;> simp [h2]

theorem atRoot_iff {ls : List Level} {n : Str} : atRoot ls n = true ↔ Has ls (root ls) n := by
  unfold atRoot Has
  cases h : ls[root ls]? with
  | none => simp
  | some l => simp [Option.isSome_iff_exists]

theorem skipped_iff (l : Str) : skipped l = true ↔ Idle l := by
  simp [skipped, Idle]

theorem firstLine_iff {s v : Str} : firstLine s = some v ↔ SaysText s v := by
  unfold firstLine SaysText
  rw [List.find?_eq_some_iff_append]
  have hid : ∀ l : Str, ((!(trim l).isEmpty && (trim l).head? != some '#') = true) ↔ ¬ Idle l := by
    intro l; simp only [Idle]; grind
  constructor
  · rintro ⟨hv, as, bs, heq, hno⟩
    rw [List.map_eq_append_iff] at heq
    obtain ⟨before, rest, hl, h1, h2⟩ := heq
    rw [List.map_eq_cons_iff] at h2
    obtain ⟨l, after, rfl, rfl, -⟩ := h2
    refine ⟨before, l, after, hl, ?_, (hid l).1 hv, rfl⟩
    intro b hb
    have := hno (trim b) (by rw [← h1]; exact List.mem_map_of_mem hb)
    by_cases hi : Idle b
    · exact hi
    · rw [(hid b).2 hi] at this; simp at this
  · rintro ⟨before, l, after, hl, hb, hv, rfl⟩
    refine ⟨(hid l).2 hv, before.map trim, after.map trim, by rw [hl]; simp, ?_⟩
    intro a ha
    obtain ⟨b, hb', rfl⟩ := List.mem_map.1 ha
    simpa [Idle] using hb b hb'

theorem toolLine_sound {names : List Str} {v : Str} : ∀ {ls : List Str}, toolLine names ls = some v →
    ∃ before l after n more, ls = before ++ l :: after ∧ (∀ b ∈ before, Idle b ∨ ∃ t r, words b = t :: r ∧ t ∉ names) ∧ ¬ Idle l ∧
      words l = n :: v :: more ∧ n ∈ names
  | [], h => by simp [toolLine] at h
  | l :: ls, h => by
    unfold toolLine at h
    by_cases hs : skipped l = true
    · rw [if_pos hs] at h
      obtain ⟨before, l', after, n, more, rfl, hb, h2⟩ := toolLine_sound h
      refine ⟨l :: before, l', after, n, more, rfl, ?_, h2⟩
      intro b hb'
      rcases List.mem_cons.1 hb' with rfl | hb'
      · exact .inl ((skipped_iff _).1 hs)
      · exact hb b hb'
    · rw [if_neg hs, Prm.words_trim] at h
      have hni : ¬ Idle l := fun h => hs ((skipped_iff _).2 h)
      cases hw : words l with
      | nil => rw [hw] at h; simp at h
      | cons t r =>
        rw [hw] at h
        simp only at h
        by_cases hc : names.contains t = true
        · rw [if_pos hc] at h
          cases r with
          | nil => simp at h
          | cons x r =>
            simp at h
            subst h
            exact ⟨[], l, ls, t, r, rfl, by simp, hni, hw, by simpa using hc⟩
        · rw [if_neg hc] at h
          obtain ⟨before, l', after, n, more, rfl, hb, h2⟩ := toolLine_sound h
          refine ⟨l :: before, l', after, n, more, rfl, ?_, h2⟩
          intro b hb'
          rcases List.mem_cons.1 hb' with rfl | hb'
          · exact .inr ⟨t, r, hw, by simpa using hc⟩
          · exact hb b hb'

theorem toolLine_complete {names : List Str} {l v n : Str} {after more : List Str} (hl : ¬ Idle l) (hw : words l = n :: v :: more) (hn : n ∈ names) :
    ∀ {before : List Str}, (∀ b ∈ before, Idle b ∨ ∃ t r, words b = t :: r ∧ t ∉ names) → toolLine names (before ++ l :: after) = some v
  | [], _ => by
    have hs : ¬ skipped l = true := fun h => hl ((skipped_iff _).1 h)
    rw [List.nil_append, toolLine, if_neg hs, Prm.words_trim, hw]
    simp [hn]
  | b :: before, h => by
    have ih := toolLine_complete (after := after) hl hw hn (before := before) (fun b hb => h b (by simp [hb]))
    rw [List.cons_append, toolLine]
    by_cases hs : skipped b = true
    · rw [if_pos hs, ih]
    · rw [if_neg hs, Prm.words_trim]
      rcases h b (by simp) with h | ⟨t, r, hw', ht⟩
      · exact absurd ((skipped_iff _).2 h) hs
      · rw [hw']; simp [ht, ih]

/-- What is shown with a version comes from the nearest file of its name. -/
def Good (toml : Str → Option Toml) (ls : List Level) (lang : Str) (r : Runtime) : Prop :=
  r.name = lang ∧ ∀ v, r.version = some v → ∃ i n s, r.path = (i, n) ∧ Nearest ls i n ∧ Text ls i n s ∧ Says toml lang n s v

theorem fromText_good {toml : Str → Option Toml} {ls : List Level} {lang f : Str} (hf : f ∈ versionFiles lang) {r : Runtime}
    (h : fromText ls lang f = some r) : Good toml ls lang r := by
  simp only [fromText, Option.bind_eq_some_iff, Option.map_eq_some_iff] at h
  obtain ⟨i, hi, v, ⟨s, hs, hv⟩, rfl⟩ := h
  refine ⟨rfl, ?_⟩
  intro v' hv'; cases hv'
  exact ⟨i, f, s, rfl, upwards_some.1 hi, text_some.1 hs, .inl ⟨hf, firstLine_iff.1 hv⟩⟩

theorem fromTools_good {toml : Str → Option Toml} {ls : List Level} {lang : Str} {names : List Str} (hn : names = toolNames lang) {r : Runtime}
    (h : fromTools ls lang names = some r) : Good toml ls lang r := by
  simp only [fromTools, Option.bind_eq_some_iff, Option.map_eq_some_iff] at h
  obtain ⟨i, hi, v, ⟨s, hs, hv⟩, rfl⟩ := h
  refine ⟨rfl, ?_⟩
  intro v' hv'; cases hv'
  subst hn
  exact ⟨i, _, s, rfl, upwards_some.1 hi, text_some.1 hs, .inr (.inl ⟨rfl, toolLine_sound hv⟩)⟩

theorem fromMise_good {toml : Str → Option Toml} {ls : List Level} {lang : Str} {names : List Str} (hn : ∀ k ∈ names, k ∈ toolNames lang) {r : Runtime}
    (h : fromMise toml ls lang names = some r) : Good toml ls lang r := by
  simp only [fromMise, Option.bind_eq_some_iff, Option.map_eq_some_iff] at h
  obtain ⟨i, hi, v, ⟨s, hs, hv⟩, rfl⟩ := h
  refine ⟨rfl, ?_⟩
  intro v' hv'; cases hv'
  refine ⟨i, _, s, rfl, upwards_some.1 hi, text_some.1 hs, .inr (.inr (.inl ⟨rfl, ?_⟩))⟩
  simp only [miseVersion, Option.bind_eq_some_iff] at hv
  obtain ⟨t, ht, u, hu, hv⟩ := hv
  cases u with
  | table l =>
    simp only at hv
    obtain ⟨k, hk, hkv⟩ := List.exists_of_findSome?_eq_some hv
    obtain ⟨x, hx, hxv⟩ := Option.bind_eq_some_iff.1 hkv
    exact ⟨t, l, k, x, ht, hu, hn k hk, hx, hxv⟩
  | _ => simp at hv

theorem fromDir_good {toml : Str → Option Toml} {ls : List Level} {lang n : Str} {r : Runtime}
    (h : fromDir ls lang n = some r) : Good toml ls lang r := by
  simp only [fromDir, Option.bind_eq_some_iff] at h
  obtain ⟨i, hi, h⟩ := h
  split at h
  · cases h; exact ⟨rfl, by simp⟩
  · cases h

theorem fromToolchain_good {toml : Str → Option Toml} {ls : List Level} {r : Runtime}
    (h : fromToolchain toml ls = some r) : Good toml ls c!"rust" r := by
  unfold fromToolchain at h
  split at h
  · rename_i i hi
    simp only [Option.map_eq_some_iff, Option.bind_eq_some_iff] at h
    obtain ⟨v, ⟨t, ⟨s, hs, ht⟩, c, ⟨u, hu, hc⟩, hv⟩, rfl⟩ := h
    refine ⟨rfl, ?_⟩
    intro v' hv'; cases hv'
    refine ⟨i, _, s, rfl, upwards_some.1 hi, text_some.1 hs, .inr (.inr (.inr ⟨rfl, rfl, t, u, ht, hu, ?_⟩))⟩
    cases c <;> simp [Toml.text] at hv
    subst hv; exact hc
  · exact fromText_good (by decide) h

theorem or_good {P : Runtime → Prop} {a b : Option Runtime} (ha : ∀ r, a = some r → P r) (hb : ∀ r, b = some r → P r) {r : Runtime}
    (h : a.or b = some r) : P r := by
  cases a with
  | none => exact hb r (by simpa using h)
  | some x => exact ha r (by simpa using h)

theorem rust_good {toml : Str → Option Toml} {ls : List Level} {r : Runtime} (h : rust toml ls = some r) : Good toml ls c!"rust" r := by
  unfold rust at h
  split at h
  · exact or_good (fun r => fromMise_good (by decide)) (fun r => or_good (fun r => fromTools_good (by decide))
      (fun r => or_good (fun r => fromToolchain_good) (fun r h => by cases h; exact ⟨rfl, by simp⟩))) h
  · cases h

theorem node_good {toml : Str → Option Toml} {ls : List Level} {r : Runtime} (h : node toml ls = some r) : Good toml ls c!"node" r := by
  unfold node at h
  split at h
  · exact or_good (fun r => fromMise_good (by decide)) (fun r => or_good (fun r => fromTools_good (by decide))
      (fun r => or_good (fun r => fromText_good (by decide)) (fun r => or_good (fun r => fromText_good (by decide))
        (fun r h => by cases h; exact ⟨rfl, by simp⟩)))) h
  · cases h

theorem python_good {toml : Str → Option Toml} {ls : List Level} {r : Runtime} (h : python toml ls = some r) : Good toml ls c!"python" r := by
  unfold python at h
  split at h
  · exact or_good (fun r => fromMise_good (by decide)) (fun r => or_good (fun r => fromTools_good (by decide))
      (fun r => or_good (fun r => fromText_good (by decide)) (fun r => or_good (fun r => fromDir_good)
        (fun r => or_good (fun r => fromDir_good) (fun r h => by
          obtain ⟨n, -, rfl⟩ := Option.map_eq_some_iff.1 h; exact ⟨rfl, by simp⟩))))) h
  · cases h

theorem go_good {toml : Str → Option Toml} {ls : List Level} {r : Runtime} (h : go toml ls = some r) : Good toml ls c!"go" r := by
  unfold go at h
  split at h
  · exact or_good (fun r => fromMise_good (by decide)) (fun r => or_good (fun r => fromTools_good (by decide))
      (fun r h => by
        split at h
        · cases h; exact ⟨rfl, by simp⟩
        · cases h)) h
  · cases h

theorem mem_runtimes {toml : Str → Option Toml} {ls : List Level} {r : Runtime} :
    r ∈ runtimes toml ls ↔ rust toml ls = some r ∨ node toml ls = some r ∨ python toml ls = some r ∨ go toml ls = some r := by
  simp [runtimes, or_assoc]

theorem named_node {toml : Str → Option Toml} {ls : List Level} {r : Runtime} (h : r ∈ runtimes toml ls) (hn : r.name = c!"node") :
    node toml ls = some r := by
  rcases mem_runtimes.1 h with h | h | h | h
  · have := (rust_good h).1; exact absurd (hn.symm.trans this) (by decide)
  · exact h
  · have := (python_good h).1; exact absurd (hn.symm.trans this) (by decide)
  · have := (go_good h).1; exact absurd (hn.symm.trans this) (by decide)

theorem named_go {toml : Str → Option Toml} {ls : List Level} {r : Runtime} (h : r ∈ runtimes toml ls) (hn : r.name = c!"go") :
    go toml ls = some r := by
  rcases mem_runtimes.1 h with h | h | h | h
  · have := (rust_good h).1; exact absurd (hn.symm.trans this) (by decide)
  · have := (node_good h).1; exact absurd (hn.symm.trans this) (by decide)
  · have := (python_good h).1; exact absurd (hn.symm.trans this) (by decide)
  · exact h

/-! ## C198 -/

/-- The root of the project is the nearest directory with one of the files that mark projects, and the current one if there is
none. -/
theorem C198_root_partial (ls : List Level) :
    ((∃ m ∈ markers, Has ls (root ls) m) ∧ ∀ j < root ls, ∀ m ∈ markers, ¬ Has ls j m) ∨
    (root ls = 0 ∧ ∀ j, ∀ m ∈ markers, ¬ Has ls j m) := by
  unfold root
  cases h : ls.findIdx? marked with
  | none =>
    right
    refine ⟨rfl, ?_⟩
    rintro j m hm ⟨l, nd, hl, hnd⟩
    have := List.findIdx?_eq_none_iff.1 h l (List.mem_of_getElem? hl)
    simp only [marked] at this
    have := List.any_eq_false.1 this m hm
    simp [hnd] at this
  | some i =>
    left
    rw [List.findIdx?_eq_some_iff_getElem] at h
    obtain ⟨hi, h1, h2⟩ := h
    refine ⟨?_, ?_⟩
    · obtain ⟨m, hm, hs⟩ := List.any_eq_true.1 h1
      obtain ⟨nd, hnd⟩ := Option.isSome_iff_exists.1 hs
      exact ⟨m, hm, ls[i], nd, by simp [List.getElem?_eq_getElem hi], hnd⟩
    · rintro j hj m hm ⟨l, nd, hl, hnd⟩
      simp only [Option.getD_some] at hj
      have h3 := h2 j hj
      rw [List.getElem?_eq_getElem (by omega)] at hl
      cases hl
      apply h3
      exact List.any_eq_true.2 ⟨m, hm, by simp [hnd]⟩

/-- Every version shown is written in the file shown with it, which is the nearest of its name, about that language. -/
theorem C198_version_partial {toml : Str → Option Toml} {ls : List Level} {r : Runtime} (h : r ∈ runtimes toml ls) {v : Str} (hv : r.version = some v) :
    ∃ i n s, r.path = (i, n) ∧ Nearest ls i n ∧ Text ls i n s ∧ Says toml r.name n s v := by
  have key : ∃ lang, Good toml ls lang r := by
    rcases mem_runtimes.1 h with h | h | h | h
    · exact ⟨_, rust_good h⟩
    · exact ⟨_, node_good h⟩
    · exact ⟨_, python_good h⟩
    · exact ⟨_, go_good h⟩
  obtain ⟨lang, hn, hg⟩ := key
  rw [hn]
  exact hg v hv

/-- Where only one file says something about a language, what it says is shown. -/
theorem C198_found_partial (toml : Str → Option Toml) {ls : List Level} {i : Nat} {f s v lang : Str}
    (hl : lang ∈ [c!"node", c!"python", c!"rust"]) (hf : f ∈ versionFiles lang) (hn : Nearest ls i f) (ht : Text ls i f s) (hs : SaysText s v)
    (hother : ∀ g ∈ [c!"mise.toml", c!".tool-versions", c!"rust-toolchain.toml"] ++ versionFiles lang, g ≠ f → ∀ j, ¬ Has ls j g) :
    ⟨lang, f, some v, (i, f)⟩ ∈ runtimes toml ls := by
  have hno : ∀ g ∈ [c!"mise.toml", c!".tool-versions", c!"rust-toolchain.toml"] ++ versionFiles lang, g ≠ f → upwards ls g = none :=
    fun g hg hgf => upwards_none.2 (hother g hg hgf)
  have hup := upwards_some.2 hn
  have htx : fromText ls lang f = some ⟨lang, f, some v, (i, f)⟩ := by
    simp [fromText, hup, text_some.2 ht, firstLine_iff.2 hs]
  have hm : upwards ls c!"mise.toml" = none := by
    apply hno _ (by simp)
    rintro rfl
    simp only [List.mem_cons, List.not_mem_nil, or_false] at hl
    rcases hl with rfl | rfl | rfl <;> revert hf <;> decide
  have ht : upwards ls c!".tool-versions" = none := by
    apply hno _ (by simp)
    rintro rfl
    simp only [List.mem_cons, List.not_mem_nil, or_false] at hl
    rcases hl with rfl | rfl | rfl <;> revert hf <;> decide
  have hmise : ∀ names, fromMise toml ls lang names = none := by intro names; simp [fromMise, hm]
  have htool : ∀ names, fromTools ls lang names = none := by intro names; simp [fromTools, ht]
  simp only [List.mem_cons, List.not_mem_nil, or_false] at hl
  simp only [runtimes, List.mem_append, Option.mem_toList, Option.mem_def]
  rcases hl with rfl | rfl | rfl
  · left; left; right
    have hf' : f = c!".node-version" ∨ f = c!".nvmrc" := by simpa [versionFiles] using hf
    unfold node
    rcases hf' with rfl | rfl
    · rw [if_pos (by simp [hup]), hmise, htool, htx]; rfl
    · have : upwards ls c!".node-version" = none := hno _ (by decide) (by decide)
      rw [if_pos (by simp [hup]), hmise, htool, htx]
      simp [fromText, this]
  · left; right
    have hf' : f = c!".python-version" := by simpa [versionFiles] using hf
    subst hf'
    unfold python
    rw [if_pos (by simp [hup]), hmise, htool, htx]; rfl
  · left; left; left
    have hf' : f = c!"rust-toolchain" := by simpa [versionFiles] using hf
    subst hf'
    have : upwards ls c!"rust-toolchain.toml" = none := hno _ (by decide) (by decide)
    unfold rust
    rw [if_pos (by simp [hup]), hmise, htool]
    simp only [fromToolchain, this, htx]; rfl

/-- Without a list for `mise`, the version in the nearest `.tool-versions` is shown for every language shown. -/
theorem C198_tools_partial (toml : Str → Option Toml) {ls : List Level} {i : Nat} {s v : Str} {r : Runtime} (hr : r ∈ runtimes toml ls)
    (hn : Nearest ls i c!".tool-versions") (ht : Text ls i c!".tool-versions" s) (hs : SaysTool (toolNames r.name) s v)
    (hm : ∀ j, ¬ Has ls j c!"mise.toml") : r.version = some v ∧ r.path = (i, c!".tool-versions") := by
  obtain ⟨before, l, after, n, more, hls, hb, hl, hw, hmem⟩ := hs
  have hline : toolLine (toolNames r.name) (lines s) = some v := by rw [hls]; exact toolLine_complete hl hw hmem hb
  have hmise : ∀ lang names, fromMise toml ls lang names = none := by intro lang names; simp [fromMise, upwards_none.2 hm]
  have htool : ∀ lang names, toolLine names (lines s) = some v → fromTools ls lang names = some ⟨lang, c!".tool-versions", some v, (i, c!".tool-versions")⟩ := by
    intro lang names h
    simp [fromTools, upwards_some.2 hn, text_some.2 ht, h]
  rcases mem_runtimes.1 hr with h | h | h | h
  · rw [(rust_good h).1, show toolNames c!"rust" = [c!"rust"] by decide] at hline
    unfold rust at h
    split at h
    · rw [hmise, htool _ _ hline] at h; cases h; exact ⟨rfl, rfl⟩
    · cases h
  · rw [(node_good h).1, show toolNames c!"node" = [c!"node", c!"nodejs"] by decide] at hline
    unfold node at h
    split at h
    · rw [hmise, htool _ _ hline] at h; cases h; exact ⟨rfl, rfl⟩
    · cases h
  · rw [(python_good h).1, show toolNames c!"python" = [c!"python"] by decide] at hline
    unfold python at h
    split at h
    · rw [hmise, htool _ _ hline] at h; cases h; exact ⟨rfl, rfl⟩
    · cases h
  · rw [(go_good h).1, show toolNames c!"go" = [c!"go", c!"golang"] by decide] at hline
    unfold go at h
    split at h
    · rw [hmise, htool _ _ hline] at h; cases h; exact ⟨rfl, rfl⟩
    · cases h

/-- The files to activate listed are the nearest of their names, not outside of the project; each that is so is listed. -/
theorem C198_activations_partial (ls : List Level) (i : Nat) (n : Str) :
    (i, n) ∈ activations ls ↔ n ∈ [c!".envrc", c!".env", c!".venv", c!"venv"] ∧ Nearest ls i n ∧ i ≤ root ls := by
  unfold activations
  rw [List.mem_filterMap]
  constructor
  · rintro ⟨m, hm, h⟩
    split at h
    · rename_i j hj
      split at h
      · rename_i hle
        cases h
        exact ⟨hm, upwards_some.1 hj, hle⟩
      · cases h
    · cases h
  · rintro ⟨hn, hnear, hle⟩
    refine ⟨n, hn, ?_⟩
    rw [upwards_some.2 hnear]
    simp [hle]

/-- A list for `mise` anywhere above wins over the nearest file with the version: the version shown is not the one of the
current directory. -/
theorem C198_nearest_violated {toml : Str → Option Toml} {ls : List Level} {k : Nat} {s v w s' : Str}
    (hk : Nearest ls k c!"mise.toml") (ht : Text ls k c!"mise.toml" s) (hw : miseVersion toml [c!"node", c!"nodejs"] s = some w)
    (h0 : Text ls 0 c!".nvmrc" s') (_hv : SaysText s' v) (hne : v ≠ w) :
    (∃ r ∈ runtimes toml ls, r.name = c!"node") ∧ ∀ r ∈ runtimes toml ls, r.name = c!"node" → r.version = some w ∧ r.version ≠ some v := by
  have h1 : (upwards ls c!".nvmrc").isSome = true := by
    cases h : upwards ls c!".nvmrc" with
    | none =>
      obtain ⟨l, hl, hnd⟩ := h0
      exact absurd ⟨l, _, hl, hnd⟩ (upwards_none.1 h 0)
    | some i => rfl
  have h2 : fromMise toml ls c!"node" [c!"node", c!"nodejs"] = some ⟨c!"node", c!"mise", some w, (k, c!"mise.toml")⟩ := by
    simp [fromMise, upwards_some.2 hk, text_some.2 ht, hw]
  have h3 : node toml ls = some ⟨c!"node", c!"mise", some w, (k, c!"mise.toml")⟩ := by
    unfold node
    rw [if_pos (by simp [h1]), h2]; rfl
  refine ⟨⟨_, mem_runtimes.2 (.inr (.inl h3)), rfl⟩, ?_⟩
  intro r hr hn
  have := named_node hr hn
  rw [h3] at this
  cases this
  exact ⟨rfl, by simpa using Ne.symm hne⟩

/-- An empty file for the version and nothing else: the language is shown with a file that does not exist. -/
theorem C198_absent_violated (toml : Str → Option Toml) {ls : List Level} {i : Nat} {s : Str} (hn : Nearest ls i c!".nvmrc") (ht : Text ls i c!".nvmrc" s)
    (he : ∀ l ∈ lines s, Idle l)
    (hother : ∀ g ∈ [c!"mise.toml", c!".tool-versions", c!".node-version", c!"package.json"], ∀ j, ¬ Has ls j g) :
    ⟨c!"node", c!"package.json", none, (root ls, c!"package.json")⟩ ∈ runtimes toml ls ∧ ¬ Has ls (root ls) c!"package.json" := by
  refine ⟨?_, hother _ (by decide) _⟩
  have hno : ∀ g ∈ [c!"mise.toml", c!".tool-versions", c!".node-version", c!"package.json"], upwards ls g = none := fun g hg => upwards_none.2 (hother g hg)
  have h1 : firstLine s = none := by
    cases h : firstLine s with
    | none => rfl
    | some v =>
      obtain ⟨b, l, a, hl, -, hni, -⟩ := firstLine_iff.1 h
      exact absurd (he l (by rw [hl]; simp)) hni
  simp only [runtimes, List.mem_append, Option.mem_toList, Option.mem_def]
  left; left; right
  unfold node
  rw [if_pos (by simp [upwards_some.2 hn])]
  simp [fromMise, fromTools, fromText, hno _ (show c!"mise.toml" ∈ _ by decide), hno _ (show c!".tool-versions" ∈ _ by decide),
    hno _ (show c!".node-version" ∈ _ by decide), upwards_some.2 hn, text_some.2 ht, h1]

/-- A nearer list for `mise` that is silent about the language hides the ones above, which `mise` reads too: no version is
shown. -/
theorem C198_hidden_violated (toml : Str → Option Toml) {ls : List Level} {k j : Nat} {s s' w : Str} (hk : Nearest ls k c!"mise.toml")
    (ht : Text ls k c!"mise.toml" s) (hw : miseVersion toml [c!"node", c!"nodejs"] s = none)
    (_hj : k < j) (_ht' : Text ls j c!"mise.toml" s') (_hw' : miseVersion toml [c!"node", c!"nodejs"] s' = some w)
    (hp : Has ls (root ls) c!"package.json") (hother : ∀ g ∈ [c!".tool-versions", c!".node-version", c!".nvmrc"], ∀ j, ¬ Has ls j g) :
    (∃ r ∈ runtimes toml ls, r.name = c!"node") ∧ ∀ r ∈ runtimes toml ls, r.name = c!"node" → r.version = none := by
  have hno : ∀ g ∈ [c!".tool-versions", c!".node-version", c!".nvmrc"], upwards ls g = none := fun g hg => upwards_none.2 (hother g hg)
  have h3 : node toml ls = some ⟨c!"node", c!"package.json", none, (root ls, c!"package.json")⟩ := by
    unfold node
    rw [if_pos (by simp [atRoot_iff.2 hp])]
    simp [fromMise, fromTools, fromText, upwards_some.2 hk, text_some.2 ht, hw, hno _ (show c!".tool-versions" ∈ _ by decide),
      hno _ (show c!".node-version" ∈ _ by decide), hno _ (show c!".nvmrc" ∈ _ by decide)]
  refine ⟨⟨_, mem_runtimes.2 (.inr (.inl h3)), rfl⟩, ?_⟩
  intro r hr hn
  have := named_node hr hn
  rw [h3] at this
  cases this
  rfl

/-- In a project inside of a Go module, marked by anything else, Go is not shown. -/
theorem C198_go_violated (toml : Str → Option Toml) {ls : List Level} {j : Nat} (_hj : root ls < j) (_h : Has ls j c!"go.mod")
    (h1 : ¬ Has ls (root ls) c!"go.mod")
    (h2 : ∀ g ∈ [c!"mise.toml", c!".tool-versions"], ∀ j, ¬ Has ls j g) : ∀ r ∈ runtimes toml ls, r.name ≠ c!"go" := by
  have hr : atRoot ls c!"go.mod" = false := by
    cases h : atRoot ls c!"go.mod"
    · rfl
    · exact absurd (atRoot_iff.1 h) h1
  have hno : ∀ g ∈ [c!"mise.toml", c!".tool-versions"], upwards ls g = none := fun g hg => upwards_none.2 (h2 g hg)
  intro r hmem hn
  have := named_go hmem hn
  unfold go at this
  simp [hr, fromMise, fromTools, hno _ (show c!"mise.toml" ∈ _ by decide), hno _ (show c!".tool-versions" ∈ _ by decide)] at this

/-- A file to activate below the root is listed, and `pm activate` does not use it. -/
theorem C198_activation_violated {ls : List Level} {i : Nat} {n : Str} (hn : n ∈ [c!".envrc", c!".env", c!".venv", c!"venv"])
    (h : Nearest ls i n) (hi : i < root ls) : (i, n) ∈ activations ls ∧ (i, n) ∉ activated ls := by
  refine ⟨(C198_activations_partial ls i n).2 ⟨hn, h, by omega⟩, ?_⟩
  simp only [activated, List.mem_append, List.mem_map, Prod.mk.injEq, not_or, not_exists, not_and]
  exact ⟨fun _ _ h => absurd h (by omega), fun _ _ h => absurd h (by omega)⟩

/-! ## Cases -/

/-- A library for TOML that knows one text. -/
def toml0 (s : Str) : Option Toml :=
  if s = c!"[tools]\nnode = '20'\n" then some (.table [(c!"tools", .table [(c!"node", .str c!"20")])]) else none

def lv (l : List (Str × Node)) : Level := fun n => l.lookup n

def ls0 : List Level :=
  [lv [(c!".nvmrc", .file (some c!"# for CI\n 22.1 \n"))], lv [(c!"Makefile", .file none), (c!".env", .file (some []))],
   lv [(c!"mise.toml", .file (some c!"[tools]\nnode = '20'\n")), (c!"go.mod", .file (some c!"module x"))]]

example : runtimes toml0 ls0 = [⟨c!"node", c!"mise", some c!"20", (2, c!"mise.toml")⟩] := by decide +kernel
example : runtimes toml0 (ls0.take 2) = [⟨c!"node", c!".nvmrc", some c!"22.1", (0, c!".nvmrc")⟩] := by decide +kernel
example : root ls0 = 0 ∧ activations ls0 = [] ∧ root (ls0.drop 1) = 0 ∧ activations (ls0.drop 1) = [(0, c!".env")] := by decide +kernel
def ls1 : List Level := [lv [(c!".env", .file (some []))], lv [(c!"Makefile", .file none)], lv [(c!"go.mod", .file none)]]
example : root ls1 = 1 ∧ activations ls1 = [(0, c!".env")] ∧ activated ls1 = [] ∧ runtimes toml0 ls1 = [] := by decide +kernel
example : runtimes toml0 [lv [(c!".nvmrc", .file (some []))]] = [⟨c!"node", c!"package.json", none, (0, c!"package.json")⟩] := by decide +kernel
example : toolLine [c!"node", c!"nodejs"] (lines c!"# x\nruby 3\nnodejs  20 18\n") = some c!"20" := by decide +kernel

end Dsh.Context
