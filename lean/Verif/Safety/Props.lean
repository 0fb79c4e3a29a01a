import Verif.Safety.Model
import Verif.Parse.Props
/-!
Properties of the safety guard for typed lines: C29, C30, C63.

Specification: `Classified` lists what the guard promises to ask about; the syntax of lines is that
of `Verif/Parse/Syntax.lean`.
-/
namespace Dsh.Safety
open Dsh.Shell Dsh.Eval Dsh.Syn

/-! ### Specification -/

/-- `n` is the last component of the program `p`. -/
def BaseName (p n : Str) : Prop :=
  ('/' ∉ n ∧ n ≠ [] ∧ n ≠ c!"." ∧ n ≠ c!"..") ∧ (p = n ∨ ∃ d, p = d ++ '/' :: n)

/-- A flag of `rm` the guard knows. -/
def RmFlag (a : Str) : Prop :=
  a = c!"-r" ∨ a = c!"-R" ∨ a = c!"--recursive" ∨ (∃ t, a = c!"-rx" ++ t) ∨ (∃ t, a = c!"-rf" ++ t) ∨
  ∃ t, a = c!"-fr" ++ t

/-- A file the guard regards as sensitive. -/
def Sensitive (a : Str) : Prop :=
  (∃ m ∈ [c!".ssh", c!"id_rsa", c!"id_ed25519", c!".aws/credentials", c!".config/gcloud", c!".azure",
      c!".env"], ∃ u v, a = u ++ m ++ v) ∨
  a = c!"/etc/shadow" ∨ a = c!"/etc/passwd" ∨ ∃ u, a = u ++ c!"_history"

/-- The commands the guard classifies as dangerous at the normal level: program name, arguments. -/
inductive Classified : Str → List Str → Prop
  | system {n args} :
      n ∈ [c!"dd", c!"mkfs", c!"format", c!"reboot", c!"shutdown", c!"poweroff", c!"mkswap"] →
      Classified n args
  | rm {args a} : a ∈ args → RmFlag a → Classified c!"rm" args
  | push {args a} : a ∈ args → a ∈ [c!"--force", c!"-f", c!"--force-with-lease"] →
      Classified c!"git" (c!"push" :: args)
  | clean {args a} : a ∈ args → 'x' ∈ a → Classified c!"git" (c!"clean" :: args)
  | reset {args} : c!"--hard" ∈ args → Classified c!"git" (c!"reset" :: args)
  | recursive {n args a} : n ∈ [c!"chmod", c!"chown"] → a ∈ args → a ∈ [c!"-R", c!"--recursive"] →
      Classified n args
  | copy {args a b} : a ∈ args → (a = c!"-R" ∨ (∃ t, a = '-' :: t ∧ 'r' ∈ t)) →
      b ∈ args → b ∈ [c!"-f", c!"--force"] → Classified c!"cp" args
  | upload {n args a} : n ∈ [c!"curl", c!"wget"] → a ∈ args →
      a ∈ [c!"-d", c!"--data", c!"-F", c!"--form", c!"-T", c!"--upload-file", c!"--post-data",
        c!"--post-file"] → Classified n args
  | sensitive {n args a} :
      n ∈ [c!"cat", c!"less", c!"more", c!"head", c!"tail", c!"grep", c!"awk", c!"sed"] →
      a ∈ args → Sensitive a → Classified n args

theorem Classified.append {n : Str} {a : List Str} (h : Classified n a) (b : List Str) :
    Classified n (a ++ b) := by
  cases h with
  | system h => exact .system h
  | rm h1 h2 => exact .rm (List.mem_append_left _ h1) h2
  | push h1 h2 => exact .push (List.mem_append_left _ h1) h2
  | clean h1 h2 => exact .clean (List.mem_append_left _ h1) h2
  | reset h1 => exact .reset (List.mem_append_left _ h1)
  | recursive h0 h1 h2 => exact .recursive h0 (List.mem_append_left _ h1) h2
  | copy h1 h2 h3 h4 => exact .copy (List.mem_append_left _ h1) h2 (List.mem_append_left _ h3) h4
  | upload h0 h1 h2 => exact .upload h0 (List.mem_append_left _ h1) h2
  | sensitive h0 h1 h2 => exact .sensitive h0 (List.mem_append_left _ h1) h2

/-! ### The checkers decide the classification -/

theorem hasSub_iff {m : Str} : ∀ {a : Str}, hasSub m a = true ↔ ∃ u v, a = u ++ m ++ v
  | [] => by
    simp only [hasSub, List.isEmpty_iff]
    constructor
    · rintro rfl; exact ⟨[], [], rfl⟩
    · rintro ⟨u, v, h⟩
      have := congrArg List.length h
      simp at this
      exact List.eq_nil_of_length_eq_zero (by omega)
  | c :: cs => by
    simp only [hasSub, Bool.or_eq_true, hasSub_iff (a := cs), List.isPrefixOf_iff_prefix]
    constructor
    · rintro (⟨v, h⟩ | ⟨u, v, h⟩)
      · exact ⟨[], v, by simp [h]⟩
      · exact ⟨c :: u, v, by simp [h]⟩
    · rintro ⟨u, v, h⟩
      cases u with
      | nil => exact .inl ⟨v, by simpa using h.symm⟩
      | cons d u =>
        simp only [List.cons_append, List.cons.injEq] at h
        exact .inr ⟨u, v, h.2⟩

theorem prefix_iff {p a : Str} : p.isPrefixOf a = true ↔ ∃ t, a = p ++ t := by
  rw [List.isPrefixOf_iff_prefix]
  exact ⟨fun ⟨t, h⟩ => ⟨t, h.symm⟩, fun ⟨t, h⟩ => ⟨t, h.symm⟩⟩

theorem suffix_iff {p a : Str} : p.isSuffixOf a = true ↔ ∃ u, a = u ++ p := by
  rw [List.isSuffixOf_iff_suffix]
  exact ⟨fun ⟨t, h⟩ => ⟨t, h.symm⟩, fun ⟨t, h⟩ => ⟨t, h.symm⟩⟩

theorem checkRm_iff {args : List Str} : checkRm args = true ↔ ∃ a ∈ args, RmFlag a := by
  simp only [checkRm, List.any_eq_true, Bool.or_eq_true, decide_eq_true_eq, prefix_iff, RmFlag, or_assoc]

theorem checkGit_iff {args : List Str} : checkGit args = true ↔ Classified c!"git" args := by
  constructor
  · intro h
    cases args with
    | nil => simp [checkGit] at h
    | cons sub rest =>
      simp only [checkGit] at h
      split_ifs at h with h1 h2 h3
      · subst h1
        simp only [List.any_eq_true, Bool.or_eq_true, decide_eq_true_eq] at h
        obtain ⟨a, ha, h⟩ := h
        exact .push ha (by simpa [or_assoc] using h)
      · subst h2
        simp only [List.any_eq_true, List.contains_iff_mem] at h
        obtain ⟨a, ha, h⟩ := h
        exact .clean ha h
      · subst h3
        simp only [List.any_eq_true, decide_eq_true_eq] at h
        obtain ⟨a, ha, rfl⟩ := h
        exact .reset ha
  · intro h
    cases h with
    | system h => simp at h
    | push h1 h2 =>
      simp only [checkGit, if_true, List.any_eq_true, Bool.or_eq_true, decide_eq_true_eq]
      exact ⟨_, h1, by simpa [or_assoc] using h2⟩
    | clean h1 h2 =>
      have : ¬ (c!"clean" = c!"push") := by decide
      simp only [checkGit, if_neg this, if_true, List.any_eq_true, List.contains_iff_mem]
      exact ⟨_, h1, h2⟩
    | reset h1 =>
      have h2 : ¬ (c!"reset" = c!"push") := by decide
      have h3 : ¬ (c!"reset" = c!"clean") := by decide
      simp only [checkGit, if_neg h2, if_neg h3, if_true, List.any_eq_true, decide_eq_true_eq]
      exact ⟨_, h1, rfl⟩
    | recursive h => simp at h
    | upload h => simp at h
    | sensitive h => simp at h

theorem checkCp_iff {args : List Str} : checkCp args = true ↔ Classified c!"cp" args := by
  constructor
  · intro h
    simp only [checkCp, Bool.and_eq_true, List.any_eq_true, Bool.or_eq_true, decide_eq_true_eq,
      prefix_iff, List.contains_iff_mem] at h
    obtain ⟨⟨a, ha, h⟩, b, hb, h'⟩ := h
    refine .copy ha ?_ hb (by simpa using h')
    rcases h with ((h | h) | h) | ⟨⟨t, h⟩, hr⟩
    · subst h; exact .inr ⟨_, rfl, by decide⟩
    · exact .inl h
    · subst h; exact .inr ⟨_, rfl, by decide⟩
    · subst h
      exact .inr ⟨t, rfl, by simpa using hr⟩
  · intro h
    cases h with
    | system h => simp at h
    | recursive h => simp at h
    | upload h => simp at h
    | sensitive h => simp at h
    | copy h1 h2 h3 h4 =>
      simp only [checkCp, Bool.and_eq_true, List.any_eq_true, Bool.or_eq_true, decide_eq_true_eq,
        prefix_iff, List.contains_iff_mem]
      refine ⟨⟨_, h1, ?_⟩, _, h3, by simpa using h4⟩
      rcases h2 with h | ⟨t, rfl, hr⟩
      · exact .inl (.inl (.inr h))
      · exact .inr ⟨⟨t, rfl⟩, List.mem_cons_of_mem _ hr⟩

theorem checkSensitive_iff {args : List Str} :
    checkSensitive args = true ↔ ∃ a ∈ args, Sensitive a := by
  simp only [checkSensitive, List.any_eq_true, Bool.or_eq_true, decide_eq_true_eq, hasSub_iff, suffix_iff,
    Sensitive, List.mem_cons, List.not_mem_nil, or_false, exists_eq_or_imp, exists_eq_left]
  constructor
  · rintro ⟨a, ha, h⟩; exact ⟨a, ha, by grind⟩
  · rintro ⟨a, ha, h⟩; exact ⟨a, ha, by grind⟩

/-- The table of checkers and the always-warn list decide `Classified`. -/
theorem objects_iff {n : Str} {args : List Str} : objects n args = true ↔ Classified n args := by
  unfold objects
  rw [Bool.or_eq_true, List.contains_iff_mem]
  constructor
  · rintro (h | h)
    · exact .system h
    · unfold checker at h
      split_ifs at h with h1 h2 h3 h4 h5 h6
      · subst h1; obtain ⟨a, ha, h⟩ := checkRm_iff.1 h; exact .rm ha h
      · subst h2; exact checkGit_iff.1 h
      · simp only [checkRecursive, List.any_eq_true, Bool.or_eq_true, decide_eq_true_eq] at h h3
        obtain ⟨a, ha, h⟩ := h
        exact .recursive (by simpa using h3) ha (by simpa using h)
      · subst h4; exact checkCp_iff.1 h
      · simp only [checkUpload, List.any_eq_true, Bool.or_eq_true, decide_eq_true_eq] at h h5
        obtain ⟨a, ha, h⟩ := h
        exact .upload (by simpa using h5) ha h
      · obtain ⟨a, ha, h⟩ := checkSensitive_iff.1 h
        exact .sensitive h6 ha h
  · intro h
    cases h with
    | system h => exact .inl h
    | rm h1 h2 => exact .inr (checkRm_iff.2 ⟨_, h1, h2⟩)
    | push h1 h2 => exact .inr (checkGit_iff.2 (.push h1 h2))
    | clean h1 h2 => exact .inr (checkGit_iff.2 (.clean h1 h2))
    | reset h1 => exact .inr (checkGit_iff.2 (.reset h1))
    | copy h1 h2 h3 h4 => exact .inr (checkCp_iff.2 (.copy h1 h2 h3 h4))
    | @recursive n args a h0 h1 h2 =>
      right
      have : checkRecursive args = true := by
        simp only [checkRecursive, List.any_eq_true, Bool.or_eq_true, decide_eq_true_eq]
        exact ⟨_, h1, by simpa using h2⟩
      simp only [List.mem_cons, List.not_mem_nil, or_false] at h0
      rcases h0 with rfl | rfl <;> exact this
    | @upload n args a h0 h1 h2 =>
      right
      have : checkUpload args = true := by
        simp only [checkUpload, List.any_eq_true, decide_eq_true_eq]
        exact ⟨_, h1, h2⟩
      simp only [List.mem_cons, List.not_mem_nil, or_false] at h0
      rcases h0 with rfl | rfl <;> exact this
    | @sensitive n args a h0 h1 h2 =>
      right
      have : checkSensitive args = true := checkSensitive_iff.2 ⟨_, h1, h2⟩
      simp only [List.mem_cons, List.not_mem_nil, or_false] at h0
      rcases h0 with rfl | rfl | rfl | rfl | rfl | rfl | rfl | rfl <;> exact this

/-! ### Names of programs -/

theorem slashParts_ne (s : Str) : slashParts s ≠ [] := by
  cases s with
  | nil => simp [slashParts]
  | cons c cs =>
    simp only [slashParts]
    split_ifs
    · simp
    · cases slashParts cs <;> simp

theorem slashParts_plain {s : Str} (h : '/' ∉ s) : slashParts s = [s] := by
  induction s with
  | nil => rfl
  | cons c cs ih =>
    simp only [List.mem_cons, not_or] at h
    simp only [slashParts, if_neg (Ne.symm h.1), ih h.2]

theorem slashParts_append (d : Str) {n : Str} (h : '/' ∉ n) :
    ∃ ps, slashParts (d ++ '/' :: n) = ps ++ [n] ∧ ps ≠ [] := by
  induction d with
  | nil => exact ⟨[[]], by simp [slashParts, slashParts_plain h], by simp⟩
  | cons c d ih =>
    obtain ⟨ps, h1, h2⟩ := ih
    simp only [List.cons_append, slashParts, h1]
    split_ifs
    · exact ⟨[] :: ps, rfl, by simp⟩
    · cases ps with
      | nil => exact absurd rfl h2
      | cons p ps => exact ⟨(c :: p) :: ps, rfl, by simp⟩

theorem fileName_base {p n : Str} (h : BaseName p n) : fileName p = some n := by
  obtain ⟨⟨h1, h2, h3, h4⟩, h⟩ := h
  have hk : ∃ ps, slashParts p = ps ++ [n] := by
    rcases h with rfl | ⟨d, rfl⟩
    · exact ⟨[], by simp [slashParts_plain h1]⟩
    · obtain ⟨ps, h, -⟩ := slashParts_append d h1; exact ⟨ps, h⟩
  obtain ⟨ps, hk⟩ := hk
  unfold fileName
  have hkeep : (n ≠ [] && n ≠ c!".") = true := by simp [h2, h3]
  rw [hk, List.filter_append, List.filter_cons_of_pos (by simpa using hkeep)]
  simp [h4]

theorem commandName_base {p n : Str} (h : BaseName p n) : commandName p = n := by
  simp [commandName, fileName_base h]

/-! ### C29 for single commands -/

/-- **C29 for a single command** (as used for Lisp, for tools and for suggestions of the AI): at the
normal level the guard asks exactly for the commands it classifies as dangerous, unless the command
or its program is on the allowlist; at the strict level it asks for every command that is not. -/
theorem C29_command {cmd n : Str} (hn : BaseName cmd n) (args allow : List Str) :
    (checkCommand .normal cmd args allow = .confirm ↔
      Classified n args ∧ joinWith c!" " (cmd :: args) ∉ allow ∧ cmd ∉ allow) ∧
    (checkCommand .strict cmd args allow = .confirm ↔
      joinWith c!" " (cmd :: args) ∉ allow ∧ cmd ∉ allow) ∧
    checkCommand .loose cmd args allow = .allowed := by
  unfold checkCommand fullCmd
  rw [commandName_base hn]
  simp only [List.contains_iff_mem, objects_iff]
  by_cases h1 : joinWith c!" " (cmd :: args) ∈ allow
  · simp [h1]
  · by_cases h2 : cmd ∈ allow
    · simp [h1, h2]
    · by_cases h3 : objects n args = true <;> simp [h1, h2, h3, ← objects_iff]

example : checkCommand .normal c!"/bin/rm" [c!"a", c!"-rf"] [c!"ls"] = .confirm :=
  (C29_command (n := c!"rm") ⟨by decide, .inr ⟨c!"/bin", rfl⟩⟩ _ _).1.2
    ⟨.rm (a := c!"-rf") (by decide) (.inr (.inr (.inr (.inr (.inl ⟨[], rfl⟩))))), by decide, by decide⟩

/-! ### Words of a text -/

/-- No white space in the word. -/
def NoWs (w : Str) : Prop := ∀ c ∈ w, rustWhitespace c = false

/-- Empty or starting with white space. -/
def WsFirst (r : Str) : Prop := ∀ c t, r = c :: t → rustWhitespace c = true

theorem splitWs_cons (c : Char) (cs : Str) : splitWs (c :: cs) =
    if rustWhitespace c then splitWs cs
    else match cs with
      | [] => [[c]]
      | d :: _ =>
        if rustWhitespace d then [c] :: splitWs cs
        else match splitWs cs with
          | [] => [[c]]
          | w :: ws => (c :: w) :: ws := by
  cases cs <;> rfl

theorem splitWs_gap {g r : Str} (h : ∀ c ∈ g, rustWhitespace c = true) : splitWs (g ++ r) = splitWs r := by
  induction g with
  | nil => rfl
  | cons c g ih =>
    rw [List.cons_append, splitWs_cons, if_pos (h c (by simp)), ih (fun d hd => h d (by simp [hd]))]

theorem splitWs_word {w r : Str} (hw : w ≠ []) (h : NoWs w) (hr : WsFirst r) :
    splitWs (w ++ r) = w :: splitWs r := by
  induction w with
  | nil => exact absurd rfl hw
  | cons c w ih =>
    have hc : ¬ rustWhitespace c = true := by simp [h c (by simp)]
    rw [List.cons_append, splitWs_cons, if_neg hc]
    cases w with
    | nil =>
      simp only [List.nil_append]
      cases r with
      | nil => rfl
      | cons d r => simp only [if_pos (hr d r rfl)]
    | cons d w =>
      have hd : ¬ rustWhitespace d = true := by simp [h d (by simp)]
      have := ih (by simp) (fun x hx => h x (by simp [hx]))
      simp only [List.cons_append, if_neg hd] at this ⊢
      rw [this]

theorem blank_ws {c : Char} (h : isBlank c = true) : rustWhitespace c = true := by
  simp only [isBlank, Bool.or_eq_true, beq_iff_eq] at h
  rcases h with (rfl | rfl) | rfl <;> decide

/-- A word written without quotes, escapes or white space of any kind. -/
def PlainWord (w : Word) : Prop := ∃ s, w = .bare (s.map .plain) ∧ s ≠ [] ∧ NoWs s

theorem PlainWord.text {w : Word} (h : PlainWord w) : w.text = w.value ∧ w.value ≠ [] ∧ NoWs w.value := by
  obtain ⟨s, rfl, h1, h2⟩ := h
  have hv : (Word.bare (s.map .plain)).value = s := by
    simp only [Word.value, List.map_map]
    exact (List.map_congr_left (fun _ _ => rfl)).trans (List.map_id s)
  refine ⟨?_, by rw [hv]; exact h1, by rw [hv]; exact h2⟩
  rw [hv]
  exact plain_text s

/-- A plain argument: blanks, then a plain word. -/
def PlainArg (a : Arg) : Prop := ∃ sep w, a = .word sep w ∧ PlainWord w

theorem arg_wsFirst {a : Arg} (h : a.ok = true) : ∃ c t, a.text = c :: t ∧ rustWhitespace c = true := by
  cases a with
  | word sep w =>
    simp only [Arg.ok, Bool.and_eq_true] at h
    cases sep with
    | nil => simp at h
    | cons c sep =>
      refine ⟨c, sep ++ w.text, rfl, blank_ws ?_⟩
      have := h.1.2
      simp only [List.all_cons, Bool.and_eq_true] at this
      exact this.1
  | redir sep k gap w =>
    simp only [Arg.ok, Bool.and_eq_true] at h
    cases sep with
    | nil => simp at h
    | cons c sep =>
      refine ⟨c, _, rfl, blank_ws ?_⟩
      have := h.1.1.1.2
      simp only [List.all_cons, Bool.and_eq_true] at this
      exact this.1

theorem args_wsFirst {l : List Arg} (h : ∀ a ∈ l, a.ok = true) {r : Str} (hr : l = [] → WsFirst r) :
    WsFirst ((l.map Arg.text).flatten ++ r) := by
  cases l with
  | nil => simpa using hr rfl
  | cons a l =>
    obtain ⟨c, t, h1, h2⟩ := arg_wsFirst (h a (by simp))
    intro d u he
    simp only [List.map_cons, List.flatten_cons, h1, List.cons_append, List.cons.injEq] at he
    rw [← he.1]; exact h2

theorem splitWs_args {pre post : List Arg} (hok : ∀ a ∈ pre ++ post, a.ok = true)
    (hp : ∀ a ∈ pre, PlainArg a) {r : Str} (hr : post = [] → WsFirst r) :
    ∃ more, splitWs (((pre ++ post).map Arg.text).flatten ++ r) = pre.filterMap Arg.wordVal ++ more := by
  induction pre with
  | nil => exact ⟨_, rfl⟩
  | cons a pre ih =>
    obtain ⟨more, hm⟩ := ih (fun b hb => hok b (by simp [List.mem_append.1 hb]))
      (fun b hb => hp b (by simp [hb]))
    obtain ⟨sep, w, rfl, hw⟩ := hp a (by simp)
    obtain ⟨h1, h2, h3⟩ := hw.text
    have ha := hok (.word sep w) (by simp)
    simp only [Arg.ok, Bool.and_eq_true] at ha
    refine ⟨more, ?_⟩
    have hws : WsFirst (((pre ++ post).map Arg.text).flatten ++ r) :=
      args_wsFirst (fun b hb => hok b (by simp [List.mem_append.1 hb])) (fun he => hr (List.append_eq_nil_iff.1 he).2)
    have hsep : ∀ c ∈ sep, rustWhitespace c = true := by
      intro c hc
      exact blank_ws (List.all_eq_true.1 ha.1.2 c hc)
    simp only [List.cons_append, List.map_cons, List.flatten_cons, Arg.text, List.append_assoc]
    rw [splitWs_gap hsep, h1, splitWs_word h2 h3 hws, hm]
    rfl

/-! ### C29 for lines -/

/-- Command `s` starts a job of `c`: it is a background command, or the first of the pipeline and
nothing is put in the background before it; a blank stands before the `&` or `|` that follows. -/
def Leads (c : Cmd) (s : Simple) : Prop :=
  (∃ b ∈ c.bgs, s = b.1 ∧ b.2.1 ≠ []) ∨
  (c.bgs = [] ∧ ∃ st, c.main = some (s, st) ∧ ∀ b ∈ st.head?, b.1 ≠ [])

/-- The command is written plainly: program and first arguments `pre` without quotes or
escapes; what follows (`post`) is arbitrary. -/
structure Plainly (s : Simple) (pre post : List Arg) : Prop where
  name : PlainWord s.name
  args : s.args = pre ++ post
  plain : ∀ a ∈ pre, PlainArg a

theorem blanks_wsFirst {g : Str} (h : g.all isBlank = true) (hne : g ≠ []) (r : Str) : WsFirst (g ++ r) := by
  cases g with
  | nil => exact absurd rfl hne
  | cons c g =>
    intro d t he
    simp only [List.cons_append, List.cons.injEq] at he
    simp only [List.all_cons, Bool.and_eq_true] at h
    rw [← he.1]
    exact blank_ws h.1

theorem words_simple {s : Simple} (hok : s.ok = true) {pre post} (hp : Plainly s pre post) {r : Str}
    (hr : WsFirst r) :
    ∃ more, splitWs (s.text ++ r) = s.name.value :: (pre.filterMap Arg.wordVal ++ more) := by
  simp only [Simple.ok, Bool.and_eq_true, List.all_eq_true] at hok
  obtain ⟨h1, h2, h3⟩ := hp.name.text
  have hargs := hok.2
  rw [hp.args] at hargs
  obtain ⟨more, hm⟩ := splitWs_args (r := r) hargs hp.plain (fun _ => hr)
  refine ⟨more, ?_⟩
  rw [Simple.text, h1, hp.args, List.append_assoc, splitWs_word h2 h3 ?_, hm]
  exact args_wsFirst hargs (fun _ => hr)

theorem label_words {c : Cmd} (hok : c.ok = true) {t : Str} (ht : CmdText c t) {s : Simple} (hl : Leads c s)
    {pre post} (hp : Plainly s pre post) :
    ∃ x ∈ labels c t, ∃ more, splitWs x = s.name.value :: (pre.filterMap Arg.wordVal ++ more) := by
  obtain ⟨bs, m⟩ := c
  simp only [Cmd.ok, Bool.and_eq_true] at hok
  rcases hl with ⟨b, hb, rfl, hne⟩ | ⟨hb, st, hm, hst⟩
  · have := List.all_eq_true.1 hok.1.2 b hb
    simp only [Bool.and_eq_true] at this
    refine ⟨b.1.text ++ (b.2.1 ++ ['&']), ?_, words_simple this.1.1 hp (blanks_wsFirst this.1.2 hne _)⟩
    simp only [labels, List.mem_append, List.mem_map]
    exact .inl ⟨b, hb, rfl⟩
  · simp only at hb hm
    subst hb
    subst hm
    obtain ⟨g, hg, rfl⟩ := ht
    have h2 := hok.2
    simp only [Bool.and_eq_true] at h2
    refine ⟨Cmd.text ⟨[], some (s, st)⟩ ++ g, by simp [labels], ?_⟩
    have : Cmd.text ⟨[], some (s, st)⟩ ++ g = s.text ++ (stagesText st ++ g) := by
      simp [Cmd.text, mainText, bgsText]
    rw [this]
    refine words_simple h2.1 hp ?_
    cases st with
    | nil =>
      intro d u he
      simp only [stagesText, List.map_nil, List.flatten_nil, List.nil_append] at he
      exact blank_ws (List.all_eq_true.1 hg d (by rw [he]; simp))
    | cons b st =>
      have hb := h2.2
      simp only [List.all_cons, Bool.and_eq_true] at hb
      have := blanks_wsFirst hb.1.1.1.1 (hst b rfl) ('|' :: (b.2.1 ++ b.2.2.text) ++ (stagesText st ++ g))
      simpa [stagesText] using this

theorem anyObjects_mem {allow : List Str} {x : Str} {cmds : List Str} (hx : x ∈ cmds)
    (hj : ∀ prev, jobObjects allow prev x = true) (prev : Option Str) : anyObjects allow prev cmds = true := by
  induction cmds generalizing prev with
  | nil => simp at hx
  | cons y ys ih =>
    rw [anyObjects, Bool.or_eq_true]
    rcases List.mem_cons.1 hx with rfl | hx
    · exact .inl (hj prev)
    · exact .inr (ih hx _)

/-- What the guard objects to in a list of job texts: a job, not itself on the allowlist, whose first
word names a program that is classified with the other words as arguments; or a job, not on the
allowlist, that starts with a shell or interpreter and comes directly after one that starts with a
downloader. -/
def Objectionable (allow : List Str) (cmds : List Str) : Prop :=
  ∃ u x v, cmds = u ++ x :: v ∧ x ∉ allow ∧
    ((∃ w args, splitWs x = w :: args ∧ Classified (commandName w) args) ∨
     (∃ u' y, u = u' ++ [y] ∧ commandName (firstWord y) ∈ [c!"curl", c!"wget", c!"fetch", c!"scp"] ∧
       commandName (firstWord x) ∈ [c!"sh", c!"bash", c!"zsh", c!"fish", c!"python", c!"perl", c!"ruby",
         c!"sudo"]))

theorem anyObjects_iff {allow : List Str} : ∀ {cmds : List Str} {prev : Option Str},
    anyObjects allow prev cmds = true ↔ ∃ u x v, cmds = u ++ x :: v ∧
      jobObjects allow (if u = [] then prev else u.getLast?) x = true
  | [], _ => by simp [anyObjects]
  | c :: cs, prev => by
    rw [anyObjects, Bool.or_eq_true, anyObjects_iff (cmds := cs)]
    constructor
    · rintro (h | ⟨u, x, v, h1, h2⟩)
      · exact ⟨[], c, cs, rfl, by simpa using h⟩
      · refine ⟨c :: u, x, v, by simp [h1], ?_⟩
        rw [if_neg (by simp)]
        cases u with
        | nil => simpa using h2
        | cons d u => simpa [List.getLast?_cons] using h2
    · rintro ⟨u, x, v, h1, h2⟩
      cases u with
      | nil =>
        simp only [List.nil_append, List.cons.injEq] at h1
        obtain ⟨rfl, rfl⟩ := h1
        exact .inl (by simpa using h2)
      | cons d u =>
        simp only [List.cons_append, List.cons.injEq] at h1
        obtain ⟨rfl, rfl⟩ := h1
        refine .inr ⟨u, x, v, rfl, ?_⟩
        rw [if_neg (by simp)] at h2
        cases u with
        | nil => simpa using h2
        | cons d u => simpa [List.getLast?_cons] using h2

/-- **C29 on the texts of the jobs** (which are all the guard gets to see): at the normal level the
guard asks exactly if it objects to one of them. -/
theorem C29_texts (allow cmds : List Str) :
    checkJobs .normal allow cmds = .confirm ↔ Objectionable allow cmds := by
  have h0 : checkJobs .normal allow cmds = .confirm ↔ anyObjects allow none cmds = true := by
    simp only [checkJobs]; split_ifs with h <;> simp [h]
  rw [h0, anyObjects_iff]
  unfold Objectionable
  constructor
  · rintro ⟨u, x, v, h1, h2⟩
    refine ⟨u, x, v, h1, ?_⟩
    unfold jobObjects at h2
    split_ifs at h2 with h3 hu
    · refine ⟨by simpa using h3, ?_⟩
      simp only [Bool.false_or] at h2
      split at h2
      · cases h2
      · next w args hw => exact .inl ⟨w, args, hw, objects_iff.1 h2⟩
    · refine ⟨by simpa using h3, ?_⟩
      rw [Bool.or_eq_true] at h2
      rcases h2 with h2 | h2
      · right
        cases hl : u.getLast? with
        | none => rw [hl] at h2; cases h2
        | some y =>
          rw [hl] at h2
          simp only [Bool.and_eq_true, networkTool, executionTool] at h2
          obtain ⟨u', hu'⟩ := List.getLast?_eq_some_iff.1 hl
          exact ⟨u', y, hu', by simpa using h2.1, by simpa using h2.2⟩
      · split at h2
        · cases h2
        · next w args hw => exact .inl ⟨w, args, hw, objects_iff.1 h2⟩
  · rintro ⟨u, x, v, h1, hx, h⟩
    refine ⟨u, x, v, h1, ?_⟩
    unfold jobObjects
    rw [if_neg (by simpa using hx), Bool.or_eq_true]
    rcases h with ⟨w, args, hw, hc⟩ | ⟨u', y, rfl, h2, h3⟩
    · right
      rw [hw]
      exact objects_iff.2 hc
    · left
      rw [if_neg (by simp), List.getLast?_append]
      simp only [List.getLast?_singleton, Option.some_or, Bool.and_eq_true, networkTool, executionTool]
      exact ⟨by simpa using h2, by simpa using h3⟩

example : checkJobs .normal [c!"ls"] [c!"ls", c!"/usr/bin/curl u ", c!"sh -"] = .confirm :=
  (C29_texts _ _).2 ⟨[c!"ls", c!"/usr/bin/curl u "], c!"sh -", [], rfl, by decide,
    .inr ⟨[c!"ls"], _, rfl, by decide +kernel, by decide +kernel⟩⟩

theorem labelsAll_mem {cs : List Cmd} {ts : List Str} (h : LabelsAll cs ts) {c} (hc : c ∈ cs) :
    ∃ t, CmdText c t ∧ ∀ x ∈ labels c t, x ∈ ts := by
  induction h with
  | nil => simp at hc
  | @cons c' t cs ts h1 _ ih =>
    rcases List.mem_cons.1 hc with rfl | hc
    · exact ⟨t, h1, fun x hx => List.mem_append_left _ hx⟩
    · obtain ⟨t', h2, h3⟩ := ih hc
      exact ⟨t', h2, fun x hx => List.mem_append_right _ (h3 x hx)⟩

/-- The guard asks if some command that starts a job is classified. -/
theorem asks_labels {cs : List Cmd} (hok : ∀ c ∈ cs, c.ok = true) {cmds : List Str} (h : LabelsAll cs cmds)
    {c} (hc : c ∈ cs) {s : Simple} (hl : Leads c s) {pre post} (hp : Plainly s pre post) {n : Str}
    (hn : BaseName s.name.value n) (hcl : Classified n (pre.filterMap Arg.wordVal)) {allow : List Str}
    (ha : ∀ e ∈ allow, (splitWs e).head? ≠ some s.name.value) : checkJobs .normal allow cmds = .confirm := by
  obtain ⟨t, h1, h2⟩ := labelsAll_mem h hc
  obtain ⟨x, hx, more, hw⟩ := label_words (hok c hc) h1 hl hp
  have hna : x ∉ allow := fun hm => ha x hm (by rw [hw]; rfl)
  have hobj : ∀ prev, jobObjects allow prev x = true := by
    intro prev
    unfold jobObjects
    rw [if_neg (by simpa using hna), hw]
    simp only [Bool.or_eq_true, commandName_base hn]
    exact .inr (objects_iff.2 (hcl.append more))
  simp only [checkJobs, anyObjects_mem (h2 x hx) hobj none, if_true]

theorem plainWord_render {E : Env} {w : Word} (h : PlainWord w) : render E w = w := by
  obtain ⟨s, rfl, -⟩ := h; rfl

theorem filterMap_congr' {α β} {f g : α → Option β} {l : List α} (h : ∀ a ∈ l, f a = g a) :
    l.filterMap f = l.filterMap g := by
  induction l with
  | nil => rfl
  | cons a l ih =>
    simp only [List.filterMap_cons, h a (by simp), ih (fun b hb => h b (by simp [hb]))]

theorem plainly_norm {E : Env} {s : Simple} {pre post} (h : Plainly s pre post) :
    Plainly (normSimple E s) (pre.map (normArg E)) (post.map (normArg E)) ∧
    (normSimple E s).name = s.name ∧
    (pre.map (normArg E)).filterMap Arg.wordVal = pre.filterMap Arg.wordVal := by
  refine ⟨⟨?_, ?_, ?_⟩, plainWord_render h.name, ?_⟩
  · simp only [normSimple, plainWord_render h.name]; exact h.name
  · simp [normSimple, h.args]
  · intro a ha
    obtain ⟨b, hb, rfl⟩ := List.mem_map.1 ha
    obtain ⟨sep, w, rfl, hw⟩ := h.plain b hb
    exact ⟨_, _, rfl, by rw [plainWord_render hw]; exact hw⟩
  · rw [List.filterMap_map]
    refine filterMap_congr' ?_
    intro a ha
    obtain ⟨sep, w, rfl, hw⟩ := h.plain a ha
    simp [normArg, Arg.wordVal, plainWord_render hw]

theorem normBgs_mem {E : Env} {bs : List (Simple × List Char × List Char)} {b} (h : b ∈ bs) (more) :
    ∃ b' ∈ normBgs E more bs, b'.1 = normSimple E b.1 ∧ b'.2.1 ≠ [] := by
  induction bs with
  | nil => simp at h
  | cons x bs ih =>
    cases bs with
    | nil =>
      rcases List.mem_cons.1 h with rfl | h
      · exact ⟨_, by simp only [normBgs]; exact List.mem_singleton.2 rfl, rfl, by simp⟩
      · simp at h
    | cons y bs =>
      simp only [normBgs]
      rcases List.mem_cons.1 h with rfl | h
      · exact ⟨_, List.mem_cons_self, rfl, by simp⟩
      · obtain ⟨b', h1, h2⟩ := ih h
        exact ⟨b', List.mem_cons_of_mem _ (by simpa only [normBgs] using h1), h2⟩

theorem leads_norm {E : Env} {c : Cmd} {s : Simple} (h : Leads c s) : Leads (normCmd E c) (normSimple E s) := by
  rcases h with ⟨b, hb, rfl, _⟩ | ⟨hb, st, hm, hst⟩
  · obtain ⟨b', h1, h2, h3⟩ := normBgs_mem (E := E) hb c.main.isSome
    exact .inl ⟨b', h1, h2.symm, h3⟩
  · refine .inr ⟨by simp [normCmd, hb, normBgs], normStages E st, by simp [normCmd, hm], ?_⟩
    intro b hb
    cases st with
    | nil => simp [normStages] at hb
    | cons x st => simp [normStages] at hb; subst hb; simp

theorem line_cmds_ok {l : Line} (h : l.ok = true) : ∀ c ∈ l.cmds, c.ok = true := by
  simp only [Line.ok, Bool.and_eq_true] at h
  intro c hc
  simp only [Line.cmds, List.mem_cons, List.mem_map] at hc
  rcases hc with rfl | ⟨r, hr, rfl⟩
  · exact h.1.1.2
  · exact restOk_cmds h.1.2 r hr

/-- Texts of the jobs built for a line: what the guard is given to see. -/
theorem guard_asks {E : Env} {W : World} {l : Line} (h : l.ok = true) (hf : FitLine E l)
    (hr : ∀ s ∈ (l.mapW (Word.fill (valOf E))).simples, Runs W s) {c} (hc : c ∈ l.cmds) {s : Simple}
    (hl : Leads c s) {pre post} (hp : Plainly s pre post) {n : Str} (hn : BaseName s.name.value n)
    (hcl : Classified n (pre.filterMap Arg.wordVal)) {allow : List Str}
    (ha : ∀ e ∈ allow, (splitWs e).head? ≠ some s.name.value) (id : Nat) :
    ∃ js id', lineJobs E W id l.text = some (js, id') ∧
      checkJobs .normal allow (js.map Job.cmd) = .confirm := by
  obtain ⟨js, id', h1, -, h2⟩ := line_jobs_labels h hf hr id
  refine ⟨js, id', h1, ?_⟩
  rcases h2 with h2 | h2
  · exact asks_labels (line_cmds_ok h) h2 hc hl hp hn hcl ha
  · obtain ⟨p1, p2, p3⟩ := plainly_norm (E := E) hp
    have hc' : normCmd E c ∈ (normLine E l).cmds := by
      simp only [Line.cmds, List.mem_cons, List.mem_map] at hc
      simp only [normLine, Line.cmds, normRest, List.map_map, List.mem_cons, List.mem_map, Function.comp_def]
      rcases hc with rfl | ⟨r, hr, rfl⟩
      · exact .inl rfl
      · exact .inr ⟨r, hr, rfl⟩
    refine asks_labels (line_cmds_ok (normLine_ok hf h)) h2 hc' (leads_norm hl) p1 (n := n) ?_ ?_ ?_
    · rw [p2]; exact hn
    · rw [p3]; exact hcl
    · rw [p2]; exact ha

/-- A name that is not blank at its start does not turn a line into a "smart pipe". -/
theorem smartPipe_jobs {E : Env} {W : World} {M : Machine σ V} {v f id st line} {o : Out σ}
    (h : evalLine E W M v f id st line = .ran o) :
    ∃ js id', lineJobs E W id (smartPipe line) = some (js, id') ∧ v js = .go := by
  unfold evalLine at h
  split at h
  · cases h
  · split at h
    · cases h
    · next js id' hj =>
      refine ⟨js, id', hj, ?_⟩
      split at h
      · cases h
      · cases h
      · next hv => exact hv

theorem trimStart_append {g r : Str} (h : ∀ c ∈ g, rustWhitespace c = true) : trimStart (g ++ r) = trimStart r := by
  unfold trimStart
  induction g with
  | nil => rfl
  | cons c g ih =>
    rw [List.cons_append, List.dropWhile_cons_of_pos (h c (by simp))]
    exact ih (fun d hd => h d (by simp [hd]))

/-- First character of the name of a well-formed command that `trim` does not change. -/
theorem name_first {s : Simple} (hok : s.ok = true) (ht : trim s.name.text = s.name.text) :
    ∃ c t, s.name.text = c :: t ∧ rustWhitespace c = false ∧ c ≠ '|' := by
  have hne := simple_text_ne hok
  simp only [Simple.ok, Bool.and_eq_true] at hok
  have h1 := hok.1
  cases hx : s.name.text with
  | nil =>
    exfalso
    cases hn : s.name with
    | bare ps =>
      rw [hn] at h1 hx
      simp only [Word.ok, Bool.and_eq_true] at h1
      have hp : ps ≠ [] := by simpa using h1.1
      obtain ⟨p, qs, rfl⟩ := List.exists_cons_of_ne_nil hp
      cases p <;> simp [Word.text, Piece.text] at hx
    | sq s => rw [hn] at hx; simp [Word.text] at hx
    | dq s => rw [hn] at hx; simp [Word.text] at hx
    | var n => rw [hn] at hx; simp [Word.text] at hx
  | cons c t =>
    refine ⟨c, t, rfl, ?_, ?_⟩
    · by_contra hc
      have hc : rustWhitespace c = true := by simpa using hc
      rw [hx] at ht
      have hlen := congrArg List.length ht
      have : (trim (c :: t)).length < (c :: t).length := by
        unfold trim trimEnd trimStart
        rw [List.dropWhile_cons_of_pos hc, List.length_reverse]
        have h1 := ((t.dropWhile rustWhitespace).reverse.dropWhile_sublist rustWhitespace).length_le
        have h2 := (t.dropWhile_sublist rustWhitespace).length_le
        simp only [List.length_reverse, List.length_cons] at h1 ⊢
        omega
      omega
    · rintro rfl
      cases hn : s.name with
      | bare ps =>
        rw [hn] at h1 hx
        simp only [Word.ok, Bool.and_eq_true] at h1
        cases ps with
        | nil => simp at h1
        | cons p ps =>
          cases p with
          | plain c =>
            simp only [Word.text, Piece.text, List.map_cons, List.flatten_cons, List.cons_append,
              List.nil_append, List.cons.injEq] at hx
            rw [hx.1] at h1
            exact absurd h1.2 (by simp [Piece.ok, special])
          | esc c => simp [Word.text, Piece.text] at hx
      | sq s => rw [hn] at hx; simp [Word.text] at hx
      | dq s => rw [hn] at hx; simp [Word.text] at hx
      | var n => rw [hn] at hx; simp [Word.text] at hx

theorem line_smartPipe {E : Env} {l : Line} (h : l.ok = true) (hf : FitLine E l) :
    smartPipe l.text = l.text := by
  have hcmd : ∃ s r, s ∈ l.simples ∧ s.ok = true ∧ l.text = l.lead ++ (s.name.text ++ r) := by
    have hok := line_cmds_ok h l.first (by simp [Line.cmds])
    obtain ⟨lead, ⟨bs, m⟩, rest, trail⟩ := l
    simp only [Cmd.ok, Bool.and_eq_true] at hok
    cases bs with
    | cons b bs =>
      have hb := List.all_eq_true.1 hok.1.2 b (by simp)
      simp only [Bool.and_eq_true] at hb
      exact ⟨b.1, _, by simp [Line.simples, Line.cmds, Cmd.simples], hb.1.1, by
        simp [Line.text, Cmd.text, bgsText, Simple.text]; rfl⟩
    | nil =>
      cases m with
      | none => simp at hok
      | some m =>
        obtain ⟨s, st⟩ := m
        simp only [Bool.and_eq_true] at hok
        exact ⟨s, _, by simp [Line.simples, Line.cmds, Cmd.simples], hok.2.1, by
          simp [Line.text, Cmd.text, bgsText, mainText, Simple.text]; rfl⟩
  obtain ⟨s, r, hs, hsok, he⟩ := hcmd
  obtain ⟨c, t, h1, h2, h3⟩ := name_first hsok (hf.simples s hs).trimmed
  have hlead : ∀ c ∈ l.lead, rustWhitespace c = true := by
    simp only [Line.ok, Bool.and_eq_true, List.all_eq_true] at h
    exact fun c hc => blank_ws (h.1.1.1 c hc)
  have htr : trimStart l.text = c :: (t ++ r) := by
    rw [he, trimStart_append hlead, h1]
    unfold trimStart
    rw [List.cons_append, List.dropWhile_cons_of_neg (by simp [h2])]
  unfold smartPipe
  rw [htr]
  split
  · rfl
  · rfl
  · next hh => injection hh with hh _; exact absurd hh h3
  · rfl

/-- **C29, the part that holds (normal level).** Take a line in the syntax of
`Verif/Parse/Syntax.lean` and a command in it that starts a job: a background command, or the first
of a pipeline with nothing put in the background before it, anywhere in a list.  If program and
arguments, written plainly, are classified as dangerous, and the allowlist has no entry for that
program, then the user is asked before anything is started: if they do not agree, nothing of the
line runs.  Missing: commands behind a `|` or behind `&`, quoted ones, prefixes such as `sudo`
(`C29_violated`), and command substitutions (`C29_substitution_violated`). -/
theorem C29_asks_partial {σ V} {E : Env} {W : World} (M : Machine σ V) {l : Line} (h : l.ok = true)
    (hf : FitLine E l) (hr : ∀ s ∈ (l.mapW (Word.fill (valOf E))).simples, Runs W s) {c}
    (hc : c ∈ l.cmds) {s : Simple} (hl : Leads c s) {pre post} (hp : Plainly s pre post) {n : Str}
    (hn : BaseName s.name.value n) (hcl : Classified n (pre.filterMap Arg.wordVal)) {allow : List Str}
    (ha : ∀ e ∈ allow, (splitWs e).head? ≠ some s.name.value) (f : Bool) (id : Nat) (st : St σ) :
    ∀ o, evalLine E W M (fun js => (guardLine .normal allow .no js).1) f id st l.text ≠ .ran o := by
  intro o ho
  obtain ⟨js, id', h1, h2⟩ := smartPipe_jobs ho
  rw [line_smartPipe h hf] at h1
  obtain ⟨js', id'', h3, h4⟩ := guard_asks h hf hr hc hl hp hn hcl ha id
  rw [h1] at h3
  injection h3 with h3
  injection h3 with h3 _
  subst h3
  simp [guardLine, h4] at h2

/-- `ls ; /bin/rm -rf 'a b' > out | wc & x` is a line of the kind considered. -/
def exRm : Line :=
  let w (s : Str) : Word := .bare (s.map .plain)
  ⟨[], ⟨[], some (⟨w c!"ls", []⟩, [])⟩,
   [(c!" ", .seq, c!" ", ⟨[], some (⟨w c!"/bin/rm", [.word c!" " (w c!"-rf"), .word c!" " (.sq c!"a b"),
      .redir c!" " .out c!" " (w c!"out")]⟩, [(c!" ", c!" ", ⟨w c!"wc", []⟩)])⟩)], []⟩

theorem exRm_fit : FitLine E0 exRm := by
  refine ⟨?_, ?_, by decide⟩
  · intro s hs
    simp only [exRm, Line.simples, Line.cmds, Cmd.simples, List.map_cons, List.map_nil, List.flatMap_cons,
      List.flatMap_nil, List.append_nil, List.nil_append, List.cons_append, List.mem_cons,
      List.not_mem_nil, or_false] at hs
    rcases hs with rfl | rfl | rfl <;>
    · refine ⟨⟨by decide, by decide⟩, rfl, by decide, ?_, ?_⟩
      · intro sep w hm
        simp at hm
        try (rcases hm with ⟨-, rfl⟩ | ⟨-, rfl⟩ <;> exact ⟨by decide, by decide⟩)
      · intro sep k gap w hm
        simp at hm
        try (obtain ⟨-, -, -, rfl⟩ := hm; exact ⟨by decide, by decide⟩)
  · intro k; cases k <;> decide

example (M : Machine σ V) (st : St σ) (o) :
    evalLine E0 W0 M (fun js => (guardLine .normal [c!"rm"] .no js).1) false 0 st exRm.text ≠ .ran o :=
  C29_asks_partial M (l := exRm) (by decide) exRm_fit (fun s hs => ⟨.inr rfl, by revert s; decide⟩)
    (c := ⟨[], _⟩) (s := ⟨.bare (c!"/bin/rm".map .plain), _⟩) (List.mem_cons_of_mem _ (List.mem_singleton.2 rfl))
    (.inr ⟨rfl, _, rfl, by decide⟩)
    (pre := [.word c!" " (.bare (c!"-rf".map .plain))])
    ⟨⟨c!"/bin/rm", rfl, by decide, by unfold NoWs; decide⟩, rfl, by
      intro a ha
      simp only [List.mem_singleton] at ha
      subst ha
      exact ⟨_, _, rfl, c!"-rf", rfl, by decide, by unfold NoWs; decide⟩⟩
    (n := c!"rm") ⟨by decide, .inr ⟨c!"/bin", by decide⟩⟩
    (.rm (a := c!"-rf") (by decide) (.inr (.inr (.inr (.inr (.inl ⟨[], rfl⟩)))))) (by decide) _ _ _ _

/-- **C29 at the strict level.** Whatever the line: if it runs although the user did not agree, all
its jobs are on the allowlist, word for word. -/
theorem C29_strict {σ V} {E : Env} {W : World} (M : Machine σ V) (line : Str) (allow : List Str) (f : Bool)
    (id : Nat) (st : St σ) (o)
    (h : evalLine E W M (fun js => (guardLine .strict allow .no js).1) f id st line = .ran o) :
    ∃ js id', lineJobs E W id (smartPipe line) = some (js, id') ∧ ∀ j ∈ js, j.cmd ∈ allow := by
  obtain ⟨js, id', h1, h2⟩ := smartPipe_jobs h
  refine ⟨js, id', h1, ?_⟩
  intro j hj
  unfold guardLine checkJobs at h2
  simp only at h2
  split_ifs at h2 with h3 h4
  · simp only [Bool.and_eq_true, List.all_eq_true, List.contains_iff_mem, List.mem_map] at h3
    exact h3.2 _ ⟨j, hj, rfl⟩
  · simp only [List.isEmpty_iff, List.map_eq_nil_iff] at h4
    subst h4; simp at hj

/-- What the guard says at the normal level with an empty allowlist, and what the line would run. -/
def seen (line : Str) : Option (Answer × List (List (List Str))) :=
  (lineJobs E0 W0 0 line).map (fun x =>
    (checkJobs .normal [] (x.1.map Job.cmd), x.1.map (fun j => j.procs.map Proc.argv)))

theorem seen_eq {line x} (n : Nat) (h : (lineJobsF n E0 W0 0 line).map (fun x =>
    (checkJobs .normal [] (x.1.map Job.cmd), x.1.map (fun j => j.procs.map Proc.argv))) = some x) :
    seen line = some x := by
  unfold seen
  cases hj : lineJobsF n E0 W0 0 line with
  | none => rw [hj] at h; cases h
  | some y => rw [lineJobsF_sound hj, ← hj]; exact h

/-- **C29 fails** when the dangerous command is not the first word of its job, is quoted, or is
followed directly by `&` or `|`: the guard lets these lines pass, although each runs a command it
classifies as dangerous.  The guard looks only at the first word of a job's text, and the text of a
pipeline starts with the first command of the whole `&`-and-`|` group. -/
theorem C29_violated :
    seen c!"ls | rm -rf x" = some (.allowed, [[[c!"ls"], [c!"rm", c!"-rf", c!"x"]]]) ∧
    seen c!"curl u | sh" = some (.allowed, [[[c!"curl", c!"u"], [c!"sh"]]]) ∧
    seen c!"sleep 1 & rm -rf x" =
      some (.allowed, [[[c!"sleep", c!"1"]], [[c!"rm", c!"-rf", c!"x"]]]) ∧
    seen c!"'rm' -rf x" = some (.allowed, [[[c!"rm", c!"-rf", c!"x"]]]) ∧
    seen c!"rm '-rf' x" = some (.allowed, [[[c!"rm", c!"-rf", c!"x"]]]) ∧
    seen c!"rm x -R&" = some (.allowed, [[[c!"rm", c!"x", c!"-R"]]]) ∧
    seen c!"sudo rm -rf x" = some (.allowed, [[[c!"sudo", c!"rm", c!"-rf", c!"x"]]]) :=
  ⟨seen_eq 80 (by decide +kernel), seen_eq 80 (by decide +kernel), seen_eq 80 (by decide +kernel),
   seen_eq 80 (by decide +kernel), seen_eq 80 (by decide +kernel), seen_eq 80 (by decide +kernel),
   seen_eq 80 (by decide +kernel)⟩

/-- A world in which a substitution that runs `rm` yields the word given. -/
def WSub (w : List Str) : World :=
  ⟨fun _ => some .external, fun _ js => if js.any (fun j => j.cmd = c!"rm -rf x") then w else []⟩

/-- **C29 fails for substitutions, at every level.** The commands of a substitution are run while the
line is being read, before the guard is called: what `echo $(rm -rf x)` is to run depends on the
output of `rm -rf x`, which is not among the jobs the guard gets to see. -/
theorem C29_substitution_violated :
    (lineJobs E0 (WSub [c!"gone"]) 0 c!"echo $(rm -rf x)").map (fun x =>
      (x.1.map (fun j => j.procs.map Proc.argv), checkJobs .normal [] (x.1.map Job.cmd))) =
        some ([[[c!"echo", c!"gone"]]], .allowed) ∧
    (lineJobs E0 (WSub []) 0 c!"echo $(rm -rf x)").map (fun x => x.1.map (fun j => j.procs.map Proc.argv)) =
        some [[[c!"echo"]]] := by
  constructor
  · cases hj : lineJobsF 300 E0 (WSub [c!"gone"]) 0 c!"echo $(rm -rf x)" with
    | none => exact absurd hj (by decide +kernel)
    | some y =>
      rw [lineJobsF_sound hj, ← hj]
      decide +kernel
  · cases hj : lineJobsF 300 E0 (WSub []) 0 c!"echo $(rm -rf x)" with
    | none => exact absurd hj (by decide +kernel)
    | some y =>
      rw [lineJobsF_sound hj, ← hj]
      decide +kernel

/-! ### C30 -/

/-- What the options of `rm` mean (rm(1)): before `--`, a group of short options containing `r`, `R`
or `f`, or a (possibly abbreviated) `--recursive` or `--force`. -/
def RmOption (a : Str) : Prop :=
  (∃ t, a = '-' :: t ∧ t.head? ≠ some '-' ∧ ('r' ∈ t ∨ 'R' ∈ t ∨ 'f' ∈ t)) ∨
  (∃ t, t ≠ [] ∧ a = c!"--" ++ t ∧ (t.IsPrefix c!"recursive" ∨ t.IsPrefix c!"force"))

/-- `args` ask `rm` to recurse or to force. -/
def RmAsks (args : List Str) : Prop := ∃ u a v, args = u ++ a :: v ∧ c!"--" ∉ u ∧ RmOption a

/-- **C30 fails in both directions.** `-Rf`, `-rv`, `-vr`, `-f`, `--force` and `--recurs` are not
recognised; `rm -- -r`, which removes the file `-r`, is. -/
theorem C30_violated :
    (∀ a ∈ [c!"-Rf", c!"-rv", c!"-vr", c!"-f", c!"--force", c!"--recurs"],
      RmAsks [a, c!"x"] ∧ checkCommand .normal c!"rm" [a, c!"x"] [] = .allowed) ∧
    ¬ RmAsks [c!"--", c!"-r"] ∧ checkCommand .normal c!"rm" [c!"--", c!"-r"] [] = .confirm := by
  refine ⟨?_, ?_, by decide +kernel⟩
  · intro a ha
    refine ⟨⟨[], a, [c!"x"], rfl, by simp, ?_⟩, by revert a; decide +kernel⟩
    simp only [List.mem_cons, List.not_mem_nil, or_false] at ha
    rcases ha with rfl | rfl | rfl | rfl | rfl | rfl
    · exact .inl ⟨_, rfl, by decide, by decide⟩
    · exact .inl ⟨_, rfl, by decide, by decide⟩
    · exact .inl ⟨_, rfl, by decide, by decide⟩
    · exact .inl ⟨_, rfl, by decide, by decide⟩
    · exact .inr ⟨c!"force", by decide, rfl, by decide⟩
    · exact .inr ⟨c!"recurs", by decide, rfl, by decide⟩
  · rintro ⟨u, a, v, he, hu, ha⟩
    cases u with
    | nil =>
      simp only [List.nil_append, List.cons.injEq] at he
      rw [← he.1] at ha
      rcases ha with ⟨t, h1, h2, -⟩ | ⟨t, h1, h2, -⟩
      · injection h1 with _ h1
        subst h1; simp at h2
      · simp at h2
        exact h1 h2
    | cons x u =>
      simp only [List.cons_append, List.cons.injEq] at he
      rw [← he.1] at hu
      simp at hu

/-- **C30, the part that holds.** `rm` asks exactly if one of its arguments is `-r`, `-R`,
`--recursive` or starts with `-rf`, `-fr` or `-rx`, wherever it stands and under whatever path `rm`
is called. -/
theorem C30_exact_partial {cmd : Str} (hn : BaseName cmd c!"rm") (args : List Str) :
    checkCommand .normal cmd args [] = .confirm ↔ ∃ a ∈ args, RmFlag a := by
  rw [(C29_command hn args []).1]
  constructor
  · rintro ⟨h, -⟩
    cases h with
    | system h => simp at h
    | rm h1 h2 => exact ⟨_, h1, h2⟩
    | recursive h => simp at h
    | upload h => simp at h
    | sensitive h => simp at h
  · rintro ⟨a, h1, h2⟩
    exact ⟨.rm h1 h2, by simp, by simp⟩

/-- **C30: plain `rm` never asks.** Without an argument that starts with a hyphen. -/
theorem C30_plain {cmd : Str} (hn : BaseName cmd c!"rm") {args : List Str} (h : ∀ a ∈ args, a.head? ≠ some '-')
    (allow : List Str) : checkCommand .normal cmd args allow = .allowed := by
  have hc := (C29_command hn args allow).1
  cases hk : checkCommand .normal cmd args allow with
  | allowed => rfl
  | denied => unfold checkCommand at hk; split_ifs at hk
  | confirm =>
    obtain ⟨h1, -⟩ := hc.1 hk
    exfalso
    cases h1 with
    | system h => simp at h
    | @rm args a h1 h2 =>
      have := h a h1
      rcases h2 with rfl | rfl | rfl | ⟨t, rfl⟩ | ⟨t, rfl⟩ | ⟨t, rfl⟩ <;> simp at this
    | recursive h => simp at h
    | upload h => simp at h
    | sensitive h => simp at h

/-- Every flag the guard knows asks for recursion, unless it stands behind `--` (or is a file name). -/
theorem C30_flags_partial {a : Str} (h : RmFlag a) : RmOption a := by
  rcases h with rfl | rfl | rfl | ⟨t, rfl⟩ | ⟨t, rfl⟩ | ⟨t, rfl⟩
  · exact .inl ⟨_, rfl, by decide, by decide⟩
  · exact .inl ⟨_, rfl, by decide, by decide⟩
  · exact .inr ⟨c!"recursive", by decide, rfl, .inl (List.prefix_refl _)⟩
  · exact .inl ⟨_, rfl, by simp, by simp⟩
  · exact .inl ⟨_, rfl, by simp, by simp⟩
  · exact .inl ⟨_, rfl, by simp, by simp⟩

example : checkCommand .normal c!"/bin/rm" [c!"a", c!"b"] [] = .allowed :=
  C30_plain ⟨by decide, .inr ⟨c!"/bin", rfl⟩⟩ (by decide) _
example : checkCommand .normal c!"rm" [c!"a", c!"-rfv"] [] = .confirm :=
  (C30_exact_partial ⟨by decide, .inl rfl⟩ _).2
    ⟨c!"-rfv", by decide, .inr (.inr (.inr (.inr (.inl ⟨c!"v", rfl⟩))))⟩

/-! ### C63 -/

/-- **C63: the same line is not asked about again.** After "always" for a list of jobs, jobs with the
same texts pass without a question at every level. -/
theorem C63_again {level allow js js'} (h : js'.map Job.cmd = js.map Job.cmd) (choice : Choice) :
    (guardLine level ((guardLine level allow .always js).2) choice js').1 = .go := by
  have key : ∀ allow' : List Str, (∀ j ∈ js, j.cmd ∈ allow') → checkJobs level allow' (js.map Job.cmd) = .allowed := by
    intro allow' hall
    have hobj : ∀ prev, anyObjects allow' prev (js.map Job.cmd) = false := by
      intro prev
      induction js generalizing prev js' with
      | nil => rfl
      | cons j js ih =>
        simp only [List.map_cons, anyObjects, Bool.or_eq_false_iff]
        refine ⟨?_, ih (js' := js) rfl (fun x hx => hall x (by simp [hx])) _⟩
        unfold jobObjects
        rw [if_pos (by simpa using hall j (by simp))]
    have hin : (js.map Job.cmd).all (fun c => allow'.contains c) = true := by
      simp only [List.all_eq_true, List.mem_map, List.contains_iff_mem]
      rintro x ⟨j, hj, rfl⟩; exact hall j hj
    cases level with
    | loose => rfl
    | normal => simp [checkJobs, hobj]
    | strict =>
      simp only [checkJobs, hin, Bool.and_true]
      cases js <;> simp
  unfold guardLine
  rw [h]
  cases hk : checkJobs level allow (js.map Job.cmd) with
  | allowed => simp [hk]
  | denied => unfold checkJobs at hk; cases level <;> simp at hk <;> split_ifs at hk
  | confirm =>
    simp only
    rw [key _ (fun j hj => by simp only [List.mem_append, List.mem_map]; exact .inr ⟨j, hj, rfl⟩)]

/-- Entries that are not texts of the jobs do not matter to the guard. -/
theorem checkJobs_extra (level : Level) {allow added cmds : List Str} (h : ∀ c ∈ cmds, c ∉ added) :
    checkJobs level (allow ++ added) cmds = checkJobs level allow cmds := by
  have hc : ∀ c ∈ cmds, (allow ++ added).contains c = allow.contains c := by
    intro c hc
    rw [Bool.eq_iff_iff, List.contains_iff_mem, List.contains_iff_mem, List.mem_append]
    exact ⟨fun hh => hh.resolve_right (h c hc), .inl⟩
  cases level with
  | loose => rfl
  | strict =>
    simp only [checkJobs]
    have : cmds.all (fun c => (allow ++ added).contains c) = cmds.all (fun c => allow.contains c) := by
      rw [Bool.eq_iff_iff, List.all_eq_true, List.all_eq_true]
      constructor
      · intro hh c hm; rw [← hc c hm]; exact hh c hm
      · intro hh c hm; rw [hc c hm]; exact hh c hm
    rw [this]
  | normal =>
    simp only [checkJobs]
    have : ∀ prev, anyObjects (allow ++ added) prev cmds = anyObjects allow prev cmds := by
      clear h
      induction cmds with
      | nil => intro; rfl
      | cons c cs ih =>
        intro prev
        simp only [anyObjects]
        rw [ih (fun x hx => hc x (by simp [hx]))]
        congr 1
        unfold jobObjects
        rw [hc c (by simp)]
    rw [this]

/-- **C63: no other typed line gains from it.** After "always" the guard answers as before to every
list of jobs none of which has exactly a text that was allowed. -/
theorem C63_typed_partial {level allow js js'} (h : ∀ j' ∈ js', ∀ j ∈ js, j'.cmd ≠ j.cmd) (choice : Choice) :
    (guardLine level ((guardLine level allow .always js).2) choice js').1 =
      (guardLine level allow choice js').1 := by
  have hadd : ∃ added, (∀ c ∈ js'.map Job.cmd, c ∉ added) ∧ (guardLine level allow .always js).2 = allow ++ added := by
    unfold guardLine
    cases checkJobs level allow (js.map Job.cmd) with
    | allowed => exact ⟨[], by simp, by simp⟩
    | denied => exact ⟨[], by simp, by simp⟩
    | confirm =>
      refine ⟨js.map Job.cmd, ?_, rfl⟩
      intro c hc hc'
      obtain ⟨j', h1, rfl⟩ := List.mem_map.1 hc
      obtain ⟨j, h2, h3⟩ := List.mem_map.1 hc'
      exact h j' h1 j h2 h3.symm
  obtain ⟨added, h1, h2⟩ := hadd
  rw [h2]
  unfold guardLine
  rw [checkJobs_extra level h1]
  cases checkJobs level allow (js'.map Job.cmd) with
  | allowed => rfl
  | denied => rfl
  | confirm => cases choice <;> rfl

example : (guardLine .normal (guardLine .normal [] .always [{ cmd := c!"rm -r a", jobId := 1 }]).2 .no
    [{ cmd := c!"rm -r b", jobId := 1 }]).1 = .cancelled := by
  rw [C63_typed_partial (by decide)]; decide +kernel

end Dsh.Safety
