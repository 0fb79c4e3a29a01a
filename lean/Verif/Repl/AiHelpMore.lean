import Verif.Repl.AiHelpProps
/-!
# C186–C187: what is proved of `aic` and of diagnoses
-/
namespace Dsh.AiHelp

/-! ### C186: `aic` -/

/-- The three answers. -/
def Yes (r : Reply) : Prop := lower (trim r.text) ∈ [c!"y", c!"yes"]
def No (r : Reply) : Prop := lower (trim r.text) ∈ [c!"n", c!"no"]
def Edit (r : Reply) : Prop := lower (trim r.text) ∈ [c!"e", c!"edit"]

theorem review_yes {msg : Str} {r : Reply} {rs : List Reply} (h : Yes r) :
    review msg (r :: rs) = if r.commits then ([.shown msg, .commit msg r.tree], .status 0) else ([.shown msg], .status 1) := by
  unfold review
  rw [if_pos (by unfold Yes at h; simpa using h)]

theorem review_no {msg : Str} {r : Reply} {rs : List Reply} (h : No r) : review msg (r :: rs) = ([.shown msg], .status 0) := by
  unfold No at h
  have h' : lower (trim r.text) = c!"n" ∨ lower (trim r.text) = c!"no" := by simpa using h
  unfold review
  have hy : ¬ (lower (trim r.text) = c!"y" ∨ lower (trim r.text) = c!"yes") := by
    rcases h' with h' | h' <;> rw [h'] <;> decide
  dsimp only
  rw [if_neg hy, if_pos h']

/-- What goes on after an answer that decides nothing: the next message. -/
def next (msg : Str) (r : Reply) : Str :=
  if lower (trim r.text) = c!"e" ∨ lower (trim r.text) = c!"edit" then (match r.edited with | some t => trim t | none => msg) else msg

theorem review_on {msg : Str} {r : Reply} {rs : List Reply} (h1 : ¬ Yes r) (h2 : ¬ No r) :
    review msg (r :: rs) = (.shown msg :: (review (next msg r) rs).1, (review (next msg r) rs).2) := by
  have hy : ¬ (lower (trim r.text) = c!"y" ∨ lower (trim r.text) = c!"yes") := by unfold Yes at h1; simpa using h1
  have hn : ¬ (lower (trim r.text) = c!"n" ∨ lower (trim r.text) = c!"no") := by unfold No at h2; simpa using h2
  rw [review]
  dsimp only
  rw [if_neg hy, if_neg hn]
  unfold next
  by_cases he : lower (trim r.text) = c!"e" ∨ lower (trim r.text) = c!"edit"
  · rw [if_pos he, if_pos he]
    cases r.edited <;> rfl
  · rw [if_neg he, if_neg he]

theorem review_head (msg : Str) (rs : List Reply) : ∃ more, (review msg rs).1 = .shown msg :: more := by
  cases rs with
  | nil => exact ⟨[], rfl⟩
  | cons r rs =>
    by_cases hy : Yes r
    · rw [review_yes hy]
      split
      · exact ⟨_, rfl⟩
      · exact ⟨_, rfl⟩
    · by_cases hn : No r
      · rw [review_no hn]; exact ⟨[], rfl⟩
      · rw [review_on hy hn]; exact ⟨_, rfl⟩

/-- **C186, what is committed.** A commit has the message that was shown last, comes after the answer "yes" to it, and is the last thing done. -/
theorem C186_message_partial (msg : Str) (rs : List Reply) (pre post : List Step) (m : Str) (t : Nat)
    (h : (review msg rs).1 = pre ++ .commit m t :: post) :
    post = [] ∧ ∃ before r, pre = before ++ [.shown m] ∧ rs[before.length]? = some r ∧ Yes r ∧ r.tree = t ∧ r.commits = true ∧
      (review msg rs).2 = .status 0 := by
  induction rs generalizing msg pre with
  | nil =>
    have h' : [Step.shown msg] = pre ++ .commit m t :: post := h
    cases pre with
    | nil => cases h'
    | cons p pre =>
      have := congrArg List.length h'
      simp at this
  | cons r rs ih =>
    by_cases hy : Yes r
    · rw [review_yes hy] at h ⊢
      by_cases hc : r.commits = true
      · rw [if_pos hc] at h ⊢
        cases pre with
        | nil => cases h
        | cons p pre =>
          cases pre with
          | nil =>
            simp only [List.cons_append, List.nil_append, List.cons.injEq, Step.commit.injEq] at h
            obtain ⟨h1, ⟨h2, h3⟩, h4⟩ := h
            subst h2
            exact ⟨h4.symm, [], r, by rw [← h1]; rfl, rfl, hy, h3, hc, rfl⟩
          | cons p' pre =>
            have := congrArg List.length h
            simp at this
      · rw [if_neg hc] at h
        cases pre with
        | nil => cases h
        | cons p pre =>
          have := congrArg List.length h
          simp at this
    · by_cases hn : No r
      · rw [review_no hn] at h
        cases pre with
        | nil => cases h
        | cons p pre =>
          have := congrArg List.length h
          simp at this
      · rw [review_on hy hn] at h ⊢
        cases pre with
        | nil => cases h
        | cons p pre =>
          simp only [List.cons_append, List.cons.injEq] at h
          obtain ⟨i1, before, r', i2, i3, i4⟩ := ih (next msg r) pre h.2
          exact ⟨i1, p :: before, r', by rw [i2]; rfl, by simpa using i3, i4⟩

/-- **C186, nothing without "yes".** -/
theorem C186_unasked_partial (diff : Option (Str × Nat)) (key : Bool) (message : Option Str) (rs : List Reply) (h : ∀ r ∈ rs, ¬ Yes r) (m : Str) (t : Nat) :
    Step.commit m t ∉ (aic diff key message rs).1 := by
  have hr : ∀ msg, Step.commit m t ∉ (review msg rs).1 := by
    intro msg hm
    obtain ⟨pre, post, hp⟩ := List.append_of_mem hm
    obtain ⟨-, before, r, -, h3, h4, -⟩ := C186_message_partial msg rs pre post m t hp
    exact h r (List.mem_of_getElem? h3) h4
  unfold aic
  cases diff with
  | none => simp
  | some d =>
    obtain ⟨d, t0⟩ := d
    dsimp only
    split
    · simp
    · split
      · simp
      · cases message with
        | none => simp
        | some x => exact hr _

/-- **C186, what is shown first and after editing.** First the answer of the service, without blanks at its ends; after an edit what the editor gave; after an edit
that failed, or an answer that is none, the same again. -/
theorem C186_shown_partial (msg : Str) (r : Reply) (rs : List Reply) (h1 : ¬ Yes r) (h2 : ¬ No r) :
    (review msg (r :: rs)).1 = .shown msg :: (review (next msg r) rs).1 ∧ (∃ more, (review (next msg r) rs).1 = .shown (next msg r) :: more) ∧
      (∀ t, Edit r → r.edited = some t → next msg r = trim t) ∧ (Edit r → r.edited = none → next msg r = msg) ∧ (¬ Edit r → next msg r = msg) := by
  rw [review_on h1 h2]
  refine ⟨rfl, review_head _ _, ?_, ?_, ?_⟩
  · intro t he ht
    unfold next
    rw [if_pos (by unfold Edit at he; simpa using he), ht]
  · intro he ht
    unfold next
    rw [if_pos (by unfold Edit at he; simpa using he), ht]
  · intro he
    unfold next
    rw [if_neg (by unfold Edit at he; simpa using he)]

/-- **C186, success.** Status 0 means that a commit was made or the user said "no"; any other end than the endless one is 0 or 1. -/
theorem C186_status_partial (msg : Str) (rs : List Reply) :
    ((review msg rs).2 = .status 0 → (∃ m t, Step.commit m t ∈ (review msg rs).1) ∨ ∃ r ∈ rs, No r) ∧
    ((review msg rs).2 = .status 0 ∨ (review msg rs).2 = .status 1 ∨ (review msg rs).2 = .forever) := by
  induction rs generalizing msg with
  | nil => exact ⟨(by intro h; cases h), .inr (.inr rfl)⟩
  | cons r rs ih =>
    by_cases hy : Yes r
    · rw [review_yes hy]
      split
      · exact ⟨fun _ => .inl ⟨msg, r.tree, by simp⟩, .inl rfl⟩
      · exact ⟨(by intro h; cases h), .inr (.inl rfl)⟩
    · by_cases hn : No r
      · rw [review_no hn]
        exact ⟨fun _ => .inr ⟨r, by simp, hn⟩, .inl rfl⟩
      · rw [review_on hy hn]
        obtain ⟨i1, i2⟩ := ih (next msg r)
        refine ⟨fun h => ?_, i2⟩
        rcases i1 h with ⟨m, t, hm⟩ | ⟨r', hr', hn'⟩
        · exact .inl ⟨m, t, List.mem_cons_of_mem _ hm⟩
        · exact .inr ⟨r', List.mem_cons_of_mem _ hr', hn'⟩

/-- **C186 fails: the end of the input.** Ctrl-D at the question, or a script without an answer: `aic` asks for ever. -/
theorem C186_end_violated (d : Str) (t0 : Nat) (m : Str) (rs : List Reply) (hd : trim d ≠ []) (h : ∀ r ∈ rs, ¬ Yes r ∧ ¬ No r) :
    (aic (some (d, t0)) true (some m) rs).2 = .forever := by
  have key : ∀ msg, (review msg rs).2 = .forever := by
    induction rs with
    | nil => intro msg; rfl
    | cons r rs ih =>
      intro msg
      have hr := h r (List.mem_cons_self ..)
      rw [review_on hr.1 hr.2]
      exact ih (fun r hr => h r (List.mem_cons_of_mem _ hr)) _
  unfold aic
  dsimp only
  rw [if_neg (by simpa using hd), if_neg (by decide)]
  exact key _

/-- **C186 fails: the status.** An `aic` that the user called off succeeds like one that committed. -/
theorem C186_called_off_violated (msg : Str) (rs more : List Reply) (no : Reply) (hn : No no) (h : ∀ r ∈ rs, ¬ Yes r ∧ ¬ No r) :
    (review msg (rs ++ no :: more)).2 = .status 0 ∧ ∀ m t, Step.commit m t ∉ (review msg (rs ++ no :: more)).1 := by
  induction rs generalizing msg with
  | nil =>
    rw [List.nil_append, review_no hn]
    exact ⟨rfl, by simp⟩
  | cons r rs ih =>
    have hr := h r (List.mem_cons_self ..)
    rw [List.cons_append, review_on hr.1 hr.2]
    obtain ⟨i1, i2⟩ := ih (next msg r) (fun r hr => h r (List.mem_cons_of_mem _ hr))
    exact ⟨i1, fun m t hm => by simpa using (fun h' => i2 m t h') (by simpa using hm)⟩

/-- **C186 fails: other changes.** What is committed is what is staged when the user says "yes", whatever the message was written for. -/
theorem C186_other_violated (d : Str) (t0 t : Nat) (m : Str) (hd : trim d ≠ []) (rs : List Reply) :
    aic (some (d, t0)) true (some m) (⟨c!"y\n", none, true, t⟩ :: rs) = ([.shown (trim m), .commit (trim m) t], .status 0) := by
  unfold aic
  dsimp only
  rw [if_neg (by simpa using hd), if_neg (by decide), review_yes (by unfold Yes; show lower (trim c!"y\n") ∈ _; decide), if_pos rfl]

/-- An edited message. -/
example : aic (some (c!"+x", 7)) true (some c!" feat: x\n") [⟨c!"what\n", none, true, 7⟩, ⟨c!"e\n", some c!"fix: y\n", true, 7⟩, ⟨c!"Yes\n", none, true, 8⟩] =
    ([.shown c!"feat: x", .shown c!"feat: x", .shown c!"fix: y", .commit c!"fix: y" 8], .status 0) := by decide +kernel

/-! ### C187: diagnoses -/

theorem scan_pre (pre ls : List Str) (h : ∀ l ∈ pre, fence l = false) : scan (pre ++ ls) = scan ls := by
  induction pre with
  | nil => rfl
  | cons l pre ih =>
    rw [List.cons_append, scan, if_neg (by rw [h l (List.mem_cons_self ..)]; decide)]
    exact ih (fun l hl => h l (List.mem_cons_of_mem _ hl))

theorem gather_fence (acc l : Str) (ls : List Str) (h : fence l = true) : gather acc (l :: ls) = acc := by
  simp [gather, h]

theorem gather_cons (acc l : Str) (ls : List Str) (h : fence l = false) :
    gather acc (l :: ls) = gather ((if acc.isEmpty then acc else acc ++ ['\n']) ++ l) ls := by
  simp [gather, h]

theorem join_cons (a b : Str) (l : List Str) : joinWith ['\n'] (a :: b :: l) = a ++ ['\n'] ++ joinWith ['\n'] (b :: l) := rfl

/-- The lines of a block up to its end. -/
theorem gather_end (acc : Str) (body : List Str) (rest : List Str) (h : ∀ l ∈ body, fence l = false)
    (hr : rest = [] ∨ ∃ g post, rest = g :: post ∧ fence g = true) : gather acc (body ++ rest) = gather acc body := by
  induction body generalizing acc with
  | nil =>
    rcases hr with rfl | ⟨g, post, rfl, hg⟩
    · rfl
    · rw [List.nil_append, gather_fence _ _ _ hg]; rfl
  | cons l body ih =>
    have hl : fence l = false := h l (List.mem_cons_self ..)
    rw [List.cons_append, gather_cons _ _ _ hl, gather_cons _ _ _ hl]
    exact ih _ (fun l hl => h l (List.mem_cons_of_mem _ hl))

theorem gather_more (acc : Str) (ha : acc ≠ []) (body : List Str) (h : ∀ l ∈ body, fence l = false) :
    gather acc body = joinWith ['\n'] (acc :: body) := by
  induction body generalizing acc with
  | nil => rfl
  | cons l body ih =>
    rw [gather_cons _ _ _ (h l (List.mem_cons_self ..)), if_neg (by simpa using ha),
      ih (acc ++ ['\n'] ++ l) (by simp) (fun l hl => h l (List.mem_cons_of_mem _ hl)), join_cons acc l]
    cases body with
    | nil => rfl
    | cons b body => rw [join_cons, join_cons]; simp

theorem gather_trim (body : List Str) (h : ∀ l ∈ body, fence l = false) : trim (gather [] body) = trim (joinWith ['\n'] body) := by
  induction body with
  | nil => rfl
  | cons l body ih =>
    rw [gather_cons _ _ _ (h l (List.mem_cons_self ..))]
    by_cases hl : l = []
    · subst hl
      show trim (gather [] body) = _
      rw [ih (fun l hl => h l (List.mem_cons_of_mem _ hl))]
      cases body with
      | nil => rfl
      | cons b body =>
        rw [join_cons]
        rfl
    · show trim (gather l body) = _
      rw [gather_more l hl body (fun l hl => h l (List.mem_cons_of_mem _ hl))]

theorem gather_empty (body : List Str) (h : ∀ l ∈ body, fence l = false) (he : (gather [] body).isEmpty = true) : ∀ l ∈ body, l = [] := by
  induction body with
  | nil => intro l hl; cases hl
  | cons l body ih =>
    rw [gather_cons _ _ _ (h l (List.mem_cons_self ..))] at he
    by_cases hl : l = []
    · subst hl
      intro l' hl'
      rcases List.mem_cons.1 hl' with rfl | hl'
      · rfl
      · exact ih (fun l hl => h l (List.mem_cons_of_mem _ hl)) he l' hl'
    · change (gather l body).isEmpty = true at he
      rw [gather_more l hl body (fun l hl => h l (List.mem_cons_of_mem _ hl))] at he
      exfalso
      cases l with
      | nil => exact hl rfl
      | cons c l => cases body <;> simp [joinWith] at he

/-- What `extract` gives for a text whose first line that counts as the begin of a block is `f`. -/
theorem extract_block (text : Str) (pre body rest : List Str) (f : Str) (ht : Record.lines text = pre ++ f :: (body ++ rest))
    (hp : ∀ l ∈ pre, fence l = false) (hf : fence f = true) (hb : ∀ l ∈ body, fence l = false)
    (hr : rest = [] ∨ ∃ g post, rest = g :: post ∧ fence g = true) (hn : ∃ l ∈ body, l ≠ []) :
    extract text = some (trim (joinWith ['\n'] body)) := by
  unfold extract
  rw [ht, scan_pre pre _ hp, scan, if_pos hf, gather_end [] body rest hb hr]
  dsimp only
  rw [if_neg, gather_trim body hb]
  intro he
  obtain ⟨l, hl, hl'⟩ := hn
  exact hl' (gather_empty body hb he l hl)

/-- The first line of a block of shell commands, and the last line of any block. -/
theorem fence_open (lang : Str) (h : lang = c!"bash" ∨ lang = c!"sh" ∨ lang = c!"shell") : fence (c!"```" ++ lang) = true := by
  rcases h with rfl | rfl | rfl <;> decide

theorem fence_close : fence c!"```" = true := by decide

/-- **C187, the command applied.** If the first block of an answer is one of shell commands, Ctrl-Y and Alt-A put exactly its text on the line, without blanks at its
ends, whatever stands before and after it. -/
theorem C187_block_partial (text : Str) (pre body post : List Str) (lang : Str) (hl : lang = c!"bash" ∨ lang = c!"sh" ∨ lang = c!"shell")
    (ht : Record.lines text = pre ++ (c!"```" ++ lang) :: (body ++ c!"```" :: post)) (hp : ∀ l ∈ pre, fence l = false)
    (hb : ∀ l ∈ body, fence l = false) (hn : ∃ l ∈ body, l ≠ []) :
    extract text = some (trim (joinWith ['\n'] body)) :=
  extract_block text pre body (c!"```" :: post) _ ht hp (fence_open lang hl) hb (.inr ⟨_, post, rfl, fence_close⟩) hn

/-- **C187, nothing to apply.** An answer without blocks, or with an empty first one, leaves the line. -/
theorem C187_none_partial (text : Str) : (∀ l ∈ Record.lines text, fence l = false) → extract text = none := by
  intro h
  unfold extract
  have := scan_pre (Record.lines text) [] h
  rw [List.append_nil] at this
  rw [this]
  rfl

/-- **C187 fails: a block of another language first.** The line that ends it counts as the begin of a block: what is applied is the text after it. -/
theorem C187_other_violated (text : Str) (pre code prose rest : List Str) (lang : Str) (hl : fence (c!"```" ++ lang) = false)
    (ht : Record.lines text = pre ++ (c!"```" ++ lang) :: (code ++ c!"```" :: (prose ++ c!"```bash" :: rest)))
    (hp : ∀ l ∈ pre, fence l = false) (hc : ∀ l ∈ code, fence l = false) (hb : ∀ l ∈ prose, fence l = false) (hn : ∃ l ∈ prose, l ≠ []) :
    extract text = some (trim (joinWith ['\n'] prose)) := by
  refine extract_block text (pre ++ (c!"```" ++ lang) :: code) prose (c!"```bash" :: rest) c!"```" ?_ ?_ fence_close hb
    (.inr ⟨_, rest, rfl, by decide⟩) hn
  · rw [ht]; simp
  · intro l h
    rcases List.mem_append.1 h with h | h
    · exact hp l h
    · rcases List.mem_cons.1 h with rfl | h
      · exact hl
      · exact hc l h

/-- **C187 fails: output first.** A block without a language, such as the output of the command quoted, is applied instead of the command. -/
theorem C187_output_violated (text : Str) (pre out mid cmds rest : List Str)
    (ht : Record.lines text = pre ++ c!"```" :: (out ++ c!"```" :: (mid ++ c!"```bash" :: (cmds ++ c!"```" :: rest))))
    (hp : ∀ l ∈ pre, fence l = false) (ho : ∀ l ∈ out, fence l = false) (hn : ∃ l ∈ out, l ≠ []) :
    extract text = some (trim (joinWith ['\n'] out)) :=
  extract_block text pre out _ c!"```" ht hp fence_close ho (.inr ⟨_, _, rfl, fence_close⟩) hn

/-- **C187, what is told.** Of a failed command with plain and short text the service is told the command, its status and what it wrote, as they are. -/
theorem C187_told_partial (cmd status output : Str) (h1 : Ascii cmd) (h2 : Seen output) (h3 : cmd.length ≤ 1000) (h4 : Safety.bytes output ≤ 2000) :
    diagnosis cmd status output = some (c!"Command: `" ++ cmd ++ c!"`\nExit code: " ++ status ++ c!"\nOutput:\n```\n" ++ output ++ c!"\n```") := by
  have hs : ∀ (s : Str) (n : Nat), Seen s → Safety.bytes s ≤ n → Safety.sanitize s n = some s := by
    intro s n h hb
    unfold Safety.sanitize
    simp only [seen_filter h]
    rw [if_neg (by omega)]
  unfold diagnosis
  rw [hs cmd 1000 (fun c hc => (h1 c hc).2) (by rw [ascii_bytes h1]; exact h3), hs output 2000 h2 h4]

/-- **C187 fails: the end of the output.** Of a long output only the first two thousand bytes are told; the error at its end is not. -/
theorem C187_cut_violated (cmd status p s t : Str) (hp : Ascii p) (hl : p.length = 2000) (hs : Seen s) (ht : Seen t) (h1 : s ≠ []) (h2 : t ≠ []) :
    diagnosis cmd status (p ++ s) = diagnosis cmd status (p ++ t) := by
  unfold diagnosis
  rw [sanitize_long hp hs h1 2000 hl, sanitize_long hp ht h2 2000 hl]

/-- **C187 fails: the shell ends.** Output with a character of several bytes across the two thousandth byte ends the shell when Alt-d is pressed. -/
theorem C187_panic_violated (cmd status p t : Str) (c : Char) (hp : Ascii p) (hl : p.length = 1999) (hc : 1 < c.utf8Size) (ht : Seen (c :: t)) :
    diagnosis cmd status (p ++ c :: t) = none := by
  unfold diagnosis
  rw [sanitize_panics hp hc ht 2000 (by omega)]
  split
  · rename_i h; cases h
  · rfl

/-- The text between two blocks is applied. -/
example : extract c!"See\n```json\n{}\n```\nThen delete everything:\n```bash\nls\n```\n" = some c!"Then delete everything:" ∧
    extract c!"Try\n```bash\ncd x\nls -l\n```\nor not" = some c!"cd x\nls -l" := by decide +kernel

end Dsh.AiHelp
