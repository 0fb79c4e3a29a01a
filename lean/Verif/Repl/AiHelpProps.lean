import Verif.Repl.AiHelp
import Verif.Repl.AiSuggestProps
/-!
# C184–C187: what is proved of the help of the AI around the line
-/
namespace Dsh.AiHelp

/-! ### Lists of events -/

theorem evs_nil (e : Ex) : e.evs [] = e := rfl
theorem evs_cons (e : Ex) (v : Ev) (l : List Ev) : e.evs (v :: l) = (e.ev v).evs l := rfl
theorem evs_snoc (e : Ex) (l : List Ev) (v : Ev) : e.evs (l ++ [v]) = (e.evs l).ev v := by
  unfold Ex.evs; rw [List.foldl_append]; rfl
theorem evs_app (e : Ex) (l l' : List Ev) : e.evs (l ++ l') = (e.evs l).evs l' := by
  unfold Ex.evs; rw [List.foldl_append]

/-- Induction over what happened, latest event last. -/
theorem snocInd {α : Type} {P : List α → Prop} (h0 : P []) (h1 : ∀ l v, P l → P (l ++ [v])) (l : List α) : P l := by
  have h : ∀ l : List α, P l.reverse := by
    intro l
    induction l with
    | nil => exact h0
    | cons v l ih => rw [List.reverse_cons]; exact h1 _ _ ih
  have := h l.reverse
  rwa [List.reverse_reverse] at this

/-! ### What each event does to the fields -/

theorem ask_fields (e : Ex) : e.ask.line = e.line ∧ e.ask.cur = e.cur ∧ e.ask.on = e.on ∧ e.ask.service = e.service ∧
    e.ask.pending = some e.line ∧ e.ask.last = e.last ∧ e.ask.dirty = e.dirty ∧
    (e.ask.asked = e.asked ∨ e.ask.asked = e.asked ++ [e.line]) ∧
    (e.ask.waiting = e.waiting ∨ e.ask.waiting = e.waiting ++ [e.line]) := by
  unfold Ex.ask
  cases h : told e.line <;> simp [h]

/-- Waiting questions were asked. -/
def Ex.Wait (e : Ex) : Prop := ∀ x ∈ e.waiting, x ∈ e.asked

theorem wait_ask {e : Ex} (h : e.Wait) : e.ask.Wait := by
  unfold Ex.ask Ex.Wait
  cases ht : told e.line with
  | none => simp only [ht]; exact h
  | some s =>
    simp only [ht]
    intro x hx
    rcases List.mem_append.1 hx with h1 | h1
    · exact List.mem_append_left _ (h x h1)
    · exact List.mem_append_right _ h1

theorem wait_explain {e : Ex} (h : e.Wait) : e.explain.Wait := by
  unfold Ex.explain
  split
  · exact wait_ask (e := { e with cur := none }) h
  · exact h

theorem wait_of {e e' : Ex} (h : e.Wait) (h1 : e'.waiting = e.waiting) (h2 : e'.asked = e.asked) : e'.Wait := by
  unfold Ex.Wait; rw [h1, h2]; exact h

/-- A key other than Alt-e asks nothing. -/
theorem key_quiet (e : Ex) (a : Act) (after : Str) (ha : a ≠ .aiExplainCommand) :
    (e.key a after).asked = e.asked ∧ (e.key a after).waiting = e.waiting ∧ (e.key a after).on = e.on ∧ (e.key a after).service = e.service := by
  cases a <;> first | exact absurd rfl ha | exact ⟨rfl, rfl, rfl, rfl⟩

theorem key_explain (e : Ex) (after : Str) : e.key .aiExplainCommand after = { e with dirty := true }.explain := rfl

theorem key_line (e : Ex) (a : Act) (after : Str) : (e.key a after).line = if a.keeps then e.line else after := by
  cases a <;> first | rfl | skip
  rw [key_explain]
  unfold Ex.explain
  split
  · exact (ask_fields _).1
  · rfl

theorem wait_ev {e : Ex} (h : e.Wait) (v : Ev) : (e.ev v).Wait := by
  cases v with
  | key a after =>
    by_cases ha : a = .aiExplainCommand
    · subst ha
      show (e.key .aiExplainCommand after).Wait
      rw [key_explain]
      exact wait_explain (e := { e with dirty := true }) h
    · obtain ⟨h1, h2, -⟩ := key_quiet e a after ha
      exact wait_of h h2 h1
  | editor t => cases t <;> exact h
  | pasted _ => exact h
  | idle =>
    show e.idle.Wait
    unfold Ex.idle
    split
    · exact wait_ask h
    · exact h
  | answer i t =>
    show (e.answer i t).Wait
    unfold Ex.answer
    split
    · have h2 : ({ e with waiting := e.waiting.erase i } : Ex).Wait := fun x hx => h x (List.mem_of_mem_erase hx)
      cases t with
      | some x => dsimp only; split <;> exact h2
      | none => dsimp only; split <;> exact h2
    · exact h
  | tick args =>
    show (e.tick args).Wait
    unfold Ex.tick
    split <;> exact h
  | set on => exact h

theorem wait_evs {e : Ex} (h : e.Wait) (l : List Ev) : (e.evs l).Wait := by
  induction l generalizing e with
  | nil => exact h
  | cons v l ih => exact ih (wait_ev h v)

/-- Nothing asked is forgotten. -/
theorem asked_mono (e : Ex) (v : Ev) : e.asked <+: (e.ev v).asked := by
  have hask : ∀ e : Ex, e.asked <+: e.ask.asked := by
    intro e
    rcases (ask_fields e).2.2.2.2.2.2.2.1 with h | h <;> rw [h]
    · exact List.prefix_rfl
    · exact List.prefix_append ..
  cases v with
  | key a after =>
    by_cases ha : a = .aiExplainCommand
    · subst ha
      show e.asked <+: (e.key .aiExplainCommand after).asked
      rw [key_explain]
      unfold Ex.explain
      split
      · exact hask { e with dirty := true, cur := none }
      · exact List.prefix_rfl
    · show e.asked <+: (e.key a after).asked
      rw [(key_quiet e a after ha).1]
      exact List.prefix_rfl
  | editor t => cases t <;> exact List.prefix_rfl
  | pasted _ => exact List.prefix_rfl
  | idle =>
    show e.asked <+: e.idle.asked
    unfold Ex.idle
    split
    · exact hask e
    · exact List.prefix_rfl
  | answer i t =>
    show e.asked <+: (e.answer i t).asked
    unfold Ex.answer
    split
    · cases t <;> dsimp only <;> split <;> exact List.prefix_rfl
    · exact List.prefix_rfl
  | tick args =>
    show e.asked <+: (e.tick args).asked
    unfold Ex.tick
    split <;> exact List.prefix_rfl
  | set on => exact List.prefix_rfl

/-! ### C184: whose explanation it is -/

/-- At the start. -/
def start (on service : Bool) : Ex := { on := on, service := service }

theorem start_wait (on service : Bool) : (start on service).Wait := by intro x hx; cases hx

/-- The keys a line is usually written and moved in with: characters, the deleting keys, the accepting keys, Up and Down, Ctrl-V, Enter,
the arrows. -/
def Usual : Act → Bool
  | .insertChar | .insertPairedChar | .overtypeClosingBracket | .expandAbbreviationAndInsertSpace | .backspace | .deleteWordBackward
  | .deleteToEnd | .deleteToBeginning | .acceptCompletion | .acceptSuggestionFull | .acceptSuggestionWord | .historyPrevious
  | .historyNext | .paste | .execute | .aiSmartCommit | .cursorLeft | .cursorRight | .cursorWordLeft | .cursorWordRight
  | .cursorToBegin | .cursorToEnd | .rotateSuggestionForward | .rotateSuggestionBackward | .aiAutoFix | .forceAiSuggestion
  | .aiExplainCommand | .macroRecord | .openEditor | .cancelCompletion | .unsupported => true
  | _ => false

/-- Only such keys, the editor, the timers and answers. -/
def UsualEv : Ev → Prop
  | .key a _ => Usual a = true
  | .pasted _ => False
  | _ => True

/-- What an event leaves of the explanation: the one there was, for a line that did not change, or the answer to a question about this very line. -/
theorem cur_ev (e : Ex) (v : Ev) (hv : UsualEv v) (x : Str) (h : (e.ev v).cur = some x) :
    (e.cur = some x ∧ (e.ev v).line = e.line) ∨ (v = .answer (e.ev v).line (some x) ∧ (e.ev v).line ∈ e.waiting) := by
  have hexp : ∀ e : Ex, e.explain.cur = some x → e.cur = some x ∧ e.explain.line = e.line := by
    intro e h
    unfold Ex.explain at h ⊢
    split at h
    · rw [(ask_fields _).2.1] at h; cases h
    · rename_i hc; rw [if_neg hc]; exact ⟨h, rfl⟩
  cases v with
  | key a after =>
    left
    cases a <;> first
      | exact absurd (show Usual _ = true from hv) (by decide)
      | exact ⟨h, rfl⟩
      | (exfalso; revert h; simp [Ex.ev, Ex.key, Act.early, Act.listed, Act.ends]; done)
      | exact hexp { e with dirty := true } h
  | editor t =>
    cases t with
    | some t => cases h
    | none => exact .inl ⟨h, rfl⟩
  | pasted _ => exact absurd hv (by simp [UsualEv])
  | idle =>
    left
    change e.idle.cur = some x at h
    show _ ∧ e.idle.line = e.line
    unfold Ex.idle at h ⊢
    split at h
    · rename_i hc
      rw [if_pos hc]
      rw [(ask_fields e).2.1] at h
      exact ⟨h, (ask_fields e).1⟩
    · rename_i hc
      rw [if_neg hc]
      exact ⟨h, rfl⟩
  | answer i t =>
    change (e.answer i t).cur = some x at h
    show (_ ∧ (e.answer i t).line = _) ∨ (_ = Ev.answer (e.answer i t).line _ ∧ (e.answer i t).line ∈ _)
    unfold Ex.answer at h ⊢
    by_cases hi : i ∈ e.waiting
    · rw [if_pos hi] at h ⊢
      cases t with
      | some y =>
        dsimp only at h ⊢
        by_cases hl : e.line = i
        · rw [if_pos hl] at h ⊢
          cases h
          exact .inr ⟨by rw [hl], by rw [hl]; exact hi⟩
        · rw [if_neg hl] at h ⊢
          exact .inl ⟨h, rfl⟩
      | none =>
        dsimp only at h ⊢
        split at h
        · rename_i hc; rw [if_pos hc]; exact .inl ⟨h, rfl⟩
        · rename_i hc; rw [if_neg hc]; exact .inl ⟨h, rfl⟩
    · rw [if_neg hi] at h ⊢
      exact .inl ⟨h, rfl⟩
  | tick args =>
    left
    change (e.tick args).cur = some x at h
    show _ ∧ (e.tick args).line = e.line
    unfold Ex.tick at h ⊢
    split at h
    · rename_i hc; rw [if_pos hc]; exact ⟨h, rfl⟩
    · rename_i hc; rw [if_neg hc]; exact ⟨h, rfl⟩
  | set on => exact .inl ⟨h, rfl⟩

/-- **C184, the usual keys.** As long as the line is written with the usual keys, the explanation there is was answered to a question about
exactly the line that stands there now. -/
theorem C184_same_partial (on service : Bool) (l : List Ev) (hl : ∀ v ∈ l, UsualEv v) (x : Str) (h : ((start on service).evs l).cur = some x) :
    Ev.answer ((start on service).evs l).line (some x) ∈ l ∧ ((start on service).evs l).line ∈ ((start on service).evs l).asked := by
  revert hl h
  refine snocInd (P := fun l => (∀ v ∈ l, UsualEv v) → ((start on service).evs l).cur = some x →
    Ev.answer ((start on service).evs l).line (some x) ∈ l ∧ ((start on service).evs l).line ∈ ((start on service).evs l).asked) ?_ ?_ l
  · intro _ h; cases h
  · intro l v ih hl h
    rw [evs_snoc] at h ⊢
    have hw := wait_evs (start_wait on service) l
    have hm := asked_mono ((start on service).evs l) v
    rcases cur_ev _ v (hl v (by simp)) x h with ⟨h1, h2⟩ | ⟨h1, h2⟩
    · obtain ⟨i1, i2⟩ := ih (fun v hv => hl v (List.mem_append_left _ hv)) h1
      rw [h2]
      exact ⟨List.mem_append_left _ i1, hm.subset i2⟩
    · refine ⟨List.mem_append_right _ ?_, hm.subset (hw _ h2)⟩
      rw [List.mem_singleton]
      exact h1.symm

/-- **C184, what is shown.** What stands under the line after a refresh is the explanation there is, behind its mark, or what the arguments
say; never both. -/
theorem C184_mark_partial (e : Ex) (args : Option Str) (h : e.dirty = true) :
    (∀ x, e.cur = some x → (e.ev (.tick args)).last = some (c!"✨ " ++ x)) ∧ (e.cur = none → (e.ev (.tick args)).last = args) := by
  show (∀ x, e.cur = some x → (e.tick args).last = _) ∧ (_ → (e.tick args).last = _)
  unfold Ex.tick
  rw [if_pos h]
  constructor
  · intro x hx; simp only [hx]
  · intro hx; simp only [hx]

/-- **C184, a line gets its explanation.** A line that is left alone is asked about, and the answer is what stands under it then. -/
theorem C184_shown_partial (e : Ex) (x : Str) (args : Option Str) (h1 : e.on = true) (h2 : e.service = true) (h3 : e.line ≠ [])
    (h4 : e.pending ≠ some e.line) (h5 : e.cur = none) (h6 : told e.line ≠ none) :
    (e.evs [.idle, .answer e.line (some x), .tick args]).last = some (c!"✨ " ++ x) ∧
    (e.evs [.idle, .answer e.line (some x), .tick args]).asked = e.asked ++ [e.line] ∧
    (e.evs [.idle, .answer e.line (some x), .tick args]).line = e.line := by
  obtain ⟨s, hs⟩ := Option.ne_none_iff_exists'.1 h6
  have hi : e.idle = e.ask := by
    unfold Ex.idle
    rw [if_pos]
    simp [h1, h2, h3, h4, h5]
  have ha : e.ask = { e with pending := some e.line, waiting := e.waiting ++ [e.line], asked := e.asked ++ [e.line] } := by
    unfold Ex.ask
    simp only [hs]
  have hb : e.ask.answer e.line (some x) = { e.ask with waiting := e.ask.waiting.erase e.line, cur := some x, dirty := true } := by
    rw [ha]
    unfold Ex.answer
    rw [if_pos (by simp)]
    simp
  show ((e.idle.answer e.line (some x)).tick args).last = _ ∧ _ ∧ _
  rw [show e.evs [.idle, .answer e.line (some x), .tick args] = (e.idle.answer e.line (some x)).tick args from rfl, hi, hb]
  unfold Ex.tick
  simp only [if_true]
  refine ⟨trivial, ?_, ?_⟩
  · rw [ha]
  · rw [ha]

/-- An event with which the user does not touch the line, and that is no failure: a key that keeps it (not Alt-e), the timers, an answer. -/
def Still : Ev → Prop
  | .key a _ => a.keeps = true ∧ a ≠ .aiExplainCommand
  | .idle | .tick _ => True
  | .answer _ (some _) => True
  | _ => False

/-- A key that keeps the line and is not Alt-e leaves everything. -/
theorem key_keeps (e : Ex) (a : Act) (after : Str) (h : a.keeps = true) (ha : a ≠ .aiExplainCommand) :
    e.key a after = { e with dirty := true } := by
  cases a <;> first | rfl | exact absurd h (by decide) | exact absurd rfl ha

/-- What is left alone: the line; and once it was asked about, the question. -/
theorem still_ev (e : Ex) (v : Ev) (hv : Still v) :
    (e.ev v).line = e.line ∧ (e.ev v).on = e.on ∧ (e.ev v).service = e.service ∧
      ((e.ev v).asked = e.asked ∧ (e.pending = some e.line → (e.ev v).pending = some e.line) ∨
        (e.ev v).asked = e.asked ++ [e.line] ∧ (e.ev v).pending = some e.line ∧ e.pending ≠ some e.line) := by
  cases v with
  | key a after =>
    show (e.key a after).line = _ ∧ (e.key a after).on = _ ∧ (e.key a after).service = _ ∧ _
    have : e.ev (.key a after) = e.key a after := rfl
    rw [this, key_keeps e a after hv.1 hv.2]
    exact ⟨rfl, rfl, rfl, .inl ⟨rfl, id⟩⟩
  | editor t => cases hv
  | pasted _ => cases hv
  | idle =>
    have : e.ev .idle = e.idle := rfl
    rw [this]
    unfold Ex.idle
    split
    · rename_i hc
      obtain ⟨f1, -, f3, f4, f5, -, -, f6, -⟩ := ask_fields e
      refine ⟨f1, f3, f4, ?_⟩
      rcases f6 with f6 | f6
      · exact .inl ⟨f6, fun _ => f5⟩
      · refine .inr ⟨f6, f5, ?_⟩
        simp only [Bool.and_eq_true, bne_iff_ne] at hc
        exact hc.1.2
    · exact ⟨rfl, rfl, rfl, .inl ⟨rfl, id⟩⟩
  | answer i t =>
    cases t with
    | none => cases hv
    | some x =>
      have : e.ev (.answer i (some x)) = e.answer i (some x) := rfl
      rw [this]
      unfold Ex.answer
      split
      · dsimp only
        split <;> exact ⟨rfl, rfl, rfl, .inl ⟨rfl, id⟩⟩
      · exact ⟨rfl, rfl, rfl, .inl ⟨rfl, id⟩⟩
  | tick args =>
    have : e.ev (.tick args) = e.tick args := rfl
    rw [this]
    unfold Ex.tick
    split <;> exact ⟨rfl, rfl, rfl, .inl ⟨rfl, id⟩⟩
  | set on => cases hv

/-- **C184, once.** However long a line is left alone, it is asked about at most once. -/
theorem C184_once_partial (e : Ex) (l : List Ev) (hl : ∀ v ∈ l, Still v) :
    (e.evs l).asked = e.asked ∨ (e.evs l).asked = e.asked ++ [e.line] := by
  have key : ∀ (l : List Ev) (e : Ex), (∀ v ∈ l, Still v) →
      ((e.evs l).asked = e.asked ∨ ((e.evs l).asked = e.asked ++ [e.line] ∧ e.pending ≠ some e.line)) := by
    intro l
    induction l with
    | nil => intro e _; exact .inl rfl
    | cons v l ih =>
      intro e hl
      obtain ⟨f1, -, -, f4⟩ := still_ev e v (hl v (List.mem_cons_self ..))
      have := ih (e.ev v) (fun v hv => hl v (List.mem_cons_of_mem _ hv))
      rw [evs_cons]
      rw [f1] at this
      rcases f4 with ⟨g1, g2⟩ | ⟨g1, g2, g3⟩
      · rcases this with t | ⟨t, t2⟩
        · exact .inl (t.trans g1)
        · rw [g1] at t
          exact .inr ⟨t, fun hp => t2 (g2 hp)⟩
      · rcases this with t | ⟨t, t2⟩
        · exact .inr ⟨t.trans g1, g3⟩
        · exact absurd g2 t2
  rcases key l e hl with h | ⟨h, -⟩
  · exact .inl h
  · exact .inr h

/-- Everything asked is a line that stood there, not empty, with a service. -/
theorem asked_ev (e : Ex) (v : Ev) (x : Str) (h : x ∈ (e.ev v).asked) : x ∈ e.asked ∨
    (x = e.line ∧ x ≠ [] ∧ e.service = true ∧ ((v = .idle ∧ e.on = true) ∨ ∃ after, v = .key .aiExplainCommand after)) := by
  have hask : ∀ e : Ex, x ∈ e.ask.asked → x ∈ e.asked ∨ x = e.line := by
    intro e h
    rcases (ask_fields e).2.2.2.2.2.2.2.1 with h1 | h1 <;> rw [h1] at h
    · exact .inl h
    · rcases List.mem_append.1 h with h | h
      · exact .inl h
      · exact .inr (List.mem_singleton.1 h)
  cases v with
  | key a after =>
    by_cases ha : a = .aiExplainCommand
    · subst ha
      change x ∈ (e.key .aiExplainCommand after).asked at h
      rw [key_explain] at h
      unfold Ex.explain at h
      split at h
      · rename_i hc
        simp only [Bool.and_eq_true, Bool.not_eq_true', List.isEmpty_eq_false_iff] at hc
        rcases hask _ h with h | h
        · exact .inl h
        · subst h
          exact .inr ⟨rfl, hc.2, hc.1, .inr ⟨after, rfl⟩⟩
      · exact .inl h
    · change x ∈ (e.key a after).asked at h
      rw [(key_quiet e a after ha).1] at h
      exact .inl h
  | editor t => cases t <;> exact .inl h
  | pasted _ => exact .inl h
  | idle =>
    change x ∈ e.idle.asked at h
    unfold Ex.idle at h
    split at h
    · rename_i hc
      simp only [Bool.and_eq_true, Bool.not_eq_true', List.isEmpty_eq_false_iff] at hc
      rcases hask _ h with h | h
      · exact .inl h
      · subst h
        exact .inr ⟨rfl, hc.1.1.2, hc.1.1.1.2, .inl ⟨rfl, hc.1.1.1.1⟩⟩
    · exact .inl h
  | answer i t =>
    change x ∈ (e.answer i t).asked at h
    unfold Ex.answer at h
    split at h
    · cases t <;> dsimp only at h <;> split at h <;> exact .inl h
    · exact .inl h
  | tick args =>
    change x ∈ (e.tick args).asked at h
    unfold Ex.tick at h
    split at h <;> exact .inl h
  | set on => exact .inl h

/-- **C184, what is asked.** Every line asked about stood there when the timer or Alt-e asked, and was not empty. -/
theorem C184_asked_partial (on service : Bool) (l : List Ev) (x : Str) (h : x ∈ ((start on service).evs l).asked) :
    x ≠ [] ∧ ∃ l1 v l2, l = l1 ++ v :: l2 ∧ ((start on service).evs l1).line = x ∧
      ((v = .idle ∧ ((start on service).evs l1).on = true) ∨ ∃ after, v = .key .aiExplainCommand after) := by
  revert h
  refine snocInd (P := fun l => x ∈ ((start on service).evs l).asked → x ≠ [] ∧ ∃ l1 v l2, l = l1 ++ v :: l2 ∧ ((start on service).evs l1).line = x ∧
      ((v = .idle ∧ ((start on service).evs l1).on = true) ∨ ∃ after, v = .key .aiExplainCommand after)) ?_ ?_ l
  · intro h; cases h
  · intro l v ih h
    rw [evs_snoc] at h
    rcases asked_ev _ v x h with h | ⟨h1, h2, -, h4⟩
    · obtain ⟨i1, l1, v', l2, i2, i3, i4⟩ := ih h
      exact ⟨i1, l1, v', l2 ++ [v], by rw [i2]; simp, i3, i4⟩
    · exact ⟨h2, l, v, [], rfl, h1.symm, h4⟩

/-- The keys that change the line and leave the explanation of the old one. -/
def Leaves : Act → Prop
  | .interrupt | .executeBackground | .historySearch | .triggerCompletion | .openCommandPalette | .aiDiagnose | .clearScreen | .toggleSudo => True
  | _ => False

theorem leaves_key (e : Ex) (a : Act) (after : Str) (h : Leaves a) : e.key a after = { e with dirty := true, line := after } := by
  cases a <;> first | rfl | exact absurd h (by simp [Leaves])

/-- **C184 fails: other keys.** After Ctrl-C, Alt-Enter, Ctrl-r, Tab, the palette, a diagnosis, Ctrl-l and the two Escs the explanation of the old line stands
under the new one, whatever both are. -/
theorem C184_stale_violated (e : Ex) (a : Act) (ha : Leaves a) (line x after : Str) (args args' : Option Str) (h1 : e.on = true)
    (h2 : e.service = true) (h3 : line ≠ []) (h6 : told line ≠ none) :
    let e' := e.evs [.key .insertChar line, .idle, .answer line (some x), .tick args, .key a after, .tick args']
    e'.line = after ∧ e'.last = some (c!"✨ " ++ x) ∧ e'.cur = some x ∧ e'.asked = e.asked ++ [line] ∧ e'.dirty = false := by
  intro e'
  have hk : e.key .insertChar line = { e with dirty := true, line := line, cur := none, pending := none } := rfl
  have hx := C184_shown_partial (e.key .insertChar line) x args (by rw [hk]; exact h1) (by rw [hk]; exact h2) (by rw [hk]; exact h3)
    (by rw [hk]; simp) (by rw [hk]) (by rw [hk]; exact h6)
  have hl : (e.key .insertChar line).line = line := rfl
  rw [hl] at hx
  obtain ⟨e3, he3⟩ : ∃ e3, e3 = (e.key .insertChar line).evs [.idle, .answer line (some x), .tick args] := ⟨_, rfl⟩
  rw [← he3] at hx
  have hc : e3.cur = some x := by
    by_cases h : e3.cur = some x
    · exact h
    · rw [he3]
      obtain ⟨s, hs⟩ := Option.ne_none_iff_exists'.1 h6
      have hi : (e.key .insertChar line).idle = (e.key .insertChar line).ask := by
        unfold Ex.idle
        rw [hk, if_pos]
        simp [h1, h2, h3]
      have haa : (e.key .insertChar line).ask = { e.key .insertChar line with pending := some line, waiting := e.waiting ++ [line], asked := e.asked ++ [line] } := by
        unfold Ex.ask
        rw [hk]
        simp only [hs]
      show (((e.key .insertChar line).idle.answer line (some x)).tick args).cur = some x
      rw [hi, haa]
      unfold Ex.answer
      rw [if_pos (by simp)]
      dsimp only
      rw [if_pos hl]
      unfold Ex.tick
      rw [if_pos rfl]
  have he' : e' = (e3.key a after).tick args' := by
    show e.evs [.key .insertChar line, .idle, .answer line (some x), .tick args, .key a after, .tick args'] = _
    rw [he3]; rfl
  rw [he', leaves_key e3 a after ha]
  unfold Ex.tick
  simp only [if_true]
  refine ⟨trivial, ?_, hc, ?_, trivial⟩
  · rw [hc]
  · exact hx.2.1

/-- **C184 fails: the new line is never explained.** With the old explanation there the new line is not asked about, however long the user waits, and
the old explanation stays. -/
theorem C184_stuck_violated (e : Ex) (x : Str) (h : e.cur = some x) (l : List Ev) (hl : ∀ v ∈ l, v = .idle ∨ ∃ args, v = .tick args) (args : Option Str) :
    (e.evs l).asked = e.asked ∧ (e.evs l).cur = some x ∧ (e.dirty = true → (e.evs (.tick args :: l)).last = some (c!"✨ " ++ x)) := by
  have key : ∀ (l : List Ev) (e : Ex), e.cur = some x → (∀ v ∈ l, v = .idle ∨ ∃ args, v = .tick args) →
      (e.evs l).asked = e.asked ∧ (e.evs l).cur = some x ∧ ((e.last = some (c!"✨ " ++ x)) → (e.evs l).last = some (c!"✨ " ++ x)) := by
    intro l
    induction l with
    | nil => intro e h _; exact ⟨rfl, h, id⟩
    | cons v l ih =>
      intro e h hl
      rw [evs_cons]
      rcases hl v (List.mem_cons_self ..) with rfl | ⟨args, rfl⟩
      · have : e.ev .idle = e := by
          show e.idle = e
          unfold Ex.idle
          rw [if_neg]
          simp [h]
        rw [this]
        exact ih e h (fun v hv => hl v (List.mem_cons_of_mem _ hv))
      · have ht : (e.ev (.tick args)).asked = e.asked ∧ (e.ev (.tick args)).cur = some x ∧
            (e.last = some (c!"✨ " ++ x) → (e.ev (.tick args)).last = some (c!"✨ " ++ x)) := by
          show (e.tick args).asked = _ ∧ (e.tick args).cur = _ ∧ (_ → (e.tick args).last = _)
          unfold Ex.tick
          split
          · exact ⟨rfl, h, fun _ => by simp only [h]⟩
          · exact ⟨rfl, h, id⟩
        obtain ⟨i1, i2, i3⟩ := ih _ ht.2.1 (fun v hv => hl v (List.mem_cons_of_mem _ hv))
        exact ⟨i1.trans ht.1, i2, fun hh => i3 (ht.2.2 hh)⟩
  obtain ⟨k1, k2, -⟩ := key l e h hl
  refine ⟨k1, k2, fun hd => ?_⟩
  rw [evs_cons]
  have ht := (C184_mark_partial e args hd).1 x h
  have hc : (e.ev (.tick args)).cur = some x := by
    show (e.tick args).cur = _
    unfold Ex.tick
    rw [if_pos hd]; exact h
  exact (key l _ hc hl).2.2 ht

/-- **C184 fails: pasted text.** Text pasted by the terminal leaves the explanation of the line before, too. -/
theorem C184_paste_violated (e : Ex) (x after : Str) (h : e.cur = some x) (args : Option Str) (hd : e.dirty = true ∨ e.last = some (c!"✨ " ++ x)) :
    (e.evs [.pasted after, .tick args]).line = after ∧ (e.evs [.pasted after, .tick args]).last = some (c!"✨ " ++ x) := by
  show ((e.pasted after).tick args).line = _ ∧ ((e.pasted after).tick args).last = _
  unfold Ex.tick Ex.pasted
  dsimp only
  split
  · exact ⟨rfl, by simp only [h]⟩
  · rename_i hc
    rcases hd with hd | hd
    · exact absurd hd hc
    · exact ⟨rfl, hd⟩

/-! ### What the service is told -/

/-- Plain characters: one byte, printable. -/
def Ascii (s : Str) : Prop := ∀ c ∈ s, c.utf8Size = 1 ∧ Safety.isControl c = false ∧ Safety.isInvisible c = false

/-- Characters that are kept. -/
def Seen (s : Str) : Prop := ∀ c ∈ s, Safety.isControl c = false ∧ Safety.isInvisible c = false

theorem seen_filter {s : Str} (h : Seen s) :
    (s.filter (fun c => !Safety.isControl c || c = '\n' || c = '\r' || c = '\t')).filter (fun c => !Safety.isInvisible c) = s := by
  have h1 : s.filter (fun c => !Safety.isControl c || c = '\n' || c = '\r' || c = '\t') = s :=
    List.filter_eq_self.2 (fun c hc => by simp [(h c hc).1])
  rw [h1]
  exact List.filter_eq_self.2 (fun c hc => by simp [(h c hc).2])

theorem ascii_bytes {s : Str} (h : Ascii s) : Safety.bytes s = s.length := by
  unfold Safety.bytes
  induction s with
  | nil => rfl
  | cons c s ih =>
    rw [List.map_cons, List.sum_cons, ih (fun d hd => h d (List.mem_cons_of_mem _ hd)), (h c (List.mem_cons_self ..)).1, List.length_cons]
    omega

theorem bytes_append (s t : Str) : Safety.bytes (s ++ t) = Safety.bytes s + Safety.bytes t := by
  unfold Safety.bytes; rw [List.map_append, List.sum_append]

theorem bytes_pos {s : Str} (h : s ≠ []) : 0 < Safety.bytes s := by
  cases s with
  | nil => exact absurd rfl h
  | cons c s =>
    unfold Safety.bytes
    rw [List.map_cons, List.sum_cons]
    have := Char.utf8Size_pos c
    omega

theorem truncate_ascii {s : Str} (h : Ascii s) (n : Nat) (t : Str) :
    Safety.truncate (s.length + n) (s ++ t) = (Safety.truncate n t).map (s ++ ·) := by
  induction s with
  | nil => simp
  | cons c s ih =>
    have hc := (h c (List.mem_cons_self ..)).1
    rw [List.length_cons, List.cons_append, show s.length + 1 + n = (s.length + n) + 1 by omega, Safety.truncate, hc,
      if_pos (by omega), Nat.add_sub_cancel, ih (fun d hd => h d (List.mem_cons_of_mem _ hd)), Option.map_map]
    rfl

theorem sanitize_long {s t : Str} (hs : Ascii s) (ht : Seen t) (hne : t ≠ []) (max : Nat) (hm : s.length = max) :
    Safety.sanitize (s ++ t) max = some (s ++ c!"...(truncated)") := by
  have hf : Seen (s ++ t) := by
    intro c hc
    rcases List.mem_append.1 hc with h | h
    · exact (hs c h).2
    · exact ht c h
  unfold Safety.sanitize
  simp only [seen_filter hf]
  rw [if_pos (by rw [bytes_append, ascii_bytes hs]; have := bytes_pos hne; omega)]
  have := truncate_ascii hs 0 t
  rw [Nat.add_zero, hm] at this
  rw [this]
  cases t with
  | nil => exact absurd rfl hne
  | cons c t => simp [Safety.truncate]

theorem sanitize_panics {s t : Str} {c : Char} (hs : Ascii s) (hc : 1 < c.utf8Size) (ht : Seen (c :: t)) (max : Nat) (hm : s.length + 1 = max) :
    Safety.sanitize (s ++ c :: t) max = none := by
  have hf : Seen (s ++ c :: t) := by
    intro d hd
    rcases List.mem_append.1 hd with h | h
    · exact (hs d h).2
    · exact ht d h
  unfold Safety.sanitize
  simp only [seen_filter hf]
  have hb : Safety.bytes (c :: t) = c.utf8Size + Safety.bytes t := by unfold Safety.bytes; rw [List.map_cons, List.sum_cons]
  rw [if_pos (by rw [bytes_append, ascii_bytes hs, hb]; omega)]
  have := truncate_ascii hs 1 (c :: t)
  rw [hm] at this
  rw [this, Safety.truncate, if_neg (by omega)]
  rfl

/-- **C184 fails: long lines.** Of a line of more than two hundred characters only the beginning is explained: all lines that go on differently behind it are
asked about in the same words. -/
theorem C184_long_violated (p s t : Str) (hp : Ascii p) (hl : p.length = 200) (hs : Seen s) (ht : Seen t) (h1 : s ≠ []) (h2 : t ≠ []) :
    told (p ++ s) = told (p ++ t) ∧ told (p ++ s) ≠ none := by
  unfold told
  rw [sanitize_long hp hs h1 200 hl, sanitize_long hp ht h2 200 hl]
  exact ⟨rfl, by simp⟩

/-- **C184 fails: no answer at all.** A line with a character of more than one byte across the two hundredth byte is never asked about: the task that asks ends
with a panic, nothing tells so, and the line counts as asked about. -/
theorem C184_silent_violated (e : Ex) (p t : Str) (c : Char) (hp : Ascii p) (hl : p.length = 199) (hc : 1 < c.utf8Size) (ht : Seen (c :: t))
    (h : e.line = p ++ c :: t) (l : List Ev) (hv : ∀ v ∈ l, v = .idle ∨ (∃ args, v = .tick args) ∨ ∃ after, v = .key .aiExplainCommand after) :
    (e.evs l).asked = e.asked ∧ (e.evs l).line = e.line ∧ (l = [.idle] → e.on = true → e.service = true → e.cur = none →
      (e.evs l).pending = some e.line) := by
  have hn : told (p ++ c :: t) = none := by
    unfold told
    rw [sanitize_panics hp hc ht 200 (by omega)]
    rfl
  have hask : ∀ e : Ex, e.line = p ++ c :: t → e.ask = { e with pending := some e.line } := by
    intro e h
    unfold Ex.ask
    simp only [h, hn]
  have key : ∀ (l : List Ev) (e : Ex), e.line = p ++ c :: t →
      (∀ v ∈ l, v = .idle ∨ (∃ args, v = .tick args) ∨ ∃ after, v = .key .aiExplainCommand after) →
      (e.evs l).asked = e.asked ∧ (e.evs l).line = e.line := by
    intro l
    induction l with
    | nil => intro e _ _; exact ⟨rfl, rfl⟩
    | cons v l ih =>
      intro e h hv
      have hstep : (e.ev v).asked = e.asked ∧ (e.ev v).line = e.line := by
        rcases hv v (List.mem_cons_self ..) with rfl | ⟨args, rfl⟩ | ⟨after, rfl⟩
        · show e.idle.asked = _ ∧ e.idle.line = _
          unfold Ex.idle
          split
          · rw [hask e h]; exact ⟨rfl, rfl⟩
          · exact ⟨rfl, rfl⟩
        · show (e.tick args).asked = _ ∧ (e.tick args).line = _
          unfold Ex.tick
          split <;> exact ⟨rfl, rfl⟩
        · show (e.key .aiExplainCommand after).asked = _ ∧ (e.key .aiExplainCommand after).line = _
          rw [key_explain]
          unfold Ex.explain
          split
          · have h' := hask { e with dirty := true, cur := none } h
            rw [show ({ e with dirty := true, cur := none } : Ex).ask = _ from h']; exact ⟨rfl, rfl⟩
          · exact ⟨rfl, rfl⟩
      obtain ⟨i1, i2⟩ := ih (e.ev v) (hstep.2.trans h) (fun v hv' => hv v (List.mem_cons_of_mem _ hv'))
      exact ⟨i1.trans hstep.1, i2.trans hstep.2⟩
  obtain ⟨k1, k2⟩ := key l e h hv
  refine ⟨k1, k2, ?_⟩
  rintro rfl h1 h2 h3
  show e.idle.pending = _
  unfold Ex.idle
  split
  · rw [hask e h]
  · rename_i hx
    have hne : e.line.isEmpty = false := by rw [h]; cases p <;> rfl
    simp only [h1, h2, hne, h3, Bool.true_and, Bool.not_false, Option.isNone_none, Bool.and_true, bne_iff_ne, ne_eq, Decidable.not_not] at hx
    exact hx

/-- A stale explanation, as it comes about. -/
example : (((start true true).evs [.key .insertChar c!"rm -r x", .idle, .answer c!"rm -r x" (some c!"deletes x"), .tick none,
    .key .interrupt [], .tick none]).last, ((start true true).evs [.key .insertChar c!"rm -r x", .idle, .answer c!"rm -r x" (some c!"deletes x"), .tick none,
    .key .interrupt [], .tick none]).line) = (some c!"✨ deletes x", []) := by decide +kernel


/-! ### C185: fixes -/

theorem fevs_snoc (B : Str → Bool) (L : Safety.Level) (A : List Str) (f : Fx) (l : List Fv) (v : Fv) :
    f.evs B L A (l ++ [v]) = (f.evs B L A l).ev B L A v := by
  unfold Fx.evs; rw [List.foldl_append]; rfl

theorem fevs_app (B : Str → Bool) (L : Safety.Level) (A : List Str) (f : Fx) (l l' : List Fv) :
    f.evs B L A (l ++ l') = (f.evs B L A l).evs B L A l' := by
  unfold Fx.evs; rw [List.foldl_append]

theorem trigger_fields (B : Str → Bool) (f : Fx) : (f.trigger B).offer = f.offer ∧ (f.trigger B).line = f.line ∧ (f.trigger B).ran = f.ran ∧
    (f.trigger B).lastCmd = f.lastCmd ∧ (f.trigger B).lastStatus = f.lastStatus ∧ (f.trigger B).on = f.on := by
  unfold Fx.trigger; split <;> exact ⟨rfl, rfl, rfl, rfl, rfl, rfl⟩

/-- At the start. -/
def fstart (on : Bool) : Fx := { on := on }

/-- What is known of the state: what was asked was run, failed and is not blocked; what waits was asked; what was run last is the last command. -/
structure FInv (B : Str → Bool) (f : Fx) : Prop where
  asked : ∀ q ∈ f.asked, q.1 ∈ f.ran ∧ q.2 ≠ 0 ∧ B q.1 = false ∧ q.1 ≠ []
  waiting : ∀ q ∈ f.waiting, q ∈ f.asked
  last : f.lastCmd = [] ∨ f.ran.getLast? = some f.lastCmd

theorem FInv.trigger {B : Str → Bool} {f : Fx} (h : FInv B f) : FInv B (f.trigger B) := by
  unfold Fx.trigger
  split
  · rename_i hc
    refine ⟨?_, ?_, h.last⟩
    · intro q hq
      rcases List.mem_append.1 hq with hq | hq
      · exact h.asked q hq
      · rw [List.mem_singleton.1 hq]
        refine ⟨?_, hc.1, hc.2.2.2, hc.2.1⟩
        rcases h.last with hl | hl
        · exact absurd hl hc.2.1
        · exact List.mem_of_getLast? hl
    · intro q hq
      rcases List.mem_append.1 hq with hq | hq
      · exact List.mem_append_left _ (h.waiting q hq)
      · exact List.mem_append_right _ hq
  · exact h

theorem FInv.ran {B : Str → Bool} {f : Fx} (h : FInv B f) (s : Int) :
    FInv B { f with ran := f.ran ++ [f.line], lastCmd := f.line, lastStatus := s, line := [] } :=
  ⟨fun q hq => ⟨List.mem_append_left _ (h.asked q hq).1, (h.asked q hq).2⟩, h.waiting, .inr (by simp)⟩

theorem FInv.ev {B : Str → Bool} {f : Fx} (h : FInv B f) (L : Safety.Level) (A : List Str) (v : Fv) : FInv B (f.ev B L A v) := by
  cases v with
  | type l => exact ⟨h.asked, h.waiting, h.last⟩
  | enter s =>
    show FInv B (f.enter B s)
    unfold Fx.enter
    split
    · exact h
    · exact (h.ran s).trigger
  | background s =>
    show FInv B (f.background s)
    unfold Fx.background
    split
    · exact h
    · exact h.ran s
  | altF =>
    show FInv B (f.altF B)
    unfold Fx.altF
    split
    · exact h
    · exact h.trigger
  | right =>
    show FInv B f.right
    unfold Fx.right
    split
    · split
      · exact ⟨h.asked, h.waiting, h.last⟩
      · exact h
    · exact h
  | esc => exact h
  | answer q a =>
    show FInv B (f.answer L A q a)
    unfold Fx.answer
    split
    · have h2 : FInv B { f with waiting := f.waiting.erase q } :=
        ⟨h.asked, fun q' hq' => h.waiting q' (List.mem_of_mem_erase hq'), h.last⟩
      dsimp only
      split
      · split
        · exact ⟨h2.asked, h2.waiting, h2.last⟩
        · exact h2
      · exact h2
    · exact h
  | set on => exact ⟨h.asked, h.waiting, h.last⟩

theorem FInv.evs {B : Str → Bool} {f : Fx} (h : FInv B f) (L : Safety.Level) (A : List Str) (l : List Fv) : FInv B (f.evs B L A l) := by
  induction l generalizing f with
  | nil => exact h
  | cons v l ih => exact ih (h.ev L A v)

theorem fstart_inv (B : Str → Bool) (on : Bool) : FInv B (fstart on) := ⟨by simp [fstart], by simp [fstart], .inl rfl⟩

/-- An offer stays, is taken away, or comes with an answer the guard lets through. -/
theorem offer_ev (B : Str → Bool) (L : Safety.Level) (A : List Str) (f : Fx) (v : Fv) (t : Str) (h : (f.ev B L A v).offer = some t) :
    f.offer = some t ∨ ∃ q cmd args, v = .answer q (some (cmd, args)) ∧ q ∈ f.waiting ∧ Safety.checkCommand L cmd args A = .allowed ∧
      t = joinWith c!" " (cmd :: args) := by
  cases v with
  | type l => exact .inl h
  | enter s =>
    change (f.enter B s).offer = some t at h
    unfold Fx.enter at h
    split at h
    · exact .inl h
    · rw [(trigger_fields B _).1] at h; exact .inl h
  | background s =>
    change (f.background s).offer = some t at h
    unfold Fx.background at h
    split at h <;> exact .inl h
  | altF =>
    change (f.altF B).offer = some t at h
    unfold Fx.altF at h
    split at h
    · exact .inl h
    · rw [(trigger_fields B _).1] at h; exact .inl h
  | right =>
    change f.right.offer = some t at h
    unfold Fx.right at h
    split at h
    · split at h
      · cases h
      · exact .inl h
    · exact .inl h
  | esc => exact .inl h
  | answer q a =>
    change (f.answer L A q a).offer = some t at h
    unfold Fx.answer at h
    split at h
    · rename_i hq
      cases a with
      | none => exact .inl h
      | some ca =>
        obtain ⟨cmd, args⟩ := ca
        dsimp only at h
        cases hs : Safety.suggest L A cmd args with
        | none => rw [hs] at h; exact .inl h
        | some x =>
          rw [hs] at h
          cases h
          right
          unfold Safety.suggest at hs
          refine ⟨q, cmd, args, rfl, hq, ?_, ?_⟩
          · split at hs
            · assumption
            · cases hs
          · split at hs
            · cases hs; rfl
            · cases hs
    · exact .inl h
  | set on => exact .inl h

/-- **C185, where a fix comes from.** What is offered is the command, with its arguments, that the service answered for a command which was run and failed,
and that the guard lets through. -/
theorem C185_origin_partial (B : Str → Bool) (L : Safety.Level) (A : List Str) (on : Bool) (l : List Fv) (t : Str)
    (h : ((fstart on).evs B L A l).grey = some t) :
    ∃ q cmd args, Fv.answer q (some (cmd, args)) ∈ l ∧ q.1 ∈ ((fstart on).evs B L A l).ran ∧ q.2 ≠ 0 ∧ B q.1 = false ∧
      Safety.checkCommand L cmd args A = .allowed ∧ t = joinWith c!" " (cmd :: args) := by
  have h' : ((fstart on).evs B L A l).offer = some t := by
    unfold Fx.grey at h
    split at h
    · exact h
    · cases h
  clear h
  have hmono : ∀ (f : Fx) (v : Fv) x, x ∈ f.ran → x ∈ (f.ev B L A v).ran := by
    intro f v x hx
    cases v with
    | enter s =>
      show x ∈ (f.enter B s).ran
      unfold Fx.enter
      split
      · exact hx
      · rw [(trigger_fields B _).2.2.1]; exact List.mem_append_left _ hx
    | background s =>
      show x ∈ (f.background s).ran
      unfold Fx.background
      split
      · exact hx
      · exact List.mem_append_left _ hx
    | altF =>
      show x ∈ (f.altF B).ran
      unfold Fx.altF
      split
      · exact hx
      · rw [(trigger_fields B _).2.2.1]; exact hx
    | right =>
      show x ∈ f.right.ran
      unfold Fx.right
      split
      · split <;> exact hx
      · exact hx
    | answer q a =>
      show x ∈ (f.answer L A q a).ran
      unfold Fx.answer
      split
      · dsimp only
        split
        · split <;> exact hx
        · exact hx
      · exact hx
    | _ => exact hx
  revert h'
  refine snocInd (P := fun l => ((fstart on).evs B L A l).offer = some t → ∃ q cmd args, Fv.answer q (some (cmd, args)) ∈ l ∧
      q.1 ∈ ((fstart on).evs B L A l).ran ∧ q.2 ≠ 0 ∧ B q.1 = false ∧
      Safety.checkCommand L cmd args A = .allowed ∧ t = joinWith c!" " (cmd :: args)) ?_ ?_ l
  · intro h; cases h
  · intro l v ih h
    rw [fevs_snoc] at h ⊢
    rcases offer_ev B L A _ v t h with h | ⟨q, cmd, args, h1, h2, h3, h4⟩
    · obtain ⟨q, cmd, args, i1, i2, i3⟩ := ih h
      exact ⟨q, cmd, args, List.mem_append_left _ i1, hmono _ v _ i2, i3⟩
    · have hi := (fstart_inv B on).evs L A l
      obtain ⟨a1, a2, a3, -⟩ := hi.asked q (hi.waiting q h2)
      exact ⟨q, cmd, args, List.mem_append_right _ (by rw [h1]; simp), hmono _ v _ a1, a2, a3, h3, h4⟩

/-- **C185, a fix is not run.** Only Enter and Alt-Enter run anything, and what they run is the line that stands there. -/
theorem C185_unrun_partial (B : Str → Bool) (L : Safety.Level) (A : List Str) (f : Fx) (v : Fv) :
    (f.ev B L A v).ran = f.ran ∨ ((∃ s, v = .enter s ∨ v = .background s) ∧ (f.ev B L A v).ran = f.ran ++ [f.line]) := by
  cases v with
  | enter s =>
    show (f.enter B s).ran = _ ∨ (_ ∧ (f.enter B s).ran = _)
    unfold Fx.enter
    split
    · exact .inl rfl
    · rw [(trigger_fields B _).2.2.1]; exact .inr ⟨⟨s, .inl rfl⟩, rfl⟩
  | background s =>
    show (f.background s).ran = _ ∨ (_ ∧ (f.background s).ran = _)
    unfold Fx.background
    split
    · exact .inl rfl
    · exact .inr ⟨⟨s, .inr rfl⟩, rfl⟩
  | altF =>
    left
    show (f.altF B).ran = _
    unfold Fx.altF
    split
    · rfl
    · exact (trigger_fields B _).2.2.1
  | right =>
    left
    show f.right.ran = _
    unfold Fx.right
    split
    · split <;> rfl
    · rfl
  | answer q a =>
    left
    show (f.answer L A q a).ran = _
    unfold Fx.answer
    split
    · dsimp only
      split
      · split <;> rfl
      · rfl
    · rfl
  | _ => exact .inl rfl

/-- **C185, a fix comes.** A command that fails is asked about, the answer is offered on the empty line, and the right arrow puts it there, once. -/
theorem C185_comes_partial (B : Str → Bool) (L : Safety.Level) (A : List Str) (f : Fx) (s : Int) (cmd : Str) (args : List Str) (h1 : f.on = true)
    (h2 : f.line ≠ []) (h3 : s ≠ 0) (h4 : B f.line = false) (h5 : Safety.checkCommand L cmd args A = .allowed) :
    (f.evs B L A [.enter s, .answer (f.line, s) (some (cmd, args))]).grey = some (joinWith c!" " (cmd :: args)) ∧
    (f.evs B L A [.enter s, .answer (f.line, s) (some (cmd, args)), .right]).line = joinWith c!" " (cmd :: args) ∧
    (f.evs B L A [.enter s, .answer (f.line, s) (some (cmd, args)), .right]).offer = none ∧
    (f.evs B L A [.enter s]).asked = f.asked ++ [(f.line, s)] := by
  have he : f.enter B s = { f with ran := f.ran ++ [f.line], lastCmd := f.line, lastStatus := s, line := [], waiting := f.waiting ++ [(f.line, s)], asked := f.asked ++ [(f.line, s)] } := by
    unfold Fx.enter
    rw [if_neg (by simpa using h2)]
    unfold Fx.trigger
    rw [if_pos ⟨h3, h2, h1, h4⟩]
  have hs : Safety.suggest L A cmd args = some (joinWith c!" " (cmd :: args)) := by
    unfold Safety.suggest; rw [h5]; rfl
  have ha : (f.enter B s).answer L A (f.line, s) (some (cmd, args)) =
      { f.enter B s with waiting := (f.enter B s).waiting.erase (f.line, s), offer := some (joinWith c!" " (cmd :: args)) } := by
    unfold Fx.answer
    rw [if_pos (by rw [he]; simp)]
    simp only [hs]
  have e1 : f.evs B L A [.enter s, .answer (f.line, s) (some (cmd, args))] = (f.enter B s).answer L A (f.line, s) (some (cmd, args)) := rfl
  have e2 : f.evs B L A [.enter s, .answer (f.line, s) (some (cmd, args)), .right] = ((f.enter B s).answer L A (f.line, s) (some (cmd, args))).right := rfl
  have e3 : f.evs B L A [.enter s] = f.enter B s := rfl
  have hl : (f.enter B s).line = [] := by rw [he]
  have hr : ((f.enter B s).answer L A (f.line, s) (some (cmd, args))).right =
      { f.enter B s with waiting := (f.enter B s).waiting.erase (f.line, s), offer := none, line := joinWith c!" " (cmd :: args) } := by
    rw [ha]
    unfold Fx.right
    simp only [hl]
    rfl
  rw [e1, e2, e3, hr]
  refine ⟨?_, rfl, rfl, by rw [he]⟩
  rw [ha]
  unfold Fx.grey
  simp only [hl]
  rfl

/-- Nothing but typing and running, no answer, no right arrow. -/
def Working : Fv → Prop
  | .type _ | .enter _ | .background _ | .esc | .altF | .set _ => True
  | _ => False

/-- **C185 fails: an old fix.** Whatever is typed and run after a fix was offered, with whatever success, it is still offered for the empty line. -/
theorem C185_old_violated (B : Str → Bool) (L : Safety.Level) (A : List Str) (f : Fx) (t : Str) (h : f.offer = some t) (l : List Fv)
    (hl : ∀ v ∈ l, Working v) : (f.evs B L A l).offer = some t ∧ ((f.evs B L A l).line = [] → (f.evs B L A l).grey = some t ∧
      ((f.evs B L A l).ev B L A .right).line = t) := by
  have key : (f.evs B L A l).offer = some t := by
    induction l generalizing f with
    | nil => exact h
    | cons v l ih =>
      refine ih (f.ev B L A v) ?_ (fun v hv => hl v (List.mem_cons_of_mem _ hv))
      have hv := hl v (List.mem_cons_self ..)
      cases v with
      | type l => exact h
      | enter s =>
        show (f.enter B s).offer = _
        unfold Fx.enter
        split
        · exact h
        · rw [(trigger_fields B _).1]; exact h
      | background s =>
        show (f.background s).offer = _
        unfold Fx.background
        split <;> exact h
      | altF =>
        show (f.altF B).offer = _
        unfold Fx.altF
        split
        · exact h
        · rw [(trigger_fields B _).1]; exact h
      | esc => exact h
      | set on => exact h
      | right => cases hv
      | answer q a => cases hv
  refine ⟨key, fun hn => ?_⟩
  generalize f.evs B L A l = g at *
  constructor
  · unfold Fx.grey; rw [hn]; exact key
  · show g.right.line = t
    unfold Fx.right
    rw [hn]
    simp only [key]
    rfl

/-- **C185 fails: answers in another order.** Two commands fail; the answer to the first comes last: its fix is the one offered. -/
theorem C185_order_violated (B : Str → Bool) (L : Safety.Level) (A : List Str) (c1 c2 : Str) (s1 s2 : Int) (f1 f2 : Str) (a1 a2 : List Str) (n1 : c1 ≠ [])
    (n2 : c2 ≠ []) (hc : c1 ≠ c2) (z1 : s1 ≠ 0) (z2 : s2 ≠ 0) (b1 : B c1 = false) (b2 : B c2 = false) (g1 : Safety.checkCommand L f1 a1 A = .allowed)
    (g2 : Safety.checkCommand L f2 a2 A = .allowed) :
    let f := (fstart true).evs B L A [.type c1, .enter s1, .type c2, .enter s2, .answer (c2, s2) (some (f2, a2)), .answer (c1, s1) (some (f1, a1))]
    f.lastCmd = c2 ∧ f.grey = some (joinWith c!" " (f1 :: a1)) := by
  have hs : ∀ cmd args, Safety.checkCommand L cmd args A = .allowed → Safety.suggest L A cmd args = some (joinWith c!" " (cmd :: args)) := by
    intro cmd args h; unfold Safety.suggest; rw [h]; rfl
  have he : ∀ (f : Fx) (s : Int), f.on = true → f.line ≠ [] → s ≠ 0 → B f.line = false →
      f.enter B s = { f with ran := f.ran ++ [f.line], lastCmd := f.line, lastStatus := s, line := [], waiting := f.waiting ++ [(f.line, s)], asked := f.asked ++ [(f.line, s)] } := by
    intro f s h1 h2 h3 h4
    unfold Fx.enter
    rw [if_neg (by simpa using h2)]
    unfold Fx.trigger
    rw [if_pos ⟨h3, h2, h1, h4⟩]
  intro f
  have hf : f = (((((({ fstart true with line := c1 } : Fx).enter B s1).ev B L A (.type c2)).enter B s2).answer L A (c2, s2) (some (f2, a2))).answer L A
      (c1, s1) (some (f1, a1))) := rfl
  rw [he _ s1 rfl n1 z1 b1] at hf
  change f = (((({ fstart true with ran := [c1], lastCmd := c1, lastStatus := s1, line := c2, waiting := [(c1, s1)], asked := [(c1, s1)] } : Fx).enter B s2).answer L A
    (c2, s2) (some (f2, a2))).answer L A (c1, s1) (some (f1, a1))) at hf
  rw [he _ s2 rfl n2 z2 b2] at hf
  have hw : ([(c1, s1)] ++ [(c2, s2)]).erase (c2, s2) = [(c1, s1)] := by
    rw [List.singleton_append, List.erase_cons_tail (by simp [hc]), List.erase_cons_head]
  have hans : ∀ (f : Fx) (q : Str × Int) cmd args, q ∈ f.waiting → Safety.checkCommand L cmd args A = .allowed →
      f.answer L A q (some (cmd, args)) = { f with waiting := f.waiting.erase q, offer := some (joinWith c!" " (cmd :: args)) } := by
    intro f q cmd args hq hg
    unfold Fx.answer
    rw [if_pos hq]
    simp only [hs _ _ hg]
  rw [hf, hans _ (c2, s2) f2 a2 (List.mem_append_right _ (List.mem_singleton.2 rfl)) g2,
    hans _ (c1, s1) f1 a1 (by show (c1, s1) ∈ ([(c1, s1)] ++ [(c2, s2)]).erase (c2, s2); rw [hw]; exact List.mem_singleton.2 rfl) g1]
  exact ⟨rfl, rfl⟩

/-- **C185 fails: Alt-f.** The key that asks for a fix does nothing unless fixes are asked for by themselves, whatever failed. -/
theorem C185_key_violated (B : Str → Bool) (L : Safety.Level) (A : List Str) (f : Fx) (h : f.on = false) : f.ev B L A .altF = f := by
  show f.altF B = f
  unfold Fx.altF Fx.trigger
  split
  · rfl
  · rw [if_neg (by simp [h])]

/-- **C185 fails: no way to refuse.** While a fix is offered on the empty line, Esc leaves it there and Alt-f does not ask anew. -/
theorem C185_refuse_violated (B : Str → Bool) (L : Safety.Level) (A : List Str) (f : Fx) (t : Str) (h : f.grey = some t) :
    f.ev B L A .esc = f ∧ f.ev B L A .altF = f := by
  refine ⟨rfl, ?_⟩
  unfold Fx.grey at h
  split at h
  · rename_i hc
    show f.altF B = f
    unfold Fx.altF
    rw [if_pos (by rw [hc, h]; rfl)]
  · cases h

/-- A fix of a typing error, accepted; later successes do not take the next one away. -/
example : ((fstart true).evs (fun _ => false) .normal [] [.type c!"gti status", .enter 127, .answer (c!"gti status", 127) (some (c!"git", [c!"status"])),
    .type c!"ls", .enter 0, .right]).line = c!"git status" := by decide +kernel

end Dsh.AiHelp
