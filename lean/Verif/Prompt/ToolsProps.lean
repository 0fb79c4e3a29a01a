import Verif.Prompt.Tools
/-!
C142: the versions and contexts in the prompt are the ones in force, and the programs that tell them are not asked over and over.
-/
namespace Dsh.Prm

variable {α : Type}

/-- The answers the programs can have given: those of the ticks and of the programs running at the start. -/
def answers (es : List (Nat × Event α)) : List (Option α) := es.filterMap fun e => match e.2 with | .tick _ a => some a | _ => none

theorem answers_cons (e : Nat × Event α) (es : List (Nat × Event α)) :
    answers (e :: es) = (match e.2 with | .tick _ a => [a] | _ => []) ++ answers es := by
  unfold answers
  rw [List.filterMap_cons]
  cases e.2 <;> rfl

/-- **C142, what is shown was said.** Whatever is shown was the answer of a program that was asked in this run; nothing is made up. -/
theorem C142_said_partial (version : Bool) (es : List (Nat × Event α)) (v : α) (h : ((({} : Slot α).run version es).shown) = some v) :
    some v ∈ answers es := by
  have key : ∀ (es : List (Nat × Event α)) (s : Slot α) (v : α), (s.run version es).shown = some v →
      s.shown = some v ∨ some v ∈ s.running ∨ some v ∈ answers es := by
    intro es
    induction es with
    | nil => intro s v h; exact Or.inl h
    | cons e es ih =>
      intro s v h
      obtain ⟨now, ev⟩ := e
      rw [answers_cons]
      have h' := ih (s.step version now ev) v h
      cases ev with
      | tick w a =>
        unfold Slot.step at h'
        dsimp only at h'
        split at h'
        · rcases h' with h' | h' | h'
          · exact Or.inl h'
          · rcases List.mem_append.1 h' with h' | h'
            · exact Or.inr (Or.inl h')
            · exact Or.inr (Or.inr (List.mem_append_left _ h'))
          · exact Or.inr (Or.inr (List.mem_append_right _ h'))
        · rcases h' with h' | h' | h'
          · exact Or.inl h'
          · exact Or.inr (Or.inl h')
          · exact Or.inr (Or.inr (List.mem_append_right _ h'))
      | done i =>
        unfold Slot.step at h'
        dsimp only at h'
        split at h'
        · exact h'
        · rename_i x hx
          rcases h' with h' | h' | h'
          · right; left
            cases h'
            exact List.mem_of_getElem? hx
          · exact Or.inr (Or.inl (List.mem_of_mem_eraseIdx h'))
          · exact Or.inr (Or.inr h')
        · rcases h' with h' | h' | h'
          · exact Or.inl h'
          · exact Or.inr (Or.inl (List.mem_of_mem_eraseIdx h'))
          · exact Or.inr (Or.inr h')
      | cd =>
        unfold Slot.step at h'
        dsimp only at h'
        split at h'
        · rcases h' with h' | h' | h'
          · cases h'
          · exact Or.inr (Or.inl h')
          · exact Or.inr (Or.inr h')
        · exact h'
  rcases key es {} v h with h | h | h
  · cases h
  · cases h
  · exact h

/-- **C142, while nothing changes.** If the program always says `v`, then at all times `v` or nothing is shown; and when it has been asked and has answered, `v` is shown. -/
theorem C142_stable_partial (version : Bool) (v : α) (es : List (Nat × Event α)) (h : ∀ a ∈ answers es, a = some v) :
    let s := ({} : Slot α).run version es
    (s.shown = none ∨ s.shown = some v) ∧
    ∀ now, s.due now true = true → ((s.step version now (.tick true (some v))).step version now (.done s.running.length)).shown = some v := by
  intro s
  constructor
  · cases hs : s.shown with
    | none => exact Or.inl rfl
    | some x => exact Or.inr (h _ (C142_said_partial version es x hs))
  · intro now hd
    have h1 : s.step version now (.tick true (some v)) = { s with running := s.running ++ [some v] } := by
      unfold Slot.step
      dsimp only
      rw [if_pos hd]
    rw [h1]
    unfold Slot.step
    dsimp only
    rw [List.getElem?_append_right (Nat.le_refl _)]
    simp

example : (({} : Slot Nat).run true [(0, .tick true (some 3)), (1, .done 0), (2, .tick true (some 3))]) = { shown := some 3, gate := { next := 1 } } := by decide

/-- The times do not go back. -/
def Ordered (t : Nat) : List (Nat × Event α) → Prop
  | [] => True
  | e :: es => t ≤ e.1 ∧ Ordered e.1 es

/-- The program is asked at one of these events. -/
def asked (version : Bool) : Slot α → List (Nat × Event α) → List Nat
  | _, [] => []
  | s, (now, e) :: es =>
    (if (s.step version now e).running.length > s.running.length then [now] else []) ++ asked version (s.step version now e) es

/-- No program ends with an answer in this run. -/
def noAnswer (version : Bool) : Slot α → List (Nat × Event α) → Prop
  | _, [] => True
  | s, (now, e) :: es =>
    (∀ i, e = .done i → ∀ v, s.running[i]? ≠ some (some v)) ∧ noAnswer version (s.step version now e) es

/-- Failures one after the other. -/
def fails : Gate → List Nat → Gate
  | g, [] => g
  | g, t :: ts => fails (g.fail t) ts

theorem fails_delay (ts : List Nat) : ∀ g : Gate, g.delay ≤ 300 → (fails g ts).delay = min (g.delay * 2 ^ ts.length) 300 := by
  induction ts with
  | nil => intro g hg; simp [fails, Nat.min_eq_left hg]
  | cons t ts ih =>
    intro g hg
    have hm : (g.fail t).delay = min (g.delay * 2) 300 := rfl
    rw [fails, ih _ (by rw [hm]; exact Nat.min_le_right _ _), hm, List.length_cons, Nat.pow_succ]
    have h1 : 1 ≤ 2 ^ ts.length := Nat.one_le_two_pow
    rcases Nat.le_total (g.delay * 2) 300 with h | h
    · rw [Nat.min_eq_left h]; congr 1; rw [Nat.mul_assoc, Nat.mul_comm 2]
    · rw [Nat.min_eq_right h]
      have a : 300 ≤ 300 * 2 ^ ts.length := Nat.le_mul_of_pos_right _ h1
      have b : 300 ≤ g.delay * (2 ^ ts.length * 2) := by
        calc 300 ≤ g.delay * 2 := h
          _ ≤ g.delay * 2 * 2 ^ ts.length := Nat.le_mul_of_pos_right _ h1
          _ = g.delay * (2 ^ ts.length * 2) := by rw [Nat.mul_assoc, Nat.mul_comm 2]
      rw [Nat.min_eq_right a, Nat.min_eq_right b]

theorem asked_after (version : Bool) (t0 d0 : Nat) (h300 : d0 ≤ 300) : ∀ (es : List (Nat × Event α)) (s : Slot α) (t : Nat), t0 ≤ t →
    t0 + d0 ≤ s.gate.next → d0 ≤ s.gate.delay → Ordered t es → noAnswer version s es → ∀ a ∈ asked version s es, t0 + d0 ≤ a := by
  intro es
  induction es with
  | nil => intro s t _ _ _ _ _ a ha; cases ha
  | cons e es ih =>
    intro s t ht hn hd ho hna a ha
    obtain ⟨now, ev⟩ := e
    obtain ⟨ho1, ho2⟩ := ho
    obtain ⟨hna1, hna2⟩ := hna
    have ho1' : t ≤ now := ho1
    rw [asked] at ha
    have hnext : t0 + d0 ≤ (s.step version now ev).gate.next ∧ d0 ≤ (s.step version now ev).gate.delay ∧
        ((s.step version now ev).running.length > s.running.length → t0 + d0 ≤ now) := by
      cases ev with
      | tick w x =>
        unfold Slot.step
        dsimp only
        split
        · rename_i hdue
          refine ⟨hn, hd, fun _ => ?_⟩
          unfold Slot.due Gate.open at hdue
          simp only [Bool.and_eq_true, decide_eq_true_eq] at hdue
          omega
        · exact ⟨hn, hd, fun h => absurd h (by simp)⟩
      | done i =>
        unfold Slot.step
        dsimp only
        split
        · exact ⟨hn, hd, fun h => absurd h (by simp)⟩
        · rename_i v hv
          exact absurd hv (hna1 i rfl v)
        · refine ⟨?_, ?_, fun h => ?_⟩
          · show t0 + d0 ≤ now + s.gate.delay
            omega
          · show d0 ≤ min (s.gate.delay * 2) 300
            omega
          · exfalso
            have := List.length_eraseIdx_le s.running i
            dsimp only at h
            omega
      | cd =>
        unfold Slot.step
        dsimp only
        split
        · exact ⟨hn, hd, fun h => absurd h (by simp)⟩
        · exact ⟨hn, hd, fun h => absurd h (by simp)⟩
    rcases List.mem_append.1 ha with ha | ha
    · split at ha
      · rename_i hl
        have : a = now := by simpa using ha
        rw [this]
        exact hnext.2.2 hl
      · cases ha
    · exact ih _ now (by omega) hnext.1 hnext.2.1 ho2 hna2 a ha

/-- **C142, failures.** A program that fails for the n-th time in a row since it last answered is not asked again for 5, 10, 20, ... seconds, at most for five minutes,
whatever happens meanwhile (except that another one answers). -/
theorem C142_backoff_partial (version : Bool) (s : Slot α) (start now i : Nat) (ts : List Nat) (hg : s.gate = fails (Gate.reset start) ts)
    (hf : s.running[i]? = some none) (es : List (Nat × Event α)) (ho : Ordered now es) (hna : noAnswer version (s.step version now (.done i)) es) :
    ∀ a ∈ asked version (s.step version now (.done i)) es, now + min (5 * 2 ^ ts.length) 300 ≤ a := by
  have hd : s.gate.delay = min (5 * 2 ^ ts.length) 300 := by
    rw [hg, fails_delay _ _ (by show 5 ≤ 300; omega)]
    rfl
  have hstep : s.step version now (.done i) = { s with gate := s.gate.fail now, running := s.running.eraseIdx i } := by
    unfold Slot.step
    dsimp only
    rw [hf]
  refine asked_after version now _ (Nat.min_le_right _ _) es _ now (Nat.le_refl _) ?_ ?_ ho hna
  · rw [hstep]
    show _ ≤ now + s.gate.delay
    rw [hd]
    exact Nat.le_refl _
  · rw [hstep]
    show _ ≤ min (s.gate.delay * 2) 300
    rw [hd]
    omega

/-- The third failure: asked at 0, 5, 15 and then at 35. -/
example : asked false ({} : Slot Nat) [(0, .tick true none), (0, .done 0), (4, .tick true none), (5, .tick true none), (5, .done 0), (14, .tick true none),
    (15, .tick true none), (15, .done 0), (34, .tick true none), (35, .tick true none)] = [0, 5, 15, 35] := by decide

/-- **C142 fails for contexts that change.** What has been shown once is shown for ever: no program is asked again, whatever it would say, and the change of
directory does not help. -/
theorem C142_sticky_violated (s : Slot α) (v : α) (hs : s.shown = some v) (hr : s.running = []) (es : List (Nat × Event α)) : s.run false es = s := by
  induction es with
  | nil => rfl
  | cons e es ih =>
    obtain ⟨now, ev⟩ := e
    have : s.step false now ev = s := by
      cases ev with
      | tick w a => simp [Slot.step, Slot.due, hs]
      | done i => simp [Slot.step, hr]
      | cd => rfl
    rw [Slot.run, this]
    exact ih

/-- `kubectl config use-context prod`: the prompt goes on to show the old context. -/
example : k8sPart ((({} : Slot (Str × Option Str)).run false
    [(0, .tick true (some (c!"dev", some c!"web"))), (0, .done 0), (1, .tick true (some (c!"prod", none))), (1, .done 0), (100, .cd), (200, .tick true (some (c!"prod", none)))]).shown) =
    some c!" ☸️ dev (web)" := by decide

/-- The same for the profile: once one has been seen, another one is not shown, and neither is its removal. -/
theorem C142_profile_violated (v : Str) (later : List (Option Str × Option Str)) :
    later.foldl (fun s e => awsTick s e.1 e.2) (some v) = some v := by
  induction later with
  | nil => rfl
  | cons e es ih => exact ih

/-- A profile that is set to nothing hides the other variable, and is shown as a sign without a name. -/
theorem C142_blank_violated (fallback : Option Str) : awsPart (awsTick none (some []) fallback) = some c!" ☁️  " := rfl

/-- **C142 fails for slow programs.** As long as no program has answered, each interval starts one more. -/
theorem C142_pile_violated (version : Bool) (s : Slot α) (hs : s.shown = none) (ticks : List (Nat × Option α)) (ht : ∀ t ∈ ticks, s.gate.next ≤ t.1) :
    (s.run version (ticks.map fun t => (t.1, .tick true t.2))).running.length = s.running.length + ticks.length := by
  induction ticks generalizing s with
  | nil => rfl
  | cons t ts ih =>
    have h1 : s.step version t.1 (.tick true t.2) = { s with running := s.running ++ [t.2] } := by
      unfold Slot.step
      dsimp only
      rw [if_pos]
      simp [Slot.due, Gate.open, hs, ht t (List.mem_cons_self ..)]
    rw [List.map_cons, Slot.run, h1, ih { s with running := s.running ++ [t.2] } hs (fun t' h' => ht t' (List.mem_cons_of_mem _ h'))]
    simp
    omega

/-- **C142 fails if the directory changes meanwhile.** The version asked for in the old directory is shown in the new one, and no other one is asked for there. -/
theorem C142_moved_violated (s : Slot α) (now t : Nat) (v : α) (hr : s.running = [some v]) (es : List (Nat × Event α)) (hc : ∀ e ∈ es, e.2 ≠ .cd) :
    (((s.step true now .cd).step true t (.done 0)).run true es).shown = some v := by
  have h0 : (s.step true now .cd).step true t (.done 0) = { shown := some v, gate := Gate.reset t, running := [] } := by
    simp [Slot.step, hr]
  rw [h0]
  clear h0
  generalize hq : ({ shown := some v, gate := Gate.reset t, running := [] } : Slot α) = q
  have hq1 : q.shown = some v := by rw [← hq]
  have hq2 : q.running = [] := by rw [← hq]
  clear hq
  induction es with
  | nil => exact hq1
  | cons e es ih =>
    obtain ⟨n, ev⟩ := e
    have hce := hc (n, ev) (List.mem_cons_self ..)
    have : q.step true n ev = q := by
      cases ev with
      | tick w a => simp [Slot.step, Slot.due, hq1]
      | done i => simp [Slot.step, hq2]
      | cd => exact absurd rfl hce
    rw [Slot.run, this]
    exact ih fun e he => hc e (List.mem_cons_of_mem _ he)

/-- `cd` from a project with node 18 to one with node 20 while `node --version` runs. -/
example : (({} : Slot Nat).run true [(0, .tick true (some 18)), (0, .cd), (1, .done 0), (2, .tick true (some 20)), (3, .done 0)]).shown = some 18 := by decide

/-- **C142, the parts.** Different docker contexts are shown differently, `default` is not shown; different pairs of a kubernetes context without
blanks and its namespace are shown differently; the profile is the one in `AWS_PROFILE` if it is set. -/
theorem C142_parts_partial :
    (∀ a b : Str, dockerPart (some a) = dockerPart (some b) → a = b) ∧ dockerPart (some c!"default") = none ∧
    (∀ (a b : Str) (n m : Option Str), ' ' ∉ a → ' ' ∉ b → k8sPart (some (a, n)) = k8sPart (some (b, m)) → a = b ∧ n = m) ∧
    (∀ p q : Str, ∀ f, awsPart (awsTick none (some p) f) = awsPart (awsTick none (some q) f) → p = q) ∧
    (∀ p q : Str, awsPart (awsTick none none (some p)) = awsPart (awsTick none none (some q)) → p = q) := by
  refine ⟨?_, by decide, ?_, ?_, ?_⟩
  · intro a b h
    unfold dockerPart at h
    dsimp only at h
    split at h
    · rename_i ha
      split at h
      · rename_i hb
        rw [ha, hb]
      · cases h
    · split at h
      · cases h
      · exact List.append_cancel_left (Option.some.inj h)
  · intro a b n m ha hb h
    unfold k8sPart at h
    simp only [Option.map_some, Option.some.injEq, List.append_assoc] at h
    have h := List.append_cancel_left h
    have tw : ∀ (x : Str) (k : Option Str), ' ' ∉ x →
        (x ++ nsPart k).takeWhile (· != ' ') = x := by
      intro x k hx
      have hall : ∀ c ∈ x, (c != ' ') = true := by
        intro c hc
        simp only [bne_iff_ne, ne_eq]
        intro h; exact hx (h ▸ hc)
      rw [List.takeWhile_append_of_pos hall]
      cases k with
      | none => simp [nsPart]
      | some ns => simp [nsPart]
    have hab : a = b := by rw [← tw a n ha, h, tw b m hb]
    subst hab
    refine ⟨rfl, ?_⟩
    have h := List.append_cancel_left h
    cases n with
    | none =>
      cases m with
      | none => rfl
      | some y => simp [nsPart] at h
    | some x =>
      cases m with
      | none => simp [nsPart] at h
      | some y => simpa [nsPart] using h
  · intro p q f h
    exact List.append_cancel_left (Option.some.inj h)
  · intro p q h
    exact List.append_cancel_left (Option.some.inj h)

end Dsh.Prm
