import Verif.Chat.Talk
/-!
# A conversation with the AI service: C167, C168, C169
-/
namespace Dsh.Chat

/-! ## What was said, read off the record -/

/-- The messages of the conversation. -/
def msgs : List Ev → List Msg
  | [] => []
  | .heard m :: l => .said m :: msgs l
  | .told i t :: l => .result i t :: msgs l
  | _ :: l => msgs l

/-- The newest summary. -/
def latest : List Ev → Option Str
  | [] => none
  | .summarize _ _ n :: l => (latest l).or n
  | _ :: l => latest l

/-- Messages, calls and results, the texts of the results left out. -/
def acts : List Ev → List Ev
  | [] => []
  | .heard m :: l => .heard m :: acts l
  | .run c :: l => .run c :: acts l
  | .told i _ :: l => .told i [] :: acts l
  | _ :: l => acts l

/-- The messages of the service. -/
def heards : List Ev → List Said
  | [] => []
  | .heard m :: l => m :: heards l
  | _ :: l => heards l

theorem msgs_append (a b : List Ev) : msgs (a ++ b) = msgs a ++ msgs b := by
  induction a with
  | nil => rfl
  | cons e a ih => cases e <;> simp [msgs, ih]

theorem latest_append (a b : List Ev) : latest (a ++ b) = (latest b).or (latest a) := by
  induction a with
  | nil => simp [latest]
  | cons e a ih => cases e <;> simp [latest, ih, Option.or_assoc]

theorem acts_append (a b : List Ev) : acts (a ++ b) = acts a ++ acts b := by
  induction a with
  | nil => rfl
  | cons e a ih => cases e <;> simp [acts, ih]

theorem heards_append (a b : List Ev) : heards (a ++ b) = heards a ++ heards b := by
  induction a with
  | nil => rfl
  | cons e a ih => cases e <;> simp [heards, ih]

/-! ## Invariants of a conversation -/

theorem settle_inv {w : World} (P : State → Prop) (hp : ∀ s, P s → limit < s.chars → P (perform w s).1) :
    ∀ n s s', settle w n s = some s' → P s → P s' := by
  intro n
  induction n with
  | zero =>
    intro s s' h hs
    rw [settle] at h
    split at h
    · cases h
    · cases h; exact hs
  | succ n ih =>
    intro s s' h hs
    rw [settle] at h
    split at h
    · rename_i hl
      dsimp only at h
      split at h
      · exact ih _ _ h (hp s hs hl)
      · cases h; exact hp s hs hl
    · cases h; exact hs

/-- The request is noted. -/
def State.ask (s : State) (f : Bool) : State := { s with flag := f, log := s.log ++ [.ask (parts s)] }

/-- A message is heard and all its calls are run. -/
def State.hear (w : World) (s : State) (m : Said) : State :=
  (m.calls.getD []).foldl (runCall w) (s.add w (.said m) (.heard m))

theorem talk_inv {w : World} (P : State → Prop) (hp : ∀ s, P s → limit < s.chars → P (perform w s).1)
    (ha : ∀ s f, P s → P (s.ask f)) (hm : ∀ s m, P s → P (s.hear w m)) (fuel : Nat) :
    ∀ n s s' e, talk w fuel n s = some (s', e) → P s → P s' := by
  intro n
  induction n with
  | zero =>
    intro s s' e h hs
    rw [talk] at h
    cases h; exact hs
  | succ n ih =>
    intro s s' e h hs
    rw [talk] at h
    split at h
    · cases h
    · rename_i s1 h1
      have hs1 : P s1 := settle_inv P hp _ _ _ h1 hs
      dsimp only at h
      have h2 := fun f => ha s1 f hs1
      split at h
      · cases h; exact h2 _
      · split at h
        · cases h; exact h2 _
        · cases h; exact h2 _
        · rename_i m wants hr
          have h3 := fun f => hm _ m (h2 f)
          split at h
          · rename_i cs hc
            refine ih _ _ _ h ?_
            have := h3 (wait s1.flag (w.chat s1.asked).2).2
            unfold State.hear at this
            rw [hc] at this
            exact this
          · rename_i hc
            have h4 := h3 (wait s1.flag (w.chat s1.asked).2).2
            unfold State.hear at h4
            rw [hc] at h4
            split at h
            · exact ih _ _ _ h h4
            · split at h
              · cases h; exact h4
              · cases h; exact h4

theorem perform_log (w : World) (s : State) : (perform w s).1.log = s.log ++ [.summarize s.summary s.buffer (newSummary w s).1] := by
  unfold perform
  dsimp only
  split <;> rfl

/-! ## C167: the service knows what was asked -/

/-- A request made after `pre` is as it should be: the instructions, the state of the system, the question of
the user, then the newest summary if there is one, then the last messages; those left out are at least six
back, and were given to be summed up. -/
def Complete (pre : List Ev) (ps : List Part) : Prop :=
  ∃ dropped recent, msgs pre = dropped ++ recent ∧
    ps = [.system, .context, .user] ++ (latest pre).toList.map .summary ++ recent.map .kept ∧
    (dropped ≠ [] → (latest pre).isSome ∧ 6 ≤ recent.length) ∧
    ∀ m ∈ dropped, ∃ old ms new, .summarize old ms (some new) ∈ pre ∧ m ∈ ms

structure Inv (w : World) (s : State) : Prop where
  chars : s.chars = total w s.buffer
  summary : s.summary = latest s.log
  buffer : ∃ dropped, msgs s.log = dropped ++ s.buffer ∧ (dropped ≠ [] → (latest s.log).isSome ∧ 6 ≤ s.buffer.length) ∧
    ∀ m ∈ dropped, ∃ old ms new, .summarize old ms (some new) ∈ s.log ∧ m ∈ ms
  asks : ∀ pre ps post, s.log = pre ++ .ask ps :: post → Complete pre ps

theorem asks_snoc {log : List Ev} {e : Ev} (h : ∀ pre ps post, log = pre ++ .ask ps :: post → Complete pre ps)
    (he : ∀ ps, e = .ask ps → Complete log ps) : ∀ pre ps post, log ++ [e] = pre ++ .ask ps :: post → Complete pre ps := by
  intro pre ps post heq
  rcases List.eq_nil_or_concat post with rfl | ⟨post', x, rfl⟩
  · obtain ⟨h1, h2⟩ := List.append_inj' heq rfl
    subst h1
    exact he ps (List.cons.inj h2).1
  · have : log ++ [e] = (pre ++ .ask ps :: post') ++ [x] := by rw [heq]; simp
    obtain ⟨h1, -⟩ := List.append_inj' this rfl
    exact h pre ps post' h1

theorem Inv.add {w : World} {s : State} (h : Inv w s) {m : Msg} {e : Ev} (he : msgs [e] = [m]) (hl : latest [e] = none) (ha : ∀ ps, e ≠ .ask ps) :
    Inv w (s.add w m e) := by
  refine ⟨?_, ?_, ?_, asks_snoc h.asks (fun ps hp => absurd hp (ha ps))⟩
  · simp only [State.add, h.chars, total]
    simp
  · simp only [State.add, latest_append, hl, h.summary]
    rfl
  · obtain ⟨d, h1, h2, h3⟩ := h.buffer
    refine ⟨d, ?_, ?_, ?_⟩
    · simp only [State.add, msgs_append, h1, he, List.append_assoc]
    · intro hd
      simp only [State.add, latest_append, hl, Option.none_or, List.length_append]
      exact ⟨(h2 hd).1, by have := (h2 hd).2; omega⟩
    · intro x hx
      obtain ⟨o, ms, n, k1, k2⟩ := h3 x hx
      exact ⟨o, ms, n, List.mem_append_left _ k1, k2⟩

/-- Events that are none of the conversation. -/
theorem Inv.note {w : World} {s : State} (h : Inv w s) {e : Ev} (he : msgs [e] = []) (hl : latest [e] = none)
    (ha : ∀ ps, e = .ask ps → Complete s.log ps) (f : Bool) : Inv w { s with flag := f, log := s.log ++ [e] } := by
  refine ⟨h.chars, ?_, ?_, asks_snoc h.asks ha⟩
  · simp only [latest_append, hl, h.summary]; rfl
  · obtain ⟨d, h1, h2, h3⟩ := h.buffer
    refine ⟨d, ?_, ?_, ?_⟩
    · simp only [msgs_append, h1, he, List.append_nil]
    · intro hd
      simp only [latest_append, hl, Option.none_or]
      exact h2 hd
    · intro x hx
      obtain ⟨o, ms, n, k1, k2⟩ := h3 x hx
      exact ⟨o, ms, n, List.mem_append_left _ k1, k2⟩

theorem Inv.complete {w : World} {s : State} (h : Inv w s) : Complete s.log (parts s) := by
  obtain ⟨d, h1, h2, h3⟩ := h.buffer
  refine ⟨d, s.buffer, h1, ?_, h2, h3⟩
  unfold parts
  rw [h.summary]

theorem Inv.ask {w : World} {s : State} (h : Inv w s) (f : Bool) : Inv w (s.ask f) :=
  h.note rfl rfl (fun ps hp => by cases hp; exact h.complete) f

theorem Inv.runCall {w : World} {s : State} (h : Inv w s) (c : Call) : Inv w (runCall w s c) :=
  (h.note (e := .run c) rfl rfl nofun _).add rfl rfl nofun

theorem Inv.hear {w : World} {s : State} (h : Inv w s) (m : Said) : Inv w (s.hear w m) := by
  unfold State.hear
  generalize m.calls.getD [] = cs
  have := h.add (m := .said m) (e := .heard m) rfl rfl nofun
  generalize s.add w (.said m) (.heard m) = s1 at this
  induction cs generalizing s1 with
  | nil => exact this
  | cons c cs ih => exact ih _ (this.runCall c)

theorem Inv.perform {w : World} {s : State} (h : Inv w s) : Inv w (perform w s).1 := by
  unfold Chat.perform
  dsimp only
  split
  · rename_i hn
    rw [hn]
    exact h.note (e := .summarize s.summary s.buffer none) rfl rfl nofun _
  · rename_i t hn
    rw [hn]
    refine ⟨rfl, ?_, ?_, asks_snoc h.asks nofun⟩
    · simp only [latest_append, latest, Option.none_or, Option.some_or]
    · obtain ⟨d, h1, h2, h3⟩ := h.buffer
      refine ⟨d ++ s.buffer.take (s.buffer.length - 6), ?_, ?_, ?_⟩
      · simp only [msgs_append, h1, msgs, List.append_nil, List.append_assoc, lastSix, List.take_append_drop]
      · intro hd
        simp only [latest_append, latest, Option.none_or, Option.some_or, Option.isSome_some, true_and, lastSix, List.length_drop]
        by_cases hd' : d = []
        · subst hd'
          by_cases hb : s.buffer.length ≤ 6
          · exact absurd (by simp [Nat.sub_eq_zero_of_le hb]) hd
          · omega
        · have := (h2 hd').2; omega
      · intro x hx
        rcases List.mem_append.1 hx with hx | hx
        · obtain ⟨o, ms, n, k1, k2⟩ := h3 x hx
          exact ⟨o, ms, n, List.mem_append_left _ k1, k2⟩
        · exact ⟨s.summary, s.buffer, t, by simp, List.mem_of_mem_take hx⟩

theorem inv_start (w : World) (f : Bool) : Inv w (start f) :=
  ⟨rfl, rfl, ⟨[], rfl, by simp, by simp⟩, fun pre ps post h => by simp [start] at h⟩

/-- **C167, every request.** Whatever the service, the tools and the user do, every request of a conversation
has the user's question, all that was said since the newest summary and at least the last six messages, and
what is left out was given to be summed up. -/
theorem C167_request_partial (w : World) (fuel : Nat) (f : Bool) (s : State) (e : End) (h : converse w fuel f = some (s, e))
    (pre post : List Ev) (ps : List Part) (hl : s.log = pre ++ .ask ps :: post) : Complete pre ps :=
  (talk_inv (Inv w) (fun _ h _ => h.perform) (fun _ f h => h.ask f) (fun _ m h => h.hear m) fuel 100 _ _ _ h (inv_start w f)).asks pre ps post hl

/-- What the messages of the service ask for: each call in its turn, and its result under its name. -/
def wanted (ms : List Said) : List Ev :=
  ms.flatMap (fun m => .heard m :: (m.calls.getD []).flatMap (fun c => [.run c, .told c.id []]))

theorem runs_acts (w : World) (cs : List Call) (s : State) :
    acts (cs.foldl (runCall w) s).log = acts s.log ++ cs.flatMap (fun c => [.run c, .told c.id []]) ∧
      heards (cs.foldl (runCall w) s).log = heards s.log := by
  induction cs generalizing s with
  | nil => simp
  | cons c cs ih =>
    obtain ⟨h1, h2⟩ := ih (runCall w s c)
    rw [List.foldl_cons, h1, h2]
    simp [runCall, State.add, acts_append, acts, heards_append, heards]

/-- **C167, calls.** Every call the service asks for is run, once, in order, and no other; each result is
given back before the next call, under the name of its call. -/
theorem C167_calls_partial (w : World) (fuel : Nat) (f : Bool) (s : State) (e : End) (h : converse w fuel f = some (s, e)) :
    acts s.log = wanted (heards s.log) := by
  refine talk_inv (fun s => acts s.log = wanted (heards s.log)) ?_ ?_ ?_ fuel 100 _ _ _ h rfl
  · intro s hs _
    rw [perform_log, acts_append, heards_append]
    simpa [acts, heards] using hs
  · intro s f hs
    show acts (s.log ++ _) = wanted (heards (s.log ++ _))
    rw [acts_append, heards_append]
    simpa [acts, heards] using hs
  · intro s m hs
    obtain ⟨h1, h2⟩ := runs_acts w (m.calls.getD []) (s.add w (.said m) (.heard m))
    unfold State.hear
    rw [h1, h2]
    simp only [State.add, acts_append, heards_append, acts, heards, hs]
    simp [wanted]

/-- A result is what the tool gave, or has its error in it. -/
def Honest (w : World) (log : List Ev) : Prop :=
  ∀ pre c i t post, log = pre ++ .run c :: .told i t :: post →
    i = c.id ∧ (∀ r, (w.tool (pre.filter Ev.isRun).length c).1 = .ok r → t = r) ∧
      ∀ e, (w.tool (pre.filter Ev.isRun).length c).1 = .error e → e.IsInfix t

theorem Honest.snoc {w : World} {log : List Ev} (h : Honest w log) {e : Ev} (he : ∀ i t, e ≠ .told i t) : Honest w (log ++ [e]) := by
  intro pre c i t post heq
  rcases List.eq_nil_or_concat post with rfl | ⟨post', x, rfl⟩
  · have : log ++ [e] = (pre ++ [.run c]) ++ [.told i t] := by rw [heq]; simp
    obtain ⟨-, h2⟩ := List.append_inj' this rfl
    exact absurd (List.cons.inj h2).1 (he i t)
  · have : log ++ [e] = (pre ++ .run c :: .told i t :: post') ++ [x] := by rw [heq]; simp
    exact h pre c i t post' (List.append_inj' this rfl).1

theorem Honest.runCall {w : World} {s : State} (h : Honest w s.log) (c : Call) : Honest w (runCall w s c).log := by
  intro pre c' i t post heq
  have hlog : (Chat.runCall w s c).log = (s.log ++ [.run c]) ++ [.told c.id (resultText (w.tool s.ran c).1)] := rfl
  rw [hlog] at heq
  rcases List.eq_nil_or_concat post with rfl | ⟨post', x, rfl⟩
  · have : (s.log ++ [.run c]) ++ [.told c.id (resultText (w.tool s.ran c).1)] = (pre ++ [.run c']) ++ [.told i t] := by rw [heq]; simp
    obtain ⟨h1, h2⟩ := List.append_inj' this rfl
    obtain ⟨h3, h4⟩ := List.append_inj' h1 rfl
    cases h4
    cases h2
    subst h3
    refine ⟨rfl, fun r hr => ?_, fun e he => ?_⟩
    · change (w.tool s.ran c).1 = _ at hr; rw [hr]; rfl
    · change (w.tool s.ran c).1 = _ at he
      rw [he]
      exact ⟨c!"Error: ", c!"\nPlease analyze the error and retry with corrected arguments.", rfl⟩
  · have : (s.log ++ [.run c]) ++ [.told c.id (resultText (w.tool s.ran c).1)] = (pre ++ .run c' :: .told i t :: post') ++ [x] := by rw [heq]; simp
    exact (h.snoc (e := .run c) nofun) pre c' i t post' (List.append_inj' this rfl).1

/-- **C167, results.** What the service is told is what the tool gave; an error is told as such. -/
theorem C167_results_partial (w : World) (fuel : Nat) (f : Bool) (s : State) (e : End) (h : converse w fuel f = some (s, e)) : Honest w s.log := by
  refine talk_inv (fun s => Honest w s.log) ?_ ?_ ?_ fuel 100 _ _ _ h ?_
  · intro s hs _
    rw [perform_log]
    exact hs.snoc nofun
  · intro s f hs
    exact hs.snoc nofun
  · intro s m hs
    unfold State.hear
    generalize m.calls.getD [] = cs
    have : Honest w (s.add w (.said m) (.heard m)).log := hs.snoc nofun
    generalize s.add w (.said m) (.heard m) = s1 at this
    induction cs generalizing s1 with
    | nil => exact this
    | cons c cs ih => exact ih _ (this.runCall c)
  · intro pre c i t post heq
    simp [start] at heq

/-- Every summary was asked for with the one before it and with messages up to the last; one that is kept has a
text. -/
def Chained (log : List Ev) : Prop :=
  ∀ pre old ms new post, log = pre ++ .summarize old ms new :: post →
    old = latest pre ∧ (∃ earlier, msgs pre = earlier ++ ms) ∧ ∀ t, new = some t → trim t ≠ []

theorem Chained.snoc {log : List Ev} (h : Chained log) {e : Ev}
    (he : ∀ old ms new, e = .summarize old ms new → old = latest log ∧ (∃ earlier, msgs log = earlier ++ ms) ∧ ∀ t, new = some t → trim t ≠ []) :
    Chained (log ++ [e]) := by
  intro pre old ms new post heq
  rcases List.eq_nil_or_concat post with rfl | ⟨post', x, rfl⟩
  · obtain ⟨h1, h2⟩ := List.append_inj' heq rfl
    subst h1
    exact he _ _ _ (List.cons.inj h2).1
  · have : log ++ [e] = (pre ++ .summarize old ms new :: post') ++ [x] := by rw [heq]; simp
    exact h pre old ms new post' (List.append_inj' this rfl).1

/-- **C167, summaries.** No summary forgets the one before it: what was summed up once is passed on. -/
theorem C167_chain_partial (w : World) (fuel : Nat) (f : Bool) (s : State) (e : End) (h : converse w fuel f = some (s, e)) : Chained s.log := by
  refine (talk_inv (fun s => Inv w s ∧ Chained s.log) ?_ ?_ ?_ fuel 100 _ _ _ h ⟨inv_start w f, ?_⟩).2
  · intro s hs _
    refine ⟨hs.1.perform, ?_⟩
    rw [perform_log]
    refine hs.2.snoc ?_
    intro old ms new heq
    injection heq with h1 h2 h3
    subst h1 h2
    obtain ⟨d, hd, -⟩ := hs.1.buffer
    refine ⟨hs.1.summary, ⟨d, hd⟩, ?_⟩
    intro t ht
    rw [← h3] at ht
    unfold newSummary at ht
    dsimp only at ht
    split at ht
    · cases ht
    · have := (Option.filter_eq_some_iff.1 ht).2
      intro hb
      simp [blank, hb] at this
  · intro s f hs
    exact ⟨hs.1.ask f, hs.2.snoc nofun⟩
  · intro s m hs
    refine ⟨hs.1.hear m, ?_⟩
    unfold State.hear
    generalize m.calls.getD [] = cs
    have : Chained (s.add w (.said m) (.heard m)).log := hs.2.snoc nofun
    generalize s.add w (.said m) (.heard m) = s1 at this
    induction cs generalizing s1 with
    | nil => exact this
    | cons c cs ih => exact ih _ ((this.snoc (e := .run c) nofun).snoc (e := .told c.id (resultText (w.tool s1.ran c).1)) nofun)
  · intro pre old ms new post heq
    simp [start] at heq

theorem asked_snoc (s : State) (f : Bool) (e : Ev) : ({ s with flag := f, log := s.log ++ [e] } : State).asked = s.asked + if e.isAsk then 1 else 0 := by
  unfold State.asked
  rw [List.filter_append, List.length_append]
  cases he : e.isAsk <;> simp [he]

theorem runs_asked (w : World) (cs : List Call) (s : State) : (cs.foldl (runCall w) s).asked = s.asked := by
  induction cs generalizing s with
  | nil => rfl
  | cons c cs ih =>
    rw [List.foldl_cons, ih]
    simp [runCall, State.add, State.asked, List.filter_append, Ev.isAsk]

theorem hear_asked (w : World) (s : State) (m : Said) : (s.hear w m).asked = s.asked := by
  unfold State.hear
  rw [runs_asked]
  simp [State.add, State.asked, List.filter_append, Ev.isAsk]

theorem perform_asked (w : World) (s : State) : (perform w s).1.asked = s.asked := by
  unfold State.asked
  rw [perform_log, List.filter_append]
  simp [Ev.isAsk]

theorem settle_asked {w : World} {n : Nat} {s s' : State} (h : settle w n s = some s') : s'.asked = s.asked :=
  settle_inv (fun x => x.asked = s.asked) (fun x hx _ => by rw [perform_asked, hx]) n s s' h rfl

/-- The state after a message with its calls, as the loop computes it. -/
theorem hear_calls (w : World) (s : State) (m : Said) {cs : List Call} (h : m.calls = some cs) :
    cs.foldl (runCall w) (s.add w (.said m) (.heard m)) = s.hear w m := by
  unfold State.hear; rw [h]; rfl

theorem hear_none (w : World) (s : State) (m : Said) (h : m.calls = none) : s.add w (.said m) (.heard m) = s.hear w m := by
  unfold State.hear; rw [h]; rfl

/-- One round, in the terms used here. -/
theorem talk_succ (w : World) (fuel n : Nat) (s : State) : talk w fuel (n + 1) s =
    match settle w fuel s with
    | none => none
    | some s1 =>
      if s1.flag ∨ (w.chat s1.asked).2 = .seen then some (s1.ask false, .cancelled)
      else match (w.chat s1.asked).1 with
        | .fail e => some (s1.ask (decide ((w.chat s1.asked).2 = .late)), .error e)
        | .bad => some (s1.ask (decide ((w.chat s1.asked).2 = .late)), .bad)
        | .message m wants =>
          if m.calls.isSome ∨ wants then talk w fuel n ((s1.ask (decide ((w.chat s1.asked).2 = .late))).hear w m)
          else if blank m.text then some ((s1.ask (decide ((w.chat s1.asked).2 = .late))).hear w m, .bad)
          else some ((s1.ask (decide ((w.chat s1.asked).2 = .late))).hear w m, .answer m.text) := by
  rw [talk]
  cases settle w fuel s with
  | none => rfl
  | some s1 =>
    dsimp only
    by_cases hc : s1.flag ∨ (w.chat s1.asked).2 = .seen
    · have : wait s1.flag (w.chat s1.asked).2 = (true, false) := by
        unfold wait; rw [if_pos (by simpa using hc)]
      rw [this, if_pos rfl, if_pos hc]
      rfl
    · have : wait s1.flag (w.chat s1.asked).2 = (false, decide ((w.chat s1.asked).2 = .late)) := by
        unfold wait; rw [if_neg (by simpa using hc)]
      rw [this, if_neg (by simp), if_neg hc]
      cases (w.chat s1.asked).1 with
      | fail e => rfl
      | bad => rfl
      | message m wants =>
        dsimp only
        cases hm : m.calls with
        | some cs =>
          dsimp only
          rw [if_pos (by simp)]
          exact congrArg _ (hear_calls w (s1.ask _) m hm)
        | none =>
          dsimp only
          have e := hear_none w (s1.ask (decide ((w.chat s1.asked).2 = .late))) m hm
          by_cases hw : wants = true
          · rw [if_pos hw, if_pos (.inr hw)]
            exact congrArg _ e
          · have hn : ¬ ((none : Option (List Call)).isSome = true ∨ wants = true) := by simp [hw]
            rw [if_neg hw, if_neg hn]
            split
            · exact congrArg (fun x => some (x, End.bad)) e
            · exact congrArg (fun x => some (x, End.answer m.text)) e

/-- **C167, no endless asking.** A conversation makes at most a hundred requests. -/
theorem C167_hundred_partial (w : World) (fuel : Nat) (f : Bool) (s : State) (e : End) (h : converse w fuel f = some (s, e)) : s.asked ≤ 100 := by
  have key : ∀ n s s' e, talk w fuel n s = some (s', e) → s'.asked ≤ s.asked + n := by
    intro n
    induction n with
    | zero => intro s s' e h; rw [talk] at h; cases h; exact Nat.le_refl _
    | succ n ih =>
      intro s s' e h
      rw [talk_succ] at h
      split at h
      · cases h
      · rename_i s1 h1
        have hs := settle_asked h1
        have ha : ∀ f, (s1.ask f).asked = s1.asked + 1 := fun f => asked_snoc s1 f (.ask (parts s1))
        split at h
        · cases h; rw [ha]; omega
        · split at h
          · cases h; rw [ha]; omega
          · cases h; rw [ha]; omega
          · split at h
            · have := ih _ _ _ h
              rw [hear_asked, ha] at this
              omega
            · split at h
              · cases h; rw [hear_asked, ha]; omega
              · cases h; rw [hear_asked, ha]; omega
  have := key _ _ _ _ h
  simpa [start, State.asked] using this

/-- **C167, it ends.** If no six messages together are longer than 96000 characters, the conversation ends,
with at most one summary before each request. -/
theorem C167_ends_partial (w : World) (f : Bool) (hs : ∀ m, 6 * w.size m ≤ 96000) (fuel : Nat) : (converse w (fuel + 1) f).isSome := by
  have h6 : ∀ ms : List Msg, 6 * total w ms ≤ ms.length * 96000 := by
    intro ms
    induction ms with
    | nil => simp [total]
    | cons m ms ih =>
      have := hs m
      simp only [total, List.map_cons, List.sum_cons, List.length_cons] at ih ⊢
      omega
  have hset : ∀ s, ∃ s', settle w (fuel + 1) s = some s' := by
    intro s
    rw [settle]
    split
    · dsimp only
      split
      · rename_i hok
        have hc : ¬ limit < (perform w s).1.chars := by
          have : (perform w s).1.chars = total w (lastSix s.buffer) := by
            unfold perform at hok ⊢
            dsimp only at hok ⊢
            split at hok
            · cases hok
            · rename_i t ht; rw [ht]
          rw [this]
          have h1 := h6 (lastSix s.buffer)
          have h2 : (lastSix s.buffer).length ≤ 6 := by unfold lastSix; rw [List.length_drop]; omega
          unfold limit
          omega
        cases fuel with
        | zero => rw [settle, if_neg hc]; exact ⟨_, rfl⟩
        | succ n => rw [settle, if_neg hc]; exact ⟨_, rfl⟩
      · exact ⟨_, rfl⟩
    · exact ⟨_, rfl⟩
  have key : ∀ n s, (talk w (fuel + 1) n s).isSome := by
    intro n
    induction n with
    | zero => intro s; rfl
    | succ n ih =>
      intro s
      rw [talk_succ]
      obtain ⟨s', h'⟩ := hset s
      rw [h']
      dsimp only
      split
      · rfl
      · split
        · rfl
        · rfl
        · split
          · exact ih _
          · split <;> rfl
  exact key _ _

theorem hear_flag (w : World) (s : State) (m : Said) (h : ∀ k c, (w.tool k c).2 = .none) : (s.hear w m).flag = s.flag := by
  unfold State.hear
  generalize m.calls.getD [] = cs
  have : (s.add w (.said m) (.heard m)).flag = s.flag := rfl
  rw [← this]
  generalize s.add w (.said m) (.heard m) = s1
  clear this
  induction cs generalizing s1 with
  | nil => rfl
  | cons c cs ih =>
    rw [List.foldl_cons, ih]
    simp [runCall, State.add, h]

theorem hear_summed (w : World) (s : State) (m : Said) : (s.hear w m).summed = s.summed := by
  unfold State.hear
  generalize m.calls.getD [] = cs
  have : (s.add w (.said m) (.heard m)).summed = s.summed := by simp [State.summed, State.add, List.filter_append, Ev.isSummarize]
  rw [← this]
  generalize s.add w (.said m) (.heard m) = s1
  clear this
  induction cs generalizing s1 with
  | nil => rfl
  | cons c cs ih =>
    rw [List.foldl_cons, ih]
    simp [runCall, State.add, State.summed, List.filter_append, Ev.isSummarize]

/-- **C167 fails: a long message.** If the last messages together are longer than 96000 characters — a file
the service wants written is enough — and the service always gives a summary, the shell asks for summary
after summary and never goes on: the number of rounds is not limited. -/
theorem C167_forever_violated (w : World) (m : Said) (hc : m.calls.isSome) (h0 : w.chat 0 = (.message m false, .none))
    (ht : ∀ k c, (w.tool k c).2 = .none) (hbig : 96000 < w.size (.said m)) (hfew : (m.calls.getD []).length ≤ 5)
    (hsum : ∀ k, ∃ t, w.sum k = (some t, .none) ∧ blank t = false) (fuel : Nat) : converse w fuel false = none := by
  have hset0 : settle w fuel (start false) = some (start false) := by cases fuel <;> rfl
  unfold converse
  rw [talk_succ, hset0]
  dsimp only
  have ha : (start false).asked = 0 := rfl
  rw [ha, h0]
  have hf : (start false).flag = false := rfl
  rw [hf, if_neg (by simp)]
  dsimp only
  rw [if_pos (.inl hc)]
  have hd : decide (Press.none = Press.late) = false := rfl
  rw [hd]
  generalize hs1 : ((start false).ask false).hear w m = s1
  have hinv : Inv w s1 := hs1 ▸ ((inv_start w false).ask false).hear m
  have hflag : s1.flag = false := by rw [← hs1, hear_flag w _ m ht]; rfl
  have hbuf : ∃ rs : List Msg, s1.buffer = .said m :: rs ∧ rs.length ≤ 5 := by
    rw [← hs1]
    unfold State.hear
    have key : ∀ (cs : List Call) (s : State), ∃ rs : List Msg, (cs.foldl (runCall w) s).buffer = s.buffer ++ rs ∧ rs.length = cs.length := by
      intro cs
      induction cs with
      | nil => intro s; exact ⟨[], by simp, rfl⟩
      | cons c cs ih =>
        intro s
        obtain ⟨rs, h1, h2⟩ := ih (runCall w s c)
        refine ⟨.result c.id (resultText (w.tool s.ran c).1) :: rs, ?_, by simp [h2]⟩
        rw [List.foldl_cons, h1]
        simp [runCall, State.add]
    obtain ⟨rs, h1, h2⟩ := key (m.calls.getD []) (((start false).ask false).add w (.said m) (.heard m))
    exact ⟨rs, by rw [h1]; rfl, by omega⟩
  have hover : ∀ n s, s.flag = false → limit < s.chars → lastSix s.buffer = s.buffer → s.chars = total w s.buffer → settle w n s = none := by
    intro n
    induction n with
    | zero => intro s _ h _ _; rw [settle, if_pos h]
    | succ n ih =>
      intro s hf h hl hch
      rw [settle, if_pos h]
      dsimp only
      obtain ⟨t, k1, k2⟩ := hsum s.summed
      have hn : newSummary w s = (some t, false) := by
        unfold newSummary
        rw [k1]
        simp [wait, hf, k2]
      have hp : perform w s = ({ s with flag := false, log := s.log ++ [.summarize s.summary s.buffer (some t)], summary := some t, buffer := lastSix s.buffer, chars := total w (lastSix s.buffer) }, true) := by
        unfold perform
        rw [hn]
      rw [hp, if_pos rfl]
      refine ih _ rfl ?_ ?_ rfl
      · show limit < total w (lastSix s.buffer)
        rw [hl, ← hch]; exact h
      · show lastSix (lastSix s.buffer) = lastSix s.buffer
        rw [hl, hl]
  obtain ⟨rs, hb, hr⟩ := hbuf
  rw [talk_succ]
  rw [hover fuel s1 hflag ?_ ?_ hinv.chars]
  · rw [hinv.chars, hb]
    simp only [total, List.map_cons, List.sum_cons]
    unfold limit
    omega
  · unfold lastSix
    rw [hb]
    have : (Msg.said m :: rs).length - 6 = 0 := by simp only [List.length_cons]; omega
    rw [this]
    rfl

theorem talk_log (w : World) (fuel n : Nat) (s s' : State) (e : End) (h : talk w fuel n s = some (s', e)) : s.log <+: s'.log := by
  refine talk_inv (fun x => s.log <+: x.log) ?_ ?_ ?_ fuel n s s' e h List.prefix_rfl
  · intro x hx _
    rw [perform_log]
    exact hx.trans (List.prefix_append _ _)
  · intro x f hx
    exact hx.trans (List.prefix_append _ _)
  · intro x m hx
    unfold State.hear
    generalize m.calls.getD [] = cs
    have : s.log <+: (x.add w (.said m) (.heard m)).log := hx.trans (List.prefix_append _ _)
    generalize x.add w (.said m) (.heard m) = s1 at this
    induction cs generalizing s1 with
    | nil => exact this
    | cons c cs ih => exact ih _ (this.trans ((List.prefix_append _ _).trans (List.prefix_append _ _)))

theorem hear_log (w : World) (x : State) (m : Said) : x.log <+: (x.hear w m).log := by
  unfold State.hear
  generalize m.calls.getD [] = cs
  have : x.log <+: (x.add w (.said m) (.heard m)).log := List.prefix_append _ _
  generalize x.add w (.said m) (.heard m) = s1 at this
  induction cs generalizing s1 with
  | nil => exact this
  | cons c cs ih => exact ih _ (this.trans ((List.prefix_append _ _).trans (List.prefix_append _ _)))

/-- The request of a round is in the record of the conversation. -/
theorem talk_asks {w : World} {fuel n : Nat} {s s1 s' : State} {e : End} (h : talk w fuel (n + 1) s = some (s', e))
    (hs : settle w fuel s = some s1) : s1.log ++ [.ask (parts s1)] <+: s'.log := by
  rw [talk_succ, hs] at h
  dsimp only at h
  have hh : ∀ f m, s1.log ++ [.ask (parts s1)] <+: ((s1.ask f).hear w m).log := fun f m => hear_log w (s1.ask f) m
  split at h
  · cases h; exact List.prefix_rfl
  · split at h
    · cases h; exact List.prefix_rfl
    · cases h; exact List.prefix_rfl
    · split at h
      · exact (hh _ _).trans (talk_log _ _ _ _ _ _ h)
      · split at h
        · cases h; exact hh _ _
        · cases h; exact hh _ _

theorem hear_buffer (w : World) (s : State) (m : Said) : ∃ rs : List Msg, (s.hear w m).buffer = s.buffer ++ .said m :: rs ∧
    rs.length = (m.calls.getD []).length ∧ ∀ x ∈ rs, ∃ i t, x = .result i t := by
  unfold State.hear
  generalize m.calls.getD [] = cs
  have key : ∀ (cs : List Call) (s : State), ∃ rs : List Msg, (cs.foldl (runCall w) s).buffer = s.buffer ++ rs ∧ rs.length = cs.length ∧
      ∀ x ∈ rs, ∃ i t, x = .result i t := by
    intro cs
    induction cs with
    | nil => intro s; exact ⟨[], by simp, rfl, nofun⟩
    | cons c cs ih =>
      intro s
      obtain ⟨rs, h1, h2, h3⟩ := ih (runCall w s c)
      refine ⟨.result c.id (resultText (w.tool s.ran c).1) :: rs, ?_, by simp [h2], ?_⟩
      · rw [List.foldl_cons, h1]
        simp [runCall, State.add]
      · intro x hx
        rcases List.mem_cons.1 hx with rfl | hx
        · exact ⟨_, _, rfl⟩
        · exact h3 x hx
  obtain ⟨rs, h1, h2, h3⟩ := key cs (s.add w (.said m) (.heard m))
  exact ⟨rs, by rw [h1]; simp [State.add], h2, h3⟩

/-- **C167 fails: results without their question.** If a message asks for six or more calls and is too long
to be kept, the next request has the results of the last six calls and not the message that asked for them:
services refuse such a request. -/
theorem C167_orphan_violated (w : World) (m : Said) (t : Str) (h0 : w.chat 0 = (.message m false, .none)) (hc : 6 ≤ (m.calls.getD []).length)
    (ht : ∀ k c, (w.tool k c).2 = .none) (hbig : 96000 < w.size (.said m)) (hsmall : ∀ i t, 6 * w.size (.result i t) ≤ 96000)
    (hsum : w.sum 0 = (some t, .none)) (hb : blank t = false) (fuel : Nat) (s : State) (e : End) (h : converse w (fuel + 1) false = some (s, e)) :
    ∃ (pre post : List Ev) (rs : List Msg), s.log = pre ++ .ask ([.system, .context, .user, .summary t] ++ rs.map .kept) :: post ∧ rs.length = 6 ∧
      ∀ x ∈ rs, ∃ i r, x = .result i r := by
  have hset0 : settle w (fuel + 1) (start false) = some (start false) := rfl
  unfold converse at h
  rw [talk_succ, hset0] at h
  dsimp only at h
  have ha : (start false).asked = 0 := rfl
  have hf : (start false).flag = false := rfl
  have hsome : m.calls.isSome := by cases hm : m.calls with
    | none => rw [hm] at hc; exact absurd hc (by simp)
    | some _ => rfl
  rw [ha, h0, hf, if_neg (by simp)] at h
  dsimp only at h
  rw [if_pos (.inl hsome), show decide (Press.none = Press.late) = false from rfl] at h
  obtain ⟨rs, hbuf, hlen, hres⟩ := hear_buffer w ((start false).ask false) m
  have hinv : Inv w (((start false).ask false).hear w m) := ((inv_start w false).ask false).hear m
  have hflag : (((start false).ask false).hear w m).flag = false := by rw [hear_flag w _ m ht]; rfl
  have hsd : (((start false).ask false).hear w m).summed = 0 := by rw [hear_summed]; rfl
  generalize ((start false).ask false).hear w m = s1 at h hbuf hinv hflag hsd
  have hb1 : s1.buffer = .said m :: rs := by rw [hbuf]; rfl
  have hover : limit < s1.chars := by
    rw [hinv.chars, hb1]
    simp only [total, List.map_cons, List.sum_cons]
    unfold limit
    omega
  have hn : newSummary w s1 = (some t, false) := by
    unfold newSummary
    rw [hsd, hsum]
    simp [wait, hflag, hb]
  have hl6 : lastSix s1.buffer = rs.drop (rs.length - 6) := by
    unfold lastSix
    rw [hb1]
    have : (Msg.said m :: rs).length - 6 = (rs.length - 6) + 1 := by simp only [List.length_cons]; omega
    rw [this, List.drop_succ_cons]
  have hp : perform w s1 = ({ s1 with flag := false, log := s1.log ++ [.summarize s1.summary s1.buffer (some t)], summary := some t, buffer := rs.drop (rs.length - 6), chars := total w (rs.drop (rs.length - 6)) }, true) := by
    unfold perform
    rw [hn, hl6]
  have hsix : (rs.drop (rs.length - 6)).length = 6 := by rw [List.length_drop]; omega
  have hres6 : ∀ x ∈ rs.drop (rs.length - 6), ∃ i r, x = Msg.result i r := fun x hx => hres x (List.mem_of_mem_drop hx)
  have hfit : ¬ limit < total w (rs.drop (rs.length - 6)) := by
    have key : ∀ ms : List Msg, (∀ x ∈ ms, ∃ i r, x = Msg.result i r) → 6 * total w ms ≤ ms.length * 96000 := by
      intro ms
      induction ms with
      | nil => intro _; simp [total]
      | cons a ms ih =>
        intro hh
        obtain ⟨i, r, rfl⟩ := hh a List.mem_cons_self
        have h1 := hsmall i r
        have h2 := ih (fun x hx => hh x (List.mem_cons_of_mem _ hx))
        simp only [total, List.map_cons, List.sum_cons, List.length_cons] at h2 ⊢
        omega
    have := key _ hres6
    rw [hsix] at this
    unfold limit
    omega
  have hset : settle w (fuel + 1) s1 = some (perform w s1).1 := by
    rw [settle, if_pos hover]
    dsimp only
    rw [hp, if_pos rfl]
    cases fuel with
    | zero => rw [settle, if_neg hfit]
    | succ n => rw [settle, if_neg hfit]
  have hend := talk_asks h hset
  rw [hp] at hend
  obtain ⟨post, hpost⟩ := hend
  refine ⟨s1.log ++ [.summarize s1.summary s1.buffer (some t)], post, rs.drop (rs.length - 6), ?_, hsix, hres6⟩
  rw [← hpost]
  simp [parts]

/-! ## C168: Ctrl-C -/

/-- **C168, Ctrl-C while the service is waited for.** The conversation ends with that request; nothing is
run after it. -/
theorem C168_press_partial (w : World) (fuel : Nat) (f : Bool) (s : State) (e : End) (h : converse w fuel f = some (s, e))
    (k : Nat) (hk : k < s.asked) (hp : (w.chat k).2 = .seen) : k + 1 = s.asked ∧ e = .cancelled ∧ ∃ ps, s.log.getLast? = some (.ask ps) := by
  have key : ∀ n s s' e, talk w fuel n s = some (s', e) → s.asked ≤ k → k < s'.asked →
      k + 1 = s'.asked ∧ e = .cancelled ∧ ∃ ps, s'.log.getLast? = some (.ask ps) := by
    intro n
    induction n with
    | zero => intro s s' e h h1 h2; rw [talk] at h; cases h; omega
    | succ n ih =>
      intro s s' e h h1 h2
      rw [talk_succ] at h
      split at h
      · cases h
      · rename_i s1 hs1
        have hs := settle_asked hs1
        have ha : ∀ f, (s1.ask f).asked = s1.asked + 1 := fun f => asked_snoc s1 f (.ask (parts s1))
        split at h
        · cases h
          rw [ha] at h2 ⊢
          exact ⟨by omega, rfl, parts s1, by simp [State.ask]⟩
        · rename_i hc
          have hne : s1.asked ≠ k := fun he => hc (.inr (by rw [he, hp]))
          split at h
          · cases h; rw [ha] at h2; omega
          · cases h; rw [ha] at h2; omega
          · split at h
            · exact ih _ _ _ h (by rw [hear_asked, ha]; omega) h2
            · split at h
              · cases h; rw [hear_asked, ha] at h2; omega
              · cases h; rw [hear_asked, ha] at h2; omega
  exact key _ _ _ _ h (Nat.zero_le _) hk

theorem runCall_ran (w : World) (s : State) (c : Call) : (runCall w s c).ran = s.ran + 1 := by
  simp only [runCall, State.add, State.ran, List.filter_append, List.length_append]
  rfl

theorem runs_press (w : World) (cs : List Call) (s : State)
    (h : s.flag = true ∨ ∃ i c, cs[i]? = some c ∧ (w.tool (s.ran + i) c).2 ≠ .none) : (cs.foldl (runCall w) s).flag = true := by
  induction cs generalizing s with
  | nil => rcases h with h | ⟨i, c, h, -⟩
           · exact h
           · simp at h
  | cons d cs ih =>
    rw [List.foldl_cons]
    apply ih
    rcases h with h | ⟨i, c, hi, hp⟩
    · exact .inl (by simp [runCall, State.add, h])
    · cases i with
      | zero =>
        simp only [List.getElem?_cons_zero, Option.some.injEq] at hi
        subst hi
        exact .inl (by simpa [runCall, State.add] using .inr hp)
      | succ i =>
        refine .inr ⟨i, c, by simpa using hi, ?_⟩
        rw [runCall_ran, show s.ran + 1 + i = s.ran + (i + 1) by omega]
        exact hp

/-- **C168, Ctrl-C while a tool runs.** If no summary comes between, the next request is the last thing done:
the conversation ends without an answer to it. -/
theorem C168_tool_partial (w : World) (fuel n : Nat) (s : State) (m : Said) (i : Nat) (c : Call) (hi : (m.calls.getD [])[i]? = some c)
    (hp : (w.tool (s.ran + i) c).2 ≠ .none) (hl : (s.hear w m).chars ≤ 96000) :
    talk w fuel (n + 1) (s.hear w m) = some ((s.hear w m).ask false, .cancelled) := by
  have hf : (s.hear w m).flag = true := by
    unfold State.hear
    apply runs_press
    refine .inr ⟨i, c, hi, ?_⟩
    have : (s.add w (.said m) (.heard m)).ran = s.ran := by simp [State.add, State.ran, List.filter_append, Ev.isRun]
    rw [this]
    exact hp
  generalize s.hear w m = s1 at hl hf
  have hset : settle w fuel s1 = some s1 := by
    cases fuel <;> rw [settle, if_neg (by simp only [limit]; omega)]
  rw [talk_succ, hset]
  dsimp only
  rw [if_pos (.inl hf)]

/-- **C168 fails: Ctrl-C while a summary is waited for** ends the summary alone. The conversation goes on: the
request is made with all that was to be summed up, and what the service then asks for is run. -/
theorem C168_summary_violated (w : World) (fuel n : Nat) (s : State) (hover : 96000 < s.chars)
    (hp : (w.sum s.summed).2 = .seen) (m : Said) (hm : w.chat s.asked = (.message m false, .none)) (hc : m.calls.isSome)
    (s' : State) (e : End) (h : talk w (fuel + 1) (n + 1) s = some (s', e)) :
    s.log ++ [.summarize s.summary s.buffer none, .ask (parts s), .heard m] <+: s'.log ∧ ∀ c ∈ m.calls.getD [], .run c ∈ s'.log := by
  have hn : newSummary w s = (none, false) := by
    unfold newSummary
    dsimp only
    rw [hp]
    simp [wait]
  have hpf : perform w s = ({ s with flag := false, log := s.log ++ [.summarize s.summary s.buffer none] }, false) := by
    unfold perform
    rw [hn]
  have hset : settle w (fuel + 1) s = some { s with flag := false, log := s.log ++ [.summarize s.summary s.buffer none] } := by
    rw [settle, if_pos (show limit < s.chars from hover)]
    dsimp only
    rw [hpf, if_neg (by simp)]
  have hasked : ({ s with flag := false, log := s.log ++ [.summarize s.summary s.buffer none] } : State).asked = s.asked :=
    asked_snoc s false (.summarize s.summary s.buffer none)
  rw [talk_succ, hset] at h
  dsimp only at h
  rw [hasked, hm, if_neg (by simp)] at h
  dsimp only at h
  rw [if_pos (.inl hc)] at h
  have h1 := talk_log _ _ _ _ _ _ h
  have h2 : ∀ (cs : List Call) (x : State), x.log <+: (cs.foldl (runCall w) x).log ∧ ∀ c ∈ cs, .run c ∈ (cs.foldl (runCall w) x).log := by
    intro cs
    induction cs with
    | nil => intro x; exact ⟨List.prefix_rfl, nofun⟩
    | cons c cs ih =>
      intro x
      obtain ⟨k1, k2⟩ := ih (runCall w x c)
      have hpre : x.log ++ [.run c] <+: (runCall w x c).log := List.prefix_append _ _
      refine ⟨((List.prefix_append _ _).trans hpre).trans k1, ?_⟩
      intro d hd
      rcases List.mem_cons.1 hd with rfl | hd
      · exact (hpre.trans k1).subset (by simp)
      · exact k2 d hd
  obtain ⟨k1, k2⟩ := h2 (m.calls.getD []) ((State.ask { s with flag := false, log := s.log ++ [.summarize s.summary s.buffer none] }
    (decide (Press.none = Press.late))).add w (.said m) (.heard m))
  refine ⟨?_, fun c hcm => h1.subset (k2 c hcm)⟩
  have : (((State.ask { s with flag := false, log := s.log ++ [.summarize s.summary s.buffer none] }
    (decide (Press.none = Press.late))).add w (.said m) (.heard m))).log = s.log ++ [.summarize s.summary s.buffer none, .ask (parts s), .heard m] := by
    simp [State.ask, State.add, parts]
  rw [← this]
  exact k1.trans h1

/-- **C168 fails: Ctrl-C while a tool runs** does not stop the others: all calls of the message are run. -/
theorem C168_tools_violated (w : World) (s : State) (m : Said) : ∀ c ∈ m.calls.getD [], .run c ∈ (s.hear w m).log := by
  unfold State.hear
  generalize m.calls.getD [] = cs
  generalize s.add w (.said m) (.heard m) = s1
  have h2 : ∀ (cs : List Call) (x : State), x.log <+: (cs.foldl (runCall w) x).log ∧ ∀ c ∈ cs, .run c ∈ (cs.foldl (runCall w) x).log := by
    intro cs
    induction cs with
    | nil => intro x; exact ⟨List.prefix_rfl, nofun⟩
    | cons c cs ih =>
      intro x
      obtain ⟨k1, k2⟩ := ih (runCall w x c)
      have hpre : x.log ++ [.run c] <+: (runCall w x c).log := List.prefix_append _ _
      refine ⟨((List.prefix_append _ _).trans hpre).trans k1, ?_⟩
      intro d hd
      rcases List.mem_cons.1 hd with rfl | hd
      · exact (hpre.trans k1).subset (by simp)
      · exact k2 d hd
  exact (h2 cs s1).2

/-- **C168 fails: an earlier Ctrl-C.** A mark that nobody took away ends the next conversation before the
service can answer. -/
theorem C168_earlier_violated (w : World) (fuel : Nat) : ∃ s, converse w fuel true = some (s, .cancelled) ∧ heards s.log = [] := by
  have hset0 : settle w fuel (start true) = some (start true) := by cases fuel <;> rfl
  refine ⟨(start true).ask false, ?_, rfl⟩
  unfold converse
  rw [talk_succ, hset0]
  rfl

/-! ## C169: the answer -/

/-- **C169, the answer.** What a conversation gives as its answer is the text of the last message of the
service, whole, and that message asked for no tool. -/
theorem C169_answer_partial (w : World) (fuel : Nat) (f : Bool) (s : State) (t : Str) (h : converse w fuel f = some (s, .answer t)) :
    s.log.getLast? = some (.heard ⟨t, none⟩) ∧ blank t = false := by
  have key : ∀ n s s', talk w fuel n s = some (s', .answer t) → s'.log.getLast? = some (.heard ⟨t, none⟩) ∧ blank t = false := by
    intro n
    induction n with
    | zero => intro s s' h; rw [talk] at h; cases h
    | succ n ih =>
      intro s s' h
      rw [talk_succ] at h
      split at h
      · cases h
      · split at h
        · cases h
        · split at h
          · cases h
          · cases h
          · rename_i m wants _
            split at h
            · exact ih _ _ h
            · rename_i hc
              split at h
              · cases h
              · rename_i hb
                cases h
                have hm : m.calls = none := by
                  cases hm : m.calls with
                  | none => rfl
                  | some _ => exact absurd (.inl (by rw [hm]; rfl)) hc
                rw [← hear_none _ _ _ hm]
                refine ⟨?_, by simpa using hb⟩
                obtain ⟨mt, mc⟩ := m
                dsimp only at hm
                subst hm
                simp [State.add]
  exact key _ _ _ h

/-- **C169, an answer without tools** is given at once. -/
theorem C169_once_partial (w : World) (fuel : Nat) (t : Str) (hb : blank t = false) (h : w.chat 0 = (.message ⟨t, none⟩ false, .none)) :
    ∃ s, converse w fuel false = some (s, .answer t) := by
  have hset0 : settle w fuel (start false) = some (start false) := by cases fuel <;> rfl
  unfold converse
  rw [talk_succ, hset0]
  dsimp only
  have ha : (start false).asked = 0 := rfl
  have hf : (start false).flag = false := rfl
  rw [ha, h, hf]
  dsimp only
  rw [if_neg (by simp), if_neg (by simp), if_neg (by simp [hb])]
  exact ⟨_, rfl⟩

/-- **C169 fails: an empty list of tools.** From a service that sends `tool_calls: []` with its answer the
answer is never shown: it is asked the same a hundred times, then an error is reported. -/
theorem C169_empty_violated (w : World) (fuel : Nat) (t : Nat → Str) (wants : Nat → Bool)
    (h : ∀ k, w.chat k = (.message ⟨t k, some []⟩ (wants k), .none)) (hs : ∀ m, 100 * w.size m ≤ 96000) :
    ∃ s, converse w fuel false = some (s, .tooMany) ∧ s.asked = 100 ∧ heards s.log = (List.range 100).map (fun k => ⟨t k, some []⟩) := by
  have key : ∀ n s, s.flag = false → 100 * s.chars ≤ s.asked * 96000 → s.asked + n ≤ 100 →
      ∃ s', talk w fuel n s = some (s', .tooMany) ∧ s'.asked = s.asked + n ∧
        heards s'.log = heards s.log ++ (List.range' s.asked n).map (fun k => ⟨t k, some []⟩) := by
    intro n
    induction n with
    | zero => intro s _ _ _; exact ⟨s, rfl, rfl, by simp⟩
    | succ n ih =>
      intro s hf hc hn
      have hset : settle w fuel s = some s := by
        have : ¬ limit < s.chars := by unfold limit; omega
        cases fuel <;> rw [settle, if_neg this]
      have ha : (s.ask false).asked = s.asked + 1 := asked_snoc s false (.ask (parts s))
      have hh : ((s.ask false).hear w ⟨t s.asked, some []⟩).asked = s.asked + 1 := by rw [hear_asked, ha]
      obtain ⟨s', k1, k2, k3⟩ := ih ((s.ask false).hear w ⟨t s.asked, some []⟩) rfl (by
        rw [hh]
        have := hs (.said ⟨t s.asked, some []⟩)
        show 100 * (s.chars + w.size _) ≤ _
        omega) (by rw [hh]; omega)
      refine ⟨s', ?_, by rw [k2, hh]; omega, ?_⟩
      · rw [talk_succ, hset]
        dsimp only
        rw [h, hf]
        dsimp only
        rw [if_neg (by simp), if_pos (.inl rfl)]
        exact k1
      · rw [k3, hh]
        have : heards ((s.ask false).hear w ⟨t s.asked, some []⟩).log = heards s.log ++ [⟨t s.asked, some []⟩] := by
          show heards ((s.log ++ [_]) ++ [_]) = _
          rw [heards_append, heards_append]
          simp [heards]
        rw [this, List.range'_succ]
        simp
  obtain ⟨s', k1, k2, k3⟩ := key 100 (start false) rfl (by simp [start]) (by simp [start, State.asked])
  refine ⟨s', k1, by rw [k2]; rfl, ?_⟩
  rw [k3, List.range_eq_range']
  rfl

/-! ## Cases -/

/-- A service that wants a file read, then answers. -/
def helpful : World where
  chat k := if k = 0 then (.message ⟨[], some [⟨c!"1", c!"read_file a"⟩]⟩ true, .none) else (.message ⟨c!"done", none⟩ false, .none)
  sum _ := (some c!"sum", .none)
  tool _ _ := (.ok c!"text", .none)
  size _ := 100

example : (converse helpful 1 false).map (·.2) = some (.answer c!"done") := by decide

example : (converse helpful 1 false).map (acts ·.1.log) =
    some [.heard ⟨[], some [⟨c!"1", c!"read_file a"⟩]⟩, .run ⟨c!"1", c!"read_file a"⟩, .told c!"1" [], .heard ⟨c!"done", none⟩] := by decide

/-- A service that wants a long file written: the case of the endless summaries. -/
def writer : World where
  chat _ := (.message ⟨[], some [⟨c!"1", c!"edit a"⟩]⟩ false, .none)
  sum _ := (some c!"sum", .none)
  tool _ _ := (.ok c!"written", .none)
  size m := match m with
    | .said _ => 100000
    | .result _ _ => 100

example (fuel : Nat) : converse writer fuel false = none :=
  C167_forever_violated writer ⟨[], some [⟨c!"1", c!"edit a"⟩]⟩ rfl rfl (fun _ _ => rfl) (by decide) (by decide)
    (fun _ => ⟨c!"sum", rfl, by decide⟩) fuel

/-- A long conversation: Ctrl-C is pressed while its first summary is waited for, and a tool is run after it. -/
def long : World where
  chat k := if k < 6 then (.message ⟨[], some [⟨c!"1", c!"rm a"⟩]⟩ false, .none) else (.message ⟨c!"done", none⟩ false, .none)
  sum k := (some c!"sum", if k = 0 then .seen else .none)
  tool _ _ := (.ok [], .none)
  size _ := 10000

example : (converse long 3 false).map (fun r => ((r.1.log.filter (fun e => e.isAsk || e.isSummarize || e.isRun)).map (fun e => (e.isSummarize, e.isRun)), r.2)) =
    some ((List.replicate 5 [(false, false), (false, true)]).flatten ++ [(true, false), (false, false), (false, true), (true, false), (false, false)],
      .answer c!"done") := by decide +kernel

/-- A service that asks for seven calls in a message too long to keep. -/
def many : World where
  chat k := if k = 0 then (.message ⟨[], some (List.replicate 7 ⟨c!"1", c!"ls"⟩)⟩ false, .none) else (.message ⟨c!"done", none⟩ false, .none)
  sum _ := (some c!"sum", .none)
  tool _ _ := (.ok [], .none)
  size m := match m with
    | .said _ => 97000
    | .result _ _ => 100

example : (converse many 3 false).map (·.2) = some (.answer c!"done") := by decide

/-- Ctrl-C during the first of two calls. -/
def pressed : World where
  chat _ := (.message ⟨[], some [⟨c!"1", c!"ls"⟩, ⟨c!"2", c!"rm a"⟩]⟩ false, .none)
  sum _ := (some c!"sum", .none)
  tool k _ := (.ok [], if k = 0 then .late else .none)
  size _ := 100

example : (converse pressed 1 false).map (fun r => (r.1.log.filter Ev.isRun, r.2)) =
    some ([.run ⟨c!"1", c!"ls"⟩, .run ⟨c!"2", c!"rm a"⟩], .cancelled) := by decide

end Dsh.Chat
