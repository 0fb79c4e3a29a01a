import Verif.Repl.AiSuggest
import Verif.Chat.SetupProps
import Verif.Completion.LiveProps
import Verif.Secrets.Model
/-! # C181, C182, C183: suggestions of the AI while a line is typed -/
namespace Dsh.AiSug
open Inline (Sug Src)

/-! ### What is made of an answer -/

theorem trimEnd_infix (s : Str) : trimEnd s <+: s := Setup.trimEnd_prefix s

theorem trim_infix (s : Str) : trim s <:+: s :=
  (trimEnd_infix _).isInfix.trans (List.dropWhile_suffix _).isInfix

theorem trimQuotes_infix (s : Str) : trimQuotes s <:+: s := by
  unfold trimQuotes
  have h : (s.dropWhile quote).reverse.dropWhile quote <:+ (s.dropWhile quote).reverse := List.dropWhile_suffix _
  have h2 := List.reverse_prefix.2 h
  rw [List.reverse_reverse] at h2
  exact h2.isInfix.trans (List.dropWhile_suffix _).isInfix

theorem cutFence_prefix : ∀ (s p : Str), cutFence s = some p → p <+: s ∧ p.length < s.length
  | [], p, h => by cases h
  | c :: cs, p, h => by
    unfold cutFence at h
    cases hc : cutFence cs with
    | some q =>
      rw [hc] at h
      cases h
      obtain ⟨h1, h2⟩ := cutFence_prefix cs q hc
      exact ⟨List.cons_prefix_cons.2 ⟨rfl, h1⟩, by simpa using h2⟩
    | none =>
      rw [hc] at h
      simp only at h
      split at h
      · cases h; exact ⟨List.nil_prefix, by simp⟩
      · cases h

theorem behindLine_suffix : ∀ (s r : Str), behindLine s = some r → r <:+ s
  | [], r, h => by cases h
  | c :: cs, r, h => by
    unfold behindLine at h
    split at h
    · cases h; exact List.suffix_cons ..
    · exact (behindLine_suffix cs r h).trans (List.suffix_cons ..)

theorem unfence_infix (s : Str) : unfence s <:+: s ∧ (c!"```".isPrefixOf s = true → (cutFence (s.drop 3)).isSome → (unfence s).length < s.length) := by
  unfold unfence
  split
  · rename_i hp
    split
    · rename_i inner hc
      obtain ⟨h1, h2⟩ := cutFence_prefix _ _ hc
      have h3 : (trim inner).length ≤ inner.length := (trim_infix inner).length_le
      have h5 : inner <:+: s := h1.isInfix.trans (List.drop_suffix 3 s).isInfix
      rw [List.length_drop] at h2
      split
      · rename_i rest hb
        have hr : rest <:+ trim inner := behindLine_suffix _ _ hb
        refine ⟨((trim_infix rest).trans hr.isInfix).trans ((trim_infix inner).trans h5), fun _ _ => ?_⟩
        have := (trim_infix rest).length_le
        have := hr.length_le
        omega
      · exact ⟨(trim_infix inner).trans h5, fun _ _ => by omega⟩
    · rename_i hc
      exact ⟨List.infix_refl _, fun _ h => by rw [hc] at h; cases h⟩
  · rename_i hp
    exact ⟨List.infix_refl _, fun h => absurd h hp⟩

theorem stripCr_prefix (l : Str) : Record.stripCr l <+: l := by
  unfold Record.stripCr
  split
  · exact List.dropLast_prefix l
  · exact List.prefix_refl l

theorem linesGo_head : ∀ (s cur l : Str) (ls : List Str), Record.linesGo cur s = l :: ls → '\n' ∉ cur → l <+: cur.reverse ++ s ∧ '\n' ∉ l
  | [], [], l, ls, h, _ => by cases h
  | [], c :: cur, l, ls, h, hn => by
    unfold Record.linesGo at h
    cases h
    refine ⟨by simp, fun h => hn (List.mem_reverse.1 h)⟩
  | c :: s, cur, l, ls, h, hn => by
    by_cases hc : c = '\n'
    · subst hc
      have h' : Record.stripCr cur.reverse :: Record.linesGo [] s = l :: ls := by rw [← h]; cases cur <;> rfl
      cases h'
      have hp := stripCr_prefix cur.reverse
      refine ⟨hp.trans (List.prefix_append _ _), fun h => hn ?_⟩
      have := hp.subset h
      simpa using this
    · have h' : Record.linesGo (c :: cur) s = l :: ls := by
        rw [← h]; exact (Record.linesGo.eq_4 cur c s (fun h => hc h)).symm
      have := linesGo_head s (c :: cur) l ls h' (by simp [hn, Ne.symm hc])
      simpa using this

theorem lines_head (s l : Str) (ls : List Str) (h : Record.lines s = l :: ls) : l <+: s ∧ '\n' ∉ l := by
  have := linesGo_head s [] l ls h (by simp)
  simpa using this

theorem clean_infix (s : Str) : clean s <:+: s ∧ '\n' ∉ clean s := by
  unfold clean
  split
  · rename_i l ls h
    obtain ⟨h1, h2⟩ := lines_head _ _ _ h
    refine ⟨(((trim_infix l).trans h1.isInfix).trans (trimQuotes_infix _)).trans ((unfence_infix _).1.trans (trim_infix s)), fun hn => ?_⟩
    exact h2 ((trim_infix l).subset hn)
  · exact ⟨List.nil_infix, by simp⟩

/-! ### The backend: what holds at all times -/

structure BInv (b : Back) : Prop where
  infl : b.inflight = true ↔ b.pending.isSome ∨ ∃ r, b.worker = .asking r
  perm : b.pending.isSome → b.worker = .waiting → b.permit = true
  newest : ∀ r ∈ b.pending, b.made.getLast? = some r
  cached : ∀ c t0, b.cached = some (c, t0) → ∃ r a, (r, some a, t0) ∈ b.got ∧ r.input ≠ [] ∧ fetch r (some a) = some c
  ctx : b.ctx = none
  asking : ∀ r, b.worker = .asking r → r ∈ b.sent
  sent : ∀ r ∈ b.sent, r ∈ b.made
  got : ∀ x ∈ b.got, x.1 ∈ b.sent
  made : ∀ r ∈ b.made, trim r.input ≠ []

theorem BInv.start : BInv {} := by
  constructor <;> simp

theorem BInv.enqueue {b : Back} (h : BInv b) (r : Req) (hr : trim r.input ≠ []) : BInv (b.enqueue r) := by
  have hm : ∀ x ∈ b.made ++ [r], trim x.input ≠ [] := by
    intro x hx
    rcases List.mem_append.1 hx with hx | hx
    · exact h.made x hx
    · rw [List.mem_singleton.1 hx]; exact hr
  unfold Back.enqueue
  dsimp only
  split
  · rename_i hi
    have hp : b.worker = .waiting → b.permit = true := by
      intro hw
      rcases h.infl.1 hi with hp | ⟨x, hx⟩
      · exact h.perm hp hw
      · rw [hw] at hx; cases hx
    exact ⟨by simp [hi], fun _ hw => hp hw, by simp, h.cached, h.ctx, h.asking,
      fun x hx => List.mem_append_left _ (h.sent x hx), h.got, hm⟩
  · exact ⟨by simp, by simp, by simp, h.cached, h.ctx, h.asking, fun x hx => List.mem_append_left _ (h.sent x hx), h.got, hm⟩

theorem BInv.predict {b : Back} (h : BInv b) (r : Req) (t : Nat) : BInv (b.predict r t).2 := by
  unfold Back.predict
  split
  · exact h
  · split
    · exact h
    · rename_i hb
      exact h.enqueue r (by simpa using hb)

theorem BInv.work {b : Back} (h : BInv b) : BInv b.work := by
  unfold Back.work
  split
  · rename_i hw
    split
    · rename_i r hp
      have hm : r ∈ b.made := List.mem_of_getLast? (h.newest r hp)
      refine ⟨by simp, by simp, by simp, h.cached, h.ctx, ?_, ?_, fun x hx => List.mem_append_left _ (h.got x hx), h.made⟩
      · intro x hx; cases hx; simp
      · intro x hx
        rcases List.mem_append.1 hx with hx | hx
        · exact h.sent x hx
        · rw [List.mem_singleton.1 hx]; exact hm
    · rename_i hp
      exact ⟨by simp [hp], by simp [hp], h.newest, h.cached, h.ctx, by simp, h.sent, h.got, h.made⟩
  · rename_i hw
    split
    · have := h.infl
      exact ⟨by simp [this, hw], by simp, h.newest, h.cached, h.ctx, by simp, h.sent, h.got, h.made⟩
    · exact h
  · exact h

theorem BInv.answer {b : Back} (h : BInv b) (a : Option Str) (t : Nat) : BInv (b.answer a t) := by
  unfold Back.answer
  split
  · rename_i r hw
    have hs := h.asking r hw
    have hne : r.input ≠ [] := by
      intro he
      apply h.made r (h.sent r hs)
      rw [he]; rfl
    have hemp : r.input.isEmpty = false := by rw [List.isEmpty_eq_false_iff]; exact hne
    have hg : ∀ x ∈ b.got ++ [(r, a, t)], x.1 ∈ b.sent := by
      intro x hx
      rcases List.mem_append.1 hx with hx | hx
      · exact h.got x hx
      · rw [List.mem_singleton.1 hx]; exact hs
    have hc1 : ∀ c t0, b.cached = some (c, t0) → ∃ r' a', (r', some a', t0) ∈ b.got ++ [(r, a, t)] ∧ r'.input ≠ [] ∧ fetch r' (some a') = some c := by
      intro c t0 hc
      obtain ⟨r', a', h1, h2⟩ := h.cached c t0 hc
      exact ⟨r', a', List.mem_append_left _ h1, h2⟩
    unfold Back.handle
    dsimp only
    cases hf : fetch r a with
    | none =>
      dsimp only
      cases hp : b.pending with
      | some p => exact ⟨by simp, by simp, by simpa [hp] using h.newest, hc1, h.ctx, by simp, h.sent, hg, h.made⟩
      | none => exact ⟨by simp, by simp, by simp, hc1, h.ctx, by simp, h.sent, hg, h.made⟩
    | some c =>
      have hc2 : ∀ c' t0, some (c, t) = some (c', t0) → ∃ r' a', (r', some a', t0) ∈ b.got ++ [(r, a, t)] ∧ r'.input ≠ [] ∧ fetch r' (some a') = some c' := by
        intro c' t0 he
        cases he
        cases a with
        | none => cases hf
        | some a => exact ⟨r, a, by simp, hne, hf⟩
      simp only [hemp, Bool.false_eq_true, if_false]
      cases hp : b.pending with
      | some p => exact ⟨by simp, by simp, by simpa [hp] using h.newest, hc2, h.ctx, by simp, h.sent, hg, h.made⟩
      | none => exact ⟨by simp, by simp, by simp, hc2, h.ctx, by simp, h.sent, hg, h.made⟩
  · exact h

/-- An answer of the service that gives `c`, not older than `k` milliseconds at time `t`. -/
def From (b : Back) (c : Str) (t k : Nat) : Prop :=
  ∃ r a t0, (r, some a, t0) ∈ b.got ∧ r.input ≠ [] ∧ fetch r (some a) = some c ∧ t ≤ t0 + k

theorem longer_iff (i f : Str) : longer i f = true ↔ ∃ rest, rest ≠ [] ∧ f = i ++ rest := by
  unfold longer
  rw [Bool.and_eq_true, List.isPrefixOf_iff_prefix, decide_eq_true_iff]
  constructor
  · rintro ⟨⟨r, rfl⟩, h⟩
    refine ⟨r, ?_, rfl⟩
    rintro rfl
    simp at h
  · rintro ⟨r, h, rfl⟩
    refine ⟨List.prefix_append .., ?_⟩
    have : 0 < r.length := by cases r with | nil => exact absurd rfl h | cons _ _ => simp
    simp only [List.length_append]; omega

theorem BInv.known {b : Back} (h : BInv b) {r : Req} {t : Nat} {c : Str} (hk : b.known r t = some c) :
    From b c t ttl ∧ longer r.input c = true := by
  unfold Back.known at hk
  rw [h.ctx] at hk
  dsimp only at hk
  split at hk
  · rename_i c' t0 hc
    split at hk
    · rename_i hh
      cases hk
      obtain ⟨r', a, h1, h2, h3⟩ := h.cached _ _ hc
      exact ⟨⟨r', a, t0, h1, h2, h3, by omega⟩, hh.2⟩
    · cases hk
  · cases hk

theorem predict_got (b : Back) (r : Req) (t : Nat) : (b.predict r t).2.got = b.got := by
  unfold Back.predict
  split
  · rfl
  · split
    · rfl
    · unfold Back.enqueue
      dsimp only
      split <;> rfl

theorem predict_fst {b : Back} {r : Req} {t : Nat} {c : Str} (h : (b.predict r t).1 = some c) : b.known r t = some c := by
  unfold Back.predict at h
  split at h
  · rename_i c' hk; rw [hk]; exact h
  · split at h <;> cases h

/-! ### The editor -/

structure EInv (e : Ed) : Prop where
  back : BInv e.back
  kept : ∀ p f t1, e.kept = some (p, f, t1) → From e.back f t1 ttl

theorem ask_spec {e : Ed} (h : EInv e) (r : Req) (t : Nat) :
    EInv (e.ask r t).2 ∧ (e.ask r t).2.back.got = e.back.got ∧ (e.ask r t).2.kept = e.kept ∧
      ∀ c, (e.ask r t).1 = some c → From e.back c t ttl ∧ longer r.input c = true := by
  unfold Ed.ask
  dsimp only
  have hg := predict_got e.back r t
  refine ⟨⟨h.back.predict r t, ?_⟩, hg, rfl, ?_⟩
  · intro p f t1 hk
    have := h.kept p f t1 hk
    unfold From at this ⊢
    rw [hg]; exact this
  · intro c hc
    obtain ⟨h1, -⟩ := Option.filter_eq_some_iff.1 hc
    exact h.back.known (predict_fst h1)

theorem EInv.noKept {e : Ed} (h : EInv e) : EInv { e with kept := none } := ⟨h.back, by simp⟩

theorem predict_spec {e : Ed} (blocked : Str → Bool) (h : EInv e) (line : Str) (a : Around) :
    EInv (e.predict blocked line a).2 ∧ (e.predict blocked line a).2.back.got = e.back.got ∧
      ∀ s ∈ (e.predict blocked line a).1, s.src = .ai → From e.back s.full a.t (ttl + keptTtl) ∧ longer line s.full = true := by
  have weak : ∀ c, From e.back c a.t ttl → From e.back c a.t (ttl + keptTtl) := by
    rintro c ⟨r, x, t0, h1, h2, h3, h4⟩
    exact ⟨r, x, t0, h1, h2, h3, by omega⟩
  unfold Ed.predict
  split
  · exact ⟨h.noKept, rfl, by simp⟩
  · split
    · rename_i s hs
      refine ⟨h.noKept, rfl, ?_⟩
      intro x hx hai
      rw [List.mem_singleton.1 hx] at hai
      cases hh : a.history with
      | some y => rw [hh] at hs; cases hs; cases hai
      | none =>
        rw [hh] at hs
        cases hp : a.path with
        | some y => rw [hp] at hs; cases hs; cases hai
        | none => rw [hp] at hs; cases hs
    · split
      · exact ⟨h.noKept, rfl, by simp⟩
      · split
        · obtain ⟨a1, a2, a3, a4⟩ := ask_spec h (bare line a) a.t
          have hold : ∀ s ∈ ((e.useKept line a.t).map (Sug.mk · .ai)).toList, From e.back s.full a.t (ttl + keptTtl) ∧ longer line s.full = true := by
            intro s hs
            rw [Option.mem_toList, Option.map_eq_some_iff] at hs
            obtain ⟨f, hf, rfl⟩ := hs
            unfold Ed.useKept at hf
            split at hf
            · rename_i p f' t1 hk
              split at hf
              · rename_i hc
                cases hf
                obtain ⟨r, x, t0, h1, h2, h3, h4⟩ := h.kept _ _ _ hk
                exact ⟨⟨r, x, t0, h1, h2, h3, by omega⟩, hc.2.1⟩
              · cases hf
            · cases hf
          dsimp only
          split
          · rename_i n hn
            obtain ⟨b1, b2⟩ := a4 n hn
            refine ⟨⟨a1.back, ?_⟩, a2, ?_⟩
            · intro p f t1 hk
              cases hk
              unfold From at b1 ⊢
              dsimp only
              rw [a2]; exact b1
            · intro s hs _
              dsimp only at hs
              have : s ∈ ((e.useKept line a.t).map (Sug.mk · .ai)).toList ∨ s = ⟨n, .ai⟩ := by
                split at hs
                · exact .inl hs
                · rcases List.mem_append.1 hs with hs | hs
                  · exact .inl hs
                  · exact .inr (List.mem_singleton.1 hs)
              rcases this with hs | rfl
              · exact hold s hs
              · exact ⟨weak n b1, b2⟩
          · exact ⟨a1, a2, fun s hs _ => hold s hs⟩
        · exact ⟨h.noKept, rfl, by simp⟩

theorem From.got {b b' : Back} (h : b'.got = b.got) {c : Str} {t k : Nat} : From b' c t k ↔ From b c t k := by
  unfold From; rw [h]

theorem refresh_spec {e : Ed} (blocked : Str → Bool) (h : EInv e) (line : Str) (a : Around) :
    EInv (e.refresh blocked line a) ∧ (e.refresh blocked line a).back.got = e.back.got ∧
      ∀ s ∈ (e.refresh blocked line a).shown, s.src = .ai → From e.back s.full a.t (ttl + keptTtl) ∧ longer line s.full = true := by
  obtain ⟨p1, p2, p3⟩ := predict_spec blocked h line a
  unfold Ed.refresh
  dsimp only
  split
  · obtain ⟨a1, a2, a3, a4⟩ := ask_spec p1 (full line a) a.t
    refine ⟨⟨a1.back, a1.kept⟩, a2.trans p2, ?_⟩
    intro s hs _
    dsimp only at hs
    rw [Option.mem_toList, Option.map_eq_some_iff] at hs
    obtain ⟨f, hf, rfl⟩ := hs
    obtain ⟨b1, b2⟩ := a4 f hf
    obtain ⟨r, x, t0, h1, h2, h3, h4⟩ := (From.got p2).1 b1
    exact ⟨⟨r, x, t0, h1, h2, h3, by omega⟩, b2⟩
  · exact ⟨⟨p1.back, p1.kept⟩, p2, p3⟩

theorem answer_got (b : Back) (a : Option Str) (t : Nat) : ∀ x ∈ (b.answer a t).got, x ∈ b.got ∨ (x.2.1 = a ∧ x.2.2 = t) := by
  intro x hx
  have : (b.answer a t).got = b.got ∨ ∃ r, (b.answer a t).got = b.got ++ [(r, a, t)] := by
    unfold Back.answer
    split
    · rename_i r hw
      right
      refine ⟨r, ?_⟩
      unfold Back.handle
      dsimp only
      split <;> (split <;> first | rfl | (split <;> first | rfl | (split <;> rfl)))
    · exact .inl rfl
  rcases this with h | ⟨r, h⟩
  · rw [h] at hx; exact .inl hx
  · rw [h] at hx
    rcases List.mem_append.1 hx with hx | hx
    · exact .inl hx
    · rw [List.mem_singleton.1 hx]; exact .inr ⟨rfl, rfl⟩

theorem answer_grows (b : Back) (a : Option Str) (t : Nat) : ∀ x ∈ b.got, x ∈ (b.answer a t).got := by
  intro x hx
  unfold Back.answer
  split
  · unfold Back.handle
    dsimp only
    split <;> (split <;> first | (exact List.mem_append_left _ hx) | (split <;> first | (exact List.mem_append_left _ hx) | (split <;> exact List.mem_append_left _ hx)))
  · exact hx

theorem work_got (b : Back) : b.work.got = b.got := by
  unfold Back.work
  split
  · split <;> rfl
  · split <;> rfl
  · rfl

theorem force_spec {e : Ed} (h : EInv e) (line : Str) (a : Around) : EInv (e.force line a) ∧ (e.force line a).back.got = e.back.got ∧
    ∀ s ∈ (e.force line a).shown, From e.back s.full a.t ttl ∧ longer line s.full = true := by
  obtain ⟨a1, a2, a3, a4⟩ := ask_spec h (full line a) a.t
  unfold Ed.force
  dsimp only
  split
  · rename_i n hn
    refine ⟨⟨a1.back, a1.kept⟩, a2, fun s hs => ?_⟩
    rw [List.mem_singleton.1 hs]; exact a4 n hn
  · exact ⟨⟨a1.back, a1.kept⟩, a2, by simp⟩

theorem ev_spec {e : Ed} (blocked : Str → Bool) (h : EInv e) (v : Ev) : EInv (e.ev blocked v) ∧
    ∀ x ∈ (e.ev blocked v).back.got, x ∈ e.back.got ∨ v = .answer x.2.1 x.2.2 := by
  cases v with
  | refresh line a =>
    obtain ⟨h1, h2, -⟩ := refresh_spec blocked h line a
    exact ⟨h1, fun x hx => .inl (by rw [← h2]; exact hx)⟩
  | force line a =>
    obtain ⟨h1, h2, -⟩ := force_spec h line a
    exact ⟨h1, fun x hx => .inl (by rw [← h2]; exact hx)⟩
  | moved c f => exact ⟨h, fun x hx => .inl hx⟩
  | set g b =>
    refine ⟨⟨h.back, ?_⟩, fun x hx => .inl hx⟩
    intro p f t1 hk
    show From e.back f t1 ttl
    unfold Ed.ev Ed.set at hk
    dsimp only at hk
    split at hk
    · exact h.kept p f t1 hk
    · cases hk
  | work =>
    refine ⟨⟨h.back.work, ?_⟩, fun x hx => .inl ?_⟩
    · intro p f t1 hk
      exact (From.got (work_got e.back)).2 (h.kept p f t1 hk)
    · have := work_got e.back
      unfold Ed.ev at hx
      dsimp only at hx
      rw [this] at hx; exact hx
  | answer a t =>
    refine ⟨⟨h.back.answer a t, ?_⟩, fun x hx => ?_⟩
    · intro p f t1 hk
      obtain ⟨r, y, t0, h1, h2⟩ := h.kept p f t1 hk
      exact ⟨r, y, t0, answer_grows _ _ _ _ h1, h2⟩
    · rcases answer_got e.back a t x hx with h | ⟨rfl, rfl⟩
      · exact .inl h
      · exact .inr rfl

/-- A shell that has just begun, with these preferences. -/
def start (ghost backfill : Bool) : Ed := { ghost, backfill }

theorem evs_spec (blocked : Str → Bool) : ∀ (l : List Ev) {e : Ed}, EInv e → EInv (e.evs blocked l) ∧
    ∀ x ∈ (e.evs blocked l).back.got, x ∈ e.back.got ∨ Ev.answer x.2.1 x.2.2 ∈ l
  | [], e, h => ⟨h, fun x hx => .inl hx⟩
  | v :: l, e, h => by
    obtain ⟨h1, h2⟩ := ev_spec blocked h v
    obtain ⟨h3, h4⟩ := evs_spec blocked l h1
    refine ⟨h3, fun x hx => ?_⟩
    rcases h4 x hx with hx | hx
    · rcases h2 x hx with hx | hx
      · exact .inl hx
      · exact .inr (by rw [hx]; exact List.mem_cons_self ..)
    · exact .inr (List.mem_cons_of_mem _ hx)

theorem start_inv (g b : Bool) : EInv (start g b) := ⟨BInv.start, by simp [start]⟩

theorem reach (blocked : Str → Bool) (g b : Bool) (l : List Ev) : EInv ((start g b).evs blocked l) := (evs_spec blocked l (start_inv g b)).1

theorem fetch_some {r : Req} {a c : Str} (hr : r.input ≠ []) (h : fetch r (some a) = some c) : c = clean a ∧ r.input <+: c ∧ c ≠ [] := by
  unfold fetch at h
  have : r.input.isEmpty = false := by rw [List.isEmpty_eq_false_iff]; exact hr
  simp only [this, Bool.false_eq_true, if_false] at h
  split at h
  · cases h
  · rename_i hne
    split at h
    · rename_i hp
      cases h
      exact ⟨rfl, List.isPrefixOf_iff_prefix.1 hp, by simpa using hne⟩
    · cases h

/-- **C181, suggestions of the AI.** At each refresh, after whatever happened: each suggestion of the AI is the line and
something more; it stands on one line in an answer the service gave within the last ten seconds to a request, and begins
with the line of that request too. -/
theorem C181_answered_partial (blocked : Str → Bool) (g b : Bool) (l : List Ev) (line : Str) (a : Around) (s : Sug)
    (hs : s ∈ (((start g b).evs blocked l).refresh blocked line a).shown) (hai : s.src = .ai) :
    (∃ rest, rest ≠ [] ∧ s.full = line ++ rest) ∧ '\n' ∉ s.full ∧
      ∃ r ∈ ((start g b).evs blocked l).back.sent, ∃ answer t0, Ev.answer (some answer) t0 ∈ l ∧ r.input ≠ [] ∧ r.input <+: s.full ∧
        s.full <:+: answer ∧ a.t ≤ t0 + 10000 := by
  obtain ⟨h1, h2⟩ := evs_spec blocked l (start_inv g b)
  obtain ⟨-, -, h3⟩ := refresh_spec blocked h1 line a
  obtain ⟨⟨r, x, t0, f1, f2, f3, f4⟩, h5⟩ := h3 s hs hai
  obtain ⟨e1, e2, e3⟩ := fetch_some f2 f3
  refine ⟨(longer_iff _ _).1 h5, ?_, r, h1.back.got _ f1, x, t0, ?_, f2, e2, ?_, f4⟩
  · rw [e1]; exact (clean_infix x).2
  · rcases h2 _ f1 with h | h
    · cases h
    · exact h
  · rw [e1]; exact (clean_infix x).1

/-- **C181, Alt-s.** The same holds of what Alt-s shows. -/
theorem C181_forced_partial (blocked : Str → Bool) (g b : Bool) (l : List Ev) (line : Str) (a : Around) (s : Sug)
    (hs : s ∈ (((start g b).evs blocked l).force line a).shown) :
    (∃ rest, rest ≠ [] ∧ s.full = line ++ rest) ∧ '\n' ∉ s.full ∧
      ∃ r ∈ ((start g b).evs blocked l).back.sent, ∃ answer t0, Ev.answer (some answer) t0 ∈ l ∧ r.input ≠ [] ∧ r.input <+: s.full ∧
        s.full <:+: answer ∧ a.t ≤ t0 + 8000 := by
  obtain ⟨h1, h2⟩ := evs_spec blocked l (start_inv g b)
  obtain ⟨-, -, h3⟩ := force_spec h1 line a
  obtain ⟨⟨r, x, t0, f1, f2, f3, f4⟩, h5⟩ := h3 s hs
  obtain ⟨e1, e2, e3⟩ := fetch_some f2 f3
  refine ⟨(longer_iff _ _).1 h5, ?_, r, h1.back.got _ f1, x, t0, ?_, f2, e2, ?_, f4⟩
  · rw [e1]; exact (clean_infix x).2
  · rcases h2 _ f1 with h | h
    · cases h
    · exact h
  · rw [e1]; exact (clean_infix x).1

/-- A line of a plain answer: nothing that is taken off. -/
def Plain (s : Str) : Prop := s ≠ [] ∧ '\n' ∉ s ∧ (∀ c ∈ s.head?, rustWhitespace c = false ∧ quote c = false) ∧
  ∀ c ∈ s.getLast?, rustWhitespace c = false ∧ quote c = false

theorem trimQuotes_id {s : Str} (h1 : ∀ c ∈ s.head?, quote c = false) (h2 : ∀ c ∈ s.getLast?, quote c = false) : trimQuotes s = s := by
  unfold trimQuotes
  have e1 : s.dropWhile quote = s := by
    cases s with
    | nil => rfl
    | cons c cs => rw [List.dropWhile_cons, h1 c rfl]; rfl
  rw [e1]
  have : s.reverse.dropWhile quote = s.reverse := by
    cases hr : s.reverse with
    | nil => rfl
    | cons c r => rw [List.dropWhile_cons, h2 c (by rw [← List.head?_reverse, hr]; rfl)]; rfl
  rw [this, List.reverse_reverse]

theorem lines_one (s : Str) (hne : s ≠ []) (hn : '\n' ∉ s) : Record.lines s = [s] := by
  have := Record.linesGo_part [] s hn []
  simp only [List.append_nil] at this
  unfold Record.lines
  rw [this]
  cases hr : s.reverse with
  | nil => simp at hr; exact absurd hr hne
  | cons c r =>
    show [(c :: r).reverse] = _
    rw [← hr, List.reverse_reverse]

theorem Plain.trim {s : Str} (h : Plain s) : trim s = s :=
  Live.trim_ends (fun c hc => (h.2.2.1 c hc).1) fun c hc => (h.2.2.2 c hc).1

theorem clean_plain {s : Str} (h : Plain s) : clean s = s := by
  unfold clean
  rw [h.trim]
  have : unfence s = s := by
    unfold unfence
    rw [if_neg]
    cases s with
    | nil => exact absurd rfl h.1
    | cons c cs =>
      have := (h.2.2.1 c rfl).2
      simp only [List.isPrefixOf, Bool.and_eq_true, beq_iff_eq, not_and]
      rintro rfl
      exact absurd this (by decide)
  rw [this, trimQuotes_id (fun c hc => (h.2.2.1 c hc).2) fun c hc => (h.2.2.2 c hc).2, lines_one s h.1 h.2.1]
  exact h.trim

/-- **C181, plain answers.** An answer of one line that begins with the line asked about, without blanks, quotes or back quotes
at its ends, is taken as it is. -/
theorem C181_verbatim_partial (r : Req) (s : Str) (h : Plain s) (hi : r.input <+: s) : fetch r (some s) = some s := by
  unfold fetch
  simp only [clean_plain h]
  have h1 : s.isEmpty = false := by rw [List.isEmpty_eq_false_iff]; exact h.1
  have h2 : r.input.isPrefixOf s = true := List.isPrefixOf_iff_prefix.2 hi
  simp only [h1, h2, Bool.false_eq_true, if_false, if_true]
  split <;> rfl

/-! ### The path of a question -/

theorem known_none {b : Back} (hc : b.ctx = none) {r : Req} {t : Nat} (h : ∀ c t0, b.cached = some (c, t0) → t0 + ttl < t ∨ longer r.input c = false) :
    b.known r t = none := by
  unfold Back.known
  rw [hc]
  dsimp only
  split
  · rename_i c t0 hk
    rw [if_neg]
    rintro ⟨h1, h2⟩
    rcases h c t0 hk with h | h
    · omega
    · rw [h] at h2; cases h2
  · rfl

/-- Nothing else is known of the line: neither history nor file names propose something, and no answer of the AI that
could still be used. -/
structure Unknown (e : Ed) (line : Str) (a : Around) : Prop where
  history : a.history = none
  path : a.path = none
  kept : e.useKept line a.t = none
  cached : ∀ c t0, e.back.cached = some (c, t0) → t0 + 8000 < a.t ∨ ¬ ∃ rest, rest ≠ [] ∧ c = line ++ rest

theorem Unknown.known {e : Ed} {line : Str} {a : Around} (h : Unknown e line a) (hc : e.back.ctx = none) (r : Req) (hr : r.input = line) :
    e.back.known r a.t = none := by
  apply known_none hc
  intro c t0 hk
  rcases h.cached c t0 hk with h | h
  · exact .inl h
  · right
    rw [hr]
    cases hl : longer line c with
    | false => rfl
    | true => exact absurd ((longer_iff _ _).1 hl) h

theorem enqueue_known (b : Back) (r r' : Req) (t : Nat) : (b.enqueue r).known r' t = b.known r' t := by
  unfold Back.enqueue
  dsimp only
  split <;> rfl

/-- A refresh for a line nothing is known of: what is asked afterwards is the line with its context, with suggestions
shown or not, and blocked or not. -/
theorem refresh_asks {blocked : Str → Bool} {e : Ed} {line : Str} {a : Around} (hb : e.backfill = true) (hl : trim line ≠ [])
    (hc : e.back.ctx = none) (h : Unknown e line a) :
    (e.refresh blocked line a).shown = [] ∧ ((e.refresh blocked line a).back = e.back.enqueue (full line a) ∨
      (e.refresh blocked line a).back = (e.back.enqueue (bare line a)).enqueue (full line a)) ∧ (e.refresh blocked line a).backfill = true ∧
      ((e.refresh blocked line a).kept = none ∨ (e.refresh blocked line a).kept = e.kept) := by
  have hl' : (trim line).isEmpty = false := by rw [List.isEmpty_eq_false_iff]; exact hl
  have k1 := h.known hc (bare line a) rfl
  have k2 := h.known hc (full line a) rfl
  have p1 : e.back.predict (bare line a) a.t = (none, e.back.enqueue (bare line a)) := by
    unfold Back.predict; rw [k1]; simp [bare, hl']
  have p2 : e.back.predict (full line a) a.t = (none, e.back.enqueue (full line a)) := by
    unfold Back.predict; rw [k2]; simp [full, hl']
  have p3 : (e.back.enqueue (bare line a)).predict (full line a) a.t = (none, (e.back.enqueue (bare line a)).enqueue (full line a)) := by
    unfold Back.predict; rw [enqueue_known, k2]; simp [full, hl']
  have q : e.predict blocked line a = ([], { e with kept := none }) ∨ e.predict blocked line a = ([], { e with back := e.back.enqueue (bare line a) }) := by
    unfold Ed.predict
    split
    · exact .inl rfl
    · simp only [h.history, h.path, Option.map_none]
      show (if blocked line = true then _ else _) = _ ∨ (if blocked line = true then _ else _) = _
      split
      · exact .inl rfl
      · right
        simp [hb, h.kept, Ed.ask, p1]
  unfold Ed.refresh
  rcases q with q | q
  · rw [q]
    simp [hb, Ed.ask, p2]
  · rw [q]
    simp [hb, Ed.ask, p3]

theorem enqueue_pending (b : Back) (r : Req) : (b.enqueue r).pending = some r ∧ (b.enqueue r).inflight = true ∧ (b.enqueue r).worker = b.worker ∧
    (b.enqueue r).cached = b.cached ∧ (b.enqueue r).ctx = b.ctx ∧ (b.enqueue r).sent = b.sent ∧ (b.enqueue r).made = b.made ++ [r] := by
  unfold Back.enqueue
  dsimp only
  split
  · rename_i h; exact ⟨rfl, h, rfl, rfl, rfl, rfl, rfl⟩
  · exact ⟨rfl, rfl, rfl, rfl, rfl, rfl, rfl⟩

/-- **C182, the mark.** The prompt shows that an answer is awaited exactly while a request waits or is being asked. -/
theorem C182_mark_partial (blocked : Str → Bool) (g b : Bool) (l : List Ev) :
    ((start g b).evs blocked l).back.isPending = true ↔
      (∃ r, ((start g b).evs blocked l).back.pending = some r) ∨ ∃ r, ((start g b).evs blocked l).back.worker = .asking r := by
  have h := (reach blocked g b l).back.infl
  generalize (start g b).evs blocked l = e at *
  unfold Back.isPending
  rw [Bool.or_eq_true, h, Option.isSome_iff_exists]
  grind

/-- **C182, nothing is lost.** A request that waits is the newest one made; it is the next to be asked, as soon as the answer
to the one being asked is there, and the worker never sleeps on it. -/
theorem C182_next_partial (blocked : Str → Bool) (g b : Bool) (l : List Ev) (r : Req) (h : ((start g b).evs blocked l).back.pending = some r) :
    let back := ((start g b).evs blocked l).back
    back.made.getLast? = some r ∧
      ((∀ r', back.worker ≠ .asking r') → back.work.work.worker = .asking r ∧ back.work.work.sent = back.sent ++ [r]) ∧
      ∀ r', back.worker = .asking r' → ∀ a t, (back.answer a t).work.worker = .asking r ∧ (back.answer a t).work.sent = back.sent ++ [r] := by
  have hi := (reach blocked g b l).back
  generalize ((start g b).evs blocked l).back = back at *
  intro back
  refine ⟨hi.newest r h, ?_, ?_⟩
  · intro hw
    cases hk : back.worker with
    | asking r' => exact absurd hk (hw r')
    | free =>
      have : back.work = { back with pending := none, inflight := true, worker := .asking r, sent := back.sent ++ [r] } := by
        unfold Back.work; rw [hk]; simp only [back, h]
      rw [this]; exact ⟨rfl, rfl⟩
    | waiting =>
      have hp : back.permit = true := hi.perm (by rw [h]; rfl) hk
      have : back.work = { back with permit := false, worker := .free } := by
        unfold Back.work; rw [hk]; simp only [hp, if_true]
      rw [this]
      unfold Back.work
      simp only [back, h]
      exact ⟨trivial, trivial⟩
  · intro r' hk a t
    have : ∃ c, (back.answer a t) = { back with got := back.got ++ [(r', a, t)], cached := c, inflight := true, permit := true, worker := .free } := by
      unfold Back.answer
      rw [hk]
      have hne : r'.input.isEmpty = false := by
        rw [List.isEmpty_eq_false_iff]
        intro he
        apply hi.made r' (hi.sent r' (hi.asking r' hk))
        rw [he]; rfl
      unfold Back.handle
      dsimp only
      cases fetch r' a with
      | none => exact ⟨back.cached, by simp only [back, h]⟩
      | some c => exact ⟨some (c, t), by simp only [hne, Bool.false_eq_true, if_false, back, h]⟩
    obtain ⟨c, hc⟩ := this
    rw [hc]
    unfold Back.work
    simp only [back, h]
    exact ⟨trivial, trivial⟩

/-- **C182, what is asked.** After a refresh for a line that nothing is known of, the request that waits is for this line
as it is now, with the directory, the listing and the status there are; and the service is told the line as it is. -/
theorem C182_line_partial (blocked : Str → Bool) (g : Bool) (l : List Ev) (line : Str) (a : Around) (hl : trim line ≠ [])
    (h : Unknown ((start g true).evs blocked l) line a) (hb : ((start g true).evs blocked l).backfill = true) :
    ∃ r, (((start g true).evs blocked l).refresh blocked line a).back.pending = some r ∧ r.input = line ∧ r.cwd = some a.cwd ∧
      r.files = a.files ∧ r.code = some a.code ∧ r.history = a.recent ∧
      ∀ gh bf os, c!"UserInput: " ++ line ++ c!"\n" <:+: payload gh bf os r := by
  obtain ⟨-, h2, -⟩ := refresh_asks (blocked := blocked) hb hl (reach blocked g true l).back.ctx h
  refine ⟨full line a, ?_, rfl, rfl, rfl, rfl, rfl, ?_⟩
  · rcases h2 with h2 | h2 <;> rw [h2] <;> exact (enqueue_pending _ _).1
  · intro gh bf os
    unfold payload
    exact List.infix_append _ _ _

/-! ### One round: a refresh, the worker, an answer -/

/-- The worker has nothing to do. -/
def Idle (b : Back) : Prop := b.pending = none ∧ ∀ r, b.worker ≠ .asking r

/-- A tick with a line, the worker, and an answer. -/
def round (line : Str) (a : Around) (ans : Option Str) (t : Nat) : List Ev := [.refresh line a, .work, .work, .answer ans t]

theorem answer_idle {b : Back} {r : Req} (hw : b.worker = .asking r) (hp : b.pending = none) (hr : r.input ≠ []) (ans : Option Str) (t : Nat) :
    Idle (b.answer ans t) ∧ (b.answer ans t).sent = b.sent ∧ (b.answer ans t).ctx = b.ctx ∧ (b.answer ans t).worker = .free ∧
      (b.answer ans t).cached = match fetch r ans with | some c => some (c, t) | none => b.cached := by
  have hne : r.input.isEmpty = false := by rw [List.isEmpty_eq_false_iff]; exact hr
  unfold Back.answer
  rw [hw]
  unfold Back.handle
  dsimp only
  cases fetch r ans with
  | none => simp [hp, Idle]
  | some c => simp [hne, hp, Idle]

theorem work_two {b : Back} (hb : BInv b) {r : Req} (hp : b.pending = some r) (hw : ∀ r', b.worker ≠ .asking r') :
    b.work.work.worker = .asking r ∧ b.work.work.sent = b.sent ++ [r] ∧ b.work.work.pending = none ∧ b.work.work.cached = b.cached ∧
      b.work.work.ctx = b.ctx := by
  cases hk : b.worker with
  | asking r' => exact absurd hk (hw r')
  | free =>
    have : b.work = { b with pending := none, inflight := true, worker := .asking r, sent := b.sent ++ [r] } := by
      unfold Back.work; rw [hk]; simp only [hp]
    rw [this]; exact ⟨rfl, rfl, rfl, rfl, rfl⟩
  | waiting =>
    have hpm : b.permit = true := hb.perm (by rw [hp]; rfl) hk
    have : b.work = { b with permit := false, worker := .free } := by
      unfold Back.work; rw [hk]; simp only [hpm, if_true]
    rw [this]
    unfold Back.work
    simp only [hp]
    exact ⟨trivial, trivial, trivial, trivial, trivial⟩

/-- One round with a line nothing is known of sends one request for it. -/
theorem round_spec {blocked : Str → Bool} {e : Ed} (he : EInv e) (hi : Idle e.back) {line : Str} {a : Around} (hb : e.backfill = true)
    (hl : trim line ≠ []) (h : Unknown e line a) (ans : Option Str) (t : Nat) :
    let e' := e.evs blocked (round line a ans t)
    EInv e' ∧ Idle e'.back ∧ e'.backfill = true ∧ e'.back.sent = e.back.sent ++ [full line a] ∧ (e'.kept = none ∨ e'.kept = e.kept) ∧
      e'.back.worker = .free ∧ e'.back.cached = match fetch (full line a) ans with | some c => some (c, t) | none => e.back.cached := by
  obtain ⟨r1, r2, r3, r4⟩ := refresh_asks (blocked := blocked) hb hl he.back.ctx h
  have he' : EInv (e.refresh blocked line a) := (refresh_spec blocked he line a).1
  have hne : (full line a).input ≠ [] := by
    intro h0
    apply hl
    have : line = [] := h0
    rw [this]; rfl
  have hq : (e.refresh blocked line a).back.pending = some (full line a) ∧ (e.refresh blocked line a).back.worker = e.back.worker ∧
      (e.refresh blocked line a).back.cached = e.back.cached ∧ (e.refresh blocked line a).back.sent = e.back.sent := by
    rcases r2 with r2 | r2 <;> rw [r2] <;> refine ⟨(enqueue_pending _ _).1, ?_, ?_, ?_⟩
    · exact (enqueue_pending _ _).2.2.1
    · exact (enqueue_pending _ _).2.2.2.1
    · exact (enqueue_pending _ _).2.2.2.2.2.1
    · rw [(enqueue_pending _ _).2.2.1, (enqueue_pending _ _).2.2.1]
    · rw [(enqueue_pending _ _).2.2.2.1, (enqueue_pending _ _).2.2.2.1]
    · rw [(enqueue_pending _ _).2.2.2.2.2.1, (enqueue_pending _ _).2.2.2.2.2.1]
  obtain ⟨q1, q2, q3, q4⟩ := hq
  obtain ⟨w1, w2, w3, w4, w5⟩ := work_two he'.back q1 (by rw [q2]; exact hi.2)
  obtain ⟨s1, s2, s3, s4, s5⟩ := answer_idle w1 w3 hne ans t
  intro e'
  have hE : e' = { e.refresh blocked line a with back := (e.refresh blocked line a).back.work.work.answer ans t } := rfl
  refine ⟨(evs_spec blocked _ he).1, ?_, ?_, ?_, ?_, ?_, ?_⟩ <;> rw [hE]
  · exact s1
  · exact r3
  · dsimp only; rw [s2, w2, q4]
  · exact r4
  · exact s4
  · dsimp only; rw [s5, w4, q3]

/-- A question and its answer: the next refresh within eight seconds shows exactly that answer, whatever the line and the
preferences. -/
theorem shown_answer (blocked : Str → Bool) (g : Bool) (l : List Ev) (line line' : Str) (a a' : Around) (ans : Str) (t : Nat)
    (hi : Idle ((start g true).evs blocked l).back) (hu : Unknown ((start g true).evs blocked l) line a)
    (hb : ((start g true).evs blocked l).backfill = true)
    (hl : trim line ≠ []) (hp : Plain ans) (hpl : line <+: ans) (hs : ∃ rest, rest ≠ [] ∧ ans = line' ++ rest)
    (ht : a'.t ≤ t + 8000) (hh : a'.history = none) (hh' : a'.path = none)
    (hk : ((start g true).evs blocked l).kept = none) :
    ((start g true).evs blocked (l ++ round line a (some ans) t)).back.sent = ((start g true).evs blocked l).back.sent ++ [full line a] ∧
    (((start g true).evs blocked (l ++ round line a (some ans) t)).refresh blocked line' a').shown = [⟨ans, .ai⟩] := by
  have hev : (start g true).evs blocked (l ++ round line a (some ans) t) = ((start g true).evs blocked l).evs blocked (round line a (some ans) t) := by
    unfold Ed.evs; rw [List.foldl_append]
  have hE := reach blocked g true l
  rw [hev]
  generalize (start g true).evs blocked l = e at *
  obtain ⟨r1, r2, r3, r4, r5, r6, r7⟩ := round_spec (blocked := blocked) hE hi hb hl hu (some ans) t
  refine ⟨r4, ?_⟩
  have hv : fetch (full line a) (some ans) = some ans := C181_verbatim_partial _ _ hp hpl
  rw [hv] at r7
  dsimp only at r7
  have hk' : (e.evs blocked (round line a (some ans) t)).kept = none := by
    rcases r5 with r5 | r5
    · exact r5
    · rw [r5, hk]
  generalize e.evs blocked (round line a (some ans) t) = e' at *
  have hlong : longer line' ans = true := (longer_iff _ _).2 hs
  have hkn : ∀ r : Req, r.input = line' → e'.back.known r a'.t = some ans := by
    intro r hr
    unfold Back.known
    rw [r7]
    dsimp only
    rw [if_pos]
    refine ⟨?_, by rw [hr]; exact hlong⟩
    unfold ttl; omega
  have hpre : line'.isPrefixOf ans = true := by
    unfold longer at hlong
    exact (Bool.and_eq_true_iff.1 hlong).1
  have hask : ∀ (f : Ed) (r : Req), f.back = e'.back → r.input = line' → f.ask r a'.t = (some ans, f) := by
    intro f r hf hr
    have hbp : f.back.predict r a'.t = (some ans, f.back) := by
      unfold Back.predict; rw [hf, hkn r hr]
    unfold Ed.ask; rw [hbp]; simp [hr, hpre, Option.filter]
  have hpred : e'.predict blocked line' a' = ([⟨ans, .ai⟩], { e' with kept := some (line', ans, a'.t) }) ∨
      e'.predict blocked line' a' = ([], { e' with kept := none }) := by
    unfold Ed.predict
    split
    · exact .inr rfl
    · simp only [hh, hh', Option.map_none, hask e' (bare line' a') rfl rfl]
      show (if blocked line' = true then _ else _) = _ ∨ (if blocked line' = true then _ else _) = _
      split
      · exact .inr rfl
      · left
        simp [Ed.useKept, hk', r3]
  unfold Ed.refresh
  rcases hpred with hpred | hpred
  · rw [hpred]; rfl
  · rw [hpred]
    have hq := hask { e' with kept := none } (full line' a') rfl rfl
    dsimp only
    rw [hq, r3]
    rfl

/-- **C181, a question and its answer.** A line nothing is known of is asked about; the service answers with a plain line
that begins with it and goes on; the next refresh within eight seconds shows exactly that answer. -/
theorem C181_shown_partial (blocked : Str → Bool) (g : Bool) (l : List Ev) (line : Str) (a a' : Around) (ans : Str) (t : Nat)
    (hi : Idle ((start g true).evs blocked l).back) (hu : Unknown ((start g true).evs blocked l) line a)
    (hb : ((start g true).evs blocked l).backfill = true)
    (hl : trim line ≠ []) (hp : Plain ans) (hs : ∃ rest, rest ≠ [] ∧ ans = line ++ rest)
    (ht : a'.t ≤ t + 8000) (hh : a'.history = none) (hh' : a'.path = none)
    (hk : ((start g true).evs blocked l).kept = none) :
    (((start g true).evs blocked (l ++ round line a (some ans) t)).refresh blocked line a').shown = [⟨ans, .ai⟩] :=
  (shown_answer blocked g l line line a a' ans t hi hu hb hl hp (by obtain ⟨r, -, rfl⟩ := hs; exact List.prefix_append ..) hs ht hh hh' hk).2

theorem start_idle (g : Bool) (line : Str) (a : Around) (h1 : a.history = none) (h2 : a.path = none) :
    Idle (start g true).back ∧ Unknown (start g true) line a :=
  ⟨⟨rfl, by simp [start]⟩, h1, h2, rfl, by simp [start]⟩

/-- Case: the first line of a shell. -/
theorem shown_case : (((start true true).evs (fun _ => false) (round c!"git st" { t := 0 } (some c!"git status") 900)).refresh (fun _ => false)
    c!"git st" { t := 1200 }).shown = [⟨c!"git status", .ai⟩] := by
  obtain ⟨h1, h2⟩ := start_idle true c!"git st" { t := 0 } rfl rfl
  exact C181_shown_partial (fun _ => false) true [] c!"git st" { t := 0 } { t := 1200 } c!"git status" 900 h1 h2 rfl (by decide)
    ⟨by decide, by decide, by decide, by decide⟩ ⟨c!"atus", by decide, by decide⟩ (by decide) rfl rfl rfl

/-- **C181 fails: an empty line.** The answer to a line typed before is proposed for the empty line of the next prompt, for up to
eight seconds, although it was never asked what to propose there. -/
theorem C181_empty_violated (blocked : Str → Bool) (line : Str) (a a' : Around) (ans : Str) (t : Nat) (hl : trim line ≠ []) (hp : Plain ans)
    (hs : line <+: ans) (h1 : a.history = none) (h2 : a.path = none) (ht : a'.t ≤ t + 8000) (hh : a'.history = none) (hh' : a'.path = none) :
    (((start true true).evs blocked (round line a (some ans) t)).refresh blocked [] a').shown = [⟨ans, .ai⟩] := by
  obtain ⟨i1, i2⟩ := start_idle true line a h1 h2
  exact (shown_answer blocked true [] line [] a a' ans t i1 i2 rfl hl hp hs ⟨ans, hp.1, rfl⟩ ht hh hh' rfl).2

/-- **C181 fails: elsewhere.** The answer given for one directory is shown in each other one, for up to eight seconds. -/
theorem C181_elsewhere_violated (blocked : Str → Bool) (line : Str) (a a' : Around) (ans : Str) (t : Nat) (hl : trim line ≠ []) (hp : Plain ans)
    (hs : ∃ rest, rest ≠ [] ∧ ans = line ++ rest) (h1 : a.history = none) (h2 : a.path = none) (ht : a'.t ≤ t + 8000) (hh : a'.history = none)
    (hh' : a'.path = none) (_hd : a.cwd ≠ a'.cwd) :
    (∀ r ∈ ((start true true).evs blocked (round line a (some ans) t)).back.sent, r.cwd = some a.cwd) ∧
    (((start true true).evs blocked (round line a (some ans) t)).refresh blocked line a').shown = [⟨ans, .ai⟩] := by
  obtain ⟨i1, i2⟩ := start_idle true line a h1 h2
  obtain ⟨k1, k2⟩ := shown_answer blocked true [] line line a a' ans t i1 i2 rfl hl hp (by obtain ⟨r, -, rfl⟩ := hs; exact List.prefix_append ..) hs ht hh hh' rfl
  refine ⟨?_, k2⟩
  intro r hr
  have k1' : ((start true true).evs blocked (round line a (some ans) t)).back.sent = [full line a] := k1
  rw [k1', List.mem_singleton] at hr
  rw [hr]; rfl

/-- **C181 fails: quotes.** An answer that ends with a quote is shown without it. -/
theorem C181_quote_violated (r : Req) (s : Str) (q : Char) (hq : quote q = true) (h : Plain s) (hr : r.input ≠ []) (hi : r.input <+: s) :
    fetch r (some (s ++ [q])) = some s := by
  have hqw : rustWhitespace q = false := by
    unfold quote at hq
    simp only [Bool.or_eq_true, decide_eq_true_eq] at hq
    rcases hq with (rfl | rfl) | rfl <;> decide
  obtain ⟨hne, hn, hh, hl⟩ := h
  have hc : clean (s ++ [q]) = s := by
    unfold clean
    have t1 : trim (s ++ [q]) = s ++ [q] := by
      apply Live.trim_ends
      · intro c hc
        cases s with
        | nil => exact absurd rfl hne
        | cons x xs => exact (hh c hc).1
      · intro c hc
        rw [List.getLast?_concat] at hc
        cases hc; exact hqw
    have t2 : unfence (s ++ [q]) = s ++ [q] := by
      unfold unfence
      rw [if_neg]
      cases s with
      | nil => exact absurd rfl hne
      | cons c cs =>
        have := (hh c rfl).2
        simp only [List.cons_append, List.isPrefixOf, Bool.and_eq_true, beq_iff_eq, not_and]
        rintro rfl
        exact absurd this (by decide)
    have t3 : trimQuotes (s ++ [q]) = s := by
      have t4 := trimQuotes_id (fun c hc => (hh c hc).2) fun c hc => (hl c hc).2
      unfold trimQuotes at t4 ⊢
      have e1 : (s ++ [q]).dropWhile quote = s ++ [q] := by
        cases s with
        | nil => exact absurd rfl hne
        | cons c cs => rw [List.cons_append, List.dropWhile_cons, (hh c rfl).2]; rfl
      have e2 : s.dropWhile quote = s := by
        cases s with
        | nil => rfl
        | cons c cs => rw [List.dropWhile_cons, (hh c rfl).2]; rfl
      rw [e2] at t4
      rw [e1, List.reverse_append]
      show ((q :: s.reverse).dropWhile quote).reverse = s
      rw [List.dropWhile_cons, hq]
      exact t4
    rw [t1, t2, t3, lines_one s hne hn]
    exact Plain.trim ⟨hne, hn, hh, hl⟩
  unfold fetch
  have h1 : s.isEmpty = false := by rw [List.isEmpty_eq_false_iff]; exact hne
  have h2 : r.input.isPrefixOf s = true := List.isPrefixOf_iff_prefix.2 hi
  have h3 : r.input.isEmpty = false := by rw [List.isEmpty_eq_false_iff]; exact hr
  simp only [hc, h1, h2, h3, Bool.false_eq_true, if_false, if_true]

theorem clean_head (s : Str) : ∀ c ∈ (clean s).head?, rustWhitespace c = false := by
  have : ∀ l : Str, ∀ c ∈ (trim l).head?, rustWhitespace c = false := by
    intro l c hc
    apply Setup.trimStart_head l
    obtain ⟨r, hr⟩ := trimEnd_infix (trimStart l)
    have : trimEnd (trimStart l) = trim l := rfl
    rw [this] at hr
    rw [← hr]
    cases ht : trim l with
    | nil => rw [ht] at hc; cases hc
    | cons x xs => rw [ht] at hc; exact hc
  unfold clean
  split
  · exact this _
  · intro c hc; cases hc

/-- **C181 fails: a blank first.** No answer at all can be used for a line that begins with a blank, not even one that goes on with
exactly that line; it is asked about all the same (C182). -/
theorem C181_blank_violated (r : Req) (c : Char) (rest : Str) (h : r.input = c :: rest) (hc : rustWhitespace c = true) (ans : Option Str) :
    fetch r ans = none := by
  cases ans with
  | none => rfl
  | some s =>
    unfold fetch
    have h3 : r.input.isEmpty = false := by rw [h]; rfl
    simp only [h3, Bool.false_eq_true, if_false]
    split
    · rfl
    · rw [if_neg]
      intro hp
      rw [h, List.isPrefixOf_iff_prefix] at hp
      obtain ⟨x, hx⟩ := hp
      have := clean_head s c (by rw [← hx]; rfl)
      rw [hc] at this; cases this

theorem cutFence_end : ∀ (p : Str), '`' ∉ p → cutFence (p ++ c!"```") = some p
  | [], _ => by decide
  | c :: p, h => by
    have := cutFence_end p (fun hh => h (List.mem_cons_of_mem _ hh))
    show (match cutFence (p ++ c!"```") with | some p => some (c :: p) | none => _) = _
    rw [this]

theorem behindLine_at : ∀ (p r : Str), '\n' ∉ p → behindLine (p ++ '\n' :: r) = some r
  | [], r, _ => rfl
  | c :: p, r, h => by
    have := behindLine_at p r (fun hh => h (List.mem_cons_of_mem _ hh))
    show (if c = '\n' then _ else behindLine (p ++ '\n' :: r)) = _
    rw [if_neg (by rintro rfl; exact h (List.mem_cons_self ..)), this]

/-- **C181 fails: blocks.** Of an answer in a block of two lines without a language the first line is thrown away as if it were the
name of a language: the second one is shown. -/
theorem C181_block_violated (r : Req) (l1 l2 : Str) (h1 : Plain l1) (h2 : Plain l2) (n1 : '`' ∉ l1) (n2 : '`' ∉ l2) (hr : r.input ≠ [])
    (hi : r.input <+: l2) : fetch r (some (c!"```\n" ++ l1 ++ '\n' :: l2 ++ c!"\n```")) = some l2 := by
  have hsplit : c!"```\n" ++ l1 ++ '\n' :: l2 ++ c!"\n```" = c!"```" ++ (('\n' :: (l1 ++ '\n' :: l2) ++ ['\n']) ++ c!"```") := by simp
  have ht : trim (c!"```\n" ++ l1 ++ '\n' :: l2 ++ c!"\n```") = c!"```" ++ (('\n' :: (l1 ++ '\n' :: l2) ++ ['\n']) ++ c!"```") := by
    rw [hsplit]
    apply Live.trim_ends
    · intro c hc; cases hc; decide
    · intro c hc
      have : c!"```" ++ (('\n' :: (l1 ++ '\n' :: l2) ++ ['\n']) ++ c!"```") = (c!"```" ++ (('\n' :: (l1 ++ '\n' :: l2) ++ ['\n']) ++ c!"``")) ++ ['`'] := by
        simp
      rw [this, List.getLast?_concat] at hc
      cases hc; decide
  have hin : trim ('\n' :: (l1 ++ '\n' :: l2) ++ ['\n']) = l1 ++ '\n' :: l2 := by
    have e1 : trimStart ('\n' :: (l1 ++ '\n' :: l2) ++ ['\n']) = (l1 ++ '\n' :: l2) ++ ['\n'] := by
      unfold trimStart
      rw [List.cons_append, List.dropWhile_cons]
      have : rustWhitespace '\n' = true := by decide
      rw [this]
      simp only [if_true]
      cases l1 with
      | nil => exact absurd rfl h1.1
      | cons c cs =>
        rw [List.cons_append, List.cons_append, List.dropWhile_cons, (h1.2.2.1 c rfl).1]
        rfl
    unfold trim
    rw [e1]
    unfold trimEnd
    rw [List.reverse_append]
    show (('\n' :: (l1 ++ '\n' :: l2).reverse).dropWhile rustWhitespace).reverse = _
    have : rustWhitespace '\n' = true := by decide
    rw [List.dropWhile_cons, this]
    simp only [if_true]
    have hne : l2.reverse ≠ [] := by simpa using h2.1
    have : (l1 ++ '\n' :: l2).reverse.dropWhile rustWhitespace = (l1 ++ '\n' :: l2).reverse := by
      rw [List.reverse_append, List.reverse_cons]
      cases hr2 : l2.reverse with
      | nil => exact absurd hr2 hne
      | cons c cs =>
        have := h2.2.2.2 c (by rw [← List.head?_reverse, hr2]; rfl)
        rw [List.cons_append, List.cons_append, List.dropWhile_cons, this.1]
        rfl
    rw [this, List.reverse_reverse]
  have hnb : '`' ∉ '\n' :: (l1 ++ '\n' :: l2) ++ ['\n'] := by
    simp [n1, n2]
  have hu : unfence (c!"```" ++ (('\n' :: (l1 ++ '\n' :: l2) ++ ['\n']) ++ c!"```")) = l2 := by
    unfold unfence
    rw [if_pos (by simp [List.isPrefixOf])]
    have hd : (c!"```" ++ (('\n' :: (l1 ++ '\n' :: l2) ++ ['\n']) ++ c!"```")).drop 3 = ('\n' :: (l1 ++ '\n' :: l2) ++ ['\n']) ++ c!"```" := rfl
    rw [hd, cutFence_end _ hnb]
    dsimp only
    rw [hin, behindLine_at l1 l2 h1.2.1]
    exact h2.trim
  have hc : clean (c!"```\n" ++ l1 ++ '\n' :: l2 ++ c!"\n```") = l2 := by
    unfold clean
    rw [ht, hu, trimQuotes_id (fun c hc => (h2.2.2.1 c hc).2) fun c hc => (h2.2.2.2 c hc).2, lines_one l2 h2.1 h2.2.1]
    exact h2.trim
  unfold fetch
  have e1 : l2.isEmpty = false := by rw [List.isEmpty_eq_false_iff]; exact h2.1
  have e2 : r.input.isPrefixOf l2 = true := List.isPrefixOf_iff_prefix.2 hi
  have e3 : r.input.isEmpty = false := by rw [List.isEmpty_eq_false_iff]; exact hr
  simp only [hc, e1, e2, e3, Bool.false_eq_true, if_false, if_true]

/-- Case: a message in quotes, and two commands in a block. -/
theorem quote_case (r : Req) (h : r.input = c!"echo") :
    fetch r (some c!"echo \"a\"") = some c!"echo \"a" ∧ fetch r (some c!"```\necho a\necho b\n```") = some c!"echo b" := by
  have hr : r.input ≠ [] := by rw [h]; decide
  refine ⟨C181_quote_violated r c!"echo \"a" '"' rfl ⟨by decide, by decide, by decide, by decide⟩ hr (by rw [h]; exact ⟨c!" \"a", rfl⟩), ?_⟩
  exact C181_block_violated r c!"echo a" c!"echo b" ⟨by decide, by decide, by decide, by decide⟩ ⟨by decide, by decide, by decide, by decide⟩ (by decide) (by decide) hr
    (by rw [h]; exact ⟨c!" b", rfl⟩)

/-! ### Asked again and again -/

/-- Nobody types: every `step` milliseconds the line is refreshed, and the service gives the next answer. -/
def rounds (line : Str) (step : Nat) : Nat → List (Option Str) → List Ev
  | _, [] => []
  | k, x :: xs => round line { t := step * k } x (step * k + 1) ++ rounds line step (k + 1) xs

theorem rounds_sent (blocked : Str → Bool) (line : Str) (hl : trim line ≠ []) (step : Nat) (ok : Str → Prop)
    (hok : ∀ c t0 k, ok c → t0 ≤ step * k + 1 → t0 + 8000 < step * (k + 1) ∨ ¬ ∃ rest, rest ≠ [] ∧ c = line ++ rest) :
    ∀ (xs : List (Option Str)) (k : Nat) (e : Ed), EInv e → Idle e.back → e.backfill = true → e.kept = none →
      (∀ c t0, e.back.cached = some (c, t0) → t0 + 8000 < step * k ∨ ¬ ∃ rest, rest ≠ [] ∧ c = line ++ rest) →
      (∀ x ∈ xs, ∀ a c, fetch (full line a) x = some c → ok c) →
      (∀ c t0, e.back.cached = some (c, t0) → ok c ∧ t0 ≤ step * k + 1) →
      (e.evs blocked (rounds line step k xs)).back.sent.map Req.input = e.back.sent.map Req.input ++ List.replicate xs.length line
  | [], k, e, _, _, _, _, _, _, _ => by simp [rounds, Ed.evs]
  | x :: xs, k, e, he, hi, hb, hk, hc, hx, hc' => by
    have hu : Unknown e line { t := step * k } := ⟨rfl, rfl, by unfold Ed.useKept; rw [hk], hc⟩
    obtain ⟨r1, r2, r3, r4, r5, r6, r7⟩ := round_spec (blocked := blocked) he hi hb hl hu x (step * k + 1)
    have hev : e.evs blocked (rounds line step k (x :: xs)) =
        (e.evs blocked (round line { t := step * k } x (step * k + 1))).evs blocked (rounds line step (k + 1) xs) := by
      unfold Ed.evs; rw [rounds, List.foldl_append]
    rw [hev]
    have hkk : step * k ≤ step * (k + 1) := Nat.mul_le_mul_left _ (by omega)
    have hc2 : ∀ c t0, (e.evs blocked (round line { t := step * k } x (step * k + 1))).back.cached = some (c, t0) → ok c ∧ t0 ≤ step * k + 1 := by
      intro c t0 h
      rw [r7] at h
      cases hf : fetch (full line { t := step * k }) x with
      | none => rw [hf] at h; exact hc' c t0 h
      | some c' =>
        rw [hf] at h
        cases h
        exact ⟨hx x (List.mem_cons_self ..) _ _ hf, Nat.le_refl _⟩
    have hkn : (e.evs blocked (round line { t := step * k } x (step * k + 1))).kept = none := by
      rcases r5 with r5 | r5
      · exact r5
      · rw [r5, hk]
    rw [rounds_sent blocked line hl step ok hok xs (k + 1) _ r1 r2 r3
      hkn (fun c t0 h => hok c t0 k (hc2 c t0 h).1 (hc2 c t0 h).2) (fun y hy => hx y (List.mem_cons_of_mem _ hy))
      (fun c t0 h => ⟨(hc2 c t0 h).1, by have := (hc2 c t0 h).2; omega⟩), r4]
    rw [List.map_append, List.append_assoc]
    show _ ++ ([line] ++ List.replicate xs.length line) = _
    rw [List.length_cons, List.replicate_succ]
    rfl

/-- **C182 fails: asked for ever.** Nobody touches the keyboard; whatever the service answers, the same line is sent to it again every nine
seconds, without end. -/
theorem C182_again_violated (blocked : Str → Bool) (line : Str) (hl : trim line ≠ []) (answers : List (Option Str)) :
    ((start true true).evs blocked (rounds line 9000 0 answers)).back.sent.map Req.input = List.replicate answers.length line := by
  have h := rounds_sent blocked line hl 9000 (fun _ => True) (fun c t0 k _ h => .inl (by omega)) answers 0 (start true true) (start_inv true true)
    (start_idle true line { t := 0 } rfl rfl).1 rfl rfl (by simp [start]) (fun _ _ _ _ _ => trivial) (by simp [start])
  simpa [start] using h

/-- **C182 fails: nothing to add.** The service is told to answer with the line itself if there is nothing to add, and the code says that
this stops the asking. It does not: with this answer, as with none, each tick of 300 milliseconds asks again. -/
theorem C182_same_violated (blocked : Str → Bool) (line : Str) (hl : Plain line) (answers : List (Option Str))
    (h : ∀ x ∈ answers, x = none ∨ x = some line) :
    ((start true true).evs blocked (rounds line 300 0 answers)).back.sent.map Req.input = List.replicate answers.length line := by
  have hl' : trim line ≠ [] := by rw [hl.trim]; exact hl.1
  have h := rounds_sent blocked line hl' 300 (fun c => c = line) (fun c t0 k hc h => .inr (by
    rintro ⟨rest, hr, he⟩
    rw [hc] at he
    have := congrArg List.length he
    rw [List.length_append] at this
    cases rest with
    | nil => exact hr rfl
    | cons _ _ => simp at this)) answers 0 (start true true) (start_inv true true)
    (start_idle true line { t := 0 } rfl rfl).1 rfl rfl (by simp [start])
    (fun x hx a c hf => by
      rcases h x hx with rfl | rfl
      · cases hf
      · rw [C181_verbatim_partial (full line a) line hl (List.prefix_refl _)] at hf
        cases hf; rfl) (by simp [start])
  simpa [start] using h

theorem refresh_pending {blocked : Str → Bool} {e : Ed} {line : Str} {a : Around} (hb : e.backfill = true) (hl : trim line ≠ [])
    (hc : e.back.ctx = none) (h : Unknown e line a) :
    (e.refresh blocked line a).back.pending = some (full line a) ∧ (e.refresh blocked line a).back.worker = e.back.worker ∧
      (e.refresh blocked line a).back.cached = e.back.cached ∧ (e.refresh blocked line a).back.sent = e.back.sent := by
  obtain ⟨-, r2, -⟩ := refresh_asks (blocked := blocked) hb hl hc h
  rcases r2 with r2 | r2 <;> rw [r2] <;> refine ⟨(enqueue_pending _ _).1, ?_, ?_, ?_⟩
  · exact (enqueue_pending _ _).2.2.1
  · exact (enqueue_pending _ _).2.2.2.1
  · exact (enqueue_pending _ _).2.2.2.2.2.1
  · rw [(enqueue_pending _ _).2.2.1, (enqueue_pending _ _).2.2.1]
  · rw [(enqueue_pending _ _).2.2.2.1, (enqueue_pending _ _).2.2.2.1]
  · rw [(enqueue_pending _ _).2.2.2.2.2.1, (enqueue_pending _ _).2.2.2.2.2.1]

/-- **C182 fails: asked twice.** A tick while the answer is awaited makes the same request wait again; it is sent when the answer is there, however
good that answer is. -/
theorem C182_twice_violated (blocked : Str → Bool) (line : Str) (hl : trim line ≠ []) (a a' : Around) (h1 : a.history = none) (h2 : a.path = none)
    (h3 : a'.history = none) (h4 : a'.path = none) (ans : Option Str) (t : Nat) :
    ((start true true).evs blocked [.refresh line a, .work, .work, .refresh line a', .answer ans t, .work]).back.sent = [full line a, full line a'] := by
  have u1 := (start_idle true line a h1 h2).2
  obtain ⟨p1, p2, p3, p4⟩ := refresh_pending (blocked := blocked) (e := start true true) rfl hl rfl u1
  obtain ⟨-, -, rb, rk⟩ := refresh_asks (blocked := blocked) (e := start true true) rfl hl rfl u1
  have hinv := reach blocked true true [.refresh line a]
  have he1 : (start true true).evs blocked [.refresh line a] = (start true true).refresh blocked line a := rfl
  rw [he1] at hinv
  obtain ⟨w1, w2, w3, w4, w5⟩ := work_two hinv.back p1 (by rw [p2]; simp [start])
  have hinv2 := reach blocked true true [.refresh line a, .work, .work]
  have he2 : (start true true).evs blocked [.refresh line a, .work, .work] =
      { (start true true).refresh blocked line a with back := ((start true true).refresh blocked line a).back.work.work } := rfl
  have hk : ((start true true).evs blocked [.refresh line a, .work, .work]).kept = none := by
    rw [he2]
    rcases rk with rk | rk
    · exact rk
    · rw [show (start true true).kept = none from rfl] at rk; exact rk
  have hcache : ((start true true).evs blocked [.refresh line a, .work, .work]).back.cached = none := by
    rw [he2]; dsimp only; rw [w4, p3]; rfl
  have u2 : Unknown ((start true true).evs blocked [.refresh line a, .work, .work]) line a' :=
    ⟨h3, h4, by unfold Ed.useKept; rw [hk], by rw [hcache]; simp⟩
  obtain ⟨q1, q2, q3, q4⟩ := refresh_pending (blocked := blocked) (by rw [he2]; exact rb) hl hinv2.back.ctx u2
  have hlast := C182_next_partial blocked true true [.refresh line a, .work, .work, .refresh line a'] (full line a') q1
  have hw : ((start true true).evs blocked [.refresh line a, .work, .work, .refresh line a']).back.worker = .asking (full line a) := by
    refine q2.trans ?_
    rw [he2]; exact w1
  have := (hlast.2.2 _ hw ans t).2
  refine this.trans ?_
  have hs : ((start true true).evs blocked [.refresh line a, .work, .work, .refresh line a']).back.sent = [full line a] := by
    refine q4.trans ?_
    rw [he2]; dsimp only; rw [w2, p4]; rfl
  rw [hs]; rfl

/-- **C182 fails: asking ahead.** When the directory has changed the AI is to be asked ahead; nothing is, and answers of that kind are never there. -/
theorem C182_ahead_violated (blocked : Str → Bool) (g b : Bool) (l : List Ev) (cwd : Str) (files : List Str) :
    (start g b).evs blocked (l ++ [.moved cwd files]) = (start g b).evs blocked l ∧ ((start g b).evs blocked l).back.ctx = none := by
  refine ⟨?_, (reach blocked g b l).back.ctx⟩
  unfold Ed.evs
  rw [List.foldl_append]
  rfl

/-! ### C183: when the AI is asked -/

theorem predict_made (b : Back) (r : Req) (t : Nat) : ∀ x ∈ (b.predict r t).2.made, x ∈ b.made ∨ x = r := by
  intro x hx
  unfold Back.predict at hx
  split at hx
  · exact .inl hx
  · split at hx
    · exact .inl hx
    · rw [(enqueue_pending _ _).2.2.2.2.2.2] at hx
      rcases List.mem_append.1 hx with hx | hx
      · exact .inl hx
      · exact .inr (List.mem_singleton.1 hx)

theorem edpredict_made (blocked : Str → Bool) (e : Ed) (line : Str) (a : Around) :
    ∀ x ∈ (e.predict blocked line a).2.back.made, x ∈ e.back.made ∨ x = bare line a := by
  intro x hx
  unfold Ed.predict at hx
  split at hx
  · exact .inl hx
  · split at hx
    · exact .inl hx
    · split at hx
      · exact .inl hx
      · split at hx
        · dsimp only at hx
          split at hx <;> exact predict_made _ _ _ x hx
        · exact .inl hx

theorem refresh_made (blocked : Str → Bool) (e : Ed) (line : Str) (a : Around) :
    ∀ x ∈ (e.refresh blocked line a).back.made, x ∈ e.back.made ∨ x = bare line a ∨ x = full line a := by
  intro x hx
  unfold Ed.refresh at hx
  dsimp only at hx
  split at hx
  · rcases predict_made _ _ _ x hx with hx | hx
    · rcases edpredict_made blocked e line a x hx with hx | hx
      · exact .inl hx
      · exact .inr (.inl hx)
    · exact .inr (.inr hx)
  · rcases edpredict_made blocked e line a x hx with hx | hx
    · exact .inl hx
    · exact .inr (.inl hx)

theorem force_made (e : Ed) (line : Str) (a : Around) : ∀ x ∈ (e.force line a).back.made, x ∈ e.back.made ∨ x = full line a := by
  intro x hx
  unfold Ed.force at hx
  dsimp only at hx
  split at hx <;> exact predict_made _ _ _ x hx

theorem work_made (b : Back) : b.work.made = b.made := by
  unfold Back.work
  split
  · split <;> rfl
  · split <;> rfl
  · rfl

theorem answer_made (b : Back) (a : Option Str) (t : Nat) : (b.answer a t).made = b.made := by
  unfold Back.answer
  split
  · unfold Back.handle
    dsimp only
    split <;> (split <;> first | rfl | (split <;> first | rfl | (split <;> rfl)))
  · rfl

theorem evs_made (blocked : Str → Bool) : ∀ (l : List Ev) (e : Ed), ∀ x ∈ (e.evs blocked l).back.made, x ∈ e.back.made ∨
    ∃ line a, (Ev.refresh line a ∈ l ∨ Ev.force line a ∈ l) ∧ (x = bare line a ∨ x = full line a)
  | [], e, x, hx => .inl hx
  | v :: l, e, x, hx => by
    rcases evs_made blocked l (e.ev blocked v) x hx with hx | ⟨line, a, h1, h2⟩
    · cases v with
      | refresh line a =>
        rcases refresh_made blocked e line a x hx with hx | hx
        · exact .inl hx
        · exact .inr ⟨line, a, .inl (List.mem_cons_self ..), hx⟩
      | force line a =>
        rcases force_made e line a x hx with hx | hx
        · exact .inl hx
        · exact .inr ⟨line, a, .inr (List.mem_cons_self ..), .inr hx⟩
      | moved c f => exact .inl hx
      | set g b => exact .inl hx
      | work => exact .inl (by rw [← work_made e.back]; exact hx)
      | answer y t => exact .inl (by rw [← answer_made e.back y t]; exact hx)
    · refine .inr ⟨line, a, ?_, h2⟩
      rcases h1 with h1 | h1
      · exact .inl (List.mem_cons_of_mem _ h1)
      · exact .inr (List.mem_cons_of_mem _ h1)

/-- **C183, only lines.** What is sent is a line that stood there at a refresh, or at Alt-s, and is not blank; with it goes nothing but the context
there was at that time. -/
theorem C183_only_partial (blocked : Str → Bool) (g b : Bool) (l : List Ev) (r : Req) (h : r ∈ ((start g b).evs blocked l).back.sent) :
    trim r.input ≠ [] ∧ ∃ a, (Ev.refresh r.input a ∈ l ∨ Ev.force r.input a ∈ l) ∧ r.history = a.recent ∧ r.cursor = a.cursor ∧
      (r.cwd = none ∨ r.cwd = some a.cwd) ∧ (r.files = [] ∨ r.files = a.files) ∧ (r.code = none ∨ r.code = some a.code) := by
  have hi := (reach blocked g b l).back
  have hm := hi.sent r h
  refine ⟨hi.made r hm, ?_⟩
  rcases evs_made blocked l (start g b) r hm with hx | ⟨line, a, h1, h2⟩
  · cases hx
  · rcases h2 with rfl | rfl
    · exact ⟨a, h1, rfl, rfl, .inl rfl, .inl rfl, .inl rfl⟩
    · exact ⟨a, h1, rfl, rfl, .inr rfl, .inr rfl, .inr rfl⟩

theorem refresh_unset (blocked : Str → Bool) (e : Ed) (line : Str) (a : Around) (h : e.backfill = false) :
    (e.refresh blocked line a).back = e.back ∧ (e.refresh blocked line a).backfill = false := by
  have : (e.predict blocked line a).2.back = e.back ∧ (e.predict blocked line a).2.backfill = false := by
    unfold Ed.predict
    split
    · exact ⟨rfl, h⟩
    · split
      · exact ⟨rfl, h⟩
      · split
        · exact ⟨rfl, h⟩
        · rw [if_neg (by rw [h]; decide)]
          exact ⟨rfl, h⟩
  unfold Ed.refresh
  dsimp only
  rw [if_neg (by rw [this.2, Bool.and_false]; decide)]
  exact this

/-- **C183, not set.** As long as suggestions of the AI are not set and nobody presses Alt-s, nothing is sent. -/
theorem C183_unset_partial (blocked : Str → Bool) (g : Bool) (l : List Ev) (h1 : ∀ g', Ev.set g' true ∉ l) (h2 : ∀ line a, Ev.force line a ∉ l) :
    ((start g false).evs blocked l).back.sent = [] := by
  have key : ∀ (l : List Ev) (e : Ed), e.backfill = false → e.back.made = [] → (∀ g', Ev.set g' true ∉ l) → (∀ line a, Ev.force line a ∉ l) →
      (e.evs blocked l).back.made = [] := by
    intro l
    induction l with
    | nil => intro e _ hm _ _; exact hm
    | cons v l ih =>
      intro e hb hm h1 h2
      have h1' : ∀ g', Ev.set g' true ∉ l := fun g' hh => h1 g' (List.mem_cons_of_mem _ hh)
      have h2' : ∀ line a, Ev.force line a ∉ l := fun x y hh => h2 x y (List.mem_cons_of_mem _ hh)
      refine ih (e.ev blocked v) ?_ ?_ h1' h2'
      · cases v with
        | refresh line a => exact (refresh_unset blocked e line a hb).2
        | force line a => exact absurd (List.mem_cons_self ..) (h2 line a)
        | moved _ _ => exact hb
        | set g' b' =>
          cases b' with
          | true => exact absurd (List.mem_cons_self ..) (h1 g')
          | false => rfl
        | work => exact hb
        | answer _ _ => exact hb
      · cases v with
        | refresh line a =>
          show (e.refresh blocked line a).back.made = []
          rw [(refresh_unset blocked e line a hb).1]; exact hm
        | force line a => exact absurd (List.mem_cons_self ..) (h2 line a)
        | moved _ _ => exact hm
        | set _ _ => exact hm
        | work => show e.back.work.made = []; rw [work_made]; exact hm
        | answer x t => show (e.back.answer x t).made = []; rw [answer_made]; exact hm
  have hm := key l (start g false) rfl rfl h1 h2
  cases hs : ((start g false).evs blocked l).back.sent with
  | nil => rfl
  | cons r rs =>
    have := (reach blocked g false l).back.sent r (by rw [hs]; exact List.mem_cons_self ..)
    rw [hm] at this; cases this

/-- **C183, known lines.** For a line that history or a file name goes on with, the AI is not asked, and this alone is shown. -/
theorem C183_known_partial (blocked : Str → Bool) (e : Ed) (line : Str) (a : Around) (hg : e.ghost = true) (hl : line ≠ [])
    (h : a.history ≠ none ∨ a.path ≠ none) :
    (e.refresh blocked line a).back = e.back ∧
      (e.refresh blocked line a).shown = match a.history with
        | some x => [⟨x, .history⟩]
        | none => match a.path with | some x => [⟨x, .completion⟩] | none => [] := by
  have hl' : line.isEmpty = false := by rw [List.isEmpty_eq_false_iff]; exact hl
  have key : ∀ s, e.predict blocked line a = ([s], { e with kept := none }) → e.refresh blocked line a = { e with kept := none, shown := [s] } := by
    intro s hs
    unfold Ed.refresh
    rw [hs]
    rfl
  cases hh : a.history with
  | some x =>
    have := key ⟨x, .history⟩ (by unfold Ed.predict; simp only [hg, hl', hh]; rfl)
    rw [this]; exact ⟨rfl, rfl⟩
  | none =>
    cases hp : a.path with
    | some x =>
      have := key ⟨x, .completion⟩ (by unfold Ed.predict; simp only [hg, hl', hh, hp]; rfl)
      rw [this]; exact ⟨rfl, rfl⟩
    | none => rcases h with h | h
              · exact absurd hh h
              · exact absurd hp h

/-- **C183, all off.** With suggestions turned off and those of the AI not set, nothing is shown and nothing asked, whatever happened before. -/
theorem C183_quiet_partial (blocked : Str → Bool) (e : Ed) (line : Str) (a : Around) (hg : e.ghost = false) (hb : e.backfill = false) :
    (e.refresh blocked line a).back = e.back ∧ (e.refresh blocked line a).shown = [] := by
  have hp : e.predict blocked line a = ([], { e with kept := none }) := by
    unfold Ed.predict
    rw [if_pos (by rw [hg]; rfl)]
  unfold Ed.refresh
  simp only [hp]
  rw [if_neg (by rw [hb]; decide)]
  exact ⟨rfl, rfl⟩

/-- **C183 fails: suggestions off.** With suggestions turned off each line is sent all the same, and the answer shown. -/
theorem C183_off_violated (blocked : Str → Bool) (line : Str) (a a' : Around) (ans : Str) (t : Nat) (hl : trim line ≠ []) (hp : Plain ans)
    (hs : ∃ rest, rest ≠ [] ∧ ans = line ++ rest) (h1 : a.history = none) (h2 : a.path = none) (ht : a'.t ≤ t + 8000) (hh : a'.history = none)
    (hh' : a'.path = none) :
    ((start false true).evs blocked (round line a (some ans) t)).back.sent = [full line a] ∧
    (((start false true).evs blocked (round line a (some ans) t)).refresh blocked line a').shown = [⟨ans, .ai⟩] := by
  obtain ⟨i1, i2⟩ := start_idle false line a h1 h2
  exact shown_answer blocked false [] line line a a' ans t i1 i2 rfl hl hp (by obtain ⟨r, -, rfl⟩ := hs; exact List.prefix_append ..) hs ht hh hh' rfl

/-- **C183 fails: blocked commands.** A line of a command the AI is not to be asked about is sent too, and the answer shown. -/
theorem C183_blocked_violated (blocked : Str → Bool) (line : Str) (_hb : blocked line = true) (a a' : Around) (ans : Str) (t : Nat) (hl : trim line ≠ [])
    (hp : Plain ans) (hs : ∃ rest, rest ≠ [] ∧ ans = line ++ rest) (h1 : a.history = none) (h2 : a.path = none) (ht : a'.t ≤ t + 8000)
    (hh : a'.history = none) (hh' : a'.path = none) :
    ((start true true).evs blocked (round line a (some ans) t)).back.sent = [full line a] ∧
    (((start true true).evs blocked (round line a (some ans) t)).refresh blocked line a').shown = [⟨ans, .ai⟩] := by
  obtain ⟨i1, i2⟩ := start_idle true line a h1 h2
  exact shown_answer blocked true [] line line a a' ans t i1 i2 rfl hl hp (by obtain ⟨r, -, rfl⟩ := hs; exact List.prefix_append ..) hs ht hh hh' rfl

/-- **C183 fails: secrets.** A line with a secret, which history does not keep, is sent as it is while it is typed. -/
theorem C183_secret_violated (blocked : Str → Bool) (M : Secrets.Manager) (line : Str) (_h : Secrets.sensitiveCmd M line = true) (hl : trim line ≠ [])
    (a : Around) (h1 : a.history = none) (h2 : a.path = none) :
    ∃ r ∈ ((start true true).evs blocked [.refresh line a, .work, .work]).back.sent, ∀ gh bf os, line <:+: payload gh bf os r := by
  have u1 := (start_idle true line a h1 h2).2
  obtain ⟨p1, p2, p3, p4⟩ := refresh_pending (blocked := blocked) (e := start true true) rfl hl rfl u1
  have hinv := reach blocked true true [.refresh line a]
  obtain ⟨w1, w2, -⟩ := work_two (b := ((start true true).refresh blocked line a).back) hinv.back p1 (by rw [p2]; simp [start])
  refine ⟨full line a, ?_, ?_⟩
  · show full line a ∈ ((start true true).refresh blocked line a).back.work.work.sent
    rw [w2]; simp
  · intro gh bf os
    have : line <:+: c!"UserInput: " ++ line ++ c!"\n" := List.infix_append _ _ _
    refine this.trans ?_
    unfold payload
    exact List.infix_append _ _ _

end Dsh.AiSug
