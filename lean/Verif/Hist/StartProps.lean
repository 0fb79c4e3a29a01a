import Verif.Hist.Start
/-!
C204: what is used while the history is loaded.
-/
namespace Dsh.HistStart
open Dsh.HistStore

theorem Run.append {s u : St} {a b : List Label} (h : Run s (a ++ b) u) : ∃ t, Run s a t ∧ Run t b u := by
  induction a generalizing s with
  | nil => exact ⟨s, .nil s, h⟩
  | cons l a ih =>
    cases h with
    | cons he hr =>
      obtain ⟨t, h1, h2⟩ := ih hr
      exact ⟨t, .cons he h1, h2⟩

/-- An invariant of the steps holds along executions. -/
theorem Run.inv {P : St → Prop} {s t : St} {ls : List Label} (h : Run s ls t) (hs : P s)
    (hp : ∀ s l, l ∈ ls → P s → Enabled s l → P (next s l)) : P t := by
  induction h with
  | nil => exact hs
  | cons he _ ih => exact ih (hp _ _ (by simp) hs he) fun s l hl => hp s l (by simp [hl])

/-! ### Which commands there are -/

theorem mem_writes (ctx : Option Str) (us : List Use) (l : List Entry) (c : Str) :
    c ∈ cmds (us.foldl (remember ctx) l) ↔ c ∈ cmds l ∨ ∃ u ∈ us, u.1 = c := by
  induction us generalizing l with
  | nil => simp
  | cons u us ih =>
    rw [List.foldl_cons, ih, cmds_remember]
    simp only [List.mem_append, List.mem_cons, exists_eq_or_imp]
    by_cases hc : c = u.1
    · simp [hc]
    · rw [List.mem_erase_of_ne hc, or_iff_left (List.not_mem_nil (a := c))]
      constructor
      · rintro ((h | h) | h)
        · exact Or.inl h
        · exact absurd h hc
        · exact Or.inr (Or.inr h)
      · rintro (h | h | h)
        · exact Or.inl (Or.inl h)
        · exact absurd h.symm hc
        · exact Or.inr h

theorem mem_sync (ctx : Option Str) (us : List Use) (db : List Entry) (c : Str) :
    c ∈ cmds (writeSync (fun _ => false) ctx db us) ↔ c ∈ cmds db ∨ ∃ u ∈ us, u.1 = c := by
  unfold writeSync
  induction us generalizing db with
  | nil => simp
  | cons u us ih =>
    rw [List.foldl_cons, ih]
    have : upsertTry (fun _ => false) ctx db u = upsert ctx db u := rfl
    rw [this, cmds_upsert]
    simp only [List.mem_cons, exists_eq_or_imp]
    by_cases hu : u.1 ∈ cmds db
    · rw [if_pos hu]
      constructor
      · rintro (h | h)
        · exact Or.inl h
        · exact Or.inr (Or.inr h)
      · rintro (h | h | h)
        · exact Or.inl h
        · exact Or.inl (h ▸ hu)
        · exact Or.inr h
    · rw [if_neg hu]
      simp only [List.mem_append, List.mem_singleton]
      constructor
      · rintro ((h | h) | h)
        · exact Or.inl h
        · exact Or.inr (Or.inl h.symm)
        · exact Or.inr (Or.inr h)
      · rintro (h | h | h)
        · exact Or.inl (Or.inl h)
        · exact Or.inl (Or.inr h.symm)
        · exact Or.inr h

theorem mem_queue (q : List (List Use × Option Str)) (db : List Entry) (c : Str) :
    c ∈ cmds (q.foldl (fun db b => writeSync (fun _ => false) b.2 db b.1) db) ↔
      c ∈ cmds db ∨ ∃ b ∈ q, ∃ u ∈ b.1, u.1 = c := by
  induction q generalizing db with
  | nil => simp
  | cons b q ih =>
    rw [List.foldl_cons, ih, mem_sync]
    simp only [List.mem_cons, exists_eq_or_imp]
    rw [or_assoc]

theorem mem_settled (s : St) (c : Str) : c ∈ cmds (settled s) ↔ c ∈ cmds s.db ∨ ∃ b ∈ s.queue, ∃ u ∈ b.1, u.1 = c :=
  mem_queue s.queue s.db c

/-- Commands of a result of a query are commands of the table. -/
theorem loaded_mem {n : Nat} {db rows : List Entry} (h : Loaded n db rows) : ∀ e ∈ rows, e ∈ db := by
  obtain ⟨top, rest, p1, -, -, p4, -⟩ := h
  intro e he
  exact p1.mem_iff.2 (List.mem_append.2 (Or.inl (p4.mem_iff.1 he)))

theorem older_mem {t : Int} {n : Nat} {db rows : List Entry} (h : LoadedOlder t n db rows) : ∀ e ∈ rows, e ∈ db :=
  fun e he => (List.mem_filter.1 (loaded_mem h e he)).1

/-! ### C204 -/

/-- The history is connected to the table, and will not be replaced any more. -/
def Joined (s : St) : Prop := s.linked = true ∧ s.thread ≠ .start ∧ ∀ rows, s.thread ≠ .fetched rows

theorem joined_next {s : St} {l : Label} (h : Joined s) (he : Enabled s l) : Joined (next s l) := by
  obtain ⟨h1, h2, h3⟩ := h
  cases l with
  | write us ctx => exact ⟨h1, h2, h3⟩
  | up => exact ⟨h1, h2, h3⟩
  | writer => simp only [next]; split <;> exact ⟨h1, h2, h3⟩
  | other us ctx => exact ⟨h1, h2, h3⟩
  | fetch rows => exact absurd he.1 h2
  | fail => exact absurd he h2
  | swap => obtain ⟨rows, hr⟩ := he; exact absurd hr (h3 rows)
  | fetchOlder es => exact ⟨h1, by simp [next], by simp [next]⟩
  | skip => exact ⟨h1, by simp [next], by simp [next]⟩
  | prepend =>
    obtain ⟨es, hes⟩ := he
    simp only [next, hes]
    split <;> exact ⟨h1, by simp, by simp⟩

theorem joined_swap {s : St} (he : Enabled s .swap) : Joined (next s .swap) := by
  obtain ⟨rows, hr⟩ := he
  simp only [next, hr]
  exact ⟨rfl, by simp, by simp⟩

/-- Once there, a command stays in the memory and in what will be in the table. -/
theorem kept_next {s : St} {l : Label} {c : Str} (hj : Joined s) (he : Enabled s l)
    (h : c ∈ cmds s.mem ∧ c ∈ cmds (settled s)) : c ∈ cmds (next s l).mem ∧ c ∈ cmds (settled (next s l)) := by
  obtain ⟨hm, hd⟩ := h
  rw [mem_settled] at hd ⊢
  cases l with
  | write us ctx =>
    refine ⟨(mem_writes ctx us s.mem c).2 (Or.inl hm), ?_⟩
    rcases hd with hd | ⟨b, hb, hu⟩
    · exact Or.inl hd
    · refine Or.inr ⟨b, ?_, hu⟩
      simp only [next, hj.1, if_true]
      simp [hb]
  | up => exact ⟨hm, hd⟩
  | writer =>
    simp only [next]
    split
    · exact ⟨hm, hd⟩
    · rename_i us ctx q hq
      refine ⟨hm, ?_⟩
      rw [hq] at hd
      show c ∈ cmds (writeSync (fun _ => false) ctx s.db us) ∨ _
      rw [mem_sync]
      rcases hd with hd | ⟨b, hb, hu⟩
      · exact Or.inl (Or.inl hd)
      · rcases List.mem_cons.1 hb with rfl | hb
        · exact Or.inl (Or.inr hu)
        · exact Or.inr ⟨b, hb, hu⟩
  | other us ctx =>
    refine ⟨hm, ?_⟩
    show c ∈ cmds (writeSync (fun _ => false) ctx s.db us) ∨ _
    rw [mem_sync]
    rcases hd with hd | hd
    · exact Or.inl (Or.inl hd)
    · exact Or.inr hd
  | fetch rows => exact ⟨hm, hd⟩
  | fail => exact ⟨hm, hd⟩
  | swap => obtain ⟨rows, hr⟩ := he; exact absurd hr (hj.2.2 rows)
  | fetchOlder es => exact ⟨hm, hd⟩
  | skip => exact ⟨hm, hd⟩
  | prepend =>
    obtain ⟨es, hes⟩ := he
    simp only [next, hes]
    split
    · exact ⟨hm, hd⟩
    · refine ⟨?_, hd⟩
      simp only [cmds, List.map_append, List.mem_append] at hm ⊢
      exact Or.inr hm

theorem kept_run {s t : St} {ls : List Label} {c : Str} (h : Run s ls t) (hj : Joined s)
    (hk : c ∈ cmds s.mem ∧ c ∈ cmds (settled s)) : c ∈ cmds t.mem ∧ c ∈ cmds (settled t) := by
  induction h with
  | nil => exact hk
  | cons he _ ih => exact ih (joined_next hj he) (kept_next hj he hk)

/-- **C204, what holds.** In every execution, a command used once the newest part of the history is shown is in
the history from then on, and in the table when everything sent is written, however the loading, the writer
and other sessions go on. -/
theorem C204_kept_partial {db : List Entry} {t : St} {before after : List Label}
    (h : Run (init db) (before ++ .swap :: after) t) {us : List Use} {ctx : Option Str} (hw : .write us ctx ∈ after)
    {u : Use} (hu : u ∈ us) : u.1 ∈ cmds t.mem ∧ u.1 ∈ cmds (settled t) := by
  obtain ⟨s, -, h⟩ := h.append
  cases h with
  | cons he h =>
    have hj := joined_swap he
    obtain ⟨a, b, rfl⟩ := List.append_of_mem hw
    obtain ⟨s', h1, h2⟩ := h.append
    have hj' : Joined s' := h1.inv hj fun s l _ hs he => joined_next hs he
    cases h2 with
    | cons he' h2 =>
      refine kept_run h2 (joined_next hj' he') ?_
      refine ⟨(mem_writes ctx us s'.mem u.1).2 (Or.inr ⟨u, hu, rfl⟩), ?_⟩
      rw [mem_settled]
      refine Or.inr ⟨(us, ctx), ?_, u, hu, rfl⟩
      simp only [next, hj'.1, if_true]
      simp

/-- **C204.** If nothing is used, here or in other sessions, until the loading is done, what is shown is the
result of loading in two parts (C73), whatever keys are pressed. -/
theorem C204_loaded_partial {db : List Entry} {t : St} {ls : List Label} (h : Run (init db) ls t) (hd : t.thread = .done)
    (hl : ∀ l ∈ ls, l ≠ .fail ∧ (∀ us ctx, l ≠ .write us ctx) ∧ ∀ us ctx, l ≠ .other us ctx) : Startup db t.mem := by
  have key : t.db = db ∧ t.queue = [] ∧ (match t.thread with
      | .start => True
      | .fetched rows => Loaded 1000 db rows
      | .swapped rows => Loaded 1000 db rows ∧ t.mem = rows
      | .older es => ∃ rows, Loaded 1000 db rows ∧ t.mem = rows ∧ minTime rows > 0 ∧ LoadedOlder (minTime rows) 9000 db es
      | .done => Startup db t.mem) := by
    refine h.inv (P := fun t => t.db = db ∧ t.queue = [] ∧ (match t.thread with
      | .start => True
      | .fetched rows => Loaded 1000 db rows
      | .swapped rows => Loaded 1000 db rows ∧ t.mem = rows
      | .older es => ∃ rows, Loaded 1000 db rows ∧ t.mem = rows ∧ minTime rows > 0 ∧ LoadedOlder (minTime rows) 9000 db es
      | .done => Startup db t.mem)) ⟨rfl, rfl, trivial⟩ ?_
    intro s l hm ⟨h1, h2, h3⟩ he
    obtain ⟨n1, n2, n3⟩ := hl l hm
    cases l with
    | write us ctx => exact absurd rfl (n2 us ctx)
    | up => exact ⟨h1, h2, h3⟩
    | writer => rw [show next s .writer = s by simp only [next, h2]]; exact ⟨h1, h2, h3⟩
    | other us ctx => exact absurd rfl (n3 us ctx)
    | fetch rows => exact ⟨h1, h2, h1 ▸ he.2⟩
    | fail => exact absurd rfl n1
    | swap =>
      obtain ⟨rows, hr⟩ := he
      rw [hr] at h3
      rw [show next s .swap = { s with mem := rows, pos := rows.length, linked := true, thread := .swapped rows } by
        simp only [next, hr]]
      exact ⟨h1, h2, h3, rfl⟩
    | fetchOlder es =>
      obtain ⟨rows, hr, hmt, hlo⟩ := he
      rw [hr] at h3
      exact ⟨h1, h2, rows, h3.1, h3.2, hmt, h1 ▸ hlo⟩
    | skip =>
      obtain ⟨rows, hr, hmt⟩ := he
      rw [hr] at h3
      refine ⟨h1, h2, rows, h3.1, ?_⟩
      show (match rows.head? with
        | some r => if r.time > 0 then ∃ older, LoadedOlder r.time 9000 db older ∧ s.mem = older ++ rows else s.mem = rows
        | none => s.mem = rows)
      unfold minTime at hmt
      cases hh : rows.head? with
      | none => exact h3.2
      | some r => rw [hh] at hmt; simp only [if_neg hmt]; exact h3.2
    | prepend =>
      obtain ⟨es, hes⟩ := he
      rw [hes] at h3
      obtain ⟨rows, hlo, hmem, hmt, hold⟩ := h3
      have hst : Startup db (es ++ s.mem) := by
        refine ⟨rows, hlo, ?_⟩
        unfold minTime at hmt hold
        cases hh : rows.head? with
        | none => rw [hh] at hmt; exact absurd hmt (by simp)
        | some r =>
          rw [hh] at hmt hold
          simp only [if_pos hmt]
          exact ⟨es, hold, by rw [hmem]⟩
      simp only [next, hes]
      split
      · rename_i hemp
        rw [List.isEmpty_iff] at hemp
        rw [hemp, List.nil_append] at hst
        exact ⟨h1, h2, hst⟩
      · exact ⟨h1, h2, hst⟩
  have := key.2.2
  rw [hd] at this
  exact this

/-- Command `c` is nowhere. -/
structure Absent (c : Str) (s : St) : Prop where
  db : c ∉ cmds s.db
  queue : ∀ b ∈ s.queue, ∀ u ∈ b.1, u.1 ≠ c
  fetched : ∀ rows, s.thread = .fetched rows → c ∉ cmds rows
  older : ∀ es, s.thread = .older es → c ∉ cmds es

theorem not_cmds {a b : List Entry} {c : Str} (h : ∀ e ∈ a, e ∈ b) (hc : c ∉ cmds b) : c ∉ cmds a := by
  intro hm
  obtain ⟨e, he, rfl⟩ := List.mem_map.1 hm
  exact hc (List.mem_map.2 ⟨e, h e he, rfl⟩)

theorem absent_next {c : Str} {s : St} {l : Label} (h : Absent c s) (he : Enabled s l)
    (hw : ∀ us ctx, l = .write us ctx → s.linked = true → ∀ u ∈ us, u.1 ≠ c)
    (ho : ∀ us ctx, l = .other us ctx → ∀ u ∈ us, u.1 ≠ c) : Absent c (next s l) := by
  obtain ⟨h1, h2, h3, h4⟩ := h
  cases l with
  | write us ctx =>
    refine ⟨h1, ?_, h3, h4⟩
    simp only [next]
    cases hk : s.linked with
    | false => simpa using h2
    | true =>
      intro b hb u hu
      simp only [if_true, List.mem_append, List.mem_singleton] at hb
      rcases hb with hb | rfl
      · exact h2 b hb u hu
      · exact hw us ctx rfl hk u hu
  | up => exact ⟨h1, h2, h3, h4⟩
  | writer =>
    simp only [next]
    split
    · exact ⟨h1, h2, h3, h4⟩
    · rename_i us ctx q hq
      rw [hq] at h2
      refine ⟨?_, fun b hb => h2 b (by simp [hb]), h3, h4⟩
      show c ∉ cmds (writeSync _ _ _ _)
      rw [mem_sync]
      rintro (h | ⟨u, hu, hc⟩)
      · exact h1 h
      · exact h2 (us, ctx) (by simp) u hu hc
  | other us ctx =>
    refine ⟨?_, h2, h3, h4⟩
    show c ∉ cmds (writeSync _ _ _ _)
    rw [mem_sync]
    rintro (h | ⟨u, hu, hc⟩)
    · exact h1 h
    · exact ho us ctx rfl u hu hc
  | fetch rows =>
    refine ⟨h1, h2, fun rows' hr => ?_, fun es hr => by simp [next] at hr⟩
    simp only [next, Thread.fetched.injEq] at hr
    subst hr
    exact not_cmds (loaded_mem he.2) h1
  | fail => exact ⟨h1, h2, fun rows hr => by simp [next] at hr, fun es hr => by simp [next] at hr⟩
  | swap =>
    obtain ⟨rows, hr⟩ := he
    simp only [next, hr]
    exact ⟨h1, h2, fun rows hr => by simp at hr, fun es hr => by simp at hr⟩
  | fetchOlder es =>
    obtain ⟨rows, hr, hmt, hlo⟩ := he
    refine ⟨h1, h2, fun rows hr => by simp [next] at hr, fun es' hr => ?_⟩
    simp only [next, Thread.older.injEq] at hr
    subst hr
    exact not_cmds (older_mem hlo) h1
  | skip => exact ⟨h1, h2, fun rows hr => by simp [next] at hr, fun es hr => by simp [next] at hr⟩
  | prepend =>
    obtain ⟨es, hes⟩ := he
    simp only [next, hes]
    split <;> exact ⟨h1, h2, fun rows hr => by simp at hr, fun es hr => by simp at hr⟩

/-- Until the swap the history has no table. -/
theorem unlinked_next {s : St} {l : Label} (h : s.linked = false) (hl : l ≠ .swap) : (next s l).linked = false := by
  cases l <;> simp only [next] <;> first | exact absurd rfl hl | exact h | skip
  · split <;> exact h
  · split
    · split <;> exact h
    · exact h

/-- At most one swap. -/
theorem one_swap {s t : St} {ls : List Label} (h : Run s ls t) (hj : Joined s) : .swap ∉ ls := by
  induction h with
  | nil => simp
  | @cons s t l ls he _ ih =>
    intro hm
    rcases List.mem_cons.1 hm with rfl | hm
    · obtain ⟨rows, hr⟩ := he
      exact hj.2.2 rows hr
    · exact ih (joined_next hj he) hm

theorem before_swap {s t : St} {a b : List Label} (h : Run s (a ++ .swap :: b) t) : .swap ∉ a := by
  intro hm
  obtain ⟨x, y, rfl⟩ := List.append_of_mem hm
  rw [List.append_assoc, List.cons_append] at h
  obtain ⟨m, -, h⟩ := h.append
  cases h with
  | cons he h => exact one_swap h (joined_swap he) (by simp)

/-- **C204 is violated.** A command that was used before the newest part of the history is shown, and not
again, is lost: it is neither in the history afterwards nor ever written to the table, in every execution. -/
theorem C204_lost_violated {db : List Entry} {t : St} {before after : List Label} {c : Str}
    (h : Run (init db) (before ++ .swap :: after) t) (hdb : c ∉ cmds db)
    (ho : ∀ us ctx, .other us ctx ∈ before ++ after → ∀ u ∈ us, u.1 ≠ c)
    (ha : ∀ us ctx, .write us ctx ∈ after → ∀ u ∈ us, u.1 ≠ c) : c ∉ cmds t.mem ∧ c ∉ cmds (settled t) := by
  have hns : Label.swap ∉ before := before_swap h
  obtain ⟨s, h1, h2⟩ := h.append
  have hA : Absent c s ∧ s.linked = false := by
    refine h1.inv (P := fun s => Absent c s ∧ s.linked = false) ⟨⟨hdb, by simp [init], by simp [init], by simp [init]⟩, rfl⟩ ?_
    intro s l hl ⟨hs, hk⟩ he
    refine ⟨absent_next hs he (fun _ _ _ hk' => by rw [hk] at hk'; cases hk') fun us ctx hh => ho us ctx (by simp [← hh, hl]),
      unlinked_next hk fun hh => hns (hh ▸ hl)⟩
  cases h2 with
  | cons he h2 =>
    have hj := joined_swap he
    have hB : Absent c (next s .swap) ∧ c ∉ cmds (next s .swap).mem ∧ Joined (next s .swap) := by
      refine ⟨absent_next hA.1 he (by simp) (by simp), ?_, hj⟩
      obtain ⟨rows, hr⟩ := he
      simp only [next, hr]
      exact hA.1.fetched rows hr
    have hC : Absent c t ∧ c ∉ cmds t.mem ∧ Joined t := by
      refine h2.inv (P := fun s => Absent c s ∧ c ∉ cmds s.mem ∧ Joined s) hB ?_
      intro s l hl ⟨hs, hm, hj⟩ he
      refine ⟨absent_next hs he (fun us ctx hh _ => ha us ctx (hh ▸ hl)) fun us ctx hh => ho us ctx (by simp [← hh, hl]), ?_,
        joined_next hj he⟩
      cases l with
      | write us ctx =>
        show c ∉ cmds (us.foldl (remember ctx) s.mem)
        rw [mem_writes]
        rintro (h | ⟨u, hu, hc⟩)
        · exact hm h
        · exact ha us ctx hl u hu hc
      | up => exact hm
      | writer => simp only [next]; split <;> exact hm
      | other us ctx => exact hm
      | fetch rows => exact hm
      | fail => exact hm
      | swap => obtain ⟨rows, hr⟩ := he; exact absurd hr (hj.2.2 rows)
      | fetchOlder es => exact hm
      | skip => exact hm
      | prepend =>
        obtain ⟨es, hes⟩ := he
        simp only [next, hes]
        split
        · exact hm
        · have := hs.older es hes
          simp only [cmds, List.map_append, List.mem_append, not_or] at this hm ⊢
          exact ⟨this, hm⟩
    refine ⟨hC.2.1, ?_⟩
    rw [mem_settled]
    rintro (h | ⟨b, hb, u, hu, hc⟩)
    · exact hC.1.db h
    · exact hC.1.queue b hb u hu hc

/-- **C204 is violated.** If the loading fails, nothing that is used in the whole session is ever written. -/
theorem C204_failed_violated {db : List Entry} {t : St} {before after : List Label} (h : Run (init db) (before ++ .fail :: after) t)
    (ho : ∀ us ctx, .other us ctx ∉ before ++ after) : settled t = db := by
  have hns : ∀ {s t : St} {ls : List Label}, Run s ls t → s.thread = .done → s.linked = false → s.queue = [] → s.db = db →
      (∀ us ctx, .other us ctx ∉ ls) → settled t = db := by
    intro s t ls hr
    induction hr with
    | nil s => intro _ _ h3 h4 _; simp [settled, h3, h4]
    | @cons s t l ls he _ ih =>
      intro h1 h2 h3 h4 h5
      have h5' : ∀ us ctx, .other us ctx ∉ ls := fun us ctx hm => h5 us ctx (by simp [hm])
      cases l with
      | write us ctx => exact ih h1 h2 (by simp [next, h2, h3]) h4 h5'
      | up => exact ih h1 h2 h3 h4 h5'
      | writer => refine ih ?_ ?_ ?_ ?_ h5' <;> simp [next, h1, h2, h3, h4]
      | other us ctx => exact absurd (by simp) (h5 us ctx)
      | fetch rows => have := he.1; rw [h1] at this; cases this
      | fail => have : s.thread = .start := he; rw [h1] at this; cases this
      | swap => obtain ⟨r, hr⟩ := he; rw [h1] at hr; cases hr
      | fetchOlder es => obtain ⟨r, hr, -⟩ := he; rw [h1] at hr; cases hr
      | skip => obtain ⟨r, hr, -⟩ := he; rw [h1] at hr; cases hr
      | prepend => obtain ⟨r, hr⟩ := he; rw [h1] at hr; cases hr
  obtain ⟨s, h1, h2⟩ := h.append
  cases h2 with
  | cons he h2 =>
    have he : s.thread = .start := he
    have key : s.thread = .start → s.linked = false ∧ s.queue = [] ∧ s.db = db := by
      refine h1.inv (P := fun s => s.thread = .start → s.linked = false ∧ s.queue = [] ∧ s.db = db) (fun _ => ⟨rfl, rfl, rfl⟩) ?_
      intro s l hl hs he ht
      cases l with
      | write us ctx => obtain ⟨a, b, d⟩ := hs ht; exact ⟨a, by simp [next, a, b], d⟩
      | up => exact hs ht
      | writer =>
        have ht' : s.thread = .start := by
          simp only [next] at ht
          split at ht <;> exact ht
        obtain ⟨a, b, d⟩ := hs ht'
        simp [next, a, b, d]
      | other us ctx => exact absurd (by simp [hl]) (ho us ctx)
      | fetch rows => simp [next] at ht
      | fail => simp [next] at ht
      | swap =>
        obtain ⟨r, hr⟩ := he
        simp [next, hr] at ht
      | fetchOlder es => simp [next] at ht
      | skip => simp [next] at ht
      | prepend =>
        obtain ⟨r, hr⟩ := he
        simp only [next, hr] at ht
        split at ht <;> cases ht
    obtain ⟨a, b, d⟩ := key he
    exact hns h2 rfl a b d fun us ctx hm => ho us ctx (by simp [hm])

/-- **C204 is violated.** A command among the older rows that is used while they are on their way is in the history
twice, and the new entry counts from one. -/
theorem C204_twice_violated (s : St) {es : List Entry} (hs : s.thread = .older es) {c : Str} (hc : c ∈ cmds es) (hm : c ∉ cmds s.mem)
    (time : Int) (ctx : Option Str) :
    let t := next (next s (.write [(c, time)] ctx)) .prepend
    2 ≤ (cmds t.mem).count c ∧ t.mem.getLast? = some ⟨c, time, 1, ctx, {}⟩ := by
  have hne : es.isEmpty = false := by
    cases es with
    | nil => simp [cmds] at hc
    | cons e es => rfl
  have hr : remember ctx s.mem (c, time) = s.mem ++ [⟨c, time, 1, ctx, {}⟩] := by
    have hf : s.mem.find? (isCmd c) = none := find_isCmd_none hm
    have hi : s.mem.findIdx? (isCmd c) = none := by
      rw [List.findIdx?_eq_none_iff]
      rw [List.find?_eq_none] at hf
      intro x hx
      simpa using hf x hx
    simp only [remember, hi, fresh, hf]
  have hmem : (next (next s (.write [(c, time)] ctx)) .prepend).mem = es ++ (s.mem ++ [⟨c, time, 1, ctx, {}⟩]) := by
    simp only [next, hs, hne, List.foldl_cons, List.foldl_nil, hr, Bool.false_eq_true, if_false]
  simp only [hmem]
  refine ⟨?_, ?_⟩
  · simp only [cmds, List.map_append, List.count_append, List.map_cons, List.map_nil, List.count_singleton_self]
    have : 0 < List.count c (es.map Entry.cmd) := List.count_pos_iff.2 hc
    omega
  · rw [← List.append_assoc, List.getLast?_append]
    rfl

/-- **C204 is violated.** When the older rows come in, the entry that was shown with Up is left: the position is
behind the last entry whatever it was. -/
theorem C204_position_violated (s : St) {es : List Entry} (hs : s.thread = .older es) (hne : es ≠ []) :
    (next s .prepend).mem[(next s .prepend).pos]? = none := by
  have : es.isEmpty = false := by
    cases es with
    | nil => exact absurd rfl hne
    | cons e es => rfl
  simp [next, hs, this]

/-! ### Cases -/

/-- A new shell; `a` is typed at once, `b` later. -/
def story : List Label :=
  [.write [(c!"a", 7)] none, .fetch [⟨c!"x", 1, 1, none, {}⟩], .swap, .fetchOlder [], .write [(c!"b", 9)] none, .prepend, .writer]

/-- The execution `story` exists. -/
theorem story_run : Run (init [⟨c!"x", 1, 1, none, {}⟩]) story
    ⟨[⟨c!"x", 1, 1, none, {}⟩, ⟨c!"b", 9, 1, none, {}⟩], 2, true, [⟨c!"x", 1, 1, none, {}⟩, ⟨c!"b", 9, 1, none, {}⟩], [], .done⟩ := by
  refine .cons trivial (.cons ⟨rfl, ?_⟩ (.cons ⟨_, rfl⟩ (.cons ⟨_, rfl, ?_, ?_⟩ (.cons trivial (.cons ⟨_, rfl⟩ (.cons trivial ?_))))))
  · exact ⟨[⟨c!"x", 1, 1, none, {}⟩], [], by decide, by decide, by simp, List.Perm.refl _, by decide⟩
  · decide
  · exact ⟨[], [], by decide, by decide, by simp, List.Perm.refl _, by decide⟩
  · exact .nil _

example : c!"b" ∈ cmds [(⟨c!"x", 1, 1, none, {}⟩ : Entry), ⟨c!"b", 9, 1, none, {}⟩] :=
  (C204_kept_partial (before := story.take 2) (after := story.drop 3) story_run (us := [(c!"b", 9)]) (ctx := none) (by decide)
    (u := (c!"b", 9)) (by simp)).1

end Dsh.HistStart
