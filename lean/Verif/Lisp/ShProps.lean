import Verif.Lisp.Sh
/-!
The output of a line as the value of `sh`: C203.
-/
namespace Dsh.Sh
open Dsh.Wire Dsh.Record

/-! ### Descriptors of a captured pipeline -/

/-- A stage that is not the last, a program or a builtin. -/
theorem stage_next' {readable : Wire.Str → Bool} {slave : Option Nat} {c : Ctx} {w : World} {i e : Nat}
    {inp err : Obj} (k : Kind) (h : Streams slave c w.tbl i e inp err) :
    ∃ r x t p c', stage readable slave none true k c w = some (c', { w with
        tbl := t, pipes := w.pipes + 1, progs := w.progs ++ [some p] }, none) ∧
      c' = { applySlave slave { c with outfile := x } with infile := r } ∧
      w.tbl.get r = none ∧ 2 < r ∧
      (∀ k, t.get k = if k = r then some (.pipeR w.pipes) else
        if i ≠ 0 ∧ slave ≠ some i ∧ k = i then none else w.tbl.get k) ∧
      p.stdin = some inp ∧ p.stdout = some (.pipeW w.pipes) ∧ p.stderr = some err := by
  obtain ⟨r, x, t, hp, hr, hx, hrx, ht⟩ := pipe_spec w
  have r2 := gt_two h.low hr
  have x2 := gt_two h.low hx
  have hix : x ≠ i := by intro hh; have := h.gi; rw [← hh, hx] at this; cases this
  have hex : x ≠ e := by intro hh; have := h.ge; rw [← hh, hx] at this; cases this
  have hir : r ≠ i := by intro hh; have := h.gi; rw [← hh, hr] at this; cases this
  have her : r ≠ e := by intro hh; have := h.ge; rw [← hh, hr] at this; cases this
  have hi1 : (applySlave slave { c with outfile := x }).infile = i := by
    rw [applySlave_in]; have := h.hi; rw [applySlave_in] at this; exact this
  have he1 : (applySlave slave { c with outfile := x }).errfile = e := by
    rw [applySlave_err]; have := h.he; rw [applySlave_err] at this; exact this
  have ho1 : (applySlave slave { c with outfile := x }).outfile = x := by
    rw [applySlave_out]; exact if_neg (by show x ≠ 1; omega)
  have hfg : (applySlave slave { c with outfile := x }).foreground = true := by
    rw [applySlave_fg]; exact h.fg
  obtain ⟨p, hst, h0, h1, h2⟩ := start_fg (slave := slave) (c := applySlave slave { c with outfile := x })
    (w := { w with tbl := t, pipes := w.pipes + 1 }) (inp := inp) (out := .pipeW w.pipes) (err := err) k hfg
    (by rw [hi1]; show t.get i = _; rw [ht, if_neg hix.symm, if_neg hir.symm]; exact h.gi)
    (by rw [ho1]; show t.get x = _; rw [ht, if_pos rfl])
    (by rw [he1]; show t.get e = _; rw [ht, if_neg hex.symm, if_neg her.symm]; exact h.ge)
    (by rw [hi1]; exact h.i0) (by rw [ho1]; exact Or.inr x2) (by rw [he1]; exact h.e2)
  rw [ho1, he1] at hst
  obtain ⟨tp, hp', gp⟩ := parentClose_tbl slave i x e
    { w with tbl := t, pipes := w.pipes + 1, progs := w.progs ++ [some p] }
  refine ⟨r, x, tp, p, _, ?_, rfl, hr, r2, fun k => ?_, h0, h1, h2⟩
  · simp only [stage, openInput, outSetup, if_true, hp, Option.map_some, hst, Option.toList_none,
      List.append_nil, copier, hi1, hp']
    simp
  · rw [gp]
    show (if _ then none else t.get k) = _
    rw [ht]
    have hes := h.es
    by_cases hkr : k = r
    · simp only [if_pos hkr, if_neg (show ¬ k = x by rw [hkr]; exact hrx)]
      rw [if_neg]
      rintro (h' | h' | h')
      · exact hir (hkr.symm.trans h'.2.2)
      · exact hrx (hkr.symm.trans h'.2.2)
      · rcases hes with h'' | h''
        · exact h'.1 h''
        · exact h'.2.2.1 h''
    · simp only [if_neg hkr]
      by_cases hk3 : i ≠ 0 ∧ slave ≠ some i ∧ k = i
      · rw [if_pos (Or.inl hk3), if_pos hk3]
      · rw [if_neg hk3]
        by_cases hkx : k = x
        · by_cases hsl : slave = some x
          · exfalso
            have : slave.getD 2 = x := by rw [hsl]; rfl
            rcases hes with h'' | h''
            · have hx' := h.he
              rw [applySlave_err] at hx'
              by_cases h2' : c.errfile = 2
              · rw [if_pos h2', this] at hx'; exact hex hx'
              · rw [if_neg h2'] at hx'; exact h2' (hx'.trans h'')
            · rw [hsl] at h''; injection h'' with h''; exact hex h''
          · rw [if_pos (Or.inr (Or.inl ⟨by omega, hsl, hkx⟩)), hkx, hx]
        · rw [if_neg, if_neg hkx]
          rintro (h' | h' | h')
          · exact hk3 h'
          · exact hkx h'.2.2
          · rcases hes with h'' | h''
            · exact h'.1 h''
            · exact h'.2.2.1 h''

/-- The last stage of a pipeline whose output is captured. -/
theorem stage_last' {readable : Wire.Str → Bool} {slave : Option Nat} {c : Ctx} {w : World} {i e y n : Nat}
    {inp err : Obj} (k : Kind) (h : Streams slave c w.tbl i e inp err)
    (hcap : c.captured = some y) (hy : 2 < y) (gy : w.tbl.get y = some (.pipeW n)) (hs : slave ≠ some y) :
    ∃ t p c', stage readable slave none false k c w = some (c', { w with
        tbl := t, progs := w.progs ++ [some p] }, none) ∧
      c' = applySlave slave { c with outfile := y } ∧
      (∀ k, t.get k = if k = y ∨ (i ≠ 0 ∧ slave ≠ some i ∧ k = i) then none else w.tbl.get k) ∧
      p.stdin = some inp ∧ p.stdout = some (.pipeW n) ∧ p.stderr = some err := by
  have hi1 : (applySlave slave { c with outfile := y }).infile = i := by
    rw [applySlave_in]; have := h.hi; rw [applySlave_in] at this; exact this
  have he1 : (applySlave slave { c with outfile := y }).errfile = e := by
    rw [applySlave_err]; have := h.he; rw [applySlave_err] at this; exact this
  have ho1 : (applySlave slave { c with outfile := y }).outfile = y := by
    rw [applySlave_out]; exact if_neg (by show y ≠ 1; omega)
  have hfg : (applySlave slave { c with outfile := y }).foreground = true := by
    rw [applySlave_fg]; exact h.fg
  obtain ⟨p, hst, h0, h1, h2⟩ := start_fg (slave := slave) (c := applySlave slave { c with outfile := y })
    (w := w) (inp := inp) (out := .pipeW n) (err := err) k hfg
    (by rw [hi1]; exact h.gi) (by rw [ho1]; exact gy) (by rw [he1]; exact h.ge)
    (by rw [hi1]; exact h.i0) (by rw [ho1]; exact Or.inr hy) (by rw [he1]; exact h.e2)
  rw [ho1, he1] at hst
  obtain ⟨tp, hp', gp⟩ := parentClose_tbl slave i y e { w with progs := w.progs ++ [some p] }
  have hset : outSetup slave none false c w = ({ c with outfile := y }, w, none, none) := by
    simp [outSetup, handleOutput, hcap]
  refine ⟨tp, p, _, ?_, rfl, fun k => ?_, h0, h1, h2⟩
  · simp only [stage, openInput, hset, Option.map_some, hst, Option.toList_none, List.append_nil, copier, hi1, hp']
    simp
  · rw [gp]
    show (if _ then none else w.tbl.get k) = _
    have hes := h.es
    by_cases hky : k = y
    · rw [if_pos (Or.inr (Or.inl ⟨by omega, hs, hky⟩)), if_pos (Or.inl hky)]
    · by_cases hk3 : i ≠ 0 ∧ slave ≠ some i ∧ k = i
      · rw [if_pos (Or.inl hk3), if_pos (Or.inr hk3)]
      · rw [if_neg, if_neg]
        · rintro (h' | h')
          · exact hky h'
          · exact hk3 h'
        · rintro (h' | h' | h')
          · exact hk3 h'
          · exact hky h'.2.2
          · rcases hes with h'' | h''
            · exact h'.1 h''
            · exact h'.2.2.1 h''

/-- Nobody can write to pipe `n` any more. -/
structure Gone (n : Nat) (w : World) : Prop where
  made : n < w.pipes
  tbl : ∀ k, w.tbl.get k ≠ some (.pipeW n)

/-- The program, if it runs, has neither output connected to pipe `n`. -/
def Silent (n : Nat) (op : Option Prog) : Prop := ∀ p, op = some p → ∀ e, stream p e ≠ some (.pipeW n)

/-- The stages of a captured pipeline: the output of the last and no other stream is the pipe, which nobody can
write to afterwards. -/
theorem stages_cap {readable : Wire.Str → Bool} {slave : Option Nat} {y n : Nat} (hy : 2 < y) (hs : slave ≠ some y) :
    ∀ (ks : List Kind) (c : Ctx) (w : World) (i e : Nat) (inp err : Obj), ks ≠ [] →
      Streams slave c w.tbl i e inp err → c.captured = some y → w.tbl.get y = some (.pipeW n) → y ≠ i →
      err ≠ .pipeW n → (∀ k, k ≠ y → w.tbl.get k ≠ some (.pipeW n)) → n < w.pipes →
      ∃ (ps : List Prog) (t : Tbl) (c' : Ctx) (P : Nat), stages readable slave none ks c w = (c', { w with
          tbl := t, pipes := P, progs := w.progs ++ ps.map some }) ∧ n < P ∧ (∀ k, t.get k ≠ some (.pipeW n)) ∧
        ps.length = ks.length ∧ c'.foreground = true ∧
        ∀ j p, ps[j]? = some p → (p.stdout = some (.pipeW n) ↔ j + 1 = ks.length) ∧ p.stderr = some err := by
  intro ks
  induction ks with
  | nil => intro c w i e inp err hne; exact absurd rfl hne
  | cons k ks ih =>
    intro c w i e inp err _ h hcap gy hyi herr hother hn
    cases ks with
    | nil =>
      obtain ⟨t, p, c', hst, hc', gt, h0, h1, h2⟩ := stage_last' (readable := readable) k h hcap hy gy hs
      refine ⟨[p], t, c', w.pipes, ?_, hn, fun k hk => ?_, rfl, ?_, ?_⟩
      · simp only [stages, List.isEmpty_nil, Bool.not_true, hst]
        simp
      · rw [gt] at hk
        split at hk
        · cases hk
        · rename_i hne
          exact hother k (fun hh => hne (Or.inl hh)) hk
      · rw [hc', applySlave_fg]; exact h.fg
      · intro j q hq
        cases j with
        | zero => simp at hq; subst hq; exact ⟨by simp [h1], h2⟩
        | succ j => simp at hq
    | cons k2 ks =>
      obtain ⟨r, x, t, p, c', hst, hc', hr, r2, gt, h0, h1, h2⟩ := stage_next' (readable := readable) k h
      have hyr : y ≠ r := by rintro rfl; rw [hr] at gy; cases gy
      have hre : r ≠ e := by rintro rfl; have := h.ge; rw [hr] at this; cases this
      have hsr : slave ≠ some r := by
        intro hsr
        rcases h.es with h' | h'
        · have hx' := h.he
          rw [applySlave_err, hsr] at hx'
          by_cases h2' : c.errfile = 2
          · rw [if_pos h2'] at hx'; exact hre hx'
          · rw [if_neg h2'] at hx'; exact h2' (hx'.trans h')
        · rw [hsr] at h'; injection h' with h'; exact hre h'
      have hie : ¬ (i ≠ 0 ∧ slave ≠ some i ∧ e = i) := by
        rintro ⟨a, b, c⟩
        subst c
        rcases h.es with h' | h'
        · have := h.i0; omega
        · exact b h'
      have hce : c'.errfile = e := by
        rw [hc']
        show (applySlave slave _).errfile = e
        rw [applySlave_err]
        have := h.he
        rw [applySlave_err] at this
        exact this
      have low : ∀ m, m ≤ 2 → w.tbl.get m ≠ none → t.get m ≠ none := by
        intro m hm hg
        rw [gt, if_neg (by omega), if_neg]
        · exact hg
        · rintro ⟨a, b, c⟩
          have := h.i0
          omega
      have hS : Streams slave c' t r e (.pipeR w.pipes) err := by
        refine ⟨?_, ?_, ?_, ?_, Or.inr r2, h.e2, h.es, ?_, ?_⟩
        · rw [applySlave_in, hc']
          exact if_neg (by show ¬ r = 0; omega)
        · rw [applySlave_err, hce]
          split
          · rename_i he2
            have hx' := h.he
            rw [applySlave_err] at hx'
            by_cases h2' : c.errfile = 2
            · rw [if_pos h2'] at hx'; exact hx'
            · rw [if_neg h2'] at hx'; exact absurd (hx'.trans he2) h2'
          · rfl
        · rw [gt, if_pos rfl]
        · rw [gt, if_neg hre.symm, if_neg hie]; exact h.ge
        · exact ⟨low 0 (by omega) h.low.1, low 1 (by omega) h.low.2.1, low 2 (by omega) h.low.2.2⟩
        · rw [hc']; exact (applySlave_fg _ _).trans h.fg
      obtain ⟨ps, t', c'', P, hst', hP, gt', hlen, hfg, hps⟩ := ih c' { w with
          tbl := t, pipes := w.pipes + 1, progs := w.progs ++ [some p] } r e (.pipeR w.pipes) err (by simp) hS
        (by rw [hc']; exact (applySlave_rest _ _).1.trans hcap)
        (by show t.get y = _; rw [gt, if_neg hyr, if_neg (fun hh => hyi hh.2.2)]; exact gy) hyr herr
        (by
          intro k hk hg
          have hg : t.get k = some (.pipeW n) := hg
          rw [gt] at hg
          split at hg
          · cases hg
          · split at hg
            · cases hg
            · exact hother k hk hg)
        (by show n < w.pipes + 1; omega)
      refine ⟨p :: ps, t', c'', P, ?_, hP, gt', by simp [hlen], hfg, ?_⟩
      · rw [stages]
        simp only [List.isEmpty_cons, Bool.not_false, hst]
        rw [hst']
        simp
      · intro j q hq
        cases j with
        | zero =>
          simp at hq
          subst hq
          refine ⟨?_, h2⟩
          rw [h1]
          constructor
          · intro hh; injection hh with hh; injection hh with hh; omega
          · intro hh; simp at hh
        | succ j =>
          have := hps j q (by simpa using hq)
          refine ⟨this.1.trans ?_, this.2⟩
          simp

/-- A captured pipeline as a job. -/
theorem launch_cap {readable : Wire.Str → Bool} {pty : Bool} {w : World} {y n : Nat} {ks : List Kind} (hne : ks ≠ [])
    (low : w.tbl.get 0 = some (.std 0) ∧ w.tbl.get 1 = some (.std 1) ∧ w.tbl.get 2 = some (.std 2)) (hcaps : w.caps = [])
    (hy : 2 < y) (gy : w.tbl.get y = some (.pipeW n)) (hother : ∀ k, k ≠ y → w.tbl.get k ≠ some (.pipeW n))
    (hn : n < w.pipes) :
    ∃ ps : List Prog, (launch readable pty (.plain ks) { Ctx.fresh true with captured := some y } w).2.progs = w.progs ++ ps.map some ∧
      Gone n (launch readable pty (.plain ks) { Ctx.fresh true with captured := some y } w).2 ∧ ps.length = ks.length ∧
      ∀ j p, ps[j]? = some p → (p.stdout = some (.pipeW n) ↔ j + 1 = ks.length) ∧
        p.stderr = some (jobStream pty w 2) := by
  obtain ⟨s0, s1, s2⟩ := low
  cases pty with
  | false =>
    have hS : Streams none { Ctx.fresh true with captured := some y } w.tbl 0 2 (.std 0) (.std 2) :=
      ⟨rfl, rfl, s0, s2, Or.inl rfl, Or.inl rfl, Or.inl rfl, by simp [s0, s1, s2], rfl⟩
    obtain ⟨ps, t, c', P, hst, hP, gt, hlen, hfg, hps⟩ := stages_cap (readable := readable) hy (by simp) ks _ w 0 2 _ _ hne hS rfl gy
      (by omega) (by simp) hother hn
    have hl : launch readable false (.plain ks) { Ctx.fresh true with captured := some y } w =
        (c', { w with tbl := t, pipes := P, progs := w.progs ++ ps.map some }) := by
      simp only [launch, Job.plain, Bool.false_and, Bool.false_eq_true, if_false, List.foldl_nil]
      rw [show ({ Ctx.fresh true with captured := some y, foreground := true } : Ctx) =
        { Ctx.fresh true with captured := some y } from rfl, hst]
      simp only [hfg, if_true, hcaps, List.foldl_nil]
    rw [hl]
    exact ⟨ps, rfl, ⟨hP, gt⟩, hlen, hps⟩
  | true =>
    obtain ⟨s, fds, tp, hp, hsf, gs, hnone, hout, hin⟩ := setupPty_spec ks.head? w
    have hn2 : ∀ k, w.tbl.get k ≠ none → k ∉ fds := fun k h hk => h (hnone k hk)
    have t0 : tp.get 0 = some (.std 0) := by rw [hout 0 (hn2 0 (by simp [s0]))]; exact s0
    have t1 : tp.get 1 = some (.std 1) := by rw [hout 1 (hn2 1 (by simp [s1]))]; exact s1
    have t2 : tp.get 2 = some (.std 2) := by rw [hout 2 (hn2 2 (by simp [s2]))]; exact s2
    have ty : tp.get y = some (.pipeW n) := by rw [hout y (hn2 y (by simp [gy]))]; exact gy
    have hs2 : 2 < s := gt_two ⟨by simp [s0], by simp [s1], by simp [s2]⟩ (hnone s hsf)
    have hsy : s ≠ y := by rintro rfl; rw [gs] at ty; cases ty
    have hS : Streams (some s) { Ctx.fresh true with captured := some y } tp s s (.slave w.ptys) (.slave w.ptys) :=
      ⟨rfl, rfl, gs, gs, Or.inr hs2, Or.inr hs2, Or.inr rfl, by simp [t0, t1, t2], rfl⟩
    obtain ⟨ps, t, c', P, hst, hP, gt, hlen, hfg, hps⟩ := stages_cap (readable := readable) hy
      (by simpa using hsy) ks _ { w with tbl := tp, ptys := w.ptys + 1 } s s _ _ hne hS rfl ty hsy.symm (by simp)
      (by
        intro k hk hg
        have hg : tp.get k = some (.pipeW n) := hg
        by_cases hkf : k ∈ fds
        · rcases hin k hkf with h | h <;> rw [h] at hg <;> cases hg
        · rw [hout k hkf] at hg
          exact hother k hk hg) hn
    obtain ⟨t', hfold, gf⟩ := foldl_close fds { w with
        tbl := t, ptys := w.ptys + 1, pipes := P, progs := w.progs ++ ps.map some }
    have hl : launch readable true (.plain ks) { Ctx.fresh true with captured := some y } w =
        (c', { w with tbl := t', ptys := w.ptys + 1, pipes := P, progs := w.progs ++ ps.map some }) := by
      simp only [launch, Job.plain, Ctx.fresh, Bool.true_and, if_true, hp]
      rw [show (⟨0, 1, 2, some y, true, true⟩ : Ctx) = { Ctx.fresh true with captured := some y } from rfl, hst]
      simp only [hfg, if_true]
      rw [hfold]
      simp only [hcaps, List.foldl_nil]
    rw [hl]
    refine ⟨ps, rfl, ⟨hP, fun k hk => ?_⟩, hlen, hps⟩
    have hk : t'.get k = some (.pipeW n) := hk
    rw [gf] at hk
    split at hk
    · cases hk
    · exact gt k hk

/-! ### Nothing comes back to a pipe that is gone -/

theorem Gone.close {n : Nat} {w : World} (h : Gone n w) (fd : Nat) : Gone n (w.close fd) := by
  refine ⟨h.made, fun k hk => ?_⟩
  have hk : (w.tbl.close fd).get k = some (.pipeW n) := hk
  rw [Tbl.get_close] at hk
  split at hk
  · cases hk
  · exact h.tbl k hk

theorem Gone.foldl {n : Nat} {w : World} (h : Gone n w) (fds : List Nat) : Gone n (fds.foldl World.close w) := by
  induction fds generalizing w with
  | nil => exact h
  | cons fd fds ih => exact ih (h.close fd)

theorem Gone.alloc {n : Nat} {w : World} (h : Gone n w) {o : Obj} (ho : o ≠ .pipeW n) : Gone n (w.alloc o).2 := by
  refine ⟨h.made, fun k hk => ?_⟩
  have hk : (w.tbl.put w.tbl.lowest o).get k = some (.pipeW n) := hk
  rw [Tbl.get_put] at hk
  split at hk
  · injection hk with hk; exact ho hk
  · exact h.tbl k hk

theorem Gone.pipe {n : Nat} {w : World} (h : Gone n w) : Gone n w.pipe.2.2 := by
  have h1 : Gone n (w.alloc (.pipeR w.pipes)).2 := h.alloc (by simp)
  have hne : Obj.pipeW w.pipes ≠ .pipeW n := by
    intro hh; injection hh with hh; have := h.made; omega
  have h2 := h1.alloc (o := .pipeW w.pipes) hne
  exact ⟨Nat.lt_succ_of_lt h.made, h2.tbl⟩

/-- Everything a child has open was open in the shell. -/
theorem childIO_gone {n : Nat} {t t' : Tbl} {i o e : Nat} (h : ∀ k, t.get k ≠ some (.pipeW n))
    (hc : childIO t i o e = some t') : ∀ k, t'.get k ≠ some (.pipeW n) := by
  have kd : ∀ {t t' : Tbl} {a b : Nat}, (∀ k, t.get k ≠ some (.pipeW n)) → dup2 t a b = some t' → ∀ k, t'.get k ≠ some (.pipeW n) := by
    intro t t' a b h hd k
    cases hg : t.get a with
    | none => simp [dup2, hg] at hd
    | some o =>
      obtain ⟨t'', h1, h2⟩ := dup2_some (b := b) hg
      rw [h1] at hd
      injection hd with hd
      subst hd
      rw [h2]
      split
      · rw [← hg]; exact h a
      · exact h k
  have kc : ∀ {t t' : Tbl} {a : Nat}, (∀ k, t.get k ≠ some (.pipeW n)) → close1 t a = some t' → ∀ k, t'.get k ≠ some (.pipeW n) := by
    intro t t' a h hd k
    cases hg : t.get a with
    | none => simp [close1, hg] at hd
    | some o =>
      obtain ⟨t'', h1, h2⟩ := close1_some hg
      rw [h1] at hd
      injection hd with hd
      subst hd
      rw [h2]
      split
      · simp
      · exact h k
  have kdc : ∀ {t t' : Tbl} {a b : Nat}, (∀ k, t.get k ≠ some (.pipeW n)) → dupClose t a b = some t' → ∀ k, t'.get k ≠ some (.pipeW n) := by
    intro t t' a b h hd
    unfold dupClose at hd
    split at hd
    · injection hd with hd; rw [← hd]; exact h
    · rw [Option.bind_eq_some_iff] at hd
      obtain ⟨t1, h1, hd⟩ := hd
      split at hd
      · exact kc (kd h h1) hd
      · injection hd with hd; rw [← hd]; exact kd h h1
  unfold childIO at hc
  rw [Option.bind_eq_some_iff] at hc
  obtain ⟨t1, h1, hc⟩ := hc
  have g1 : ∀ k, t1.get k ≠ some (.pipeW n) := by
    split at h1
    · injection h1 with h1; rw [← h1]; exact h
    · exact kd h h1
  rw [Option.bind_eq_some_iff] at hc
  obtain ⟨t2, h2, hc⟩ := hc
  have g2 : ∀ k, t2.get k ≠ some (.pipeW n) := by
    split at h2
    · exact kc g1 h2
    · injection h2 with h2; rw [← h2]; exact g1
  split at hc
  · rw [Option.bind_eq_some_iff] at hc
    obtain ⟨t3, h3, hc⟩ := hc
    have g3 : ∀ k, t3.get k ≠ some (.pipeW n) := by
      split at h3
      · injection h3 with h3; rw [← h3]; exact g2
      · exact kd g2 h3
    rw [Option.bind_eq_some_iff] at hc
    obtain ⟨t4, h4, hc⟩ := hc
    have g4 : ∀ k, t4.get k ≠ some (.pipeW n) := by
      split at h4
      · injection h4 with h4; rw [← h4]; exact g3
      · exact kd g3 h4
    split at hc
    · exact kc g4 hc
    · injection hc with hc; rw [← hc]; exact g4
  · rw [Option.bind_eq_some_iff] at hc
    obtain ⟨t3, h3, hc⟩ := hc
    exact kdc (kdc g2 h3) hc

/-- `w'` comes after `w`: pipe `n` is still gone, and the programs that were added are silent about it. -/
structure After (n : Nat) (w w' : World) : Prop where
  gone : Gone n w'
  progs : ∃ ops, w'.progs = w.progs ++ ops ∧ ∀ op ∈ ops, Silent n op

theorem After.refl {n : Nat} {w : World} (h : Gone n w) : After n w w := ⟨h, [], by simp, by simp⟩

theorem After.trans {n : Nat} {a b c : World} (h : After n a b) (h' : After n b c) : After n a c := by
  obtain ⟨o1, e1, s1⟩ := h.progs
  obtain ⟨o2, e2, s2⟩ := h'.progs
  refine ⟨h'.gone, o1 ++ o2, by rw [e2, e1, List.append_assoc], fun op hop => ?_⟩
  rcases List.mem_append.1 hop with hop | hop
  · exact s1 op hop
  · exact s2 op hop

/-- A step that starts nothing. -/
theorem After.quiet {n : Nat} {w w' : World} (h : Gone n w') (hp : w'.progs = w.progs) : After n w w' :=
  ⟨h, [], by simp [hp], by simp⟩

theorem foldl_progs (fds : List Nat) (w : World) : (fds.foldl World.close w).progs = w.progs := by
  obtain ⟨t, h, -⟩ := foldl_close fds w
  rw [h]

theorem handleOutput_after {n : Nat} (red : Option (Shell.RKind × Wire.Str)) (c : Ctx) {w : World} (h : Gone n w) :
    After n w (handleOutput red c w).2.1 := by
  unfold handleOutput
  split <;> first
    | exact .refl h
    | exact .quiet h.pipe rfl
    | (split <;> first
        | exact .refl h
        | (split <;> exact .refl h))

theorem outSetup_after {n : Nat} (slave : Option Nat) (red : Option (Shell.RKind × Wire.Str)) (next : Bool) (c : Ctx) {w : World}
    (h : Gone n w) : After n w (outSetup slave red next c w).2.1 := by
  unfold outSetup
  split
  · exact .quiet h.pipe rfl
  · split
    · exact .quiet h.pipe rfl
    · exact handleOutput_after red c h

theorem fork_after {n : Nat} (slave : Option Nat) (c : Ctx) {w : World} (h : Gone n w) : After n w (forkCommand slave c w).1 := by
  unfold forkCommand
  have key : ∀ {w : World} (i o e : Nat), Gone n w →
      After n w { w with progs := w.progs ++ [(childIO w.tbl i o e).map progOf] } := by
    intro w i o e h
    refine ⟨⟨h.made, h.tbl⟩, _, rfl, ?_⟩
    intro op hop p hp
    rw [List.mem_singleton.1 hop, Option.map_eq_some_iff] at hp
    obtain ⟨t', ht, rfl⟩ := hp
    have := childIO_gone h.tbl ht
    intro e'
    cases e'
    · exact this 1
    · exact this 2
  have kp : ∀ {w : World}, Gone n w → Gone n { w.pipe.2.2 with caps := w.pipe.2.2.caps ++ [w.pipe.1] } :=
    fun h => ⟨h.pipe.made, h.pipe.tbl⟩
  by_cases h1 : c.outfile = 1 ∧ c.foreground = false ∧ slave = none <;>
    by_cases h2 : c.errfile = 2 ∧ c.foreground = false ∧ slave = none
  · simp only [if_pos h1, if_pos h2]
    exact (After.quiet (w := w) (kp (kp h)) rfl).trans (key _ _ _ (kp (kp h)))
  · simp only [if_pos h1, if_neg h2]
    exact (After.quiet (w := w) (kp h) rfl).trans (key _ _ _ (kp h))
  · simp only [if_neg h1, if_pos h2]
    exact (After.quiet (w := w) (kp h) rfl).trans (key _ _ _ (kp h))
  · simp only [if_neg h1, if_neg h2]
    exact key _ _ _ h

theorem start_after {n : Nat} (slave : Option Nat) (k : Kind) (c : Ctx) {w : World} (h : Gone n w) : After n w (start slave k c w).1 := by
  cases k with
  | command => exact fork_after slave c h
  | builtin =>
    refine ⟨⟨h.made, h.tbl⟩, _, rfl, ?_⟩
    intro op hop p hp
    rw [List.mem_singleton.1 hop] at hp
    injection hp with hp
    subst hp
    intro e'
    cases e'
    · exact h.tbl _
    · exact h.tbl _

theorem parentClose_after {n : Nat} (slave input : Option Nat) (i o e : Nat) {w : World} (h : Gone n w) :
    After n w (parentClose slave input i o e w) := by
  have kc : ∀ {v : World} (q : Prop) [Decidable q] (fd : Nat), After n w v → After n w (if q then v.close fd else v) := by
    intro v q _ fd hv
    split
    · exact hv.trans (.quiet (hv.gone.close fd) rfl)
    · exact hv
  exact kc _ e (kc _ o (kc _ i (.refl h)))

theorem copier_after {n : Nat} (red : Option (Shell.RKind × Wire.Str)) (c : Ctx) {w : World} (h : Gone n w) : After n w (copier red c w) := by
  unfold copier
  split
  · exact .refl h
  · exact .refl h
  · exact .quiet ⟨h.made, h.tbl⟩ rfl

theorem stage_after {n : Nat} {readable : Wire.Str → Bool} {slave : Option Nat} {red : Option (Shell.RKind × Wire.Str)} {next : Bool}
    {k : Kind} {c : Ctx} {w : World} (h : Gone n w) {c' : Ctx} {w' : World} {input : Option Nat}
    (hst : stage readable slave red next k c w = some (c', w', input)) : After n w w' := by
  unfold stage at hst
  rw [Option.map_eq_some_iff] at hst
  obtain ⟨⟨c1, w1, inp⟩, ho, hst⟩ := hst
  have h1 : After n w w1 := by
    unfold openInput at ho
    split at ho
    · split at ho
      · simp only [Option.some.injEq, Prod.mk.injEq] at ho
        rw [← ho.2.1]
        exact .quiet (h.alloc (by simp)) rfl
      · cases ho
    · simp only [Option.some.injEq, Prod.mk.injEq] at ho
      rw [← ho.2.1]
      exact .refl h
  simp only [Prod.mk.injEq] at hst
  obtain ⟨-, hw', -⟩ := hst
  have h2 := outSetup_after slave red next c1 h1.gone
  have h3 := start_after slave k (applySlave slave (outSetup slave red next c1 w1).1) h2.gone
  have h4 : ∀ cap : List Nat, After n w { (start slave k (applySlave slave (outSetup slave red next c1 w1).1)
      (outSetup slave red next c1 w1).2.1).1 with caps := (start slave k (applySlave slave (outSetup slave red next c1 w1).1)
      (outSetup slave red next c1 w1).2.1).1.caps ++ cap } := fun cap =>
    ((h1.trans h2).trans h3).trans (.quiet ⟨h3.gone.made, h3.gone.tbl⟩ rfl)
  rw [← hw']
  have h5 := (h4 (outSetup slave red next c1 w1).2.2.2.toList)
  have h6 := h5.trans (parentClose_after slave inp (applySlave slave (outSetup slave red next c1 w1).1).infile
    (start slave k (applySlave slave (outSetup slave red next c1 w1).1) (outSetup slave red next c1 w1).2.1).2.1
    (start slave k (applySlave slave (outSetup slave red next c1 w1).1) (outSetup slave red next c1 w1).2.1).2.2 h5.gone)
  exact h6.trans (copier_after red _ h6.gone)

theorem stages_after {n : Nat} {readable : Wire.Str → Bool} {slave : Option Nat} {red : Option (Shell.RKind × Wire.Str)} :
    ∀ (ks : List Kind) (c : Ctx) (w : World), Gone n w → After n w (stages readable slave red ks c w).2
  | [], _, _, h => .refl h
  | k :: ks, c, w, h => by
    rw [stages]
    split
    · exact .refl h
    · rename_i c' w' input hst
      have h1 := stage_after h hst
      have h2 := h1.trans (stages_after (readable := readable) (slave := slave) (red := red) ks c' w' h1.gone)
      cases input with
      | none => exact h2
      | some fd => exact h2.trans (.quiet (h2.gone.close fd) rfl)

theorem setupPty_after {n : Nat} (first : Option Kind) {w : World} (h : Gone n w) : After n w (setupPty first w).2.2 := by
  obtain ⟨s, fds, t, hp, -, -, -, hout, hin⟩ := setupPty_spec first w
  rw [hp]
  refine .quiet ⟨h.made, fun k hk => ?_⟩ rfl
  have hk : t.get k = some (.pipeW n) := hk
  by_cases hkf : k ∈ fds
  · rcases hin k hkf with h' | h' <;> rw [h'] at hk <;> cases hk
  · rw [hout k hkf] at hk
    exact h.tbl k hk

theorem launch_after {n : Nat} (readable : Wire.Str → Bool) (pty : Bool) (j : Job) (c : Ctx) {w : World} (h : Gone n w) :
    After n w (launch readable pty j c w).2 := by
  have fin : ∀ (fds : List Nat) (c : Ctx) (v : World), After n w v →
      After n w (if c.foreground then { (fds.foldl World.close v).caps.foldl World.close (fds.foldl World.close v) with caps := [] }
        else fds.foldl World.close v) := by
    intro fds c v hv
    have h1 : After n w (fds.foldl World.close v) := hv.trans (.quiet (hv.gone.foldl fds) (foldl_progs fds v))
    split
    · have h2 := h1.gone.foldl (fds.foldl World.close v).caps
      exact h1.trans (.quiet ⟨h2.made, h2.tbl⟩ (foldl_progs _ _))
    · exact h1
  by_cases hp : (pty && j.foreground && c.interactive) = true
  · simp only [launch, hp, if_true]
    have h1 := setupPty_after j.kinds.head? h
    have h2 := h1.trans (stages_after (readable := readable) (slave := some (setupPty j.kinds.head? w).1) (red := j.redirect)
      j.kinds { c with foreground := j.foreground } _ h1.gone)
    exact fin _ _ _ h2
  · simp only [launch, hp, Bool.false_eq_true, if_false]
    exact fin [] _ _ (stages_after (readable := readable) (slave := none) (red := j.redirect) j.kinds
      { c with foreground := j.foreground } _ h)

theorem settle_after {n : Nat} {w : World} (h : Gone n w) : After n w (settle w) := by
  have h2 := h.foldl (w.copiers.map (·.fd))
  exact .quiet ⟨h2.made, h2.tbl⟩ (foldl_progs _ _)

theorem runLine_after {n : Nat} (readable : Wire.Str → Bool) (pty : Bool) :
    ∀ (js : List (Job × Bool)) (c : Ctx) (w : World), Gone n w → After n w (runLine readable pty js c w).2
  | [], _, _, h => .refl h
  | (j, settled) :: js, c, w, h => by
    rw [runLine]
    have h1 := launch_after readable pty j c h
    cases settled with
    | false => exact h1.trans (runLine_after readable pty js _ _ h1.gone)
    | true =>
      have h2 := h1.trans (settle_after h1.gone)
      exact h2.trans (runLine_after readable pty js _ _ h2.gone)

/-! ### C203 -/

/-- What program `i` wrote to its standard output. -/
def wroteBy (i : Nat) (log : List Write) : Str := (log.filter fun x => x.prog == i && !x.err).flatMap (·.text)

theorem sent_by {n i : Nat} {ps : List (Option Prog)} {log : List Write}
    (h : ∀ j p e, ps[j]? = some (some p) → (stream p e = some (.pipeW n) ↔ j = i ∧ e = false))
    (hi : ∃ p, ps[i]? = some (some p)) : sent (.pipeW n) ps log = wroteBy i log := by
  induction log with
  | nil => rfl
  | cons x log ih =>
    have hs : sent (.pipeW n) ps (x :: log) = sent (.pipeW n) ps [x] ++ sent (.pipeW n) ps log := by
      simp [sent]
    have hw : wroteBy i (x :: log) = wroteBy i [x] ++ wroteBy i log := by
      simp only [wroteBy, List.filter_cons, List.filter_nil]
      split <;> simp
    rw [hs, hw, ih]
    congr 1
    simp only [sent, wroteBy, List.flatMap_cons, List.flatMap_nil, List.append_nil, List.filter_cons, List.filter_nil]
    split
    · rename_i p hp
      have := h x.prog p x.err hp
      by_cases hx : stream p x.err = some (.pipeW n)
      · obtain ⟨h1, h2⟩ := this.1 hx
        rw [if_pos hx]
        simp [h1, h2]
      · rw [if_neg hx]
        rw [if_neg]
        · rfl
        · simp only [Bool.and_eq_true, beq_iff_eq, Bool.not_eq_true']
          exact fun hh => hx (this.2 hh)
    · rename_i hno
      rw [if_neg]
      · rfl
      · simp only [Bool.and_eq_true, beq_iff_eq, Bool.not_eq_true', not_and]
        intro hxi
        obtain ⟨p, hp⟩ := hi
        exact absurd (hxi ▸ hp) (hno p)

/-- What is in the pipe: the standard output of the last program of the first job. -/
theorem piped_first (readable : Wire.Str → Bool) (pty : Bool) (w : World) (hw : Idle w) {ks : List Kind} (hne : ks ≠ [])
    (settled : Bool) (js : List (Job × Bool)) (log : List Write) :
    piped readable pty ((.plain ks, settled) :: js) w log = wroteBy (ks.length - 1) log := by
  obtain ⟨s0, s1, s2⟩ := hw.std
  obtain ⟨r, x, t, hp, hr, hx, hrx, ht⟩ := pipe_spec w
  have low : w.tbl.get 0 ≠ none ∧ w.tbl.get 1 ≠ none ∧ w.tbl.get 2 ≠ none := by simp [s0, s1, s2]
  have gr := gt_two low hr
  have gx := gt_two low hx
  obtain ⟨w1, hw1⟩ : ∃ w1 : World, w1 = { w with tbl := t, pipes := w.pipes + 1 } := ⟨_, rfl⟩
  obtain ⟨ps, hps, hg, hlen, hpr⟩ := launch_cap (readable := readable) (pty := pty) (w := w1) (y := x) (n := w.pipes) hne
    (by rw [hw1]; show t.get 0 = _ ∧ t.get 1 = _ ∧ t.get 2 = _
        refine ⟨?_, ?_, ?_⟩ <;> rw [ht, if_neg (by omega), if_neg (by omega)] <;> assumption)
    (by rw [hw1]; exact hw.caps) gx
    (by rw [hw1]; show t.get x = _; rw [ht, if_pos rfl])
    (by
      rw [hw1]
      intro k hk hg
      have hg : t.get k = some (.pipeW w.pipes) := hg
      rw [ht, if_neg hk] at hg
      split at hg
      · cases hg
      · have := hw.pipes k w.pipes (Or.inr hg); omega)
    (by rw [hw1]; exact Nat.lt_succ_self _)
  obtain ⟨l, hl⟩ : ∃ l, l = launch readable pty (.plain ks) { Ctx.fresh true with captured := some x } w1 := ⟨_, rfl⟩
  rw [← hl] at hps hg
  have ha : After w.pipes l.2 (runLine readable pty js l.1 (if settled then settle l.2 else l.2)).2 := by
    cases settled with
    | false => exact runLine_after readable pty js _ _ hg
    | true =>
      have h1 := settle_after hg
      exact h1.trans (runLine_after readable pty js _ _ h1.gone)
  obtain ⟨ops, hops, hsil⟩ := ha.progs
  have hrun : run readable pty ((.plain ks, settled) :: js) w =
      ((((runLine readable pty js l.1 (if settled then settle l.2 else l.2)).2.close x).close r), w.pipes) := by
    simp only [run, hp, ← hw1, runLine, ← hl]
  have hprogs : (run readable pty ((.plain ks, settled) :: js) w).1.progs.drop w.progs.length = ps.map some ++ ops := by
    rw [hrun]
    show (runLine readable pty js l.1 (if settled then settle l.2 else l.2)).2.progs.drop _ = _
    rw [hops, hps, hw1]
    simp
  have hkl : 1 ≤ ks.length := by
    cases ks with
    | nil => exact absurd rfl hne
    | cons k ks => simp
  have hpiped : piped readable pty ((.plain ks, settled) :: js) w log = sent (.pipeW w.pipes) (ps.map some ++ ops) log := by
    have : (run readable pty ((.plain ks, settled) :: js) w).2 = w.pipes := by rw [hrun]
    simp only [piped, hprogs, this]
  rw [hpiped]
  refine sent_by ?_ ?_
  · intro j p e hj
    rw [List.getElem?_append] at hj
    split at hj
    · rename_i hlt
      rw [List.getElem?_map, Option.map_eq_some_iff] at hj
      obtain ⟨q, hq, hqp⟩ := hj
      injection hqp with hqp
      subst hqp
      obtain ⟨h1, h2⟩ := hpr j q hq
      cases e with
      | false =>
        show q.stdout = _ ↔ _
        rw [h1]
        constructor
        · intro hh; exact ⟨by omega, rfl⟩
        · rintro ⟨hh, -⟩; omega
      | true =>
        show q.stderr = _ ↔ _
        rw [h2]
        constructor
        · intro hh
          unfold jobStream at hh
          split at hh <;> cases hh
        · rintro ⟨-, hh⟩; cases hh
    · rename_i hlt
      constructor
      · intro hh
        exact absurd hh (hsil _ (List.mem_of_getElem? hj) p rfl e)
      · rintro ⟨hji, -⟩
        simp only [List.length_map] at hlt
        omega
  · refine ⟨ps[ks.length - 1]'(by omega), ?_⟩
    rw [List.getElem?_append_left (by simp; omega), List.getElem?_map, List.getElem?_eq_getElem (by omega)]
    rfl

/-- The texts `trim_matches` takes away and leaves. -/
theorem trimNl_spec (s : Str) : ∃ a b, s = a ++ trimNl s ++ b ∧ (∀ c ∈ a, c = '\n') ∧ (∀ c ∈ b, c = '\n') ∧
    (trimNl s).head? ≠ some '\n' ∧ (trimNl s).getLast? ≠ some '\n' := by
  have tw : ∀ (l : Str), ∀ c ∈ l.takeWhile (· == '\n'), c = '\n' := by
    intro l
    induction l with
    | nil => simp
    | cons a l ih =>
      intro c hc
      rw [List.takeWhile_cons] at hc
      split at hc
      · rename_i ha
        rcases List.mem_cons.1 hc with rfl | hc
        · simpa using ha
        · exact ih c hc
      · simp at hc
  have dw : ∀ (l : Str), (l.dropWhile (· == '\n')).head? ≠ some '\n' := by
    intro l
    induction l with
    | nil => simp
    | cons a l ih =>
      rw [List.dropWhile_cons]
      split
      · exact ih
      · rename_i ha
        simpa using ha
  obtain ⟨m, hm⟩ : ∃ m, m = s.dropWhile (· == '\n') := ⟨_, rfl⟩
  refine ⟨s.takeWhile (· == '\n'), (m.reverse.takeWhile (· == '\n')).reverse, ?_, tw s, fun c hc => tw _ c (List.mem_reverse.1 hc), ?_, ?_⟩
  · have h1 : m = trimNl s ++ (m.reverse.takeWhile (· == '\n')).reverse := by
      rw [trimNl, ← hm, ← List.reverse_append, List.takeWhile_append_dropWhile, List.reverse_reverse]
    rw [List.append_assoc, ← h1, hm, List.takeWhile_append_dropWhile]
  · intro hh
    have h1 : m = trimNl s ++ (m.reverse.takeWhile (· == '\n')).reverse := by
      rw [trimNl, ← hm, ← List.reverse_append, List.takeWhile_append_dropWhile, List.reverse_reverse]
    have : m.head? = some '\n' := by
      rw [h1]
      cases ht : trimNl s with
      | nil => rw [ht] at hh; cases hh
      | cons a l => rw [ht] at hh; simpa using hh
    exact dw s (hm ▸ this)
  · rw [trimNl, ← hm, List.getLast?_reverse]
    exact dw _

/-- **C203, what holds.** With a terminal, a line that is one pipeline of programs and builtins without a
redirect, and at most 64 KiB of output: the answer is what the last of them wrote to its standard output, without
the newlines around it; nothing that goes to the standard error is in it. -/
theorem C203_answer_partial (readable : Wire.Str → Bool) (pty : Bool) (w : World) (hw : Idle w) (ks : List Kind) (hne : ks ≠ [])
    (settled : Bool) (log : List Write) (hc : OutHist.bytes (wroteBy (ks.length - 1) log) ≤ capacity) :
    ∃ a s b, sh readable true pty (some [(.plain ks, settled)]) .go w log = .text s ∧
      wroteBy (ks.length - 1) log = a ++ s ++ b ∧ (∀ c ∈ a ++ b, c = '\n') ∧ s.head? ≠ some '\n' ∧ s.getLast? ≠ some '\n' := by
  obtain ⟨a, b, h1, h2, h3, h4, h5⟩ := trimNl_spec (wroteBy (ks.length - 1) log)
  refine ⟨a, _, b, ?_, h1, ?_, h4, h5⟩
  · simp only [sh, Bool.not_true, Bool.false_eq_true, if_false, piped_first readable pty w hw hne settled [] log]
    rw [if_neg (by omega)]
  · intro c hcc
    rcases List.mem_append.1 hcc with hcc | hcc
    · exact h2 c hcc
    · exact h3 c hcc

/-- **C203 is violated.** Of a line of several jobs, `a ; b`, only the output of the first is answered: whatever
the others are and write, the answer is that of the first alone. -/
theorem C203_list_violated (readable : Wire.Str → Bool) (pty : Bool) (w : World) (hw : Idle w) (ks : List Kind) (hne : ks ≠ [])
    (settled : Bool) (js : List (Job × Bool)) (log : List Write) :
    sh readable true pty (some ((.plain ks, settled) :: js)) .go w log =
      sh readable true pty (some [(.plain ks, settled)]) .go w log := by
  simp only [sh, piped_first readable pty w hw hne settled js log, piped_first readable pty w hw hne settled [] log]

/-- **C203 is violated.** A line that writes more than a pipe takes never ends: nobody reads while it runs. -/
theorem C203_long_violated (readable : Wire.Str → Bool) (pty : Bool) (w : World) (hw : Idle w) (ks : List Kind) (hne : ks ≠ [])
    (settled : Bool) (js : List (Job × Bool)) (log : List Write) (hc : capacity < OutHist.bytes (wroteBy (ks.length - 1) log)) :
    sh readable true pty (some ((.plain ks, settled) :: js)) .go w log = .hang := by
  simp only [sh, Bool.not_true, Bool.false_eq_true, if_false, piped_first readable pty w hw hne settled js log, if_pos hc]

/-- **C203 is violated.** A line that the guard or the person refuses gives the same answer as one that wrote
nothing. -/
theorem C203_refused_violated (readable : Wire.Str → Bool) (pty : Bool) (w : World) (hw : Idle w) (ks : List Kind) (hne : ks ≠ [])
    (settled : Bool) (v : Verdict) (hv : v ≠ .go) :
    (∀ log, sh readable true pty (some [(.plain ks, settled)]) v w log = .text []) ∧
    sh readable true pty (some [(.plain ks, settled)]) .go w [] = .text [] := by
  constructor
  · intro log
    cases v
    · exact absurd rfl hv
    · rfl
    · rfl
  · simp only [sh, Bool.not_true, Bool.false_eq_true, if_false, piped_first readable pty w hw hne settled [] []]
    rfl

/-- **C203 is violated.** Blank lines around the output are lost: texts that differ in them only are answered
the same. -/
theorem C203_blank_violated (readable : Wire.Str → Bool) (pty : Bool) (w : World) (hw : Idle w) (k : Kind) (settled : Bool)
    (s : Str) (hc : OutHist.bytes s < capacity) :
    sh readable true pty (some [(.plain [k], settled)]) .go w [⟨0, false, '\n' :: s⟩] =
      sh readable true pty (some [(.plain [k], settled)]) .go w [⟨0, false, s⟩] := by
  have hb : OutHist.bytes ('\n' :: s) = OutHist.bytes s + 1 := by
    simp only [OutHist.bytes, List.map_cons, List.sum_cons, show '\n'.utf8Size = 1 from by decide]
    omega
  have h1 : wroteBy ([k].length - 1) [⟨0, false, '\n' :: s⟩] = '\n' :: s := by simp [wroteBy]
  have h2 : wroteBy ([k].length - 1) [⟨0, false, s⟩] = s := by simp [wroteBy]
  simp only [sh, Bool.not_true, Bool.false_eq_true, if_false, piped_first readable pty w hw (by simp : [k] ≠ []) settled [] _, h1, h2]
  rw [if_neg (by omega), if_neg (by omega)]
  have : trimNl ('\n' :: s) = trimNl s := by simp [trimNl]
  rw [this]

/-- **C203 is violated.** The arguments of a call are joined by blanks and read as a line: one with blanks in it is
not handed on as one word. -/
theorem C203_words_violated (pre post : List Str) (a b : Str) :
    lineOf (pre ++ [a ++ ' ' :: b] ++ post) = lineOf (pre ++ [a, b] ++ post) := by
  unfold lineOf
  have hj : ∀ (x : Str) (l : List Str), l ≠ [] → joinWith c!" " (x :: l) = x ++ ' ' :: joinWith c!" " l := by
    intro x l hl
    cases l with
    | nil => exact absurd rfl hl
    | cons y l => simp [joinWith]
  induction pre with
  | nil =>
    simp only [List.nil_append]
    cases post with
    | nil => simp [joinWith]
    | cons y l =>
      simp only [List.cons_append, List.nil_append]
      rw [hj (a ++ _) (y :: l) (by simp), hj a (b :: y :: l) (by simp), hj b (y :: l) (by simp)]
      simp
  | cons x pre ih =>
    simp only [List.cons_append, List.append_assoc] at ih ⊢
    rw [hj _ _ (by simp), hj _ _ (by simp), ih]

/-- **C203.** Without a terminal as standard input, in a script or a pipeline, no line is run. -/
theorem C203_terminal_violated (readable : Wire.Str → Bool) (pty : Bool) (jobs : Option (List (Job × Bool))) (v : Verdict) (w : World)
    (log : List Write) : sh readable false pty jobs v w log = .err := rfl

/-! ### Cases -/

/-- `(sh "printf 'b\na\n' | sort")`. -/
example : sh (fun _ => true) true true (some [(.plain [.command, .command], true)]) .go .init
    [⟨0, false, c!"b\na\n"⟩, ⟨1, true, c!"oops"⟩, ⟨1, false, c!"a\nb\n"⟩] = .text c!"a\nb" := by decide +kernel

/-- `(sh "echo a ; echo b")`: without terminals for jobs the second program is not even run. -/
example : sh (fun _ => true) true true (some [(.plain [.command], true), (.plain [.command], true)]) .go .init
      [⟨0, false, c!"a\n"⟩, ⟨1, false, c!"b\n"⟩] = .text c!"a" ∧
    (run (fun _ => true) false [(.plain [.command], true), (.plain [.command], true)] .init).1.progs.map Option.isSome =
      [true, false] := by decide +kernel

end Dsh.Sh
