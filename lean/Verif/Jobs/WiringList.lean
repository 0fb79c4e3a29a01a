import Verif.Jobs.WiringProps
/-!
One command with a redirect (C44), the commands of a line after each other (C114), and the file of a
redirect (C115).
-/
namespace Dsh.Wire
open Dsh.Shell (RKind)

/-! ### One command with a redirected output -/

/-- Does the redirect take the standard output? -/
def takesOut : RKind → Bool
  | .stdoutOutput | .stdoutAppend | .stdouterrOutput | .stdouterrAppend => true
  | _ => false

/-- Does the redirect take the standard error? -/
def takesErr : RKind → Bool
  | .stderrOutput | .stderrAppend | .stdouterrOutput | .stdouterrAppend => true
  | _ => false

theorem handleOutput_red {k : RKind} (hk : k ≠ .input) (path : Str) (c : Ctx) {w w' : World}
    {r x : Nat} (hp : w.pipe = (r, x, w')) :
    handleOutput (some (k, path)) c w =
      ({ c with
        outfile := if takesOut k then x else c.outfile
        errfile := if takesErr k then x else c.errfile }, w', some r) := by
  cases k <;> first | exact absurd rfl hk | simp [handleOutput, hp, takesOut, takesErr]

/-- A process in the foreground whose streams are open descriptors. -/
theorem start_fg {slave : Option Nat} {c : Ctx} {w : World} {inp out err : Obj} (k : Kind)
    (hfg : c.foreground = true)
    (hi : w.tbl.get c.infile = some inp) (ho : w.tbl.get c.outfile = some out)
    (he : w.tbl.get c.errfile = some err) (hi' : c.infile = 0 ∨ 2 < c.infile)
    (ho' : c.outfile = 1 ∨ 2 < c.outfile) (he' : c.errfile = 2 ∨ 2 < c.errfile) :
    ∃ p : Prog, start slave k c w =
        ({ w with progs := w.progs ++ [some p] }, c.outfile, c.errfile) ∧
      p.stdin = some inp ∧ p.stdout = some out ∧ p.stderr = some err := by
  cases k with
  | builtin => exact ⟨builtinProg w.tbl c, rfl, hi, ho, he⟩
  | command =>
    obtain ⟨tc, hc, c0, c1, c2, -⟩ := childIO_ok hi ho he hi' ho' he'
    refine ⟨progOf tc, ?_, c0, c1, c2⟩
    simp only [start, forkCommand_fg hfg, hc, Option.map_some]

/-- One command whose output is redirected, as the first of a line. -/
theorem stages_redirect {readable : Str → Bool} {slave : Option Nat} {w : World} {inp out err : Obj}
    (hb : Base slave w.tbl.get w.pipes out err) (hinp : w.tbl.get (slave.getD 0) = some inp)
    {k : RKind} (hk : k ≠ .input) (path : Str) (q : Kind) :
    ∃ p t r c', stages readable slave (some (k, path)) [q] (.fresh true) w = (c', { w with
        tbl := t, pipes := w.pipes + 1, progs := w.progs ++ [some p],
        copiers := w.copiers ++ [⟨r, some (.pipeR w.pipes), path, isAppend k⟩] }) ∧
      w.tbl.get r = none ∧
      (∀ fd, t.get fd = if fd = r then some (.pipeR w.pipes) else w.tbl.get fd) ∧
      p.stdin = some inp ∧
      p.stdout = some (if takesOut k then .pipeW w.pipes else out) ∧
      p.stderr = some (if takesErr k then .pipeW w.pipes else err) ∧ c'.foreground = true ∧
      c'.interactive = true ∧ c'.captured = none ∧ c'.infile = r := by
  obtain ⟨r, x, t, hp, hr, hx, hrx, ht⟩ := pipe_spec w
  have r2 := gt_two hb.low hr
  have x2 := gt_two hb.low hx
  have hnx : ∀ o, w.tbl.get o ≠ none → o ≠ x ∧ o ≠ r := fun o ho =>
    ⟨by rintro rfl; exact ho hx, by rintro rfl; exact ho hr⟩
  have hi := hnx (slave.getD 0) (by rw [hinp]; simp)
  have ho := hnx (slave.getD 1) (by rw [hb.out]; simp)
  have he := hnx (slave.getD 2) (by rw [hb.err]; simp)
  have hs : slave ≠ some x := by
    intro hs; rw [hs] at hi; exact hi.1 rfl
  have d0 : slave.getD 0 = 0 ∨ 2 < slave.getD 0 := by
    cases hs : slave with
    | none => exact Or.inl rfl
    | some s => exact Or.inr (hb.s2 s hs)
  have d1 : slave.getD 1 = 1 ∨ 2 < slave.getD 1 := by
    cases hs : slave with
    | none => exact Or.inl rfl
    | some s => exact Or.inr (hb.s2 s hs)
  have d2 : slave.getD 2 = 2 ∨ 2 < slave.getD 2 := by
    cases hs : slave with
    | none => exact Or.inl rfl
    | some s => exact Or.inr (hb.s2 s hs)
  have hset : outSetup slave (some (k, path)) false (.fresh true) w =
      ({ Ctx.fresh true with
        outfile := if takesOut k then x else 1
        errfile := if takesErr k then x else 2 },
        { w with tbl := t, pipes := w.pipes + 1 }, some r, none) := by
    simp only [outSetup, Bool.false_eq_true, if_false, Option.isNone_some, Bool.and_false,
      Bool.false_and]
    rw [handleOutput_red hk path _ hp]
    rfl
  obtain ⟨o, ho'⟩ : ∃ o, o = if takesOut k then x else slave.getD 1 := ⟨_, rfl⟩
  obtain ⟨e, he'⟩ : ∃ e, e = if takesErr k then x else slave.getD 2 := ⟨_, rfl⟩
  have hsl : applySlave slave { Ctx.fresh true with
        outfile := if takesOut k then x else 1
        errfile := if takesErr k then x else 2 } =
      ⟨slave.getD 0, o, e, none, true, true⟩ := by
    rw [ho', he']
    cases slave with
    | none => simp [applySlave, Ctx.fresh]
    | some s =>
      have a1 : ¬ x = 1 := by omega
      have a2 : ¬ x = 2 := by omega
      cases hko : takesOut k <;> cases hke : takesErr k <;> simp [applySlave, Ctx.fresh, a1, a2]
  have gto : t.get o = some (if takesOut k then .pipeW w.pipes else out) := by
    rw [ho', ht]
    cases takesOut k with
    | true => simp
    | false => simp [ho.1, ho.2, hb.out]
  have gte : t.get e = some (if takesErr k then .pipeW w.pipes else err) := by
    rw [he', ht]
    cases takesErr k with
    | true => simp
    | false => simp [he.1, he.2, hb.err]
  obtain ⟨pr, hc, c0, c1, c2⟩ := start_fg (slave := slave) (c := ⟨slave.getD 0, o, e, none, true, true⟩)
    (w := { w with tbl := t, pipes := w.pipes + 1 }) (inp := inp) q rfl
    (by show t.get _ = _; rw [ht, if_neg hi.1, if_neg hi.2]; exact hinp) gto gte d0
    (by show o = 1 ∨ 2 < o; rw [ho']; split; exact Or.inr x2; exact d1)
    (by show e = 2 ∨ 2 < e; rw [he']; split; exact Or.inr x2; exact d2)
  obtain ⟨tp, hp', gp⟩ := parentClose_tbl slave (slave.getD 0) o e
    { w with tbl := t, pipes := w.pipes + 1, progs := w.progs ++ [some pr] }
  have hgp : ∀ fd, tp.get fd = if fd = r then some (.pipeR w.pipes) else w.tbl.get fd := by
    intro fd
    rw [gp]
    show (if _ then none else t.get fd) = _
    rw [ht]
    have h1 : ¬ (slave.getD 0 ≠ 0 ∧ slave ≠ some (slave.getD 0) ∧ fd = slave.getD 0) := by
      cases slave <;> simp
    have hsome : takesOut k = true ∨ takesErr k = true := by
      cases k <;> first | exact absurd rfl hk | simp [takesOut, takesErr]
    by_cases hf : fd = x
    · have hdis : (o ≠ 1 ∧ slave ≠ some o ∧ fd = o) ∨
          (e ≠ 2 ∧ o ≠ e ∧ slave ≠ some e ∧ fd = e) := by
        rw [ho', he']
        cases hko : takesOut k with
        | true => exact Or.inl (by simp [hf, hs]; omega)
        | false =>
          rw [hko] at hsome
          rcases hsome with h | h
          · cases h
          · exact Or.inr (by simp [h, hf, hs, ho.1]; omega)
      rw [if_pos (Or.inr hdis), hf, if_neg hrx.symm, hx]
    · have hdis : ¬ (o ≠ 1 ∧ slave ≠ some o ∧ fd = o) := by
        rw [ho']
        cases takesOut k with
        | true => simp [hf]
        | false => cases slave <;> simp
      have hdis2 : ¬ (e ≠ 2 ∧ o ≠ e ∧ slave ≠ some e ∧ fd = e) := by
        rw [he']
        cases takesErr k with
        | true => simp [hf]
        | false => cases slave <;> simp
      rw [if_neg (by rintro (h | h | h); exact h1 h; exact hdis h; exact hdis2 h), if_neg hf]
  refine ⟨pr, tp, r, ⟨r, o, e, none, true, true⟩, ?_, hr, hgp, c0, c1, c2, rfl, rfl, rfl, rfl⟩
  · rw [stages, stage]
    have hop : openInput readable (some (k, path)) (.fresh true) w = some (.fresh true, w, none) := by
      cases k <;> first | exact absurd rfl hk | rfl
    rw [hop]
    simp only [List.isEmpty_nil, Bool.not_true, Option.map_some, hset, hsl, stages]
    simp only [hc, Option.toList_none, List.append_nil, hp']
    have hcop : ∀ (c : Ctx) (w : World), copier (some (k, path)) c w =
        { w with copiers := w.copiers ++ [⟨c.infile, w.tbl.get c.infile, path, isAppend k⟩] } := by
      intro c w
      cases k <;> first | exact absurd rfl hk | rfl
    rw [hcop]
    simp [hgp]

/-- A program or builtin with a redirected output: the redirected streams end in a pipe that a task of the
shell copies to the file; the other streams are those of the job; the shell keeps nothing open but
the end this task reads. -/
theorem C44_redirect_partial (readable : Str → Bool) (pty : Bool) (w : World) (hw : Idle w)
    (k : RKind) (hk : k ≠ .input) (path : Str) (q : Kind) :
    ∃ p r n, w.tbl.get r = none ∧ w.pipes ≤ n ∧
      (launch readable pty ⟨[q], some (k, path), true⟩ (.fresh true) w).2.progs =
        w.progs ++ [some p] ∧
      (launch readable pty ⟨[q], some (k, path), true⟩ (.fresh true) w).2.copiers =
        w.copiers ++ [⟨r, some (.pipeR n), path, isAppend k⟩] ∧
      (∀ fd, (launch readable pty ⟨[q], some (k, path), true⟩ (.fresh true) w).2.tbl.get fd =
        if fd = r then some (.pipeR n) else w.tbl.get fd) ∧
      p.stdin = some (jobStream pty w 0) ∧
      p.stdout = some (if takesOut k then .pipeW n else jobStream pty w 1) ∧
      p.stderr = some (if takesErr k then .pipeW n else jobStream pty w 2) := by
  obtain ⟨s0, s1, s2⟩ := hw.std
  cases pty with
  | false =>
    obtain ⟨p, t, r, c', hst, hr, gt, h0, h1, h2, hf, -⟩ :=
      stages_redirect (readable := readable) (slave := none) (w := w) (inp := .std 0) (out := .std 1)
        (err := .std 2) ⟨⟨by simp [s0], by simp [s1], by simp [s2]⟩, s1, s2, by simp, hw.pipes⟩ s0 hk path q
    refine ⟨p, r, w.pipes, hr, Nat.le_refl _, ?_⟩
    have : launch readable false ⟨[q], some (k, path), true⟩ (.fresh true) w = (c', { w with
        tbl := t, pipes := w.pipes + 1, progs := w.progs ++ [some p],
        copiers := w.copiers ++ [⟨r, some (.pipeR w.pipes), path, isAppend k⟩] }) := by
      simp only [launch, Bool.false_and, Bool.false_eq_true, if_false, List.foldl_nil]
      rw [show ({ Ctx.fresh true with foreground := true } : Ctx) = Ctx.fresh true from rfl, hst]
      simp only [hf, if_true, hw.caps, List.foldl_nil]
    rw [this]
    exact ⟨rfl, rfl, gt, h0, h1, h2⟩
  | true =>
    obtain ⟨s, fds, tp, hp, hsf, gs, hnone, hout, hin⟩ := setupPty_spec (some q) w
    have hn2 : ∀ k, w.tbl.get k ≠ none → k ∉ fds := fun k h hk => h (hnone k hk)
    have t0 : tp.get 0 = some (.std 0) := by rw [hout 0 (hn2 0 (by simp [s0]))]; exact s0
    have t1 : tp.get 1 = some (.std 1) := by rw [hout 1 (hn2 1 (by simp [s1]))]; exact s1
    have t2 : tp.get 2 = some (.std 2) := by rw [hout 2 (hn2 2 (by simp [s2]))]; exact s2
    have hs2 : 2 < s := gt_two ⟨by simp [s0], by simp [s1], by simp [s2]⟩ (hnone s hsf)
    obtain ⟨p, t, r, c', hst, hr, gt, h0, h1, h2, hf, -⟩ :=
      stages_redirect (readable := readable) (slave := some s)
        (w := { w with tbl := tp, ptys := w.ptys + 1 })
        (inp := .slave w.ptys) (out := .slave w.ptys) (err := .slave w.ptys)
        ⟨⟨by simp [t0], by simp [t1], by simp [t2]⟩, gs, gs, by rintro _ ⟨⟩; exact hs2, by
          intro k n hkn
          have hkn : tp.get k = some (.pipeR n) ∨ tp.get k = some (.pipeW n) := hkn
          by_cases hkf : k ∈ fds
          · rcases hin k hkf with h | h <;> rw [h] at hkn <;> simp at hkn
          · rw [hout k hkf] at hkn
            exact hw.pipes k n hkn⟩ gs hk path q
    have hr : tp.get r = none := hr
    have hrf : r ∉ fds := by
      intro hrf
      rcases hin r hrf with h | h <;> rw [h] at hr <;> cases hr
    obtain ⟨t', hfold, gf⟩ := foldl_close fds { w with
        tbl := t, ptys := w.ptys + 1, pipes := w.pipes + 1, progs := w.progs ++ [some p],
        copiers := w.copiers ++ [⟨r, some (.pipeR w.pipes), path, isAppend k⟩] }
    refine ⟨p, r, w.pipes, by rw [← hout r hrf]; exact hr, Nat.le_refl _, ?_⟩
    have : launch readable true ⟨[q], some (k, path), true⟩ (.fresh true) w = (c', { w with
        tbl := t', ptys := w.ptys + 1, pipes := w.pipes + 1, progs := w.progs ++ [some p],
        copiers := w.copiers ++ [⟨r, some (.pipeR w.pipes), path, isAppend k⟩] }) := by
      simp only [launch, Ctx.fresh, Bool.true_and, if_true, List.head?_cons, hp]
      rw [show (⟨0, 1, 2, none, true, true⟩ : Ctx) = Ctx.fresh true from rfl, hst]
      simp only [hf, if_true]
      rw [hfold]
      simp only [hw.caps, List.foldl_nil]
    rw [this]
    refine ⟨rfl, rfl, fun fd => ?_, h0, h1, h2⟩
    show t'.get fd = _
    rw [gf]
    show (if fd ∈ fds then none else t.get fd) = _
    rw [gt]
    show (if fd ∈ fds then none else if fd = r then some (.pipeR w.pipes) else tp.get fd) = _
    by_cases hff : fd ∈ fds
    · rw [if_pos hff, if_neg (by rintro rfl; exact hrf hff), hnone fd hff]
    · rw [if_neg hff, hout fd hff]

/-- `cmd 2>> log` on a terminal. -/
example : (launch (fun _ => true) true ⟨[.command], some (.stderrAppend, c!"log"), true⟩ (.fresh true)
      .init).2.copiers = [⟨7, some (.pipeR 0), c!"log", true⟩] := by decide +kernel

/-! ### C114: the commands of a line -/

theorem lowest_congr' {t u : Tbl} (h : ∀ k, t.get k = none ↔ u.get k = none) : t.lowest = u.lowest :=
  Tbl.lowest_unique ((h _).2 (Tbl.lowest_spec u).1) (fun j hj hn =>
    (Tbl.lowest_spec u).2 j hj ((h j).1 hn))

theorem alloc_congr {w v : World} (h : ∀ k, w.tbl.get k = none ↔ v.tbl.get k = none) (o o' : Obj) :
    (w.alloc o).1 = (v.alloc o').1 ∧
      ∀ k, (w.alloc o).2.tbl.get k = none ↔ (v.alloc o').2.tbl.get k = none := by
  have e := lowest_congr' h
  refine ⟨e, fun k => ?_⟩
  show (w.tbl.put _ _).get k = none ↔ (v.tbl.put _ _).get k = none
  rw [Tbl.get_put, Tbl.get_put, e]
  by_cases hk : k = v.tbl.lowest <;> simp [hk, h]

/-- The numbers of the descriptors of a terminal depend on the open descriptors only. -/
theorem setupPty_congr (f : Option Kind) {w v : World}
    (h : ∀ k, w.tbl.get k = none ↔ v.tbl.get k = none) :
    (setupPty f w).1 = (setupPty f v).1 ∧ (setupPty f w).2.1 = (setupPty f v).2.1 := by
  obtain ⟨e1, h1⟩ := alloc_congr h (.master w.ptys) (.master v.ptys)
  obtain ⟨e2, h2⟩ := alloc_congr h1 (.slave w.ptys) (.slave v.ptys)
  obtain ⟨e3, h3⟩ := alloc_congr h2 (.master w.ptys) (.master v.ptys)
  have h3' : ∀ k, ({ (((w.alloc (.master w.ptys)).2.alloc (.slave w.ptys)).2.alloc
      (.master w.ptys)).2 with ptys := w.ptys + 1 } : World).tbl.get k = none ↔
      ({ (((v.alloc (.master v.ptys)).2.alloc (.slave v.ptys)).2.alloc
      (.master v.ptys)).2 with ptys := v.ptys + 1 } : World).tbl.get k = none := h3
  obtain ⟨e4, -⟩ := alloc_congr h3' (.master w.ptys) (.master v.ptys)
  by_cases hf : f = some .builtin
  · simp only [setupPty, if_pos hf]
    exact ⟨e2, by simp only [List.cons.injEq]; exact ⟨e1, e2, e3, trivial⟩⟩
  · simp only [setupPty, if_neg hf]
    exact ⟨e2, by simp only [List.cons.injEq]; exact ⟨e1, e2, e3, e4, trivial⟩⟩

theorem launch_off {readable : Str → Bool} {pty : Bool} {j : Job} {c : Ctx} {w : World}
    (h : (pty && j.foreground && c.interactive) = false) :
    (launch readable pty j c w).2.progs = (stages readable none j.redirect j.kinds
      { c with foreground := j.foreground } w).2.progs := by
  simp only [launch, h, Bool.false_eq_true, if_false, List.foldl_nil]
  split
  · obtain ⟨u, hu, -⟩ := foldl_close (stages readable none j.redirect j.kinds
      { c with foreground := j.foreground } w).2.caps (stages readable none j.redirect j.kinds
      { c with foreground := j.foreground } w).2
    rw [hu]
  · rfl

theorem launch_on {readable : Str → Bool} {pty : Bool} {j : Job} {c : Ctx} {w w' : World} {s : Nat}
    {fds : List Nat} (h : (pty && j.foreground && c.interactive) = true)
    (hp : setupPty j.kinds.head? w = (s, fds, w')) :
    (launch readable pty j c w).2.progs = (stages readable (some s) j.redirect j.kinds
      { c with foreground := j.foreground } w').2.progs := by
  simp only [launch, h, if_true, hp]
  obtain ⟨u, hu, -⟩ := foldl_close fds (stages readable (some s) j.redirect j.kinds
      { c with foreground := j.foreground } w').2
  rw [hu]
  split
  · obtain ⟨v, hv, -⟩ := foldl_close ({ (stages readable (some s) j.redirect j.kinds
      { c with foreground := j.foreground } w').2 with tbl := u } : World).caps
      { (stages readable (some s) j.redirect j.kinds
      { c with foreground := j.foreground } w').2 with tbl := u }
    rw [hv]
  · rfl

/-- A command whose standard input is a closed descriptor is not run. -/
theorem stages_dead {readable : Str → Bool} {slave : Option Nat} {c : Ctx} {w : World}
    (hint : c.interactive = true) (hcap : c.captured = none) (hfg : c.foreground = true)
    (hin : c.infile ≠ 0) (hg : w.tbl.get c.infile = none) :
    (stages readable slave none [.command] c w).2.progs = w.progs ++ [none] ∧
    (stages readable slave none [.command] c w).1.foreground = true ∧
    (stages readable slave none [.command] c w).2.caps = w.caps := by
  have hset : outSetup slave none false c w = ({ c with outfile := 1 }, w, none, none) := by
    simp only [outSetup, hint, Bool.not_true, Bool.false_and, Bool.false_eq_true, if_false,
      handleOutput, hcap]
    rw [if_pos hin]
  have hfg' : (applySlave slave { c with outfile := 1 }).foreground = true := by
    rw [applySlave_fg]; exact hfg
  have hi : (applySlave slave { c with outfile := 1 }).infile = c.infile := by
    rw [applySlave_in]; exact if_neg hin
  simp only [stages, stage, openInput, List.isEmpty_nil, Bool.not_true, Option.map_some, hset, start,
    forkCommand_fg hfg', hi, childIO_closed hg hin, Option.map_none, copier]
  obtain ⟨t, ht, -⟩ := parentClose_tbl slave c.infile
    (applySlave slave { c with outfile := 1 }).outfile
    (applySlave slave { c with outfile := 1 }).errfile
    { w with progs := w.progs ++ [none] }
  simp only [Option.toList_none, List.append_nil, ht, reduceCtorEq, if_false, hfg', and_self]

theorem settle_nil {w : World} (h : w.copiers = []) : settle w = w := by
  cases w
  simp only at h
  subst h
  rfl

/-- After a pipeline of any length the next command of the line is not run: its standard input is the
number that the last pipe of the pipeline had, which is closed by then.  With or without a terminal
for every job. -/
theorem C114_pipeline_violated (readable : Str → Bool) (pty : Bool) (w : World) (hw : Idle w)
    (hcop : w.copiers = []) (ks : List Kind) (h2 : 2 ≤ ks.length) (hk : ∀ k ∈ ks, k = .command)
    (b b' : Bool) :
    ∃ ps : List Prog, ps.length = ks.length ∧
      (runLine readable pty [(.plain ks, b), (.plain [.command], b')] (.fresh true) w).2.progs =
        w.progs ++ ps.map some ++ [none] := by
  obtain ⟨ps, t, c', hl, gt, hch, hlen, hint, hcap, hfg, -, hin⟩ :=
    launch_plain (readable := readable) (pty := pty) hw (ks := ks) (by rintro rfl; simp at h2) hk
  obtain ⟨hin2, hg, hpf⟩ := hin h2
  refine ⟨ps, hlen, ?_⟩
  have hset : ∀ (b : Bool) (v : World), (if b then settle v else v).progs = v.progs := by
    intro b v
    cases b with
    | false => rfl
    | true =>
      obtain ⟨u, hu, -⟩ := foldl_close (v.copiers.map (·.fd)) v
      simp only [if_true, settle, hu]
  simp only [runLine, hl]
  have hcop' : ∀ (t : Tbl) (p n : Nat) (q : List (Option Prog)),
      (if b = true then settle { w with tbl := t, pipes := p, ptys := n, progs := q } else
        { w with tbl := t, pipes := p, ptys := n, progs := q }) =
        { w with tbl := t, pipes := p, ptys := n, progs := q } := by
    intro t p n q
    cases b with
    | false => rfl
    | true => exact settle_nil hcop
  rw [hcop', hset]
  cases pty with
  | false =>
    obtain ⟨hp, hf, hc⟩ := stages_dead (readable := readable) (slave := none) (c := c') (w := { w with
        tbl := t, pipes := w.pipes + (ks.length - 1), ptys := w.ptys + (if false = true then 1 else 0),
        progs := w.progs ++ ps.map some }) hint hcap hfg (by omega) (by rw [gt]; exact hg)
    rw [launch_off rfl]
    simp only [Job.plain]
    rw [show ({ c' with foreground := true } : Ctx) = c' by cases c'; simp_all]
    exact hp
  | true =>
    obtain ⟨s, fds, tp, hp, hsf, gs, hnone, hout, hpi⟩ := setupPty_spec (some .command) { w with
        tbl := t, pipes := w.pipes + (ks.length - 1), ptys := w.ptys + 1,
        progs := w.progs ++ ps.map some }
    have hhead : ks.head? = some .command := by
      cases ks with
      | nil => simp at h2
      | cons k ks => simp [hk k (List.mem_cons_self ..)]
    have hnf : c'.infile ∉ fds := by
      have := hpf rfl
      rw [hhead] at this
      have heq := (setupPty_congr (some .command) (w := w) (v := { w with
        tbl := t, pipes := w.pipes + (ks.length - 1), ptys := w.ptys + 1,
        progs := w.progs ++ ps.map some }) (fun k => by show _ ↔ t.get k = none; rw [gt])).2
      rw [heq, hp] at this
      exact this
    obtain ⟨hq, hf, hc⟩ := stages_dead (readable := readable) (slave := some s) (c := c') (w := { w with
        tbl := tp, pipes := w.pipes + (ks.length - 1), ptys := w.ptys + 1 + 1,
        progs := w.progs ++ ps.map some }) hint hcap hfg (by omega)
        (by show tp.get _ = none; rw [hout _ hnf]; show t.get _ = none; rw [gt]; exact hg)
    rw [if_pos rfl, launch_on (pty := true) (j := .plain [.command]) (c := c') (by simp [Job.plain, hint]) hp]
    simp only [Job.plain]
    rw [show ({ c' with foreground := true } : Ctx) = c' by cases c'; simp_all]
    exact hq

/-- `ls | wc ; date`: `date` is not run. -/
example : (runLine (fun _ => true) true [(.plain [.command, .command], true),
      (.plain [.command], true)] (.fresh true) .init).2.progs[2]? = some none := by decide +kernel

/-- In a shell that is not interactive the command behind `a | b ;` is run, with the pipe that takes
its own output as standard input. -/
theorem C114_script_violated :
    ((runLine (fun _ => true) false [(.plain [.command, .command], true), (.plain [.command], true)]
      (.fresh false) .init).2.progs.map fun p => p.map fun p => (p.stdin, p.stdout))[2]? =
      some (some (some (.pipeR 2), some (.pipeW 2))) := by decide +kernel

/-- After `a > f ;` the next command is not run, or, if `f` is not yet written, reads what was meant
for the file. -/
theorem C114_redirect_violated :
    ∀ pty ∈ [true, false], ∀ k ∈ [RKind.stdoutOutput, .stdoutAppend],
    (runLine (fun _ => true) pty [(⟨[.command], some (k, c!"f"), true⟩, true),
      (.plain [.command], true)] (.fresh true) .init).2.progs[1]? = some none ∧
    ((runLine (fun _ => true) pty [(⟨[.command], some (k, c!"f"), true⟩, false),
      (.plain [.command], true)] (.fresh true) .init).2.progs.map
        fun p => p.map fun p => p.stdin)[1]? = some (some (some (.pipeR 0))) := by decide +kernel

/-- After `a 2> f ;` the next command is not run, whether or not `f` is written. -/
theorem C114_stderr_violated :
    ∀ pty ∈ [true, false], ∀ b ∈ [true, false], ∀ k ∈ [RKind.stderrOutput, .stderrAppend],
    (runLine (fun _ => true) pty [(⟨[.command], some (k, c!"f"), true⟩, b),
      (.plain [.command], true)] (.fresh true) .init).2.progs[1]? = some none := by decide +kernel

/-- `a ; b &` on a terminal: the standard input of `b` is the pipe that takes its own output. -/
theorem C114_background_violated :
    ((runLine (fun _ => true) true [(.plain [.command], true), (⟨[.command], none, false⟩, true)]
      (.fresh true) .init).2.progs.map fun p => p.map fun p => (p.stdin, p.stdout))[1]? =
      some (some (some (.pipeW 0), some (.pipeW 0))) := by decide +kernel

/-! #### What holds -/

theorem setupPty_fst (f g : Option Kind) (w : World) : (setupPty f w).1 = (setupPty g w).1 := by
  by_cases hf : f = some .builtin <;> by_cases hg : g = some .builtin <;>
    simp only [setupPty, if_pos, if_neg, hf, hg, not_false_eq_true]

/-- The descriptors the context has between two single commands of a line. -/
def between (pty : Bool) (w : World) : Ctx :=
  if pty then
    let s := (setupPty none w).1
    ⟨s, s, s, none, true, true⟩
  else .fresh true

theorem launch_single {readable : Str → Bool} {pty : Bool} {w : World} (hw : Idle w) (k : Kind)
    {c : Ctx} (hc : c = .fresh true ∨ c = between pty w) :
    ∃ (p : Prog) (t : Tbl), launch readable pty (.plain [k]) c w = (between pty w, { w with
        tbl := t, ptys := w.ptys + (if pty then 1 else 0), progs := w.progs ++ [some p] }) ∧
      (∀ fd, t.get fd = w.tbl.get fd) ∧
      p.stdin = some (jobStream pty w 0) ∧ p.stdout = some (jobStream pty w 1) ∧
      p.stderr = some (jobStream pty w 2) := by
  obtain ⟨s0, s1, s2⟩ := hw.std
  cases pty with
  | false =>
    have hc : c = .fresh true := by rcases hc with h | h; exact h; exact h
    subst hc
    obtain ⟨p, hst, h0, h1, h2⟩ := start_fg (slave := none) (c := .fresh true) (w := w) k rfl s0 s1 s2
      (Or.inl rfl) (Or.inl rfl) (Or.inl rfl)
    refine ⟨p, w.tbl, ?_, fun _ => rfl, h0, h1, h2⟩
    simp only [launch, Job.plain, Bool.false_and, Bool.false_eq_true, if_false, List.foldl_nil]
    rw [show ({ Ctx.fresh true with foreground := true } : Ctx) = Ctx.fresh true from rfl]
    have hset : outSetup none none false (.fresh true) w = (.fresh true, w, none, none) := rfl
    have hclose : ∀ v, parentClose none none 0 1 2 v = v := by intro v; simp [parentClose]
    simp only [stages, stage, openInput, List.isEmpty_nil, Bool.not_true, Option.map_some, hset,
      applySlave, hst, copier, Option.toList_none, List.append_nil]
    rw [show (Ctx.fresh true).infile = 0 from rfl, show (Ctx.fresh true).outfile = 1 from rfl,
      show (Ctx.fresh true).errfile = 2 from rfl, hclose]
    simp only [reduceCtorEq, if_false]
    simp [Ctx.fresh, hw.caps, between]
  | true =>
    obtain ⟨s, fds, tp, hp, hsf, gs, hnone, hout, hin⟩ := setupPty_spec (some k) w
    have hs2 : 2 < s := gt_two ⟨by simp [s0], by simp [s1], by simp [s2]⟩ (hnone s hsf)
    have hsn : (setupPty none w).1 = s := by rw [setupPty_fst none (some k), hp]
    have hbt : between true w = ⟨s, s, s, none, true, true⟩ := by simp [between, hsn]
    have hc1 : c.interactive = true ∧ c.captured = none ∧ c.foreground = true ∧
        applySlave (some s) { c with outfile := 1 } = ⟨s, s, s, none, true, true⟩ ∧
        (c.infile = 0 → c.outfile = 1) := by
      rcases hc with h | h
      · subst h; exact ⟨rfl, rfl, rfl, rfl, fun _ => rfl⟩
      · rw [h, hbt]
        refine ⟨rfl, rfl, rfl, ?_, fun h0 => ?_⟩
        · simp [applySlave]
        · simp only at h0; omega
    obtain ⟨hint, hcap, hfg, hsl, ho1⟩ := hc1
    obtain ⟨p, hst, h0, h1, h2⟩ := start_fg (slave := some s) (c := ⟨s, s, s, none, true, true⟩)
      (w := { w with tbl := tp, ptys := w.ptys + 1 }) k rfl gs gs gs (Or.inr hs2) (Or.inr hs2) (Or.inr hs2)
    obtain ⟨t', hfold, gf⟩ := foldl_close fds { w with
        tbl := tp, ptys := w.ptys + 1, progs := w.progs ++ [some p] }
    refine ⟨p, t', ?_, fun fd => ?_, h0, h1, h2⟩
    · simp only [launch, Job.plain, Bool.true_and, hint, if_true, List.head?_cons, hp]
      have hset : ∀ v, outSetup (some s) none false
          { infile := c.infile, outfile := c.outfile, errfile := c.errfile, captured := c.captured,
            interactive := true, foreground := true } v = ({ c with outfile := 1 }, v, none, none) := by
        intro v
        simp only [outSetup, Bool.not_true, Bool.false_and, Bool.false_eq_true, if_false,
          handleOutput, hcap]
        by_cases hz : c.infile = 0
        · rw [if_neg (fun hn => hn hz)]
          have := ho1 hz
          cases c
          simp_all
        · rw [if_pos hz]
          cases c
          simp_all
      have hclose : ∀ v, parentClose (some s) none s s s v = v := by intro v; simp [parentClose]
      simp only [stages, stage, openInput, List.isEmpty_nil, Bool.not_true, Option.map_some, hset,
        hsl, hst, copier, Option.toList_none, List.append_nil, hclose, reduceCtorEq, if_false, if_true,
        hfold, hbt]
      simp [hw.caps]
    · rw [gf]
      by_cases hff : fd ∈ fds
      · rw [if_pos hff, hnone fd hff]
      · rw [if_neg hff]; exact hout fd hff

/-- The single commands of a line, programs and builtins, each get the streams of their own job:
those of the shell, or those of the terminal made for the job. -/
theorem C114_single_partial (readable : Str → Bool) (pty : Bool) (js : List (Kind × Bool)) :
    ∀ (w : World), Idle w → w.copiers = [] → ∃ ps : List Prog,
      (runLine readable pty (js.map fun j => (.plain [j.1], j.2)) (.fresh true) w).2.progs =
        w.progs ++ ps.map some ∧
      ps.length = js.length ∧
      (∀ i p, ps[i]? = some p →
        let o (k : Nat) : Obj := if pty then .slave (w.ptys + i) else .std k
        p.stdin = some (o 0) ∧ p.stdout = some (o 1) ∧ p.stderr = some (o 2)) ∧
      ∀ fd, (runLine readable pty (js.map fun j => (.plain [j.1], j.2)) (.fresh true)
        w).2.tbl.get fd = w.tbl.get fd := by
  suffices H : ∀ (c : Ctx) (w : World), (c = .fresh true ∨ c = between pty w) → Idle w →
      w.copiers = [] → ∃ ps : List Prog,
      (runLine readable pty (js.map fun j => (.plain [j.1], j.2)) c w).2.progs =
        w.progs ++ ps.map some ∧
      ps.length = js.length ∧
      (∀ i p, ps[i]? = some p →
        let o (k : Nat) : Obj := if pty then .slave (w.ptys + i) else .std k
        p.stdin = some (o 0) ∧ p.stdout = some (o 1) ∧ p.stderr = some (o 2)) ∧
      ∀ fd, (runLine readable pty (js.map fun j => (.plain [j.1], j.2)) c w).2.tbl.get fd =
        w.tbl.get fd from fun w => H _ w (Or.inl rfl)
  induction js with
  | nil => exact fun c w _ _ _ => ⟨[], by simp [runLine], rfl, by simp, fun fd => rfl⟩
  | cons j js ih =>
    intro c w hc hw hcop
    obtain ⟨p, t, hl, gt, h0, h1, h2⟩ := launch_single (readable := readable) hw j.1 hc
    obtain ⟨v, hv⟩ : ∃ v : World, v = { w with
        tbl := t, ptys := w.ptys + (if pty then 1 else 0), progs := w.progs ++ [some p] } := ⟨_, rfl⟩
    rw [← hv] at hl
    have gv : ∀ fd, v.tbl.get fd = w.tbl.get fd := by rw [hv]; exact gt
    have hcv : v.copiers = [] := by rw [hv]; exact hcop
    have hwv : Idle v := by
      refine ⟨by rw [gv, gv, gv]; exact hw.std, fun k n h => ?_, by rw [hv]; exact hw.caps⟩
      rw [gv] at h
      rw [hv]
      exact hw.pipes k n h
    have hbt : between pty w = between pty v := by
      unfold between
      cases pty with
      | false => rfl
      | true =>
        simp only [if_true]
        rw [(setupPty_congr none (w := w) (v := v) (fun k => by rw [gv])).1]
    obtain ⟨ps, hps, hlen, hst, hgt⟩ := ih (between pty w) v (Or.inr hbt) hwv hcv
    have hrun : runLine readable pty ((j :: js).map fun j => (Job.plain [j.1], j.2)) c w =
        runLine readable pty (js.map fun j => (Job.plain [j.1], j.2)) (between pty w) v := by
      simp only [List.map_cons, runLine, hl]
      split
      · rw [settle_nil hcv]
      · rfl
    refine ⟨p :: ps, ?_, by simp [hlen], fun i q hq => ?_, fun fd => ?_⟩
    · rw [hrun, hps, hv]
      simp
    · cases i with
      | zero =>
        simp at hq
        subst hq
        exact ⟨h0, h1, h2⟩
      | succ i =>
        have := hst i q (by simpa using hq)
        cases pty with
        | false => simpa using this
        | true =>
          simp only [if_true, hv] at this ⊢
          rw [show w.ptys + (i + 1) = w.ptys + 1 + i by omega]
          exact this
    · rw [hrun, hgt, gv]

/-- `cd d ; make ; ls` on a terminal: the third job has the third terminal. -/
example : ((runLine (fun _ => true) true [(.plain [.builtin], true), (.plain [.command], true),
      (.plain [.command], true)] (.fresh true) .init).2.progs.map fun p => p.map fun p =>
      (p.stdin, p.stdout))[2]? = some (some (some (.slave 2), some (.slave 2))) := by decide +kernel

/-! ### C115: the file of a redirect -/

/-- Contents of the files by name; `none`: no such file. -/
abbrev Files := Str → Option Str

def Files.set (fs : Files) (path data : Str) : Files := fun q => if q = path then some data else fs q

/-- What the task of a redirect does to the files when `data` comes out of its pipe
(redirect.rs:26-39, 48-66): the file is created or emptied; for an append it is opened without
being created. -/
def copyTo (fs : Files) (cp : Copier) (data : Str) : Files :=
  if cp.append then
    match fs cp.path with
    | some old => fs.set cp.path (old ++ data)
    | none => fs
  else fs.set cp.path data

/-- What a user expects of the file named in a redirect, by the operator. -/
def expected (k : RKind) (old : Option Str) (data : Str) : Str :=
  match k with
  | .stdoutAppend | .stderrAppend | .stdouterrAppend => old.getD [] ++ data
  | _ => data

/-- One command with a redirected output: the file has the expected contents once the task has
ended, if it is not an append to a file that does not exist; the other files are untouched. -/
theorem C115_redirect_partial (readable : Str → Bool) (pty : Bool) (w : World) (hw : Idle w)
    (k : RKind) (hk : k ≠ .input) (path : Str) (q : Kind) (fs : Files) (data : Str)
    (hex : isAppend k = true → fs path ≠ none) :
    ∃ cp, (launch readable pty ⟨[q], some (k, path), true⟩ (.fresh true) w).2.copiers =
        w.copiers ++ [cp] ∧
      copyTo fs cp data path = some (expected k (fs path) data) ∧
      ∀ q, q ≠ path → copyTo fs cp data q = fs q := by
  obtain ⟨p, r, n, -, -, -, hc, -⟩ := C44_redirect_partial readable pty w hw k hk path q
  refine ⟨_, hc, ?_, fun q hq => ?_⟩
  · cases ha : isAppend k with
    | false =>
      simp only [copyTo, Bool.false_eq_true, if_false, Files.set, if_true]
      cases k <;> first | rfl | cases ha
    | true =>
      cases hf : fs path with
      | none => exact absurd hf (hex ha)
      | some old =>
        simp only [copyTo, if_true, hf, Files.set]
        cases k <;> first | rfl | cases ha
  · simp only [copyTo]
    split
    · cases fs path with
      | some old => simp [Files.set, hq]
      | none => rfl
    · simp [Files.set, hq]

/-- `echo x >> new`: the output is lost, whatever it is, when the file does not exist. -/
theorem C115_append_violated (readable : Str → Bool) (pty : Bool) (w : World) (hw : Idle w)
    (k : RKind) (ha : isAppend k = true) (path : Str) (q : Kind) (fs : Files) (data : Str)
    (hno : fs path = none) :
    ∃ cp, (launch readable pty ⟨[q], some (k, path), true⟩ (.fresh true) w).2.copiers =
        w.copiers ++ [cp] ∧ copyTo fs cp data = fs := by
  obtain ⟨p, r, n, -, -, -, hc, -⟩ := C44_redirect_partial readable pty w hw k
    (by rintro rfl; cases ha) path q
  exact ⟨_, hc, by simp [copyTo, ha, hno]⟩

/-- `echo y >> f` with a file that has a line. -/
example : ∃ cp, (launch (fun _ => true) true ⟨[.command], some (.stdoutAppend, c!"f"), true⟩
      (.fresh true) .init).2.copiers = [cp] ∧
    copyTo (fun _ => some c!"x\n") cp c!"y\n" c!"f" = some c!"x\ny\n" := by
  obtain ⟨cp, h1, h2, -⟩ := C115_redirect_partial (fun _ => true) true .init idle_init .stdoutAppend
    (by decide) c!"f" .command (fun _ => some c!"x\n") c!"y\n" (by simp)
  exact ⟨cp, h1, h2⟩

end Dsh.Wire
