import Verif.Jobs.Record
import Verif.Jobs.EvalProps
/-!
C127 (`cmd |>` keeps what the command wrote), C128 (so does every other command), C129 (a line that
begins with `|`), C130 (`out`).
-/
namespace Dsh.Record
open Dsh.Wire Dsh.OutHist
open Dsh.Shell (RKind)

/-! ### What was written -/

/-- The text a single command wrote to its standard output (or error), in order. -/
def wrote (err : Bool) (log : List Write) : Str := (log.filter fun x => x.err == err).flatMap (·.text)

theorem sent_nil {o : Obj} {ps : List (Option Prog)} {log : List Write}
    (h : ∀ (i : Nat) p e, ps[i]? = some (some p) → stream p e ≠ some o) : sent o ps log = [] := by
  rw [sent, List.flatMap_eq_nil_iff]
  intro x _
  split
  · rename_i p hp
    rw [if_neg (h _ _ _ hp)]
  · rfl

theorem sent_single {o : Obj} {p : Prog} {e : Bool} {log : List Write} (hl : ∀ x ∈ log, x.prog = 0)
    (h1 : stream p e = some o) (h2 : stream p (!e) ≠ some o) : sent o [some p] log = wrote e log := by
  induction log with
  | nil => rfl
  | cons x log ih =>
    have hx := hl x (List.mem_cons_self ..)
    have ih := ih fun y hy => hl y (List.mem_cons_of_mem _ hy)
    have hs : sent o [some p] (x :: log) = (if stream p x.err = some o then x.text else []) ++ sent o [some p] log := by
      simp [sent, hx]
    rw [hs, ih]
    simp only [wrote, List.filter_cons]
    cases e <;> cases hxe : x.err <;> simp_all

/-! ### C127: `cmd |>` -/

/-- One command, not redirected: its streams are the two pipes, and the table of the shell is as before. -/
theorem capture_single (readable : Wire.Str → Bool) (k : Kind) (i : Bool) {w : World} (hw : Idle w) :
    ∃ p : Prog, (capture readable [k] none (.fresh i) w).1.progs = w.progs ++ [some p] ∧
      p.stdin = some (.std 0) ∧ p.stdout = some (.pipeW w.pipes) ∧ p.stderr = some (.pipeW (w.pipes + 1)) ∧
      (capture readable [k] none (.fresh i) w).2 = (w.pipes, w.pipes + 1) ∧
      ∀ fd, (capture readable [k] none (.fresh i) w).1.tbl.get fd = w.tbl.get fd := by
  obtain ⟨s0, s1, s2⟩ := hw.std
  obtain ⟨r1, x1, t1, hp1, hr1, hx1, hrx1, ht1⟩ := pipe_spec w
  obtain ⟨r2, x2, t2, hp2, hr2, hx2, hrx2, ht2⟩ := pipe_spec { w with tbl := t1, pipes := w.pipes + 1 }
  have hr2 : t1.get r2 = none := hr2
  have hx2 : t1.get x2 = none := hx2
  have ht2 : ∀ k, t2.get k = if k = x2 then some (.pipeW (w.pipes + 1)) else
      if k = r2 then some (.pipeR (w.pipes + 1)) else t1.get k := ht2
  have low : w.tbl.get 0 ≠ none ∧ w.tbl.get 1 ≠ none ∧ w.tbl.get 2 ≠ none := by simp [s0, s1, s2]
  have gr1 := gt_two low hr1
  have gx1 := gt_two low hx1
  have low1 : t1.get 0 ≠ none ∧ t1.get 1 ≠ none ∧ t1.get 2 ≠ none := by
    refine ⟨?_, ?_, ?_⟩ <;> (rw [ht1, if_neg (by omega), if_neg (by omega)]; simp [s0, s1, s2])
  have gr2 := gt_two low1 hr2
  have gx2 := gt_two low1 hx2
  have d1 : x2 ≠ x1 := by rintro rfl; rw [ht1, if_pos rfl] at hx2; cases hx2
  have d2 : x2 ≠ r1 := by rintro rfl; rw [ht1, if_neg hrx1, if_pos rfl] at hx2; cases hx2
  have d3 : r2 ≠ x1 := by rintro rfl; rw [ht1, if_pos rfl] at hr2; cases hr2
  have d4 : r2 ≠ r1 := by rintro rfl; rw [ht1, if_neg hrx1, if_pos rfl] at hr2; cases hr2
  obtain ⟨p, hst, h0, h1, h2⟩ := start_fg (slave := none) (c := ⟨0, x1, x2, some x1, i, true⟩)
    (w := { w with tbl := t2, pipes := w.pipes + 1 + 1 }) (inp := .std 0) (out := .pipeW w.pipes)
    (err := .pipeW (w.pipes + 1)) k rfl
    (by show t2.get 0 = _; rw [ht2, if_neg (by omega), if_neg (by omega), ht1, if_neg (by omega), if_neg (by omega), s0])
    (by show t2.get x1 = _; rw [ht2, if_neg d1.symm, if_neg d3.symm, ht1, if_pos rfl])
    (by show t2.get x2 = _; rw [ht2, if_pos rfl])
    (Or.inl rfl) (Or.inr gx1) (Or.inr gx2)
  obtain ⟨tp, hp', gp⟩ := parentClose_tbl none 0 x1 x2
    { w with tbl := t2, pipes := w.pipes + 1 + 1, progs := w.progs ++ [some p] }
  have hout : outSetup none none false ⟨0, 1, x2, some x1, i, true⟩ { w with tbl := t2, pipes := w.pipes + 1 + 1 } =
      (⟨0, x1, x2, some x1, i, true⟩, { w with tbl := t2, pipes := w.pipes + 1 + 1 }, none, none) := by
    simp [outSetup, handleOutput]
  have hstage : stages readable none none [k] ⟨0, 1, x2, some x1, i, true⟩ { w with tbl := t2, pipes := w.pipes + 1 + 1 } =
      (⟨0, x1, x2, some x1, i, true⟩, { w with tbl := tp, pipes := w.pipes + 1 + 1, progs := w.progs ++ [some p] }) := by
    rw [stages, stage]
    simp only [openInput, List.isEmpty_nil, Bool.not_true, Option.map_some, hout, applySlave, hst, Option.toList_none,
      List.append_nil, hp', copier, stages]
    simp
  have hcap : capture readable [k] none (.fresh i) w = (
      ((({ w with tbl := tp, pipes := w.pipes + 1 + 1, progs := w.progs ++ [some p] : World }.close x1).close
        x2).close r1).close r2, w.pipes, w.pipes + 1) := by
    simp only [capture, Ctx.fresh, hp1, hp2]
    rw [hstage]
    simp only [hw.caps, List.foldl_nil]
  rw [hcap]
  refine ⟨p, rfl, h0, h1, h2, rfl, fun fd => ?_⟩
  show ((((tp.close x1).close x2).close r1).close r2).get fd = _
  simp only [Tbl.get_close, gp, ht2, ht1]
  grind

/-- **C127, one command.** `cmd |>` records exactly what `cmd`, a program or a builtin that writes to its
streams, wrote to its standard output and to its standard error, also in a script; the descriptors of the shell are as before. -/
theorem C127_single_partial (readable : Wire.Str → Bool) (k : Kind) (i : Bool) (w : World) (hw : Idle w)
    (log : List Write) (hl : ∀ x ∈ log, x.prog = 0) :
    captured readable [k] none (.fresh i) w log = (wrote false log, wrote true log) ∧
    ∀ fd, (capture readable [k] none (.fresh i) w).1.tbl.get fd = w.tbl.get fd := by
  obtain ⟨p, hp, h0, h1, h2, hn, ht⟩ := capture_single readable k i hw
  refine ⟨?_, ht⟩
  obtain ⟨wc, hwc⟩ : ∃ wc, wc = capture readable [k] none (.fresh i) w := ⟨_, rfl⟩
  rw [← hwc] at hp hn
  obtain ⟨w', n, m⟩ := wc
  simp only at hp hn
  injection hn with hn hm
  subst hn hm
  simp only [captured, ← hwc, hp, List.drop_left]
  rw [sent_single hl (e := false) h1 (by simp [stream, h2]), sent_single hl (e := true) h2 (by simp [stream, h1])]

/-- The entry of the history a captured command makes (eval.rs:241-245). -/
def capturedEntry (cmd : Str) (code : Int) (t : Str × Str) : Entry := ⟨cmd, t.1, t.2, code⟩

theorem push_first (share : Nat → Nat → Nat → Nat) {h h' : Hist} {e : Entry} (hs : bytes e.stdout + bytes e.stderr ≤ h.maxEntry)
    (hp : h.push share e = some h') : h'.get 1 = some e := by
  have ht : e.truncate share h.maxEntry = e := by simp [Entry.truncate, hs]
  unfold Hist.push at hp
  rw [ht] at hp
  simp only at hp
  split at hp
  · cases hp
  · injection hp with hp
    subst hp
    simp [Hist.get]

/-- **C127, the variables.** Behind `cmd |>` with at most as much output as an entry may have, `$OUT` and
`$ERR` are what it wrote. -/
theorem C127_out_partial (share : Nat → Nat → Nat → Nat) (readable : Wire.Str → Bool) (k : Kind) (i : Bool) (w : World)
    (hw : Idle w) (log : List Write) (hl : ∀ x ∈ log, x.prog = 0) (cmd : Str) (code : Int) {h h' : Hist}
    (hs : bytes (wrote false log) + bytes (wrote true log) ≤ h.maxEntry)
    (hp : h.push share (capturedEntry cmd code (captured readable [k] none (.fresh i) w log)) = some h') :
    outVar h' 1 = some (wrote false log) ∧ errVar h' 1 = some (wrote true log) := by
  rw [(C127_single_partial readable k i w hw log hl).1] at hp
  have := push_first share (e := capturedEntry cmd code (wrote false log, wrote true log)) hs hp
  simp [outVar, errVar, this, capturedEntry]

/-- `make |>`, with an error between two lines of output. -/
example : captured (fun _ => true) [.command] none (.fresh true) .init
    [⟨0, false, c!"cc a\n"⟩, ⟨0, true, c!"warning\n"⟩, ⟨0, false, c!"cc b\n"⟩] = (c!"cc a\ncc b\n", c!"warning\n") :=
  (C127_single_partial _ _ _ _ idle_init _ (by decide)).1

theorem childIO_some {t t' : Tbl} {i o e : Nat} (ho : 2 < o) (he : 2 < e) (h : childIO t i o e = some t') :
    t'.get 1 = t.get o ∧ t'.get 2 = t.get e ∧ t.get o ≠ none ∧ t.get e ≠ none := by
  have key : ∀ {t t' : Tbl} {a b : Nat}, dup2 t a b = some t' → t.get a ≠ none ∧ ∀ k, t'.get k = if k = b then t.get a else t.get k := by
    intro t t' a b h
    cases hg : t.get a with
    | none => simp [dup2, hg] at h
    | some o =>
      obtain ⟨t'', h1, h2⟩ := dup2_some (b := b) hg
      rw [h1] at h
      injection h with h
      subst h
      exact ⟨by simp, h2⟩
  have keyc : ∀ {t t' : Tbl} {a : Nat}, close1 t a = some t' → ∀ k, t'.get k = if k = a then none else t.get k := by
    intro t t' a h
    cases hg : t.get a with
    | none => simp [close1, hg] at h
    | some o =>
      obtain ⟨t'', h1, h2⟩ := close1_some hg
      rw [h1] at h
      injection h with h
      subst h
      exact h2
  unfold childIO at h
  rw [Option.bind_eq_some_iff] at h
  obtain ⟨t1, h1, h⟩ := h
  rw [Option.bind_eq_some_iff] at h
  obtain ⟨t2, h2, h⟩ := h
  have g1 : ∀ k, 2 < k → t1.get k = t.get k := by
    intro k hk
    by_cases hi : i = 0
    · rw [if_pos hi] at h1; injection h1 with h1; rw [h1]
    · rw [if_neg hi] at h1
      rw [(key h1).2 k, if_neg (by omega)]
  have g2 : t2.get o = t.get o ∧ t2.get e = t.get e := by
    by_cases hc : 2 < i ∧ ¬ (i = o ∨ i = e)
    · rw [if_pos hc] at h2
      have := keyc h2
      rw [this, this, if_neg (by grind), if_neg (by grind), g1 o ho, g1 e he]
      exact ⟨rfl, rfl⟩
    · rw [if_neg hc] at h2
      injection h2 with h2
      rw [← h2, g1 o ho, g1 e he]
      exact ⟨rfl, rfl⟩
  by_cases hoe : o = e
  · subst hoe
    rw [if_pos rfl, if_neg (by omega), Option.bind_eq_some_iff] at h
    obtain ⟨t3, h3, h⟩ := h
    rw [if_neg (by omega), Option.bind_eq_some_iff] at h
    obtain ⟨t4, h4, h⟩ := h
    rw [if_pos ho] at h
    have k3 := key h3
    have k4 := key h4
    have k5 := keyc h
    rw [k5, k5, if_neg (by omega), if_neg (by omega), k4.2, k4.2, if_neg (by omega), if_pos rfl, k3.2, k3.2,
      if_pos rfl, if_neg (by omega), g2.1]
    have := k3.1
    rw [g2.1] at this
    exact ⟨rfl, rfl, this, this⟩
  · rw [if_neg hoe, Option.bind_eq_some_iff] at h
    obtain ⟨t3, h3, h⟩ := h
    unfold dupClose at h h3
    rw [if_neg (by omega), Option.bind_eq_some_iff] at h3 h
    obtain ⟨t4, h4, h3⟩ := h3
    obtain ⟨t5, h5, h⟩ := h
    rw [if_pos ho] at h3
    rw [if_pos he] at h
    have k4 := key h4
    have k3 := keyc h3
    have k5 := key h5
    have k6 := keyc h
    have e3 : t3.get e = t.get e := by rw [k3, if_neg (by omega), k4.2, if_neg (by omega), g2.2]
    refine ⟨?_, ?_, by rw [← g2.1]; exact k4.1, by rw [← e3]; exact k5.1⟩
    · rw [k6, if_neg (by omega), k5.2, if_neg (by omega), k3, if_neg (by omega), k4.2, if_pos rfl, g2.1]
    · rw [k6, if_neg (by omega), k5.2, if_pos rfl, e3]

/-- A stage that is not the last, in a captured pipeline: whatever its standard error is, the
descriptor is closed behind it. -/
theorem stage_captured {readable : Wire.Str → Bool} {k : Kind} {c : Ctx} {w : World} (hfg : c.foreground = true)
    (he : 2 < c.errfile) (low : w.tbl.get 0 ≠ none ∧ w.tbl.get 1 ≠ none ∧ w.tbl.get 2 ≠ none) (hi : c.infile = 0 ∨ 2 < c.infile) :
    ∃ r t op x, stage readable none none true k c w = some ({ c with infile := r, outfile := x }, { w with
        tbl := t, pipes := w.pipes + 1, progs := w.progs ++ [op] }, none) ∧
      t.get c.errfile = none ∧ 2 < r ∧ (t.get 0 ≠ none ∧ t.get 1 ≠ none ∧ t.get 2 ≠ none) ∧
      ∀ p, op = some p → p.stdout = some (.pipeW w.pipes) ∧
        (p.stderr = w.tbl.get c.errfile ∨ p.stderr = some (.pipeW w.pipes) ∨ p.stderr = some (.pipeR w.pipes)) := by
  obtain ⟨r, x, t, hp, hr, hx, hrx, ht⟩ := pipe_spec w
  have gr := gt_two low hr
  have gx := gt_two low hx
  obtain ⟨op, hst, hop⟩ : ∃ op, start none k { c with outfile := x } { w with tbl := t, pipes := w.pipes + 1 } =
      ({ w with tbl := t, pipes := w.pipes + 1, progs := w.progs ++ [op] }, x, c.errfile) ∧
      ∀ p, op = some p → p.stdout = t.get x ∧ p.stderr = t.get c.errfile := by
    cases k with
    | builtin => exact ⟨_, rfl, by rintro p ⟨⟩; exact ⟨rfl, rfl⟩⟩
    | command =>
      refine ⟨(childIO t c.infile x c.errfile).map progOf, ?_, ?_⟩
      · simp only [start, forkCommand_fg (c := { c with outfile := x }) hfg]
      · intro p hpp
        rw [Option.map_eq_some_iff] at hpp
        obtain ⟨t', h, rfl⟩ := hpp
        have := childIO_some gx he h
        exact ⟨this.1, this.2.1⟩
  obtain ⟨tp, hp', gp⟩ := parentClose_tbl none c.infile x c.errfile
    { w with tbl := t, pipes := w.pipes + 1, progs := w.progs ++ [op] }
  have gp : ∀ k, tp.get k = if (c.infile ≠ 0 ∧ k = c.infile) ∨ (x ≠ 1 ∧ k = x) ∨ (c.errfile ≠ 2 ∧ x ≠ c.errfile ∧ k = c.errfile)
      then none else t.get k := by
    intro k; rw [gp]; simp
  refine ⟨r, tp, op, x, ?_, ?_, gr, ?_, fun p hpp => ?_⟩
  · simp only [stage, openInput, outSetup, if_true, hp, Option.map_some, applySlave, hst, Option.toList_none,
      List.append_nil, hp', copier]
    simp
  · rw [gp, if_pos]
    by_cases h : x = c.errfile
    · exact Or.inr (Or.inl ⟨by omega, h.symm⟩)
    · exact Or.inr (Or.inr ⟨by omega, h, rfl⟩)
  · refine ⟨?_, ?_, ?_⟩ <;>
    · rw [gp, if_neg (by omega), ht, if_neg (by omega), if_neg (by omega)]
      first | exact low.1 | exact low.2.1 | exact low.2.2
  · obtain ⟨h1, h2⟩ := hop p hpp
    refine ⟨by rw [h1, ht, if_pos rfl], ?_⟩
    rw [h2, ht]
    by_cases h : c.errfile = x
    · rw [if_pos h]; exact Or.inr (Or.inl rfl)
    · rw [if_neg h]
      by_cases h' : c.errfile = r
      · rw [if_pos h']; exact Or.inr (Or.inr rfl)
      · rw [if_neg h']; exact Or.inl rfl

/-- The last stage, a program, when the descriptor of the standard error is closed: it is not run. -/
theorem stage_last_closed {readable : Wire.Str → Bool} {c : Ctx} {w : World} {x : Nat} (hfg : c.foreground = true)
    (hcap : c.captured = some x) (hx : 2 < x) (he : 2 < c.errfile) (hc : w.tbl.get c.errfile = none) :
    ∃ c' t, stage readable none none false .command c w =
      some (c', { w with tbl := t, progs := w.progs ++ [none] }, none) := by
  have hch : childIO w.tbl c.infile x c.errfile = none := by
    cases h : childIO w.tbl c.infile x c.errfile with
    | none => rfl
    | some t => exact absurd hc (childIO_some hx he h).2.2.2
  obtain ⟨tp, hp', -⟩ := parentClose_tbl none c.infile x c.errfile { w with progs := w.progs ++ [none] }
  refine ⟨{ c with outfile := x }, tp, ?_⟩
  have hout : outSetup none none false c w = ({ c with outfile := x }, w, none, none) := by
    simp [outSetup, handleOutput, hcap]
  simp only [stage, openInput, Option.map_some, hout, applySlave, start, forkCommand_fg (c := { c with outfile := x }) hfg,
    hch, Option.map_none, Option.toList_none, List.append_nil, hp', copier]
  simp

/-- The stages from the second on: the last program is not run, and nobody writes to pipes made before. -/
theorem stages_closed {readable : Wire.Str → Bool} {x : Nat} (hx : 2 < x) :
    ∀ (ks : List Kind) (c : Ctx) (w : World), c.foreground = true → c.captured = some x → 2 < c.errfile →
      w.tbl.get c.errfile = none → (w.tbl.get 0 ≠ none ∧ w.tbl.get 1 ≠ none ∧ w.tbl.get 2 ≠ none) →
      (c.infile = 0 ∨ 2 < c.infile) →
      ∃ ops, (stages readable none none (ks ++ [.command]) c w).2.progs = w.progs ++ ops ++ [none] ∧
        ops.length = ks.length ∧
        ∀ p, some p ∈ ops → ∀ e m, m < w.pipes → stream p e ≠ some (.pipeW m) := by
  intro ks
  induction ks with
  | nil =>
    intro c w hfg hcap he hc low hi
    obtain ⟨c', t, h⟩ := stage_last_closed (readable := readable) hfg hcap hx he hc
    refine ⟨[], ?_, rfl, by simp⟩
    rw [List.nil_append, stages]
    simp only [List.isEmpty_nil, Bool.not_true, h, stages, List.append_nil]
  | cons k ks ih =>
    intro c w hfg hcap he hc low hi
    obtain ⟨r, t, op, y, h, hce, hr, low', hop⟩ := stage_captured (readable := readable) (k := k) hfg he low hi
    obtain ⟨ops, h', hlen, hops⟩ := ih { c with infile := r, outfile := y } { w with
      tbl := t, pipes := w.pipes + 1, progs := w.progs ++ [op] } hfg hcap he hce low' (Or.inr hr)
    refine ⟨op :: ops, ?_, by simp [hlen], fun p hp e m hm => ?_⟩
    · rw [List.cons_append, stages]
      rw [show (ks ++ [Kind.command]).isEmpty = false by simp]
      simp only [Bool.not_false, h]
      rw [h']
      simp
    · rcases List.mem_cons.1 hp with hp | hp
      · obtain ⟨h1, h2⟩ := hop p hp.symm
        rw [hc] at h2
        cases e with
        | false => simp only [stream, Bool.false_eq_true, if_false, h1]; rintro ⟨⟩; omega
        | true =>
          simp only [stream, if_true]
          rcases h2 with h2 | h2 | h2 <;> rw [h2] <;> first | (rintro ⟨⟩; omega) | rintro ⟨⟩
      · exact hops p hp e m (by show m < w.pipes + 1; omega)

/-- **C127 fails for pipelines.** In every pipeline of two or more stages that ends with a program, `a | b |>`
and `a | b |: (f $_)`, in a terminal or in a script, the last program is not run and nothing is recorded
as its output. -/
theorem C127_pipeline_violated (readable : Wire.Str → Bool) (ks : List Kind) (hne : ks ≠ []) (i : Bool) (w : World) (hw : Idle w)
    (log : List Write) :
    (captured readable (ks ++ [.command]) none (.fresh i) w log).1 = [] ∧
    (capture readable (ks ++ [.command]) none (.fresh i) w).1.progs.getLast? = some none := by
  obtain ⟨s0, s1, s2⟩ := hw.std
  obtain ⟨r1, x1, t1, hp1, hr1, hx1, hrx1, ht1⟩ := pipe_spec w
  obtain ⟨r2, x2, t2, hp2, hr2, hx2, hrx2, ht2⟩ := pipe_spec { w with tbl := t1, pipes := w.pipes + 1 }
  have hr2 : t1.get r2 = none := hr2
  have hx2 : t1.get x2 = none := hx2
  have ht2 : ∀ k, t2.get k = if k = x2 then some (.pipeW (w.pipes + 1)) else
      if k = r2 then some (.pipeR (w.pipes + 1)) else t1.get k := ht2
  have low : w.tbl.get 0 ≠ none ∧ w.tbl.get 1 ≠ none ∧ w.tbl.get 2 ≠ none := by simp [s0, s1, s2]
  have gr1 := gt_two low hr1
  have gx1 := gt_two low hx1
  have low1 : t1.get 0 ≠ none ∧ t1.get 1 ≠ none ∧ t1.get 2 ≠ none := by
    refine ⟨?_, ?_, ?_⟩ <;> (rw [ht1, if_neg (by omega), if_neg (by omega)]; simp [s0, s1, s2])
  have gr2 := gt_two low1 hr2
  have gx2 := gt_two low1 hx2
  have low2 : t2.get 0 ≠ none ∧ t2.get 1 ≠ none ∧ t2.get 2 ≠ none := by
    refine ⟨?_, ?_, ?_⟩ <;> (rw [ht2, if_neg (by omega), if_neg (by omega)]; first | exact low1.1 | exact low1.2.1 | exact low1.2.2)
  cases ks with
  | nil => exact absurd rfl hne
  | cons k ks =>
    obtain ⟨r, t, op, y, h, hce, hr, low', hop⟩ := stage_captured (readable := readable) (k := k)
      (c := ⟨0, 1, x2, some x1, i, true⟩) (w := { w with tbl := t2, pipes := w.pipes + 1 + 1 }) rfl gx2 low2 (Or.inl rfl)
    obtain ⟨ops, h', hlen, hops⟩ := stages_closed (readable := readable) gx1 ks ⟨r, y, x2, some x1, i, true⟩
      { w with tbl := t, pipes := w.pipes + 1 + 1 + 1, progs := w.progs ++ [op] } rfl rfl gx2 hce low' (Or.inr hr)
    obtain ⟨ws, hws⟩ : ∃ ws, ws = (stages readable none none (k :: ks ++ [.command]) ⟨0, 1, x2, some x1, i, true⟩
      { w with tbl := t2, pipes := w.pipes + 1 + 1 }).2 := ⟨_, rfl⟩
    have hprogs : ws.progs = w.progs ++ (op :: ops ++ [none]) := by
      rw [hws, List.cons_append, stages]
      rw [show (ks ++ [Kind.command]).isEmpty = false by simp]
      simp only [Bool.not_false, h]
      rw [h']
      simp
    obtain ⟨tf, hf, -⟩ := foldl_close ws.caps ws
    have hcap : ∃ tl, capture readable (k :: ks ++ [.command]) none (.fresh i) w =
        ({ ws with tbl := tl, caps := [] }, w.pipes, w.pipes + 1) := by
      simp only [capture, Ctx.fresh, hp1, hp2]
      rw [← hws, hf]
      exact ⟨_, rfl⟩
    obtain ⟨tl, hcap⟩ := hcap
    refine ⟨?_, ?_⟩
    · simp only [captured, hcap, hprogs, List.drop_left]
      apply sent_nil
      intro j p e hj
      have hm := List.mem_of_getElem? hj
      simp only [List.cons_append, List.mem_cons, List.mem_append, List.not_mem_nil, or_false, reduceCtorEq] at hm
      rcases hm with hm | hm
      · obtain ⟨h1, h2⟩ := hop p hm.symm
        cases e with
        | false => simp only [stream, Bool.false_eq_true, if_false, h1]; simp; omega
        | true =>
          simp only [stream, if_true]
          have hg : t2.get x2 = some (.pipeW (w.pipes + 1)) := by rw [ht2, if_pos rfl]
          rw [show (⟨0, 1, x2, some x1, i, true⟩ : Ctx).errfile = x2 from rfl] at h2
          simp only [hg] at h2
          rcases h2 with h2 | h2 | h2 <;> rw [h2] <;> simp <;> omega
      · exact hops p hm e _ (by show w.pipes < w.pipes + 1 + 1 + 1; omega)
    · rw [hcap]
      show ws.progs.getLast? = _
      rw [hprogs]
      rw [← List.append_assoc, List.getLast?_concat]

/-- `ls | sort |>`: `sort` is not run. -/
example : (captured (fun _ => true) [.command, .command] none (.fresh true) .init
    [⟨0, false, c!"b\na\n"⟩, ⟨1, false, c!"a\nb\n"⟩]).1 = [] ∧
    ((capture (fun _ => true) [.command, .command] none (.fresh true) .init).1.progs.map (·.isSome)) = [true, false] :=
  ⟨(C127_pipeline_violated _ [.command] (by simp) _ _ idle_init _).1, by decide +kernel⟩

/-- **C127 fails with an input file.** What `cmd < f |>` writes to its standard output is not recorded,
whatever it is; it goes to the output of the shell. -/
theorem C127_input_violated (readable : Wire.Str → Bool) (path : Wire.Str) (hr : readable path = true) (k : Kind) (i : Bool)
    (w : World) (hw : Idle w) (log : List Write) :
    (captured readable [k] (some (.input, path)) (.fresh i) w log).1 = [] ∧
    ∃ p : Prog, (capture readable [k] (some (.input, path)) (.fresh i) w).1.progs = w.progs ++ [some p] ∧
      p.stdin = some (.file path) ∧ p.stdout = some (.std 1) := by
  obtain ⟨s0, s1, s2⟩ := hw.std
  obtain ⟨r1, x1, t1, hp1, hr1, hx1, hrx1, ht1⟩ := pipe_spec w
  obtain ⟨r2, x2, t2, hp2, hr2, hx2, hrx2, ht2⟩ := pipe_spec { w with tbl := t1, pipes := w.pipes + 1 }
  have hr2 : t1.get r2 = none := hr2
  have hx2 : t1.get x2 = none := hx2
  have ht2 : ∀ k, t2.get k = if k = x2 then some (.pipeW (w.pipes + 1)) else
      if k = r2 then some (.pipeR (w.pipes + 1)) else t1.get k := ht2
  have low : w.tbl.get 0 ≠ none ∧ w.tbl.get 1 ≠ none ∧ w.tbl.get 2 ≠ none := by simp [s0, s1, s2]
  have gr1 := gt_two low hr1
  have gx1 := gt_two low hx1
  have low1 : t1.get 0 ≠ none ∧ t1.get 1 ≠ none ∧ t1.get 2 ≠ none := by
    refine ⟨?_, ?_, ?_⟩ <;> (rw [ht1, if_neg (by omega), if_neg (by omega)]; simp [s0, s1, s2])
  have gr2 := gt_two low1 hr2
  have gx2 := gt_two low1 hx2
  have low2 : t2.get 0 ≠ none ∧ t2.get 1 ≠ none ∧ t2.get 2 ≠ none := by
    refine ⟨?_, ?_, ?_⟩ <;> (rw [ht2, if_neg (by omega), if_neg (by omega)]; first | exact low1.1 | exact low1.2.1 | exact low1.2.2)
  have hl := (Tbl.lowest_spec t2).1
  obtain ⟨fd, hfd⟩ : ∃ fd, fd = t2.lowest := ⟨_, rfl⟩
  rw [← hfd] at hl
  have gfd := gt_two low2 hl
  have dfx : fd ≠ x2 := by rintro rfl; rw [ht2, if_pos rfl] at hl; cases hl
  obtain ⟨p, hst, h0, h1, h2⟩ := start_fg (slave := none) (c := ⟨fd, 1, x2, some x1, i, true⟩)
    (w := { w with tbl := t2.put fd (.file path), pipes := w.pipes + 1 + 1 }) (inp := .file path) (out := .std 1)
    (err := .pipeW (w.pipes + 1)) k rfl
    (by show (t2.put fd (.file path)).get fd = _; rw [Tbl.get_put, if_pos rfl])
    (by show (t2.put fd (.file path)).get 1 = _
        rw [Tbl.get_put, if_neg (by omega), ht2, if_neg (by omega), if_neg (by omega), ht1, if_neg (by omega), if_neg (by omega), s1])
    (by show (t2.put fd (.file path)).get x2 = _; rw [Tbl.get_put, if_neg dfx.symm, ht2, if_pos rfl])
    (Or.inr gfd) (Or.inl rfl) (Or.inr gx2)
  obtain ⟨ws, hws⟩ : ∃ ws, ws = (stages readable none (some (.input, path)) [k] ⟨0, 1, x2, some x1, i, true⟩
      { w with tbl := t2, pipes := w.pipes + 1 + 1 }).2 := ⟨_, rfl⟩
  have hpc : ∀ (i o e : Nat) (inp : Option Nat) (v : World), (parentClose none inp i o e v).progs = v.progs := by
    intro i o e inp v
    cases inp <;> simp only [parentClose, World.close] <;> (repeat' split) <;> rfl
  have hprogs : ws.progs = w.progs ++ [some p] := by
    rw [hws, stages, stage, openInput, if_pos hr]
    simp only [World.alloc, Option.map_some, ← hfd, List.isEmpty_nil, Bool.not_true, outSetup, handleOutput, applySlave,
      Option.isNone_some, Bool.and_false, Bool.false_and, Bool.false_eq_true, if_false]
    rw [hst]
    simp only [stages, copier, World.close, hpc]
  obtain ⟨tf, hf, -⟩ := foldl_close ws.caps ws
  have hcap : ∃ tl, capture readable [k] (some (.input, path)) (.fresh i) w =
      ({ ws with tbl := tl, caps := [] }, w.pipes, w.pipes + 1) := by
    simp only [capture, Ctx.fresh, hp1, hp2]
    rw [← hws, hf]
    exact ⟨_, rfl⟩
  obtain ⟨tl, hcap⟩ := hcap
  refine ⟨?_, p, by rw [hcap]; exact hprogs, h0, h1⟩
  simp only [captured, hcap, hprogs, List.drop_left]
  apply sent_nil
  intro j q e hj
  cases j with
  | succ j => simp at hj
  | zero =>
    simp at hj
    subst hj
    cases e with
    | false => simp [stream, h1]
    | true => simp [stream, h2]

/-- `sort < list |>`. -/
example : (captured (fun _ => true) [.command] (some (.input, c!"list")) (.fresh true) .init [⟨0, false, c!"a\nb\n"⟩]).1 = [] :=
  (C127_input_violated _ _ rfl _ _ _ idle_init _).1

/-! ### C128: every other command -/

/-- What the programs of a pipeline of `n` show: what the last one writes, and all errors. -/
def shown (n : Nat) (log : List Write) : Str :=
  (log.filter fun x => x.prog + 1 == n || (x.err && decide (x.prog < n))).flatMap (·.text)

theorem wired_sent {inp out err : Obj} {pipe : Nat → Nat} {ps : List Prog} (h : Wired inp out err pipe ps) (hne : ps ≠ [])
    (he : err = out) (hp : ∀ n, out ≠ .pipeW n) (log : List Write) : sent out (ps.map some) log = shown ps.length log := by
  subst he
  induction log with
  | nil => rfl
  | cons x log ih =>
    have hs : sent err (ps.map some) (x :: log) = (match (ps.map some)[x.prog]? with
      | some (some p) => if stream p x.err = some err then x.text else []
      | _ => []) ++ sent err (ps.map some) log := by rw [sent, List.flatMap_cons]; rfl
    rw [hs, ih]
    have hsh : shown ps.length (x :: log) = (if x.prog + 1 == ps.length || (x.err && decide (x.prog < ps.length)) then
        x.text else []) ++ shown ps.length log := by
      simp only [shown, List.filter_cons]
      split <;> simp
    rw [hsh]
    congr 1
    rw [List.getElem?_map]
    cases hx : ps[x.prog]? with
    | none =>
      have := List.getElem?_eq_none_iff.1 hx
      have hpos : 0 < ps.length := List.length_pos_iff.2 hne
      rw [if_neg]
      · rfl
      · simp; omega
    | some p =>
      obtain ⟨hlt, hgp⟩ := List.getElem?_eq_some_iff.1 hx
      simp only [Option.map_some]
      by_cases hl : x.prog + 1 = ps.length
      · have hlast : p.stdout = some err := h.last p (by
          rw [List.getLast?_eq_getElem?, show ps.length - 1 = x.prog by omega, hx])
        have herr := h.errs p (List.mem_of_getElem? hx)
        rw [if_pos (by simp only [stream]; split <;> assumption), if_pos (by simp [hl])]
      · obtain ⟨q, hq⟩ : ∃ q, ps[x.prog + 1]? = some q := by
          cases hq : ps[x.prog + 1]? with
          | some q => exact ⟨q, rfl⟩
          | none => have := List.getElem?_eq_none_iff.1 hq; omega
        have hb := (h.between _ p q hx hq).1
        have herr := h.errs p (List.mem_of_getElem? hx)
        cases hxe : x.err with
        | true => rw [if_pos (by simp [stream, herr]), if_pos (by simp [hlt])]
        | false =>
          rw [if_neg, if_neg (by simp [hl])]
          simp only [stream, Bool.false_eq_true, if_false, hb]
          rintro ⟨⟩
          exact hp _ rfl

/-- The terminal of a job shows what the last program writes and all errors. -/
theorem onTerminal_plain (readable : Wire.Str → Bool) {w : World} (hw : Idle w) {ks : List Kind} (hne : ks ≠ [])
    (hk : ∀ k ∈ ks, k = .command) (log : List Write) :
    onTerminal readable true (.plain ks) (.fresh true) w log = shown ks.length log := by
  obtain ⟨ps, pipe, hp, hlen, hwd, -⟩ := C44_plain_partial readable true w hw ks hne hk
  rw [onTerminal, hp, List.drop_left, ← hlen]
  exact wired_sent hwd (by rintro rfl; simp at hlen; exact hne (List.eq_nil_of_length_eq_zero hlen.symm)) rfl
    (by intro n h; cases h) log

theorem onlcr_id {s : Str} (h : '\n' ∉ s) : onlcr s = s := by
  induction s with
  | nil => rfl
  | cons c s ih =>
    simp only [List.mem_cons, not_or] at h
    rw [onlcr, List.flatMap_cons, if_neg (Ne.symm h.1)]
    exact congrArg (c :: ·) (ih h.2)

theorem length_onlcr (s : Str) : (onlcr s).length = s.length + s.count '\n' := by
  induction s with
  | nil => rfl
  | cons c s ih =>
    rw [onlcr, List.flatMap_cons, List.length_append]
    have : (s.flatMap fun c => if c = '\n' then ['\r', '\n'] else [c]).length = s.length + s.count '\n' := ih
    rw [this, List.count_cons]
    by_cases hc : c = '\n' <;> simp [hc] <;> omega

theorem onlcr_nil {s : Str} (h : onlcr s = []) : s = [] := by
  have := length_onlcr s
  rw [h] at this
  exact List.eq_nil_of_length_eq_zero (by simp at this; omega)

/-- What is removed from the output that is kept: nothing unless it has escape sequences. -/
def KeepsPlain (strip : Str → Str) : Prop := ∀ s, '\x1b' ∉ s → '\x9b' ∉ s → strip s = s

/-- **C128, without newlines.** Behind a pipeline of programs in a terminal, `$OUT` is what its last
program wrote to its standard output, if that is not empty and has no newlines and no escape sequences,
if nobody wrote errors, and if it is not longer than an entry may be. -/
theorem C128_out_partial (share : Nat → Nat → Nat → Nat) (strip : Str → Str) (hstrip : KeepsPlain strip) (readable : Wire.Str → Bool)
    (w : World) (hw : Idle w) (ks : List Kind) (hne : ks ≠ []) (hk : ∀ k ∈ ks, k = .command) (log : List Write)
    (t : Str) (ht : t = (log.filter fun x => x.prog + 1 == ks.length).flatMap (·.text)) (h0 : t ≠ [])
    (herr : ∀ x ∈ log, x.err = false) (hn : '\n' ∉ t) (he : '\x1b' ∉ t ∧ '\x9b' ∉ t) (cmd : Str) (code : Int) {h h' : Hist}
    (hs : bytes t ≤ h.maxEntry)
    (hp : after share h (recorded strip true true cmd code (onTerminal readable true (.plain ks) (.fresh true) w log)) = some h') :
    outVar h' 1 = some t ∧ h'.get 1 = some ⟨cmd, t, [], code⟩ := by
  have hsh : shown ks.length log = t := by
    rw [ht, shown]
    congr 1
    apply List.filter_congr
    intro x hx
    simp [herr x hx]
  rw [onTerminal_plain readable hw hne hk, hsh] at hp
  have hrec : recorded strip true true cmd code t = some ⟨cmd, t, [], code⟩ := by
    rw [recorded]
    simp only [Bool.and_self, if_true, onlcr_id hn, hstrip t he.1 he.2, hstrip [] (by simp) (by simp), Bool.and_true]
    rw [if_pos (by simpa using h0)]
  rw [hrec] at hp
  have := push_first share (e := ⟨cmd, t, [], code⟩) (by simpa [bytes] using hs) hp
  exact ⟨by simp [outVar, this], this⟩

/-- `hostname | tr a-z A-Z`, with `printf`-like output. -/
example : ∃ h', after (fun a _ _ => a) new (recorded id true true c!"c" 0
      (onTerminal (fun _ => true) true (.plain [.command, .command]) (.fresh true) .init
        [⟨0, false, c!"box"⟩, ⟨1, false, c!"BO"⟩, ⟨1, false, c!"X"⟩])) = some h' ∧ outVar h' 1 = some c!"BOX" := by
  rw [onTerminal_plain _ idle_init (by simp) (by simp)]
  exact ⟨_, rfl, by decide +kernel⟩

/-- **C128 fails with newlines.** Whatever is recorded of a command in a terminal that wrote a newline (and
no escape sequences, and no errors) is not what it wrote: there is one more character for every newline. -/
theorem C128_newline_violated (share : Nat → Nat → Nat → Nat) (strip : Str → Str) (hstrip : KeepsPlain strip)
    (readable : Wire.Str → Bool) (w : World) (hw : Idle w) (log : List Write) (hl : ∀ x ∈ log, x.prog = 0 ∧ x.err = false)
    (hn : '\n' ∈ wrote false log) (he : '\x1b' ∉ wrote false log ∧ '\x9b' ∉ wrote false log) (cmd : Str) (code : Int) {h h' : Hist}
    (hs : bytes (onlcr (wrote false log)) ≤ h.maxEntry)
    (hp : after share h (recorded strip true true cmd code
      (onTerminal readable true (.plain [.command]) (.fresh true) w log)) = some h') :
    ∃ o, outVar h' 1 = some o ∧ o ≠ wrote false log ∧ o.length = (wrote false log).length + (wrote false log).count '\n' := by
  have hsh : shown 1 log = wrote false log := by
    rw [shown, wrote]
    congr 1
    apply List.filter_congr
    intro x hx
    simp [hl x hx]
  rw [onTerminal_plain readable hw (by simp) (by simp)] at hp
  rw [show [Kind.command].length = 1 from rfl, hsh] at hp
  obtain ⟨t, ht⟩ : ∃ t, t = wrote false log := ⟨_, rfl⟩
  rw [← ht] at hn he hs hp ⊢
  have hesc : ∀ c : Char, c ≠ '\n' → c ≠ '\r' → c ∉ t → c ∉ onlcr t := by
    intro c h1 h2 h hc
    rw [onlcr, List.mem_flatMap] at hc
    obtain ⟨d, hd, hc⟩ := hc
    split at hc
    · simp at hc; grind
    · simp at hc; exact h (hc ▸ hd)
  have hlen := length_onlcr t
  have hcnt : 0 < t.count '\n' := List.count_pos_iff.2 hn
  have hrec : recorded strip true true cmd code t = some ⟨cmd, onlcr t, [], code⟩ := by
    rw [recorded]
    simp only [Bool.and_self, if_true, hstrip (onlcr t) (hesc _ (by decide) (by decide) he.1) (hesc _ (by decide) (by decide) he.2),
      hstrip [] (by simp) (by simp), Bool.and_true]
    rw [if_pos]
    cases hz : onlcr t with
    | nil => rw [onlcr_nil hz] at hn; simp at hn
    | cons c s => rfl
  rw [hrec] at hp
  have := push_first share (e := ⟨cmd, onlcr t, [], code⟩) (by simpa [bytes] using hs) hp
  refine ⟨onlcr t, by simp [outVar, this], fun heq => ?_, hlen⟩
  rw [heq] at hlen
  omega

/-- `echo a` leaves `a`, a carriage return and a newline. -/
example : ∃ h', after (fun a _ _ => a) new (recorded id true true c!"echo a" 0
      (onTerminal (fun _ => true) true (.plain [.command]) (.fresh true) .init [⟨0, false, c!"a\n"⟩])) = some h' ∧
      outVar h' 1 = some c!"a\r\n" := by
  rw [onTerminal_plain _ idle_init (by simp) (by simp)]
  exact ⟨_, rfl, by decide +kernel⟩

/-- **C128 fails for errors.** In a terminal, `$ERR` is empty behind every pipeline of programs that showed
anything; what they wrote to their standard error is in `$OUT`. -/
theorem C128_stderr_violated (share : Nat → Nat → Nat → Nat) (strip : Str → Str) (hstrip : KeepsPlain strip) (readable : Wire.Str → Bool)
    (w : World) (hw : Idle w) (ks : List Kind) (hne : ks ≠ []) (hk : ∀ k ∈ ks, k = .command) (log : List Write)
    (hsh : shown ks.length log ≠ []) (cmd : Str) (code : Int) {h h' : Hist}
    (hs : bytes (strip (onlcr (shown ks.length log))) ≤ h.maxEntry)
    (hp : after share h (recorded strip true true cmd code (onTerminal readable true (.plain ks) (.fresh true) w log)) = some h') :
    errVar h' 1 = some [] ∧ outVar h' 1 = some (strip (onlcr (shown ks.length log))) := by
  rw [onTerminal_plain readable hw hne hk] at hp
  have hrec : recorded strip true true cmd code (shown ks.length log) =
      some ⟨cmd, strip (onlcr (shown ks.length log)), [], code⟩ := by
    rw [recorded]
    simp only [Bool.and_self, if_true, hstrip [] (by simp) (by simp), Bool.and_true]
    rw [if_pos]
    cases hz : onlcr (shown ks.length log) with
    | nil => exact absurd (onlcr_nil hz) hsh
    | cons c s => rfl
  rw [hrec] at hp
  have := push_first share (e := ⟨cmd, strip (onlcr (shown ks.length log)), [], code⟩) (by simpa [bytes] using hs) hp
  exact ⟨by simp [errVar, this], by simp [outVar, this]⟩

/-- `cc x` fails with a message and nothing else: `$OUT` is the message and `$ERR` is empty. -/
example : ∃ h', after (fun a _ _ => a) new (recorded id true true c!"cc x" 1
      (onTerminal (fun _ => true) true (.plain [.command]) (.fresh true) .init [⟨0, true, c!"no x"⟩])) = some h' ∧
      outVar h' 1 = some c!"no x" ∧ errVar h' 1 = some [] := by
  rw [onTerminal_plain _ idle_init (by simp) (by simp)]
  exact ⟨_, rfl, by decide +kernel, by decide +kernel⟩

/-- **C128 fails for silent commands.** Behind a command that shows nothing, `$OUT[n]` and `$ERR[n]` are still
those of the commands before. -/
theorem C128_silent_violated (share : Nat → Nat → Nat → Nat) (strip : Str → Str) (readable : Wire.Str → Bool)
    (w : World) (hw : Idle w) (ks : List Kind) (hne : ks ≠ []) (hk : ∀ k ∈ ks, k = .command) (log : List Write)
    (hsh : shown ks.length log = []) (cmd : Str) (code : Int) (h : Hist) :
    after share h (recorded strip true true cmd code (onTerminal readable true (.plain ks) (.fresh true) w log)) = some h := by
  rw [onTerminal_plain readable hw hne hk, hsh]
  rfl

/-- `false`, behind `ls`. -/
example : ∃ h h', Hist.push (fun a _ _ => a) new ⟨c!"ls", c!"a b", [], 0⟩ = some h ∧
    after (fun a _ _ => a) h (recorded id true true c!"false" 1
      (onTerminal (fun _ => true) true (.plain [.command]) (.fresh true) .init [])) = some h' ∧ outVar h' 1 = some c!"a b" :=
  ⟨_, _, rfl, C128_silent_violated _ _ _ _ idle_init _ (by simp) (by simp) _ rfl _ _ _, by decide +kernel⟩

/-- **C128 fails without terminals for jobs** (`DSH_NO_PTY`, scripts): nothing is recorded, whatever is written. -/
theorem C128_nopty_violated (share : Nat → Nat → Nat → Nat) (strip : Str → Str) (readable : Wire.Str → Bool) (j : Job) (c : Ctx)
    (w : World) (log : List Write) (cmd : Str) (code : Int) (h : Hist) (fg : Bool) :
    after share h (recorded strip false fg cmd code (onTerminal readable false j c w log)) = some h := by
  simp [recorded, after]

/-! ### C129: a line that begins with `|` -/

/-- The first stage, a builtin. -/
theorem stage_builtin {readable : Wire.Str → Bool} {slave : Option Nat} {c : Ctx} {w : World} {i e : Nat}
    {inp err : Obj} (h : Streams slave c w.tbl i e inp err) (hsl : ∀ s, slave = some s → w.tbl.get s ≠ none) :
    ∃ r x t p c', stage readable slave none true .builtin c w = some (c', { w with
        tbl := t, pipes := w.pipes + 1, progs := w.progs ++ [some p] }, none) ∧
      c' = { applySlave slave { c with outfile := x } with infile := r } ∧
      w.tbl.get r = none ∧ 2 < r ∧
      (∀ k, t.get k = if k = r then some (.pipeR w.pipes) else
        if i ≠ 0 ∧ slave ≠ some i ∧ k = i then none else w.tbl.get k) ∧
      p.stdout = some (.pipeW w.pipes) := by
  obtain ⟨r, x, t, hp, hr, hx, hrx, ht⟩ := pipe_spec w
  have r2 := gt_two h.low hr
  have x2 := gt_two h.low hx
  have hi1 : (applySlave slave { c with outfile := x }).infile = i := by
    rw [applySlave_in]; have := h.hi; rw [applySlave_in] at this; exact this
  have he1 : (applySlave slave { c with outfile := x }).errfile = e := by
    rw [applySlave_err]; have := h.he; rw [applySlave_err] at this; exact this
  have ho1 : (applySlave slave { c with outfile := x }).outfile = x := by
    rw [applySlave_out]; exact if_neg (by show x ≠ 1; omega)
  have hs : slave ≠ some x := fun hs => hsl x hs hx
  have hir : r ≠ i := by intro hh; have := h.gi; rw [← hh, hr] at this; cases this
  have hix : x ≠ i := by intro hh; have := h.gi; rw [← hh, hx] at this; cases this
  have her : r ≠ e := by intro hh; have := h.ge; rw [← hh, hr] at this; cases this
  obtain ⟨p, hpd⟩ : ∃ p, p = builtinProg t (applySlave slave { c with outfile := x }) := ⟨_, rfl⟩
  obtain ⟨tp, hp', gp⟩ := parentClose_tbl slave i x e
    { w with tbl := t, pipes := w.pipes + 1, progs := w.progs ++ [some p] }
  have hes := h.es
  refine ⟨r, x, tp, p, _, ?_, rfl, hr, r2, fun k => ?_, ?_⟩
  · simp only [stage, openInput, outSetup, if_true, hp, start, Option.map_some, hi1, ho1, he1, Option.toList_none, List.append_nil,
      copier, ← hpd, hp']
    simp
  · rw [gp]
    show (if _ then none else t.get k) = _
    rw [ht]
    grind
  · rw [hpd, builtinProg]
    show t.get (applySlave slave { c with outfile := x }).outfile = _
    rw [ho1, ht, if_pos rfl]

/-- A pipeline that begins with a builtin, up to the second program. -/
theorem stages_builtin {readable : Wire.Str → Bool} {slave : Option Nat} {w : World} {inp out err : Obj}
    (hb : Base slave w.tbl.get w.pipes out err) (hinp : w.tbl.get (slave.getD 0) = some inp)
    {ks : List Kind} (hne : ks ≠ []) (hk : ∀ k ∈ ks, k = .command) :
    ∃ p ps w', (stages readable slave none (.builtin :: ks) (.fresh true) w).2 = w' ∧
      w'.progs = w.progs ++ some p :: ps.map some ∧
      p.stdout = some (.pipeW w.pipes) ∧ Chain w.pipes out err (w.pipes + 1) (.pipeR w.pipes) ps := by
  have hS : Streams slave (.fresh true) w.tbl (slave.getD 0) (slave.getD 2) inp err := by
    refine ⟨by rw [applySlave_in]; rfl, by rw [applySlave_err]; rfl, hinp, hb.err, ?_, ?_, ?_, hb.low, rfl⟩
    · cases hs : slave with
      | none => exact Or.inl rfl
      | some s => exact Or.inr (hb.s2 s hs)
    · cases hs : slave with
      | none => exact Or.inl rfl
      | some s => exact Or.inr (hb.s2 s hs)
    · cases slave with
      | none => exact Or.inl rfl
      | some s => exact Or.inr rfl
  have hnc : ∀ k, ¬ (slave.getD 0 ≠ 0 ∧ slave ≠ some (slave.getD 0) ∧ k = slave.getD 0) := by
    intro k
    cases slave <;> simp
  have hsl : ∀ s, slave = some s → w.tbl.get s ≠ none := by
    rintro s rfl
    have := hb.err
    simp only [Option.getD_some] at this
    simp [this]
  obtain ⟨r, x, t, p, c', hst, hc', hr, r2, gt, h1⟩ := stage_builtin (readable := readable) hS hsl
  obtain ⟨ps, t', c'', hst', -, hch, -⟩ :=
    stages_later (readable := readable) hb ks c' { w with
      tbl := t, pipes := w.pipes + 1, progs := w.progs ++ [some p] } w.pipes hne hk
    (by rw [hc']; exact (applySlave_rest _ _).2)
    (by rw [hc']; exact (applySlave_rest _ _).1)
    (by rw [hc']; exact (applySlave_fg _ _))
    (by rw [hc']; show (applySlave slave _).errfile = _
        rw [applySlave_err]; rfl)
    (by rw [hc']; exact r2) (by rw [hc']; exact hr) (by rw [hc']; exact fun hs => hsl r hs hr)
    rfl (Nat.le_refl _)
    (fun k => by
      show t.get k = _
      rw [gt, hc']
      show _ = if k = r then _ else _
      rw [if_neg (hnc k)])
  refine ⟨p, ps, _, rfl, ?_, h1, hch⟩
  cases ks with
  | nil => exact absurd rfl hne
  | cons k ks =>
    rw [stages]
    simp only [List.isEmpty_cons, Bool.not_false, hst]
    rw [hst']
    simp

theorem launch_builtin {readable : Wire.Str → Bool} {pty : Bool} {w : World} (hw : Idle w)
    {ks : List Kind} (hne : ks ≠ []) (hk : ∀ k ∈ ks, k = .command) :
    ∃ p ps, (launch readable pty (.plain (.builtin :: ks)) (.fresh true) w).2.progs = w.progs ++ some p :: ps.map some ∧
      p.stdout = some (.pipeW w.pipes) ∧
      Chain w.pipes (jobStream pty w 1) (jobStream pty w 2) (w.pipes + 1) (.pipeR w.pipes) ps := by
  obtain ⟨s0, s1, s2⟩ := hw.std
  have hprogs : ∀ (fds : List Nat) (v : World), (fds.foldl World.close v).progs = v.progs := by
    intro fds v
    obtain ⟨t, ht, -⟩ := foldl_close fds v
    rw [ht]
  cases pty with
  | false =>
    obtain ⟨p, ps, w', hst, hp, h1, hch⟩ :=
      stages_builtin (readable := readable) (slave := none) (w := w) (inp := .std 0) (out := .std 1)
        (err := .std 2) ⟨⟨by simp [s0], by simp [s1], by simp [s2]⟩, s1, s2, by simp, hw.pipes⟩ s0 hne hk
    refine ⟨p, ps, ?_, h1, hch⟩
    rw [launch]
    simp only [Job.plain, Bool.false_and, Bool.false_eq_true, if_false, List.foldl_nil]
    rw [show ({ Ctx.fresh true with foreground := true } : Ctx) = Ctx.fresh true from rfl]
    split
    · show World.progs (List.foldl _ _ _) = _
      rw [hprogs, hst, hp]
    · rw [hst, hp]
  | true =>
    obtain ⟨s, fds, tp, hp, hsf, gs, hnone, hout, hin⟩ := setupPty_spec (some .builtin) w
    have hn2 : ∀ k, w.tbl.get k ≠ none → k ∉ fds := fun k h hk => h (hnone k hk)
    have t0 : tp.get 0 = some (.std 0) := by rw [hout 0 (hn2 0 (by simp [s0]))]; exact s0
    have t1 : tp.get 1 = some (.std 1) := by rw [hout 1 (hn2 1 (by simp [s1]))]; exact s1
    have t2 : tp.get 2 = some (.std 2) := by rw [hout 2 (hn2 2 (by simp [s2]))]; exact s2
    have hs2 : 2 < s := gt_two ⟨by simp [s0], by simp [s1], by simp [s2]⟩ (hnone s hsf)
    obtain ⟨p, ps, w', hst, hpp, h1, hch⟩ :=
      stages_builtin (readable := readable) (slave := some s)
        (w := { w with tbl := tp, ptys := w.ptys + 1 })
        (inp := .slave w.ptys) (out := .slave w.ptys) (err := .slave w.ptys)
        ⟨⟨by simp [t0], by simp [t1], by simp [t2]⟩, gs, gs, by rintro _ ⟨⟩; exact hs2, by
          intro k n hkn
          have hkn : tp.get k = some (.pipeR n) ∨ tp.get k = some (.pipeW n) := hkn
          by_cases hkf : k ∈ fds
          · rcases hin k hkf with h | h <;> rw [h] at hkn <;> simp at hkn
          · rw [hout k hkf] at hkn
            exact hw.pipes k n hkn⟩ gs hne hk
    refine ⟨p, ps, ?_, h1, hch⟩
    rw [launch]
    simp only [Job.plain, Ctx.fresh, Bool.true_and, if_true, List.head?_cons, hp]
    rw [show (⟨0, 1, 2, none, true, true⟩ : Ctx) = Ctx.fresh true from rfl]
    split
    · show World.progs (List.foldl _ _ _) = _
      rw [hprogs, hprogs, hst, hpp]
    · rw [hprogs, hst, hpp]

theorem fed_said {readable : Wire.Str → Bool} {pty : Bool} {w : World} (hw : Idle w) {ks : List Kind} (hne : ks ≠ [])
    (hk : ∀ k ∈ ks, k = .command) (said : Str × Way) :
    fed readable pty ks w said = some (if said.2 = .ctx then said.1 else []) := by
  obtain ⟨p, ps, hp, h1, hch⟩ := launch_builtin (readable := readable) (pty := pty) hw hne hk
  obtain ⟨q, qs, rfl, hq⟩ : ∃ q qs, ps = q :: qs ∧ q.stdin = some (.pipeR w.pipes) := by
    cases hch with
    | last h => exact ⟨_, _, rfl, h⟩
    | cons h => exact ⟨_, _, rfl, h⟩
  obtain ⟨t, y⟩ := said
  simp only [fed, hp, List.drop_left, List.map_cons, hq]
  cases y with
  | ctx => simp [sent, stream, h1]
  | print => simp [sent, stream, hw.std.2.1]

/-- The pipe is there: a builtin that wrote to the stream of its context would be read by the program
behind it. -/
theorem C129_wired_partial (readable : Wire.Str → Bool) (pty : Bool) (w : World) (hw : Idle w) (ks : List Kind) (hne : ks ≠ [])
    (hk : ∀ k ∈ ks, k = .command) (t : Str) : fed readable pty ks w (t, .ctx) = some t := by
  rw [fed_said hw hne hk]; rfl

/-- **C129 fails.** The programs behind `|` at the beginning of a line read nothing, whatever was recorded
of the command before: the text is printed to the terminal of the shell. -/
theorem C129_pipe_violated (readable : Wire.Str → Bool) (pty : Bool) (w : World) (hw : Idle w) (ks : List Kind) (hne : ks ≠ [])
    (hk : ∀ k ∈ ks, k = .command) (h : Hist) : fed readable pty ks w (printLast h) = some [] := by
  rw [fed_said hw hne hk, printLast]
  split <;> rfl

/-- `| grep a` behind `ls`: `grep` reads nothing. -/
example : ∃ h, Hist.push (fun a _ _ => a) new ⟨c!"ls", c!"a\nb\n", [], 0⟩ = some h ∧ outVar h 1 = some c!"a\nb\n" ∧
    fed (fun _ => true) true [.command] .init (printLast h) = some [] :=
  ⟨_, rfl, by decide +kernel, C129_pipe_violated _ _ _ idle_init _ (by simp) (by simp) _⟩

/-! ### C130: `out` -/

theorem dec_digits (n : Nat) : ∀ c ∈ dec n, c.isDigit = true := by
  intro c hc
  rw [dec, Nat.toString_eq_repr, Nat.toList_repr] at hc
  exact Nat.isDigit_of_mem_toDigits (by decide) (by decide) hc

theorem dec_ne (n : Nat) : dec n ≠ [] := by
  rw [dec, Nat.toString_eq_repr, Nat.toList_repr]
  exact Nat.toDigits_ne_nil

theorem value_dec (n : Nat) : value (dec n) = n := by
  rw [dec, Nat.toString_eq_repr, Nat.toList_repr]
  exact Nat.ofDigitChars_ten_toDigits

theorem parse_dec {n : Nat} (hn : n < 2 ^ 64) : parseOutputVar (c!"OUT[" ++ dec n ++ c!"]") c!"OUT" = some n := by
  have := (C68_index (p := c!"OUT") (ds := dec n) (by decide) (by decide) (dec_ne n) (dec_digits n) (by rw [value_dec]; exact hn)).2.1
  rw [value_dec] at this
  rw [← this]
  congr 1

theorem parseUsize_value {ds : Str} (hne : ds ≠ []) (hd : ∀ c ∈ ds, c.isDigit = true) (hv : value ds < 2 ^ 64) :
    parseUsize ds = some (value ds) := by
  unfold parseUsize
  have hb : stripPlus ds = ds := by
    unfold stripPlus
    split
    · exact absurd (hd '+' (by simp)) (by decide)
    · rfl
  rw [hb]
  simp only
  rw [if_neg (by simpa using hne), digits_value hd]
  exact if_pos hv

theorem not_option {ds : Str} (hd : ∀ c ∈ ds, c.isDigit = true) {o : Str} (ho : o.head? = some '-') : ds ≠ o := by
  rintro rfl
  cases ds with
  | nil => simp at ho
  | cons c s =>
    simp at ho
    have := hd c (List.mem_cons_self ..)
    rw [ho] at this
    exact absurd this (by decide)

theorem out_number (help : Str) (h : Hist) {ds : Str} (hne : ds ≠ []) (hd : ∀ c ∈ ds, c.isDigit = true) (hv : value ds < 2 ^ 64)
    (h1 : 1 ≤ value ds) (more : List Str) : out help h (ds :: more) = some (showOutput h (value ds)) := by
  have no : ∀ o : Str, o.head? = some '-' → ds ≠ o := fun o ho => not_option hd ho
  simp only [out, no c!"--list" rfl, no c!"-l" rfl, no c!"--clear" rfl, no c!"-c" rfl, no c!"--help" rfl, no c!"-h" rfl, or_self,
    if_false, parseUsize_value hne hd hv]
  split
  · rename_i h0; injection h0 with h0; omega
  · rename_i h0; injection h0 with h0; rw [h0]
  · rename_i h0; cases h0

/-- **C130, one output.** `out n`, the number written in any way, shows the output of the `n`-th command
recorded, counted from the latest, and `out` the latest; the status is 0.  A newline is added.  If there
are fewer, there is a message and the status is 1. -/
theorem C130_show_partial (help : Str) (h : Hist) {ds : Str} (hne : ds ≠ []) (hd : ∀ c ∈ ds, c.isDigit = true)
    (hv : value ds < 2 ^ 64) (h1 : 1 ≤ value ds) (more : List Str) :
    (∀ e, h.entries[value ds - 1]? = some e → out help h (ds :: more) =
      some ⟨(if e.stdout = [] then c!"(empty output)" else e.stdout) ++ ['\n'], [], 0⟩) ∧
    (h.entries.length < value ds → ∃ s, out help h (ds :: more) = some s ∧ s.out = [] ∧ s.err ≠ [] ∧ s.status = 1) ∧
    out help h [] = out help h [c!"1"] := by
  refine ⟨fun e he => ?_, fun hlt => ?_, ?_⟩
  · rw [out_number help h hne hd hv h1, showOutput, parse_dec hv]
    have hlen := (List.getElem?_eq_some_iff.1 he).1
    have : outVar h (value ds) = some e.stdout := by
      rw [outVar, Hist.get, if_neg (by simp; omega), he]
      rfl
    simp only [this, List.isEmpty_iff]
    by_cases h0 : e.stdout = []
    · rw [if_pos h0, if_pos h0]; rfl
    · rw [if_neg h0, if_neg h0]; rfl
  · rw [out_number help h hne hd hv h1, showOutput, parse_dec hv]
    have : outVar h (value ds) = none := by
      rw [outVar, Hist.get, if_pos (by simp; omega)]
      rfl
    simp only [this]
    exact ⟨_, rfl, rfl, by simp [ln], rfl⟩
  · rw [out_number help h (ds := c!"1") (by decide) (by decide) (by decide) (by decide)]
    rfl

example (h : Hist) (hh : h = { new with entries := [⟨c!"ls", c!"a b", [], 0⟩, ⟨c!"pwd", c!"/", [], 0⟩] }) :
    out [] h [c!"02"] = some ⟨c!"/\n", [], 0⟩ := by
  subst hh
  exact (C130_show_partial [] { new with entries := _ } (ds := c!"02") (by decide) (by decide) (by decide) (by decide) []).1
    ⟨c!"pwd", c!"/", [], 0⟩ rfl

theorem linesGo_part (cur p : Str) (hp : '\n' ∉ p) (s : Str) : linesGo cur (p ++ s) = linesGo (p.reverse ++ cur) s := by
  induction p generalizing cur with
  | nil => rfl
  | cons c p ih =>
    simp only [List.mem_cons, not_or] at hp
    rw [List.cons_append, linesGo.eq_def]
    split
    · rename_i h; cases h
    · rename_i h; cases h
    · rename_i h; injection h with h; exact absurd h.symm hp.1
    · rename_i h; injection h with h1 h2
      subst h1 h2
      rw [ih _ hp.2]
      simp

/-- The lines of a text of lines. -/
theorem lines_text (ps : List Str) (hn : ∀ p ∈ ps, '\n' ∉ p) (hr : ∀ p ∈ ps, ¬ ['\r'].isSuffixOf p) (last : Str) (hl : '\n' ∉ last) :
    lines (ps.flatMap (· ++ ['\n']) ++ last) = ps ++ (if last = [] then [] else [last]) := by
  unfold lines
  induction ps with
  | nil =>
    have := linesGo_part [] last hl []
    rw [List.append_nil, List.append_nil] at this
    show linesGo [] last = _
    rw [this]
    cases last with
    | nil => rfl
    | cons c s =>
      rw [linesGo.eq_def]
      split
      · rename_i h _; simp at h
      · rename_i h _; simp
      · rename_i h; cases h
      · rename_i h; cases h
  | cons p ps ih =>
    rw [List.flatMap_cons, List.append_assoc, List.append_assoc, linesGo_part [] p (hn p (List.mem_cons_self ..))]
    show linesGo _ ('\n' :: (ps.flatMap (· ++ ['\n']) ++ last)) = _
    rw [linesGo, ih (fun q hq => hn q (List.mem_cons_of_mem _ hq)) (fun q hq => hr q (List.mem_cons_of_mem _ hq))]
    have : stripCr (p.reverse ++ []).reverse = p := by
      rw [List.append_nil, List.reverse_reverse, stripCr, if_neg (hr p (List.mem_cons_self ..))]
    rw [this]
    rfl

/-- The line for output `o` with the number `i`, when its first line is short. -/
def shortLine (i : Nat) (o : Str) : Str :=
  c!"  [" ++ dec i ++ c!"] " ++ dec (lines o).length ++ c!" lines, " ++ dec (bytes o) ++ c!" bytes: " ++
    (lines o).headD c!"(empty)" ++ ['\n']

theorem listLine_short {i : Nat} {o : Str} (h : bytes ((lines o).headD c!"(empty)") ≤ 60) : listLine i o = some (shortLine i o) := by
  rw [listLine, preview]
  rw [if_neg (by omega)]
  rfl

theorem outVar_none {h : Hist} {i : Nat} (hi : h.entries.length < i) : outVar h i = none := by
  rw [outVar, Hist.get, if_pos (by simp; omega)]; rfl

theorem outVar_some {h : Hist} {i : Nat} {e : Entry} (hi : h.entries[i]? = some e) : outVar h (i + 1) = some e.stdout := by
  have hlen := (List.getElem?_eq_some_iff.1 hi).1
  rw [outVar, Hist.get, if_neg (by simp; omega), Nat.add_sub_cancel, hi]; rfl

theorem listGo_all (h : Hist) (hs : ∀ e ∈ h.entries, bytes ((lines e.stdout).headD c!"(empty)") ≤ 60) :
    ∀ (n i : Nat), h.entries.length ≤ n + i →
      listGo h (List.range' (i + 1) n) = some (((h.entries.drop i).zipIdx (i + 1)).map fun p => shortLine p.2 p.1.stdout) := by
  intro n
  induction n with
  | zero =>
    intro i hi
    rw [List.drop_of_length_le (by omega)]
    rfl
  | succ n ih =>
    intro i hi
    rw [List.range'_succ, listGo]
    cases he : h.entries[i]? with
    | none =>
      have := List.getElem?_eq_none_iff.1 he
      rw [outVar_none (by omega), List.drop_of_length_le this]
      rfl
    | some e =>
      obtain ⟨hlt, hge⟩ := List.getElem?_eq_some_iff.1 he
      rw [outVar_some he]
      simp only
      rw [listLine_short (hs e (List.mem_of_getElem? he)), ih (i + 1) (by omega), List.drop_eq_getElem_cons hlt, hge]
      simp

/-- **C130, the list.** With at most ten outputs, whose first lines have at most 60 bytes, `out --list` has a
line for each of them, in order, with its number, its lines and bytes, and its first line. -/
theorem C130_list_partial (help : Str) (h : Hist) (hlen : h.entries.length ≤ 10) (hne : h.entries ≠ [])
    (hs : ∀ e ∈ h.entries, bytes ((lines e.stdout).headD c!"(empty)") ≤ 60) (more : List Str) :
    out help h (c!"--list" :: more) =
      some ⟨heading ++ ((h.entries.zipIdx 1).map fun p => shortLine p.2 p.1.stdout).flatten ++ ['\n'], [], 0⟩ := by
  have := listGo_all h hs 10 0 (by omega)
  rw [show out help h (c!"--list" :: more) = listOutputs h from rfl, listOutputs]
  rw [show [1, 2, 3, 4, 5, 6, 7, 8, 9, 10] = List.range' (0 + 1) 10 from rfl, this]
  simp only [Option.map_some, List.drop_zero, Nat.zero_add]
  rw [if_neg (by simpa using hne)]
  rfl

example (h : Hist) (hh : h = { new with entries := [⟨c!"ls", c!"a\nb\n", [], 0⟩, ⟨c!"pwd", c!"/", [], 0⟩] }) :
    ∃ s, out [] h [c!"--list"] = some s ∧ s.out = heading ++ (shortLine 1 c!"a\nb\n" ++ shortLine 2 c!"/") ++ ['\n'] := by
  subst hh
  exact ⟨_, C130_list_partial _ _ (by decide) (by simp) (by decide +kernel) [], by simp⟩

/-- **C130 fails for more than ten outputs**: the list is the one of the first ten. -/
theorem C130_ten_violated (help : Str) (h : Hist) (more : List Str) :
    out help h (c!"--list" :: more) = out help { h with entries := h.entries.take 10 } (c!"--list" :: more) := by
  have key : ∀ is : List Nat, (∀ i ∈ is, i ≤ 10) → listGo h is = listGo { h with entries := h.entries.take 10 } is := by
    intro is
    induction is with
    | nil => intro _; rfl
    | cons i is ih =>
      intro hi
      have h10 := hi i (List.mem_cons_self ..)
      have : outVar h i = outVar { h with entries := h.entries.take 10 } i := by
        cases i with
        | zero => rfl
        | succ i =>
          cases he : h.entries[i]? with
          | none =>
            have := List.getElem?_eq_none_iff.1 he
            rw [outVar_none (by omega), outVar_none (by simp; omega)]
          | some e =>
            rw [outVar_some he, outVar_some (e := e)]
            rw [List.getElem?_take, if_pos (by omega), he]
      rw [listGo, listGo, this, ih fun j hj => hi j (List.mem_cons_of_mem _ hj)]
  show listOutputs h = listOutputs _
  rw [listOutputs, listOutputs, key _ (by decide)]

/-- **C130 fails for long first lines.** If one of the first ten outputs has a first line of more than 60 bytes
with a character across byte 57, the builtin panics. -/
theorem C130_panic_violated (help : Str) (h : Hist) (i : Nat) (hi : i < 10) (e : Entry) (he : h.entries[i]? = some e)
    (hb : bytes ((lines e.stdout).headD c!"(empty)") > 60) (hx : boundary 57 ((lines e.stdout).headD c!"(empty)") = false)
    (more : List Str) : out help h (c!"--list" :: more) = none := by
  have key : ∀ n j, j ≤ i → i < j + n → listGo h (List.range' (j + 1) n) = none := by
    intro n
    induction n with
    | zero => intro j h1 h2; omega
    | succ n ih =>
      intro j h1 h2
      rw [List.range'_succ, listGo]
      have hlt := (List.getElem?_eq_some_iff.1 he).1
      obtain ⟨e', he'⟩ : ∃ e', h.entries[j]? = some e' := ⟨_, List.getElem?_eq_getElem (show j < _ by omega)⟩
      rw [outVar_some he']
      simp only
      by_cases hj : j = i
      · subst hj
        rw [he] at he'
        injection he' with he'
        subst he'
        have : listLine (j + 1) e.stdout = none := by
          rw [listLine, preview]
          rw [if_pos hb, hx]
          rfl
        rw [this]
        rfl
      · rw [ih (j + 1) (by omega) (by omega)]
        cases listLine (j + 1) e'.stdout <;> rfl
  show listOutputs h = none
  rw [listOutputs, show [1, 2, 3, 4, 5, 6, 7, 8, 9, 10] = List.range' (0 + 1) 10 from rfl, key 10 0 (by omega) (by omega)]
  rfl

/-- A line of Japanese text. -/
example (h : Hist) (hh : h = { new with entries := [⟨c!"c", 'a' :: List.replicate 20 'あ', [], 0⟩] }) : out [] h [c!"--list"] = none := by
  subst hh
  exact C130_panic_violated _ _ 0 (by decide) _ rfl (by decide +kernel) (by decide +kernel) []

/-- **C130 fails for `--clear`**: it only says so, and the status is 1. -/
theorem C130_clear_violated (help : Str) (h : Hist) (more : List Str) :
    out help h (c!"--clear" :: more) = some ⟨[], c!"out: --clear is not implemented yet\n", 1⟩ := rfl

theorem filed_said {readable : Wire.Str → Bool} {pty : Bool} {w : World} (hw : Idle w) {k : RKind} (hk : k ≠ .input) (path : Wire.Str)
    (said : Str × Way) : filed readable pty k path w said = some (if said.2 = .ctx ∧ takesOut k = true then said.1 else []) := by
  obtain ⟨p, r, n, -, hn, hp, hc, -, h0, h1, h2⟩ := C44_redirect_partial readable pty w hw k hk path .builtin
  obtain ⟨t, y⟩ := said
  simp only [filed, hp, hc, List.drop_left]
  have hj : jobStream pty w 1 ≠ .pipeW n := by rw [jobStream]; split <;> simp
  cases y with
  | ctx =>
    cases ht : takesOut k with
    | true => simp [sent, stream, h1, ht]
    | false => simp [sent, stream, h1, ht, hj]
  | print => simp [sent, stream, hw.std.2.1]

/-- **C130 fails behind `>`.** `out > f` and `out --list > f` print to the terminal, and nothing reaches the
file; a builtin that wrote to its context would be heard there. -/
theorem C130_redirect_violated (readable : Wire.Str → Bool) (pty : Bool) (w : World) (hw : Idle w) (path : Wire.Str) (s : Shown) :
    filed readable pty .stdoutOutput path w (outSays s) = some [] ∧
    filed readable pty .stdoutOutput path w (s.out, .ctx) = some s.out := by
  constructor
  · rw [filed_said hw (by simp)]; rfl
  · rw [filed_said hw (by simp)]; rfl

/-- **C130 fails in front of `|`.** The programs behind `out |` read nothing. -/
theorem C130_pipe_violated (readable : Wire.Str → Bool) (pty : Bool) (w : World) (hw : Idle w) (ks : List Kind) (hne : ks ≠ [])
    (hk : ∀ k ∈ ks, k = .command) (s : Shown) : fed readable pty ks w (outSays s) = some [] := by
  rw [fed_said hw hne hk]; rfl

/-- `out > f`, `out | less`. -/
example (h : Hist) (hh : h = { new with entries := [⟨c!"ls", c!"a b", [], 0⟩] }) : ∃ s, out [] h [c!"1"] = some s ∧ s.out = c!"a b\n" ∧
    filed (fun _ => true) true .stdoutOutput c!"f" .init (outSays s) = some [] ∧
    fed (fun _ => true) true [.command] .init (outSays s) = some [] := by
  subst hh
  exact ⟨_, (C130_show_partial _ _ (ds := c!"1") (by decide) (by decide) (by decide) (by decide) []).1 _ rfl, rfl,
    (C130_redirect_violated _ _ _ idle_init _ _).1, C130_pipe_violated _ _ _ idle_init _ (by simp) (by simp) _⟩

end Dsh.Record

namespace Dsh.Eval
open Dsh.Shell Dsh.Syn

/-- The line `| s | st ; rest`, with the builtin in front. -/
def fromLast (b : List Char) (s : Simple) (st : List (List Char × List Char × Simple))
    (rest : List (List Char × Sep × List Char × Cmd)) (trail : List Char) : Line :=
  ⟨[], ⟨[], some (⟨.bare (c!"__dsh_print_last_stdout".map .plain), []⟩, (c!" ", b, s) :: st)⟩, rest, trail⟩

/-- **C129, the line.** A line that begins with `|`, blanks and a command means the same line with the builtin
for the last output as the first program of its first pipeline. -/
theorem C129_line_partial {E : Env} {W : World} {b : List Char} {s : Simple} {st : List (List Char × List Char × Simple)}
    {rest : List (List Char × Sep × List Char × Cmd)} {trail : List Char} (h : (fromLast b s st rest trail).ok = true)
    (hf : FitLine E (fromLast b s st rest trail))
    (hr : ∀ c ∈ ((fromLast b s st rest trail).mapW (Word.fill (valOf E))).simples, Runs W c)
    (h1 : (b ++ s.text).head? ≠ some '>') (h2 : (b ++ s.text).head? ≠ some '|') (hne : s.text ≠ []) (id : Nat) :
    ∃ js id', lineJobs E W id (smartPipe ('|' :: (b ++ (s.text ++ (stagesText st ++ restText rest trail))))) = some (js, id') ∧
      RealizesAll js ((fromLast b s st rest trail).mapW (Word.fill (valOf E))).want := by
  have hsp : smartPipe ('|' :: (b ++ (s.text ++ (stagesText st ++ restText rest trail)))) = (fromLast b s st rest trail).text := by
    obtain ⟨u, hu⟩ : ∃ u, u = b ++ (s.text ++ (stagesText st ++ restText rest trail)) := ⟨_, rfl⟩
    have hhead : u.head? = (b ++ s.text).head? := by
      obtain ⟨c, t, hc⟩ : ∃ c t, b ++ s.text = c :: t := List.exists_cons_of_ne_nil (by simp [hne])
      rw [hu, ← List.append_assoc, hc]
      rfl
    have htext : (fromLast b s st rest trail).text = c!"__dsh_print_last_stdout " ++ '|' :: u := by
      simp [hu, fromLast, Line.text, Cmd.text, bgsText, mainText, stagesText, Simple.text, Word.text]
      rfl
    rw [← hu, htext]
    have htrim : trimStart ('|' :: u) = '|' :: u := by
      unfold trimStart
      rw [List.dropWhile_cons_of_neg (by decide)]
    unfold smartPipe
    rw [htrim]
    split
    · next hh => injection hh with _ hh; rw [hh] at hhead; exact absurd hhead.symm h1
    · next hh => injection hh with _ hh; rw [hh] at hhead; exact absurd hhead.symm h2
    · rfl
    · next hh => exact absurd rfl (hh u)
  rw [hsp]
  exact C03_line_meaning_partial h hf hr id

/-- `| sort -u | wc ; z`. -/
def exLast : Line :=
  let w (s : List Char) : Word := .bare (s.map .plain)
  fromLast c!" " ⟨w c!"sort", [.word c!" " (w c!"-u")]⟩ [(c!" ", c!" ", ⟨w c!"wc", []⟩)] [(c!" ", .seq, c!" ", ⟨[], some (⟨w c!"z", []⟩, [])⟩)] []

theorem exLast_fit : FitLine E0 exLast := by
  refine ⟨?_, ?_, ?_⟩
  · intro s hs
    have : s ∈ exLast.simples := hs
    simp only [exLast, fromLast, Line.simples, Line.cmds, Cmd.simples, List.map_cons, List.map_nil, List.flatMap_cons,
      List.flatMap_nil, List.append_nil, List.nil_append, List.cons_append, List.mem_cons,
      List.not_mem_nil, or_false] at hs
    rcases hs with rfl | rfl | rfl | rfl <;>
    · refine ⟨⟨by decide, by decide⟩, rfl, by decide, ?_, ?_⟩
      · intro sep w hm
        simp at hm
        try (rcases hm with ⟨-, rfl⟩; exact ⟨by decide, by decide⟩)
      · intro sep k gap w hm
        simp at hm
  · intro k; cases k <;> decide
  · decide

example : ∃ js id', lineJobs E0 W0 0 (smartPipe c!"| sort -u | wc ; z") = some (js, id') ∧
    RealizesAll js (exLast.mapW (Word.fill (valOf E0))).want :=
  C129_line_partial (by decide) exLast_fit (fun s hs => ⟨.inr rfl, by revert s; decide⟩) (by decide) (by decide) (by decide) 0

-- the pipeline has three programs
example : ((exLast.mapW (Word.fill (valOf E0))).want.map (·.stages)) =
    [[[c!"__dsh_print_last_stdout"], [c!"sort", c!"-u"], [c!"wc"]], [[c!"z"]]] := by decide

end Dsh.Eval
