import Verif.Fs.ServePageProps
/-!
`gpr` (C213): dsh-builtin/src/gpr.rs, dsh-builtin/src/github_client.rs.

`gh` is a function of its arguments; of `gh pr list --limit 100` is used that it gives the first 100 requests of the
repository.  The list of `skim` is a function from what is offered to what is chosen.  The option parser is the one of
`Verif/Fs/ServePage.lean` with another table.
-/
namespace Dsh.Gpr
open Dsh.ServePage (Opt Fail Word Found more keep)

abbrev Str := List Char

/-! ### Options -/

/-- The options (gpr.rs:25-32). -/
def opts : List Opt :=
  [⟨some 'c', c!"create", false⟩, ⟨some 'w', c!"web", false⟩, ⟨some 't', c!"title", true⟩, ⟨some 'b', c!"body", true⟩,
   ⟨some 'B', c!"base", true⟩, ⟨some 'd', c!"draft", false⟩, ⟨some 'h', c!"help", false⟩]

/-- An option by its letter or name (crate getopts). -/
def find (n : Str) : Option Opt := opts.find? fun o => o.long = n || o.short.any (fun c => n = [c])

/-- Letters behind one dash (crate getopts). -/
def cluster : Str → List (Str × Option Str) → Word
  | [], l => .given l
  | c :: cs, l =>
    match find [c] with
    | none => .bad (.unknown [c])
    | some o =>
      if o.arg then (if cs.isEmpty then .wants l o.long [c] else .given (l ++ [(o.long, some cs)]))
      else cluster cs (l ++ [(o.long, none)])

/-- A name behind two dashes, and the value behind `=` (crate getopts). -/
def long (n : Str) (v : Option Str) : Word :=
  match find n with
  | none => .bad (.unknown n)
  | some o =>
    if o.arg then
      match v with
      | some v => .given [(o.long, some v)]
      | none => .wants [] o.long n
    else if v.isSome then .bad (.unexpected n)
    else .given [(o.long, none)]

/-- One argument (crate getopts). -/
def word : Str → Word
  | ['-', '-'] => .stop
  | '-' :: '-' :: t => long (t.takeWhile (· != '=')) (if t.contains '=' then some ((t.dropWhile (· != '=')).drop 1) else none)
  | '-' :: c :: cs => cluster (c :: cs) []
  | _ => .free

/-- All arguments (crate getopts). -/
def scan : List Str → Except Fail Found
  | [] => .ok ([], [])
  | a :: as =>
    match word a with
    | .free => keep a (scan as)
    | .stop => .ok ([], as)
    | .bad f => .error f
    | .given l => more l (scan as)
    | .wants l n shown =>
      match as with
      | [] => .error (.missing shown)
      | v :: as => more (l ++ [(n, some v)]) (scan as)

/-- `Options::parse` (gpr.rs:34): no option twice. -/
def getopts (args : List Str) : Except Fail Found :=
  match scan args with
  | .error e => .error e
  | .ok (o, f) =>
    match opts.find? fun p => decide (2 ≤ (o.filter (·.1 = p.long)).length) with
    | some p => .error (.twice p.long)
    | none => .ok (o, f)

/-- `opt_present`. -/
def has (o : List (Str × Option Str)) (n : Str) : Bool := o.any (·.1 = n)

/-- `opt_str`. -/
def val (o : List (Str × Option Str)) (n : Str) : Option Str := (o.find? (·.1 = n)).bind (·.2)

/-! ### The command -/

/-- `PrInfo` (github_client.rs:8-17). -/
structure Pr where
  number : Nat
  title : Str
  login : Str
  branch : Str
  state : Str
  draft : Bool
deriving DecidableEq

/-- `display_text` (github_client.rs:25-42). -/
def Pr.text (p : Pr) : Str :=
  let icon :=
    if p.state = c!"OPEN" then (if p.draft then c!"Draft" else c!"Open")
    else if p.state = c!"MERGED" then c!"Merged"
    else if p.state = c!"CLOSED" then c!"Closed"
    else p.state
  '#' :: Nat.toDigits 10 p.number ++ ' ' :: p.title ++ c!" (" ++ p.branch ++ c!") [" ++ icon ++ c!"] @" ++ p.login

/-- What surrounds the command: a repository, `gh`, what a run of `gh` gives (`none`: it does not start; whether it succeeds,
its output, its errors), the requests of the repository as `gh` lists them (`none`: it fails), the line typed (`none`: cannot be
read), the choice. -/
structure World where
  repo : Bool
  installed : Bool
  gh : List Str → Option (Bool × Str × Str)
  requests : Option (List Pr)
  line : Option Str
  pick : List Pr → Option Pr

/-- What happened: the status, the changing runs of `gh`, the output. -/
structure Res where
  status : Nat
  runs : List (List Str) := []
  out : List Str := []
deriving DecidableEq

/-- The title (gpr.rs:95-108); `none` if it cannot be read. -/
def title (w : World) (o : List (Str × Option Str)) : Option Str :=
  match val o c!"title" with
  | some t => some t
  | none => w.line.map trim

/-- The arguments of `gh pr create` (gpr.rs:129-149). -/
def createArgs (o : List (Str × Option Str)) (t : Str) : List Str :=
  [c!"pr", c!"create", c!"--title", t] ++
    (match val o c!"body" with | some b => [c!"--body", b] | none => []) ++
    (match val o c!"base" with | some b => [c!"--base", b] | none => []) ++
    (if has o c!"draft" then [c!"--draft"] else [])

/-- `create_pr` (gpr.rs:91-176). -/
def create (w : World) (o : List (Str × Option Str)) : Res :=
  match title w o with
  | none => { status := 1 }
  | some t =>
    if t = [] then { status := 1 }
    else
      let a := createArgs o t
      match w.gh a with
      | none => { status := 1, runs := [a], out := [c!"Creating PR..."] }
      | some (false, _, _) => { status := 1, runs := [a], out := [c!"Creating PR..."] }
      | some (true, out, err) =>
        { status := 0, runs := [a], out := [c!"Creating PR..."] ++
            (if out ≠ [] then [c!"PR created: " ++ trim out] else if err ≠ [] then [trim err] else []) }

/-- `open_pr_list_web` (gpr.rs:74-88). -/
def web (w : World) : Res :=
  let a := [c!"pr", c!"list", c!"--web"]
  match w.gh a with
  | some (true, _, _) => { status := 0, runs := [a] }
  | _ => { status := 1, runs := [a] }

/-- `get_prs` (github_client.rs:66-88). -/
def getPrs (w : World) : Option (List Pr) := w.requests.map (·.take 100)

/-- What is offered (gpr.rs:219-225). -/
def offered (l : List Pr) : List Pr := sortBy (fun a b => decide (b.number ≤ a.number)) l

/-- `checkout_pr` (gpr.rs:179-267). -/
def checkout (w : World) : Res :=
  match getPrs w with
  | none => { status := 1 }
  | some l =>
    if l = [] then { status := 1 }
    else
      match w.pick (offered l) with
      | none => { status := 0 }
      | some p =>
        let n := Nat.toDigits 10 p.number
        let a := [c!"pr", c!"checkout", n]
        let first := c!"Checking out PR #" ++ n ++ c!"..."
        match w.gh a with
        | some (true, _, err) => { status := 0, runs := [a], out := [first, trim err] }
        | _ => { status := 1, runs := [a], out := [first] }

/-- `command` (gpr.rs:23-71). -/
def command (w : World) (argv : List Str) : Res :=
  match getopts argv with
  | .error _ => { status := 1 }
  | .ok (o, _) =>
    if has o c!"help" then { status := 0, out := [c!"usage"] }
    else if !w.repo then { status := 1 }
    else if !w.installed then { status := 1 }
    else if has o c!"web" then web w
    else if has o c!"create" then create w o
    else checkout w

/-! ### Spec -/

/-- What the user wants of a new request. -/
structure Wish where
  title : Option Str
  body : Option Str
  base : Option Str
  draft : Bool
deriving DecidableEq

/-- How it is typed. -/
def Wish.args (a : Wish) : List Str :=
  [c!"gpr", c!"-c"] ++ (a.title.toList.map fun t => [c!"-t", t]).flatten ++ (a.body.toList.map fun t => [c!"-b", t]).flatten ++
    (a.base.toList.map fun t => [c!"-B", t]).flatten ++ (if a.draft then [c!"-d"] else [])

/-- How `gh` understands its options: each value belongs to the name in front. -/
def understand : List Str → Option Wish
  | [] => some ⟨none, none, none, false⟩
  | a :: r =>
    if a = c!"--draft" then (understand r).map fun w => { w with draft := true }
    else match r with
      | [] => none
      | v :: r =>
        if a = c!"--title" then (understand r).map fun w => { w with title := some v }
        else if a = c!"--body" then (understand r).map fun w => { w with body := some v }
        else if a = c!"--base" then (understand r).map fun w => { w with base := some v }
        else none

/-- `gh` is told to make this request. -/
def Told (runs : List (List Str)) (a : Wish) : Prop := ∃ r, runs = [c!"pr" :: c!"create" :: r] ∧ understand r = some a

/-- The command can be used here. -/
def Ready (w : World) : Prop := w.repo = true ∧ w.installed = true

/-! ### Lemmas -/

/-- The options of a wish as the parser gives them. -/
def Wish.found (a : Wish) : List (Str × Option Str) :=
  [(c!"create", none)] ++ (a.title.toList.map fun t => (c!"title", some t)) ++ (a.body.toList.map fun t => (c!"body", some t)) ++
    (a.base.toList.map fun t => (c!"base", some t)) ++ (if a.draft then [(c!"draft", none)] else [])

theorem scan_wants {a n s : Str} (h : word a = .wants [] n s) (v : Str) (r : List Str) :
    scan (a :: v :: r) = more [(n, some v)] (scan r) := by
  rw [scan, h]; rfl

theorem scan_wish (a : Wish) : scan a.args = .ok (a.found, [c!"gpr"]) := by
  obtain ⟨t, b, s, d⟩ := a
  have w0 : word c!"gpr" = .free := by decide
  have w1 : word c!"-c" = .given [(c!"create", none)] := by decide
  have w2 : word c!"-t" = .wants [] c!"title" c!"t" := by decide
  have w3 : word c!"-b" = .wants [] c!"body" c!"b" := by decide
  have w4 : word c!"-B" = .wants [] c!"base" c!"B" := by decide
  have w5 : scan [c!"-d"] = .ok ([(c!"draft", none)], []) := rfl
  have w6 : scan [] = .ok ([], []) := rfl
  cases t <;> cases b <;> cases s <;> cases d <;>
    simp [Wish.args, Wish.found, scan.eq_def (c!"gpr" :: _), scan.eq_def (c!"-c" :: _), w0, w1, w5, w6, scan_wants w2, scan_wants w3,
      scan_wants w4, more, keep]

theorem getopts_wish (a : Wish) : getopts a.args = .ok (a.found, [c!"gpr"]) := by
  unfold getopts
  rw [scan_wish]
  have : opts.find? (fun p => decide (2 ≤ (a.found.filter (·.1 = p.long)).length)) = none := by
    obtain ⟨t, b, s, d⟩ := a
    cases t <;> cases b <;> cases s <;> cases d <;> rfl
  simp only [this]

theorem command_wish (w : World) (a : Wish) (hr : Ready w) : command w a.args = create w a.found := by
  have h : has a.found c!"help" = false ∧ has a.found c!"web" = false ∧ has a.found c!"create" = true := by
    obtain ⟨t, b, s, d⟩ := a
    cases t <;> cases b <;> cases s <;> cases d <;> exact ⟨rfl, rfl, rfl⟩
  simp [command, getopts_wish, h, hr.1, hr.2]

theorem vals (a : Wish) : val a.found c!"title" = a.title ∧ val a.found c!"body" = a.body ∧ val a.found c!"base" = a.base ∧
    has a.found c!"draft" = a.draft := by
  obtain ⟨t, b, s, d⟩ := a
  cases t <;> cases b <;> cases s <;> cases d <;> exact ⟨rfl, rfl, rfl, rfl⟩

theorem told_create (w : World) (a : Wish) (t : Str) (ht : title w a.found = some t) (hne : t ≠ []) :
    Told (create w a.found).runs { a with title := some t } ∧
      ((create w a.found).status = 0 ↔ ∃ r x, (create w a.found).runs = [r] ∧ w.gh r = some (true, x)) := by
  have hu : understand ((createArgs a.found t).drop 2) = some { a with title := some t } := by
    obtain ⟨-, h2, h3, h4⟩ := vals a
    rw [createArgs, h2, h3, h4]
    obtain ⟨t', b, s, d⟩ := a
    cases b <;> cases s <;> cases d <;> rfl
  have hr : (create w a.found).runs = [createArgs a.found t] := by
    simp only [create, ht, if_neg hne]
    split <;> rfl
  refine ⟨⟨_, by rw [hr]; rfl, hu⟩, ?_⟩
  rw [hr]
  simp only [create, ht, if_neg hne]
  split
  · rename_i h; simp [h]
  · rename_i h; simp [h]
  · rename_i h; simp [h]

/-! ### C213 -/

/-- **C213, creating.** With a title, whatever it and the others are, `gh` is told to make exactly the request wanted, once, and
the status is 0 exactly if it succeeds. -/
theorem C213_create_partial (w : World) (a : Wish) (t : Str) (hr : Ready w) (ht : a.title = some t) (hne : t ≠ []) :
    Told (command w a.args).runs a ∧
      ((command w a.args).status = 0 ↔ ∃ r x, (command w a.args).runs = [r] ∧ w.gh r = some (true, x)) := by
  have := told_create w a t (by rw [title, (vals a).1, ht]) hne
  rw [command_wish w a hr]
  rwa [← ht] at this

/-- **C213, asking.** Without a title the line typed is the title, without the blanks around it. -/
theorem C213_asked_partial (w : World) (a : Wish) (s : Str) (hr : Ready w) (ht : a.title = none) (hl : w.line = some s)
    (hne : trim s ≠ []) : Told (command w a.args).runs { a with title := some (trim s) } := by
  rw [command_wish w a hr]
  exact (told_create w a (trim s) (by rw [title, (vals a).1, ht, hl]; rfl) hne).1

/-- **C213, no title.** Without any title nothing is made and the status tells. -/
theorem C213_untitled_partial (w : World) (a : Wish) (hr : Ready w)
    (ht : a.title = some [] ∨ (a.title = none ∧ ∀ s, w.line = some s → trim s = [])) :
    (command w a.args).runs = [] ∧ (command w a.args).status = 1 := by
  rw [command_wish w a hr]
  rcases ht with ht | ⟨ht, hl⟩
  · simp [create, title, (vals a).1, ht]
  · cases h : w.line with
    | none => simp [create, title, (vals a).1, ht, h]
    | some s => simp [create, title, (vals a).1, ht, h, hl s h]

/-- **C213, not here.** Without a repository or without `gh` nothing is run, whatever the arguments. -/
theorem C213_outside_partial (w : World) (argv : List Str) (hr : ¬ Ready w) : (command w argv).runs = [] := by
  unfold command
  split
  · rfl
  · split
    · rfl
    · cases h1 : w.repo <;> cases h2 : w.installed <;> simp_all [Ready]

/-- **C213, the list.** Every request of the first hundred is offered once, later numbers first. -/
theorem C213_offered_partial (l : List Pr) : (offered l).Perm l ∧ (offered l).Pairwise (fun a b => b.number ≤ a.number) := by
  refine ⟨sortBy_perm _ _, ?_⟩
  have := sortBy_sorted (fun a b : Pr => decide (b.number ≤ a.number)) (by simp; omega) (by simp; omega) l
  exact this.imp (by simp)

theorem digits_inj {n m : Nat} (h : Nat.toDigits 10 n = Nat.toDigits 10 m) : n = m := by
  have := congrArg (fun l => Nat.ofDigitChars 10 l 0) h
  simpa using this

/-- **C213, lines of the list.** Requests with different numbers are different lines. -/
theorem C213_lines_partial (p q : Pr) (h : p.text = q.text) : p.number = q.number := by
  have key : ∀ (a b x y : Str), ' ' ∉ a → ' ' ∉ b → a ++ ' ' :: x = b ++ ' ' :: y → a = b := by
    intro a
    induction a with
    | nil =>
      intro b x y _ hb h
      cases b with
      | nil => rfl
      | cons c b => simp at h; simp [← h.1] at hb
    | cons c a ih =>
      intro b x y ha hb h
      cases b with
      | nil => simp at h; simp [h.1] at ha
      | cons d b =>
        simp only [List.cons_append, List.cons.injEq] at h
        rw [h.1, ih b x y (by simp_all) (by simp_all) h.2]
  simp only [Pr.text, List.cons_append, List.append_assoc, List.cons.injEq, true_and] at h
  exact digits_inj (key _ _ _ _ (Prm.toDigits_no _ _ (by decide)) (Prm.toDigits_no _ _ (by decide)) h)

/-- **C213, checking out.** The request chosen is the one `gh` is told to check out, and the status tells whether it did. -/
theorem C213_checkout_partial (w : World) (l : List Pr) (p : Pr) (hr : Ready w) (hl : w.requests = some l)
    (hne : l ≠ []) (hp : w.pick (offered (l.take 100)) = some p) :
    (command w [c!"gpr"]).runs = [[c!"pr", c!"checkout", Nat.toDigits 10 p.number]] ∧
      ((command w [c!"gpr"]).status = 0 ↔ ∃ x, w.gh [c!"pr", c!"checkout", Nat.toDigits 10 p.number] = some (true, x)) := by
  have hg : getopts [c!"gpr"] = .ok ([], [c!"gpr"]) := rfl
  have ht : l.take 100 ≠ [] := by simpa using hne
  simp only [command, hg, hr.1, hr.2, has, List.any_nil, checkout, getPrs, hl, Option.map_some, if_neg ht, hp]
  simp only [Bool.false_eq_true, if_false, Bool.not_true]
  split
  · rename_i h; exact ⟨rfl, by simp [h]⟩
  · rename_i h
    refine ⟨rfl, by simp only [Nat.one_ne_zero, false_iff]; rintro ⟨⟨x, y⟩, hx⟩; exact h x y hx⟩

/-- **C213 fails: `-w` with `-c`.** No request is made, and the status is that of the browser. -/
theorem C213_web_violated (w : World) (a : Wish) (hr : Ready w) (x : Str × Str)
    (hw : w.gh [c!"pr", c!"list", c!"--web"] = some (true, x)) :
    (command w (c!"gpr" :: c!"-w" :: a.args.tail)).status = 0 ∧
      ∀ b, ¬ Told (command w (c!"gpr" :: c!"-w" :: a.args.tail)).runs b := by
  have hs : scan (c!"gpr" :: c!"-w" :: a.args.tail) = .ok ((c!"web", none) :: a.found, [c!"gpr"]) := by
    have h := scan_wish a
    have w0 : word c!"gpr" = .free := by decide
    have w1 : word c!"-w" = .given [(c!"web", none)] := by decide
    have ha : a.args = c!"gpr" :: a.args.tail := rfl
    rw [ha, scan.eq_def] at h
    simp only [w0] at h
    rw [scan.eq_def]
    simp only [w0]
    rw [scan.eq_def]
    simp only [w1]
    cases ht : scan a.args.tail with
    | error e => rw [ht] at h; cases h
    | ok r =>
      obtain ⟨o, f⟩ := r
      rw [ht] at h
      simp only [keep, Except.ok.injEq, Prod.mk.injEq, List.cons.injEq, true_and] at h
      simp [more, keep, h.1, h.2]
  have hg : getopts (c!"gpr" :: c!"-w" :: a.args.tail) = .ok ((c!"web", none) :: a.found, [c!"gpr"]) := by
    unfold getopts
    rw [hs]
    have : opts.find? (fun p => decide (2 ≤ (((c!"web", none) :: a.found).filter (·.1 = p.long)).length)) = none := by
      obtain ⟨t, b, s, d⟩ := a
      cases t <;> cases b <;> cases s <;> cases d <;> rfl
    simp only [this]
  have h : has ((c!"web", none) :: a.found) c!"help" = false ∧ has ((c!"web", none) :: a.found) c!"web" = true := by
    obtain ⟨t, b, s, d⟩ := a
    cases t <;> cases b <;> cases s <;> cases d <;> exact ⟨rfl, rfl⟩
  have hc : command w (c!"gpr" :: c!"-w" :: a.args.tail) = web w := by simp [command, hg, h, hr.1, hr.2]
  have he : web w = { status := 0, runs := [[c!"pr", c!"list", c!"--web"]] } := by simp only [web, hw]
  rw [hc, he]
  refine ⟨rfl, ?_⟩
  rintro b ⟨r, hr, -⟩
  simp at hr

/-- **C213 fails: options without `-c`.** They are taken and mean nothing: the list opens as without them. -/
theorem C213_unused_violated (w : World) (a : Wish) :
    command w (c!"gpr" :: a.args.drop 2) = command w [c!"gpr"] := by
  have w0 : word c!"gpr" = .free := by decide
  have w1 : word c!"-c" = .given [(c!"create", none)] := by decide
  have hs : scan (c!"gpr" :: a.args.drop 2) = .ok (a.found.tail, [c!"gpr"]) := by
    have h := scan_wish a
    have ha : a.args = c!"gpr" :: c!"-c" :: a.args.drop 2 := rfl
    rw [ha, scan.eq_def] at h
    simp only [w0] at h
    rw [scan.eq_def] at h
    simp only [w1] at h
    rw [scan.eq_def]
    simp only [w0]
    cases ht : scan (a.args.drop 2) with
    | error e => rw [ht] at h; cases h
    | ok r =>
      obtain ⟨o, f⟩ := r
      rw [ht] at h
      simp only [keep, more, Except.ok.injEq, Prod.mk.injEq, List.cons.injEq, true_and] at h
      simp [keep, ← h.1, h.2]
  have hg : getopts (c!"gpr" :: a.args.drop 2) = .ok (a.found.tail, [c!"gpr"]) := by
    unfold getopts
    rw [hs]
    have : opts.find? (fun p => decide (2 ≤ (a.found.tail.filter (·.1 = p.long)).length)) = none := by
      obtain ⟨t, b, s, d⟩ := a
      cases t <;> cases b <;> cases s <;> cases d <;> rfl
    simp only [this]
  have hg' : getopts [c!"gpr"] = .ok ([], [c!"gpr"]) := rfl
  have h : has a.found.tail c!"help" = false ∧ has a.found.tail c!"web" = false ∧ has a.found.tail c!"create" = false := by
    obtain ⟨t, b, s, d⟩ := a
    cases t <;> cases b <;> cases s <;> cases d <;> exact ⟨rfl, rfl, rfl⟩
  simp only [command, hg, hg', h]
  rfl

/-- **C213 fails: a number.** `gpr 123` does not check out 123, it opens the list like `gpr`. -/
theorem C213_number_violated (w : World) (n : Nat) : command w [c!"gpr", Nat.toDigits 10 n] = command w [c!"gpr"] := by
  have hw : word (Nat.toDigits 10 n) = .free := by
    have hd := Prm.toDigits_no n '-' (by decide)
    generalize Nat.toDigits 10 n = s at hd
    unfold word
    split <;> simp_all
  have hg : getopts [c!"gpr", Nat.toDigits 10 n] = .ok ([], [c!"gpr", Nat.toDigits 10 n]) := by
    have h0 : word c!"gpr" = .free := by decide
    simp only [getopts, scan, h0, hw, keep]
    rfl
  have hg' : getopts [c!"gpr"] = .ok ([], [c!"gpr"]) := rfl
  simp only [command, hg, hg']

/-- **C213 fails: blank titles.** Behind `-t` blanks are a title; typed when asked for they are none. -/
theorem C213_blank_violated (w : World) (s : Str) (hr : Ready w) (hne : s ≠ []) (hb : trim s = []) (hl : w.line = some s) :
    Told (command w (Wish.args ⟨some s, none, none, false⟩)).runs ⟨some s, none, none, false⟩ ∧
      (command w (Wish.args ⟨none, none, none, false⟩)).runs = [] :=
  ⟨(C213_create_partial w _ s hr rfl hne).1,
    (C213_untitled_partial w _ hr (.inr ⟨rfl, fun s' h => by rw [hl] at h; cases h; exact hb⟩)).1⟩

/-- **C213 fails: nothing chosen.** When the list is left without a choice, nothing is checked out and the status is 0. -/
theorem C213_abort_violated (w : World) (l : List Pr) (hr : Ready w) (hl : w.requests = some l) (hne : l ≠ [])
    (hp : w.pick (offered (l.take 100)) = none) : command w [c!"gpr"] = { status := 0 } := by
  have hg : getopts [c!"gpr"] = .ok ([], [c!"gpr"]) := rfl
  have ht : l.take 100 ≠ [] := by simpa using hne
  simp only [command, hg, hr.1, hr.2, has, List.any_nil, checkout, getPrs, hl, Option.map_some, if_neg ht, hp]
  rfl

/-- **C213 fails: many requests.** A request behind the first hundred cannot be checked out, whatever is chosen from the list. -/
theorem C213_hundred_violated (w : World) (l : List Pr) (q : Pr) (argv : List Str) (hl : w.requests = some l)
    (hq : ∀ p ∈ l.take 100, p.number ≠ q.number) (hp : ∀ os p, w.pick os = some p → p ∈ os) :
    [c!"pr", c!"checkout", Nat.toDigits 10 q.number] ∉ (command w argv).runs := by
  have hc : [c!"pr", c!"checkout", Nat.toDigits 10 q.number] ∉ (checkout w).runs := by
    simp only [checkout, getPrs, hl, Option.map_some]
    split
    · simp
    · split
      · simp
      · rename_i p hpk
        have hm : p ∈ l.take 100 := (C213_offered_partial _).1.mem_iff.1 (hp _ _ hpk)
        have : Nat.toDigits 10 q.number ≠ Nat.toDigits 10 p.number := fun h => hq p hm (digits_inj h).symm
        split <;> simp [this]
  have hw : [c!"pr", c!"checkout", Nat.toDigits 10 q.number] ∉ (web w).runs := by
    simp only [web]
    split <;> simp
  have hn : ∀ o, [c!"pr", c!"checkout", Nat.toDigits 10 q.number] ∉ (create w o).runs := by
    intro o
    simp only [create]
    split
    · simp
    · split
      · simp
      · split <;> simp [createArgs]
  unfold command
  split
  · simp
  · split
    · simp
    · split
      · simp
      · split
        · simp
        · split
          · exact hw
          · split
            · exact hn _
            · exact hc

/-! ### Examples -/

def demo : World where
  repo := true
  installed := true
  gh := fun _ => some (true, c!"https://host/7\n", [])
  requests := some [⟨3, c!"a", c!"x", c!"b", c!"OPEN", true⟩, ⟨12, c!"c", c!"y", c!"d", c!"MERGED", false⟩]
  line := some c!"  New title \n"
  pick := List.head?

theorem create_run : command demo [c!"gpr", c!"-c", c!"-t", c!"-x", c!"-d"] =
    { status := 0, runs := [[c!"pr", c!"create", c!"--title", c!"-x", c!"--draft"]],
      out := [c!"Creating PR...", c!"PR created: https://host/7"] } := by decide +kernel

theorem asked_run : (command demo [c!"gpr", c!"-c"]).runs = [[c!"pr", c!"create", c!"--title", c!"New title"]] := by decide +kernel

theorem checkout_run : (command demo [c!"gpr"]).runs = [[c!"pr", c!"checkout", c!"12"]] := by decide +kernel

theorem text_run : (Pr.text ⟨3, c!"a", c!"x", c!"b", c!"OPEN", true⟩) = c!"#3 a (b) [Draft] @x" := by decide +kernel

end Dsh.Gpr
