import Verif.Env.Direnv
import Verif.Hist.Fish

/-!
# Notebooks: recording, reading back, playing

`dsh-types/src/notebook.rs`, `dsh-builtin/src/notebook_play.rs`, `dsh/src/shell/mod.rs: eval_str`,
`dsh/src/proxy/mod.rs: dispatch`, `dsh/src/proxy/external.rs: execute`.

Simplified: of CommonMark (the library `pulldown_cmark`) only fenced code blocks with backquotes on the
top level are modelled, line by line; other text is text between blocks (indented code, lists, quotes,
HTML and fences with `~` are not modelled, and are never written by the shell).  Files are written
without errors.
-/

namespace Dsh.Note
open Env (splitOn splitOn_append splitOn_ne_nil)

abbrev Str := List Char

/-! ## Writing -/

/-- A recorded command or output. -/
inductive Item
  | code (c : Str)
  | output (o : Str)
  deriving DecidableEq, Repr

/-- The text added to the file by `append_code` (notebook.rs:150) and `append_output` (notebook.rs:168). -/
def Item.text : Item → Str
  | .code c => c!"\n```bash\n" ++ trim c ++ c!"\n```\n"
  | .output o => c!"\n```text\n" ++ trimEnd o ++ c!"\n```\n"

/-- The file after recording. -/
def record (file : Str) (l : List Item) : Str := file ++ l.flatMap Item.text

/-! ## Reading -/

/-- The fence that begins a block: its number of backquotes and the info string.  At most three blanks
before it, no backquote behind. -/
def opening (l : Str) : Option (Nat × Str) :=
  let r := l.dropWhile (· = ' ')
  let n := (r.takeWhile (· = '`')).length
  let info := r.dropWhile (· = '`')
  if (l.takeWhile (· = ' ')).length ≤ 3 ∧ 3 ≤ n ∧ '`' ∉ info then some (n, trim info) else none

/-- The fence that ends a block begun with `n` backquotes. -/
def closes (n : Nat) (l : Str) : Bool :=
  let r := l.dropWhile (· = ' ')
  decide ((l.takeWhile (· = ' ')).length ≤ 3) && decide (n ≤ (r.takeWhile (· = '`')).length) &&
    (r.dropWhile (· = '`')).all (· = ' ')

/-- `Block` (notebook.rs:15-18) of a code block: `BlockKind::Output` if the info is `text`. -/
structure Block where
  info : Str
  content : Str
  deriving DecidableEq, Repr

/-- The code blocks of the lines of a file (notebook.rs:63-131).  The open block is kept with its lines;
at the end of the file it ends too. -/
def blocksGo : Option (Nat × Str × List Str) → List Str → List Block
  | none, [] => []
  | some (_, info, ls), [] => [⟨info, joinWith c!"\n" ls⟩]
  | none, l :: ls =>
    match opening l with
    | some (n, info) => blocksGo (some (n, info, [l])) ls
    | none => blocksGo none ls
  | some (n, info, body), l :: ls =>
    if closes n l then ⟨info, joinWith c!"\n" (body ++ [l])⟩ :: blocksGo none ls
    else blocksGo (some (n, info, body ++ [l])) ls

def load (file : Str) : List Block := blocksGo none (splitOn '\n' file)

/-- `str::lines` -/
def lines (s : Str) : List Str :=
  let l := splitOn '\n' s
  (if l.getLast? = some [] then l.dropLast else l).map fun x => if x.getLast? = some '\r' then x.dropLast else x

/-- `raw_content` of a code block (notebook.rs:21-35). -/
def rawContent (content : Str) : Str :=
  let ls := lines (trim content)
  if 2 ≤ ls.length ∧ ls.head?.map (c!"```".isPrefixOf ·) = some true ∧ ls.getLast?.map (c!"```".isPrefixOf ·) = some true then
    joinWith c!"\n" ((ls.drop 1).dropLast)
  else content

/-- What is read back: commands, outputs, and blocks in other languages. -/
inductive Read
  | code (lang : Str) (c : Str)
  | output (o : Str)
  deriving DecidableEq, Repr

def Block.read (b : Block) : Read :=
  if b.info = c!"text" then .output (rawContent b.content) else .code b.info (rawContent b.content)

def readBack (file : Str) : List Read := (load file).map Block.read

/-! ## C45: reading back what was recorded -/

/-- What recording an item should be read back as. -/
def Item.expected : Item → Read
  | .code c => .code c!"bash" (trim c)
  | .output o => .output (trimEnd o)

/-- The text that is recorded. -/
def Item.body : Item → Str
  | .code c => trim c
  | .output o => trimEnd o

/-- A line of backquotes only, at least three, with at most three blanks before them. -/
def FenceLine (l : Str) : Prop := ∃ a n b, a ≤ 3 ∧ 3 ≤ n ∧
  l = List.replicate a ' ' ++ List.replicate n '`' ++ List.replicate b ' '

/-- The recorded text has no fence line and no carriage return. -/
def Item.Plain (i : Item) : Prop := '\r' ∉ i.body ∧ ∀ l ∈ splitOn '\n' i.body, ¬ FenceLine l

theorem takeWhile_eq_replicate (c : Char) (l : Str) :
    l.takeWhile (· = c) = List.replicate (l.takeWhile (· = c)).length c := by
  induction l with
  | nil => rfl
  | cons x l ih =>
    simp only [List.takeWhile_cons]
    by_cases h : x = c
    · subst h
      simp only [decide_true, ↓reduceIte, List.length_cons, List.replicate_succ]
      exact congrArg _ ih
    · simp [h]

theorem all_eq_replicate (c : Char) (l : Str) (h : l.all (· = c) = true) : l = List.replicate l.length c := by
  induction l with
  | nil => rfl
  | cons x l ih =>
    simp only [List.all_cons, Bool.and_eq_true, decide_eq_true_eq] at h
    rw [List.length_cons, List.replicate_succ, ← ih h.2, h.1]

theorem takeWhile_replicate (c d : Char) (h : c ≠ d) (n : Nat) (r : Str) (hr : r.head? ≠ some c) :
    (List.replicate n c ++ r).takeWhile (· = c) = List.replicate n c ∧ (List.replicate n c ++ r).dropWhile (· = c) = r := by
  induction n with
  | zero =>
    cases r with
    | nil => exact ⟨rfl, rfl⟩
    | cons x r =>
      have : x ≠ c := fun h => hr (by simp [h])
      simp [this]
  | succ n ih => simp [List.replicate_succ, ih]

/-- A fence closes exactly if it is a fence line. -/
theorem closes_iff (l : Str) : closes 3 l = true ↔ FenceLine l := by
  constructor
  · intro h
    simp only [closes, Bool.and_eq_true, decide_eq_true_eq] at h
    obtain ⟨⟨h1, h2⟩, h3⟩ := h
    refine ⟨_, _, ((l.dropWhile (· = ' ')).dropWhile (· = '`')).length, h1, h2, ?_⟩
    have e1 : l = l.takeWhile (· = ' ') ++ l.dropWhile (· = ' ') := (List.takeWhile_append_dropWhile).symm
    have e2 := (List.takeWhile_append_dropWhile (p := (· = '`')) (l := l.dropWhile (· = ' '))).symm
    rw [← takeWhile_eq_replicate, ← takeWhile_eq_replicate, ← all_eq_replicate ' ' _ h3, List.append_assoc, ← e2]
    exact e1
  · rintro ⟨a, n, b, ha, hn, rfl⟩
    obtain ⟨n, rfl⟩ : ∃ m, n = m + 1 := ⟨n - 1, by omega⟩
    obtain ⟨e1, e2⟩ := takeWhile_replicate ' ' '`' (by decide) a (List.replicate (n + 1) '`' ++ List.replicate b ' ')
      (by simp [List.replicate_succ])
    obtain ⟨e3, e4⟩ := takeWhile_replicate '`' ' ' (by decide) (n + 1) (List.replicate b ' ') (by cases b <;> simp [List.replicate_succ])
    simp only [closes]
    rw [List.append_assoc, e1, e2, e3, e4]
    simp [ha]; omega

theorem splitOn_append' {c : Char} : ∀ (a b : Str), splitOn c (a ++ c :: b) = splitOn c a ++ splitOn c b
  | [], b => by simp [splitOn]
  | x :: a, b => by
    have ih := splitOn_append' (c := c) a b
    rw [List.cons_append, splitOn, splitOn]
    by_cases h : x = c
    · rw [if_pos h, if_pos h, ih]; rfl
    · rw [if_neg h, if_neg h, ih]
      obtain ⟨w, ws, hw⟩ := List.exists_cons_of_ne_nil (splitOn_ne_nil c a)
      rw [hw]; rfl

theorem splitOn_plain {c : Char} : ∀ (a : Str), c ∉ a → splitOn c a = [a]
  | [], _ => rfl
  | x :: a, h => by
    simp only [List.mem_cons, not_or] at h
    rw [splitOn, if_neg (fun e => h.1 e.symm), splitOn_plain a h.2]

theorem joinWith_splitOn (c : Char) : ∀ (a : Str), joinWith [c] (splitOn c a) = a
  | [] => rfl
  | x :: a => by
    have ih := joinWith_splitOn c a
    obtain ⟨w, ws, hw⟩ := List.exists_cons_of_ne_nil (splitOn_ne_nil c a)
    rw [splitOn]
    rw [hw] at ih ⊢
    by_cases h : x = c
    · rw [if_pos h]
      subst h
      show joinWith [x] ([] :: w :: ws) = _
      rw [← ih]; simp [joinWith]
    · rw [if_neg h]
      cases ws with
      | nil => simpa [joinWith] using ih
      | cons v ws => simpa [joinWith] using ih

theorem not_mem_splitOn (c : Char) : ∀ (a : Str), ∀ l ∈ splitOn c a, c ∉ l
  | [] => by simp [splitOn]
  | x :: a => by
    have ih := not_mem_splitOn c a
    intro l hl
    rw [splitOn] at hl
    by_cases h : x = c
    · rw [if_pos h] at hl
      rcases List.mem_cons.1 hl with rfl | hl
      · simp
      · exact ih l hl
    · rw [if_neg h] at hl
      obtain ⟨w, ws, hw⟩ := List.exists_cons_of_ne_nil (splitOn_ne_nil c a)
      rw [hw] at hl ih
      rcases List.mem_cons.1 hl with rfl | hl
      · simp only [List.mem_cons, not_or]; exact ⟨fun e => h e.symm, ih w (by simp)⟩
      · exact ih l (by simp [hl])

theorem mem_splitOn {c x : Char} (a : Str) : ∀ l ∈ splitOn c a, x ∈ l → x ∈ a := by
  induction a with
  | nil => simp [splitOn]
  | cons y a ih =>
    intro l hl hx
    rw [splitOn] at hl
    by_cases h : y = c
    · rw [if_pos h] at hl
      rcases List.mem_cons.1 hl with rfl | hl
      · cases hx
      · exact List.mem_cons_of_mem _ (ih l hl hx)
    · rw [if_neg h] at hl
      obtain ⟨w, ws, hw⟩ := List.exists_cons_of_ne_nil (splitOn_ne_nil c a)
      rw [hw] at hl ih
      rcases List.mem_cons.1 hl with rfl | hl
      · rcases List.mem_cons.1 hx with rfl | hx
        · simp
        · exact List.mem_cons_of_mem _ (ih w (by simp) hx)
      · exact List.mem_cons_of_mem _ (ih l (by simp [hl]) hx)

/-- Splitting what was joined. -/
theorem splitOn_joinWith (c : Char) : ∀ (ls : List Str), ls ≠ [] → (∀ l ∈ ls, c ∉ l) → splitOn c (joinWith [c] ls) = ls
  | [], h, _ => absurd rfl h
  | [l], _, h => by rw [joinWith, splitOn_plain l (h l (by simp))]
  | l :: m :: ls, _, h => by
    have ih := splitOn_joinWith c (m :: ls) (by simp) (fun x hx => h x (by simp [hx]))
    have : joinWith [c] (l :: m :: ls) = l ++ c :: joinWith [c] (m :: ls) := by simp [joinWith]
    rw [this, splitOn_append l _ (h l (by simp)), ih]

/-- The lines of a body inside an open block stay inside, up to the closing fence. -/
theorem blocksGo_body (info : Str) : ∀ (body : List Str) (have_ rest : List Str), (∀ l ∈ body, closes 3 l = false) →
    blocksGo (some (3, info, have_)) (body ++ c!"```" :: rest) =
      ⟨info, joinWith c!"\n" (have_ ++ body ++ [c!"```"])⟩ :: blocksGo none rest
  | [], have_, rest, _ => by
    rw [List.nil_append, blocksGo, if_pos (by decide), List.append_nil]
  | l :: body, have_, rest, h => by
    rw [List.cons_append, blocksGo, if_neg (by simp [h l (by simp)]),
      blocksGo_body info body (have_ ++ [l]) rest (fun x hx => h x (by simp [hx]))]
    simp

/-- The block that an item is read as. -/
def Item.block (i : Item) : Block :=
  let info := match i with | .code _ => c!"bash" | .output _ => c!"text"
  ⟨info, joinWith c!"\n" ((c!"```" ++ info) :: splitOn '\n' i.body ++ [c!"```"])⟩

/-- No block is open at the end of the lines. -/
def closedAfter : Option Nat → List Str → Bool
  | st, [] => st.isNone
  | none, l :: ls => closedAfter ((opening l).map (·.1)) ls
  | some n, l :: ls => if closes n l then closedAfter none ls else closedAfter (some n) ls

theorem blocksGo_closed (a b : List Str) : ∀ st : Option (Nat × Str × List Str), closedAfter (st.map (·.1)) a = true →
    blocksGo st (a ++ b) = blocksGo st a ++ blocksGo none b := by
  induction a with
  | nil =>
    intro st h
    cases st with
    | none => rfl
    | some p => simp [closedAfter] at h
  | cons l a ih =>
    intro st h
    cases st with
    | none =>
      rw [List.cons_append, blocksGo, blocksGo]
      cases ho : opening l with
      | none =>
        dsimp only
        refine ih none ?_
        simpa [closedAfter, ho] using h
      | some p =>
        obtain ⟨n, info⟩ := p
        dsimp only
        refine ih (some (n, info, [l])) ?_
        simpa [closedAfter, ho] using h
    | some p =>
      obtain ⟨n, info, body⟩ := p
      rw [List.cons_append, blocksGo, blocksGo]
      simp only [Option.map_some, closedAfter] at h
      by_cases hc : closes n l = true
      · rw [if_pos hc] at h
        rw [if_pos hc, if_pos hc, ih none h]; rfl
      · rw [if_neg hc] at h
        rw [if_neg hc, if_neg hc, ih (some (n, info, body ++ [l])) h]

/-- The lines of one item after the line before it. -/
theorem blocksGo_item (i : Item) (hi : i.Plain) (rest : Str) :
    blocksGo none (splitOn '\n' (i.text ++ rest)) = i.block :: blocksGo none (splitOn '\n' rest) := by
  have main : ∀ info body : Str, '\n' ∉ info → opening (c!"```" ++ info) = some (3, info) →
      (∀ l ∈ splitOn '\n' body, ¬ FenceLine l) →
      blocksGo none (splitOn '\n' (c!"\n```" ++ info ++ c!"\n" ++ body ++ c!"\n```\n" ++ rest)) =
        ⟨info, joinWith c!"\n" ((c!"```" ++ info) :: splitOn '\n' body ++ [c!"```"])⟩ :: blocksGo none (splitOn '\n' rest) := by
    intro info body h1 h2 h3
    have e : splitOn '\n' (c!"\n```" ++ info ++ c!"\n" ++ body ++ c!"\n```\n" ++ rest) =
        [] :: (c!"```" ++ info) :: (splitOn '\n' body ++ c!"```" :: splitOn '\n' rest) := by
      have e1 : c!"\n```" ++ info ++ c!"\n" ++ body ++ c!"\n```\n" ++ rest =
          [] ++ '\n' :: ((c!"```" ++ info) ++ '\n' :: (body ++ '\n' :: (c!"```" ++ '\n' :: rest))) := by simp
      rw [e1, splitOn_append _ _ (by simp), splitOn_append _ _ (by simp [h1]), splitOn_append', splitOn_append _ _ (by decide)]
    rw [e, blocksGo, show opening [] = none from by decide]
    dsimp only
    rw [blocksGo, h2]
    dsimp only
    rw [blocksGo_body info _ _ _ (fun l hl => by
      cases hc : closes 3 l with
      | false => rfl
      | true => exact absurd ((closes_iff l).1 hc) (h3 l hl))]
    rfl
  cases i with
  | code c => exact main c!"bash" (trim c) (by decide) (by decide) hi.2
  | output o => exact main c!"text" (trimEnd o) (by decide) (by decide) hi.2

theorem trim_fence (s : Str) : trim (c!"```" ++ s ++ c!"```") = c!"```" ++ s ++ c!"```" := by
  have hw : rustWhitespace '`' = false := by decide
  simp [trim, trimStart, trimEnd, hw]

theorem joinWith_append_last (ls : List Str) (h : ls ≠ []) (l : Str) :
    joinWith c!"\n" (ls ++ [l]) = joinWith c!"\n" ls ++ '\n' :: l := by
  induction ls with
  | nil => exact absurd rfl h
  | cons x ls ih =>
    cases ls with
    | nil => simp [joinWith]
    | cons y ls =>
      have := ih (by simp)
      simp only [List.cons_append] at this ⊢
      simp only [joinWith] at this ⊢
      rw [this]; simp

/-- The raw content of a recorded block is the recorded text. -/
theorem rawContent_block (i : Item) (h : '\r' ∉ i.body) : rawContent i.block.content = i.body := by
  have main : ∀ info body : Str, '\n' ∉ info → '\r' ∉ info → '\r' ∉ body →
      rawContent (joinWith c!"\n" ((c!"```" ++ info) :: splitOn '\n' body ++ [c!"```"])) = body := by
    intro info body h1 h2 h3
    have hlist : ∀ l ∈ (c!"```" ++ info) :: splitOn '\n' body ++ [c!"```"], '\n' ∉ l ∧ '\r' ∉ l := by
      intro l hl
      simp only [List.cons_append, List.mem_cons, List.mem_append, List.not_mem_nil, or_false] at hl
      rcases hl with rfl | hl | rfl
      · simp [h1, h2]
      · exact ⟨not_mem_splitOn _ _ l hl, fun hx => h3 (mem_splitOn _ l hl hx)⟩
      · decide
    have ht : trim (joinWith c!"\n" ((c!"```" ++ info) :: splitOn '\n' body ++ [c!"```"])) =
        joinWith c!"\n" ((c!"```" ++ info) :: splitOn '\n' body ++ [c!"```"]) := by
      have e : joinWith c!"\n" ((c!"```" ++ info) :: splitOn '\n' body ++ [c!"```"]) =
          c!"```" ++ (info ++ '\n' :: body ++ c!"\n") ++ c!"```" := by
        rw [joinWith_append_last _ (by simp)]
        obtain ⟨w, ws, hw⟩ := List.exists_cons_of_ne_nil (splitOn_ne_nil '\n' body)
        have hj := joinWith_splitOn '\n' body
        rw [hw] at hj ⊢
        simp only [joinWith]
        rw [hj]; simp
      rw [e, trim_fence]
    have hl : lines (joinWith c!"\n" ((c!"```" ++ info) :: splitOn '\n' body ++ [c!"```"])) =
        (c!"```" ++ info) :: splitOn '\n' body ++ [c!"```"] := by
      unfold lines
      rw [splitOn_joinWith '\n' _ (by simp) (fun l hl => (hlist l hl).1)]
      dsimp only
      rw [if_neg (by rw [List.getLast?_append]; simp)]
      refine (List.map_congr_left (g := id) (fun l hl => ?_)).trans (List.map_id _)
      rw [if_neg]; rfl
      intro hx
      exact (hlist l hl).2 (List.mem_of_mem_getLast? hx)
    unfold rawContent
    rw [ht, hl]
    dsimp only
    rw [if_pos]
    · simp only [List.cons_append, List.drop_succ_cons, List.drop_zero, List.dropLast_concat]
      exact joinWith_splitOn '\n' body
    · refine ⟨by simp, by simp, ?_⟩
      rw [List.getLast?_append]; simp
  cases i with
  | code c => exact main c!"bash" (trim c) (by decide) (by decide) h
  | output o => exact main c!"text" (trimEnd o) (by decide) (by decide) h

theorem load_record (l : List Item) (h : ∀ i ∈ l, i.Plain) :
    blocksGo none (splitOn '\n' (l.flatMap Item.text)) = l.map Item.block := by
  induction l with
  | nil => decide
  | cons i l ih =>
    rw [List.flatMap_cons, blocksGo_item i (h i (by simp)), ih (fun x hx => h x (by simp [hx]))]; rfl

/-- C45 (partial): whatever a file without an open block held before, commands and outputs without fence
lines and carriage returns are read back in order, behind what the file held. -/
theorem C45_roundtrip_partial (file : Str) (hf : closedAfter none (splitOn '\n' file) = true) (l : List Item)
    (h : ∀ i ∈ l, i.Plain) : readBack (record file l) = readBack file ++ l.map Item.expected := by
  have hread : ∀ i : Item, i.Plain → i.block.read = i.expected := by
    intro i hi
    have := rawContent_block i hi.1
    unfold Block.read
    rw [this]
    cases i with
    | code c => rfl
    | output o => rfl
  unfold readBack load record
  cases l with
  | nil => simp
  | cons i l =>
    have e : splitOn '\n' (file ++ (i :: l).flatMap Item.text) =
        splitOn '\n' file ++ (splitOn '\n' ((i :: l).flatMap Item.text)).drop 1 := by
      obtain ⟨r, hr⟩ : ∃ r, (i :: l).flatMap Item.text = '\n' :: r := by
        rw [List.flatMap_cons]
        cases i with
        | code c => exact ⟨_, rfl⟩
        | output o => exact ⟨_, rfl⟩
      rw [hr, splitOn_append']
      simp [splitOn]
    have e2 : blocksGo none ((splitOn '\n' ((i :: l).flatMap Item.text)).drop 1) =
        blocksGo none (splitOn '\n' ((i :: l).flatMap Item.text)) := by
      obtain ⟨r, hr⟩ : ∃ r, (i :: l).flatMap Item.text = '\n' :: r := by
        rw [List.flatMap_cons]
        cases i with
        | code c => exact ⟨_, rfl⟩
        | output o => exact ⟨_, rfl⟩
      rw [hr]
      simp only [splitOn, ↓reduceIte, List.drop_succ_cons, List.drop_zero]
      rw [blocksGo, show opening [] = none from by decide]
    rw [e, blocksGo_closed _ _ none hf, e2, load_record _ h, List.map_append, List.map_map]
    congr 1
    exact List.map_congr_left (fun x hx => hread x (h x hx))

/-- C45 is violated for every output with a line of backquotes: it is not read back. -/
theorem C45_violated (o : Str) (pre post : List Str) (n : Nat) (hn : 3 ≤ n)
    (ho : splitOn '\n' (trimEnd o) = pre ++ List.replicate n '`' :: post) (hpre : ∀ l ∈ pre, ¬ FenceLine l)
    (hcr : '\r' ∉ trimEnd o) :
    (readBack (record [] [.output o])).head? ≠ some (.output (trimEnd o)) := by
  have hnot : ∀ l ∈ splitOn '\n' (trimEnd o), '\n' ∉ l := not_mem_splitOn _ _
  have hnr : ∀ l ∈ splitOn '\n' (trimEnd o), '\r' ∉ l := fun l hl hx => hcr (mem_splitOn _ l hl hx)
  rw [ho] at hnot hnr
  have hgo : ∀ (pre have_ rest : List Str), (∀ l ∈ pre, ¬ FenceLine l) →
      blocksGo (some (3, c!"text", have_)) (pre ++ List.replicate n '`' :: rest) =
        ⟨c!"text", joinWith c!"\n" (have_ ++ pre ++ [List.replicate n '`'])⟩ :: blocksGo none rest := by
    intro pre
    induction pre with
    | nil =>
      intro hv rest _
      rw [List.nil_append, blocksGo, if_pos ((closes_iff _).2 ⟨0, n, 0, by omega, hn, by simp⟩), List.append_nil]
    | cons l pre ih =>
      intro hv rest h
      rw [List.cons_append, blocksGo, if_neg (fun hc => h l (by simp) ((closes_iff l).1 hc)),
        ih (hv ++ [l]) rest (fun x hx => h x (by simp [hx]))]
      simp
  have e : splitOn '\n' (record [] [.output o]) =
      [] :: c!"```text" :: (pre ++ List.replicate n '`' :: (post ++ [c!"```", []])) := by
    have e1 : record [] [.output o] = [] ++ '\n' :: (c!"```text" ++ '\n' :: (trimEnd o ++ '\n' :: (c!"```" ++ '\n' :: []))) := by
      simp [record, Item.text]
    rw [e1, splitOn_append _ _ (by simp), splitOn_append _ _ (by decide), splitOn_append', splitOn_append _ _ (by decide), ho]
    simp [splitOn]
  have hload : (load (record [] [.output o])).head? =
      some ⟨c!"text", joinWith c!"\n" (c!"```text" :: pre ++ [List.replicate n '`'])⟩ := by
    unfold load
    rw [e, blocksGo, show opening [] = none from by decide]
    dsimp only
    rw [blocksGo, show opening c!"```text" = some (3, c!"text") from by decide]
    dsimp only
    rw [hgo pre _ _ hpre]
    rfl
  obtain ⟨m, rfl⟩ : ∃ m, n = m + 3 := ⟨n - 3, by omega⟩
  have hrep : List.replicate (m + 3) '`' = c!"```" ++ List.replicate m '`' := by simp [List.replicate_succ]
  have hrep2 : List.replicate (m + 3) '`' = List.replicate m '`' ++ c!"```" := by
    rw [show c!"```" = List.replicate 3 '`' from rfl, List.replicate_append_replicate]
  have hraw : rawContent (joinWith c!"\n" (c!"```text" :: pre ++ [List.replicate (m + 3) '`'])) = joinWith c!"\n" pre := by
    have hlist : ∀ l ∈ c!"```text" :: pre ++ [List.replicate (m + 3) '`'], '\n' ∉ l ∧ '\r' ∉ l := by
      intro l hl
      simp only [List.cons_append, List.mem_cons, List.mem_append, List.not_mem_nil, or_false] at hl
      rcases hl with rfl | hl | rfl
      · decide
      · exact ⟨hnot l (by simp [hl]), hnr l (by simp [hl])⟩
      · exact ⟨hnot _ (by simp), hnr _ (by simp)⟩
    have ht : trim (joinWith c!"\n" (c!"```text" :: pre ++ [List.replicate (m + 3) '`'])) =
        joinWith c!"\n" (c!"```text" :: pre ++ [List.replicate (m + 3) '`']) := by
      rw [joinWith_append_last _ (by simp), hrep2]
      obtain ⟨t, ht⟩ : ∃ t, joinWith c!"\n" (c!"```text" :: pre) = c!"```" ++ t := by
        cases pre with
        | nil => exact ⟨c!"text", rfl⟩
        | cons x pre => exact ⟨c!"text" ++ c!"\n" ++ joinWith c!"\n" (x :: pre), by simp [joinWith]⟩
      rw [ht]
      have := trim_fence (t ++ '\n' :: List.replicate m '`')
      simpa using this
    have hl : lines (joinWith c!"\n" (c!"```text" :: pre ++ [List.replicate (m + 3) '`'])) =
        c!"```text" :: pre ++ [List.replicate (m + 3) '`'] := by
      unfold lines
      rw [splitOn_joinWith '\n' _ (by simp) (fun l hl => (hlist l hl).1)]
      dsimp only
      rw [if_neg (by rw [List.getLast?_append]; simp [List.replicate_succ])]
      refine (List.map_congr_left (g := id) (fun l hl => ?_)).trans (List.map_id _)
      rw [if_neg]; rfl
      intro hx
      exact (hlist l hl).2 (List.mem_of_mem_getLast? hx)
    unfold rawContent
    rw [ht, hl]
    dsimp only
    rw [if_pos]
    · simp only [List.cons_append, List.drop_succ_cons, List.drop_zero, List.dropLast_concat]
    · refine ⟨by simp, by simp, ?_⟩
      rw [List.getLast?_append, hrep]; simp
  intro hh
  unfold readBack at hh
  rw [List.head?_map, hload] at hh
  simp only [Option.map_some, Option.some.injEq, Block.read, ↓reduceIte, Read.output.injEq] at hh
  rw [hraw] at hh
  have hs := congrArg (splitOn '\n') hh
  rw [ho] at hs
  cases pre with
  | nil =>
    simp [joinWith, splitOn, List.replicate_succ] at hs
  | cons x pre =>
    rw [splitOn_joinWith '\n' _ (by simp) (fun l hl => hnot l (by rw [List.mem_append]; exact .inl hl))] at hs
    have := congrArg List.length hs
    simp at this

/-- Two recorded items behind other text; an output with a fence. -/
example :
    readBack (record c!"# Title\n" [.code c!"ls -l ", .output c!"a\n  b\n", .code c!"for x\n  do"]) =
      [.code c!"bash" c!"ls -l", .output c!"a\n  b", .code c!"bash" c!"for x\n  do"] ∧
    closedAfter none (splitOn '\n' c!"# Title\n") = true ∧
    readBack (record [] [.output c!"a\n```\nb"]) = [.output c!"a", .code [] c!"```\n"] := by decide

/-! ## C110: playing -/

/-- What the user answers for a block. -/
inductive Choice
  | yes | no | quit
  deriving DecidableEq, Repr

/-- The lines of a block that are executed (notebook_play.rs:65-81). -/
def playLines (code : Str) : List Str :=
  ((lines code).map trim).filter fun l => !(l.isEmpty || l.head? = some '#')

/-- `run_play` (notebook_play.rs:27-91): the lines handed to `dispatch`. -/
def playBlocks : List Block → List Choice → List Str
  | [], _ => []
  | _, [] => []
  | b :: bs, ch :: chs =>
    match ch with
    | .quit => []
    | .no => playBlocks bs chs
    | .yes => playLines (rawContent b.content) ++ playBlocks bs chs

def executable (b : Block) : Bool := b.info = c!"bash" || b.info = c!"sh" || b.info = []

/-- `command` (notebook_play.rs:11-25) on the file system: nothing if there is no such file. -/
def play (files : Str → Option Str) (argv : List Str) (answers : List Choice) : Option (List Str) :=
  match argv with
  | [] => none
  | f :: _ =>
    match files f with
    | none => none
    | some text => some (playBlocks ((load text).filter executable) answers)

/-- Who executes a line: `dispatch` with no arguments (proxy/mod.rs:118-126, registry.rs:31-50,
external.rs:30-48). -/
inductive Who
  | builtin (name : Str)
  | sh (line : Str)
  | program (name : Str)
  deriving DecidableEq, Repr

def registry : List Str := [c!"exit", c!"history", c!"reload", c!"z", c!"jobs", c!"fg", c!"bg", c!"lisp", c!"lisp-run", c!"var", c!"read"]

def dispatch (line : Str) : Who :=
  if registry.contains line then .builtin line
  else if ' ' ∈ line ∨ '|' ∈ line ∨ '>' ∈ line ∨ '&' ∈ line then .sh line
  else .program line

/-- C110 is violated for every argument: the built-in takes its own name for the file. -/
theorem C110_violated (files : Str → Option Str) (h : files c!"notebook-play" = none) (args : List Str) (answers : List Choice) :
    play files (c!"notebook-play" :: args) answers = none := by
  simp [play, h]

/-- C110 is violated for every command with an argument: it is executed by `sh`, not by this shell, so
its built-ins (`cd`), aliases and functions do not work. -/
theorem C110_sh (line : Str) (h : ' ' ∈ line) : dispatch line = .sh line := by
  unfold dispatch
  rw [if_neg, if_pos (.inl h)]
  intro hc
  have : ∀ x ∈ registry, ' ' ∉ x := by decide
  exact this line (by simpa using hc) h

/-- A command that is played as recorded: one line, not blank, not a comment, no fence. -/
def Simple (c : Str) : Prop := trim c ≠ [] ∧ '\n' ∉ trim c ∧ '\r' ∉ trim c ∧ (trim c).head? ≠ some '#' ∧ ¬ FenceLine (trim c)

theorem trim_trim (c : Str) : trim (trim c) = trim c := by
  have h1 : ∀ s : Str, trimStart (trimStart s) = trimStart s := by
    intro s
    induction s with
    | nil => rfl
    | cons a s ih =>
      simp only [trimStart, List.dropWhile_cons]
      split
      · exact ih
      · rename_i h; simp [h]
  rw [show trim c = trimEnd (trimStart c) from rfl, Fish.trim_trimEnd, trim, h1]

theorem simple_plain {c : Str} (h : Simple c) : (Item.code c).Plain := by
  refine ⟨h.2.2.1, ?_⟩
  show ∀ l ∈ splitOn '\n' (trim c), ¬ FenceLine l
  rw [splitOn_plain _ h.2.1]
  simpa using h.2.2.2.2

theorem playLines_simple {c : Str} (h : Simple c) : playLines (trim c) = [trim c] := by
  have hl : lines (trim c) = [trim c] := by
    unfold lines
    rw [splitOn_plain _ h.2.1]
    dsimp only
    rw [if_neg (by simpa using h.1)]
    simp only [List.map_cons, List.map_nil]
    rw [if_neg (fun hx : (trim c).getLast? = some _ => h.2.2.1 (List.mem_of_mem_getLast? hx))]
  unfold playLines
  rw [hl, List.map_cons, List.map_nil, trim_trim]
  have := h.1; have := h.2.2.2.1
  simp [*]

/-- C110 (partial): the lines that playing a recorded file executes, were the file found: each recorded
command of one line that is answered yes, in order, up to the first quit. -/
theorem C110_lines_partial (l : List Str) (h : ∀ c ∈ l, Simple c) (files : Str → Option Str) (f : Str) (args : List Str)
    (hf : files f = some (record [] (l.map .code))) (answers : List Choice) :
    play files (f :: args) answers =
      some (((l.zip (answers.takeWhile (· ≠ .quit))).filter (·.2 = .yes)).map fun p => trim p.1) := by
  have hl : (load (record [] (l.map .code))).filter executable = l.map fun c => (Item.code c).block := by
    have := load_record (l.map .code) (fun i hi => by
      obtain ⟨c, hc, rfl⟩ := List.mem_map.1 hi
      exact simple_plain (h c hc))
    rw [record, List.nil_append, load, this, List.map_map]
    refine List.filter_eq_self.2 (fun b hb => ?_)
    obtain ⟨c, -, rfl⟩ := List.mem_map.1 hb
    rfl
  unfold play
  simp only [hf, hl]
  congr 1
  clear hf hl
  induction l generalizing answers with
  | nil => rfl
  | cons c l ih =>
    have hc := h c (by simp)
    have ih := ih (fun x hx => h x (by simp [hx]))
    rw [List.map_cons]
    cases answers with
    | nil => rfl
    | cons a answers =>
      cases a with
      | quit => rfl
      | no =>
        simp only [playBlocks]
        rw [ih answers]; simp
      | yes =>
        simp only [playBlocks]
        rw [ih answers, rawContent_block _ (simple_plain hc).1]
        show playLines (trim c) ++ _ = _
        rw [playLines_simple hc]; simp

/-- C110 (partial): nothing blank and no comment is executed, whatever the file holds. -/
theorem C110_comments_partial (files : Str → Option Str) (argv : List Str) (answers : List Choice) (r : List Str)
    (h : play files argv answers = some r) : ∀ l ∈ r, l ≠ [] ∧ l.head? ≠ some '#' ∧ trim l = l := by
  have key : ∀ (bs : List Block) (answers : List Choice), ∀ l ∈ playBlocks bs answers,
      l ≠ [] ∧ l.head? ≠ some '#' ∧ trim l = l := by
    intro bs
    induction bs with
    | nil => intro a l hl; simp [playBlocks] at hl
    | cons b bs ih =>
      intro a l hl
      cases a with
      | nil => simp [playBlocks] at hl
      | cons a as =>
        cases a with
        | quit => cases hl
        | no => exact ih as l hl
        | yes =>
          simp only [playBlocks] at hl
          rcases List.mem_append.1 hl with hl | hl
          · simp only [playLines, List.mem_filter, List.mem_map] at hl
            obtain ⟨⟨x, -, rfl⟩, h2⟩ := hl
            simp only [Bool.not_eq_true', Bool.or_eq_false_iff, List.isEmpty_eq_false_iff, decide_eq_false_iff_not] at h2
            exact ⟨h2.1, h2.2, trim_trim x⟩
          · exact ih as l hl
  unfold play at h
  split at h
  · cases h
  · split at h
    · cases h
    · simp only [Option.some.injEq] at h
      subst h
      exact key _ _

/-- C110 is violated: a command of two lines is played as two commands. -/
theorem C110_two_lines : ¬ ∀ (c : Str), (Item.code c).Plain → playBlocks (load (record [] [.code c])) [.yes] = [trim c] := by
  intro h
  have := h c!"echo \"a\nb\"" ⟨by decide, by
    intro l hl hx
    have := (closes_iff l).2 hx
    have hall : ∀ l ∈ splitOn '\n' (Item.code c!"echo \"a\nb\"").body, closes 3 l = false := by decide
    rw [hall l hl] at this; cases this⟩
  exact absurd this (by decide)

example : play (fun f => if f = c!"nb.md" then some (record [] [.code c!"cd /tmp", .code c!"ls"]) else none)
      [c!"nb.md"] [.yes, .yes] = some [c!"cd /tmp", c!"ls"] ∧
    play (fun f => if f = c!"nb.md" then some (record [] [.code c!"cd /tmp", .code c!"ls"]) else none)
      [c!"notebook-play", c!"nb.md"] [.yes, .yes] = none ∧
    dispatch c!"cd /tmp" = .sh c!"cd /tmp" ∧ dispatch c!"ls" = .program c!"ls" ∧ dispatch c!"jobs" = .builtin c!"jobs" := by
  decide

end Dsh.Note
