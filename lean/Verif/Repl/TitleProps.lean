import Verif.Repl.Title
import Verif.Fs.ServeProps
import Verif.Prompt.GitProps
/-!
C145: the title of the window is safe, short and names the program that runs.
C146: the terminal is told the current directory.
C147: the prompt tells whether a line goes on, and the marks enclose exactly what a command prints.
-/
namespace Dsh.Ttl
open Dsh.Prm (words Name)

/-! ### A terminal -/

/-- What a terminal makes of what it gets: characters, operating system commands, other escape sequences. -/
inductive Seen where
  | text (c : Char)
  | osc (s : Str)
  | other (c : Char)
deriving DecidableEq

inductive Mode where
  | ground
  | escape
  | osc (acc : Str)
  | oscEsc (acc : Str)
deriving DecidableEq

/-- One character (the state machine of ECMA-48 terminals, operating system commands only): BEL, ST as one character or as
ESC and backslash end a command, CAN and SUB abandon it. -/
def feed (m : Mode) (c : Char) : List Seen × Mode :=
  match m with
  | .ground => if c = esc then ([], .escape) else ([.text c], .ground)
  | .escape => if c = ']' then ([], .osc []) else ([.other c], .ground)
  | .osc acc =>
    if c = bel ∨ c = Char.ofNat 0x9c then ([.osc acc], .ground)
    else if c = esc then ([], .oscEsc acc)
    else if c = Char.ofNat 0x18 ∨ c = Char.ofNat 0x1a then ([], .ground)
    else ([], .osc (acc ++ [c]))
  | .oscEsc acc =>
    if c = '\\' then ([.osc acc], .ground)
    else if c = ']' then ([.osc acc], .osc [])
    else ([.osc acc, .other c], .ground)

def feedAll : Mode → Str → List Seen × Mode
  | m, [] => ([], m)
  | m, c :: cs => ((feed m c).1 ++ (feedAll (feed m c).2 cs).1, (feedAll (feed m c).2 cs).2)

theorem feedAll_append (m : Mode) (s t : Str) :
    feedAll m (s ++ t) = ((feedAll m s).1 ++ (feedAll (feedAll m s).2 t).1, (feedAll (feedAll m s).2 t).2) := by
  induction s generalizing m with
  | nil => simp [feedAll]
  | cons c cs ih => simp [feedAll, ih]

/-- No control characters. -/
abbrev Plain (s : Str) : Prop := ∀ c ∈ s, isControl c = false

theorem Plain.append {s t : Str} (h : Plain s) (h' : Plain t) : Plain (s ++ t) := by
  intro c hc
  rcases List.mem_append.1 hc with h1 | h1
  · exact h c h1
  · exact h' c h1

theorem feed_plain {c : Char} (h : isControl c = false) (acc : Str) : feed (.osc acc) c = ([], .osc (acc ++ [c])) := by
  have h1 : c ≠ bel := fun e => by subst e; revert h; decide
  have h2 : c ≠ Char.ofNat 0x9c := fun e => by subst e; revert h; decide
  have h3 : c ≠ esc := fun e => by subst e; revert h; decide
  have h4 : c ≠ Char.ofNat 0x18 := fun e => by subst e; revert h; decide
  have h5 : c ≠ Char.ofNat 0x1a := fun e => by subst e; revert h; decide
  simp [feed, h1, h2, h3, h4, h5]

theorem feedAll_plain {s : Str} (h : Plain s) (acc : Str) : feedAll (.osc acc) s = ([], .osc (acc ++ s)) := by
  induction s generalizing acc with
  | nil => simp [feedAll]
  | cons c cs ih =>
    rw [feedAll, feed_plain (h c (List.mem_cons_self ..)), ih (fun x hx => h x (List.mem_cons_of_mem _ hx))]
    simp

/-- A command ended by BEL arrives whole, and only it. -/
theorem feed_bel {s : Str} (h : Plain s) (r : Str) :
    feedAll .ground (esc :: ']' :: (s ++ bel :: r)) =
      (.osc s :: (feedAll .ground r).1, (feedAll .ground r).2) := by
  have e : esc :: ']' :: (s ++ bel :: r) = [esc, ']'] ++ (s ++ ([bel] ++ r)) := by simp
  rw [e, feedAll_append]
  have h1 : feedAll .ground [esc, ']'] = ([], .osc []) := by decide
  rw [h1]
  dsimp only
  rw [feedAll_append, feedAll_plain h]
  dsimp only
  rw [feedAll_append]
  have h2 : feedAll (.osc ([] ++ s)) [bel] = ([.osc s], .ground) := by
    simp [feedAll, feed]
  rw [h2]
  simp

theorem feed_st {s : Str} (h : Plain s) (r : Str) :
    feedAll .ground (esc :: ']' :: (s ++ esc :: '\\' :: r)) =
      (.osc s :: (feedAll .ground r).1, (feedAll .ground r).2) := by
  have e : esc :: ']' :: (s ++ esc :: '\\' :: r) = [esc, ']'] ++ (s ++ ([esc, '\\'] ++ r)) := by simp
  rw [e, feedAll_append]
  have h1 : feedAll .ground [esc, ']'] = ([], .osc []) := by decide
  rw [h1]
  dsimp only
  rw [feedAll_append, feedAll_plain h]
  dsimp only
  rw [feedAll_append]
  have h2 : feedAll (.osc ([] ++ s)) [esc, '\\'] = ([.osc s], .ground) := by
    have a : esc ≠ bel := by decide
    have b : esc ≠ Char.ofNat 0x9c := by decide
    simp [feedAll, feed, a, b]
  rw [h2]
  simp

/-! ### C145 -/

theorem mem_trim {c : Char} {s : Str} (h : c ∈ trim s) : c ∈ s := by
  unfold trim trimEnd trimStart at h
  have h1 := List.mem_reverse.1 h
  have h2 := (List.dropWhile_sublist _).mem h1
  exact (List.dropWhile_sublist _).mem (List.mem_reverse.1 h2)

theorem sanitize_plain (raw : Str) : Plain (sanitize raw) := by
  unfold sanitize
  dsimp only
  split
  · decide
  · split
    · decide
    · intro c hc
      have := (List.mem_filter.1 (mem_trim (List.mem_of_mem_take hc))).2
      simpa using this

theorem sanitize_size (raw : Str) : sanitize raw ≠ [] ∧ (sanitize raw).length ≤ 64 := by
  unfold sanitize
  dsimp only
  split
  · decide
  · split
    · decide
    · next h => exact ⟨h, by rw [List.length_take]; omega⟩

theorem trim_visible {s : Str} (h : trim s ≠ []) : ∃ c cs, trim s = c :: cs ∧ rustWhitespace c = false := by
  have hs : ∀ s : Str, trimStart s ≠ [] → ∃ c cs, trimStart s = c :: cs ∧ rustWhitespace c = false := by
    intro s
    induction s with
    | nil => exact fun h => absurd rfl h
    | cons c cs ih =>
      intro h
      unfold trimStart at h ih ⊢
      by_cases hc : rustWhitespace c = true
      · rw [List.dropWhile_cons_of_pos hc] at h ⊢; exact ih h
      · rw [List.dropWhile_cons_of_neg hc] at h ⊢; exact ⟨c, cs, rfl, by simpa using hc⟩
  have h0 : trimStart s ≠ [] := by
    intro e
    apply h
    rw [trim, e]; rfl
  obtain ⟨c, cs, e, hc⟩ := hs s h0
  refine ⟨c, (trim s).tail, ?_, hc⟩
  have hr : ∀ l : Str, rustWhitespace c = false → ∃ m, (l ++ [c]).dropWhile rustWhitespace = m ++ [c] := by
    intro l hc
    induction l with
    | nil => exact ⟨[], by simp [hc]⟩
    | cons y ys ih =>
      obtain ⟨m, hm⟩ := ih
      by_cases hy : rustWhitespace y = true
      · exact ⟨m, by rw [List.cons_append, List.dropWhile_cons_of_pos hy, hm]⟩
      · exact ⟨y :: ys, by rw [List.cons_append, List.dropWhile_cons_of_neg hy]⟩
  obtain ⟨m, hm⟩ := hr cs.reverse hc
  have : trim s = c :: m.reverse := by
    rw [trim, e, trimEnd, List.reverse_cons, hm]; simp
  rw [this]; rfl

theorem sanitize_visible (raw : Str) : ∃ c ∈ sanitize raw, rustWhitespace c = false := by
  unfold sanitize
  dsimp only
  split
  · exact ⟨'d', by decide, by decide⟩
  · next h =>
    split
    · exact ⟨'d', by decide, by decide⟩
    · obtain ⟨c, cs, e, hc⟩ := trim_visible h
      exact ⟨c, by rw [e]; simp, hc⟩

/-- Whatever the command, the title is of one to sixty-four characters none of which is a control character and not all of which are blanks; the terminal gets exactly this
title, twice, and prints nothing; and after a command at the prompt it is `dsh` again. -/
theorem C145_safe_partial (j : Job) :
    let t := commandTitle j
    1 ≤ t.length ∧ t.length ≤ 64 ∧ Plain t ∧ (∃ c ∈ t, rustWhitespace c = false) ∧
    feedAll .ground (writeTitle t) = ([.osc (c!"0;" ++ t), .osc (c!"2;" ++ t)], .ground) ∧
    (∀ body, feedAll .ground body = ((feedAll .ground body).1, .ground) →
      (feedAll .ground (around true true j body)) =
        ([.osc (c!"0;" ++ t), .osc (c!"2;" ++ t)] ++ (feedAll .ground body).1 ++ [.osc c!"0;dsh", .osc c!"2;dsh"], .ground)) ∧
    (∀ i f body, (i && f) = false → around i f j body = body) := by
  intro t
  have hp : Plain t := by
    show Plain (commandTitle j)
    unfold commandTitle; split <;> exact sanitize_plain _
  have hs : t ≠ [] ∧ t.length ≤ 64 := by
    show commandTitle j ≠ [] ∧ (commandTitle j).length ≤ 64
    unfold commandTitle; split <;> exact sanitize_size _
  have hw : ∀ u : Str, Plain u → feedAll .ground (writeTitle u) = ([.osc (c!"0;" ++ u), .osc (c!"2;" ++ u)], .ground) := by
    intro u hu
    have p0 : Plain (c!"0;" ++ u) := Plain.append (by decide) hu
    have p2 : Plain (c!"2;" ++ u) := Plain.append (by decide) hu
    have e : writeTitle u = esc :: ']' :: ((c!"0;" ++ u) ++ bel :: (esc :: ']' :: ((c!"2;" ++ u) ++ bel :: []))) := by
      simp [writeTitle]
    rw [e, feed_bel p0, feed_bel p2]
    rfl
  have hv : ∃ c ∈ t, rustWhitespace c = false := by
    show ∃ c ∈ commandTitle j, _
    unfold commandTitle; split <;> exact sanitize_visible _
  refine ⟨List.length_pos_iff.2 hs.1, hs.2, hp, hv, hw t hp, ?_, ?_⟩
  · intro body hb
    have e : around true true j body = writeTitle t ++ (body ++ writeTitle c!"dsh") := by
      simp [around, t]
    rw [e, feedAll_append, hw t hp]
    dsimp only
    rw [feedAll_append, hb]
    dsimp only
    rw [hw _ (by decide)]
    simp
  · intro i f body h
    simp [around, h]

example : commandTitle ⟨c!"x", [⟨true, [esc] ++ c!"]0;evil" ++ [bel]⟩]⟩ = c!"]0;evil" := by decide +kernel

/-- A name that can be shown: no separator, no control character, no blank at an end, not a dot name, at most sixty-four characters. -/
structure Nice (n : Str) : Prop where
  slash : ∀ c ∈ n, c ≠ '/'
  plain : Plain n
  dot : n ≠ c!"." ∧ n ≠ c!".."
  ends : trim n = n
  some : n ≠ []
  len : n.length ≤ 64

theorem sanitize_nice {n : Str} (h : Nice n) (dir : Option Str) :
    sanitize ((dir.map (· ++ ['/'])).getD [] ++ n) = n := by
  have hb : basename ((dir.map (· ++ ['/'])).getD [] ++ n) = n := by
    have hl : ∀ pre : List Str, ((pre ++ [n]).filter fun w => w ≠ [] && w ≠ c!".").getLast? = some n := by
      intro pre
      rw [List.filter_append]
      have : [n].filter (fun w => w ≠ [] && w ≠ c!".") = [n] := by simp [h.some, h.dot.1]
      rw [this]; simp
    unfold basename fileName
    cases dir with
    | none =>
      have := hl []
      simp only [Option.map_none, Option.getD_none, List.nil_append] at this ⊢
      rw [Dsh.Fs.Serve.splitSlash_plain h.slash, this]
      simp [h.dot.2]
    | some dd =>
      have := hl (Dsh.Fs.splitSlash dd)
      simp only [Option.map_some, Option.getD_some, List.append_assoc, List.singleton_append]
      rw [Dsh.Fs.Serve.splitSlash_append, Dsh.Fs.Serve.splitSlash_plain h.slash, this]
      simp [h.dot.2]
  unfold sanitize
  dsimp only
  rw [hb]
  have hf : n.filter (fun c => !isControl c) = n := List.filter_eq_self.2 fun c hc => by simp [h.plain c hc]
  rw [hf, h.ends, if_neg h.some, List.take_of_length_le h.len, if_neg h.some]

theorem lastExternal_last (pre post : List Stage) (n : Str) (h : ∀ q ∈ post, q.external = false) :
    lastExternal (pre ++ ⟨true, n⟩ :: post) = some n := by
  have h0 : lastExternal post = none := by
    induction post with
    | nil => rfl
    | cons q qs ih =>
      rw [lastExternal, ih fun x hx => h x (List.mem_cons_of_mem _ hx)]
      simp [h q (List.mem_cons_self ..)]
  induction pre with
  | nil => simp [lastExternal, h0]
  | cons p ps ih => rw [List.cons_append, lastExternal, ih]

theorem lastExternal_none (ps : List Stage) (h : ∀ q ∈ ps, q.external = false) : lastExternal ps = none := by
  induction ps with
  | nil => rfl
  | cons q qs ih =>
    rw [lastExternal, ih fun x hx => h x (List.mem_cons_of_mem _ hx)]
    simp [h q (List.mem_cons_self ..)]

/-- The title is the name, without its directory, of the last program of a pipeline, or of the first word if there is none. -/
theorem C145_names_partial (cmd : Str) (pre post : List Stage) (dir : Option Str) (n : Str) (hn : Nice n) :
    ((∀ q ∈ post, q.external = false) →
      commandTitle ⟨cmd, pre ++ ⟨true, (dir.map (· ++ ['/'])).getD [] ++ n⟩ :: post⟩ = n) ∧
    ((∀ q ∈ post, q.external = false) → Name n → ∀ rest, commandTitle ⟨n ++ ' ' :: rest, post⟩ = n ∧ commandTitle ⟨n, post⟩ = n) := by
  refine ⟨fun h => ?_, fun h hw rest => ⟨?_, ?_⟩⟩
  · unfold commandTitle
    rw [lastExternal_last pre post _ h]
    exact sanitize_nice hn dir
  · unfold commandTitle firstToken
    rw [lastExternal_none post h]
    dsimp only
    rw [Dsh.Prm.words_word n hw]
    simpa using sanitize_nice hn none
  · unfold commandTitle firstToken
    rw [lastExternal_none post h]
    dsimp only
    rw [Dsh.Prm.words_last n hw]
    simpa using sanitize_nice hn none

example : Nice c!"less" := ⟨by decide, by decide, by decide, by decide, by decide, by decide⟩
example : commandTitle ⟨c!"rg x | /usr/bin/less | out", [⟨true, c!"rg"⟩, ⟨true, c!"/usr/bin/less"⟩, ⟨false, c!"out"⟩]⟩ = c!"less" := by
  decide +kernel

/-- A program brought back with `fg` runs under the title `fg`, whatever it is called. -/
theorem C145_fg_violated (arg n : Str) (hn : n ≠ c!"fg") :
    commandTitle ⟨c!"fg" ++ ' ' :: arg, [⟨false, c!"fg"⟩]⟩ = c!"fg" ∧
    commandTitle ⟨c!"fg" ++ ' ' :: arg, [⟨false, c!"fg"⟩]⟩ ≠ n := by
  have h := ((C145_names_partial [] [] [⟨false, c!"fg"⟩] none c!"fg"
    ⟨by decide, by decide, by decide, by decide, by decide, by decide⟩).2 (by decide) (by unfold Name; decide) arg).1
  exact ⟨h, by rw [h]; exact Ne.symm hn⟩

/-! ### C146 -/

/-- The value of a hexadecimal digit. -/
def hex (c : Char) : Option Nat :=
  if '0' ≤ c ∧ c ≤ '9' then some (c.toNat - '0'.toNat)
  else if 'a' ≤ c ∧ c ≤ 'f' then some (c.toNat - 'a'.toNat + 10)
  else if 'A' ≤ c ∧ c ≤ 'F' then some (c.toNat - 'A'.toNat + 10)
  else none

/-- Decoding of a path in a URI (RFC 3986), for codes of single characters. -/
def decode : Str → Str
  | [] => []
  | [c] => [c]
  | [c, d] => [c, d]
  | c :: x :: y :: r =>
    if c = '%' then
      match hex x, hex y with
      | some a, some b => Char.ofNat (16 * a + b) :: decode r
      | _, _ => c :: decode (x :: y :: r)
    else c :: decode (x :: y :: r)

/-- The directory in a report: after the host, up to a query or fragment, decoded. -/
def dirOf (uri : Str) : Option Str :=
  if c!"7;file://".isPrefixOf uri then
    some (decode (((uri.drop 9).dropWhile (· ≠ '/')).takeWhile fun c => c ≠ '?' && c ≠ '#'))
  else none

/-- The directory a terminal ends up with. -/
def believed (s : Str) : Option Str :=
  (feedAll .ground s).1.foldl (fun o e => match e with | .osc u => (dirOf u).or o | _ => o) none

theorem decode_plain (s : Str) (h : ∀ c ∈ s, c ≠ '%') : decode s = s := by
  match s with
  | [] => rfl
  | [c] => rfl
  | [c, d] => rfl
  | c :: x :: y :: r =>
    rw [decode, if_neg (h c (List.mem_cons_self ..)), decode_plain (x :: y :: r) fun z hz => h z (List.mem_cons_of_mem _ hz)]

theorem takeWhile_all (p : Char → Bool) (s : Str) (h : ∀ c ∈ s, p c = true) : s.takeWhile p = s := by
  induction s with
  | nil => rfl
  | cons c cs ih => rw [List.takeWhile_cons_of_pos (h c (List.mem_cons_self ..)), ih fun x hx => h x (List.mem_cons_of_mem _ hx)]

theorem dropHost (host p : Str) (hh : ∀ c ∈ host, c ≠ '/') : (host ++ '/' :: p).dropWhile (· ≠ '/') = '/' :: p := by
  induction host with
  | nil => simp
  | cons c cs ih =>
    rw [List.cons_append, List.dropWhile_cons_of_pos (by simpa using hh c (List.mem_cons_self ..))]
    exact ih fun x hx => hh x (List.mem_cons_of_mem _ hx)

theorem osc7_seen (host p : Str) (h1 : Plain host) (h2 : Plain p) :
    feedAll .ground (osc7 host p) = ([.osc (c!"7;file://" ++ host ++ p)], .ground) := by
  have pl : Plain (c!"7;file://" ++ host ++ p) := Plain.append (Plain.append (by decide) h1) h2
  have e : osc7 host p = esc :: ']' :: ((c!"7;file://" ++ host ++ p) ++ esc :: '\\' :: []) := by simp [osc7]
  rw [e, feed_st pl]
  rfl

theorem believed_eq (host p : Str) (h1 : Plain host) (h2 : Plain p) (hh : ∀ c ∈ host, c ≠ '/') :
    believed (osc7 host ('/' :: p)) = some (decode (('/' :: p).takeWhile fun c => c ≠ '?' && c ≠ '#')) := by
  have h2' : Plain ('/' :: p) := by
    intro c hc
    rcases List.mem_cons.1 hc with rfl | h
    · decide
    · exact h2 c h
  unfold believed
  rw [osc7_seen host _ h1 h2']
  simp only [List.foldl_cons, List.foldl_nil]
  have hd : dirOf (c!"7;file://" ++ host ++ '/' :: p) = some (decode (('/' :: p).takeWhile fun c => c ≠ '?' && c ≠ '#')) := by
    unfold dirOf
    rw [if_pos (by simp), List.append_assoc, List.drop_left' (by decide), dropHost host p hh]
  rw [hd]
  rfl

/-- In a directory whose name has no control characters and none of `%`, `?` and `#`, the terminal is told this directory. -/
theorem C146_plain_partial (host p : Str) (h1 : Plain host) (h2 : Plain p) (hh : ∀ c ∈ host, c ≠ '/')
    (hp : ∀ c ∈ p, c ≠ '%' ∧ c ≠ '?' ∧ c ≠ '#') :
    believed (osc7 host ('/' :: p)) = some ('/' :: p) := by
  rw [believed_eq host p h1 h2 hh, takeWhile_all, decode_plain]
  · intro c hc
    rcases List.mem_cons.1 hc with rfl | h
    · decide
    · exact (hp c h).1
  · intro c hc
    rcases List.mem_cons.1 hc with rfl | h
    · decide
    · simp [(hp c h).2]

example : believed (osc7 c!"host" c!"/home/u/my dir") = some c!"/home/u/my dir" := by decide +kernel

theorem decode_skip (s r : Str) (h : ∀ c ∈ s, c ≠ '%') : decode (s ++ '%' :: '2' :: '0' :: r) = s ++ ' ' :: decode r := by
  induction s with
  | nil =>
    have : decode ('%' :: '2' :: '0' :: r) = Char.ofNat (16 * 2 + 0) :: decode r := by
      rw [decode, if_pos rfl]
      rfl
    exact this
  | cons c cs ih =>
    have hc := h c (List.mem_cons_self ..)
    have ih := ih fun x hx => h x (List.mem_cons_of_mem _ hx)
    rw [List.cons_append]
    match cs, ih with
    | [], ih => rw [List.nil_append, decode, if_neg hc]; exact congrArg _ ih
    | [x], ih => rw [List.cons_append, List.nil_append, decode, if_neg hc]; exact congrArg _ ih
    | x :: y :: l, ih => rw [List.cons_append, List.cons_append, decode, if_neg hc]; exact congrArg _ ih

/-- The name is not encoded: a directory with `%20` in its name is taken for one with a blank, and one with `#` or `?` for
one with a shorter name. -/
theorem C146_encoded_violated (host p q : Str) (h1 : Plain host) (h2 : Plain p) (h3 : Plain q) (hh : ∀ c ∈ host, c ≠ '/')
    (hp : ∀ c ∈ p, c ≠ '%' ∧ c ≠ '?' ∧ c ≠ '#') (hq : ∀ c ∈ q, c ≠ '%' ∧ c ≠ '?' ∧ c ≠ '#') :
    believed (osc7 host ('/' :: (p ++ c!"%20" ++ q))) = some ('/' :: (p ++ ' ' :: q)) ∧
    believed (osc7 host ('/' :: (p ++ c!"%20" ++ q))) ≠ some ('/' :: (p ++ c!"%20" ++ q)) ∧
    believed (osc7 host ('/' :: (p ++ '#' :: q))) = some ('/' :: p) ∧
    believed (osc7 host ('/' :: (p ++ '?' :: q))) = some ('/' :: p) := by
  have join : ∀ m : Str, Plain m → Plain (p ++ m ++ q) := by
    intro m hm c hc
    rcases List.mem_append.1 hc with h | h
    · rcases List.mem_append.1 h with h | h
      · exact h2 c h
      · exact hm c h
    · exact h3 c h
  have key : believed (osc7 host ('/' :: (p ++ c!"%20" ++ q))) = some ('/' :: (p ++ ' ' :: q)) := by
    rw [believed_eq host _ h1 (join _ (by decide)) hh, takeWhile_all]
    · have e : '/' :: (p ++ c!"%20" ++ q) = ('/' :: p) ++ '%' :: '2' :: '0' :: q := by simp
      rw [e, decode_skip, decode_plain q fun c hc => (hq c hc).1]
      · rfl
      · intro c hc
        rcases List.mem_cons.1 hc with rfl | h
        · decide
        · exact (hp c h).1
    · intro c hc
      rcases List.mem_cons.1 hc with rfl | h
      · decide
      · rcases List.mem_append.1 h with h | h
        · rcases List.mem_append.1 h with h | h
          · simp [(hp c h).2]
          · simp at h
            rcases h with rfl | rfl | rfl <;> decide
        · simp [(hq c h).2]
  have cut : ∀ x : Char, (x = '?' ∨ x = '#') → believed (osc7 host ('/' :: (p ++ x :: q))) = some ('/' :: p) := by
    intro x hx
    have hpx : Plain [x] := by rcases hx with rfl | rfl <;> (unfold Plain; decide)
    have := join [x] hpx
    rw [List.append_assoc, List.singleton_append] at this
    rw [believed_eq host _ h1 this hh]
    have e : ('/' :: (p ++ x :: q)).takeWhile (fun c => c ≠ '?' && c ≠ '#') = '/' :: p := by
      have e2 : '/' :: (p ++ x :: q) = ('/' :: p) ++ x :: q := by simp
      rw [e2, List.takeWhile_append_of_pos]
      · rcases hx with rfl | rfl <;> simp
      · intro c hc
        rcases List.mem_cons.1 hc with rfl | h
        · decide
        · simp [(hp c h).2]
    rw [e, decode_plain]
    intro c hc
    rcases List.mem_cons.1 hc with rfl | h
    · decide
    · exact (hp c h).1
  refine ⟨key, ?_, cut '#' (Or.inr rfl), cut '?' (Or.inl rfl)⟩
  rw [key]
  intro h
  have := congrArg (fun o => (o.getD []).length) h
  simp at this

/-- A directory can have control characters in its name, and so give the terminal any command: entering it sets the title of the
window, and the report ends there. -/
theorem C146_injection_violated (host p t q : Str) (h1 : Plain host) (h2 : Plain p) (h3 : Plain t) :
    ∃ rest, (feedAll .ground (osc7 host ('/' :: p ++ [bel] ++ writeTitle t ++ q))).1 =
      [.osc (c!"7;file://" ++ host ++ '/' :: p), .osc (c!"0;" ++ t), .osc (c!"2;" ++ t)] ++ rest := by
  have pl : Plain (c!"7;file://" ++ host ++ '/' :: p) :=
    Plain.append (Plain.append (by decide) h1) (Plain.append (s := ['/']) (by decide) h2)
  have p0 : Plain (c!"0;" ++ t) := Plain.append (by decide) h3
  have p2 : Plain (c!"2;" ++ t) := Plain.append (by decide) h3
  have e : osc7 host ('/' :: p ++ [bel] ++ writeTitle t ++ q) =
      esc :: ']' :: ((c!"7;file://" ++ host ++ '/' :: p) ++ bel ::
        (esc :: ']' :: ((c!"0;" ++ t) ++ bel :: (esc :: ']' :: ((c!"2;" ++ t) ++ bel :: (q ++ [esc, '\\'])))))) := by
    simp [osc7, writeTitle]
  rw [e, feed_bel pl, feed_bel p0, feed_bel p2]
  exact ⟨_, rfl⟩

/-! ### C147 -/

/-- What appeared is a sequence of single things and of commands between their marks. -/
inductive Blocks : List Out → Prop
  | nil : Blocks []
  | one (l : List Out) (o : Out) : Blocks l → (∀ x y, o ≠ .ran x y) → o ≠ .c → Blocks (l ++ [o])
  | cmd (l : List Out) (x : Str) (r : Option Int) : Blocks l → Blocks (l ++ [.c, .ran x r, .d (r.getD 1)])

theorem Blocks.prompt {s : S} (h : Blocks s.out) : Blocks (printPrompt s).out := by
  unfold printPrompt S.put
  split
  · exact .one _ _ h (by simp) (by simp)
  · have := Blocks.one _ .main (Blocks.one _ .a h (by simp) (by simp)) (by simp) (by simp)
    simpa using this

theorem Blocks.line {r : Res} {s : S} (h : Blocks s.out) : Blocks (runLine r s).out := by
  unfold runLine
  split
  · exact h.prompt
  · split
    · exact Blocks.prompt (s := s.put [.d 1]) (.one _ _ h (by simp) (by simp))
    · exact Blocks.prompt (s := { s.put [.c, .ran s.input r.code, .d (r.code.getD 1)] with input := [] }) (.cmd _ _ _ h)

theorem Blocks.step (inc ai : Str → Bool) {s : S} (h : Blocks s.out) (e : Ev) : Blocks (step inc ai s e).out := by
  cases e with
  | edit l => exact .one _ _ h (by simp) (by simp)
  | enter r =>
    simp only [Ttl.step, enter]
    split
    · exact Blocks.prompt (s := { s with multi := _, input := [] }) h
    · split
      · have : Blocks (s.out ++ [.ai (s.multi ++ s.input)]) := .one _ _ h (by simp) (by simp)
        split
        · exact Blocks.prompt (s := { s.put [.ai (s.multi ++ s.input)] with multi := [], input := [] }) this
        · exact this
      · exact Blocks.line (s := { s with multi := [], input := _ }) h
  | background r => exact Blocks.line h
  | interrupt => exact Blocks.prompt (s := s.put [.d 130]) (.one _ _ h (by simp) (by simp))
  | clearScreen => exact h.prompt

theorem Blocks.all (inc ai : Str → Bool) (evs : List Ev) : Blocks (runAll inc ai evs).out := by
  unfold runAll
  have : ∀ (evs : List Ev) (s : S), Blocks s.out → Blocks (evs.foldl (Ttl.step inc ai) s).out := by
    intro evs
    induction evs with
    | nil => exact fun _ h => h
    | cons e es ih => exact fun s h => ih _ (h.step inc ai e)
  exact this evs _ (Blocks.prompt (s := ⟨[], [], []⟩) .nil)

theorem Blocks.around {l : List Out} (h : Blocks l) :
    (∀ pre x r post, l = pre ++ .ran x r :: post →
      (∃ pre', pre = pre' ++ [.c]) ∧ ∃ post', post = .d (r.getD 1) :: post') ∧
    (∀ pre post, l = pre ++ .c :: post → ∃ x r post', post = .ran x r :: .d (r.getD 1) :: post') := by
  induction h with
  | nil => exact ⟨fun pre x r post h => by simp at h, fun pre post h => by simp at h⟩
  | one l o _ h1 h2 ih =>
    refine ⟨fun pre x r post h => ?_, fun pre post h => ?_⟩
    · rcases List.eq_nil_or_concat post with rfl | ⟨post, z, rfl⟩
      · have := (List.append_inj' h rfl).2
        simp at this; exact absurd this (h1 x r)
      · rw [List.concat_eq_append] at h ⊢
        have h' : l ++ [o] = (pre ++ .ran x r :: post) ++ [z] := by simpa using h
        have := ih.1 pre x r post (List.append_inj' h' rfl).1
        obtain ⟨a, b, rfl⟩ := this
        exact ⟨a, _, rfl⟩
    · rcases List.eq_nil_or_concat post with rfl | ⟨post, z, rfl⟩
      · have := (List.append_inj' h rfl).2
        simp at this; exact absurd this h2
      · rw [List.concat_eq_append] at h ⊢
        have h' : l ++ [o] = (pre ++ .c :: post) ++ [z] := by simpa using h
        obtain ⟨x, r, p, rfl⟩ := ih.2 pre post (List.append_inj' h' rfl).1
        exact ⟨x, r, _, rfl⟩
  | cmd l x r _ ih =>
    have three : ∀ (pre post : List Out) (o : Out), l ++ [.c, .ran x r, .d (r.getD 1)] = pre ++ o :: post →
        (post = [] ∧ o = .d (r.getD 1)) ∨ (post = [.d (r.getD 1)] ∧ o = .ran x r ∧ pre = l ++ [.c]) ∨
        (post = [.ran x r, .d (r.getD 1)] ∧ o = .c) ∨
        (∃ p, post = p ++ [.c, .ran x r, .d (r.getD 1)] ∧ l = pre ++ o :: p) := by
      intro pre post o h
      rcases List.append_eq_append_iff.1 h with ⟨a, h1, h2⟩ | ⟨a, h1, h2⟩
      · match a, h1, h2 with
        | [], h1, h2 => simp at h2; grind
        | [x1], h1, h2 => simp at h2; grind
        | [x1, x2], h1, h2 => simp at h2; grind
        | x1 :: x2 :: x3 :: t, h1, h2 => simp at h2
      · cases a with
        | nil => simp at h2; grind
        | cons y ys =>
          rw [List.cons_append, List.cons.injEq] at h2
          exact Or.inr (Or.inr (Or.inr ⟨ys, h2.2, by rw [h1, h2.1]⟩))
    refine ⟨fun pre y q post h => ?_, fun pre post h => ?_⟩
    · rcases three pre post _ h with ⟨_, h⟩ | ⟨rfl, h, rfl⟩ | ⟨_, h⟩ | ⟨p, rfl, hl⟩
      · simp at h
      · simp at h; obtain ⟨_, rfl⟩ := h; exact ⟨⟨_, rfl⟩, _, rfl⟩
      · simp at h
      · obtain ⟨a, b, rfl⟩ := ih.1 pre y q p hl
        exact ⟨a, _, rfl⟩
    · rcases three pre post _ h with ⟨_, h⟩ | ⟨_, h, _⟩ | ⟨rfl, h⟩ | ⟨p, rfl, hl⟩
      · simp at h
      · simp at h
      · exact ⟨_, _, _, rfl⟩
      · obtain ⟨y, q, p, rfl⟩ := ih.2 pre p hl
        exact ⟨y, q, _, rfl⟩

/-- The main prompt follows its mark. -/
def MainOk (l : List Out) : Prop := ∀ pre post, l = pre ++ .main :: post → ∃ pre', pre = pre' ++ [.a]

theorem MainOk.snoc {l : List Out} (h : MainOk l) {o : Out} (ho : o ≠ .main) : MainOk (l ++ [o]) := by
  intro pre post e
  rcases List.eq_nil_or_concat post with rfl | ⟨post, z, rfl⟩
  · have := (List.append_inj' e rfl).2
    simp at this; exact absurd this ho
  · rw [List.concat_eq_append] at e
    have e' : l ++ [o] = (pre ++ .main :: post) ++ [z] := by simpa using e
    exact h pre post (List.append_inj' e' rfl).1

theorem MainOk.prompt {s : S} (h : MainOk s.out) : MainOk (printPrompt s).out := by
  unfold printPrompt S.put
  split
  · exact h.snoc (by simp)
  · intro pre post e
    dsimp only at e
    rcases List.eq_nil_or_concat post with rfl | ⟨post, z, rfl⟩
    · have e' : (s.out ++ [.a]) ++ [.main] = pre ++ [Out.main] := by simpa using e
      exact ⟨_, (List.append_inj' e' rfl).1.symm⟩
    · rw [List.concat_eq_append] at e
      have e' : (s.out ++ [.a]) ++ [.main] = (pre ++ .main :: post) ++ [z] := by simpa using e
      exact (h.snoc (o := .a) (by simp)) pre post (List.append_inj' e' rfl).1

theorem MainOk.line {r : Res} {s : S} (h : MainOk s.out) : MainOk (runLine r s).out := by
  unfold runLine
  split
  · exact h.prompt
  · split
    · exact MainOk.prompt (s := s.put [.d 1]) (h.snoc (by simp))
    · refine MainOk.prompt (s := { s.put [.c, .ran s.input r.code, .d (r.code.getD 1)] with input := [] }) ?_
      have := ((h.snoc (o := .c) (by simp)).snoc (o := .ran s.input r.code) (by simp)).snoc (o := .d (r.code.getD 1)) (by simp)
      simpa [S.put] using this

theorem MainOk.step (inc ai : Str → Bool) {s : S} (h : MainOk s.out) (e : Ev) : MainOk (step inc ai s e).out := by
  cases e with
  | edit l => exact h.snoc (by simp)
  | enter r =>
    simp only [Ttl.step, enter]
    split
    · exact MainOk.prompt (s := { s with multi := _, input := [] }) h
    · split
      · have : MainOk (s.out ++ [.ai (s.multi ++ s.input)]) := h.snoc (by simp)
        split
        · exact MainOk.prompt (s := { s.put [.ai (s.multi ++ s.input)] with multi := [], input := [] }) this
        · exact this
      · exact MainOk.line (s := { s with multi := [], input := _ }) h
  | background r => exact MainOk.line h
  | interrupt => exact MainOk.prompt (s := s.put [.d 130]) (h.snoc (by simp))
  | clearScreen => exact h.prompt

theorem MainOk.all (inc ai : Str → Bool) (evs : List Ev) : MainOk (runAll inc ai evs).out := by
  unfold runAll
  have : ∀ (evs : List Ev) (s : S), MainOk s.out → MainOk (evs.foldl (Ttl.step inc ai) s).out := by
    intro evs
    induction evs with
    | nil => exact fun _ h => h
    | cons e es ih => exact fun s h => ih _ (h.step inc ai e)
  exact this evs _ (MainOk.prompt (s := ⟨[], [], []⟩) (fun pre post h => by simp at h))

/-- Whatever is typed, a command run from the prompt stands between a mark for the start of its output and one for its end, which tells its
result (1 for an error); no start is marked otherwise; and the main prompt is marked. -/
theorem C147_marks_partial (inc ai : Str → Bool) (evs : List Ev) :
    (∀ pre x r post, (runAll inc ai evs).out = pre ++ .ran x r :: post →
      (∃ pre', pre = pre' ++ [.c]) ∧ ∃ post', post = .d (r.getD 1) :: post') ∧
    (∀ pre post, (runAll inc ai evs).out = pre ++ .c :: post → ∃ x r post', post = .ran x r :: .d (r.getD 1) :: post') ∧
    (∀ pre post, (runAll inc ai evs).out = pre ++ .main :: post → ∃ pre', pre = pre' ++ [.a]) :=
  ⟨(Blocks.all inc ai evs).around.1, (Blocks.all inc ai evs).around.2, MainOk.all inc ai evs⟩

/-- The prompt drawn last. -/
def lastPrompt (l : List Out) : Option Out := l.reverse.find? fun o => o = .main || o = .cont

/-- The prompt drawn last says whether the line goes on. -/
def Truthful (s : S) : Prop := lastPrompt s.out = some (if s.multi = [] then .main else .cont)

/-- Ctrl+C and a pipe into the AI without an answer leave the old prompt if lines are kept. -/
def Harmless (ai : Str → Bool) (s : S) : Ev → Prop
  | .interrupt => s.multi = []
  | .enter r => ai (s.multi ++ s.input) = true → r.ok = false → s.multi = []
  | _ => True

theorem lastPrompt_snoc (l : List Out) (o : Out) :
    lastPrompt (l ++ [o]) = if o = .main ∨ o = .cont then some o else lastPrompt l := by
  unfold lastPrompt
  by_cases h : o = .main ∨ o = .cont
  · rw [if_pos h]; simp; grind
  · rw [if_neg h]; simp; grind

theorem truthful_prompt (s : S) : Truthful (printPrompt s) := by
  unfold Truthful printPrompt S.put
  split
  · next h => dsimp only; rw [lastPrompt_snoc]; simp
  · next h =>
    have h : s.multi = [] := by simpa using h
    dsimp only
    have e : s.out ++ [Out.a, Out.main] = (s.out ++ [Out.a]) ++ [Out.main] := by simp
    rw [e, lastPrompt_snoc]; simp [h]

theorem truthful_line (r : Res) (s : S) : Truthful (runLine r s) := by
  unfold runLine
  split
  · exact truthful_prompt _
  · split <;> exact truthful_prompt _

theorem printPrompt_multi (s : S) : (printPrompt s).multi = s.multi := by
  unfold printPrompt; split <;> rfl

theorem truthful_step (inc ai : Str → Bool) (s : S) (h : Truthful s) (e : Ev) (he : Harmless ai s e) : Truthful (step inc ai s e) := by
  cases e with
  | edit l =>
    show lastPrompt (s.out ++ [.b]) = _
    rw [lastPrompt_snoc, if_neg (by simp)]
    exact h
  | enter r =>
    simp only [step, enter]
    split
    · exact truthful_prompt _
    · split
      · next hi =>
        split
        · exact truthful_prompt _
        · next hr =>
          have hm : s.multi = [] := he hi (by simpa using hr)
          show lastPrompt (s.out ++ [.ai _]) = _
          rw [lastPrompt_snoc, if_neg (by simp)]
          unfold Truthful at h
          rw [hm] at h
          exact h
      · exact truthful_line _ _
  | background r => exact truthful_line _ _
  | interrupt =>
    have hm : s.multi = [] := he
    have h' := truthful_prompt (s.put [.d 130])
    unfold Truthful at h' ⊢
    rw [printPrompt_multi] at h'
    have : (s.put [.d 130]).multi = [] := hm
    rw [this] at h'
    exact h'
  | clearScreen => exact truthful_prompt s

/-- The states passed through. -/
def Along (inc ai : Str → Bool) : S → List Ev → Prop
  | _, [] => True
  | s, e :: es => Harmless ai s e ∧ Along inc ai (step inc ai s e) es

/-- Unless Ctrl+C or a pipe into the AI without an answer comes while lines are kept, the prompt tells whether the line typed next goes on. -/
theorem C147_prompt_partial (inc ai : Str → Bool) (evs : List Ev) (h : Along inc ai start evs) : Truthful (runAll inc ai evs) := by
  unfold runAll
  have : ∀ (evs : List Ev) (s : S), Truthful s → Along inc ai s evs → Truthful (evs.foldl (step inc ai) s) := by
    intro evs
    induction evs with
    | nil => exact fun _ h _ => h
    | cons e es ih => exact fun s h ha => ih _ (truthful_step inc ai s h e ha.1) ha.2
  exact this evs start (truthful_prompt _) h

/-- Enter runs all lines kept and the one typed, and keeps none. -/
theorem C147_enter_partial (inc ai : Str → Bool) (r : Res) (s : S) (hr : r.ok = true)
    (h1 : inc (s.multi ++ s.input) = false) (h2 : ai (s.multi ++ s.input) = false) (h3 : s.multi ++ s.input ≠ []) :
    (enter inc ai r s).out = s.out ++ [.c, .ran (s.multi ++ s.input) r.code, .d (r.code.getD 1), .a, .main] ∧
    (enter inc ai r s).multi = [] ∧ (enter inc ai r s).input = [] := by
  simp [enter, h1, h2, runLine, hr, printPrompt, S.put]
  grind

/-- A line that needs another one is kept whole, and the other prompt is drawn. -/
theorem C147_keep_partial (inc ai : Str → Bool) (r : Res) (s : S) (h1 : inc (s.multi ++ s.input) = true) :
    enter inc ai r s = ⟨s.multi ++ s.input ++ ['\n'], [], s.out ++ [.cont]⟩ := by
  simp [enter, h1, printPrompt, S.put]

/-- Texts with an open quote, for the examples. -/
def openQuote (s : Str) : Bool := (s.filter (· = '\'')).length % 2 = 1

example : (runAll openQuote (fun _ => false) [.edit c!"echo 'a", .enter ⟨true, some 0⟩, .edit c!"b'", .enter ⟨true, some 3⟩]).out =
    [.a, .main, .b, .cont, .b, .c, .ran c!"echo 'a\nb'" (some 3), .d 3, .a, .main] := by decide +kernel

/-- After Ctrl+C the prompt for further lines is drawn although they were thrown away, whatever was kept; no mark tells of the prompt. -/
theorem C147_interrupt_violated (s : S) (h : s.multi ≠ []) :
    ¬ Truthful (interrupt s) ∧ (interrupt s).multi = [] ∧ (interrupt s).out = s.out ++ [.d 130, .cont] := by
  have e : (interrupt s).out = s.out ++ [.d 130, .cont] := by simp [interrupt, printPrompt, S.put, h]
  refine ⟨?_, rfl, e⟩
  unfold Truthful
  rw [e]
  have e2 : s.out ++ [Out.d 130, Out.cont] = (s.out ++ [.d 130]) ++ [.cont] := by simp
  rw [e2, lastPrompt_snoc]
  simp [interrupt]

example : (runAll openQuote (fun _ => false) [.edit c!"echo 'a", .enter ⟨true, some 0⟩, .interrupt]).out =
    [.a, .main, .b, .cont, .d 130, .cont] := by decide +kernel

/-- Alt+Enter after a line that was kept runs the last line alone, and keeps the others for the next command. -/
theorem C147_background_violated (r : Res) (s : S) (hr : r.ok = true) (h : s.multi ≠ []) (hi : s.input ≠ []) :
    (background r s).out = s.out ++ [.c, .ran s.input r.code, .d (r.code.getD 1), .cont] ∧
    (background r s).multi = s.multi ∧ s.input ≠ s.multi ++ s.input := by
  refine ⟨by simp [background, runLine, hi, hr, printPrompt, S.put, h], by simp [background, runLine, hi, hr, printPrompt_multi, S.put], ?_⟩
  intro e
  have := congrArg List.length e
  rw [List.length_append] at this
  have := List.length_pos_iff.2 h
  omega

/-- What a pipe into the AI prints is between no marks, and without an answer there is no prompt after it. -/
theorem C147_ai_violated (inc ai : Str → Bool) (c : Option Int) (s : S) (h1 : inc (s.multi ++ s.input) = false)
    (h2 : ai (s.multi ++ s.input) = true) :
    (enter inc ai ⟨true, c⟩ s).out = s.out ++ [.ai (s.multi ++ s.input), .a, .main] ∧
    (enter inc ai ⟨false, c⟩ s).out = s.out ++ [.ai (s.multi ++ s.input)] := by
  simp [enter, h1, h2, printPrompt, S.put]

end Dsh.Ttl
