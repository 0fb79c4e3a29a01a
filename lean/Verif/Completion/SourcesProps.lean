import Verif.Completion.Sources
import Verif.Completion.LiveProps
/-!
# C163–C166: services, tasks, scripts and the external completer
-/
namespace Dsh.Sources
open Dsh.CmdLine Dsh.Live

/-! ## C163: specification -/

/-- A line is blank or a comment. -/
def Blank (l : Str) : Prop := trim l = [] ∨ (trim l).head? = some '#'

/-- A line with something on it, further right than `n` columns. -/
def Deeper (n : Nat) (l : Str) : Prop := ¬ Blank l ∧ n < indent l

/-- The name of a service as it is usually written. -/
def Plain (n : Str) : Prop :=
  n ≠ [] ∧ (∀ c ∈ n, rustWhitespace c = false ∧ c ≠ ':') ∧ n.head? ≠ some '-' ∧ n.head? ≠ some '#'

/-- A service: its name on a line, `k` columns from the left; below it, further right, what it is, and
blank lines and comments wherever they stand. -/
structure Service (k : Nat) where
  name : Str
  body : List Str
  plain : Plain name
  deeper : ∀ l ∈ body, Blank l ∨ Deeper k l

/-- The lines of a service. -/
def Service.lines {k : Nat} (s : Service k) : List Str := (List.replicate k ' ' ++ s.name ++ [':']) :: s.body

/-! ### Lemmas -/

theorem skipped_iff (l : Str) : skipped l = true ↔ Blank l := by
  unfold skipped Blank
  simp

theorem blank_ws : rustWhitespace ' ' = true := by decide

theorem takeWhile_blanks (k : Nat) {s : Str} (h : ∀ c ∈ s.head?, rustWhitespace c = false) :
    (List.replicate k ' ' ++ s).takeWhile rustWhitespace = List.replicate k ' ' := by
  induction k with
  | zero =>
    cases s with
    | nil => rfl
    | cons c s => simp [h c (by simp)]
  | succ k ih => rw [List.replicate_succ, List.cons_append, List.takeWhile_cons, blank_ws, if_pos rfl, ih]

theorem trimStart_blanks (k : Nat) (s : Str) : trimStart (List.replicate k ' ' ++ s) = trimStart s := by
  unfold trimStart
  induction k with
  | zero => rfl
  | succ k ih => rw [List.replicate_succ, List.cons_append, List.dropWhile_cons, blank_ws, if_pos rfl, ih]

theorem trim_blanks (k : Nat) (s : Str) : trim (List.replicate k ' ' ++ s) = trim s := by
  unfold trim
  rw [trimStart_blanks]

theorem indent_blanks (k : Nat) {s : Str} (h : ∀ c ∈ s.head?, rustWhitespace c = false) :
    indent (List.replicate k ' ' ++ s) = k := by
  unfold indent
  rw [takeWhile_blanks k h, List.length_replicate]

theorem Plain.head {n : Str} (h : Plain n) (rest : Str) : ∀ c ∈ (n ++ rest).head?, rustWhitespace c = false := by
  obtain ⟨h1, h2, -⟩ := h
  cases n with
  | nil => exact absurd rfl h1
  | cons a n => intro c hc; simp at hc; rw [← hc]; exact (h2 a (by simp)).1

theorem Plain.trim_colon {n : Str} (h : Plain n) : trim (n ++ [':']) = n ++ [':'] :=
  Live.trim_ends (h.head _) (by simp; decide)

theorem noColons_colon {n : Str} (h : ∀ c ∈ n, c ≠ ':') : noColons (n ++ [':']) = n := by
  unfold noColons
  rw [List.reverse_append]
  simp only [List.reverse_cons, List.reverse_nil, List.nil_append, List.cons_append, List.dropWhile_cons, decide_true, if_true]
  have : n.reverse.dropWhile (fun c => decide (c = ':')) = n.reverse := by
    cases hr : n.reverse with
    | nil => rfl
    | cons c r =>
      have : c ≠ ':' := h c (by rw [← List.mem_reverse, hr]; simp)
      simp [this]
  rw [this, List.reverse_reverse]

theorem Plain.first {n : Str} (h : Plain n) (rest : Str) : (n ++ rest).head? = n.head? := by
  cases n with
  | nil => exact absurd rfl h.1
  | cons a n => rfl

/-- What the line of a service gives. -/
theorem service_line {n : Str} (h : Plain n) (k : Nat) :
    skipped (List.replicate k ' ' ++ n ++ [':']) = false ∧ indent (List.replicate k ' ' ++ n ++ [':']) = k ∧
      keyOf (List.replicate k ' ' ++ n ++ [':']) = some n := by
  have ht : trim (List.replicate k ' ' ++ n ++ [':']) = n ++ [':'] := by
    rw [List.append_assoc, trim_blanks, h.trim_colon]
  refine ⟨?_, ?_, ?_⟩
  · unfold skipped
    rw [ht, h.first]
    have := h.2.2.2
    cases n with
    | nil => exact absurd rfl h.1
    | cons a n => simpa using this
  · rw [List.append_assoc, indent_blanks k (h.head _)]
  · unfold keyOf
    rw [ht]
    dsimp only
    rw [h.first, if_neg h.2.2.1, if_neg (by simp), noColons_colon (fun c hc => (h.2.1 c hc).2), Live.trim_id (fun c hc => (h.2.1 c hc).1),
      if_neg]
    have hs : n.contains ' ' = false := by
      rw [Bool.eq_false_iff]
      intro hc
      have := (h.2.1 ' ' (by simpa using hc)).1
      exact absurd this (by decide)
    have : n.isEmpty = false := by
      cases n with
      | nil => exact absurd rfl h.1
      | cons a n => rfl
    rw [hs, this]
    simp

/-- Below a service, nothing is taken. -/
theorem servicesFrom_body {k : Nat} (base : Nat) (hk : base < k) (body rest : List Str)
    (h : ∀ l ∈ body, Blank l ∨ Deeper k l) : servicesFrom base (some k) (body ++ rest) = servicesFrom base (some k) rest := by
  induction body with
  | nil => rfl
  | cons l body ih =>
    have ih := ih (fun x hx => h x (List.mem_cons_of_mem _ hx))
    rw [List.cons_append, servicesFrom]
    rcases h l List.mem_cons_self with hb | ⟨hb, hd⟩
    · rw [if_pos ((skipped_iff l).2 hb), ih]
    · rw [if_neg (fun hs => hb ((skipped_iff l).1 hs)), if_neg (by omega)]
      cases keyOf l with
      | none => exact ih
      | some key => dsimp only; rw [if_neg (by omega), ih]

/-- What ends the services: the end, or a line with something on it at the left. -/
def Ends (base : Nat) (after : List Str) : Prop :=
  ∃ blanks l, (after = blanks ∨ ∃ x, after = blanks ++ x :: l ∧ ¬ Blank x ∧ indent x ≤ base) ∧ ∀ b ∈ blanks, Blank b

theorem servicesFrom_blanks (base : Nat) (depth : Option Nat) (blanks rest : List Str) (h : ∀ l ∈ blanks, Blank l) :
    servicesFrom base depth (blanks ++ rest) = servicesFrom base depth rest := by
  induction blanks with
  | nil => rfl
  | cons l body ih =>
    rw [List.cons_append, servicesFrom.eq_def]
    dsimp only
    rw [if_pos ((skipped_iff l).2 (h l List.mem_cons_self)), ih (fun x hx => h x (List.mem_cons_of_mem _ hx))]

theorem servicesFrom_ends {base : Nat} {after : List Str} (h : Ends base after) (depth : Option Nat) :
    servicesFrom base depth after = [] := by
  obtain ⟨blanks, l, h1, h2⟩ := h
  rcases h1 with rfl | ⟨x, rfl, hx, hi⟩
  · rw [← List.append_nil after, servicesFrom_blanks base depth after [] h2]
    cases depth <;> rfl
  · rw [servicesFrom_blanks base depth blanks _ h2, servicesFrom.eq_def]
    dsimp only
    rw [if_neg (fun hs => hx ((skipped_iff x).1 hs)), if_pos hi]

theorem servicesFrom_services {base k : Nat} (hk : base < k) (ss : List (Service k)) {after : List Str} (ha : Ends base after) :
    servicesFrom base (some k) (ss.flatMap Service.lines ++ after) = ss.map (·.name) := by
  induction ss with
  | nil => exact servicesFrom_ends ha _
  | cons s ss ih =>
    obtain ⟨h1, h2, h3⟩ := service_line s.plain k
    rw [List.flatMap_cons, List.append_assoc, Service.lines, List.cons_append, servicesFrom.eq_def]
    dsimp only
    rw [h1, h2, h3]
    dsimp only
    rw [if_neg (by simp), if_neg (by omega), if_pos rfl, servicesFrom_body base hk s.body _ s.deeper, ih]
    rfl

theorem firsts_nodup (seen l : List Str) (h : l.Nodup) (hs : ∀ x ∈ l, x ∉ seen) : firsts seen l = l := by
  induction l generalizing seen with
  | nil => rfl
  | cons n l ih =>
    rw [firsts]
    have : seen.contains n = false := by simpa using hs n List.mem_cons_self
    rw [this]
    simp only [Bool.false_eq_true, if_false]
    rw [ih (n :: seen) (List.nodup_cons.1 h).2]
    intro x hx
    rw [List.mem_cons, not_or]
    exact ⟨fun he => (List.nodup_cons.1 h).1 (he ▸ hx), hs x (List.mem_cons_of_mem _ hx)⟩

theorem servicesBefore_head (head rest : List Str) (h : ∀ l ∈ head, trim l ≠ c!"services:") :
    servicesBefore (head ++ rest) = servicesBefore rest := by
  induction head with
  | nil => rfl
  | cons l head ih =>
    have ih := ih (fun x hx => h x (List.mem_cons_of_mem _ hx))
    rw [List.cons_append, servicesBefore, ih, if_neg (h l List.mem_cons_self), ite_self]

theorem services_line (base : Nat) : skipped (List.replicate base ' ' ++ c!"services:") = false ∧
    trim (List.replicate base ' ' ++ c!"services:") = c!"services:" ∧ indent (List.replicate base ' ' ++ c!"services:") = base := by
  have ht : trim (List.replicate base ' ' ++ c!"services:") = c!"services:" := by rw [trim_blanks]; decide
  refine ⟨?_, ht, indent_blanks base (by decide)⟩
  unfold skipped
  rw [ht]
  decide

/-- **C163, the names of the services.** In a file written in blocks — anything without a line `services:`,
then `services:`, then the services, all at the same column, each with its lines further right — exactly the
names of the services are read, in their order. -/
theorem C163_names_partial {k : Nat} (hk : 0 < k) (head blanks after : List Str) (ss : List (Service k))
    (hh : ∀ l ∈ head, trim l ≠ c!"services:") (hb : ∀ l ∈ blanks, Blank l) (ha : Ends 0 after)
    (hn : (ss.map (·.name)).Nodup)
    (hl : ∀ l ∈ head ++ c!"services:" :: (blanks ++ (ss.flatMap Service.lines ++ after)), '\n' ∉ l ∧ ¬ ['\r'].isSuffixOf l) :
    services ((head ++ c!"services:" :: (blanks ++ (ss.flatMap Service.lines ++ after))).flatMap (· ++ ['\n'])) = ss.map (·.name) := by
  have h1 := Record.lines_text (head ++ c!"services:" :: (blanks ++ (ss.flatMap Service.lines ++ after)))
    (fun p hp => (hl p hp).1) (fun p hp => (hl p hp).2) [] (by simp)
  rw [List.append_nil, if_pos rfl, List.append_nil] at h1
  unfold services
  rw [h1, servicesBefore_head head _ hh, servicesBefore]
  obtain ⟨s1, s2, s3⟩ := services_line 0
  simp only [List.replicate_zero, List.nil_append] at s1 s2 s3
  rw [if_neg (by rw [s1]; simp), if_pos s2, s3, servicesFrom_blanks 0 none blanks _ hb]
  cases ss with
  | nil => rw [List.flatMap_nil, List.nil_append, servicesFrom_ends ha]; rfl
  | cons s ss =>
    obtain ⟨l1, l2, l3⟩ := service_line s.plain k
    rw [List.flatMap_cons, List.append_assoc, Service.lines, List.cons_append, servicesFrom]
    rw [l1, l2, l3]
    dsimp only
    rw [if_neg (by simp), if_neg (by omega), servicesFrom_body 0 hk s.body _ s.deeper, servicesFrom_services hk ss ha]
    exact firsts_nodup [] ((s :: ss).map (·.name)) hn (by simp)

/-- **C163, once.** Whatever the file is, no name is offered twice, and each is a key of a line of it. -/
theorem C163_once_partial (text : Str) : (services text).Nodup ∧ ∀ n ∈ services text, ∃ l ∈ Record.lines text, keyOf l = some n := by
  have h1 : ∀ l seen, (firsts seen l).Nodup ∧ ∀ n ∈ firsts seen l, n ∉ seen ∧ n ∈ l := by
    intro l
    induction l with
    | nil => intro seen; exact ⟨List.nodup_nil, nofun⟩
    | cons a l ih =>
      intro seen
      rw [firsts]
      split
      · exact ⟨(ih seen).1, fun n hn => ⟨((ih seen).2 n hn).1, List.mem_cons_of_mem _ ((ih seen).2 n hn).2⟩⟩
      · rename_i ha
        have := ih (a :: seen)
        refine ⟨List.nodup_cons.2 ⟨fun hm => (this.2 a hm).1 List.mem_cons_self, this.1⟩, ?_⟩
        intro n hn
        rcases List.mem_cons.1 hn with rfl | hn
        · exact ⟨by simpa using ha, List.mem_cons_self⟩
        · exact ⟨fun hm => (this.2 n hn).1 (List.mem_cons_of_mem _ hm), List.mem_cons_of_mem _ (this.2 n hn).2⟩
  have h2 : ∀ (ls : List Str) base depth, ∀ n ∈ servicesFrom base depth ls, ∃ l ∈ ls, keyOf l = some n := by
    intro ls base
    induction ls with
    | nil => intro depth n hn; simp [servicesFrom] at hn
    | cons a ls ih =>
      intro depth n hn
      have up : ∀ depth, n ∈ servicesFrom base depth ls → ∃ l ∈ a :: ls, keyOf l = some n := fun depth h =>
        let ⟨l, h1, h2⟩ := ih depth n h; ⟨l, List.mem_cons_of_mem _ h1, h2⟩
      rw [servicesFrom.eq_def] at hn
      dsimp only at hn
      split at hn
      · exact up _ hn
      · split at hn
        · cases hn
        · split at hn
          · exact up _ hn
          · rename_i key hk
            split at hn
            · rcases List.mem_cons.1 hn with rfl | hn
              · exact ⟨a, List.mem_cons_self, hk⟩
              · exact up _ hn
            · split at hn
              · rcases List.mem_cons.1 hn with rfl | hn
                · exact ⟨a, List.mem_cons_self, hk⟩
                · exact up _ hn
              · exact up _ hn
  have h3 : ∀ (ls : List Str), ∀ n ∈ servicesBefore ls, ∃ l ∈ ls, keyOf l = some n := by
    intro ls
    induction ls with
    | nil => intro n hn; simp [servicesBefore] at hn
    | cons a ls ih =>
      intro n hn
      rw [servicesBefore] at hn
      have up : (∃ l ∈ ls, keyOf l = some n) → ∃ l ∈ a :: ls, keyOf l = some n := fun ⟨l, h1, h2⟩ => ⟨l, List.mem_cons_of_mem _ h1, h2⟩
      split at hn
      · exact up (ih n hn)
      · split at hn
        · exact up (h2 _ _ _ n hn)
        · exact up (ih n hn)
  exact ⟨(h1 _ []).1, fun n hn => h3 _ n ((h1 _ []).2 n hn).2⟩

/-- A service with a line below it. -/
def web : Service 2 := ⟨c!"web", [c!"    image: x", [], c!"    # front"], by simp only [Plain]; decide, by simp only [Blank, Deeper]; decide⟩

/-- A second. -/
def store : Service 2 := ⟨c!"db", [c!"    environment:", c!"      A: b"], by simp only [Plain]; decide, by simp only [Blank, Deeper]; decide⟩

/-- A file the theorem speaks of. -/
example : services (([c!"version: '3'"] ++ c!"services:" :: ([c!"  # all"] ++ ([web, store].flatMap Service.lines ++ [c!"volumes:", c!"  data:"]))).flatMap (· ++ ['\n'])) =
    [c!"web", c!"db"] :=
  C163_names_partial (by decide) _ _ _ [web, store] (by decide) (by simp only [Blank]; decide)
    ⟨[], [c!"  data:"], .inr ⟨c!"volumes:", rfl, by simp only [Blank]; decide, by decide⟩, nofun⟩ (by decide) (by decide)

/-- **C163, the file.** The file read is that of the innermost directory that has one. -/
theorem C163_file_partial (entry : Dir → Str → Bool) (d e : Dir) (n : Str) (h : composeFile entry d = some (e, n)) :
    n ∈ [c!"compose.yaml", c!"compose.yml", c!"docker-compose.yaml", c!"docker-compose.yml"] ∧ entry e n = true ∧
      ∃ inner, d = inner ++ e ∧ ∀ s, s ≠ [] → s.length ≤ inner.length → s.IsSuffix inner →
        ∀ m ∈ [c!"compose.yaml", c!"compose.yml", c!"docker-compose.yaml", c!"docker-compose.yml"], entry (s ++ e) m = false := by
  have hin : ∀ d e n, composeIn entry d = some (e, n) → e = d ∧ n ∈ composeNames ∧ entry d n = true := by
    intro d e n h
    unfold composeIn at h
    cases hf : composeNames.find? (entry d) with
    | none => rw [hf] at h; cases h
    | some m =>
      rw [hf] at h
      simp only [Option.map_some, Option.some.injEq, Prod.mk.injEq] at h
      obtain ⟨rfl, rfl⟩ := h
      exact ⟨rfl, List.mem_of_find?_eq_some hf, List.find?_some (p := entry d) hf⟩
  induction d with
  | nil =>
    obtain ⟨rfl, h2, h3⟩ := hin _ _ _ h
    exact ⟨h2, h3, [], rfl, fun s hs _ hsuf => absurd (List.suffix_nil.1 hsuf) hs⟩
  | cons c d ih =>
    unfold composeFile at h
    cases hc : composeIn entry (c :: d) with
    | some f =>
      rw [hc] at h
      cases h
      obtain ⟨rfl, h2, h3⟩ := hin _ _ _ hc
      exact ⟨h2, h3, [], rfl, fun s hs _ hsuf => absurd (List.suffix_nil.1 hsuf) hs⟩
    | none =>
      rw [hc] at h
      obtain ⟨h1, h2, inner, h3, h4⟩ := ih h
      refine ⟨h1, h2, c :: inner, by rw [h3]; rfl, ?_⟩
      intro s hs hl hsuf m hm
      rcases List.suffix_cons_iff.1 hsuf with rfl | hsuf
      · unfold composeIn at hc
        rw [Option.map_eq_none_iff, List.find?_eq_none] at hc
        have := hc m hm
        rw [List.cons_append, ← h3]
        simpa using this
      · exact h4 s hs hsuf.length_le hsuf m hm

/-! ### C163 fails -/

theorem servicesBefore_none (ls : List Str) (h : ∀ l ∈ ls, trim l ≠ c!"services:") : servicesBefore ls = [] := by
  have := servicesBefore_head ls [] h
  rw [List.append_nil] at this
  rw [this]; rfl

/-- **C163 fails: `services: # the parts`.** If the line has a comment, or an anchor, no service is known,
whatever the file holds: there must be a line with `services:` and nothing else. -/
theorem C163_heading_violated (text : Str) (h : ∀ l ∈ Record.lines text, trim l ≠ c!"services:") : services text = [] := by
  unfold services
  rw [servicesBefore_none _ h]
  rfl

/-- **C163 fails: `web: # front` and `web: &base`.** If there is more on the line of the first service, its
own keys are taken for services: `key` is offered, and with it the keys at its column in all services; the
services themselves are not. -/
theorem C163_inline_violated {k j : Nat} (hkj : k < j) (name more key : Str) (rest : List Str)
    (hn : Plain name) (hm : more ≠ [] ∧ ∀ c ∈ more.getLast?, rustWhitespace c = false ∧ c ≠ ':') (hkey : Plain key) :
    servicesFrom 0 none ((List.replicate (k + 1) ' ' ++ name ++ c!": " ++ more) :: (List.replicate (j + 1) ' ' ++ key ++ [':']) :: rest) =
      key :: servicesFrom 0 (some (j + 1)) rest ∧
    ∀ n, Plain n → servicesFrom 0 (some (j + 1)) ((List.replicate (k + 1) ' ' ++ n ++ [':']) :: rest) = servicesFrom 0 (some (j + 1)) rest := by
  have hl : (name ++ c!": " ++ more).getLast? = more.getLast? := by
    rw [List.getLast?_append]
    cases hg : more.getLast? with
    | some x => rfl
    | none => exact absurd (List.getLast?_eq_none_iff.1 hg) hm.1
  have ht : trim (List.replicate (k + 1) ' ' ++ name ++ c!": " ++ more) = name ++ c!": " ++ more := by
    rw [List.append_assoc, List.append_assoc, trim_blanks, ← List.append_assoc]
    refine Live.trim_ends ?_ ?_
    · rw [List.append_assoc]; exact hn.head _
    · rw [hl]; exact fun c hc => (hm.2 c hc).1
  have h1 : skipped (List.replicate (k + 1) ' ' ++ name ++ c!": " ++ more) = false := by
    unfold skipped
    rw [ht, List.append_assoc, hn.first]
    have := hn.2.2.2
    cases name with
    | nil => exact absurd rfl hn.1
    | cons a n => simpa using this
  have h2 : indent (List.replicate (k + 1) ' ' ++ name ++ c!": " ++ more) = k + 1 := by
    rw [List.append_assoc, List.append_assoc, indent_blanks (k + 1) (hn.head _)]
  have h3 : keyOf (List.replicate (k + 1) ' ' ++ name ++ c!": " ++ more) = none := by
    unfold keyOf
    rw [ht]
    dsimp only
    rw [hl]
    have : more.getLast? ≠ some ':' := fun he => (hm.2 ':' he).2 rfl
    rw [if_pos this, ite_self]
  obtain ⟨k1, k2, k3⟩ := service_line hkey (j + 1)
  refine ⟨?_, ?_⟩
  · rw [servicesFrom.eq_def]
    dsimp only
    rw [h1, h2, h3]
    dsimp only
    rw [if_neg (by simp), if_neg (by omega), servicesFrom.eq_def]
    dsimp only
    rw [k1, k2, k3]
    dsimp only
    rw [if_neg (by simp), if_neg (by omega)]
  · intro n hn
    obtain ⟨n1, n2, n3⟩ := service_line hn (k + 1)
    rw [servicesFrom]
    rw [n1, n2, n3]
    dsimp only
    rw [if_neg (by simp), if_neg (by omega), if_neg (by omega)]

/-- **C163 fails: another `services:`.** A key of this name inside an earlier part of the file is taken for
the services. -/
theorem C163_nested_violated {b k : Nat} (hk : b < k) (head : List Str) (ss : List (Service k)) (after : List Str)
    (hh : ∀ l ∈ head, trim l ≠ c!"services:") (ha : Ends b after) (s : Service k) :
    servicesBefore (head ++ (List.replicate b ' ' ++ c!"services:") :: ((s :: ss).flatMap Service.lines ++ after)) = (s :: ss).map (·.name) := by
  rw [servicesBefore_head head _ hh, servicesBefore]
  obtain ⟨s1, s2, s3⟩ := services_line b
  obtain ⟨l1, l2, l3⟩ := service_line s.plain k
  rw [if_neg (by rw [s1]; simp), if_pos s2, s3, List.flatMap_cons, List.append_assoc, Service.lines, List.cons_append, servicesFrom]
  rw [l1, l2, l3]
  dsimp only
  rw [if_neg (by simp), if_neg (by omega), servicesFrom_body b hk s.body _ s.deeper, servicesFrom_services hk ss ha]
  rfl

/-- **C163 fails: quoted names** are offered with their quotes. -/
theorem C163_quoted_violated (name : Str) (h : Plain name) (k : Nat) (rest : List Str) :
    servicesFrom 0 none ((List.replicate (k + 1) ' ' ++ (['"'] ++ name ++ ['"']) ++ [':']) :: rest) =
      (['"'] ++ name ++ ['"']) :: servicesFrom 0 (some (k + 1)) rest := by
  have hp : Plain (['"'] ++ name ++ ['"']) := by
    refine ⟨by simp, ?_, by simp, by simp⟩
    intro c hc
    simp only [List.mem_append, List.mem_cons, List.not_mem_nil, or_false] at hc
    rcases hc with (rfl | hc) | rfl
    · decide
    · exact h.2.1 c hc
    · decide
  obtain ⟨l1, l2, l3⟩ := service_line hp (k + 1)
  rw [servicesFrom]
  rw [l1, l2, l3]
  dsimp only
  rw [if_neg (by simp), if_neg (by omega)]

/-- The case of the second theorem above, in a file: the services are `web` and `db`, offered are their
keys `build` and `environment`. -/
example : services c!"services:\n  web: # front\n    build:\n      context: .\n  db:\n    environment:\n      A: b\n" = [c!"build", c!"environment"] := by
  decide +kernel

example : services c!"version: '3'\nservices:\n\n  # front\n  web:\n    build:\n      context: .\n  db:\n    image: x\n    environment:\n      A: b\nvolumes:\n  data:\n" =
    [c!"web", c!"db"] := by
  decide +kernel

/-! ## What is remembered -/

/-- The disks of a history. -/
def disks (w : Disk) : List Ev → List Disk
  | [] => [w]
  | .change w' :: h => w' :: disks w h
  | _ :: h => disks w h

theorem run_disk (w : Disk) (h : List Ev) : (run w h).1 ∈ disks w h := by
  induction h with
  | nil => exact List.mem_singleton.2 rfl
  | cons e h ih =>
    cases e with
    | change w' => exact List.mem_cons_self
    | compose d => exact ih
    | task d => exact ih

/-- All that is remembered was read from one of the disks of the history. -/
structure Read (ds : List Disk) (m : Memory) : Prop where
  services : ∀ k s names, m.services k = some (s, names) →
    ∃ w ∈ ds, ∃ text t, w.file k.1 k.2 = some (text, t) ∧ w.sig k.1 k.2 = s ∧ names = Sources.services text
  tasks : ∀ r s ts, m.tasks r = some (s, ts) → ∃ w ∈ ds, w.taskSig r = s ∧ Saved.detect (w.project r) = some ts

theorem Read.mono {ds ds' : List Disk} {m : Memory} (h : Read ds m) (hs : ∀ w ∈ ds, w ∈ ds') : Read ds' m :=
  ⟨fun k s n hk => let ⟨w, hw, r⟩ := h.services k s n hk; ⟨w, hs w hw, r⟩,
    fun k s n hk => let ⟨w, hw, r⟩ := h.tasks k s n hk; ⟨w, hs w hw, r⟩⟩

theorem Read.load {ds : List Disk} {m : Memory} (h : Read ds m) {w : Disk} (hw : w ∈ ds) (k : Dir × Str) : Read ds (m.load w k).2 := by
  have hf : Read ds (Memory.load.fresh m w k (w.sig k.1 k.2)).2 := by
    unfold Memory.load.fresh
    split
    · exact h
    · rename_i text t hfile
      refine ⟨?_, h.tasks⟩
      intro k' s names hk
      dsimp only at hk
      split at hk
      · rename_i he
        cases hk
        subst he
        exact ⟨w, hw, text, t, hfile, rfl, rfl⟩
      · exact h.services k' s names hk
  unfold Memory.load
  dsimp only
  split
  · split
    · exact h
    · exact hf
  · exact hf

theorem Read.list {ds : List Disk} {m : Memory} (h : Read ds m) {w : Disk} (hw : w ∈ ds) (d : Dir) : Read ds (m.list w d).2 := by
  have hf : Read ds (Memory.list.fresh m w (w.root d) (w.taskSig (w.root d))).2 := by
    unfold Memory.list.fresh
    split
    · exact h
    · rename_i ts hts
      refine ⟨h.services, ?_⟩
      intro r s ts' hr
      dsimp only at hr
      split at hr
      · rename_i he
        cases hr
        subst he
        exact ⟨w, hw, rfl, hts⟩
      · exact h.tasks r s ts' hr
  unfold Memory.list
  dsimp only
  split
  · split
    · exact h
    · exact hf
  · exact hf

theorem Read.compose {ds : List Disk} {m : Memory} (h : Read ds m) {w : Disk} (hw : w ∈ ds) (fuzzy : Str → Str → Bool) (d : Dir) (word : Str) :
    Read ds (m.compose fuzzy w d word).2 := by
  unfold Memory.compose
  split
  · exact h
  · exact h.load hw _

theorem run_read (w : Disk) (h : List Ev) : Read (disks w h) (run w h).2 := by
  induction h with
  | nil => exact ⟨nofun, nofun⟩
  | cons e h ih =>
    cases e with
    | change w' => exact ih.mono (fun x hx => List.mem_cons_of_mem _ hx)
    | compose d => exact ih.compose (run_disk w h) _ d _
    | task d => exact ih.list (run_disk w h) d

/-- **C163, as the file is now.** If any two texts the file had can be told apart by their length and the
time of their change, exactly the services of its present text are offered, those that fit the word. -/
theorem C163_fresh_partial (fuzzy : Str → Str → Bool) (w : Disk) (h : List Ev) (d : Dir) (word : Str) (k : Dir × Str) (text : Str) (t : Nat)
    (hk : composeFile (run w h).1.entry d = some k) (hf : (run w h).1.file k.1 k.2 = some (text, t))
    (hd : ∀ w1 ∈ disks w h, ∀ w2 ∈ disks w h, ∀ t1 x1 t2 x2, w1.file k.1 k.2 = some (t1, x1) → w2.file k.1 k.2 = some (t2, x2) →
      x1 = x2 → Editor.blen t1 = Editor.blen t2 → t1 = t2) :
    ((run w h).2.compose fuzzy (run w h).1 d word).1 = (services text).filter (fits fuzzy word) := by
  have hfresh : ∀ sig, (Memory.load.fresh (run w h).2 (run w h).1 k sig).1 = services text := by
    intro sig
    unfold Memory.load.fresh
    rw [hf]
  have : ((run w h).2.load (run w h).1 k).1 = services text := by
    unfold Memory.load
    dsimp only
    split
    · rename_i s names hm
      split
      · rename_i he
        obtain ⟨w0, hw0, t0, x0, h1, h2, h3⟩ := (run_read w h).services k s names hm
        dsimp only
        rw [h3]
        have hs : w0.sig k.1 k.2 = (run w h).1.sig k.1 k.2 := by rw [h2, he]
        unfold Disk.sig at hs
        rw [h1, hf] at hs
        simp only [Option.map_some, Option.some.injEq, Prod.mk.injEq] at hs
        rw [hd w0 hw0 (run w h).1 (run_disk w h) t0 x0 text t h1 hf hs.1 hs.2]
      · exact hfresh _
    · exact hfresh _
  unfold Memory.compose
  rw [hk]
  dsimp only
  rw [this]

/-- **C163 fails: a change within the clock's step that keeps the length** is not seen, ever: what is
offered are the services of the text before. -/
theorem C163_stale_violated (fuzzy : Str → Str → Bool) (w w' : Disk) (d : Dir) (word : Str) (k : Dir × Str) (text text' : Str) (t : Nat)
    (hk : composeFile w.entry d = some k) (hk' : composeFile w'.entry d = some k)
    (hf : w.file k.1 k.2 = some (text, t)) (hf' : w'.file k.1 k.2 = some (text', t)) (hl : Editor.blen text = Editor.blen text') (n : Nat) :
    ((run w (List.replicate n (.compose d) ++ [.change w', .compose d])).2.compose fuzzy w' d word).1 = (services text).filter (fits fuzzy word) := by
  have hsig : w.sig k.1 k.2 = w'.sig k.1 k.2 := by unfold Disk.sig; rw [hf, hf', Option.map_some, Option.map_some, hl]
  have h0 : (run w [.change w', .compose d]).2.services k = some (w'.sig k.1 k.2, services text) := by
    simp only [run, Memory.compose, hk, Memory.load, Memory.empty, Memory.load.fresh, hf, if_true, hsig]
  have hn : (run w (List.replicate n (.compose d) ++ [.change w', .compose d])).1 = w' ∧
      (run w (List.replicate n (.compose d) ++ [.change w', .compose d])).2.services k = some (w'.sig k.1 k.2, services text) := by
    induction n with
    | zero => exact ⟨rfl, h0⟩
    | succ n ih =>
      rw [List.replicate_succ, List.cons_append, run]
      refine ⟨ih.1, ?_⟩
      dsimp only
      rw [ih.1]
      unfold Memory.compose
      rw [hk']
      dsimp only
      unfold Memory.load
      dsimp only
      rw [ih.2]
      dsimp only
      rw [if_pos rfl]
      exact ih.2
  unfold Memory.compose
  rw [hk']
  dsimp only
  unfold Memory.load
  dsimp only
  rw [hn.2]
  dsimp only
  rw [if_pos rfl]

/-- A directory with a compose file of this text, changed at this time. -/
def composed (text : Str) (t : Nat) : Disk where
  file d n := if d = [c!"p"] ∧ n = c!"compose.yml" then some (text, t) else none
  project _ := {}

/-- A service is added and Tab pressed in a directory below: it is offered. -/
example : ((run (composed c!"services:\n a:\n" 1) [.change (composed c!"services:\n a:\n b:\n" 2), .compose [c!"p"]]).2.compose (fun _ _ => true)
    (composed c!"services:\n a:\n b:\n" 2) [c!"sub", c!"p"] []).1 = [c!"a", c!"b"] :=
  C163_fresh_partial _ (composed c!"services:\n a:\n" 1) [.change (composed c!"services:\n a:\n b:\n" 2), .compose [c!"p"]] [c!"sub", c!"p"] []
    ([c!"p"], c!"compose.yml") c!"services:\n a:\n b:\n" 2 (by decide +kernel) (by decide) (by
      intro w1 h1 w2 h2 t1 x1 t2 x2 e1 e2 hx _
      simp only [disks, List.mem_cons, List.not_mem_nil, or_false] at h1 h2
      rcases h1 with rfl | rfl <;> rcases h2 with rfl | rfl <;> simp [composed] at e1 e2 <;> grind)

/-! ## C164: tasks -/

/-- **C164, as the project is now.** If any two states of the project can be told apart by the watched
files, `task` is offered exactly the tasks that the command `task` would find at the root of the project,
those that fit the word. -/
theorem C164_fresh_partial (fuzzy : Str → Str → Bool) (w : Disk) (h : List Ev) (d : Dir) (word : Str) (ts : List Saved.Task)
    (ht : Saved.detect ((run w h).1.project ((run w h).1.root d)) = some ts)
    (hd : ∀ w1 ∈ disks w h, ∀ w2 ∈ disks w h, ∀ r, w1.taskSig r = w2.taskSig r → w1.project r = w2.project r) :
    ((run w h).2.task fuzzy (run w h).1 d word).1 = (ts.map (·.name)).filter (fits fuzzy word) := by
  have hfresh : ∀ sig, (Memory.list.fresh (run w h).2 (run w h).1 ((run w h).1.root d) sig).1 = ts := by
    intro sig
    unfold Memory.list.fresh
    rw [ht]
  have : ((run w h).2.list (run w h).1 d).1 = ts := by
    unfold Memory.list
    dsimp only
    split
    · rename_i s ts' hm
      split
      · rename_i he
        obtain ⟨w0, hw0, h1, h2⟩ := (run_read w h).tasks _ s ts' hm
        rw [hd w0 hw0 (run w h).1 (run_disk w h) _ (by rw [h1, he]), ht] at h2
        exact (Option.some.inj h2).symm
      · exact hfresh _
    · exact hfresh _
  unfold Memory.task
  dsimp only
  rw [this]

/-- **C164, what is chosen is run.** If the name offered is that of one task only and has no colon, `task`
with this name selects it. -/
theorem C164_run_partial (P : Saved.Project) (ts : List Saved.Task) (h : Saved.detect P = some ts) (t : Saved.Task) (ht : t ∈ ts)
    (hc : ':' ∉ t.name) (hone : ∀ x ∈ ts, x.name = t.name → x = t) :
    Saved.selectTask ts none t.name = .selected t := by
  have hnd : ts.Nodup := by
    unfold Saved.detect at h
    split at h
    · simp only [Option.some.injEq] at h; subst h; exact Saved.dedupFrom_nodup _ _
    · cases h
  have hs : ∀ l : Str, ':' ∉ l → Saved.splitColon l = none := by
    intro l hl
    induction l with
    | nil => rfl
    | cons c l ih =>
      have h1 : c ≠ ':' := fun he => hl (by simp [he])
      have h2 := ih (fun hm => hl (List.mem_cons_of_mem _ hm))
      simp [Saved.splitColon, h1, h2]
  have hr : Saved.resolveTarget ts none t.name = (none, t.name) := by
    unfold Saved.resolveTarget Saved.splitQualified
    rw [hs _ hc]
  have hf : Saved.filtered ts none (some t.name) = [t] := by
    unfold Saved.filtered
    simp only [Option.all_none, Option.all_some]
    have hid : ts.filter (fun _ => true) = ts := List.filter_eq_self.2 (fun _ _ => rfl)
    rw [hid]
    clear h hr hid
    induction ts with
    | nil => cases ht
    | cons x ts ih =>
      rw [List.filter_cons]
      rcases List.mem_cons.1 ht with rfl | ht'
      · rw [if_pos (by simp)]
        congr 1
        rw [List.filter_eq_nil_iff]
        intro y hy hny
        have := hone y (List.mem_cons_of_mem _ hy) (by simpa using hny)
        subst this
        exact (List.nodup_cons.1 hnd).1 hy
      · rw [if_neg]
        · exact ih ht' (fun y hy => hone y (List.mem_cons_of_mem _ hy)) (List.nodup_cons.1 hnd).2
        · intro hx
          have := hone x List.mem_cons_self (by simpa using hx)
          subst this
          exact (List.nodup_cons.1 hnd).1 ht'
  unfold Saved.selectTask
  rw [hr, hf]

/-- **C164 fails: files that are not watched.** `Justfile`, the lock files by which the package manager is
recognised, and files included by a `Makefile` are not among the watched: their changes are not seen for
as long as the shell runs, however often Tab is pressed. -/
theorem C164_unwatched_violated (fuzzy : Str → Str → Bool) (w w' : Disk) (d : Dir) (word : Str) (ts : List Saved.Task)
    (hr : w'.root d = w.root d)
    (hf : ∀ n ∈ [c!"mise.toml", c!"Taskfile.yml", c!"Taskfile.yaml", c!"turbo.json", c!"project.json", c!"package.json",
      c!"Cargo.toml", c!"Makefile", c!"makefile", c!"deno.json", c!"deno.jsonc"], w'.file (w.root d) n = w.file (w.root d) n)
    (ht : Saved.detect (w.project (w.root d)) = some ts) (n : Nat) :
    ((run w (List.replicate n (.task d) ++ [.change w', .task d])).2.task fuzzy w' d word).1 = (ts.map (·.name)).filter (fits fuzzy word) := by
  have hsig : w.taskSig (w.root d) = w'.taskSig (w.root d) := by
    unfold Disk.taskSig
    refine List.map_congr_left (fun n hn => ?_)
    unfold Disk.sig
    rw [hf n hn]
  have h0 : (run w [.change w', .task d]).2.tasks (w.root d) = some (w'.taskSig (w.root d), ts) := by
    simp only [run, Memory.list, Memory.empty, Memory.list.fresh, ht, if_true, hsig]
  have hn : (run w (List.replicate n (.task d) ++ [.change w', .task d])).1 = w' ∧
      (run w (List.replicate n (.task d) ++ [.change w', .task d])).2.tasks (w.root d) = some (w'.taskSig (w.root d), ts) := by
    induction n with
    | zero => exact ⟨rfl, h0⟩
    | succ n ih =>
      rw [List.replicate_succ, List.cons_append, run]
      refine ⟨ih.1, ?_⟩
      dsimp only
      rw [ih.1]
      unfold Memory.list
      dsimp only
      rw [hr, ih.2]
      dsimp only
      rw [if_pos rfl]
      exact ih.2
  unfold Memory.task Memory.list
  dsimp only
  rw [hr, hn.2]
  dsimp only
  rw [if_pos rfl]

/-- **C164 fails: the same name twice.** A name offered, of a script and of a target of the makefile, cannot
be run as it is. -/
theorem C164_twice_violated :
    ∃ ts, Saved.detect { scripts := [c!"test"], makeDb := [c!"test:"] } = some ts ∧ ts.map (·.name) = [c!"test", c!"test"] ∧
      Saved.selectTask ts none c!"test" = .ambiguous ts :=
  ⟨_, rfl, by decide, by decide⟩

/-- A project with a `Justfile`, which is changed. -/
def just (recipes : List Str) : Disk where
  file d n := if d = [c!"p"] ∧ n = c!"Justfile" then some (recipes.flatten, recipes.length) else none
  project d := if d = [c!"p"] then { just := recipes } else {}

/-- The case of the theorem on unwatched files: `build` was renamed to `make`, `build` is still offered. -/
example : ((run (just [c!"build"]) [.task [c!"p"], .change (just [c!"make"]), .task [c!"p"]]).2.task (fun _ _ => true) (just [c!"make"]) [c!"p"] []).1 =
    [c!"build"] :=
  C164_unwatched_violated _ (just [c!"build"]) (just [c!"make"]) [c!"p"] [] [⟨c!"just", c!"build", c!"just build"⟩] (by decide) (by
    intro n hn
    have hr : (just [c!"build"]).root [c!"p"] = [c!"p"] := by decide
    rw [hr]
    have : n ≠ c!"Justfile" := by rintro rfl; exact absurd hn (by decide)
    simp [just, this]) (by decide) 1

/-! ## C165: scripts of the definitions -/

/-- What a template may mention. -/
inductive Var where
  | command | current | sub | arg (i : Fin 10)
deriving DecidableEq

/-- As it is written in the template. -/
def Var.text : Var → Str
  | .command => c!"$COMMAND" | .current => c!"$CURRENT_TOKEN" | .sub => c!"$SUBCOMMAND"
  | .arg i => c!"$ARG_" ++ (toString i.val).toList

/-- A template: texts and mentions. -/
abbrev Piece := Str ⊕ Var

/-- A text in which a `$` is followed by something else than a capital letter. -/
def Quiet : Str → Prop
  | [] => True
  | [c] => c ≠ '$'
  | c :: d :: s => (c = '$' → d.isUpper = false) ∧ Quiet (d :: s)

/-- The template as it is written. -/
def written (ps : List Piece) : Str := ps.flatMap (fun p => p.elim id Var.text)

/-- The template with these values; what has none stays as it is. -/
def filled (value : Var → Option Str) (ps : List Piece) : Str :=
  ps.flatMap (fun p => p.elim id (fun v => (value v).getD v.text))

/-- The values the line gives: the command, the word at the caret, the first subcommand, the arguments. -/
def valueOf (p : Parsed) : Var → Option Str
  | .command => some p.command
  | .current => some p.current
  | .sub => some (p.path.headD [])
  | .arg i => p.args[i.val]?

theorem replace_nil (p new : Str) : replace p new [] = [] := rfl

theorem replace_other {p new s : Str} {c : Char} (h : p.isPrefixOf (c :: s) = false) : replace p new (c :: s) = c :: replace p new s := by
  show replaceFrom p new 0 (c :: s) = _
  rw [replaceFrom, h]
  rfl

theorem replaceFrom_skip (p new : Str) (a s : Str) : replaceFrom p new a.length (a ++ s) = replace p new s := by
  induction a with
  | nil => rfl
  | cons c a ih => rw [List.length_cons, List.cons_append, replaceFrom, ih]

theorem replace_here (c : Char) (p new s : Str) : replace (c :: p) new (c :: p ++ s) = new ++ replace (c :: p) new s := by
  show replaceFrom (c :: p) new 0 (c :: (p ++ s)) = _
  have : (c :: p).isPrefixOf (c :: (p ++ s)) = true := List.isPrefixOf_iff_prefix.2 ⟨s, rfl⟩
  rw [replaceFrom, if_pos this, List.length_cons, Nat.add_sub_cancel, replaceFrom_skip]

/-- A text without `$` is passed over. -/
theorem replace_plain {p : Str} (new : Str) {a : Str} (h : '$' ∉ a) (hp : p.head? = some '$') (s : Str) :
    replace p new (a ++ s) = a ++ replace p new s := by
  induction a with
  | nil => rfl
  | cons c a ih =>
    rw [List.cons_append, replace_other, ih (fun hm => h (List.mem_cons_of_mem _ hm))]
    · rfl
    · cases p with
      | nil => cases hp
      | cons x p =>
        cases hp
        have : c ≠ '$' := fun he => h (by simp [he])
        simp [List.isPrefixOf, Ne.symm this]

/-- A quiet text is passed over. -/
theorem replace_quiet {x : Char} {p : Str} (new : Str) {a : Str} (h : Quiet a) (hx : x.isUpper = true) (s : Str) :
    replace ('$' :: x :: p) new (a ++ s) = a ++ replace ('$' :: x :: p) new s := by
  induction a with
  | nil => rfl
  | cons c a ih =>
    cases a with
    | nil =>
      have hc : c ≠ '$' := h
      exact replace_plain new (a := [c]) (by simp [Ne.symm hc]) rfl s
    | cons d a =>
      obtain ⟨h1, h2⟩ := h
      rw [List.cons_append, replace_other, ih h2]
      · rfl
      · by_cases hc : c = '$'
        · subst hc
          have hne : x ≠ d := fun he => by rw [he, h1 rfl] at hx; cases hx
          simp [List.isPrefixOf, hne]
        · simp [List.isPrefixOf, Ne.symm hc]

theorem var_shape (v : Var) : ∃ x r, v.text = '$' :: x :: r ∧ x.isUpper = true ∧ '$' ∉ x :: r := by
  have : ∀ i : Fin 10, '$' ∉ c!"ARG_" ++ (toString i.val).toList := by decide
  cases v with
  | command => exact ⟨_, _, rfl, by decide, by decide⟩
  | current => exact ⟨_, _, rfl, by decide, by decide⟩
  | sub => exact ⟨_, _, rfl, by decide, by decide⟩
  | arg i => exact ⟨'A', c!"RG_" ++ (toString i.val).toList, rfl, by decide, this i⟩

def allVars : List Var := [.command, .current, .sub] ++ (List.finRange 10).map .arg

theorem mem_allVars (v : Var) : v ∈ allVars := by
  unfold allVars
  cases v with
  | command => simp
  | current => simp
  | sub => simp
  | arg i => simp

theorem var_apart (v w : Var) (h : v ≠ w) (s : Str) : v.text.isPrefixOf (w.text ++ s) = false := by
  have key : ∀ a ∈ allVars, ∀ b ∈ allVars, a ≠ b → a.text.isPrefixOf b.text = false ∧ b.text.isPrefixOf a.text = false := by decide +kernel
  obtain ⟨h1, h2⟩ := key v (mem_allVars v) w (mem_allVars w) h
  rw [Bool.eq_false_iff]
  intro hp
  have hp : v.text <+: w.text ++ s := List.isPrefixOf_iff_prefix.1 hp
  rcases List.prefix_or_prefix_of_prefix hp (List.prefix_append w.text s) with h | h
  · rw [List.isPrefixOf_iff_prefix.2 h] at h1; cases h1
  · rw [List.isPrefixOf_iff_prefix.2 h] at h2; cases h2

/-- One replacement gives one mention its value. -/
theorem replace_var (v : Var) (new : Str) (value : Var → Option Str) (hv : value v = none) (ps : List Piece)
    (hq : ∀ a, Sum.inl a ∈ ps → Quiet a) (hd : ∀ w a, value w = some a → '$' ∉ a) :
    replace v.text new (filled value ps) = filled (fun w => if w = v then some new else value w) ps := by
  obtain ⟨x, r, hx, hu, hr⟩ := var_shape v
  induction ps with
  | nil => rfl
  | cons p ps ih =>
    have ih := ih (fun a ha => hq a (List.mem_cons_of_mem _ ha))
    unfold filled at ih ⊢
    rw [List.flatMap_cons, List.flatMap_cons]
    cases p with
    | inl a =>
      show replace v.text new (a ++ _) = a ++ _
      rw [← ih, hx]
      exact replace_quiet new (hq a List.mem_cons_self) hu _
    | inr w =>
      show replace v.text new ((value w).getD w.text ++ _) = (if w = v then some new else value w).getD w.text ++ _
      by_cases hw : w = v
      · subst hw
        rw [hv, if_pos rfl, ← ih]
        show replace w.text new (w.text ++ _) = new ++ _
        rw [hx]
        exact replace_here '$' (x :: r) new _
      · rw [if_neg hw, ← ih]
        cases hval : value w with
        | some a =>
          show replace v.text new (a ++ _) = a ++ _
          exact replace_plain new (hd w a hval) (by rw [hx]; rfl) _
        | none =>
          show replace v.text new (w.text ++ _) = w.text ++ _
          obtain ⟨y, q, hy, hyu, hyr⟩ := var_shape w
          have hap := var_apart v w (Ne.symm hw)
          generalize List.flatMap _ ps = rest
          have hap := hap rest
          rw [hy] at hap ⊢
          rw [List.cons_append, replace_other (by simpa using hap)]
          rw [replace_plain new (a := y :: q) hyr (by rw [hx]; rfl)]
          rfl

theorem filled_none (ps : List Piece) : filled (fun _ => none) ps = written ps := rfl

theorem filled_congr (f g : Var → Option Str) (ps : List Piece) (h : ∀ v, f v = g v) : filled f ps = filled g ps := by
  have : f = g := funext h
  rw [this]

theorem replaceArgs_filled (args : List Str) (i : Nat) (value : Var → Option Str) (ps : List Piece) (hi : i + args.length ≤ 10)
    (hn : ∀ j : Fin 10, i ≤ j.val → value (.arg j) = none)
    (hq : ∀ a, Sum.inl a ∈ ps → Quiet a) (hd : ∀ w a, value w = some a → '$' ∉ a) (ha : ∀ a ∈ args, '$' ∉ a) :
    replaceArgs (filled value ps) i args =
      filled (fun v => match v with | .arg j => (if i ≤ j.val then args[j.val - i]? else value v) | _ => value v) ps := by
  induction args generalizing i value with
  | nil =>
    rw [replaceArgs]
    refine filled_congr _ _ ps ?_
    intro v
    cases v with
    | arg j =>
      dsimp only
      split
      · rename_i h; rw [hn j h]; rfl
      · rfl
    | _ => rfl
  | cons a args ih =>
    rw [List.length_cons] at hi
    rw [replaceArgs]
    have hlt : i < 10 := by omega
    have h1 := replace_var (.arg ⟨i, hlt⟩) a value (hn _ (Nat.le_refl i)) ps hq hd
    have ht : (Var.arg ⟨i, hlt⟩).text = c!"$ARG_" ++ (toString i).toList := rfl
    rw [ht] at h1
    rw [h1, ih (i + 1)]
    · refine filled_congr _ _ ps ?_
      intro v
      cases v with
      | arg j =>
        dsimp only
        by_cases hj : j.val = i
        · have : j = ⟨i, hlt⟩ := Fin.ext hj
          subst this
          dsimp only
          rw [if_neg (by omega), if_pos rfl, if_pos (Nat.le_refl i), Nat.sub_self]
          rfl
        · have hne : Var.arg j ≠ Var.arg ⟨i, hlt⟩ := by
            intro he; injection he with he; exact hj (congrArg Fin.val he)
          rw [if_neg hne]
          by_cases hle : i ≤ j.val
          · rw [if_pos (by omega), if_pos hle]
            have : j.val - i = (j.val - (i + 1)) + 1 := by omega
            rw [this, List.getElem?_cons_succ]
          · rw [if_neg (by omega), if_neg hle]
      | command => exact if_neg nofun
      | current => exact if_neg nofun
      | sub => exact if_neg nofun
    · omega
    · intro j hj
      have hne : Var.arg j ≠ Var.arg ⟨i, hlt⟩ := by
        intro he; injection he with he; have := congrArg Fin.val he; dsimp only at this; omega
      rw [if_neg hne]
      exact hn j (by omega)
    · intro w b hw
      split at hw
      · cases hw; exact ha a List.mem_cons_self
      · exact hd w b hw
    · exact fun b hb => ha b (List.mem_cons_of_mem _ hb)

/-- **C165, the script.** For a template with up to ten arguments and words without `$`, the script is the
template with every mention replaced by its value. -/
theorem C165_script_partial (ps : List Piece) (p : Parsed) (hq : ∀ a, Sum.inl a ∈ ps → Quiet a) (hn : p.args.length ≤ 10)
    (hc : '$' ∉ p.command) (hw : '$' ∉ p.current) (hs : '$' ∉ p.path.headD []) (ha : ∀ a ∈ p.args, '$' ∉ a) :
    script (written ps) p = filled (valueOf p) ps := by
  unfold script
  rw [← filled_none]
  have h1 := replace_var .command p.command (fun _ => none) rfl ps hq nofun
  have t1 : Var.command.text = c!"$COMMAND" := rfl
  rw [t1] at h1
  rw [h1]
  have h2 := replace_var .current p.current (fun w => if w = .command then some p.command else none) (if_neg nofun) ps hq (by
    intro w a h; split at h
    · cases h; exact hc
    · cases h)
  have t2 : Var.current.text = c!"$CURRENT_TOKEN" := rfl
  rw [t2] at h2
  rw [h2]
  have hd2 : ∀ (w : Var) (a : Str), (if w = .current then some p.current else if w = .command then some p.command else none) = some a → '$' ∉ a := by
    intro w a h
    split at h
    · cases h; exact hw
    · split at h
      · cases h; exact hc
      · cases h
  have h3 := replace_var .sub (p.path.headD []) (fun w => if w = .current then some p.current else if w = .command then some p.command else none)
    (by rw [if_neg nofun, if_neg nofun]) ps hq hd2
  have t3 : Var.sub.text = c!"$SUBCOMMAND" := rfl
  rw [t3] at h3
  rw [h3, replaceArgs_filled p.args 0 _ ps (by omega) ?_ hq ?_ ha]
  · refine filled_congr _ _ ps ?_
    intro v
    cases v with
    | command => rfl
    | current => rfl
    | sub => rfl
    | arg j => simp [valueOf]
  · intro j _
    rw [if_neg nofun, if_neg nofun, if_neg nofun]
  · intro w a h
    split at h
    · cases h; exact hs
    · exact hd2 w a h

/-- A letter that means nothing to `sh`: it can only be part of a word. -/
def wordChar (c : Char) : Bool := c.isAlphanum || c!"_./:@%+=,-".contains c

/-- What a text has besides such letters: blanks, operators, quotes, expansions, ends of lines. -/
def skeleton (s : Str) : Str := s.filter (fun c => !wordChar c)

/-- **C165, harmless words.** For words of such letters the script has the operators, blanks, quotes and
expansions of the template and no others: whatever is typed, `sh` is given the same program, up to words. -/
theorem C165_harmless_partial (ps : List Piece) (p p' : Parsed) (hq : ∀ a, Sum.inl a ∈ ps → Quiet a)
    (hn : p.args.length ≤ 10) (hl : p'.args.length = p.args.length)
    (h : ∀ w ∈ p.command :: p.current :: p.path.headD [] :: p.args, ∀ c ∈ w, wordChar c = true)
    (h' : ∀ w ∈ p'.command :: p'.current :: p'.path.headD [] :: p'.args, ∀ c ∈ w, wordChar c = true) :
    skeleton (script (written ps) p) = skeleton (script (written ps) p') := by
  have hd : ∀ (q : Parsed), (∀ w ∈ q.command :: q.current :: q.path.headD [] :: q.args, ∀ c ∈ w, wordChar c = true) →
      ∀ w ∈ q.command :: q.current :: q.path.headD [] :: q.args, '$' ∉ w := by
    intro q hq w hw hm
    exact absurd (hq w hw '$' hm) (by decide)
  have e : ∀ (q : Parsed), (∀ w ∈ q.command :: q.current :: q.path.headD [] :: q.args, ∀ c ∈ w, wordChar c = true) →
      q.args.length ≤ 10 → script (written ps) q = filled (valueOf q) ps := by
    intro q hq' hn
    have := hd q hq'
    simp only [List.mem_cons, forall_eq_or_imp] at this
    exact C165_script_partial ps q hq hn this.1 this.2.1 this.2.2.1 this.2.2.2
  rw [e p h hn, e p' h' (by omega)]
  clear e
  unfold filled skeleton
  induction ps with
  | nil => rfl
  | cons x ps ih =>
    rw [List.flatMap_cons, List.flatMap_cons, List.filter_append, List.filter_append, ih (fun a ha => hq a (List.mem_cons_of_mem _ ha))]
    congr 1
    cases x with
    | inl a => rfl
    | inr v =>
      show ((valueOf p v).getD v.text).filter _ = ((valueOf p' v).getD v.text).filter _
      have hz : ∀ (s : Str), (∀ c ∈ s, wordChar c = true) → s.filter (fun c => !wordChar c) = [] := by
        intro s hs
        rw [List.filter_eq_nil_iff]
        intro c hc
        simp [hs c hc]
      simp only [List.mem_cons, forall_eq_or_imp] at h h'
      cases v with
      | command => exact (hz _ h.1).trans (hz _ h'.1).symm
      | current => exact (hz _ h.2.1).trans (hz _ h'.2.1).symm
      | sub => exact (hz _ h.2.2.1).trans (hz _ h'.2.2.1).symm
      | arg i =>
        unfold valueOf
        dsimp only
        by_cases hi : i.val < p.args.length
        · rw [List.getElem?_eq_getElem hi, List.getElem?_eq_getElem (hl ▸ hi)]
          exact (hz _ (h.2.2.2 _ (List.getElem_mem hi))).trans (hz _ (h'.2.2.2 _ (List.getElem_mem (hl ▸ hi)))).symm
        · rw [List.getElem?_eq_none (by omega), List.getElem?_eq_none (by omega)]

/-- The template of `kubectl get` that comes with the shell (kubectl.json:93). -/
def getTemplate : Str := c!"kubectl get $ARG_0 -o custom-columns=\":metadata.name\" --no-headers"

/-- The same, in pieces. -/
def getPieces : List Piece := [.inl c!"kubectl get ", .inr (.arg 0), .inl c!" -o custom-columns=\":metadata.name\" --no-headers"]

theorem quiet_of (a : Str) (h : '$' ∉ a) : Quiet a := by
  induction a with
  | nil => exact True.intro
  | cons c a ih =>
    have hc : c ≠ '$' := fun he => h (by simp [he])
    cases a with
    | nil => exact hc
    | cons d a => exact ⟨fun he => absurd he hc, ih (fun hm => h (List.mem_cons_of_mem _ hm))⟩

theorem getPieces_quiet : ∀ a, Sum.inl a ∈ getPieces → Quiet a := by
  intro a ha
  simp only [getPieces, List.mem_cons, Sum.inl.injEq, reduceCtorEq, List.not_mem_nil, or_false, false_or] at ha
  rcases ha with rfl | rfl <;> exact quiet_of _ (by decide)

open Dsh.Defs in
/-- **C165 fails: Tab runs what is typed.** Whatever word stands behind `kubectl get`, it is put into the
script as it is and given to `sh -c` when Tab is pressed behind it. So with the word `` `reboot` `` Tab runs
`reboot`. -/
theorem C165_run_violated (u : Tables) (db : Str → Option Def) {d : Def} {b : Sub} (hk : Known u db c!"kubectl" c!"get" d b)
    (x : Str) (hx : Word x) (hxo : isOpt x = false) (hxd : '$' ∉ x) :
    script getTemplate (seen u db id (typed c!"kubectl" [c!"get", x] []) (typed c!"kubectl" [c!"get", x] []).length).p =
      c!"kubectl get " ++ x ++ c!" -o custom-columns=\":metadata.name\" --no-headers" := by
  have hkub : Word c!"kubectl" := by simp only [Word, PlainWord]; decide
  obtain ⟨i, h1, h2, h3, h4, -, -, -, h8⟩ := seen_args u db (c := c!"kubectl") (S := c!"get") (w := []) (ws := [x]) hk.db hkub rfl
    hk.word hk.looks hk.find hk.name hk.leaf hk.dashed (by simp [hx, hxo]) (.inl rfl) rfl
  generalize (seen u db id (typed c!"kubectl" [c!"get", x] []) (typed c!"kubectl" [c!"get", x] []).length).p = p at *
  have ht : getTemplate = written getPieces := by decide
  rw [ht, C165_script_partial getPieces p getPieces_quiet (by rw [h8]; simp) (by rw [h1]; decide) (by rw [h3]; simp)
    (by rw [h2]; decide) (by rw [h8]; simpa using hxd)]
  simp [filled, getPieces, valueOf, h8]

/-- The word with the command is one the theorem speaks of. -/
example : Defs.Word c!"`reboot`" ∧ isOpt c!"`reboot`" = false ∧ '$' ∉ c!"`reboot`" := by
  simp only [Defs.Word, PlainWord]; decide

/-- Two lines whose words are harmless: `sh` is given the same operators. -/
example (p : Parsed) : skeleton (script getTemplate { p with command := c!"kubectl", current := [], path := [c!"get"], args := [c!"pods"] }) =
    skeleton (script getTemplate { p with command := c!"kubectl", current := c!"x", path := [c!"get"], args := [c!"svc/a.b"] }) :=
  C165_harmless_partial getPieces _ _ getPieces_quiet (by simp) rfl (by simp only; decide) (by simp only; decide)

/-- **C165 fails: the eleventh argument.** `$ARG_10` is replaced by the second argument and a `0`. -/
theorem C165_eleventh_violated (p : Parsed) (a b : Str) (rest : List Str) (ha : p.args = a :: b :: rest) (hb : '$' ∉ b) :
    script c!"$ARG_10" p = b ++ c!"0" := by
  unfold script
  have h1 : ∀ x y z : Str, replace c!"$SUBCOMMAND" x (replace c!"$CURRENT_TOKEN" y (replace c!"$COMMAND" z c!"$ARG_10")) = c!"$ARG_10" := by
    intro x y z; rfl
  rw [h1, ha, replaceArgs, replaceArgs]
  have h2 : replace (c!"$ARG_" ++ (toString 0).toList) a c!"$ARG_10" = c!"$ARG_10" := rfl
  have h3 : replace (c!"$ARG_" ++ (toString 1).toList) b c!"$ARG_10" = b ++ c!"0" := rfl
  rw [h2, h3]
  have h4 : ∀ (l : List Str) (i : Nat), replaceArgs (b ++ c!"0") i l = b ++ c!"0" := by
    intro l
    induction l with
    | nil => intro i; rfl
    | cons x l ih =>
      intro i
      rw [replaceArgs]
      have := replace_plain (p := c!"$ARG_" ++ (toString i).toList) x (a := b ++ c!"0") (by simp [hb]) rfl []
      rw [List.append_nil, replace_nil, List.append_nil] at this
      rw [this, ih]
  exact h4 rest 2

/-- A candidate as a program prints it: the value, then behind a tab the description. -/
def printed (c : Cand) : Str := c.1 ++ c.2.elim [] ('\t' :: ·)

/-- A value without blanks; a description on one line with no blanks at its end. -/
def Clean (c : Cand) : Prop :=
  c.1 ≠ [] ∧ (∀ x ∈ c.1, rustWhitespace x = false) ∧ ∀ d ∈ c.2, d ≠ [] ∧ '\n' ∉ d ∧ ∀ x ∈ d.getLast?, rustWhitespace x = false

theorem printed_lines (l : List Cand) (h : ∀ c ∈ l, Clean c) : textLines (l.flatMap (fun c => printed c ++ ['\n'])) = l.map printed := by
  have hp : ∀ c ∈ l, '\n' ∉ printed c ∧ (¬ ['\r'].isSuffixOf (printed c)) ∧ trim (printed c) = printed c ∧ printed c ≠ [] := by
    rintro ⟨v, d⟩ hc
    obtain ⟨h1, h2, h3⟩ := h _ hc
    dsimp only at h1 h2 h3
    have hv : '\n' ∉ v := fun hm => absurd (h2 _ hm) (by decide)
    have hhead : ∀ s x, x ∈ (v ++ s).head? → rustWhitespace x = false := by
      intro s x hx
      cases v with
      | nil => exact absurd rfl h1
      | cons a v => simp at hx; rw [← hx]; exact h2 a (by simp)
    have hfin : ∀ s : Str, (∀ x ∈ s.getLast?, rustWhitespace x = false) → ¬ ['\r'].isSuffixOf s := by
      intro s hs hsuf
      obtain ⟨r, hr⟩ := List.isSuffixOf_iff_suffix.1 hsuf
      exact absurd (hs '\r' (by rw [← hr]; simp)) (by decide)
    cases d with
    | none =>
      have hl : ∀ x ∈ v.getLast?, rustWhitespace x = false := fun x hx => h2 x (List.mem_of_getLast? hx)
      simp only [printed, Option.elim, List.append_nil]
      exact ⟨hv, hfin _ hl, Live.trim_id h2, h1⟩
    | some d =>
      obtain ⟨d1, d2, d3⟩ := h3 d rfl
      have hl : (v ++ '\t' :: d).getLast? = d.getLast? := by
        rw [List.getLast?_append, List.getLast?_cons]
        cases hd : d.getLast? with
        | none => exact absurd (List.getLast?_eq_none_iff.1 hd) d1
        | some x => rfl
      simp only [printed, Option.elim]
      refine ⟨by simp [hv, d2], hfin _ (by rw [hl]; exact d3), Live.trim_ends (hhead _) (by rw [hl]; exact d3), by simp⟩
  have hl := Record.lines_text (l.map printed)
    (fun p hm => by obtain ⟨c, hc, rfl⟩ := List.mem_map.1 hm; exact (hp c hc).1)
    (fun p hm => by obtain ⟨c, hc, rfl⟩ := List.mem_map.1 hm; exact (hp c hc).2.1) [] (by simp)
  rw [List.append_nil, if_pos rfl, List.append_nil, List.flatMap_map] at hl
  unfold textLines
  rw [hl, List.map_map]
  have h1 : l.map (trim ∘ printed) = l.map printed := List.map_congr_left (fun c hc => (hp c hc).2.2.1)
  rw [h1, List.filter_eq_self]
  intro s hs
  obtain ⟨c, hc, rfl⟩ := List.mem_map.1 hs
  simpa using (hp c hc).2.2.2

theorem splitTab_printed {c : Cand} (h : Clean c) : splitTab (printed c) = c.2.map (c.1, ·) := by
  obtain ⟨v, d⟩ := c
  obtain ⟨h1, h2, -⟩ := h
  dsimp only at h1 h2
  have hv : '\t' ∉ v := fun hm => absurd (h2 _ hm) (by decide)
  cases d with
  | none =>
    unfold splitTab
    simp only [printed, Option.elim, List.append_nil]
    rw [if_neg (by simpa using hv)]
    rfl
  | some d =>
    show splitTab (v ++ '\t' :: d) = some (v, d)
    unfold splitTab
    rw [if_pos (by simp)]
    have ht : (v ++ '\t' :: d).takeWhile (· ≠ '\t') = v := by
      rw [List.takeWhile_append_of_pos (by intro x hx; simpa using fun he : x = '\t' => hv (he ▸ hx))]
      simp
    have hd : (v ++ '\t' :: d).dropWhile (· ≠ '\t') = '\t' :: d := by
      rw [List.dropWhile_append_of_pos (by intro x hx; simpa using fun he : x = '\t' => hv (he ▸ hx))]
      simp
    rw [ht, hd]
    rfl

/-- **C165, what the script says.** A script that prints values and descriptions, a line for each, gives
these candidates, those that begin with the word. -/
theorem C165_output_partial (word : Str) (l : List Cand) (h : ∀ c ∈ l, Clean c) :
    scriptCands word (l.flatMap (fun c => printed c ++ ['\n'])) = l.filter (fun c => word.isPrefixOf c.1) := by
  unfold scriptCands
  rw [printed_lines l h, List.map_map]
  congr 1
  refine (List.map_congr_left (g := id) ?_).trans (List.map_id _)
  intro c hc
  simp only [Function.comp, splitTab_printed (h c hc)]
  obtain ⟨v, d⟩ := c
  cases d with
  | none => simp [printed]
  | some d => rfl

/-! ## C166: the external completer -/

example : scriptCands c!"p" ([(c!"pod-a", some c!"a pod"), (c!"svc", none), (c!"pod-b", none)].flatMap (fun c => printed c ++ ['\n'])) =
    [(c!"pod-a", some c!"a pod"), (c!"pod-b", none)] :=
  C165_output_partial c!"p" _ (by simp only [Clean]; decide)

/-- **C166, what it says.** A completer that prints values and descriptions, a line for each, gives these
candidates, those that fit the word. -/
theorem C166_output_partial (fuzzy : Str → Str → Bool) (word : Str) (l : List Cand) (h : ∀ c ∈ l, Clean c)
    (hd : ∀ c ∈ l, ∀ d ∈ c.2, ∀ x ∈ d.head?, rustWhitespace x = false) :
    externalCands fuzzy word (l.flatMap (fun c => printed c ++ ['\n'])) = l.filter (fun c => fits fuzzy word c.1) := by
  unfold externalCands
  rw [printed_lines l h, List.map_map]
  refine (congrArg _ ((List.map_congr_left (g := id) ?_).trans (List.map_id l))).trans ?_
  · intro c hc
    simp only [Function.comp, splitTab_printed (h c hc)]
    have hh := h c hc
    have hdd := hd c hc
    obtain ⟨v, d⟩ := c
    cases d with
    | none => simp [printed, Live.trim_id hh.2.1]
    | some d =>
      simp only [Option.map_some, id]
      rw [Live.trim_id hh.2.1, Live.trim_ends (hdd d rfl) (hh.2.2 d rfl).2.2]
  refine List.filter_congr ?_
  intro c hc
  have : c.1.isEmpty = false := by
    have := (h c hc).1
    cases hc1 : c.1 with
    | nil => exact absurd hc1 this
    | cons a l => rfl
  rw [this]
  rfl

/-- **C166 fails: a line with a description alone** is offered as a value. -/
theorem C166_alone_violated (fuzzy : Str → Str → Bool) (d : Str) (hd : d ≠ []) (hw : ∀ c ∈ d, rustWhitespace c = false) :
    externalCands fuzzy [] (['\t'] ++ d ++ ['\n']) = [(d, none)] ∧ scriptCands [] (['\t'] ++ d ++ ['\n']) = [(d, none)] := by
  have ht : trim ('\t' :: d) = d := by
    have : trimStart ('\t' :: d) = trimStart d := by
      unfold trimStart
      rw [List.dropWhile_cons, show rustWhitespace '\t' = true by decide, if_pos rfl]
    unfold trim
    rw [this]
    exact Live.trim_id hw
  have hn : '\n' ∉ ('\t' :: d) := by
    simp only [List.mem_cons, not_or]
    exact ⟨by decide, fun hm => absurd (hw _ hm) (by decide)⟩
  have hr : ¬ ['\r'].isSuffixOf ('\t' :: d) := by
    intro hs
    obtain ⟨r, hr⟩ := List.isSuffixOf_iff_suffix.1 hs
    have : '\r' ∈ '\t' :: d := by rw [← hr]; simp
    rcases List.mem_cons.1 this with h | h
    · cases h
    · exact absurd (hw _ h) (by decide)
  have hl := Record.lines_text ['\t' :: d] (by simpa using hn) (by simpa using hr) [] (by simp)
  simp only [List.flatMap_cons, List.flatMap_nil, List.append_nil, if_true] at hl
  have htl : textLines (['\t'] ++ d ++ ['\n']) = [d] := by
    unfold textLines
    show List.filter _ (List.map trim (Record.lines ('\t' :: d ++ ['\n']))) = _
    rw [hl]
    simp [ht, hd]
  have hs : splitTab d = none := by
    unfold splitTab
    rw [if_neg]
    intro hc
    exact absurd (hw '\t' (by simpa using hc)) (by decide)
  constructor
  · unfold externalCands
    rw [htl]
    simp [hs, Live.trim_id hw, fits, hd]
  · unfold scriptCands
    rw [htl]
    simp [hs]

/-- **C166, a program that holds its output alone.** If nobody else holds the output of the completer, Tab
goes on after 1.5 seconds at the latest (for a script 2), when the program is killed; and what a program
printed that ended in time and well is used whole. -/
theorem C166_time_partial (limit : Nat) (c : Child)
    (halone : ∃ t, c.closes = some t ∧ (∀ e ∈ c.ends, t ≤ e) ∧ t ≤ limit) :
    (∃ t s, collect limit c = some (t, s) ∧ t ≤ limit) ∧
      ∀ e, c.ends = some e → e ≤ limit → c.ok = true → collect limit c = some (e, c.output) := by
  obtain ⟨t, h1, h2, h3⟩ := halone
  constructor
  · unfold collect
    rw [h1]
    split
    · split
      · exact ⟨_, _, rfl, by omega⟩
      · exact ⟨_, _, rfl, by omega⟩
    · exact ⟨_, _, rfl, by omega⟩
  · intro e he hl hok
    have := h2 e he
    unfold collect
    rw [he, h1]
    dsimp only
    rw [if_pos hl, if_pos hok, Option.map_some, Nat.max_eq_left this]

/-- **C166 fails: a process left behind.** As long as anything started by the completer or by a script
holds its output, the shell waits, whatever the limit is: it reads to the end even after it has killed the
program. -/
theorem C166_held_violated (limit : Nat) (c : Child) :
    (c.closes = none → collect limit c = none) ∧ ∀ T t s, c.closes = some T → collect limit c = some (t, s) → T ≤ t := by
  constructor
  · intro h
    unfold collect
    rw [h]
    split
    · split <;> rfl
    · rfl
  · intro T t s h hc
    unfold collect at hc
    rw [h] at hc
    split at hc
    · split at hc
      · simp only [Option.map_some, Option.some.injEq, Prod.mk.injEq] at hc; omega
      · simp only [Option.map_some, Option.some.injEq, Prod.mk.injEq] at hc; omega
    · simp only [Option.map_some, Option.some.injEq, Prod.mk.injEq] at hc; omega

/-- A completer that ends at once and leaves a process for a minute: Tab takes a minute. -/
example : collect 1500 ⟨some 5, true, some 60000, c!"a\n"⟩ = some (60000, c!"a\n") := by decide

example : externalCands (fun v w => w.isPrefixOf v) c!"a" c!"alpha\tthe first\nbeta\nabc\n" = [(c!"alpha", some c!"the first"), (c!"abc", none)] := by
  decide +kernel

end Dsh.Sources
