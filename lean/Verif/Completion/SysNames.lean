import Verif.Env.Direnv
import Verif.Prompt.GitProps
/-!
Users, groups, signals, interfaces and processes offered on Tab (C215): dsh/src/completion/generators/user.rs, group.rs,
signal.rs, interface.rs, process.rs, with the lists kept for some seconds (dsh/src/completion/cache.rs:36-53, 80-85, 111-122).

Case is changed character by character by any function (`char::to_lowercase`, `char::to_uppercase`); the files are read as text.
Which command has which kind of argument is in `Verif/Completion/Generated.lean` and the like; what is done with the candidates
afterwards is C99 and C210.
-/
namespace Dsh.SysNames
open Dsh.Env (splitOn lines)

abbrev Str := List Char

/-- A candidate (dsh/src/completion/command.rs:210-219): what is put into the line and what is told about it. -/
structure Cand where
  text : Str
  about : Option Str
deriving DecidableEq

/-- The order of strings. -/
def le (a b : Str) : Bool := decide (a ≤ b)

/-- `char::to_lowercase` for every character. -/
def fold (low : Char → Str) (s : Str) : Str := s.flatMap low

/-- `filter_candidates` (user.rs:86-101, group.rs:58-73, interface.rs:97-112). -/
def narrow (low : Char → Str) (l : List Cand) (token : Str) : List Cand :=
  if token = [] then l else l.filter fun c => (fold low token).isPrefixOf (fold low c.text)

/-- A line of `/etc/passwd` (user.rs:50-74). -/
def userOf (all : Bool) (line : Str) : Option Cand :=
  if line.head? = some '#' ∨ line = [] then none
  else
    let p := splitOn ':' line
    if p.length < 5 then none
    else match Prm.parse32 (p.getD 2 []) with
      | some uid =>
        if all || decide (1000 ≤ uid) || decide (p.getD 0 [] = c!"root") then
          some ⟨p.getD 0 [], if p.getD 4 [] = [] then none else some (p.getD 4 [])⟩
        else none
      | none => none

/-- The users of the file (user.rs:46-78); completion takes those without system users (argument.rs:257). -/
def users (all : Bool) (passwd : Str) : List Cand :=
  sortBy (fun a b => le a.text b.text) ((lines passwd).filterMap (userOf all))

/-- A line of `/etc/group` (group.rs:32-45). -/
def groupOf (line : Str) : Option Cand :=
  if line.head? = some '#' ∨ line = [] then none
  else
    let p := splitOn ':' line
    some ⟨p.getD 0 [], ((p[2]?).bind Prm.parse32).map fun n => c!"GID: " ++ Nat.toDigits 10 n⟩

/-- The groups of the file (group.rs:27-50). -/
def groups (file : Str) : List Cand := sortBy (fun a b => le a.text b.text) ((lines file).filterMap groupOf)

/-- `SIGNALS` (signal.rs:5-37), without the descriptions. -/
def signals : List (Str × Nat) :=
  [(c!"HUP", 1), (c!"INT", 2), (c!"QUIT", 3), (c!"ILL", 4), (c!"TRAP", 5), (c!"ABRT", 6), (c!"BUS", 7), (c!"FPE", 8), (c!"KILL", 9),
   (c!"USR1", 10), (c!"SEGV", 11), (c!"USR2", 12), (c!"PIPE", 13), (c!"ALRM", 14), (c!"TERM", 15), (c!"STKFLT", 16), (c!"CHLD", 17),
   (c!"CONT", 18), (c!"STOP", 19), (c!"TSTP", 20), (c!"TTIN", 21), (c!"TTOU", 22), (c!"URG", 23), (c!"XCPU", 24), (c!"XFSZ", 25),
   (c!"VTALRM", 26), (c!"PROF", 27), (c!"WINCH", 28), (c!"IO", 29), (c!"PWR", 30), (c!"SYS", 31)]

/-- `generate_candidates` for signals (signal.rs:47-72): the names offered. -/
def signalsFor (up : Char → Str) (token : Str) : List Str :=
  (signals.filter fun s => token.isEmpty || (fold up token).isPrefixOf (c!"SIG" ++ s.1) || (fold up token).isPrefixOf s.1 ||
    token.isPrefixOf (Nat.toDigits 10 s.2)).map fun s => c!"SIG" ++ s.1

/-- `interface_priority` (interface.rs:82-95). -/
def priority (n : Str) : Nat :=
  if c!"eth".isPrefixOf n || c!"enp".isPrefixOf n || c!"eno".isPrefixOf n then 0
  else if c!"wlan".isPrefixOf n || c!"wlp".isPrefixOf n then 1
  else if n = c!"lo" then 5
  else if c!"docker".isPrefixOf n || c!"br-".isPrefixOf n || c!"veth".isPrefixOf n then 4
  else 3

def interfaceLe (a b : Cand) : Bool :=
  decide (priority a.text < priority b.text) || (decide (priority a.text = priority b.text) && le a.text b.text)

/-- The interfaces of `/sys/class/net` in the order offered (interface.rs:66-73). -/
def interfaces (l : List Cand) : List Cand := sortBy interfaceLe l

/-- `str::contains`. -/
def has (n : Str) : Str → Bool
  | [] => n.isEmpty
  | c :: s => n.isPrefixOf (c :: s) || has n s

/-- The processes of `/proc`, number and name (process.rs:36-66). -/
def processes (l : List (Nat × Option Str)) : List (Nat × Option Str) := sortBy (fun a b => decide (a.1 ≤ b.1)) l

/-- Those for a word (process.rs:72-97). -/
def processesFor (low : Char → Str) (l : List (Nat × Option Str)) (token : Str) : List (Nat × Option Str) :=
  if token = [] then l
  else l.filter fun p => token.isPrefixOf (Nat.toDigits 10 p.1) || match p.2 with
    | some n => has (fold low token) (fold low n)
    | none => false

/-- A list kept until a time. -/
abbrev Kept := Option (List Cand × Nat)

/-- A Tab at a time: the list kept if it is not too old, otherwise that of now, which is kept (user.rs:41-44, 80-83; group.rs:23-26,
52-55; interface.rs:23-26, 75-78; the same for processes, process.rs:30-32, 67-70).  Answer and list kept. -/
def tab (low : Char → Str) (ttl : Nat) (k : Kept) (now : Nat) (world : List Cand) (token : Str) : List Cand × Kept :=
  match k with
  | some (l, until_) => if until_ ≤ now then (narrow low world token, some (world, now + ttl)) else (narrow low l token, k)
  | none => (narrow low world token, some (world, now + ttl))

/-- A session of Tabs: the time of each, what the system has, the word. -/
def session (low : Char → Str) (ttl : Nat) : Kept → List (Nat × List Cand × Str) → List (List Cand)
  | _, [] => []
  | k, (t, w, s) :: l => (tab low ttl k t w s).1 :: session low ttl (tab low ttl k t w s).2 l

/-! ### Spec -/

/-- A user as the system has it. -/
structure User where
  name : Str
  uid : Nat
  gid : Nat
  gecos : Str
  home : Str
  shell : Str

/-- The line of a user (passwd(5)). -/
def User.line (u : User) : Str :=
  u.name ++ ':' :: ('x' :: ':' :: (Nat.toDigits 10 u.uid ++ ':' :: (Nat.toDigits 10 u.gid ++ ':' ::
    (u.gecos ++ ':' :: (u.home ++ ':' :: u.shell)))))

/-- No colon and no end of line; the name is one. -/
structure User.Ok (u : User) : Prop where
  name : u.name ≠ [] ∧ u.name.head? ≠ some '#' ∧ ':' ∉ u.name
  uid : u.uid < 2 ^ 32
  gecos : ':' ∉ u.gecos
  home : ':' ∉ u.home
  shell : ':' ∉ u.shell
  line : '\n' ∉ u.line ∧ '\r' ∉ u.line

/-- A group as the system has it. -/
structure Group where
  name : Str
  gid : Nat
  members : Str

def Group.line (g : Group) : Str := g.name ++ ':' :: ('x' :: ':' :: (Nat.toDigits 10 g.gid ++ ':' :: g.members))

structure Group.Ok (g : Group) : Prop where
  name : g.name ≠ [] ∧ g.name.head? ≠ some '#' ∧ ':' ∉ g.name
  gid : g.gid < 2 ^ 32
  line : '\n' ∉ g.line ∧ '\r' ∉ g.line

/-- A file of lines. -/
def file (l : List Str) : Str := l.flatMap (· ++ ['\n'])

/-! ### Lemmas -/

theorem le_trans' (a b c : Str) (h : le a b = true) (h' : le b c = true) : le a c = true := by
  simp only [le, decide_eq_true_eq] at *; exact List.le_trans h h'

theorem le_total' (a b : Str) : (le a b || le b a) = true := by
  simp only [le, Bool.or_eq_true, decide_eq_true_eq]; exact List.le_total a b

theorem sorted_text (l : List Cand) : (sortBy (fun a b : Cand => le a.text b.text) l).Pairwise fun a b => a.text ≤ b.text := by
  have := sortBy_sorted (fun a b : Cand => le a.text b.text) (fun a b c => le_trans' _ _ _) (fun a b => le_total' _ _) l
  exact this.imp fun h => by simpa [le] using h

theorem fold_append (low : Char → Str) (a b : Str) : fold low (a ++ b) = fold low a ++ fold low b := by simp [fold]

theorem mem_narrow {low : Char → Str} {l : List Cand} {t : Str} {c : Cand} :
    c ∈ narrow low l t ↔ c ∈ l ∧ fold low t <+: fold low c.text := by
  unfold narrow
  split
  · rename_i h; simp [h, fold]
  · simp [List.mem_filter]

theorem not_mem_splitOn {c : Char} {s : Str} (h : c ∉ s) : splitOn c s = [s] := by
  induction s with
  | nil => rfl
  | cons a s ih =>
    have ha : a ≠ c := fun h' => h (by simp [h'])
    rw [splitOn, if_neg ha, ih fun h' => h (List.mem_cons_of_mem _ h')]

theorem head_line {n r : Str} (h : n ≠ []) : (n ++ r).head? = n.head? := by
  cases n with
  | nil => exact absurd rfl h
  | cons a n => rfl

theorem split_user {u : User} (h : u.Ok) : splitOn ':' u.line =
    [u.name, ['x'], Nat.toDigits 10 u.uid, Nat.toDigits 10 u.gid, u.gecos, u.home, u.shell] := by
  unfold User.line
  rw [Env.splitOn_append _ _ h.name.2.2, show ('x' :: ':' :: (Nat.toDigits 10 u.uid ++ ':' :: (Nat.toDigits 10 u.gid ++ ':' ::
    (u.gecos ++ ':' :: (u.home ++ ':' :: u.shell))))) = ['x'] ++ ':' :: (Nat.toDigits 10 u.uid ++ ':' :: (Nat.toDigits 10 u.gid ++ ':' ::
    (u.gecos ++ ':' :: (u.home ++ ':' :: u.shell)))) from rfl, Env.splitOn_append _ _ (by decide),
    Env.splitOn_append _ _ (Prm.toDigits_no _ ':' (by decide)), Env.splitOn_append _ _ (Prm.toDigits_no _ ':' (by decide)),
    Env.splitOn_append _ _ h.gecos, Env.splitOn_append _ _ h.home, not_mem_splitOn h.shell]

theorem userOf_line {u : User} (h : u.Ok) (all : Bool) : userOf all u.line =
    if all = true ∨ 1000 ≤ u.uid ∨ u.name = c!"root" then some ⟨u.name, if u.gecos = [] then none else some u.gecos⟩ else none := by
  have h1 : ¬ (u.line.head? = some '#' ∨ u.line = []) := by
    rintro (h1 | h1)
    · exact h.name.2.1 (by rw [User.line, head_line h.name.1] at h1; exact h1)
    · have := congrArg List.length h1; simp [User.line] at this
  rw [userOf, if_neg h1, split_user h]
  simp only [List.length_cons, List.length_nil, List.getD_cons_succ, List.getD_cons_zero, Prm.parse32_toDigits _ h.uid,
    Bool.or_eq_true, decide_eq_true_eq, or_assoc]
  rfl

theorem split_group {g : Group} (h : g.Ok) : ∃ r, splitOn ':' g.line = g.name :: ['x'] :: Nat.toDigits 10 g.gid :: r := by
  refine ⟨splitOn ':' g.members, ?_⟩
  unfold Group.line
  rw [Env.splitOn_append _ _ h.name.2.2, show ('x' :: ':' :: (Nat.toDigits 10 g.gid ++ ':' :: g.members)) =
    ['x'] ++ ':' :: (Nat.toDigits 10 g.gid ++ ':' :: g.members) from rfl, Env.splitOn_append _ _ (by decide),
    Env.splitOn_append _ _ (Prm.toDigits_no _ ':' (by decide))]

theorem groupOf_line {g : Group} (h : g.Ok) : groupOf g.line = some ⟨g.name, some (c!"GID: " ++ Nat.toDigits 10 g.gid)⟩ := by
  have h1 : ¬ (g.line.head? = some '#' ∨ g.line = []) := by
    rintro (h1 | h1)
    · exact h.name.2.1 (by rw [Group.line, head_line h.name.1] at h1; exact h1)
    · have := congrArg List.length h1; simp [Group.line] at this
  obtain ⟨r, hr⟩ := split_group h
  rw [groupOf, if_neg h1, hr]
  simp [Prm.parse32_toDigits _ h.gid]

theorem filterMap_users {us : List User} (h : ∀ u ∈ us, u.Ok) : (lines (file (us.map User.line))).filterMap (userOf false) =
    (us.filter fun u => decide (1000 ≤ u.uid ∨ u.name = c!"root")).map fun u => ⟨u.name, if u.gecos = [] then none else some u.gecos⟩ := by
  have hf : file (us.map User.line) = us.flatMap fun u => u.line ++ ['\n'] := by simp [file, List.flatMap_map]
  rw [hf, Env.lines_flatMap (fun u hu => (h u hu).line.1)]
  induction us with
  | nil => rfl
  | cons u us ih =>
    have hu := userOf_line (h u (by simp)) false
    have ih := ih (fun v hv => h v (List.mem_cons_of_mem _ hv)) (by simp [file, List.flatMap_map])
    rw [List.map_cons, List.filterMap_cons, hu, List.filter_cons]
    by_cases hc : 1000 ≤ u.uid ∨ u.name = c!"root" <;> simp [hc, ih]

theorem filterMap_groups {gs : List Group} (h : ∀ g ∈ gs, g.Ok) : (lines (file (gs.map Group.line))).filterMap groupOf =
    gs.map fun g => ⟨g.name, some (c!"GID: " ++ Nat.toDigits 10 g.gid)⟩ := by
  have hf : file (gs.map Group.line) = gs.flatMap fun u => u.line ++ ['\n'] := by simp [file, List.flatMap_map]
  rw [hf, Env.lines_flatMap (fun u hu => (h u hu).line.1)]
  induction gs with
  | nil => rfl
  | cons u us ih =>
    have ih := ih (fun v hv => h v (List.mem_cons_of_mem _ hv)) (by simp [file, List.flatMap_map])
    rw [List.map_cons, List.filterMap_cons, groupOf_line (h u (by simp)), ih]
    rfl

/-! ### C215 -/

/-- **C215, users.** Offered are, in order, exactly the users with an identity from 1000 on and root whose name begins with the word
typed, in whatever case, each with what the system tells about it. -/
theorem C215_users_partial (low : Char → Str) (us : List User) (t : Str) (h : ∀ u ∈ us, u.Ok) :
    (narrow low (users false (file (us.map User.line))) t).Pairwise (fun a b => a.text ≤ b.text) ∧
    (users false (file (us.map User.line))).length = (us.filter fun u => decide (1000 ≤ u.uid ∨ u.name = c!"root")).length ∧
    ∀ n a, ⟨n, a⟩ ∈ narrow low (users false (file (us.map User.line))) t ↔ ∃ u ∈ us, u.name = n ∧ (1000 ≤ u.uid ∨ n = c!"root") ∧
      (a = if u.gecos = [] then none else some u.gecos) ∧ fold low t <+: fold low n := by
  have hp := sortBy_perm (fun a b : Cand => le a.text b.text) ((lines (file (us.map User.line))).filterMap (userOf false))
  have hs := sorted_text ((lines (file (us.map User.line))).filterMap (userOf false))
  refine ⟨?_, ?_, ?_⟩
  · unfold narrow
    split
    · exact hs
    · exact hs.filter _
  · rw [users, hp.length_eq, filterMap_users h, List.length_map]
  · intro n a
    rw [mem_narrow, users, hp.mem_iff, filterMap_users h]
    simp only [List.mem_map, List.mem_filter, decide_eq_true_eq, Cand.mk.injEq]
    constructor
    · rintro ⟨⟨u, ⟨hu, hc⟩, rfl, ha⟩, ht⟩
      exact ⟨u, hu, rfl, hc, ha.symm, ht⟩
    · rintro ⟨u, hu, rfl, hc, ha, ht⟩
      exact ⟨⟨u, ⟨hu, hc⟩, rfl, ha.symm⟩, ht⟩

/-- **C215, groups.** Offered are, in order, exactly the groups whose name begins with the word typed, each with its number. -/
theorem C215_groups_partial (low : Char → Str) (gs : List Group) (t : Str) (h : ∀ g ∈ gs, g.Ok) :
    (narrow low (groups (file (gs.map Group.line))) t).Pairwise (fun a b => a.text ≤ b.text) ∧
    (groups (file (gs.map Group.line))).length = gs.length ∧
    ∀ n a, ⟨n, a⟩ ∈ narrow low (groups (file (gs.map Group.line))) t ↔ ∃ g ∈ gs, g.name = n ∧
      a = some (c!"GID: " ++ Nat.toDigits 10 g.gid) ∧ fold low t <+: fold low n := by
  have hp := sortBy_perm (fun a b : Cand => le a.text b.text) ((lines (file (gs.map Group.line))).filterMap groupOf)
  have hs := sorted_text ((lines (file (gs.map Group.line))).filterMap groupOf)
  refine ⟨?_, ?_, ?_⟩
  · unfold narrow
    split
    · exact hs
    · exact hs.filter _
  · rw [groups, hp.length_eq, filterMap_groups h, List.length_map]
  · intro n a
    rw [mem_narrow, groups, hp.mem_iff, filterMap_groups h]
    simp only [List.mem_map, Cand.mk.injEq]
    constructor
    · rintro ⟨⟨u, hu, rfl, ha⟩, ht⟩
      exact ⟨u, hu, rfl, ha.symm, ht⟩
    · rintro ⟨u, hu, rfl, ha, ht⟩
      exact ⟨⟨u, hu, rfl, ha.symm⟩, ht⟩

/-- **C215, beginnings.** Whatever beginning of a name is typed, the name is among those offered. -/
theorem C215_beginning_partial (low : Char → Str) (l : List Cand) (a b : Str) (i : Option Str) (h : ⟨a ++ b, i⟩ ∈ l) :
    ⟨a ++ b, i⟩ ∈ narrow low l a := by
  rw [mem_narrow]
  refine ⟨h, ?_⟩
  show fold low a <+: fold low (a ++ b)
  rw [fold_append]
  exact List.prefix_append _ _

/-- The list kept, if any, was that of an earlier Tab less than its time ago. -/
def Was (ttl : Nat) (past : List (Nat × List Cand × Str)) : Kept → Prop
  | none => True
  | some (l, u) => ∃ e ∈ past, e.2.1 = l ∧ u = e.1 + ttl

theorem session_was (low : Char → Str) (ttl : Nat) (h0 : 0 < ttl) : ∀ (l past : List (Nat × List Cand × Str)) (k : Kept), Was ttl past k →
    ∀ i (e : Nat × List Cand × Str) (a : List Cand), l[i]? = some e → (session low ttl k l)[i]? = some a →
      ∃ e' ∈ past ++ l.take (i + 1), e.1 < e'.1 + ttl ∧ a = narrow low e'.2.1 e.2.2
  | [], _, _, _, i, e, a, h, _ => by simp at h
  | (t, w, s) :: l, past, k, hk, i, e, a, h, ha => by
    have hstep : Was ttl (past ++ [(t, w, s)]) (tab low ttl k t w s).2 := by
      unfold tab
      split
      · rename_i l' u
        split
        · exact ⟨(t, w, s), by simp, rfl, rfl⟩
        · obtain ⟨e', he', h1⟩ := hk
          exact ⟨e', by simp [he'], h1⟩
      · exact ⟨(t, w, s), by simp, rfl, rfl⟩
    cases i with
    | zero =>
      simp only [List.getElem?_cons_zero, Option.some.injEq] at h
      subst h
      simp only [session, List.getElem?_cons_zero, Option.some.injEq] at ha
      subst ha
      unfold tab
      split
      · rename_i l' u
        split
        · exact ⟨(t, w, s), by simp, by simp; exact h0, rfl⟩
        · rename_i hu
          obtain ⟨e', he', h1, h2⟩ := hk
          exact ⟨e', by simp [he'], by simp only; omega, by rw [h1]⟩
      · exact ⟨(t, w, s), by simp, by simp; exact h0, rfl⟩
    | succ i =>
      simp only [List.getElem?_cons_succ] at h
      simp only [session, List.getElem?_cons_succ] at ha
      obtain ⟨e', he', h1⟩ := session_was low ttl h0 l (past ++ [(t, w, s)]) _ hstep i e a h ha
      refine ⟨e', ?_, h1⟩
      simpa using he'

/-- **C215, fresh.** In every session, what a Tab offers is what the system had at that Tab or at an earlier one less than the
time a list is kept ago (5 seconds for users and groups, 2 for interfaces). -/
theorem C215_fresh_partial (low : Char → Str) (ttl : Nat) (h0 : 0 < ttl) (l : List (Nat × List Cand × Str)) (i : Nat)
    (e : Nat × List Cand × Str) (a : List Cand) (h : l[i]? = some e) (ha : (session low ttl none l)[i]? = some a) :
    ∃ e' ∈ l.take (i + 1), e.1 < e'.1 + ttl ∧ a = narrow low e'.2.1 e.2.2 := by
  simpa using session_was low ttl h0 l [] none trivial i e a h ha

/-- Upper case of the letters and digits of ASCII. -/
def Upper (up : Char → Str) : Prop := ∀ c : Char, c.isAlphanum = true → up c = [c.toUpper]

theorem fold_upper {up : Char → Str} (h : Upper up) {s : Str} (hs : ∀ c ∈ s, c.isAlphanum = true) : fold up s = s.map Char.toUpper := by
  induction s with
  | nil => rfl
  | cons c s ih =>
    rw [fold, List.flatMap_cons, h c (hs c (by simp)), ← fold, ih fun x hx => hs x (List.mem_cons_of_mem _ hx)]
    rfl

theorem isPrefixOf_of {a b : Str} (h : a <+: b) : a.isPrefixOf b = true := List.isPrefixOf_iff_prefix.2 h

/-- **C215, signals.** The beginning of the name of a signal, with or without `SIG`, in small or capital letters, or of its number,
offers the signal; nothing but signals is offered, and each once. -/
theorem C215_signals_partial (up : Char → Str) (h : Upper up) :
    (∀ s ∈ signals, ∀ t : Str, (∀ c ∈ t, c.isAlphanum = true) →
      (t.map Char.toUpper <+: c!"SIG" ++ s.1 ∨ t.map Char.toUpper <+: s.1 ∨ t <+: Nat.toDigits 10 s.2) →
        c!"SIG" ++ s.1 ∈ signalsFor up t) ∧
    ∀ t, (signalsFor up t).Sublist (signals.map fun s => c!"SIG" ++ s.1) := by
  refine ⟨?_, ?_⟩
  · intro s hs t ht hp
    refine List.mem_map.2 ⟨s, List.mem_filter.2 ⟨hs, ?_⟩, rfl⟩
    rw [fold_upper h ht]
    simp only [Bool.or_eq_true]
    rcases hp with hp | hp | hp
    · exact .inl (.inl (.inr (isPrefixOf_of hp)))
    · exact .inl (.inr (isPrefixOf_of hp))
    · exact .inr (isPrefixOf_of hp)
  · intro t
    exact (List.filter_sublist).map _

/-- **C215, interfaces.** All interfaces are offered, and the loopback stands at the end. -/
theorem C215_loopback_partial (l : List Cand) : (interfaces l).Perm l ∧
    (interfaces l).Pairwise fun a b => a.text = c!"lo" → b.text = c!"lo" := by
  refine ⟨sortBy_perm _ _, ?_⟩
  have ht : ∀ a b c : Cand, interfaceLe a b = true → interfaceLe b c = true → interfaceLe a c = true := by
    intro a b c h1 h2
    simp only [interfaceLe, Bool.or_eq_true, Bool.and_eq_true, decide_eq_true_eq] at *
    rcases h1 with h1 | ⟨h1, h1'⟩ <;> rcases h2 with h2 | ⟨h2, h2'⟩
    · left; omega
    · left; omega
    · left; omega
    · right; exact ⟨by omega, le_trans' _ _ _ h1' h2'⟩
  have htot : ∀ a b : Cand, (interfaceLe a b || interfaceLe b a) = true := by
    intro a b
    simp only [interfaceLe, Bool.or_eq_true, Bool.and_eq_true, decide_eq_true_eq]
    have := le_total' a.text b.text
    simp only [Bool.or_eq_true] at this
    rcases Nat.lt_trichotomy (priority a.text) (priority b.text) with h | h | h
    · exact .inl (.inl h)
    · rcases this with h' | h'
      · exact .inl (.inr ⟨h, h'⟩)
      · exact .inr (.inr ⟨h.symm, h'⟩)
    · exact .inr (.inl h)
  refine (sortBy_sorted interfaceLe ht htot l).imp ?_
  intro a b hab ha
  have hpa : priority a.text = 5 := by rw [ha]; decide
  have hpb : priority b.text = 5 → b.text = c!"lo" := by
    unfold priority
    intro h
    split at h
    · omega
    · split at h
      · omega
      · split at h
        · assumption
        · split at h <;> omega
  have hle : priority b.text ≤ 5 := by
    unfold priority
    split
    · omega
    · split
      · omega
      · split
        · omega
        · split <;> omega
  simp only [interfaceLe, Bool.or_eq_true, Bool.and_eq_true, decide_eq_true_eq] at hab
  apply hpb
  omega

theorem has_iff (n : Str) : ∀ s : Str, has n s = true ↔ n <:+: s
  | [] => by cases n <;> simp [has]
  | c :: s => by
    rw [has, Bool.or_eq_true, has_iff n s, List.isPrefixOf_iff_prefix, List.infix_cons_iff]

/-- **C215, processes.** Offered are the processes whose number begins with the word or whose name contains it, by number. -/
theorem C215_processes_partial (low : Char → Str) (l : List (Nat × Option Str)) (t : Str) :
    (processesFor low (processes l) t).Pairwise (fun a b => a.1 ≤ b.1) ∧
    ∀ p, p ∈ processesFor low (processes l) t ↔ p ∈ l ∧ (t <+: Nat.toDigits 10 p.1 ∨ ∃ n, p.2 = some n ∧ fold low t <:+: fold low n) := by
  have hp := sortBy_perm (fun a b : Nat × Option Str => decide (a.1 ≤ b.1)) l
  have hs : (processes l).Pairwise fun a b => a.1 ≤ b.1 :=
    (sortBy_sorted (fun a b : Nat × Option Str => decide (a.1 ≤ b.1)) (by simp; omega) (by simp; omega) l).imp (by simp)
  refine ⟨?_, ?_⟩
  · unfold processesFor
    split
    · exact hs
    · exact hs.filter _
  · intro p
    unfold processesFor
    split
    · rename_i h
      subst h
      rw [processes, hp.mem_iff]
      simp
    · rw [List.mem_filter, processes, hp.mem_iff, Bool.or_eq_true, List.isPrefixOf_iff_prefix]
      cases p.2 with
      | none => simp
      | some n => simp [has_iff]

/-- **C215 fails: system users.** A user with an identity below 1000 who is not root is never offered, whatever is typed, not even
for `chown`. -/
theorem C215_system_violated (low : Char → Str) (us : List User) (t : Str) (h : ∀ u ∈ us, u.Ok) (u : User)
    (hu : u.uid < 1000) (hr : u.name ≠ c!"root") (hone : ∀ v ∈ us, v.name = u.name → v.uid = u.uid) :
    ∀ a, ⟨u.name, a⟩ ∉ narrow low (users false (file (us.map User.line))) t := by
  intro a ha
  obtain ⟨v, hv, h1, h2, _⟩ := ((C215_users_partial low us t h).2.2 _ _).1 ha
  have := hone v hv h1
  rcases h2 with h2 | h2
  · omega
  · exact hr h2

/-- **C215 fails: `user:group`.** Behind a colon nothing is offered: no user and no group has one in its name. -/
theorem C215_owner_violated (low : Char → Str) (hl : ∀ c, ':' ∈ low c ↔ c = ':') (l : List Cand) (hn : ∀ c ∈ l, ':' ∉ c.text)
    (t : Str) (ht : ':' ∈ t) : narrow low l t = [] := by
  rw [List.eq_nil_iff_forall_not_mem]
  intro c hc
  obtain ⟨h1, h2⟩ := mem_narrow.1 hc
  have : ':' ∈ fold low c.text := h2.subset (List.mem_flatMap.2 ⟨':', ht, (hl _).2 rfl⟩)
  obtain ⟨x, hx, hx'⟩ := List.mem_flatMap.1 this
  rw [(hl x).1 hx'] at hx
  exact hn c h1 hx

/-- **C215 fails: new names.** Within the time a list is kept, a name that was not there at the last reading is not offered, and one
taken away still is. -/
theorem C215_stale_violated (low : Char → Str) (ttl t₀ t₁ : Nat) (old new : List Cand) (s₀ s₁ : Str) (ht : t₁ < t₀ + ttl) :
    session low ttl none [(t₀, old, s₀), (t₁, new, s₁)] = [narrow low old s₀, narrow low old s₁] := by
  simp [session, tab, Nat.not_le.2 ht]

/-- **C215 fails: numbers.** The whole number of a signal may stand for many: 1 offers eleven signals, only one has it. -/
theorem C215_number_violated (up : Char → Str) (h : Upper up) : (signalsFor up c!"1").length = 11 := by
  have : fold up c!"1" = c!"1" := by rw [fold_upper h (by decide)]; decide
  simp only [signalsFor, this, List.length_map]
  decide +kernel

theorem prefix_digits {n m : Nat} (h : Nat.toDigits 10 n <+: Nat.toDigits 10 m) : n ≤ m := by
  obtain ⟨r, hr⟩ := h
  have h1 : Nat.ofDigitChars 10 (Nat.toDigits 10 n ++ r) 0 = m := by rw [hr]; simp
  have h2 : ∀ (r : Str) (a : Nat), a ≤ Nat.ofDigitChars 10 r a := by
    intro r
    induction r with
    | nil => intro a; simp
    | cons c r ih =>
      intro a
      rw [Nat.ofDigitChars_cons]
      exact Nat.le_trans (by omega) (ih _)
  rw [Nat.ofDigitChars_append] at h1
  have := h2 r (Nat.ofDigitChars 10 (Nat.toDigits 10 n) 0)
  simp at h1 this
  omega

/-- **C215 fails: real-time signals.** No number from 32 on and no name of a real-time signal is offered. -/
theorem C215_realtime_violated (up : Char → Str) (h : Upper up) (n : Nat) (hn : 32 ≤ n) :
    signalsFor up (Nat.toDigits 10 n) = [] ∧ signalsFor up c!"RTMIN" = [] ∧ signalsFor up c!"SIGRTMIN" = [] := by
  refine ⟨?_, ?_, ?_⟩
  · have hd : ∀ c ∈ Nat.toDigits 10 n, c.isDigit = true := fun c hc => Nat.isDigit_of_mem_toDigits (by decide) (by decide) hc
    have hf : fold up (Nat.toDigits 10 n) = Nat.toDigits 10 n := by
      rw [fold_upper h fun c hc => by simp [Char.isAlphanum, hd c hc]]
      conv_rhs => rw [← List.map_id (Nat.toDigits 10 n)]
      refine List.map_congr_left fun c hc => ?_
      have := hd c hc
      simp only [Char.isDigit, Bool.and_eq_true, decide_eq_true_eq] at this
      simp only [Char.toUpper, id]
      split
      · rename_i h'
        exfalso
        have h1 := this.2
        have h2 := h'.1
        simp only [UInt32.le_iff_toNat_le] at h1 h2
        have h3 : ('a'.val : UInt32).toNat = 97 := rfl
        simp at h1 h2
        omega
      · rfl
    have hh : ∃ c r, Nat.toDigits 10 n = c :: r ∧ c.isDigit = true := by
      cases hx : Nat.toDigits 10 n with
      | nil => exact absurd hx Nat.toDigits_ne_nil
      | cons c r => exact ⟨c, r, rfl, hd c (by rw [hx]; simp)⟩
    rw [signalsFor, hf, List.map_eq_nil_iff, List.filter_eq_nil_iff]
    intro s hs hp
    have hm : s.2 ≤ 31 := by
      have : ∀ s ∈ signals, s.2 ≤ 31 := by decide +kernel
      exact this s hs
    have hnd : ∃ a b, s.1 = a :: b ∧ a.isDigit = false := by
      have : ∀ s ∈ signals, (s.1.head?.map Char.isDigit) = some false := by decide +kernel
      have := this s hs
      cases h1 : s.1 with
      | nil => rw [h1] at this; cases this
      | cons a b => rw [h1] at this; exact ⟨a, b, rfl, by simpa using this⟩
    obtain ⟨c, r, hc, hcd⟩ := hh
    obtain ⟨a, b, ha, had⟩ := hnd
    simp only [Bool.or_eq_true] at hp
    rcases hp with ((hp | hp) | hp) | hp
    · rw [hc] at hp; cases hp
    · rw [hc, List.isPrefixOf_iff_prefix, List.cons_append, List.cons_prefix_cons] at hp
      rw [hp.1] at hcd; revert hcd; decide
    · rw [hc, ha, List.isPrefixOf_iff_prefix, List.cons_prefix_cons] at hp
      rw [hp.1, had] at hcd; cases hcd
    · have := prefix_digits (List.isPrefixOf_iff_prefix.1 hp)
      omega
  · have : fold up c!"RTMIN" = c!"RTMIN" := by rw [fold_upper h (by decide)]; decide
    simp only [signalsFor, this]
    decide +kernel
  · have : fold up c!"SIGRTMIN" = c!"SIGRTMIN" := by rw [fold_upper h (by decide)]; decide
    simp only [signalsFor, this]
    decide +kernel

/-- **C215 fails: lines that are no groups.** A line of `/etc/group` without any colon is offered as a group. -/
theorem C215_nogroup_violated (l : Str) (h : ':' ∉ l) (h0 : l ≠ []) (h1 : l.head? ≠ some '#') : groupOf l = some ⟨l, none⟩ := by
  rw [groupOf, if_neg (by simp [h0, h1]), not_mem_splitOn h]
  rfl

/-! ### Examples -/

def alice : User := ⟨c!"alice", 1000, 1000, c!"Alice", c!"/home/alice", c!"/bin/sh"⟩
def www : User := ⟨c!"www-data", 33, 33, [], c!"/var/www", c!"/sbin/nologin"⟩

theorem alice_ok : alice.Ok := ⟨by decide, by decide, by decide, by decide, by decide, by decide +kernel⟩
theorem www_ok : www.Ok := ⟨by decide, by decide, by decide, by decide, by decide, by decide +kernel⟩

theorem users_run : users false (file [www.line, alice.line]) = [⟨c!"alice", some c!"Alice"⟩] ∧
    narrow (fun c => [c.toLower]) (users false (file [www.line, alice.line])) c!"AL" = [⟨c!"alice", some c!"Alice"⟩] := by
  decide +kernel

theorem signal_run : signalsFor (fun c => [c.toUpper]) c!"ki" = [c!"SIGKILL"] ∧ signalsFor (fun c => [c.toUpper]) c!"15" = [c!"SIGTERM"] := by
  decide +kernel

/-- Cable cards with a name by slot stand behind wireless ones. -/
theorem ethernet_run : interfaces [⟨c!"lo", none⟩, ⟨c!"ens33", none⟩, ⟨c!"wlan0", none⟩] =
    [⟨c!"wlan0", none⟩, ⟨c!"ens33", none⟩, ⟨c!"lo", none⟩] := by decide +kernel

end Dsh.SysNames
