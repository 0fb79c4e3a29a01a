import Verif.Prompt.GitHub
import Verif.Repl.Notebook
import Verif.Safety.Props
import Verif.Completion.GeneratedProps
/-!
# C190: the prompt counts the notifications there are

# C191: `gh-notify` offers the unread notifications and opens the one chosen
-/
namespace Dsh.GitHub
open Dsh.CompGen (J)

/-! ### Counting -/

/-- The kinds of notifications, by their reason. -/
def kind (n : Note) : Kind :=
  if n.reason = c!"review_requested" then .review else if n.reason = c!"mention" ∨ n.reason = c!"assign" then .mention else .other

/-- How many of a kind. -/
def many (k : Kind) (l : List Note) : Nat := (l.filter fun n => kind n = k).length

/-- Whether a list of reasons has the reason; no list has all. -/
def has (al : Option (List Str)) (n : Note) : Bool :=
  match al with
  | some a => a.contains n.reason
  | none => true

/-- The number of a kind in a status. -/
def num (s : Status) : Kind → Nat
  | .review => s.review
  | .mention => s.mention
  | .other => s.other

theorem count_fold (al : Option (List Str)) (l : List Note) (s : Status) :
    l.foldl (count al) s =
      let m := l.filter (has al)
      ⟨s.review + many .review m, s.mention + many .mention m, s.other + many .other m, s.error⟩ := by
  induction l generalizing s with
  | nil => simp [many]
  | cons n l ih =>
    rw [List.foldl_cons, ih]
    by_cases ha : has al n = true
    · have hc : skipped al n = false := by
        cases al with
        | none => rfl
        | some a => simpa [has, skipped] using ha
      rw [List.filter_cons_of_pos ha]
      simp only [count, hc, Bool.false_eq_true, if_false]
      by_cases h1 : n.reason = review
      · have hk : kind n = .review := by simp [kind, h1]
        rw [if_pos h1]
        simp only [many, List.filter_cons, hk]
        simp
        omega
      · by_cases h2 : n.reason = c!"mention" ∨ n.reason = c!"assign"
        · have hk : kind n = .mention := by simp only [kind, if_neg h1, if_pos h2]
          rw [if_neg h1, if_pos h2]
          simp only [many, List.filter_cons, hk]
          simp
          omega
        · have hk : kind n = .other := by simp only [kind, if_neg h1, if_neg h2]
          rw [if_neg h1, if_neg h2]
          simp only [many, List.filter_cons, hk]
          simp
          omega
    · have hc : skipped al n = true := by
        cases al with
        | none => simp [has] at ha
        | some a => simpa [has, skipped] using ha
      rw [List.filter_cons_of_neg ha]
      simp only [count, hc, if_true]

/-- A review that was asked for and is settled: its pull request is closed, and the service has taken it as read. -/
def Settled (v : Service) (n : Note) : Prop :=
  n.reason = c!"review_requested" ∧ ∃ u i, n.url = some u ∧ v.closed u = true ∧ n.id = some i ∧ v.marks i = true

theorem dropped_iff (v : Service) (n : Note) : dropped v n = true ↔ Settled v n := by
  unfold dropped toMark Settled review
  by_cases h : n.reason = c!"review_requested"
  · cases hu : n.url with
    | none => simp [h]
    | some u =>
      cases hc : v.closed u with
      | false => simp [h, hc]
      | true =>
        cases hi : n.id with
        | none => simp [h, hc]
        | some i => simp [h, hc]
  · simp [h]

/-- If the service sends all that is unread: the counts are those of the notifications that are not settled, by kind. -/
theorem C190_counts_partial (v : Service) (hp : v.unread.length ≤ v.page) :
    ∃ l : List Note, (∀ n, n ∈ l ↔ n ∈ v.unread ∧ ¬ Settled v n) ∧ l.Sublist v.unread ∧
      (fetch v none).1 = ⟨many .review l, many .mention l, many .other l, false⟩ ∧
      many .review l + many .mention l + many .other l = l.length := by
  refine ⟨v.unread.filter (!dropped v ·), ?_, List.filter_sublist, ?_, ?_⟩
  · intro n
    rw [List.mem_filter]
    have := dropped_iff v n
    cases h : dropped v n <;> simp [h] at this ⊢ <;> simp [this]
  · simp only [fetch, List.take_of_length_le hp, parse, allowed, count_fold]
    simp [has]
  · generalize v.unread.filter (!dropped v ·) = l
    induction l with
    | nil => rfl
    | cons n l ih =>
      simp only [many] at ih ⊢
      cases hk : kind n <;> simp [hk] <;> omega

/-- A setting `reason:A,B,…` counts exactly the notifications with one of the reasons. -/
theorem C190_filter_partial (notes : List Note) {rs : List Str} (hne : rs ≠ []) (hc : ∀ r ∈ rs, ',' ∉ r) (ht : ∀ r ∈ rs, trim r = r) :
    parse notes (some (c!"reason:" ++ joinWith [','] rs)) = parse (notes.filter fun n => n.reason ∈ rs) none := by
  have h1 : allowed (some (c!"reason:" ++ joinWith [','] rs)) = some rs := by
    have hd : (c!"reason:" ++ joinWith [','] rs).drop 7 = joinWith [','] rs := rfl
    have hp : (c!"reason:").isPrefixOf (c!"reason:" ++ joinWith [','] rs) = true :=
      List.isPrefixOf_iff_prefix.2 (List.prefix_append _ _)
    simp only [allowed, hp, if_true, hd]
    rw [Dsh.Note.splitOn_joinWith ',' rs hne hc]
    congr 1
    exact (List.map_congr_left fun r hr => ht r hr).trans (List.map_id _)
  have h2 : notes.filter (has (some rs)) = (notes.filter fun n => n.reason ∈ rs).filter (has none) := by
    have : ∀ l : List Note, l.filter (has none) = l := fun l => List.filter_eq_self.2 fun n _ => rfl
    rw [this]
    exact List.filter_congr fun n _ => by simp [has]
  have h3 : allowed none = none := rfl
  simp only [parse, h1, count_fold, h2, h3]

/-- Nothing is marked as read but closed reviews. -/
theorem C190_marks_partial {v : Service} {f : Option Str} {i : Str} (h : i ∈ (fetch v f).2) :
    ∃ n ∈ v.unread, n.id = some i ∧ n.reason = c!"review_requested" ∧ ∃ u, n.url = some u ∧ v.closed u = true := by
  obtain ⟨n, hn, he⟩ := List.mem_filterMap.1 h
  refine ⟨n, List.mem_of_mem_take hn, ?_⟩
  unfold toMark at he
  split at he
  · next hr =>
    split at he
    · next u hu =>
      split at he
      · next hc => exact ⟨he, hr, u, hu, hc⟩
      · cases he
    · cases he
  · cases he

/-- In a repository the prompt shows each kind there is with its number, and nothing where nothing is unread. -/
theorem C190_shown_partial {s : St} {k : Str} (hk : s.task.token = some k) (v : Service) :
    let t := check s true (some v)
    (∀ kd n, (∃ l, shown true t.status = .counts l ∧ (kd, n) ∈ l) ↔
      n > 0 ∧ n = num (fetch v s.task.filter).1 kd) ∧
    (shown true t.status = .nothing ↔ (fetch v s.task.filter).1.review = 0 ∧ (fetch v s.task.filter).1.mention = 0 ∧
        (fetch v s.task.filter).1.other = 0) ∧ shown true t.status ≠ .error := by
  intro t
  have ht : t.status = (fetch v s.task.filter).1 := by simp [t, check, hk]
  have he : (fetch v s.task.filter).1.error = false := by simp [fetch, parse, count_fold]
  rw [ht]
  generalize (fetch v s.task.filter).1 = x at he
  obtain ⟨a, b, c, e⟩ := x
  simp only at he
  subst he
  by_cases h0 : a + b + c > 0
  · refine ⟨?_, ?_, ?_⟩
    · intro kd n
      simp only [shown, if_true, h0, Shown.counts.injEq]
      constructor
      · rintro ⟨l, rfl, hm⟩
        simp only [List.mem_append] at hm
        rcases hm with (hm | hm) | hm <;> split at hm <;> simp at hm <;> obtain ⟨rfl, rfl⟩ := hm <;> simp [num] <;> omega
      · rintro ⟨hn, he⟩
        refine ⟨_, rfl, ?_⟩
        cases kd <;> simp only [num] at he <;> subst he <;> simp [hn]
    · simp only [shown, if_true, h0]; simp; omega
    · simp only [shown, if_true, h0]; simp
  · refine ⟨?_, ?_, ?_⟩
    · intro kd n
      simp only [shown, if_true, h0, if_false]
      simp
      cases kd <;> simp [num] <;> omega
    · simp only [shown, if_true, h0, if_false]; simp; omega
    · simp only [shown, if_true, h0, if_false]; simp

/-- Outside of repositories the service is not asked, and without a token neither. -/
theorem C190_quiet_partial (s : St) (git : Bool) (v : Option Service) (h : git = false ∨ s.task.token = none) : check s git v = s := by
  unfold check
  rcases h with h | h
  · subst h; split <;> simp
  · rw [h]

/-! ### What goes wrong -/

/-- If the service can no longer be asked, for ever, the prompt keeps the old numbers and no sign of the error. -/
theorem C190_stale_violated (s : St) (h : s.status.review + s.status.mention + s.status.other > 0) (n : Nat) :
    shown true (evs s (List.replicate n (.check true none))).status = shown true s.status := by
  have key : ∀ (t : St), t.status.review = s.status.review ∧ t.status.mention = s.status.mention ∧ t.status.other = s.status.other →
      (evs t (List.replicate n (.check true none))).status.review = s.status.review ∧
      (evs t (List.replicate n (.check true none))).status.mention = s.status.mention ∧
      (evs t (List.replicate n (.check true none))).status.other = s.status.other := by
    induction n with
    | zero => intro t ht; exact ht
    | succ n ih =>
      intro t ht
      rw [List.replicate_succ]
      refine ih (ev t (.check true none)) ?_
      simp only [ev, check]
      split
      · exact ht
      · exact ht
  obtain ⟨a, b, c⟩ := key s ⟨rfl, rfl, rfl⟩
  simp only [shown, a, b, c, h, if_true]

/-- Only what the service sends at once is counted. -/
theorem C190_page_violated {n : Note} (hn : n.reason = c!"mention") (k page : Nat) (closed marks : Str → Bool) :
    (fetch ⟨List.replicate (page + k) n, page, closed, marks⟩ none).1.mention = page := by
  have hd : dropped ⟨List.replicate (page + k) n, page, closed, marks⟩ n = false := by
    have : toMark ⟨List.replicate (page + k) n, page, closed, marks⟩ n = none := by simp [toMark, hn, review]
    simp [dropped, this]
  have hk : kind n = .mention := by simp [kind, hn]
  simp only [fetch, List.take_replicate, parse, allowed, count_fold]
  simp [many, hd, hk, has]

/-- A filter that does not begin with `reason:` is no filter. -/
theorem C190_filter_violated (notes : List Note) {f : Str} (h : (c!"reason:").isPrefixOf f = false) : parse notes (some f) = parse notes none := by
  simp [parse, allowed, h]

/-- Notifications the filter keeps from the user are marked as read all the same. -/
theorem C190_unseen_violated {v : Service} {n : Note} {u i f : Str} (hn : n ∈ v.unread.take v.page) (hr : n.reason = review)
    (hu : n.url = some u) (hc : v.closed u = true) (hi : n.id = some i) :
    i ∈ (fetch v (some f)).2 :=
  List.mem_filterMap.2 ⟨n, hn, by simp [toMark, hr, hu, hc, hi]⟩

/-- A token that is set, changed or taken away while the shell runs changes nothing: every request has the one the shell was
started with. -/
theorem C190_token_violated (c : Cfg) (l : List Ev) : ∀ k ∈ (evs (start c) l).used, c.token = some k := by
  have key : ∀ (s : St), s.task = c → (∀ k ∈ s.used, c.token = some k) → ∀ k ∈ (evs s l).used, c.token = some k := by
    induction l with
    | nil => intro s _ h; exact h
    | cons e l ih =>
      intro s ht h
      refine ih (ev s e) ?_ ?_
      · cases e with
        | set c' => exact ht
        | check git v =>
          simp only [ev, check]
          split
          · exact ht
          · split
            · split <;> exact ht
            · exact ht
      · cases e with
        | set c' => exact h
        | check git v =>
          simp only [ev, check]
          split
          · exact h
          · next k hk =>
            have hk' : c.token = some k := by rw [← ht]; exact hk
            have : ∀ x ∈ s.used ++ [k], c.token = some x := by
              intro x hx
              rcases List.mem_append.1 hx with h' | h'
              · exact h x h'
              · simp at h'; subst h'; exact hk'
            split
            · split <;> exact this
            · exact h
  exact key (start c) rfl (by simp [start])

/-! ### `gh-notify` -/

theorem text_missing {m : List (Str × J)} {k : Str} (h : ∀ e ∈ m, e.1 ≠ k) : text m k = none := by
  have : m.filter (·.1 == k) = [] := by
    rw [List.filter_eq_nil_iff]
    intro e he
    simpa using h e he
  simp [text, field, this]

theorem full_missing {m : List (Str × J)} (h : ∀ e ∈ m, e.1 ≠ c!"_updated_at") : full (.obj m) = none := by
  have ht := text_missing h
  cases hf : full (.obj m) with
  | none => rfl
  | some x =>
    exfalso
    simp only [full, bind, Option.bind_eq_some_iff, ht] at hf
    obtain ⟨_, _, _, _, _, _, _, _, _, _, _, _, _, _, _, _, _, _, _, h', _⟩ := hf
    cases h'

/-- What GitHub sends for a notification: these fields, none of which is named `_updated_at`. -/
def apiFields : List Str :=
  [c!"id", c!"unread", c!"reason", c!"updated_at", c!"last_read_at", c!"subject", c!"repository", c!"url", c!"subscription_url"]

/-- `gh-notify` works only if there is nothing to show: if there are notifications, as GitHub sends them, it fails. -/
theorem C191_fails_violated {l : List (List (Str × J))} (hne : l ≠ []) (ha : ∀ m ∈ l, ∀ e ∈ m, e.1 ∈ apiFields) (pats : List Str) (mark : Bool)
    (choose : List Str → Option Str) (page : Str → Option Str) (opens : Bool) :
    run (some (l.map .obj)) pats mark choose page opens = ⟨1, [], none, none, false⟩ := by
  cases l with
  | nil => exact absurd rfl hne
  | cons m l =>
    have h1 : full (.obj m) = none := full_missing fun e he hx => by
      have := ha m (by simp) e he
      rw [hx] at this
      exact absurd this (by decide)
    simp [run, listing, h1]

theorem hasSub_infix {p s : Str} : Safety.hasSub p s = true ↔ p <:+: s := by
  rw [Safety.hasSub_iff]
  constructor
  · rintro ⟨u, v, rfl⟩; exact ⟨u, v, rfl⟩
  · rintro ⟨u, v, rfl⟩; exact ⟨u, v, rfl⟩

/-- What is read as unread is what the service says is unread. -/
theorem C191_read_partial {m : List (Str × J)} {n : Full} (h : full (.obj m) = some n) :
    n.unread = true ↔ (c!"unread", .bool true) ∈ m := by
  simp only [full, bind, Option.bind_eq_some_iff] at h
  obtain ⟨_, _, _, _, _, _, _, _, _, _, _, _, _, _, _, _, _, _, _, _, u, hu, hp⟩ := h
  have hn : n.unread = u := by cases hp; rfl
  rw [hn]
  have hmem : (c!"unread", J.bool true) ∈ m ↔ (c!"unread", J.bool true) ∈ m.filter (·.1 == c!"unread") := by simp
  rw [hmem]
  unfold flag at hu
  split at hu
  · rename_i he; cases hu; rw [he]; simp
  · rename_i k b he
    have hb : b = u := Option.some.inj hu
    subst hb
    have hk : (k, J.bool b) ∈ m.filter (·.1 == c!"unread") := by rw [he]; simp
    have hk : k = c!"unread" := by simpa using (List.mem_filter.1 hk).2
    rw [he, hk]
    cases b <;> simp
  · cases hu

/-- Were they read: offered are the unread ones whose repository has one of the texts in its name, in the order of the
service; all unread ones if no text is given. -/
theorem C191_offered_partial {answer : List J} {l : List Full} (hl : answer.mapM full = some l) (pats : List Str) (mark : Bool)
    (choose : List Str → Option Str) (page : Str → Option Str) (opens : Bool) :
    ∃ qs : List Full, (run (some answer) pats mark choose page opens).offered = qs.map line ∧ qs.Sublist l ∧
      ∀ n, n ∈ qs ↔ n ∈ l ∧ n.unread = true ∧ (pats = [] ∨ ∃ p ∈ pats, lower p <:+: lower n.repo) := by
  have hb : (some answer).bind listing = some (l.filter (·.unread)) := by simp [listing, hl]
  refine ⟨filtered (l.filter (·.unread)) pats, ?_, ?_, ?_⟩
  · simp only [run, hb]
    by_cases he : (filtered (l.filter (·.unread)) pats).isEmpty = true
    · rw [if_pos he]; simp [List.isEmpty_iff.1 he]
    · rw [if_neg he]
      split
      · rfl
      · split <;> rfl
  · unfold filtered
    split
    · exact List.filter_sublist
    · exact List.filter_sublist.trans List.filter_sublist
  · intro n
    unfold filtered
    by_cases hp : pats.isEmpty = true
    · have := List.isEmpty_iff.1 hp
      simp [this]
    · have : pats ≠ [] := fun e => hp (List.isEmpty_iff.2 e)
      rw [if_neg hp, List.mem_filter, List.mem_filter, List.any_eq_true]
      simp only [hasSub_infix, this, false_or, and_assoc]

theorem byLine_distinct {l : List Full} (hd : (l.map line).Nodup) {n : Full} (hn : n ∈ l) : byLine l (line n) = some n := by
  unfold byLine
  have hd' : (l.reverse.map line).Nodup := by rw [List.map_reverse]; exact (List.reverse_perm _).nodup_iff.2 hd
  have hn' : n ∈ l.reverse := List.mem_reverse.2 hn
  revert hd' hn'
  generalize l.reverse = r
  intro hd' hn'
  induction r with
  | nil => cases hn'
  | cons x r ih =>
    rw [List.map_cons, List.nodup_cons] at hd'
    rw [List.find?_cons]
    rcases List.mem_cons.1 hn' with rfl | h
    · simp
    · have : (line x == line n) = false := by
        simpa using fun e => hd'.1 (List.mem_map.2 ⟨n, h, Eq.symm e⟩)
      rw [this]
      exact ih hd'.2 h

/-- With lines that differ, the page of the one chosen is opened (that of its repository, if it has none), and it is marked
as read only if that was asked for. -/
theorem C191_open_partial {answer : List J} {l : List Full} (hl : listing answer = some l) {pats : List Str} {n : Full}
    (hn : n ∈ filtered l pats) (hd : ((filtered l pats).map line).Nodup) {choose : List Str → Option Str}
    (hc : ∀ ts, line n ∈ ts → choose ts = some (line n)) (mark : Bool) (page : Str → Option Str) :
    let r := run (some answer) pats mark choose page true
    r.status = 0 ∧ r.opened = some ((n.url.bind page).getD n.html) ∧ r.marked = if mark then some n.id else none := by
  have hb : (some answer).bind listing = some l := hl
  have he : (filtered l pats).isEmpty = false := by
    cases h : filtered l pats with
    | nil => rw [h] at hn; cases hn
    | cons x y => rfl
  have hm : line n ∈ (filtered l pats).map line := List.mem_map.2 ⟨n, hn, rfl⟩
  intro r
  have hr : r = run (some answer) pats mark choose page true := rfl
  simp only [hr, run, hb, he, Bool.false_eq_true, if_false, hc _ hm, Option.bind_some, byLine_distinct hd hn, if_true]
  exact ⟨trivial, trivial, trivial⟩

/-- Of two notifications with the same line the first cannot be opened. -/
theorem C191_same_violated {answer : List J} {n m : Full} (hl : listing answer = some [n, m]) (hs : line n = line m)
    {choose : List Str → Option Str} {t : Str} (hc : ∀ ts, choose ts = some t) (page : Str → Option Str) (mark : Bool) :
    let r := run (some answer) [] mark choose page true
    (r.opened = none ∨ r.opened = some ((m.url.bind page).getD m.html)) ∧ (r.marked = none ∨ r.marked = some m.id) := by
  have hb : (some answer).bind listing = some [n, m] := hl
  intro r
  have hr : r = run (some answer) [] mark choose page true := rfl
  simp only [hr, run, hb, filtered, List.isEmpty_nil, if_true, List.isEmpty_cons, Bool.false_eq_true, if_false, hc, Option.bind_some]
  by_cases h : line m = t
  · have : byLine [n, m] t = some m := by simp [byLine, h]
    simp only [this]
    cases mark <;> simp
  · have : byLine [n, m] t = none := by simp [byLine, h, hs]
    simp only [this]
    simp

/-- `gh-notify` says that the notification is marked as read before it knows, and whatever the service says: what it says
is a function of what was asked alone. -/
theorem C191_said_violated {answer : List J} {l : List Full} (hl : listing answer = some l) {pats : List Str} {n : Full}
    (hn : n ∈ filtered l pats) {choose : List Str → Option Str} (hc : ∀ ts, choose ts = some (line n)) (page : Str → Option Str) :
    (run (some answer) pats true choose page true).said = true := by
  have hb : (some answer).bind listing = some l := hl
  have he : (filtered l pats).isEmpty = false := by
    cases h : filtered l pats with
    | nil => rw [h] at hn; cases hn
    | cons x y => rfl
  have : ∃ m, byLine (filtered l pats) (line n) = some m := by
    cases h : byLine (filtered l pats) (line n) with
    | some m => exact ⟨m, rfl⟩
    | none =>
      have := List.find?_eq_none.1 h n (List.mem_reverse.2 hn)
      simp at this
  obtain ⟨m, hm⟩ := this
  simp only [run, hb, he, Bool.false_eq_true, if_false, hc, Option.bind_some, hm, if_true]

/-! ### Concrete cases -/

def note (r : Str) (u i : Option Str) : Note := ⟨r, u, i⟩

def service : Service :=
  ⟨[note review (some c!"pr/1") (some c!"1"), note review (some c!"pr/2") (some c!"2"), note c!"mention" none (some c!"3"),
    note c!"assign" none (some c!"4"), note c!"subscribed" none (some c!"5")], 50, (· == c!"pr/1"), fun _ => true⟩

example : service.unread.length ≤ service.page := by decide
example : fetch service none = (⟨1, 2, 1, false⟩, [c!"1"]) := by decide
example : fetch service (some c!"reason:mention, subscribed") = (⟨0, 1, 1, false⟩, [c!"1"]) := by decide
example : shown true (check (start ⟨some c!"k", none⟩) true (some service)).status = .counts [(.review, 1), (.mention, 2), (.other, 1)] := by
  decide
example : parse service.unread (some c!"mention") = ⟨2, 2, 1, false⟩ := by decide

/-- A notification with the field the struct asks for. -/
def asked (i : Str) (t : Str) : J :=
  .obj [(c!"id", .str i), (c!"unread", .bool true), (c!"reason", .str c!"mention"), (c!"_updated_at", .str []),
    (c!"subject", .obj [(c!"title", .str t), (c!"type", .str c!"Issue"), (c!"url", .str (c!"u" ++ i))]),
    (c!"repository", .obj [(c!"full_name", .str c!"Owner/Repo"), (c!"html_url", .str c!"r")])]

example : listing [asked c!"1" c!"T"] = some [⟨c!"1", c!"T", some c!"u1", c!"Owner/Repo", c!"r", c!"mention", true⟩] := by rfl
example : (run (some [asked c!"1" c!"A", asked c!"2" c!"B"]) [c!"owner"] false (·.head?) (fun u => some (c!"web/" ++ u)) true).opened =
    some c!"web/u1" := by decide
example : (run (some [asked c!"1" c!"A", asked c!"2" c!"A"]) [] true (·.head?) (fun u => some (c!"web/" ++ u)) true).marked =
    some c!"2" := by decide

end Dsh.GitHub
