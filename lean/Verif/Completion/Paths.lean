import Verif.Completion.Cache
import Verif.Completion.ShellPath
import Verif.Dirs.FrecencyProps

/-!
# Completion of file names

`dsh/src/completion/generators/filesystem.rs` (Tab) and `dsh/src/completion/path.rs` (the listing of a
directory, its cache of two seconds, and the grey path suggestion).

Simplified: a directory listing is a function of the text that names the directory, in the order of
`read_dir`; directories named with a leading `~` and the filter by extensions are left out; the listing is
not sorted here, the order of what is shown is that of `Verif/Completion/Rank.lean`; the fuzzy matcher is
any relation.
-/

namespace Dsh.Paths

abbrev Str := List Char

/-- A directory: names, and whether each is a directory; `none` if it cannot be read. -/
abbrev Fs := Str → Option (List (Str × Bool))

/-! ### `std::path` -/

/-- A path from its end, without trailing `/` and `/.`: what `Path::components` does at the end. -/
def strip : Str → Str
  | '/' :: r => strip r
  | '.' :: '/' :: r => strip r
  | r => r

/-- The last component. -/
def lastName (s : Str) : Str := ((strip s.reverse).takeWhile (· ≠ '/')).reverse

/-- `Path::file_name`. -/
def fileName (s : Str) : Option Str :=
  if lastName s = [] ∨ lastName s = c!".." ∨ lastName s = c!"." then none else some (lastName s)

/-- `Path::parent`. -/
def parent (s : Str) : Option Str :=
  if strip s.reverse = [] then none
  else
    let p := (strip ((strip s.reverse).dropWhile (· ≠ '/'))).reverse
    if p = [] ∧ s.head? = some '/' then some c!"/" else some p

/-- `Path::join` with a plain name. -/
def join (d n : Str) : Str := if d.getLast? = some '/' then d ++ n else d ++ '/' :: n

/-! ### The listing -/

/-- `MAX_RESULT` (dsh/src/completion.rs:49). -/
def maxResult : Nat := 500

/-- `scan_dir_candidates` (path.rs:344-385). -/
def scan (fs : Fs) (dir : Str) : Option (List Str) :=
  (fs dir).map fun l => (l.map fun e => join dir e.1 ++ if e.2 then c!"/" else []).take maxResult

/-- The life time of the cache (path.rs:13-14), in milliseconds. -/
def ttl : Nat := 2000

abbrev Tab := Cache.Tab Str

/-- `path_completion_path_sync` (path.rs:287-299); a listing that fails is empty (filesystem.rs:26). -/
def listing (m : Tab) (now : Nat) (fs : Fs) (dir : Str) : List Str × Tab :=
  match Cache.lookup id m now dir with
  | some h => (h.cands, m)
  | none =>
    match scan fs dir with
    | some l => (l, Cache.set ttl m now dir l)
    | none => ([], m)

/-! ### Tab -/

/-- `ends_with_path_separator` (filesystem.rs:150-154), on Unix. -/
def endsSep (s : Str) : Bool := s.getLast? = some '/' || s.getLast? = some '\\'

/-- `split_dir_and_prefix` (filesystem.rs:125-148) with `normalize_dir_path` (filesystem.rs:156-162). -/
def splitDir (token : Str) : Str × Str :=
  if token = [] then (c!".", [])
  else if endsSep token then (token, [])
  else
    match parent token with
    | some d => (if d = [] then c!"." else d, (fileName token).getD [])
    | none => (c!".", token)

/-- `build_candidate_path` (filesystem.rs:164-173). -/
def build (dir n : Str) : Str := if dir = c!"." ∨ dir = [] then n else join dir n

/-- `trim_end_matches` of both slashes (filesystem.rs:37). -/
def trimSeps (s : Str) : Str := (s.reverse.dropWhile fun c => c = '/' || c = '\\').reverse

/-- One round of the loops of `generate_file_candidates_with_filter` (filesystem.rs:28-72) and
`generate_directory_candidates` (filesystem.rs:86-119): the text and whether it is a directory. -/
def offer (fz : Str → Str → Bool) (onlyDirs : Bool) (dir pre path : Str) : Option (Str × Bool) :=
  if onlyDirs && !endsSep path then none
  else
    match fileName (trimSeps path) with
    | none => none
    | some n =>
      if pre = [] ∨ pre.isPrefixOf n = true ∨ fz n pre = true then some (build dir n, endsSep path) else none

/-- A request: when, in what state of the file system (seen from the working directory), for which word
(already without quotes, see `Verif/Completion/ShellPath.lean`). -/
structure Req where
  now : Nat
  fs : Fs
  token : Str
  onlyDirs : Bool := false

/-- `generate_file_candidates_with_filter` (filesystem.rs:16-75), `generate_directory_candidates` (filesystem.rs:78-122). -/
def complete (fz : Str → Str → Bool) (m : Tab) (q : Req) : List (Str × Bool) × Tab :=
  let (dir, pre) := splitDir q.token
  let (l, m) := listing m q.now q.fs dir
  (l.filterMap (offer fz q.onlyDirs dir pre), m)

/-- The cache after earlier requests, the newest first. -/
def cacheAfter (fz : Str → Str → Bool) : List Req → Tab
  | [] => fun _ => none
  | q :: l => (complete fz (cacheAfter fz l) q).2

/-! ### The grey suggestion -/

/-- Which directory `path_completion_prefix_strict` lists (path.rs:102-128); `none` for the working directory
by its absolute name. -/
def asked (token : Str) : Option Str :=
  if token.head? = some '/' then
    match parent token with
    | some f => some (if token.getLast? = some '/' then token else f)
    | none => some token
  else
    match parent token with
    | some d => some (if d = [] then c!"." else if token.getLast? = some '/' then token else d)
    | none => none

/-- `strip_prefix("./")`. -/
def stripDot (s : Str) : Option Str :=
  if c!"./".isPrefixOf s then some ((strip (s.drop 2).reverse).reverse) else none

/-- The filter of `path_completion_prefix_strict` (path.rs:133-164). -/
def greyFits (token : Str) (onlyDirs : Bool) (path : Str) : Bool :=
  (token.isPrefixOf path ||
    match stripDot path with
    | some s => token.isPrefixOf s
    | none => false) && (!onlyDirs || path.getLast? = some '/')

/-- The order of `path_completion_prefix_strict` (path.rs:171-178). -/
def shorterFirst (a b : Str) : Bool :=
  let n := (a.map Char.utf8Size).sum
  let k := (b.map Char.utf8Size).sum
  decide (n < k) || (decide (n = k) && Frec.cmpStr a b != .gt)

/-- `path_completion_prefix_for_shell_token` (path.rs:183-201), from a listing to the path suggested, before
it is written in the style of the word. -/
def grey (l : List Str) (token : Str) (onlyDirs : Bool) : Option Str :=
  match (sortBy shorterFirst (l.filter (greyFits token onlyDirs))).head? with
  | none => none
  | some c => if (c.map Char.utf8Size).sum ≤ (token.map Char.utf8Size).sum ∨ ¬ token.isPrefixOf c then none else some c

/-- The path suggested for a word once the listing is there; `cwd` is the working directory. -/
def suggest (fs : Fs) (cwd token : Str) (onlyDirs : Bool) : Option Str :=
  grey ((scan fs ((asked token).getD cwd)).getD []) token onlyDirs

/-! ### Lemmas on paths -/

/-- What a directory entry is called. -/
def Name (n : Str) : Prop := n ≠ [] ∧ '/' ∉ n ∧ n ≠ c!"." ∧ n ≠ c!".."

/-- The directory part of a word as it is usually written: nothing, `/`, or `a/`, `../a/`, `/a/b/`. -/
def DirPart (d : Str) : Prop :=
  d = [] ∨ d = c!"/" ∨ ∃ e, d = e ++ c!"/" ∧ e ≠ [] ∧ e ≠ c!"." ∧ e.getLast? ≠ some '/' ∧ ¬ c!"/." <:+ e

theorem strip_name {n : Str} (h1 : n ≠ []) (h2 : '/' ∉ n) (h3 : n ≠ c!".") (r : Str) :
    strip (n.reverse ++ r) = n.reverse ++ r := by
  cases hn : n.reverse with
  | nil => simp at hn; exact absurd hn h1
  | cons a l =>
    have ha : a ≠ '/' := by
      rintro rfl
      exact h2 (by rw [← List.mem_reverse, hn]; simp)
    by_cases hd : a = '.'
    · subst hd
      cases l with
      | nil =>
        have := congrArg List.reverse hn
        simp at this
        exact absurd this h3
      | cons b l =>
        have hb : b ≠ '/' := by
          rintro rfl
          exact h2 (by rw [← List.mem_reverse, hn]; simp)
        simp only [List.cons_append]
        unfold strip
        split
        · rename_i heq; simp at heq
        · rename_i heq; simp at heq; exact absurd heq.1 hb
        · rfl
    · simp only [List.cons_append]
      unfold strip
      split
      · rename_i heq; simp at heq; exact absurd heq.1 ha
      · rename_i heq; simp at heq; exact absurd heq.1 hd
      · rfl

theorem takeWhile_name {n : Str} (h2 : '/' ∉ n) (r : Str) (hr : r = [] ∨ r.head? = some '/') :
    (n.reverse ++ r).takeWhile (· ≠ '/') = n.reverse ∧ (n.reverse ++ r).dropWhile (· ≠ '/') = r := by
  have hall : ∀ x ∈ n.reverse, (x ≠ '/') := by
    rintro x hx rfl
    exact h2 (List.mem_reverse.1 hx)
  rw [List.takeWhile_append_of_pos (by simpa using hall), List.dropWhile_append_of_pos (by simpa using hall)]
  cases r with
  | nil => simp
  | cons a r =>
    simp only [List.head?_cons, Option.some.injEq, reduceCtorEq, false_or] at hr
    subst hr
    simp

theorem lastName_name {n : Str} (h1 : n ≠ []) (h2 : '/' ∉ n) (h3 : n ≠ c!".") (d : Str) (hd : d = [] ∨ d.getLast? = some '/') :
    lastName (d ++ n) = n := by
  have hr : d.reverse = [] ∨ d.reverse.head? = some '/' := by
    rcases hd with rfl | hd
    · exact .inl rfl
    · exact .inr (by rw [List.head?_reverse]; exact hd)
  unfold lastName
  rw [List.reverse_append, strip_name h1 h2 h3 _, (takeWhile_name h2 _ hr).1, List.reverse_reverse]

theorem fileName_name {n : Str} (h : Name n) (d : Str) (hd : d = [] ∨ d.getLast? = some '/') :
    fileName (d ++ n) = some n := by
  unfold fileName
  rw [lastName_name h.1 h.2.1 h.2.2.1 d hd, if_neg (by simp [h.1, h.2.2.1, h.2.2.2])]

theorem join_eq (d n : Str) : ∃ d', d'.getLast? = some '/' ∧ join d n = d' ++ n := by
  unfold join
  split
  · exact ⟨d, by assumption, rfl⟩
  · exact ⟨d ++ ['/'], by simp, by simp⟩

theorem strip_plain {e : Str} (h1 : e.getLast? ≠ some '/') (h2 : ¬ c!"/." <:+ e) : strip e.reverse = e.reverse := by
  unfold strip
  split
  · rename_i r heq
    exfalso
    apply h1
    rw [← List.head?_reverse, heq]
    rfl
  · rename_i r heq
    exfalso
    apply h2
    have := congrArg List.reverse heq
    simp at this
    exact ⟨r.reverse, by simp [this]⟩
  · rfl

theorem strip_slash (r : Str) : strip ('/' :: r) = strip r := by simp only [strip]

theorem parent_name {d p : Str} (hd : DirPart d) (h1 : p ≠ []) (h2 : '/' ∉ p) (h3 : p ≠ c!".") :
    parent (d ++ p) = some (if d = [] then [] else if d = c!"/" then c!"/" else d.dropLast) := by
  have hr : d.reverse = [] ∨ d.reverse.head? = some '/' := by
    rcases hd with rfl | rfl | ⟨e, rfl, -⟩
    · exact .inl rfl
    · exact .inr rfl
    · exact .inr (by simp)
  unfold parent
  rw [List.reverse_append, strip_name h1 h2 h3 _, if_neg (by simp [h1])]
  simp only [(takeWhile_name h2 _ hr).2]
  rcases hd with rfl | rfl | ⟨e, rfl, he, he1, he2, he3⟩
  · cases p with
    | nil => exact absurd rfl h1
    | cons a p =>
      have : a ≠ '/' := by rintro rfl; simp at h2
      simp [strip, this]
  · simp [strip]
  · have hne : e ++ c!"/" ≠ c!"/" := by
      intro h
      apply he
      simpa using h
    rw [List.reverse_append, show (c!"/" : Str).reverse = ['/'] from rfl, List.singleton_append, strip_slash,
      strip_plain he2 he3, List.reverse_reverse, if_neg (by simp [he]), if_neg (by simp), if_neg hne]
    simp

theorem getLast_ne_of_not_mem {p : Str} (h : c ∉ p) : p.getLast? ≠ some c := by
  intro h'
  exact h (List.mem_of_getLast? h')

/-- How a usual word is taken apart: the text for the directory, which build with a name gives the word's
directory part with the name. -/
theorem splitDir_word {d p : Str} (hd : DirPart d) (hp : p = [] ∨ Name p) (hb : p.getLast? ≠ some '\\') :
    ∃ dir, splitDir (d ++ p) = (dir, p) ∧ (∀ n, build dir n = d ++ n) ∧
      (dir = (if d = [] then c!"." else d) ∨ dir ++ c!"/" = d ∧ dir ≠ [] ∧ dir.getLast? ≠ some '/') := by
  rcases hp with rfl | hp
  · rw [List.append_nil]
    rcases hd with rfl | rfl | ⟨e, rfl, he, he1, he2, he3⟩
    · exact ⟨c!".", rfl, fun n => rfl, .inl rfl⟩
    · exact ⟨c!"/", rfl, fun n => rfl, .inl rfl⟩
    · refine ⟨e ++ c!"/", ?_, ?_, .inl (by simp)⟩
      · simp [splitDir, endsSep]
      · intro n
        have : e ++ c!"/" ≠ c!"." := by
          intro h
          have := congrArg List.getLast? h
          simp at this
        unfold build
        rw [if_neg (by simp [he]; simpa using this)]
        simp [join]
  · have hne : d ++ p ≠ [] := by simp [hp.1]
    have hlast : (d ++ p).getLast? = p.getLast? := by
      rw [List.getLast?_append]
      cases hpp : p.getLast? with
      | none => simp at hpp; exact absurd hpp hp.1
      | some c => rfl
    have hsep : endsSep (d ++ p) = false := by
      simp [endsSep, hlast, getLast_ne_of_not_mem hp.2.1, hb]
    have hdl : d = [] ∨ d.getLast? = some '/' := by
      rcases hd with rfl | rfl | ⟨e, rfl, -⟩
      · exact .inl rfl
      · exact .inr rfl
      · exact .inr (by simp)
    have hs : splitDir (d ++ p) = (if (if d = [] then ([] : Str) else if d = c!"/" then c!"/" else d.dropLast) = [] then c!"."
        else (if d = [] then ([] : Str) else if d = c!"/" then c!"/" else d.dropLast), p) := by
      simp only [splitDir, if_neg hne, hsep, parent_name hd hp.1 hp.2.1 hp.2.2.1, fileName_name hp d hdl]
      rfl
    rw [hs]
    rcases hd with rfl | rfl | ⟨e, rfl, he, he1, he2, he3⟩
    · exact ⟨c!".", rfl, fun n => rfl, .inl rfl⟩
    · exact ⟨c!"/", rfl, fun n => rfl, .inl rfl⟩
    · have hne : e ++ c!"/" ≠ c!"/" := by
        intro h
        apply he
        simpa using h
      refine ⟨e, ?_, ?_, .inr ⟨rfl, he, he2⟩⟩
      · simp [he]
      · intro n
        simp [build, he, he1, join, he2]

/-! ### C112: Tab offers the entries of the directory -/

theorem endsSep_entry (dir n : Str) (isd : Bool) (hn : Name n) (hb : n.getLast? ≠ some '\\') :
    endsSep (join dir n ++ if isd then c!"/" else []) = isd := by
  obtain ⟨d', -, hj⟩ := join_eq dir n
  rw [hj]
  cases isd
  · have : (d' ++ n).getLast? = n.getLast? := by
      rw [List.getLast?_append]
      cases hpp : n.getLast? with
      | none => simp at hpp; exact absurd hpp hn.1
      | some c => rfl
    simp [endsSep, this, getLast_ne_of_not_mem hn.2.1, hb]
  · simp [endsSep]

theorem trimSeps_entry (dir n : Str) (isd : Bool) (hn : Name n) (hb : n.getLast? ≠ some '\\') :
    fileName (trimSeps (join dir n ++ if isd then c!"/" else [])) = some n := by
  obtain ⟨d', hd', hj⟩ := join_eq dir n
  have : trimSeps (join dir n ++ if isd then c!"/" else []) = d' ++ n := by
    rw [hj]
    have hbase : trimSeps (d' ++ n) = d' ++ n := by
      unfold trimSeps
      cases hr : n.reverse with
      | nil => simp at hr; exact absurd hr hn.1
      | cons a l =>
        have ha : n.getLast? = some a := by rw [← List.head?_reverse, hr]; rfl
        have h1 : a ≠ '/' := by rintro rfl; exact getLast_ne_of_not_mem hn.2.1 ha
        have h2 : a ≠ '\\' := by rintro rfl; exact hb ha
        rw [List.reverse_append, hr, List.cons_append, List.dropWhile_cons, if_neg (by simp [h1, h2]), ← List.cons_append, ← hr,
          ← List.reverse_append, List.reverse_reverse]
    cases isd
    · simpa using hbase
    · unfold trimSeps at hbase ⊢
      simpa using hbase
  rw [this]
  exact fileName_name hn d' (.inr hd')

/-- The entries that belong to the part typed: all, those that begin with it, or that the fuzzy matcher takes. -/
def Belongs (fz : Str → Str → Bool) (p n : Str) : Prop := p = [] ∨ p <+: n ∨ fz n p = true

/-- A listing as the system gives it: names, and `d/` is the same directory as `d`. -/
def Sane (fs : Fs) : Prop :=
  (∀ d l, fs d = some l → ∀ e ∈ l, Name e.1 ∧ e.1.getLast? ≠ some '\\') ∧
  (∀ e, e ≠ [] → e.getLast? ≠ some '/' → fs (e ++ c!"/") = fs e)

/-- What was stored comes from an earlier request. -/
theorem cache_from (fz : Str → Str → Bool) (l : List Req) (k : Str) (e : Cache.Entry Str)
    (h : cacheAfter fz l k = some e) :
    ∃ r ∈ l, (splitDir r.token).1 = k ∧ e.exp = r.now + ttl ∧ scan r.fs k = some e.cands := by
  induction l generalizing k e with
  | nil => cases h
  | cons q l ih =>
    have keep : cacheAfter fz l k = some e → ∃ r ∈ q :: l, (splitDir r.token).1 = k ∧ e.exp = r.now + ttl ∧
        scan r.fs k = some e.cands := by
      intro h
      obtain ⟨r, hr, h⟩ := ih k e h
      exact ⟨r, List.mem_cons_of_mem _ hr, h⟩
    simp only [cacheAfter, complete, listing] at h
    split at h
    · exact keep h
    · split at h
      · rename_i cs hs
        simp only [Cache.set] at h
        split at h
        · rename_i hk
          subst hk
          simp only [Option.some.injEq] at h
          subst h
          exact ⟨q, by simp, rfl, rfl, hs⟩
        · unfold Cache.purge at h
          rw [Option.filter_eq_some_iff] at h
          exact keep h.1
      · exact keep h

/-- **C112, partial (what holds).** For a word with a usual directory part `d` and the beginning `p` of a name,
Tab offers exactly the entries of that directory (the first 500) that belong to `p`, each written behind `d` as
typed, and for directories marked as such — if in the last two seconds nothing was completed in a directory
whose text begins this one's, other than this very directory with the same entries. -/
theorem C112_partial (fz : Str → Str → Bool) (l : List Req) (q : Req) (d p : Str) (ht : q.token = d ++ p) (hd : DirPart d)
    (hp : p = [] ∨ Name p) (hb : p.getLast? ≠ some '\\') (hs : Sane q.fs)
    (hfresh : ∀ r ∈ l, q.now < r.now + 2000 → (splitDir r.token).1 <+: (splitDir q.token).1 →
      (splitDir r.token).1 = (splitDir q.token).1 ∧ r.fs (splitDir q.token).1 = q.fs (splitDir q.token).1) (c : Str × Bool) :
    c ∈ (complete fz (cacheAfter fz l) q).1 ↔
      ∃ e ∈ ((q.fs (if d = [] then c!"." else d)).getD []).take 500,
        Belongs fz p e.1 ∧ (q.onlyDirs = true → e.2 = true) ∧ c = (d ++ e.1, e.2) := by
  obtain ⟨dir, hsd, hbuild, hdir⟩ := splitDir_word hd hp hb
  rw [← ht] at hsd
  have hfs : q.fs (if d = [] then c!"." else d) = q.fs dir := by
    rcases hdir with h | ⟨h1, h2, h3⟩
    · rw [h]
    · have : d ≠ [] := by rw [← h1]; simp
      rw [if_neg this, ← h1, hs.2 dir h2 h3]
  rw [hfs]
  have hlist : (listing (cacheAfter fz l) q.now q.fs dir).1 = (scan q.fs dir).getD [] := by
    have hlive : ∀ k e, cacheAfter fz l k = some e → q.now < e.exp → k <+: dir → k = dir ∧ scan q.fs dir = some e.cands := by
      intro k e he hx hk
      obtain ⟨r, hr, hrk, hexp, hsc⟩ := cache_from fz l k e he
      have := hfresh r hr (by rw [hexp] at hx; exact hx) (by rw [hsd, hrk]; exact hk)
      rw [hrk, hsd] at this
      obtain ⟨h1, h2⟩ := this
      subst h1
      refine ⟨rfl, ?_⟩
      unfold scan at hsc ⊢
      simp only at h2
      rw [← h2]
      exact hsc
    unfold listing
    cases hl : Cache.lookup id (cacheAfter fz l) q.now dir with
    | none =>
      cases scan q.fs dir <;> simp
    | some h =>
      simp only [Cache.lookup] at hl
      split at hl
      · cases hl
      · rename_i key ex hkey
        have hk := (Cache.longest_spec _ _ _ _ _).1 hkey
        split at hl
        · cases hl
        · rename_i e he
          have hx : q.now < e.exp := by
            have := hk.2.1
            simp only [Cache.live, he, Cache.Entry.expired] at this
            simpa using this
          obtain ⟨rfl, hsc⟩ := hlive key e he hx hk.1
          have : ex = true := hk.2.2.2.2 rfl
          subst this
          simp only [Option.some.injEq] at hl
          subst hl
          simp [hsc]
  unfold complete
  rw [hsd]
  simp only [hlist, List.mem_filterMap]
  have hscan : (scan q.fs dir).getD [] =
      (((q.fs dir).getD []).take 500).map (fun e => join dir e.1 ++ if e.2 then c!"/" else []) := by
    unfold scan maxResult
    cases q.fs dir <;> simp
  rw [hscan]
  have hnames : ∀ e ∈ ((q.fs dir).getD []).take 500, Name e.1 ∧ e.1.getLast? ≠ some '\\' := by
    intro e he
    have he := List.mem_of_mem_take he
    cases hq : q.fs dir with
    | none => rw [hq] at he; cases he
    | some l => rw [hq] at he; exact hs.1 dir l hq e he
  have hoffer : ∀ e ∈ ((q.fs dir).getD []).take 500, ∀ c,
      offer fz q.onlyDirs dir p (join dir e.1 ++ if e.2 then c!"/" else []) = some c ↔
        Belongs fz p e.1 ∧ (q.onlyDirs = true → e.2 = true) ∧ c = (d ++ e.1, e.2) := by
    intro e he c
    obtain ⟨hn, hnb⟩ := hnames e he
    unfold offer
    rw [endsSep_entry dir e.1 e.2 hn hnb, trimSeps_entry dir e.1 e.2 hn hnb]
    simp only [hbuild, Belongs, ← List.isPrefixOf_iff_prefix]
    cases q.onlyDirs <;> cases e.2 <;> simp only [Bool.not_true, Bool.not_false, Bool.and_true, Bool.and_false] <;> grind
  constructor
  · rintro ⟨path, hpath, hof⟩
    obtain ⟨e, he, rfl⟩ := List.mem_map.1 hpath
    exact ⟨e, he, (hoffer e he c).1 hof⟩
  · rintro ⟨e, he, h⟩
    exact ⟨_, List.mem_map.2 ⟨e, he, rfl⟩, (hoffer e he c).2 h⟩

/-- A small tree, seen from the working directory. -/
def exFs : Fs := fun d =>
  if d = c!"." then some [(c!"src", true), (c!"setup.py", false), (c!".git", true)]
  else if d = c!"src" ∨ d = c!"src/" then some [(c!"main.rs", false), (c!"lib.rs", false), (c!".hidden", false)]
  else if d = c!".." ∨ d = c!"../" then some [(c!"other", true)]
  else none

example : (complete (fun _ _ => false) (cacheAfter (fun _ _ => false) [⟨0, exFs, c!"src/", false⟩]) ⟨10, exFs, c!"src/ma", false⟩).1
    = [(c!"src/main.rs", false)] := by decide +kernel

/-! #### Where it fails -/

theorem mem_takeWhile_imp' {p : Char → Bool} {l : Str} {x : Char} (h : x ∈ l.takeWhile p) : p x = true := by
  induction l with
  | nil => cases h
  | cons a l ih =>
    simp only [List.takeWhile_cons] at h
    split at h
    · rcases List.mem_cons.1 h with rfl | h
      · assumption
      · exact ih h
    · cases h

theorem lookup_none (now : Nat) (k : Str) : Cache.lookup id (fun _ => none : Tab) now k = none := by
  have : Cache.longestLivePrefix (fun _ => none : Tab) now k = none := by
    cases h : Cache.longestLivePrefix (fun _ => none : Tab) now k with
    | none => rfl
    | some r =>
      have := ((Cache.longest_spec _ _ _ r.1 r.2).1 h).2.1
      simp [Cache.live] at this
  simp [Cache.lookup, this]

/-- After one request the cache holds that directory. -/
theorem cacheAfter_one (fz : Str → Str → Bool) (q : Req) {dir : Str} (h : (splitDir q.token).1 = dir) {L : List Str}
    (hL : scan q.fs dir = some L) (k : Str) :
    cacheAfter fz [q] k = if k = dir then some ⟨L, q.now + ttl⟩ else none := by
  subst h
  simp only [cacheAfter, complete, listing, lookup_none, hL, Cache.set]
  split
  · rfl
  · simp [Cache.purge]

/-- Then a longer text finds it. -/
theorem lookup_one {m : Tab} {dir : Str} {L : List Str} {x now : Nat} (hm : ∀ k, m k = if k = dir then some ⟨L, x⟩ else none)
    (hx : now < x) (more : Str) (hmore : more ≠ []) :
    Cache.lookup id m now (dir ++ more) = some ⟨dir, L.filter (Cache.fits id (dir ++ more)), false⟩ := by
  have hlive : ∀ k, Cache.live m now k = true ↔ k = dir := by
    intro k
    unfold Cache.live
    rw [hm k]
    by_cases hk : k = dir
    · simp [hk, Cache.Entry.expired, hx]
    · simp [hk]
  have : Cache.longestLivePrefix m now (dir ++ more) = some (dir, false) := by
    rw [Cache.longest_spec]
    refine ⟨List.prefix_append _ _, (hlive dir).2 rfl, ?_, ?_⟩
    · intro k' _ hk'
      rw [(hlive k').1 hk']
      exact Nat.le_refl _
    · simp [hmore]
  simp only [Cache.lookup, this, hm dir, if_true]
  simp

theorem lastToken_solid {s : Str} (h : ∀ c ∈ s, rustWhitespace c = false) : Cache.lastToken s = s := by
  unfold Cache.lastToken
  have : s.reverse.takeWhile (fun c => ! rustWhitespace c) = s.reverse := by
    have := List.takeWhile_append_of_pos (p := fun c => ! rustWhitespace c) (l₁ := s.reverse) (l₂ := [])
      (by intro c hc; simp [h c (List.mem_reverse.1 hc)])
    simpa using this
  rw [this, List.reverse_reverse]

theorem fits_solid {s : Str} (h : ∀ c ∈ s, rustWhitespace c = false) (t : Str) :
    Cache.fits id s t = true ↔ s <+: t := by
  unfold Cache.fits
  rw [lastToken_solid h]
  simp only [id, Bool.or_eq_true, Bool.and_eq_true, List.isPrefixOf_iff_prefix]
  constructor
  · rintro (h | h)
    · exact h
    · exact h.2
  · exact .inl

theorem name_slash_prefix {n s r : Str} (hn : '/' ∉ n) (hs : '/' ∉ s) : s ++ '/' :: r <+: n ++ c!"/" → n = s ∧ r = [] := by
  induction s generalizing n with
  | nil =>
    intro h
    cases n with
    | nil =>
      obtain ⟨t, ht⟩ := h
      simp at ht
      exact ⟨rfl, ht.1⟩
    | cons a n =>
      obtain ⟨t, ht⟩ := h
      simp at ht
      rw [← ht.1] at hn
      simp at hn
  | cons b s ih =>
    intro h
    cases n with
    | nil =>
      obtain ⟨t, ht⟩ := h
      simp at ht
    | cons a n =>
      obtain ⟨t, ht⟩ := h
      simp at ht
      have := ih (n := n) (fun h => hn (List.mem_cons_of_mem _ h)) (fun h => hs (List.mem_cons_of_mem _ h)) ⟨t, by simp [ht.2]⟩
      exact ⟨by rw [this.1, ht.1], this.2⟩

/-- **C112, negation (going down).** Who completes in `d/` and within two seconds in `d/s/` is offered not one
entry of `d/s/`, whatever it holds, but `d/s/s` — for every directory `d/` and every `s` in it. -/
theorem C112_violated (fz : Str → Str → Bool) (fs fs' : Fs) (d s : Str) (l : List (Str × Bool)) (t t' : Nat)
    (hd : d.getLast? = some '/') (hws : ∀ c ∈ d ++ s ++ c!"/", rustWhitespace c = false) (hs : Name s) (hsb : s.getLast? ≠ some '\\')
    (hfs : fs d = some l) (hin : (s, true) ∈ l.take 500) (hnames : ∀ e ∈ l, Name e.1) (htime : t' < t + 2000) (c : Str × Bool) :
    c ∈ (complete fz (cacheAfter fz [⟨t, fs, d, false⟩]) ⟨t', fs', d ++ s ++ c!"/", false⟩).1 ↔
      c = (d ++ s ++ c!"/" ++ s, true) := by
  have hdne : d ≠ [] := by rintro rfl; cases hd
  have hsplit : ∀ x : Str, x.getLast? = some '/' → splitDir x = (x, []) := by
    intro x hx
    have : x ≠ [] := by rintro rfl; cases hx
    simp [splitDir, this, endsSep, hx]
  have hjoin : ∀ (x n : Str), x.getLast? = some '/' → join x n = x ++ n := by
    intro x n hx
    simp [join, hx]
  have hlast : (d ++ s ++ c!"/").getLast? = some '/' := by simp
  have hL : scan fs d = some ((l.map fun e => d ++ e.1 ++ if e.2 then c!"/" else []).take 500) := by
    simp only [scan, hfs, Option.map_some, maxResult, hjoin d _ hd]
  have hm := cacheAfter_one fz ⟨t, fs, d, false⟩ (dir := d) (by simp [hsplit d hd]) hL
  have hlk := lookup_one hm htime (s ++ c!"/") (by simp)
  rw [← List.append_assoc] at hlk
  have hbuild : build (d ++ s ++ c!"/") s = d ++ s ++ c!"/" ++ s := by
    have : d ++ s ++ c!"/" ≠ c!"." := by
      intro h
      rw [h] at hlast
      cases hlast
    unfold build
    rw [if_neg (by simp only [this, false_or]; simp), hjoin _ _ hlast]
  have hentry := trimSeps_entry d s true hs hsb
  rw [hjoin d s hd] at hentry
  have hends := endsSep_entry d s true hs hsb
  rw [hjoin d s hd] at hends
  simp only [if_true] at hentry hends
  have hoffer : offer fz false (d ++ s ++ c!"/") [] (d ++ s ++ c!"/") = some (d ++ s ++ c!"/" ++ s, true) := by
    simp only [offer, Bool.false_and, hentry, hends, hbuild, true_or, if_true]
    rfl
  unfold complete
  rw [hsplit _ hlast]
  simp only [listing, hlk, List.mem_filterMap, List.mem_filter, fits_solid hws]
  constructor
  · rintro ⟨path, ⟨hpath, hpre⟩, hof⟩
    rw [← List.map_take] at hpath
    obtain ⟨e, he, rfl⟩ := List.mem_map.1 hpath
    have hn := hnames e (List.mem_of_mem_take he)
    have hpath : (d ++ e.1 ++ if e.2 then c!"/" else []) = d ++ s ++ c!"/" := by
      rw [List.append_assoc, List.append_assoc, List.prefix_append_right_inj] at hpre
      cases he2 : e.2 with
      | false =>
        exfalso
        rw [he2] at hpre
        simp only [Bool.false_eq_true, if_false, List.append_nil] at hpre
        exact hn.2.1 (hpre.subset (by simp))
      | true =>
        rw [he2] at hpre
        simp only [if_true] at hpre
        rw [(name_slash_prefix hn.2.1 hs.2.1 hpre).1]
        simp
    rw [hpath, hoffer] at hof
    simpa using hof.symm
  · rintro rfl
    refine ⟨_, ⟨?_, List.prefix_refl _⟩, hoffer⟩
    rw [← List.map_take]
    exact List.mem_map.2 ⟨(s, true), hin, by simp⟩

example : (complete (fun _ _ => false) (cacheAfter (fun _ _ => false) [⟨0, fun _ => some [(c!"lib", true), (c!"bin", true)], c!"/usr/", false⟩])
    ⟨1500, fun _ => some [(c!"libc.so", false)], c!"/usr/lib/", false⟩).1 = [(c!"/usr/lib/lib", true)] := by decide +kernel

/-- **C112, negation (another working directory).** Who completes an empty word, changes the directory, and
completes an empty word again within two seconds is offered the entries of the directory they left. -/
theorem C112_cd_violated (fz : Str → Str → Bool) (fs fs' : Fs) (l : List (Str × Bool)) (t t' : Nat)
    (hfs : fs c!"." = some l) (htime : t' < t + 2000) :
    (complete fz (cacheAfter fz [⟨t, fs, [], false⟩]) ⟨t', fs', [], false⟩).1 = (complete fz (fun _ => none) ⟨t, fs, [], false⟩).1 := by
  have hL : scan fs c!"." = some ((l.map fun e => join c!"." e.1 ++ if e.2 then c!"/" else []).take 500) := by
    simp [scan, hfs, maxResult]
  have hm := cacheAfter_one fz ⟨t, fs, [], false⟩ (dir := c!".") rfl hL
  have hlk := Cache.lookup_exact id (m := cacheAfter fz [⟨t, fs, [], false⟩]) ((hm c!".").trans (if_pos rfl)) htime
  simp only [complete, show splitDir [] = (c!".", []) from rfl, listing, hlk, lookup_none, hL]

/-- **C112, negation (going up).** Within two seconds after completing an empty word, nothing is offered for `../`. -/
theorem C112_up_violated (fz : Str → Str → Bool) (fs fs' : Fs) (l : List (Str × Bool)) (t t' : Nat)
    (hfs : fs c!"." = some l) (htime : t' < t + 2000) :
    (complete fz (cacheAfter fz [⟨t, fs, [], false⟩]) ⟨t', fs', c!"../", false⟩).1 = [] := by
  have hL : scan fs c!"." = some ((l.map fun e => join c!"." e.1 ++ if e.2 then c!"/" else []).take 500) := by
    simp [scan, hfs, maxResult]
  have hm := cacheAfter_one fz ⟨t, fs, [], false⟩ (dir := c!".") rfl hL
  have hlk := lookup_one hm htime c!"./" (by simp)
  simp only [complete, show splitDir c!"../" = (c!"../", []) from rfl, listing]
  rw [show (c!"../" : Str) = c!"." ++ c!"./" from rfl, hlk]
  have : ((l.map fun e => join c!"." e.1 ++ if e.2 then c!"/" else []).take 500).filter (Cache.fits id (c!"." ++ c!"./")) = [] := by
    rw [List.filter_eq_nil_iff]
    intro x hx
    obtain ⟨e, -, rfl⟩ := List.mem_map.1 (List.mem_of_mem_take hx)
    rw [fits_solid (by decide)]
    rintro ⟨r, hr⟩
    simp [join] at hr
  rw [this]
  rfl

/-- **C112, negation (hidden files).** For a word `a/.` the directory listed is the one `a` is in: nothing that
is offered begins with `a/`. -/
theorem C112_hidden_violated (fz : Str → Str → Bool) (fs : Fs) (a : Str) (t : Nat) (ha : Name a) :
    ∀ c ∈ (complete fz (fun _ => none) ⟨t, fs, a ++ c!"/.", false⟩).1, ¬ (a ++ c!"/") <+: c.1 := by
  have hstrip : strip (a ++ c!"/.").reverse = a.reverse := by
    have := strip_name ha.1 ha.2.1 ha.2.2.1 []
    simp only [List.append_nil] at this
    simp only [List.reverse_append]
    show strip ('.' :: '/' :: a.reverse) = _
    simp only [strip]
    exact this
  have htake := takeWhile_name ha.2.1 [] (.inl rfl)
  simp only [List.append_nil] at htake
  have hhead : (a ++ c!"/.").head? ≠ some '/' := by
    cases a with
    | nil => exact absurd rfl ha.1
    | cons b a =>
      intro h
      simp at h
      exact ha.2.1 (by simp [h])
  have hsplit : splitDir (a ++ c!"/.") = (c!".", a) := by
    have hp : parent (a ++ c!"/.") = some [] := by
      unfold parent
      rw [hstrip, if_neg (by simp [ha.1])]
      simp only [htake.2, strip, List.reverse_nil, hhead]
      rw [if_neg (by simp)]
    have hf : fileName (a ++ c!"/.") = some a := by
      have : lastName (a ++ c!"/.") = a := by
        unfold lastName
        rw [hstrip, htake.1, List.reverse_reverse]
      unfold fileName
      rw [this, if_neg (by simp [ha.1, ha.2.2.1, ha.2.2.2])]
    have hs : endsSep (a ++ c!"/.") = false := by simp [endsSep]
    simp only [splitDir, hs, hp, hf]
    simp
  intro c hc
  unfold complete at hc
  rw [hsplit] at hc
  simp only [List.mem_filterMap] at hc
  obtain ⟨path, -, hof⟩ := hc
  have hno : ∀ x n, fileName x = some n → '/' ∉ n := by
    intro x n h
    unfold fileName at h
    split at h
    · cases h
    · simp only [Option.some.injEq] at h
      subst h
      unfold lastName
      intro hm
      have := mem_takeWhile_imp' (List.mem_reverse.1 hm)
      simp at this
  unfold offer at hof
  simp only [Bool.false_and, Bool.false_eq_true, if_false] at hof
  cases hfn : fileName (trimSeps path) with
  | none => rw [hfn] at hof; cases hof
  | some n =>
    rw [hfn] at hof
    simp only at hof
    split at hof
    · simp only [build, true_or, if_true, Option.some.injEq] at hof
      subst hof
      intro hpre
      exact hno _ _ hfn (hpre.subset (by simp))
    · cases hof

/-- **C112, negation (`./`).** For a word `./p` the names are offered without the `./`. -/
theorem C112_dot_violated :
    (complete (fun _ _ => false) (fun _ => none) ⟨0, exFs, c!"./se", false⟩).1 = [(c!"setup.py", false)] := by decide +kernel

/-! ### C113: the grey path -/

/-- The bytes of a text. -/
def bytes (s : Str) : Nat := (s.map Char.utf8Size).sum

/-- Shorter, or as long and before it in the alphabet. -/
def Earlier (a b : Str) : Prop := bytes a < bytes b ∨ bytes a = bytes b ∧ Frec.Before a b

theorem shorterFirst_iff (a b : Str) : shorterFirst a b = true ↔ ¬ Earlier b a := by
  simp only [shorterFirst, Earlier, ← bytes.eq_def, Bool.or_eq_true, Bool.and_eq_true, decide_eq_true_eq]
  rw [show (Frec.cmpStr a b != .gt) = true ↔ ¬ Frec.Before b a by rw [← Frec.cmpStr_gt]; simp]
  grind

theorem shorterFirst_trans (a b c : Str) (h1 : shorterFirst a b = true) (h2 : shorterFirst b c = true) :
    shorterFirst a c = true := by
  rw [shorterFirst_iff] at *
  unfold Earlier at *
  rintro (h | ⟨h, h'⟩)
  · grind
  · rcases Nat.lt_trichotomy (bytes a) (bytes b) with h3 | h3 | h3
    · apply h2; left; omega
    · rcases Frec.before_total b c with h4 | h4 | h4
      · exact h1 (.inr ⟨by omega, Frec.before_trans h4 h'⟩)
      · subst h4; exact h1 (.inr ⟨by omega, h'⟩)
      · exact h2 (.inr ⟨by omega, h4⟩)
    · exact h1 (.inl h3)

theorem shorterFirst_total (a b : Str) : (shorterFirst a b || shorterFirst b a) = true := by
  rw [Bool.or_eq_true, shorterFirst_iff, shorterFirst_iff]
  by_cases h : Earlier b a
  · right
    unfold Earlier at *
    rintro (h' | ⟨h', h''⟩)
    · omega
    · rcases h with h | ⟨h, h3⟩
      · omega
      · exact Frec.before_irrefl _ (Frec.before_trans h'' h3)
  · exact .inl h

theorem first_sorted {l : List Str} {c : Str} (h : (sortBy shorterFirst l).head? = some c) :
    c ∈ l ∧ ∀ x ∈ l, ¬ Earlier x c := by
  have hp := sortBy_perm shorterFirst l
  have hs := sortBy_sorted shorterFirst shorterFirst_trans shorterFirst_total l
  cases hl : sortBy shorterFirst l with
  | nil => rw [hl] at h; cases h
  | cons a r =>
    rw [hl] at h hp hs
    simp only [List.head?_cons, Option.some.injEq] at h
    subst h
    refine ⟨hp.mem_iff.1 (by simp), ?_⟩
    intro x hx
    rcases List.mem_cons.1 (hp.mem_iff.2 hx) with rfl | hx
    · rintro (h | ⟨-, h⟩)
      · exact Nat.lt_irrefl _ h
      · exact Frec.before_irrefl _ h
    · exact (shorterFirst_iff _ _).1 ((List.pairwise_cons.1 hs).1 x hx)

theorem bytes_prefix {a b : Str} (h : a <+: b) : bytes a ≤ bytes b ∧ (bytes b ≤ bytes a → a = b) := by
  obtain ⟨t, rfl⟩ := h
  have : bytes (a ++ t) = bytes a + bytes t := by simp [bytes]
  refine ⟨by omega, fun h => ?_⟩
  cases t with
  | nil => simp
  | cons c t =>
    have hc : 0 < c.utf8Size := Char.utf8Size_pos c
    have : bytes (c :: t) = c.utf8Size + bytes t := by simp [bytes]
    omega

/-- How an entry is written behind the directory part. -/
def shown (d : Str) (e : Str × Bool) : Str := d ++ e.1 ++ if e.2 then c!"/" else []

theorem strip_ne_nil : ∀ {r : Str}, r ≠ [] → r.getLast? ≠ some '/' → strip r ≠ [] := by
  intro r
  induction r using strip.induct with
  | case1 r ih =>
    intro _ h2
    rw [strip_slash]
    cases r with
    | nil => simp at h2
    | cons a r => exact ih (by simp) (by simpa using h2)
  | case2 r ih =>
    intro _ h2
    simp only [strip]
    cases r with
    | nil => simp at h2
    | cons a r => exact ih (by simp) (by simpa using h2)
  | case3 r h1 h2 =>
    intro h3 _
    unfold strip
    split
    · exact absurd rfl (h1 _)
    · exact absurd rfl (h2 _)
    · exact h3

/-- The directory listed for a word with a directory part is the one that part names. -/
theorem asked_word {d p : Str} (hd : DirPart d) (hne : d ≠ []) (hp : p = [] ∨ Name p)
    (hdeep : p = [] → d.head? = some '/' ∨ '/' ∈ d.dropLast) :
    ∃ dir, asked (d ++ p) = some dir ∧ (∀ n, join dir n = d ++ n) ∧
      (dir = d ∨ dir ++ c!"/" = d ∧ dir ≠ [] ∧ dir.getLast? ≠ some '/') := by
  rcases hp with rfl | hp
  · rw [List.append_nil]
    rcases hd with rfl | rfl | ⟨e, rfl, he, he1, he2, he3⟩
    · exact absurd rfl hne
    · exact ⟨c!"/", by decide, fun n => rfl, .inl rfl⟩
    · refine ⟨e ++ c!"/", ?_, fun n => by simp [join], .inl rfl⟩
      have hstrip : strip (e ++ c!"/").reverse = e.reverse := by
        rw [List.reverse_append, show (c!"/" : Str).reverse = ['/'] from rfl, List.singleton_append, strip_slash, strip_plain he2 he3]
      by_cases hh : (e ++ c!"/").head? = some '/'
      · unfold asked
        rw [if_pos hh]
        unfold parent
        rw [hstrip, if_neg (by simp [he])]
        simp only
        split
        · rename_i f hf; simp
        · rfl
      · have hmem : '/' ∈ e := by
          rcases hdeep rfl with h | h
          · exact absurd h hh
          · simpa using h
        have hne2 : strip (e.reverse.dropWhile (· ≠ '/')) ≠ [] := by
          apply strip_ne_nil
          · intro h
            have := congrArg (fun x => decide ('/' ∈ e.reverse.takeWhile (· ≠ '/') ++ x)) h
            simp only [List.takeWhile_append_dropWhile, List.append_nil, List.mem_reverse, hmem] at this
            have hm : '/' ∈ e.reverse.takeWhile (· ≠ '/') := by simpa using this.symm
            have := mem_takeWhile_imp' hm
            simp at this
          · intro h
            have hsuf := List.dropWhile_suffix (l := e.reverse) (fun c => decide (c ≠ '/'))
            obtain ⟨t, ht⟩ := hsuf
            have hl : e.reverse.getLast? = some '/' := by
              rw [← ht, List.getLast?_append, h]
              rfl
            rw [List.getLast?_reverse] at hl
            apply hh
            rw [List.head?_append, hl]
            rfl
        unfold asked
        rw [if_neg hh]
        unfold parent
        rw [hstrip, if_neg (by simp [he])]
        simp only
        rw [if_neg (by simp only [List.reverse_eq_nil_iff, hne2, false_and, not_false_iff])]
        show some _ = some _
        rw [if_neg (by simpa using hne2), if_pos (by simp)]
  · have hhead : parent (d ++ p) = some (if d = c!"/" then c!"/" else d.dropLast) := by
      rw [parent_name hd hp.1 hp.2.1 hp.2.2.1, if_neg hne]
    have hlast : (d ++ p).getLast? ≠ some '/' := by
      rw [List.getLast?_append]
      cases hpp : p.getLast? with
      | none => simp at hpp; exact absurd hpp hp.1
      | some c => intro h; exact getLast_ne_of_not_mem hp.2.1 (by rw [hpp]; exact h)
    have hask : (if d = c!"/" then c!"/" else d.dropLast) ≠ [] → asked (d ++ p) = some (if d = c!"/" then c!"/" else d.dropLast) := by
      intro hn
      unfold asked
      rw [hhead]
      split
      · rfl
      · show some (if (if d = c!"/" then c!"/" else d.dropLast) = [] then _ else _) = some _
        rw [if_neg hn]
    rcases hd with rfl | rfl | ⟨e, rfl, he, he1, he2, he3⟩
    · exact absurd rfl hne
    · exact ⟨c!"/", hask (by decide), fun n => rfl, .inl rfl⟩
    · have hne3 : e ++ c!"/" ≠ c!"/" := by
        intro h
        apply he
        simpa using h
      rw [if_neg hne3] at hask
      refine ⟨e, ?_, fun n => by simp [join, he2], .inr ⟨rfl, he, he2⟩⟩
      have := hask (by simp [he])
      simpa using this

theorem strip_suffix : ∀ r : Str, strip r <:+ r := by
  intro r
  induction r using strip.induct with
  | case1 r ih => rw [strip_slash]; exact ih.trans (List.suffix_cons _ _)
  | case2 r ih => simp only [strip]; exact ih.trans ((List.suffix_cons _ _).trans (List.suffix_cons _ _))
  | case3 r h1 h2 =>
    unfold strip
    split
    · rename_i r'; exact absurd rfl (h1 r')
    · rename_i r'; exact absurd rfl (h2 r')
    · exact List.suffix_refl _

/-- Behind a directory part only what continues the word is taken. -/
theorem greyFits_word {d p : Str} (hne : d ≠ []) (hdl : d.getLast? = some '/') (hdot : ¬ c!"././" <+: d)
    (od : Bool) (e : Str × Bool) (he : Name e.1) :
    greyFits (d ++ p) od (shown d e) = true ↔ (d ++ p) <+: shown d e ∧ (od = true → e.2 = true) := by
  have hlast : (shown d e).getLast? = some '/' ↔ e.2 = true := by
    unfold shown
    cases e.2
    · simp only [Bool.false_eq_true, if_false, List.append_nil, iff_false]
      rw [List.getLast?_append]
      cases hpp : e.1.getLast? with
      | none => simp at hpp; exact absurd hpp he.1
      | some c => intro h; exact getLast_ne_of_not_mem he.2.1 (by rw [hpp]; exact h)
    · simp
  have hstripped : ∀ s, stripDot (shown d e) = some s → ¬ (d ++ p) <+: s := by
    intro s hs hpre
    unfold stripDot at hs
    split at hs
    · rename_i hpd
      simp only [Option.some.injEq] at hs
      rw [List.isPrefixOf_iff_prefix] at hpd
      have hsx : s <+: (shown d e).drop 2 := by
        rw [← hs, ← List.reverse_suffix, List.reverse_reverse]
        exact strip_suffix _
      have hdp : d <+: (shown d e).drop 2 := (List.prefix_append d p).trans (hpre.trans hsx)
      obtain ⟨t, ht⟩ := hpd
      have hd2 : ∃ d', d = c!"./" ++ d' := by
        cases d with
        | nil => exact absurd rfl hne
        | cons a d =>
          cases d with
          | nil =>
            simp at hdl
            subst hdl
            simp [shown] at ht
          | cons b d =>
            simp [shown] at ht
            exact ⟨d, by simp [← ht.1, ← ht.2.1]⟩
      obtain ⟨d', rfl⟩ := hd2
      simp only [shown, List.append_assoc] at hdp
      rw [show (c!"./" ++ (d' ++ (e.1 ++ if e.2 then c!"/" else []))).drop 2 = d' ++ (e.1 ++ if e.2 then c!"/" else []) from rfl] at hdp
      obtain ⟨u, hu⟩ := hdp
      cases d' with
      | nil =>
        cases h1 : e.1 with
        | nil => exact he.1 h1
        | cons a n =>
          rw [h1] at hu
          simp at hu
          cases n with
          | nil => exact he.2.2.1 (by rw [h1, hu.1])
          | cons b n =>
            simp at hu
            exact he.2.1 (by rw [h1, ← hu.2.1]; simp)
      | cons a d' =>
        cases d' with
        | nil =>
          simp at hdl hu
          rw [hdl] at hu
          simp at hu
        | cons b d' =>
          simp at hu
          apply hdot
          rw [← hu.1, ← hu.2.1]
          exact ⟨d', by simp⟩
    · cases hs
  unfold greyFits
  rw [Bool.and_eq_true]
  constructor
  · rintro ⟨h1, h2⟩
    rw [Bool.or_eq_true] at h1
    refine ⟨?_, ?_⟩
    · rcases h1 with h1 | h1
      · rwa [List.isPrefixOf_iff_prefix] at h1
      · split at h1
        · rename_i s hs
          rw [List.isPrefixOf_iff_prefix] at h1
          exact absurd h1 (hstripped s hs)
        · cases h1
    · rintro rfl
      simp only [Bool.not_true, Bool.false_or, decide_eq_true_eq] at h2
      exact hlast.1 h2
  · rintro ⟨h1, h2⟩
    refine ⟨by rw [Bool.or_eq_true, List.isPrefixOf_iff_prefix]; exact .inl h1, ?_⟩
    cases od with
    | false => rfl
    | true => simp [hlast.2 (h2 rfl)]

/-- The listing of a word with a directory part. -/
theorem suggest_word (fs : Fs) (cwd d p : Str) (od : Bool) (hd : DirPart d) (hne : d ≠ []) (hp : p = [] ∨ Name p)
    (hdeep : p = [] → d.head? = some '/' ∨ '/' ∈ d.dropLast) (hs : Sane fs) :
    suggest fs cwd (d ++ p) od = grey ((((fs d).getD []).take 500).map (shown d)) (d ++ p) od := by
  obtain ⟨dir, hask, hjoin, hdir⟩ := asked_word hd hne hp hdeep
  have hfs : fs d = fs dir := by
    rcases hdir with h | ⟨h1, h2, h3⟩
    · rw [h]
    · rw [← h1, hs.2 dir h2 h3]
  have : (scan fs dir).getD [] = (((fs d).getD []).take 500).map (shown d) := by
    rw [hfs]
    unfold scan maxResult
    simp only [hjoin]
    cases fs dir with
    | none => rfl
    | some l =>
      simp only [Option.map_some, Option.getD_some, List.map_take]
      rfl
  unfold suggest
  rw [hask, Option.getD_some, this]

/-- **C113, partial (what holds).** For a word with a directory part (at least two levels when it ends with the
slash and is relative) the grey path, once listed, is an entry of that directory that continues the word, a
directory if only directories are wanted, and of all of these the shortest, then the first in the alphabet. -/
theorem C113_partial (fs : Fs) (cwd d p : Str) (od : Bool) (hd : DirPart d) (hne : d ≠ []) (hp : p = [] ∨ Name p)
    (hdeep : p = [] → d.head? = some '/' ∨ '/' ∈ d.dropLast) (hdot : ¬ c!"././" <+: d) (hs : Sane fs) (c : Str)
    (h : suggest fs cwd (d ++ p) od = some c) :
    ∃ e ∈ ((fs d).getD []).take 500, c = shown d e ∧ (d ++ p) <+: c ∧ c ≠ d ++ p ∧ (od = true → e.2 = true) ∧
      ∀ e' ∈ ((fs d).getD []).take 500, (d ++ p) <+: shown d e' → (od = true → e'.2 = true) → ¬ Earlier (shown d e') c := by
  rw [suggest_word fs cwd d p od hd hne hp hdeep hs] at h
  have hdl : d.getLast? = some '/' := by
    rcases hd with rfl | rfl | ⟨e, rfl, -⟩
    · exact absurd rfl hne
    · rfl
    · simp
  have hname : ∀ e ∈ ((fs d).getD []).take 500, Name e.1 := by
    intro e he
    have he := List.mem_of_mem_take he
    cases hq : fs d with
    | none => rw [hq] at he; cases he
    | some l => rw [hq] at he; exact (hs.1 d l hq e he).1
  unfold grey at h
  split at h
  · cases h
  · rename_i c' hc'
    split at h
    · cases h
    · rename_i hlen
      simp only [Option.some.injEq] at h
      subst h
      obtain ⟨hm, hmin⟩ := first_sorted hc'
      obtain ⟨hm, hfit⟩ := List.mem_filter.1 hm
      obtain ⟨e, he, rfl⟩ := List.mem_map.1 hm
      obtain ⟨hpre, hod⟩ := (greyFits_word hne hdl hdot od e (hname e he)).1 hfit
      refine ⟨e, he, rfl, hpre, ?_, hod, ?_⟩
      · intro heq
        apply hlen
        left
        rw [heq]
        exact Nat.le_refl _
      · intro e' he' hpre' hod'
        apply hmin
        exact List.mem_filter.2 ⟨List.mem_map.2 ⟨e', he', rfl⟩,
          (greyFits_word hne hdl hdot od e' (hname e' he')).2 ⟨hpre', hod'⟩⟩

/-- **C113, partial (there is one).** If an entry continues the word and no plain file has exactly this name, a
path is suggested. -/
theorem C113_exists_partial (fs : Fs) (cwd d p : Str) (od : Bool) (hd : DirPart d) (hne : d ≠ []) (hp : p = [] ∨ Name p)
    (hdeep : p = [] → d.head? = some '/' ∨ '/' ∈ d.dropLast) (hdot : ¬ c!"././" <+: d) (hs : Sane fs)
    (h : ∃ e ∈ ((fs d).getD []).take 500, (d ++ p) <+: shown d e ∧ (od = true → e.2 = true))
    (hno : od = true ∨ (p, false) ∉ (fs d).getD []) : suggest fs cwd (d ++ p) od ≠ none := by
  rw [suggest_word fs cwd d p od hd hne hp hdeep hs]
  have hdl : d.getLast? = some '/' := by
    rcases hd with rfl | rfl | ⟨e, rfl, -⟩
    · exact absurd rfl hne
    · rfl
    · simp
  have hname : ∀ e ∈ ((fs d).getD []).take 500, Name e.1 := by
    intro e he
    have he := List.mem_of_mem_take he
    cases hq : fs d with
    | none => rw [hq] at he; cases he
    | some l => rw [hq] at he; exact (hs.1 d l hq e he).1
  obtain ⟨e, he, hpre, hod⟩ := h
  have hin : shown d e ∈ ((((fs d).getD []).take 500).map (shown d)).filter (greyFits (d ++ p) od) :=
    List.mem_filter.2 ⟨List.mem_map.2 ⟨e, he, rfl⟩, (greyFits_word hne hdl hdot od e (hname e he)).2 ⟨hpre, hod⟩⟩
  unfold grey
  cases hc : (sortBy shorterFirst (((((fs d).getD []).take 500).map (shown d)).filter (greyFits (d ++ p) od))).head? with
  | none =>
    rw [List.head?_eq_none_iff] at hc
    have := (sortBy_perm shorterFirst _).mem_iff.2 hin
    rw [hc] at this
    cases this
  | some c =>
    obtain ⟨hm, -⟩ := first_sorted hc
    obtain ⟨hm, hfit⟩ := List.mem_filter.1 hm
    obtain ⟨e', he', rfl⟩ := List.mem_map.1 hm
    obtain ⟨hpre', hod'⟩ := (greyFits_word hne hdl hdot od e' (hname e' he')).1 hfit
    have hn' := hname e' he'
    have hneq : d ++ p ≠ shown d e' := by
      unfold shown
      intro heq
      rw [List.append_assoc] at heq
      have heq := List.append_cancel_left heq
      cases h2 : e'.2 with
      | true =>
        rw [h2] at heq
        rcases hp with rfl | hp
        · simp at heq
        · exact hp.2.1 (by rw [heq]; simp)
      | false =>
        rw [h2] at heq
        simp at heq
        rcases hno with hno | hno
        · rw [hod' hno] at h2; cases h2
        · apply hno
          rw [heq, ← h2]
          exact List.mem_of_mem_take he'
    simp only
    rw [if_neg]
    · simp
    · rintro (h | h)
      · exact hneq ((bytes_prefix hpre').2 h)
      · rw [List.isPrefixOf_iff_prefix] at h
        exact h hpre'

example : suggest (fun d => if d = c!"/etc" ∨ d = c!"/etc/" then some [(c!"hosts", false), (c!"host.conf", false), (c!"hostname", false)] else none)
    c!"/home/u" c!"/etc/ho" false = some c!"/etc/hosts" := by decide +kernel

/-- **C113, negation.** In the working directory no path is ever suggested: neither for the beginning of a name
nor for a directory name with its slash, whatever the directories hold. -/
theorem C113_violated (fs : Fs) (cwd n : Str) (od : Bool) (hn : n ≠ []) (hsl : '/' ∉ n) (hdot : n ≠ c!".") (hs : Sane fs) :
    suggest fs cwd n od = none ∧ suggest fs cwd (n ++ c!"/") od = none := by
  have htake := takeWhile_name hsl [] (.inl rfl)
  simp only [List.append_nil] at htake
  have hstrip := strip_name hn hsl hdot []
  simp only [List.append_nil] at hstrip
  have hhead : n.head? ≠ some '/' := by
    cases n with
    | nil => simp
    | cons a n => rintro h; simp at h; exact hsl (by simp [h])
  have hhead2 : (n ++ c!"/").head? ≠ some '/' := by
    cases n with
    | nil => exact absurd rfl hn
    | cons a n => rintro h; simp at h; exact hsl (by simp [h])
  have hask : asked n = some c!"." := by
    unfold asked parent
    rw [if_neg hhead, hstrip, if_neg (by simp [hn])]
    simp only [htake.2, strip, List.reverse_nil, hhead, and_false, if_false, if_true]
  have hask2 : asked (n ++ c!"/") = some c!"." := by
    unfold asked parent
    rw [if_neg hhead2, List.reverse_append, show (c!"/" : Str).reverse = ['/'] from rfl, List.singleton_append, strip_slash, hstrip,
      if_neg (by simp [hn])]
    simp only [htake.2, strip, List.reverse_nil, hhead2, and_false, if_false, if_true]
  have hlist : ∀ x ∈ (scan fs c!".").getD [], ∃ e : Str × Bool, Name e.1 ∧ x = shown c!"./" e := by
    intro x hx
    unfold scan at hx
    cases hq : fs c!"." with
    | none => rw [hq] at hx; cases hx
    | some l =>
      rw [hq] at hx
      obtain ⟨e, he, rfl⟩ := List.mem_map.1 (List.mem_of_mem_take hx)
      exact ⟨e, (hs.1 _ l hq e he).1, by simp [join, shown]⟩
  have hnot : ∀ (t x : Str), ¬ (n ++ t) <+: c!"./" ++ x := by
    rintro t x ⟨u, hu⟩
    cases n with
    | nil => exact hn rfl
    | cons a n =>
      cases n with
      | nil => simp at hu; exact hdot (by rw [hu.1])
      | cons b n => simp at hu; exact hsl (by simp [hu.2.1])
  have hgrey : ∀ t : Str, grey ((scan fs c!".").getD []) (n ++ t) od = none := by
    intro t
    unfold grey
    split
    · rfl
    · rename_i c hc
      obtain ⟨hm, -⟩ := first_sorted hc
      obtain ⟨e, -, rfl⟩ := hlist c (List.mem_filter.1 hm).1
      rw [if_pos]
      right
      rw [List.isPrefixOf_iff_prefix, shown, List.append_assoc]
      exact hnot _ _
  constructor
  · unfold suggest
    rw [hask]
    have := hgrey []
    rwa [List.append_nil] at this
  · unfold suggest
    rw [hask2]
    exact hgrey _

example : suggest exFs c!"/home/u" c!"set" false = none := by decide +kernel

end Dsh.Paths
