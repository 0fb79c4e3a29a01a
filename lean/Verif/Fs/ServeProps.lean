import Verif.Fs.Serve
import Verif.Fs.ToolProps
/-!
C33, C61: the file server.
-/
namespace Dsh.Fs.Serve

open Dsh.Fs Dsh.Fs.Tools

/-! ### C33 -/

/-- A served directory whose `index.html` is a link to a file elsewhere. -/
def indexFs : FS := FS.ofList [([c!"www"], .dir), ([c!"www", c!"index.html"], .link true [.name c!"etc", .name c!"passwd"]),
  ([c!"www", c!"sub"], .dir), ([c!"www", c!"sub", c!"index.html"], .link true [.name c!"etc", .name c!"passwd"]),
  ([c!"www", c!"sub", c!"a b"], .file c!"blank"), ([c!"www", c!"pub"], .dir), ([c!"www", c!"pub", c!"x"], .file c!"data"),
  ([c!"www", c!"l"], .link true [.name c!"etc", .name c!"passwd"]),
  ([c!"etc"], .dir), ([c!"etc", c!"passwd"], .file c!"root")]

/-- **C33 fails**: an `index.html` that is a link is followed without the containment check, for the
root page and for every directory page. -/
theorem C33_index_violated :
    ¬ ∀ (fs : FS) (lim : Nat) (dir : Path) (index : Bool) (url : List Char) (root l : Loc) (d : List Char),
      fs [] = some .dir → resolve fs lim true dir = .at root .dir →
      serve fs lim dir index url = .file l d → root <+: l := by
  intro h
  have h1 := h indexFs 40 (Path.parse c!"/www") true c!"/" [c!"www"] [c!"etc", c!"passwd"] c!"root" rfl
    (by decide +kernel) (by decide +kernel)
  revert h1
  decide

/-- The same through a directory page; a direct request for a link that leads out is refused, and so
are requests with `..` or a second slash. -/
example : serve indexFs 40 (Path.parse c!"/www") true c!"/sub" = .file [c!"etc", c!"passwd"] c!"root" ∧
    serve indexFs 40 (Path.parse c!"/www") true c!"/l" = .forbidden ∧
    serve indexFs 40 (Path.parse c!"/www") true c!"/../etc/passwd" = .forbidden ∧
    serve indexFs 40 (Path.parse c!"/www") true c!"//etc/passwd" = .forbidden ∧
    serve indexFs 40 (Path.parse c!"/www") true c!"/pub/x" = .file [c!"www", c!"pub", c!"x"] c!"data" := by
  decide +kernel

/-- Location and contents of a response. -/
theorem serveFilePath_eq {fs : FS} {lim : Nat} {p : Path} {l : Loc} {d : List Char}
    (h : serveFilePath fs lim p = .file l d) : resolve fs lim true p = .at l (.file d) := by
  unfold serveFilePath readFile at h
  cases hr : resolve fs lim true p with
  | «at» l' n => rw [hr] at h; cases n <;> simp at h; rw [h.1, h.2]
  | _ => rw [hr] at h; simp at h

theorem serveDirectory_eq {fs : FS} {lim : Nat} {p : Path} {l : Loc}
    (h : serveDirectory fs lim p = .listing l) : resolve fs lim true p = .at l .dir := by
  unfold serveDirectory readDir at h
  cases hr : resolve fs lim true p with
  | «at» l' n => rw [hr] at h; cases n <;> simp at h; rw [h]
  | _ => rw [hr] at h; simp at h

/-- A directory whose index page, if there is one, is not a link. -/
def PlainIndex (fs : FS) (l : Loc) : Prop := ∀ a t, fs (l ++ [c!"index.html"]) ≠ some (.link a t)

theorem join_index (p : Path) : p.join (Path.parse c!"index.html") =
    { p with comps := p.comps ++ [.name c!"index.html"], slash := false } := rfl

/-- The index page of the directory a path leads to. -/
theorem index_at {fs : FS} {lim : Nat} (h0 : fs [] = some .dir) {p : Path} {root l : Loc} {n : Node}
    (hp : walk fs true lim [] p.comps = .at root .dir) (hpl : PlainIndex fs root)
    (h : resolve fs lim true (p.join (Path.parse c!"index.html")) = .at l n) :
    l = root ++ [c!"index.html"] ∧ fs l = some n := by
  rw [join_index] at h
  simp only [resolve] at h
  obtain ⟨k, _, hk⟩ := walk_append (f := true) (cs2 := [.name c!"index.html"]) (by simp) lim [] p.comps root hp
  simp only [Bool.false_eq_true, if_false] at h
  rw [hk] at h
  obtain ⟨next, e⟩ := walk_eq fs true k
  rw [e] at h
  simp only [walkStep] at h
  cases hx : fs (root ++ [c!"index.html"]) with
  | none => rw [hx] at h; simp at h
  | some m =>
    rw [hx] at h
    cases m with
    | link a t => exact absurd hx (hpl a t)
    | file d => simp at h; rw [← h.1, ← h.2]; exact ⟨rfl, hx⟩
    | dir => simp [walkStep, hx] at h; rw [← h.1, ← h.2]; exact ⟨rfl, hx⟩

/-- **C33, the part that holds.** If no index page of a directory inside the served one is a link,
then for every request, whatever other links exist, the file streamed or the directory listed lies
inside the served directory, and the contents are those of that file.  Missing: index pages that
are links, see `C33_index_violated`. -/
theorem C33_serve_partial (fs : FS) (h0 : fs [] = some .dir) (lim : Nat) (dir : Path) (index : Bool) (url : List Char)
    (root : Loc) (hroot : resolve fs lim true dir = .at root .dir)
    (hidx : ∀ m, PlainIndex fs (root ++ m)) :
    (∀ l d, serve fs lim dir index url = .file l d → root <+: l ∧ fs l = some (.file d)) ∧
    (∀ l, serve fs lim dir index url = .listing l → root <+: l ∧ fs l = some .dir) := by
  have hrootw : walk fs true lim [] dir.comps = .at root .dir := by
    unfold resolve at hroot
    split at hroot
    · exact (demandDir_at hroot).1
    · exact hroot
  -- a directory page
  have dirpage : ∀ (p : Path) (m : Loc), walk fs true lim [] p.comps = .at (root ++ m) .dir →
      (∀ l d, serveDirOrIndex fs lim index p = .file l d → root <+: l ∧ fs l = some (.file d)) ∧
      (∀ l, serveDirOrIndex fs lim index p = .listing l → root <+: l ∧ fs l = some .dir) := by
    intro p m hp
    have hres : resolve fs lim true p = .at (root ++ m) .dir := by
      unfold resolve
      split <;> rw [hp]
      rfl
    have hd := resolve_reached h0 lim p
    rw [hres] at hd
    unfold serveDirOrIndex
    split
    · constructor
      · intro l d h
        obtain ⟨h1, h2⟩ := index_at h0 hp (hidx m) (serveFilePath_eq h)
        refine ⟨?_, h2⟩
        rw [h1, List.append_assoc]
        exact List.prefix_append _ _
      · intro l h
        unfold serveFilePath at h
        split at h <;> cases h
    · constructor
      · intro l d h
        unfold serveDirectory at h
        split at h <;> cases h
      · intro l h
        have := serveDirectory_eq h
        rw [hres] at this
        injection this with h1 h2
        rw [← h1]
        exact ⟨List.prefix_append _ _, hd.2.1⟩
  unfold serve
  split
  · have := dirpage dir [] (by simpa using hrootw)
    exact this
  · unfold serveFile canonicalize
    rw [hroot]
    have hR := resolve_reached h0 lim (dir.join (Path.parse (stripSlash url)))
    cases hr : resolve fs lim true (dir.join (Path.parse (stripSlash url))) with
    | «at» l n =>
      rw [hr] at hR
      simp only
      have hloc : ∀ f, resolve fs lim f (Path.ofLoc l) = .at l n := resolve_loc hR.1 hR.2.1 (hR.2.2 rfl)
      split
      · constructor <;> (intros; next h => cases h)
      · next hst =>
        have hpre : root <+: l := by
          simp only [Path.startsWith, Path.ofLoc, Bool.not_eq_true', Bool.not_eq_false, Bool.and_eq_true,
            List.isPrefixOf_iff_prefix] at hst
          exact prefix_names hst.2
        split
        · constructor
          · intro l' d h
            have := serveFilePath_eq h
            rw [hloc] at this
            injection this with h1 h2
            subst h1; subst h2
            exact ⟨hpre, hR.2.1⟩
          · intro l' h
            unfold serveFilePath at h
            split at h <;> cases h
        · split
          · next hdir =>
            obtain ⟨m, rfl⟩ := hpre
            have hn : n = .dir := by
              unfold isDir at hdir
              rw [hloc] at hdir
              cases n <;> simp at hdir ⊢
            subst hn
            exact dirpage (Path.ofLoc (root ++ m)) m (hloc true)
          · constructor <;> (intros; next h => cases h)
    | _ => simp

/-- **C33, completeness.** A request that leads to a file inside the served directory streams that
file. -/
theorem C33_served (fs : FS) (h0 : fs [] = some .dir) (lim : Nat) (dir : Path) (index : Bool) (url : List Char)
    (root m : Loc) (d : List Char) (hroot : resolve fs lim true dir = .at root .dir) (hurl : url ≠ c!"/")
    (hf : resolve fs lim true (dir.join (Path.parse (stripSlash url))) = .at (root ++ m) (.file d)) :
    serve fs lim dir index url = .file (root ++ m) d := by
  have hR := resolve_reached h0 lim (dir.join (Path.parse (stripSlash url)))
  rw [hf] at hR
  have hloc := resolve_loc (lim := lim) hR.1 hR.2.1 (hR.2.2 rfl) true
  unfold serve serveFile canonicalize
  rw [if_neg hurl, hf, hroot]
  simp only
  rw [if_neg, if_pos]
  · unfold serveFilePath readFile
    rw [hloc]
  · unfold isFile
    rw [hloc]
  · simp [Path.startsWith, Path.ofLoc]

/-- The served directory of the example, without the links. -/
def plainFs : FS := FS.ofList [([c!"www"], .dir), ([c!"www", c!"sub"], .dir),
  ([c!"www", c!"sub", c!"a b"], .file c!"blank"), ([c!"www", c!"sub", c!"x.txt"], .file c!"data"),
  ([c!"www", c!"sub", c!"deep"], .dir), ([c!"www", c!"l"], .link true [.name c!"etc"]),
  ([c!"www", c!"in"], .link false [.name c!"sub", .name c!"x.txt"]),
  ([c!"etc"], .dir), ([c!"etc", c!"passwd"], .file c!"root")]

theorem lookup_mem {α β} [BEq α] [LawfulBEq α] {k : α} {v : β} :
    ∀ {es : List (α × β)}, es.lookup k = some v → (k, v) ∈ es
  | [], h => by simp at h
  | (a, b) :: es, h => by
    simp only [List.lookup] at h
    split at h
    · next hk => injection h with h; rw [beq_iff_eq.1 hk, h]; simp
    · exact List.mem_cons_of_mem _ (lookup_mem h)

example : ∀ m, PlainIndex plainFs ([c!"www"] ++ m) := by
  intro m a t h
  unfold plainFs FS.ofList at h
  rw [if_neg (by simp)] at h
  have := List.mem_map_of_mem (f := fun x : Loc × Node => x.1.getLast?) (lookup_mem h)
  dsimp only at this
  rw [List.getLast?_concat] at this
  revert this
  decide

example : serve plainFs 40 (Path.parse c!"/www") true c!"/in" = .file [c!"www", c!"sub", c!"x.txt"] c!"data" ∧
    serve plainFs 40 (Path.parse c!"/www") true c!"/l/passwd" = .forbidden ∧
    serve plainFs 40 (Path.parse c!"/www") true c!"/sub" = .listing [c!"www", c!"sub"] := by decide +kernel

/-! ### C61: the links of a listing -/

/-- What a browser requests when a link to `ref` is followed on the page at `base` (RFC 3986 §5.2,
WHATWG URL): the part of `base` up to its last slash, and `ref` with blanks, quotes, angle brackets
and characters outside ASCII percent-encoded.  (For references without `/`, `?`, `#` and `:`.) -/
def browse (base ref : List Char) : List Char :=
  (base.reverse.dropWhile (· ≠ '/')).reverse ++ ref.flatMap encodeChar
where
  /-- Two hexadecimal digits. -/
  hex2 (n : Nat) : List Char :=
    let d (k : Nat) : Char := if k < 10 then Char.ofNat (48 + k) else Char.ofNat (55 + k)
    [d (n / 16), d (n % 16)]
  /-- Percent-encoding of one character. -/
  encodeChar (c : Char) : List Char :=
    if c.toNat ≤ 32 ∨ 127 ≤ c.toNat ∨ c = '"' ∨ c = '<' ∨ c = '>' ∨ c = '`' ∨ c = '{' ∨ c = '}' then
      (String.utf8EncodeChar c).flatMap (fun b => '%' :: hex2 b.toNat)
    else [c]

/-- The page of a directory: its listing, or the file its index page leads to. -/
def PageOf (fs : FS) (lim : Nat) (index : Bool) (l : Loc) (r : Response) : Prop :=
  r = .listing l ∨ (index = true ∧ ∃ l' d, r = .file l' d ∧
    resolve fs lim true (Path.ofLoc (l ++ [c!"index.html"])) = .at l' (.file d))

/-- The page shows what the entry is. -/
def Shows (fs : FS) (lim : Nat) (index : Bool) (l : Loc) (r : Response) : Prop :=
  (∀ d, fs l = some (.file d) → r = .file l d) ∧ (fs l = some .dir → PageOf fs lim index l r)

/-- **C61 fails**: on the listing of a directory requested without a final slash the links lead one
level too high, and names with a blank are requested encoded but not decoded. -/
theorem C61_links_violated :
    ¬ (∀ (fs : FS) (lim : Nat) (dir : Path) (index : Bool) (url : List Char) (l : Loc) (n : Name),
      WF fs → serve fs lim dir index url = .listing l → fs (l ++ [n]) ≠ none →
      Shows fs lim index (l ++ [n]) (serve fs lim dir index (browse url (href n)))) ∧
    serve plainFs 40 (Path.parse c!"/www") true c!"/sub" = .listing [c!"www", c!"sub"] ∧
    serve plainFs 40 (Path.parse c!"/www") true (browse c!"/sub" (href c!"x.txt")) = .notFound ∧
    serve plainFs 40 (Path.parse c!"/www") true c!"/sub/" = .listing [c!"www", c!"sub"] ∧
    serve plainFs 40 (Path.parse c!"/www") true (browse c!"/sub/" (href c!"a b")) = .notFound := by
  refine ⟨?_, by decide +kernel, by decide +kernel, by decide +kernel, by decide +kernel⟩
  intro h
  have hwf : WF plainFs := by
    refine ⟨rfl, ?_⟩
    intro l n h
    unfold plainFs FS.ofList at h ⊢
    rw [if_neg (by simp)] at h
    by_cases hl : l = []
    · rw [if_pos hl]
    · rw [if_neg hl]
      simp only [List.lookup] at h
      have key : ∀ (m : Loc), (l ++ [n] == m) = true → l = m.dropLast := by
        intro m hm
        have := beq_iff_eq.1 hm
        rw [← this]; simp
      repeat' split at h
      all_goals first
        | (rename_i hm; have := key _ hm; subst this; first | exact absurd rfl hl | rfl)
        | exact absurd rfl h
  have := (h plainFs 40 (Path.parse c!"/www") true c!"/sub" [c!"www", c!"sub"] c!"x.txt" hwf
    (by decide +kernel) (by decide +kernel)).1 c!"data" (by decide +kernel)
  revert this
  decide +kernel

/-- Letters, digits and `-._~` stand for themselves in a URL. -/
def urlSafe (c : Char) : Bool :=
  (c.toNat ≥ 97 && c.toNat ≤ 122) || (c.toNat ≥ 65 && c.toNat ≤ 90) || (c.toNat ≥ 48 && c.toNat ≤ 57) ||
  c == '-' || c == '.' || c == '_' || c == '~'

theorem encode_safe {c : Char} (h : urlSafe c = true) : browse.encodeChar c = [c] := by
  unfold browse.encodeChar
  rw [if_neg]
  rintro (h1 | h1 | rfl | rfl | rfl | rfl | rfl | rfl)
  any_goals (revert h; decide)
  all_goals
    simp only [urlSafe, Bool.or_eq_true, Bool.and_eq_true, decide_eq_true_eq, beq_iff_eq] at h
    rcases h with (((((h | h) | h) | rfl) | rfl) | rfl) | rfl
    any_goals omega
    all_goals (revert h1; decide)

theorem safe_ne_slash {c : Char} (h : urlSafe c = true) : c ≠ '/' := by
  rintro rfl; revert h; decide

theorem browse_slash {url n : List Char} (hn : ∀ c ∈ n, urlSafe c = true) :
    browse (url ++ c!"/") n = url ++ c!"/" ++ n := by
  unfold browse
  have e : n.flatMap browse.encodeChar = n := by
    induction n with
    | nil => rfl
    | cons c n ih =>
      rw [List.flatMap_cons, encode_safe (hn c (by simp)), ih (fun x hx => hn x (by simp [hx]))]
      rfl
  rw [e]
  simp [List.dropWhile]

theorem splitSlash_append (s n : List Char) : splitSlash (s ++ '/' :: n) = splitSlash s ++ splitSlash n := by
  induction s with
  | nil => simp [splitSlash]
  | cons c s ih =>
    simp only [List.cons_append, splitSlash]
    split
    · rw [ih]; rfl
    · rw [ih]
      cases hs : splitSlash s with
      | nil =>
        exfalso
        cases s <;> simp [splitSlash] at hs
        split at hs <;> (try cases hs)
        split at hs <;> cases hs
      | cons w ws => simp

theorem splitSlash_plain {n : List Char} (hn : ∀ c ∈ n, c ≠ '/') : splitSlash n = [n] := by
  induction n with
  | nil => rfl
  | cons c n ih =>
    simp [splitSlash, hn c (by simp), ih (fun x hx => hn x (by simp [hx]))]

/-- A name as a path. -/
theorem parse_below {s n : List Char} (hn : ∀ c ∈ n, c ≠ '/') (hne : n ≠ []) (h1 : n ≠ c!".") (h2 : n ≠ c!"..")
    (hs : s = [] ∨ ∃ s', s = s' ++ c!"/") :
    Path.parse (s ++ n) = { abs := (Path.parse s).abs, comps := (Path.parse s).comps ++ [.name n], slash := false } := by
  have hc : compOf n = some (.name n) := by simp [compOf, hne, h1, h2]
  rcases hs with rfl | ⟨s', rfl⟩
  · have hh : n.head? ≠ some '/' := by
      cases n with
      | nil => simp
      | cons c n => simp; exact hn c (by simp)
    have en : List.filterMap compOf [n] = [.name n] := by simp [hc]
    have e0 : Path.parse [] = { abs := false, comps := [], slash := false } := rfl
    rw [e0, List.nil_append]
    unfold Path.parse
    rw [splitSlash_plain hn, en]
    simp [hc, hh]
  · have e1 : splitSlash (s' ++ c!"/" ++ n) = splitSlash s' ++ [n] := by
      rw [List.append_assoc]
      exact (splitSlash_append s' n).trans (by rw [splitSlash_plain hn])
    have e2 : splitSlash (s' ++ c!"/") = splitSlash s' ++ [[]] := splitSlash_append s' []
    have eh : (s' ++ c!"/" ++ n).head? = (s' ++ c!"/").head? := by cases s' <;> rfl
    have ec : compOf ([] : List Char) = none := rfl
    have en : List.filterMap compOf [n] = [.name n] := by simp [hc]
    have ee : List.filterMap compOf [([] : List Char)] = [] := by simp [ec]
    unfold Path.parse
    rw [e1, e2, eh, List.filterMap_append, List.filterMap_append, en, ee]
    simp [hc]

/-- **C61, the part that holds.** On the listing of a directory requested with a final slash (or of
the root), the link of an entry whose name consists of letters, digits and `-._~` shows that entry:
the file itself, or the page of the directory.  Missing: pages requested without the slash and
other names, see `C61_links_violated`. -/
theorem C61_links_partial (fs : FS) (h0 : fs [] = some .dir) (lim : Nat) (dir : Path) (hdir : dir.abs = true) (index : Bool)
    (root : Loc) (hroot : resolve fs lim true dir = .at root .dir)
    (url : List Char) (l : Loc) (n : Name) (hpage : serve fs lim dir index (url ++ c!"/") = .listing l)
    (hurl : url = [] ∨ url.head? = some '/')
    (hne : n ≠ []) (h1 : n ≠ c!".") (h2 : n ≠ c!"..") (hsafe : ∀ c ∈ n, urlSafe c = true) :
    Shows fs lim index (l ++ [n]) (serve fs lim dir index (browse (url ++ c!"/") (href n))) := by
  have hrootw : walk fs true lim [] dir.comps = .at root .dir := by
    unfold resolve at hroot
    split at hroot
    · exact (demandDir_at hroot).1
    · exact hroot
  have hns : ∀ c ∈ n, c ≠ '/' := fun c hc => safe_ne_slash (hsafe c hc)
  -- the directory of the page: named by the request, inside the root
  obtain ⟨s, hs, hs2, hsl, hw, hpre⟩ : ∃ s, stripSlash (url ++ c!"/") = s ∧ (s = [] ∨ ∃ s', s = s' ++ c!"/") ∧
      stripSlash (url ++ c!"/" ++ n) = s ++ n ∧
      walk fs true lim [] (dir.join (Path.parse s)).comps = .at l .dir ∧ root <+: l := by
    have hsd : ∀ p : Path, ∀ l0, walk fs true lim [] p.comps = .at l0 .dir →
        serveDirOrIndex fs lim index p = .listing l → l0 = l := by
      intro p l0 hp h
      unfold serveDirOrIndex at h
      split at h
      · unfold serveFilePath at h
        split at h <;> cases h
      · have := serveDirectory_eq h
        have hw : walk fs true lim [] p.comps = .at l .dir := by
          unfold resolve at this
          split at this
          · exact (demandDir_at this).1
          · exact this
        rw [hp] at hw
        injection hw
    rcases hurl with rfl | hurl
    · refine ⟨[], rfl, .inl rfl, rfl, ?_, ?_⟩
      all_goals
        unfold serve at hpage
        rw [if_pos (by rfl)] at hpage
        have := hsd dir root hrootw hpage
        subst this
      · simpa [Path.join, Path.parse, splitSlash, compOf] using hrootw
      · exact List.prefix_refl _
    · obtain ⟨u, rfl⟩ : ∃ u, url = '/' :: u := by
        cases url with
        | nil => simp at hurl
        | cons c u => simp at hurl; exact ⟨u, by rw [hurl]⟩
      refine ⟨u ++ c!"/", rfl, .inr ⟨u, rfl⟩, by simp [stripSlash], ?_⟩
      unfold serve at hpage
      rw [if_neg (by simp)] at hpage
      unfold serveFile canonicalize at hpage
      rw [hroot] at hpage
      have hst : stripSlash ('/' :: u ++ c!"/") = u ++ c!"/" := rfl
      rw [hst] at hpage
      have hR := resolve_reached h0 lim (dir.join (Path.parse (u ++ c!"/")))
      cases hr : resolve fs lim true (dir.join (Path.parse (u ++ c!"/"))) with
      | «at» l0 n0 =>
        rw [hr] at hpage hR
        simp only at hpage
        have hloc := resolve_loc (lim := lim) hR.1 hR.2.1 (hR.2.2 rfl) true
        split at hpage
        · cases hpage
        · next hsw =>
          have hpre : root <+: l0 := by
            simp only [Path.startsWith, Path.ofLoc, Bool.not_eq_true', Bool.not_eq_false, Bool.and_eq_true,
              List.isPrefixOf_iff_prefix] at hsw
            exact prefix_names hsw.2
          split at hpage
          · unfold serveFilePath at hpage
            split at hpage <;> cases hpage
          · split at hpage
            · next hdir' =>
              have hn : n0 = .dir := by
                unfold isDir at hdir'
                rw [hloc] at hdir'
                cases n0 <;> simp at hdir' ⊢
              subst hn
              have := hsd (Path.ofLoc l0) l0 hloc hpage
              subst this
              refine ⟨?_, hpre⟩
              unfold resolve at hr
              split at hr
              · exact (demandDir_at hr).1
              · exact hr
            · cases hpage
      | _ => rw [hr] at hpage; cases hpage
  -- the request for the entry
  have hb : browse (url ++ c!"/") (href n) = url ++ c!"/" ++ n := browse_slash hsafe
  rw [hb]
  have hd := walk_reached (follow := true) h0 lim [] (dir.join (Path.parse s)).comps (dirs_nil h0)
  rw [hw] at hd
  have hdirs : Dirs fs l := by
    intro p hp
    rcases List.eq_nil_or_concat l with rfl | ⟨l0, a, rfl⟩
    · rw [List.prefix_nil.1 hp]; exact h0
    · rcases List.prefix_concat_iff.1 (by simpa using hp) with rfl | hp'
      · simpa using hd.2.1
      · exact hd.1 p (by simpa using hp')
  have hnotroot : url ++ c!"/" ++ n ≠ c!"/" := by
    intro h
    have hl := congrArg List.length h
    simp at hl
    have : n = [] := List.length_eq_zero_iff.1 (by omega)
    exact hne this
  have hres : ∀ nd, fs (l ++ [n]) = some nd → (∀ a t, nd ≠ .link a t) →
      resolve fs lim true (dir.join (Path.parse (s ++ n))) = .at (l ++ [n]) nd := by
    intro nd hnd hnl
    rw [parse_below hns hne h1 h2 hs2]
    have hj : (dir.join { abs := (Path.parse s).abs, comps := (Path.parse s).comps ++ [.name n], slash := false }) =
        { abs := (dir.join (Path.parse s)).abs, comps := (dir.join (Path.parse s)).comps ++ [.name n], slash := false } := by
      unfold Path.join
      dsimp only
      split <;> simp
    rw [hj]
    simp only [resolve, Bool.false_eq_true, if_false]
    obtain ⟨k, _, hk⟩ := walk_append (f := true) (cs2 := [.name n]) (by simp) lim [] _ l hw
    rw [hk]
    obtain ⟨next, e⟩ := walk_eq fs true k
    rw [e]
    simp only [walkStep, hnd]
    cases nd with
    | file d => simp
    | dir => simp [hnd]
    | link a t => exact absurd rfl (hnl a t)
  obtain ⟨m, rfl⟩ := hpre
  constructor
  · intro d hf
    have := C33_served fs h0 lim dir index (url ++ c!"/" ++ n) root (m ++ [n]) d hroot hnotroot (by
      rw [hsl, ← List.append_assoc]; exact hres _ hf (by simp))
    rw [this, List.append_assoc]
  · intro hf
    have hr := hres _ hf (by simp)
    have hloc := resolve_loc (fs := fs) (lim := lim) (l := root ++ m ++ [n]) (n := .dir) (by simpa using hdirs) hf (by simp) true
    unfold serve
    rw [if_neg hnotroot]
    unfold serveFile canonicalize
    rw [hsl, hr, hroot]
    simp only
    rw [if_neg, if_neg, if_pos]
    · unfold serveDirOrIndex
      split
      · next hi =>
        simp only [Bool.and_eq_true] at hi
        right
        refine ⟨hi.1.1, ?_⟩
        have hif := hi.2
        unfold isFile at hif
        unfold serveFilePath readFile
        have ej : (Path.ofLoc (root ++ m ++ [n])).join (Path.parse c!"index.html") =
            Path.ofLoc (root ++ m ++ [n] ++ [c!"index.html"]) := by
          rw [join_index]; simp [Path.ofLoc]
        rw [ej] at hif ⊢
        cases hx : resolve fs lim true (Path.ofLoc (root ++ m ++ [n] ++ [c!"index.html"])) with
        | «at» l' nd =>
          rw [hx] at hif
          cases nd with
          | file d => exact ⟨l', d, rfl, rfl⟩
          | _ => simp at hif
        | _ => rw [hx] at hif; simp at hif
      · left
        unfold serveDirectory readDir
        rw [hloc]
    · unfold isDir; rw [hloc]
    · unfold isFile; rw [hloc]; simp
    · simp [Path.startsWith, Path.ofLoc]

/-- Such a page and link. -/
example : serve plainFs 40 (Path.parse c!"/www") true c!"/sub/" = .listing [c!"www", c!"sub"] ∧
    serve plainFs 40 (Path.parse c!"/www") true (browse c!"/sub/" (href c!"x.txt")) =
      .file [c!"www", c!"sub", c!"x.txt"] c!"data" ∧
    serve plainFs 40 (Path.parse c!"/www") true (browse c!"/" (href c!"sub")) = .listing [c!"www", c!"sub"] := by
  decide +kernel

end Dsh.Fs.Serve
