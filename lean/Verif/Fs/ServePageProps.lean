import Verif.Fs.ServePage
import Verif.Fs.ServeProps
import Verif.Suggest.Props
import Verif.Safety.Props
import Verif.Prompt.GitProps
/-!
C196 and C197: what `serve` shows and how it starts.
-/
namespace Dsh.ServePage

open Dsh.Suggest (strLe strLe_total strLe_trans)

/-! ## A reader of pages (the specification)

A browser reads a page as tags and texts (the tokenizer of the HTML standard, without comments and scripts). -/

/-- A piece of a page. -/
inductive Tok where
  | text (s : Str)
  | tag (s : Str)
deriving DecidableEq, Repr

/-- Where the reader is: in text, behind a `<`, in a tag, in a quoted value. -/
inductive Mode where
  | text | lt | tag | quoted
deriving DecidableEq, Repr

/-- One character; the second part is what was read since the last piece, backwards.  A tag begins with a letter, `/` or `!`;
a quote begins a value only behind `=`. -/
def step : Mode × Str → Char → (Mode × Str) × List Tok
  | (.text, acc), c => if c = '<' then ((.lt, acc), []) else ((.text, c :: acc), [])
  | (.lt, acc), c =>
    if c.isAlpha || c = '/' || c = '!' then ((.tag, [c]), [.text acc.reverse])
    else if c = '<' then ((.lt, '<' :: acc), [])
    else ((.text, c :: '<' :: acc), [])
  | (.tag, acc), c =>
    if c = '>' then ((.text, []), [.tag acc.reverse])
    else if c = '"' && acc.head? == some '=' then ((.quoted, c :: acc), [])
    else ((.tag, c :: acc), [])
  | (.quoted, acc), c => if c = '"' then ((.tag, c :: acc), []) else ((.quoted, c :: acc), [])

def feed : Mode × Str → Str → (Mode × Str) × List Tok
  | st, [] => (st, [])
  | st, c :: s => ((feed (step st c).1 s).1, (step st c).2 ++ (feed (step st c).1 s).2)

/-- The pieces of a page. -/
def read (s : Str) : List Tok :=
  (feed (.text, []) s).2 ++ [.text (feed (.text, []) s).1.2.reverse]

/-- Characters written as references. -/
def unref : Str → Str
  | '&' :: 'a' :: 'm' :: 'p' :: ';' :: s => '&' :: unref s
  | '&' :: 'l' :: 't' :: ';' :: s => '<' :: unref s
  | '&' :: 'g' :: 't' :: ';' :: s => '>' :: unref s
  | '&' :: 'q' :: 'u' :: 'o' :: 't' :: ';' :: s => '"' :: unref s
  | c :: s => c :: unref s
  | [] => []

/-- The text up to the end of a link. -/
def label : List Tok → Str
  | [] => []
  | .text s :: r => s ++ label r
  | .tag t :: r => if t = c!"/a" then [] else label r

/-- The links of a page: where they lead and what they show. -/
def links : List Tok → List (Str × Str)
  | [] => []
  | .text _ :: r => links r
  | .tag t :: r =>
    if c!"a href=\"".isPrefixOf t then (unref ((t.drop 8).takeWhile (· != '"')), unref (label r)) :: links r else links r

/-! ## The reader on pages of the server -/

theorem feed_append (a b : Str) : ∀ st, feed st (a ++ b) = ((feed (feed st a).1 b).1, (feed st a).2 ++ (feed (feed st a).1 b).2) := by
  induction a with
  | nil => intro st; simp [feed]
  | cons c a ih => intro st; simp [feed, ih]

/-- Names that are neither markup nor quoted. -/
abbrev Clean (s : Str) : Prop := '<' ∉ s ∧ '"' ∉ s ∧ '&' ∉ s

theorem feed_text {s : Str} (h : '<' ∉ s) : ∀ acc, feed (.text, acc) s = ((.text, s.reverse ++ acc), []) := by
  induction s with
  | nil => intro acc; simp [feed]
  | cons c s ih =>
    intro acc
    have hc : c ≠ '<' := fun e => h (by simp [e])
    simp [feed, step, hc, ih (fun e => h (by simp [e]))]

theorem feed_quoted {s : Str} (h : '"' ∉ s) : ∀ acc, feed (.quoted, acc) s = ((.quoted, s.reverse ++ acc), []) := by
  induction s with
  | nil => intro acc; simp [feed]
  | cons c s ih =>
    intro acc
    have hc : c ≠ '"' := fun e => h (by simp [e])
    simp [feed, step, hc, ih (fun e => h (by simp [e]))]

theorem unref_id : ∀ {s : Str}, '&' ∉ s → unref s = s
  | [], _ => rfl
  | c :: s, h => by
    have hc : c ≠ '&' := fun e => h (by simp [e])
    have := unref_id (s := s) (fun e => h (by simp [e]))
    rw [unref.eq_5]
    · rw [this]
    all_goals (intros; simp_all)

/-- The class and the picture of an entry. -/
def cls (d : Bool) : Str := if d then c!"dir" else c!"file"
def icon (d : Bool) : Str := if d then c!"📁 " else c!"📄 "
def tail (d : Bool) : Str := if d then c!"/" else []

/-- The tag of the link of an entry. -/
def linkTag (e : Entry) : Str := c!"a href=\"" ++ e.name ++ c!"\" class=\"" ++ cls e.dir ++ c!"\""

def itemToks (e : Entry) : List Tok :=
  [.text [], .tag c!"li", .text [], .tag (linkTag e), .text (icon e.dir ++ e.name ++ tail e.dir), .tag c!"/a", .text [], .tag c!"/li"]

theorem feed_item {e : Entry} (h : Clean e.name) : feed (.text, []) (item e) = ((.text, []), itemToks e) := by
  obtain ⟨n, d⟩ := e
  obtain ⟨h1, h2, -⟩ := h
  have e1 : feed (.text, []) c!"<li><a href=\"" = ((.quoted, c!"\"=ferh a"), [.text [], .tag c!"li", .text []]) := by decide
  cases d with
  | true =>
    have e2 : ∀ acc, feed (.quoted, acc) c!"\" class=\"dir\">📁 " = ((.text, c!" 📁"), [.tag ((c!"\"rid\"=ssalc \"" ++ acc).reverse)]) := fun _ => rfl
    have e3 : ∀ acc, feed (.text, acc) c!"/</a></li>" = ((.text, []), [.text ('/' :: acc).reverse, .tag c!"/a", .text [], .tag c!"/li"]) := fun _ => rfl
    simp only [item, if_true, feed_append, e1, feed_quoted h2, e2, feed_text h1, e3, itemToks, linkTag, cls, icon, tail]
    simp
  | false =>
    have e2 : ∀ acc, feed (.quoted, acc) c!"\" class=\"file\">📄 " = ((.text, c!" 📄"), [.tag ((c!"\"elif\"=ssalc \"" ++ acc).reverse)]) := fun _ => rfl
    have e3 : ∀ acc, feed (.text, acc) c!"</a></li>" = ((.text, []), [.text acc.reverse, .tag c!"/a", .text [], .tag c!"/li"]) := fun _ => rfl
    simp only [item, Bool.false_eq_true, if_false, feed_append, e1, feed_quoted h2, e2, feed_text h1, e3, itemToks, linkTag, cls, icon, tail]
    simp

theorem feed_items {l : List Entry} (h : ∀ e ∈ l, Clean e.name) :
    feed (.text, []) ((l.map item).flatten) = ((.text, []), (l.map itemToks).flatten) := by
  induction l with
  | nil => rfl
  | cons e l ih =>
    rw [List.map_cons, List.flatten_cons, feed_append, feed_item (h e (by simp)), ih (fun e he => h e (by simp [he]))]
    simp

/-- The style of the page. -/
def styleText : Str :=
  c!"body { font-family: Arial, sans-serif; margin: 40px; }h1 { color: #333; border-bottom: 1px solid #ccc; }" ++
  c!"ul { list-style: none; padding: 0; }li { margin: 5px 0; }a { text-decoration: none; color: #0066cc; }" ++
  c!"a:hover { text-decoration: underline; }.dir { font-weight: bold; }.file { color: #666; }"

def topToks : List Tok :=
  [.text [], .tag c!"!DOCTYPE html", .text c!"\n", .tag c!"html", .text [], .tag c!"head", .text [], .tag c!"title",
   .text c!"Directory Listing", .tag c!"/title", .text [], .tag c!"style", .text styleText, .tag c!"/style", .text [], .tag c!"/head",
   .text [], .tag c!"body", .text [], .tag c!"h1"]

theorem feed_top : feed (.text, []) top = ((.text, c!" :yrotceriD 🐕"), topToks) := by decide +kernel

def aboveToks : List Tok := itemToks ⟨c!"..", true⟩

def bottomToks : List Tok :=
  [.text [], .tag c!"/ul", .text [], .tag c!"hr", .text [], .tag c!"p", .text [], .tag c!"em", .text c!"Served by 🐕 doge-shell",
   .tag c!"/em", .text [], .tag c!"/p", .text [], .tag c!"/body", .text [], .tag c!"/html", .text []]

/-- A link up leads to `../`. -/
def upToks : List Tok :=
  [.text [], .tag c!"li", .text [], .tag c!"a href=\"../\" class=\"dir\"", .text c!"📁 ../", .tag c!"/a", .text [], .tag c!"/li"]

theorem read_page {path : Str} {up : Bool} {es : List Entry} (hp : Clean path) (he : ∀ e ∈ es, Clean e.name) :
    read (page path up es) = topToks ++ [.text (c!"🐕 Directory: " ++ path), .tag c!"/h1", .text [], .tag c!"ul"] ++
      (if up then upToks else []) ++ ((sortBy entryLe es).map itemToks).flatten ++ bottomToks := by
  have h1 : ∀ acc, feed (.text, acc) c!"</h1><ul>" = ((.text, []), [.text acc.reverse, .tag c!"/h1", .text [], .tag c!"ul"]) := fun _ => rfl
  have h2 : feed (.text, []) (if up then above else []) = ((.text, []), if up then upToks else []) := by cases up <;> decide
  have h3 : feed (.text, []) bottom = ((.text, []), bottomToks.dropLast) := by decide
  have h4 := feed_items (l := sortBy entryLe es) (fun e h => he e ((sortBy_perm _ _).mem_iff.1 h))
  have : feed (.text, []) (page path up es) = ((.text, []), topToks ++ [.text (c!"🐕 Directory: " ++ path), .tag c!"/h1", .text [], .tag c!"ul"] ++
      (if up then upToks else []) ++ ((sortBy entryLe es).map itemToks).flatten ++ bottomToks.dropLast) := by
    simp only [page, feed_append, feed_top, feed_text hp.1, h1, h2, h3, h4]
    simp
  rw [read, this]
  simp [bottomToks]

theorem links_item {e : Entry} (h : Clean e.name) (r : List Tok) :
    links (itemToks e ++ r) = (e.name, icon e.dir ++ e.name ++ tail e.dir) :: links r := by
  obtain ⟨n, d⟩ := e
  obtain ⟨-, h2, h3⟩ := h
  have ht : ∀ y : Str, (n ++ '"' :: y).takeWhile (· != '"') = n := by
    intro y
    rw [List.takeWhile_append_of_pos (fun c hc => by simp; rintro rfl; exact h2 hc)]
    simp
  have hl : '&' ∉ icon d ++ n ++ tail d := by
    cases d <;> simp [icon, tail] <;> exact h3
  have e1 : (c!"a href=\"").isPrefixOf (linkTag ⟨n, d⟩) = true := by simp [linkTag]
  have e2 : ((linkTag ⟨n, d⟩).drop 8).takeWhile (· != '"') = n := by
    have : (linkTag ⟨n, d⟩).drop 8 = n ++ '"' :: (c!" class=\"" ++ cls d ++ c!"\"") := by simp [linkTag]
    rw [this, ht]
  simp only [itemToks, links, List.cons_append, List.nil_append, e1, e2, if_true, label, List.append_nil]
  rw [if_neg (by decide), if_neg (by decide), if_neg (by decide)]
  simp only [if_true, List.append_nil, unref_id h3]
  rw [unref_id hl]

theorem links_items {l : List Entry} (h : ∀ e ∈ l, Clean e.name) (r : List Tok) :
    links ((l.map itemToks).flatten ++ r) = l.map (fun e => (e.name, icon e.dir ++ e.name ++ tail e.dir)) ++ links r := by
  induction l with
  | nil => rfl
  | cons e l ih =>
    rw [List.map_cons, List.flatten_cons, List.append_assoc, links_item (h e (by simp)), ih (fun e he => h e (by simp [he]))]
    simp

/-! ## C196: pages of directories -/

theorem entryLe_total (a b : Entry) : (entryLe a b || entryLe b a) = true := by
  obtain ⟨a, x⟩ := a; obtain ⟨b, y⟩ := b
  cases x <;> cases y <;> simp [entryLe] <;> simpa using strLe_total a b

theorem entryLe_trans (a b c : Entry) : entryLe a b = true → entryLe b c = true → entryLe a c = true := by
  obtain ⟨a, x⟩ := a; obtain ⟨b, y⟩ := b; obtain ⟨c, z⟩ := c
  cases x <;> cases y <;> cases z <;> simp [entryLe] <;> exact strLe_trans a b c

/-- In front: directories before files, and in the order of their names. -/
def Before (a b : Entry) : Prop := (b.dir = true → a.dir = true) ∧ (a.dir = b.dir → strLe a.name b.name = true)

/-- A reader of the page of a directory finds a link for every entry, once each, that leads to its name and shows it,
directories first and both by name, behind the link up; for names without markup. -/
theorem C196_links_partial {path : Str} {up : Bool} {es : List Entry} (hp : Clean path) (he : ∀ e ∈ es, Clean e.name) :
    ∃ l : List Entry, l.Perm es ∧ l.Pairwise Before ∧
      links (read (page path up es)) = (if up then [(c!"../", c!"📁 ../")] else []) ++
        l.map fun e => (e.name, if e.dir then c!"📁 " ++ e.name ++ c!"/" else c!"📄 " ++ e.name) := by
  refine ⟨sortBy entryLe es, sortBy_perm _ _, (sortBy_sorted entryLe entryLe_trans entryLe_total es).imp ?_, ?_⟩
  · intro a b h
    obtain ⟨a, x⟩ := a; obtain ⟨b, y⟩ := b
    cases x <;> cases y <;> simp_all [entryLe, Before]
  · have hs : ∀ e ∈ sortBy entryLe es, Clean e.name := fun e h => he e ((sortBy_perm _ _).mem_iff.1 h)
    rw [read_page hp he]
    have h1 : ∀ r : List Tok, links (topToks ++ ([.text (c!"🐕 Directory: " ++ path), .tag c!"/h1", .text [], .tag c!"ul"] ++ r)) = links r := fun r => rfl
    have h2 : ∀ r : List Tok, links ((if up then upToks else []) ++ r) = (if up then [(c!"../", c!"📁 ../")] else []) ++ links r := by
      intro r; cases up
      · rfl
      · rfl
    have h3 : links bottomToks = [] := by decide
    simp only [List.append_assoc] at h1 ⊢
    rw [h1, h2, links_items hs, h3, List.append_nil]
    congr 1
    refine List.map_congr_left ?_
    intro e _
    cases hd : e.dir <;> simp [icon, tail]

/-- The tags the page is made of. -/
def fixedTags : List Str :=
  [c!"!DOCTYPE html", c!"html", c!"head", c!"title", c!"/title", c!"style", c!"/style", c!"/head", c!"body", c!"h1", c!"/h1", c!"ul", c!"li",
   c!"/a", c!"/li", c!"/ul", c!"hr", c!"p", c!"em", c!"/em", c!"/p", c!"/body", c!"/html", c!"a href=\"../\" class=\"dir\""]

/-- Such a page has no tags but its own and those of the links. -/
theorem C196_tags_partial {path : Str} {up : Bool} {es : List Entry} (hp : Clean path) (he : ∀ e ∈ es, Clean e.name) {t : Str}
    (ht : .tag t ∈ read (page path up es)) : t ∈ fixedTags ∨ ∃ e ∈ es, c!"a href=\"" ++ e.name ++ c!"\" class=" <+: t := by
  rw [read_page hp he] at ht
  have hb : ∀ l : List Tok, (∀ t, Tok.tag t ∈ l → t ∈ fixedTags) → Tok.tag t ∈ l → t ∈ fixedTags := fun l h => h t
  have fin : ∀ l : List Tok, (l.all fun k => match k with | .tag t => fixedTags.contains t | .text _ => true) = true → Tok.tag t ∈ l → t ∈ fixedTags := by
    intro l h ht
    have := List.all_eq_true.1 h _ ht
    simpa using this
  rcases List.mem_append.1 ht with ht | ht
  · rcases List.mem_append.1 ht with ht | ht
    · rcases List.mem_append.1 ht with ht | ht
      · left
        rcases List.mem_append.1 ht with ht | ht
        · exact fin _ (by decide) ht
        · simp only [List.mem_cons, reduceCtorEq, Tok.tag.injEq, false_or, List.not_mem_nil, or_false] at ht
          rcases ht with rfl | rfl <;> decide
      · left
        cases up
        · simp at ht
        · exact fin upToks (by decide) ht
    · obtain ⟨ts, hts, ht⟩ := List.mem_flatten.1 ht
      obtain ⟨e, hes, rfl⟩ := List.mem_map.1 hts
      simp only [itemToks, List.mem_cons, reduceCtorEq, Tok.tag.injEq, false_or, List.not_mem_nil, or_false] at ht
      rcases ht with rfl | rfl | rfl | rfl
      · left; decide
      · right
        refine ⟨e, (sortBy_perm _ _).mem_iff.1 hes, ?_⟩
        exact ⟨c!"\"" ++ cls e.dir ++ c!"\"", by simp [linkTag]⟩
      · left; decide
      · left; decide
  · left; exact fin _ (by decide) ht

theorem feed_tagText {s : Str} (h : '>' ∉ s) (h2 : '"' ∉ s) : ∀ acc, feed (.tag, acc) s = ((.tag, s.reverse ++ acc), []) := by
  induction s with
  | nil => intro acc; simp [feed]
  | cons c s ih =>
    intro acc
    have hc : c ≠ '>' := fun e => h (by simp [e])
    have hd : c ≠ '"' := fun e => h2 (by simp [e])
    simp [feed, step, hc, hd, ih (fun e => h (by simp [e])) (fun e => h2 (by simp [e]))]

/-- A file whose name is a tag puts that tag on the page: names are not escaped, whoever can make a file decides what the page
does. -/
theorem C196_markup_violated {path : Str} (up : Bool) {c : Char} {t : Str} (hp : Clean path) (hc : c.isAlpha = true)
    (h1 : '>' ∉ t) (h2 : '"' ∉ t) : .tag (c :: t) ∈ read (page path up [⟨'<' :: c :: t ++ c!">", false⟩]) := by
  have hq : '"' ∉ '<' :: c :: t ++ c!">" := by
    have : c ≠ '"' := by rintro rfl; revert hc; decide
    simp [h2, this.symm]
  have hs : sortBy entryLe [⟨'<' :: c :: t ++ c!">", false⟩] = [⟨'<' :: c :: t ++ c!">", false⟩] := rfl
  have e1 : ∀ acc, feed (.text, acc) c!"</h1><ul>" = ((.text, []), [.text acc.reverse, .tag c!"/h1", .text [], .tag c!"ul"]) := fun _ => rfl
  have e2 : feed (.text, []) (if up then above else []) = ((.text, []), if up then upToks else []) := by cases up <;> decide
  have e3 : feed (.text, []) c!"<li><a href=\"" = ((.quoted, c!"\"=ferh a"), [.text [], .tag c!"li", .text []]) := by decide
  have e4 : ∀ acc, feed (.quoted, acc) c!"\" class=\"file\">📄 " = ((.text, c!" 📄"), [.tag ((c!"\"elif\"=ssalc \"" ++ acc).reverse)]) := fun _ => rfl
  have e5 : feed (.text, c!" 📄") ('<' :: c :: t ++ c!">") = ((.text, []), [.text c!"📄 ", .tag (c :: t)]) := by
    rw [show '<' :: c :: t ++ c!">" = [c!"<", [c], t, c!">"].flatten by simp]
    simp only [List.flatten_cons, List.flatten_nil, List.append_nil, feed_append]
    simp only [feed, step, if_true, hc, Bool.true_or]
    rw [feed_tagText h1 h2]
    simp
  rw [read]
  refine List.mem_append_left _ ?_
  simp only [page, hs, List.map_cons, List.map_nil, List.flatten_cons, List.flatten_nil, item, Bool.false_eq_true, if_false,
    feed_append, feed_top, feed_text hp.1, e1, e2, e3, feed_quoted hq, e4, e5]
  simp

/-- A file whose name has a quote is linked by what stands before it: the link leads elsewhere. -/
theorem C196_quote_violated : links (read (page c!"/srv" false [⟨c!"a\"b", false⟩])) = [(c!"a", c!"📄 a\"b")] := by decide +kernel

/-- A file whose name looks like a reference is shown and linked as another one. -/
theorem C196_reference_violated :
    links (read (page c!"/srv" false [⟨c!"a&amp;b", false⟩])) = links (read (page c!"/srv" false [⟨c!"a&b", false⟩])) := by decide +kernel

example : links (read (page c!"/srv" true [⟨c!"b.txt", false⟩, ⟨c!"sub", true⟩, ⟨c!"a b", false⟩])) =
    [(c!"../", c!"📁 ../"), (c!"sub", c!"📁 sub/"), (c!"a b", c!"📄 a b"), (c!"b.txt", c!"📄 b.txt")] := by decide +kernel
example : .tag c!"img src=x onerror=alert(1)" ∈ read (page c!"/srv" true [⟨c!"<img src=x onerror=alert(1)>", false⟩]) := by decide +kernel

/-! ## C197: starting the server -/

/-- What a user may want. -/
structure Wish where
  port : Option Nat
  verbose : Bool
  browser : Bool
  cors : Bool
  list : Bool
  dir : Option Str

/-- The directory meant. -/
def Wish.place (w : Wish) (cwd : Str) : Str := (w.dir.map (absolute cwd)).getD cwd

/-- The arguments for it. -/
def Wish.args (w : Wish) : List Str :=
  (w.port.toList.map fun n => [c!"-p", Nat.toDigits 10 n]).flatten ++
  (if w.verbose then [c!"-v"] else []) ++ (if w.browser then [c!"--open"] else []) ++ (if w.cors then [c!"--cors"] else []) ++
  (if w.list then [c!"--no-index"] else []) ++ w.dir.toList

/-- The options of a wish as the parser gives them. -/
def Wish.found (w : Wish) : List (Str × Option Str) :=
  (w.port.toList.map fun n => (c!"port", some (Nat.toDigits 10 n))) ++
  (if w.verbose then [(c!"verbose", none)] else []) ++ (if w.browser then [(c!"open", none)] else []) ++ (if w.cors then [(c!"cors", none)] else []) ++
  (if w.list then [(c!"no-index", none)] else [])

theorem word_free {d : Str} (h : d.head? ≠ some '-') : word d = .free := by
  match d with
  | [] => rfl
  | [c] =>
    by_cases hc : c = '-'
    · subst hc; simp at h
    · unfold word; split <;> simp_all
  | c :: c' :: cs =>
    have hc : c ≠ '-' := by rintro rfl; simp at h
    unfold word; split <;> simp_all

theorem scan_wish (w : Wish) (h : ∀ d, w.dir = some d → d.head? ≠ some '-') :
    scan w.args = .ok (w.found, w.dir.toList) := by
  obtain ⟨p, v, o, c, n, d⟩ := w
  have w1 : word c!"-p" = .wants [] c!"port" c!"p" := by decide
  have w2 : word c!"-v" = .given [(c!"verbose", none)] := by decide
  have w3 : word c!"--open" = .given [(c!"open", none)] := by decide
  have w4 : word c!"--cors" = .given [(c!"cors", none)] := by decide
  have w5 : word c!"--no-index" = .given [(c!"no-index", none)] := by decide
  have hd : scan d.toList = .ok ([], d.toList) := by
    cases d with
    | none => rfl
    | some d => simp [scan, word_free (h d rfl), keep]
  have key : ∀ (b : Bool) (a l : Str) (r : List Str) o f, word a = .given [(l, none)] → scan r = .ok (o, f) →
      scan ((if b then [a] else []) ++ r) = .ok ((if b then [(l, none)] else []) ++ o, f) := by
    intro b a l r o f ha hr
    cases b
    · simpa using hr
    · simp [scan, ha, hr, more]
  simp only [Wish.args, Wish.found, List.append_assoc]
  have h5 := key n _ _ _ _ _ w5 hd
  have h4 := key c _ _ _ _ _ w4 h5
  have h3 := key o _ _ _ _ _ w3 h4
  have h2 := key v _ _ _ _ _ w2 h3
  cases p with
  | none => simpa using h2
  | some p =>
    simp only [Option.toList_some, List.map_cons, List.map_nil, List.flatten_cons, List.flatten_nil, List.append_nil,
      List.cons_append, List.nil_append, scan, w1]
    rw [h2]; simp [more]

theorem getopts_wish (w : Wish) (h : ∀ d, w.dir = some d → d.head? ≠ some '-') :
    getopts w.args = .ok (w.found, w.dir.toList) := by
  unfold getopts
  rw [scan_wish w h]
  have : opts.find? (fun p => decide (2 ≤ (w.found.filter (·.1 = p.long)).length)) = none := by
    obtain ⟨p, v, o, c, n, d⟩ := w
    cases p <;> cases v <;> cases o <;> cases c <;> cases n <;> rfl
  simp only [this]

/-- The server asked for is the one that runs, if its directory can be read and its port is free; otherwise the default. -/
theorem C197_asked_partial (w : World) (a : Wish) (hd : ∀ d, a.dir = some d → d.head? ≠ some '-')
    (hp : ∀ n, a.port = some n → 1 ≤ n ∧ n ≤ 65535)
    (hk : w.kind (a.place w.cwd) = .dir) (hf : w.free (a.port.getD 8000) = true) :
    (command w a.args).status = 0 ∧ (command w a.args).err = [] ∧ (command w a.args).served =
      some (a.port.getD 8000, (a.place w.cwd), !a.list, a.cors) := by
  have hport : portOf a.found = .ok (a.port.getD 8000) := by
    obtain ⟨p, v, o, c, n, d⟩ := a
    cases p with
    | none => cases v <;> cases o <;> cases c <;> cases n <;> rfl
    | some p =>
      have := hp p rfl
      have h32 : u32 (Nat.toDigits 10 p) = some p := by
        have := Prm.parse32_toDigits p (by omega)
        unfold u32; split
        · rename_i s heq
          exact absurd (show '+' ∈ Nat.toDigits 10 p by rw [heq]; simp) (Prm.toDigits_no p '+' (by decide))
        · exact this
      have hfnd : (Wish.found ⟨some p, v, o, c, n, d⟩).find? (·.1 = c!"port") = some (c!"port", some (Nat.toDigits 10 p)) := by
        simp [Wish.found]
      simp only [portOf, hfnd, Option.bind_some, h32, Option.getD_some]
      rw [if_neg (by omega)]
  have h1 : has a.found c!"help" = false := by
    obtain ⟨p, v, o, c, n, d⟩ := a
    cases p <;> cases v <;> cases o <;> cases c <;> cases n <;> rfl
  have h2 : has a.found c!"cors" = a.cors := by
    obtain ⟨p, v, o, c, n, d⟩ := a
    cases p <;> cases v <;> cases o <;> cases c <;> cases n <;> rfl
  have h3 : has a.found c!"no-index" = a.list := by
    obtain ⟨p, v, o, c, n, d⟩ := a
    cases p <;> cases v <;> cases o <;> cases c <;> cases n <;> rfl
  have hne : a.port.getD 8000 ≠ 0 := by
    cases hpp : a.port with
    | none => simp
    | some n => have := hp n hpp; simp; omega
  have hdir : target w.cwd a.dir.toList = a.place w.cwd := by unfold Wish.place; cases a.dir <;> rfl
  have : ∃ c : Config, parseArguments w a.args = .ok c ∧ c.port = a.port.getD 8000 ∧
      c.dir = (a.place w.cwd) ∧ c.index = !a.list ∧ c.cors = a.cors := by
    unfold parseArguments
    rw [getopts_wish a hd]
    simp only [h1, Bool.false_eq_true, if_false, hport, validate, hdir, hk, h2, h3, if_neg hne]
    exact ⟨_, rfl, rfl, rfl, rfl, rfl⟩
  obtain ⟨c, hc, c1, c2, c3, c4⟩ := this
  simp [command, hc, start, c1, c2, c3, c4, hf]

theorem validate_ok {w : World} {c c' : Config} (h : validate w c = .ok c') : c' = c ∧ c.port ≠ 0 ∧ w.kind c.dir = .dir := by
  unfold validate at h
  by_cases hz : c.port = 0
  · simp [hz] at h
  · rw [if_neg hz] at h
    cases hk : w.kind c.dir <;> simp [hk] at h
    exact ⟨h.symm, hz, rfl⟩

/-- Nothing else is ever served than a readable directory at a free port of a right number. -/
theorem C197_only_partial (w : World) (args : List Str) {p : Nat} {d : Str} {i c : Bool}
    (h : (command w args).served = some (p, d, i, c)) : 1 ≤ p ∧ p ≤ 65535 ∧ w.kind d = .dir ∧ w.free p = true := by
  unfold command at h
  cases hpa : parseArguments w args with
  | error e => rw [hpa] at h; cases e <;> simp at h; split at h <;> simp at h
  | ok cfg =>
    rw [hpa] at h
    simp only [start] at h
    split at h
    · rename_i hfree
      obtain ⟨rfl, rfl, -, -⟩ : cfg.port = p ∧ cfg.dir = d ∧ cfg.index = i ∧ cfg.cors = c := by simpa using h
      unfold parseArguments at hpa
      split at hpa
      · simp at hpa
      · split at hpa
        · simp at hpa
        · split at hpa
          · simp at hpa
          · rename_i o free _ _ q hq
            have hq2 : q ≤ 65535 := by
              unfold portOf at hq
              split at hq
              · simp at hq; omega
              · split at hq
                · simp at hq
                · split at hq
                  · simp at hq
                  · simp at hq; omega
            obtain ⟨rfl, hz, hk⟩ := validate_ok hpa
            exact ⟨Nat.pos_of_ne_zero hz, hq2, hk, hfree⟩
    · simp at h

/-- A status of failure comes with a message, and nothing is served. -/
theorem C197_failed_partial (w : World) (args : List Str) (h : (command w args).status ≠ 0) :
    (command w args).served = none ∧ (command w args).err ≠ [] := by
  unfold command at h ⊢
  cases hpa : parseArguments w args with
  | error e =>
    cases e <;> simp [hpa] at h ⊢
    split <;> simp_all
  | ok cfg => simp [hpa, start] at h

/-- What goes wrong with the arguments is said and gives a status of failure, unless the message contains `Usage:`. -/
theorem C197_refused_partial (w : World) (args : List Str) {e : Err} (h : parseArguments w args = .error e)
    (hu : Safety.hasSub c!"Usage:" e.text = false) : (command w args).status = 1 ∧ (command w args).err ≠ [] := by
  unfold command
  rw [h]
  cases e <;> simp
  simp only [Err.text] at hu
  simp [hu]

/-- A port that is not a number and contains `Usage:` is taken for a question for help: status 0, nothing on the channel for
errors, and nothing is served. -/
theorem C197_usage_violated (w : World) {s : Str} (h : u32 s = none) (hu : Safety.hasSub c!"Usage:" s = true) :
    (command w [c!"-p", s]).status = 0 ∧ (command w [c!"-p", s]).err = [] ∧ (command w [c!"-p", s]).served = none := by
  have hg : getopts [c!"-p", s] = .ok ([(c!"port", some s)], []) := rfl
  have hh : has [(c!"port", some s)] c!"help" = false := rfl
  have hpo : portOf [(c!"port", some s)] = .error (.arg (c!"Invalid port number: '" ++ s ++ c!"'. Port must be a number between 1 and 65535")) := by
    simp [portOf, h]
  have hm : Safety.hasSub c!"Usage:" (c!"Invalid port number: '" ++ s ++ c!"'. Port must be a number between 1 and 65535") = true := by
    obtain ⟨a, b, rfl⟩ := Safety.hasSub_iff.1 hu
    exact Safety.hasSub_iff.2 ⟨c!"Invalid port number: '" ++ a, b ++ c!"'. Port must be a number between 1 and 65535", by simp⟩
  simp only [command, parseArguments, hg, hh, hpo, Bool.false_eq_true, if_false, hm, if_true, and_self]

/-- If the port is taken nothing is served, and the command says nothing of it and ends with status 0. -/
theorem C197_bind_violated (w : World) (args : List Str) {c : Config} (h : parseArguments w args = .ok c) (hf : w.free c.port = false) :
    (command w args).status = 0 ∧ (command w args).err = [] ∧ (command w args).served = none := by
  simp [command, h, start, hf]

/-- More than one directory: all but the first are ignored. -/
theorem C197_extra_violated (w : World) {d e : Str} (hd : d.head? ≠ some '-') (he : e.head? ≠ some '-') :
    command w [d, e] = command w [d] := by
  have h1 : scan [d, e] = .ok ([], [d, e]) := by simp [scan, word_free hd, word_free he, keep]
  have h2 : scan [d] = .ok ([], [d]) := by simp [scan, word_free hd, keep]
  have h3 : getopts [d, e] = .ok ([], [d, e]) := by simp only [getopts, h1]; rfl
  have h4 : getopts [d] = .ok ([], [d]) := by simp only [getopts, h2]; rfl
  simp only [command, parseArguments, h3, h4, target]

/-- Neither `--verbose` nor `--open` does anything. -/
theorem C197_ignored_violated (w : World) (a : Wish) (hd : ∀ d, a.dir = some d → d.head? ≠ some '-') (v o : Bool) :
    command w { a with verbose := v, browser := o }.args = command w a.args := by
  have hg := getopts_wish a hd
  have hg' := getopts_wish { a with verbose := v, browser := o } hd
  have hh : ∀ n, n ≠ c!"verbose" → n ≠ c!"open" → has (Wish.found { a with verbose := v, browser := o }) n = has a.found n := by
    intro n h1 h2
    obtain ⟨p, v', o', c, m, d⟩ := a
    cases v <;> cases o <;> cases v' <;> cases o' <;> simp [has, Wish.found, Ne.symm h1, Ne.symm h2]
  have hp : portOf (Wish.found { a with verbose := v, browser := o }) = portOf a.found := by
    have : (Wish.found { a with verbose := v, browser := o }).find? (·.1 = c!"port") = a.found.find? (·.1 = c!"port") := by
      obtain ⟨p, v', o', c, m, d⟩ := a
      cases p <;> cases v <;> cases o <;> cases v' <;> cases o' <;> simp [Wish.found]
    simp only [portOf, this]
  simp only [command, parseArguments, hg, hg', hh c!"help" (by decide) (by decide), hp, hh c!"cors" (by decide) (by decide),
    hh c!"no-index" (by decide) (by decide)]
  cases has a.found c!"help" with
  | true => rfl
  | false =>
    simp only [Bool.false_eq_true, if_false]
    cases portOf a.found with
    | error e => rfl
    | ok p =>
      simp only [validate]
      by_cases hz : p = 0
      · simp only [hz, if_true]
      · simp only [if_neg hz]
        cases w.kind (target w.cwd a.dir.toList) <;> rfl

/-- A machine with one readable directory. -/
def w0 : World := ⟨c!"/srv", fun d => if d = c!"/srv" ∨ d = c!"/srv/www" then .dir else .missing, fun p => p != 8000⟩

example : command w0 [c!"-p", c!"8080", c!"--cors", c!"www"] =
    ⟨0, [c!"🐕 doge-shell HTTP server starting...", c!"  Directory: /srv/www", c!"  Port: 8080", c!"  Press Ctrl+C to stop the server", []], [],
      some (8080, c!"/srv/www", true, true)⟩ := by decide +kernel
example : (Wish.mk (some 8080) false false true false (some c!"www")).args = [c!"-p", c!"8080", c!"--cors", c!"www"] := by decide +kernel
example : (command w0 []).status = 0 ∧ (command w0 []).served = none := by decide +kernel
example : (command w0 [c!"-p", c!"Usage:"]).status = 0 ∧ (command w0 [c!"-p", c!"many"]).status = 1 ∧ (command w0 [c!"-vp70000"]).status = 1 ∧
    (command w0 [c!"-v", c!"--verbose"]).err = [c!"serve: Error parsing arguments: Option 'verbose' given more than once"] ∧
    (command w0 [c!"--port"]).err = [c!"serve: Error parsing arguments: Argument to option 'port' missing"] := by decide +kernel

open Dsh.Fs Dsh.Fs.Serve

/-- The answers are those of the server of C33. -/
theorem answer_fst (fs : FS) (lim : Nat) (dir : Path) (index cors : Bool) (url : Str) :
    (answer fs lim dir index cors url).1 = serve fs lim dir index url := by
  unfold answer serve serveFile
  split
  · rfl
  · split
    · rename_i h; simp [h]
    · rename_i h; simp only [h]
      split
      · rename_i h; simp [h]
      · rename_i h; simp only [h]
        split
        · rfl
        · split
          · rfl
          · split <;> rfl

/-- Scripts of other servers may read files and listings exactly if that was asked for, but for the page of the served directory
itself. -/
theorem C197_cors_partial (fs : FS) (lim : Nat) (dir : Path) (index cors : Bool) (url : Str) (hu : url ≠ c!"/")
    (h : (∃ l d, serve fs lim dir index url = .file l d) ∨ ∃ l, serve fs lim dir index url = .listing l) :
    (answer fs lim dir index cors url).2 = cors := by
  rw [← answer_fst fs lim dir index cors url] at h
  unfold answer at h ⊢
  rw [if_neg hu] at h ⊢
  split
  · simp_all
  · split
    · simp_all
    · split
      · simp_all
      · split
        · rfl
        · split
          · rfl
          · simp_all

/-- That page they may never read. -/
theorem C197_cors_violated (fs : FS) (lim : Nat) (dir : Path) (index cors : Bool) :
    (answer fs lim dir index cors c!"/").2 = false := rfl

end Dsh.ServePage
