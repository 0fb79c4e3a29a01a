import Verif.Util
/-!
Secret detection and redaction before a command line reaches the history (dsh/src/secrets.rs): C23,
C79–C81.

The four fixed regular expressions are modelled by matchers at a position.  Each is written so that it
gives the match Rust's `regex` crate (leftmost-first, case-insensitive, Unicode) gives: in all four the
repeated classes exclude the character that follows them, so greedy matching never has to give
characters back; where alternatives are tried, the order is the one of the pattern.
-/
namespace Dsh.Secrets

abbrev Str := List Char

/-- What is left open: which characters outside ASCII count as word characters (`\w`); white space is
not among them. -/
structure Uni where
  word : Char → Bool
  space : ∀ c, rustWhitespace c = true → word c = false

/-- `\w`. -/
def isWord (U : Uni) (c : Char) : Bool :=
  if c.toNat < 128 then c.isAlphanum || c == '_' else U.word c || c == '\u017f' || c == '\u212a'

/-- Simple case folding as far as the patterns need it: ASCII, and the two other characters that fold
to an ASCII letter, U+017F (long s) and U+212A (Kelvin sign). -/
def fold (c : Char) : Char :=
  if c == '\u017f' then 's' else if c == '\u212a' then 'k' else c.toLower

/-- `[A-Z_]` with `(?i)`. -/
def nameStart (c : Char) : Bool := ('a' ≤ fold c && fold c ≤ 'z') || c == '_'

/-- `[A-Z0-9_]` with `(?i)`. -/
def nameChar (c : Char) : Bool := nameStart c || ('0' ≤ c && c ≤ '9')

/-- `\S`. -/
def nonSpace (c : Char) : Bool := !rustWhitespace c

/-- A match: the first group, what stands between the groups, the second group, and what follows the
match. -/
structure Hit where
  pre : Str
  mid : Str
  val : Str
  rest : Str
deriving DecidableEq, Repr

/-- The text of the match. -/
def Hit.text (h : Hit) : Str := h.pre ++ h.mid ++ h.val

/-- A matcher: given the character before the position and the text from there on. -/
abbrev Matcher := Option Char → Str → Option Hit

/-- The second group, when it is a run of characters of a class that must not be empty. -/
def run1 (p : Char → Bool) (pre mid s : Str) : Option Hit :=
  if (s.takeWhile p).isEmpty then none else some ⟨pre, mid, s.takeWhile p, s.dropWhile p⟩

/-- What follows a name: `=` and the value. -/
def assignTail (name : Str) : Str → Option Hit
  | '=' :: v => run1 nonSpace name ['='] v
  | _ => none

/-- `\b([A-Z_][A-Z0-9_]*)=(\S+)` (secrets.rs:61-62).  The name starts with a word character, so `\b`
holds exactly when the character before is none. -/
def assignAt (U : Uni) : Matcher
  | _, [] => none
  | prev, c :: s =>
    if nameStart c && !(prev.any (isWord U)) then
      assignTail (c :: s.takeWhile nameChar) (s.dropWhile nameChar)
    else none

/-- A literal, ignoring case: the matched text and the rest. -/
def lit : Str → Str → Option (Str × Str)
  | [], s => some ([], s)
  | a :: w, c :: s => if fold c = a then (lit w s).map (fun r => (c :: r.1, r.2)) else none
  | _ :: _, [] => none

/-- The first literal of a list that matches. -/
def lits (ws : List Str) (s : Str) : Option (Str × Str) := ws.findSome? (fun w => lit w s)

/-- The option names; `api[-_]?key` and `access[-_]?token` are spelled out in the order in which the
optional character is tried (secrets.rs:67). -/
def optNames : List Str :=
  [c!"password", c!"passwd", c!"passphrase", c!"token", c!"secret", c!"api-key", c!"api_key", c!"apikey",
   c!"access-token", c!"access_token", c!"accesstoken"]

/-- `(?:\s+|=)`. -/
def optSep : Str → Option (Str × Str)
  | [] => none
  | c :: s =>
    if rustWhitespace c then some (c :: s.takeWhile rustWhitespace, s.dropWhile rustWhitespace)
    else if c = '=' then some ([c], s) else none

/-- A quoted value: everything up to the next quote, which must exist. -/
def quoted (q : Char) (pre : Str) : Str → Option Hit
  | [] => none
  | c :: s =>
    if c = q then
      match s.dropWhile (· != q) with
      | [] => none
      | e :: rest => some ⟨pre, [], c :: s.takeWhile (· != q) ++ [e], rest⟩
    else none

/-- `[^\s"']`. -/
def plainChar (c : Char) : Bool := !rustWhitespace c && c != '"' && c != '\''

/-- `([^\s"']+|"[^"]*"|'[^']*')`. -/
def optValue (pre s : Str) : Option Hit :=
  (run1 plainChar pre [] s).or ((quoted '"' pre s).or (quoted '\'' pre s))

/-- A dash or two, then a name and a separator: the text and the rest. -/
def optLong (dashes s : Str) : Option (Str × Str) :=
  (lit dashes s).bind fun d => (lits optNames d.2).bind fun n => (optSep n.2).map fun p =>
    (d.1 ++ n.1 ++ p.1, p.2)

/-- `-p\s+`. -/
def optShort (s : Str) : Option (Str × Str) :=
  (lit c!"-p" s).bind fun d =>
    match d.2 with
    | [] => none
    | c :: t =>
      if rustWhitespace c then
        some (d.1 ++ c :: t.takeWhile rustWhitespace, t.dropWhile rustWhitespace)
      else none

/-- An alternative of the first group followed by the value. -/
def withValue (o : Option (Str × Str)) : Option Hit := o.bind fun r => optValue r.1 r.2

/-- `(--?(?:password|…)(?:\s+|=)|-p\s+)([^\s"']+|"[^"]*"|'[^']*')` (secrets.rs:65-70). -/
def optionAt : Matcher := fun _ s =>
  (withValue (optLong c!"--" s)).or ((withValue (optLong c!"-" s)).or (withValue (optShort s)))

/-- `[A-Za-z0-9._~+/=-]` with `(?i)`. -/
def bearerChar (c : Char) : Bool :=
  ('a' ≤ fold c && fold c ≤ 'z') || ('0' ≤ c && c ≤ '9') || c ∈ c!"._~+/=-"

/-- White space that may be missing. -/
def skipWs (s : Str) : Str × Str := (s.takeWhile rustWhitespace, s.dropWhile rustWhitespace)

/-- `authorization\s*:\s*bearer\s+`: the text and the rest. -/
def bearerHead (s : Str) : Option (Str × Str) :=
  (lit c!"authorization" s).bind fun a =>
    let w1 := skipWs a.2
    (lit c!":" w1.2).bind fun c =>
      let w2 := skipWs c.2
      (lit c!"bearer" w2.2).bind fun b =>
        let w3 := skipWs b.2
        if w3.1.isEmpty then none else some (a.1 ++ w1.1 ++ c.1 ++ w2.1 ++ b.1 ++ w3.1, w3.2)

/-- `(authorization\s*:\s*bearer\s+)([A-Za-z0-9._~+/=-]+)` (secrets.rs:73-74). -/
def bearerAt : Matcher := fun _ s => (bearerHead s).bind fun r => run1 bearerChar r.1 [] r.2

/-- The parameter names (secrets.rs:78). -/
def queryNames : List Str :=
  [c!"token=", c!"access_token=", c!"api_key=", c!"apikey=", c!"auth=", c!"password="]

/-- `[^&\s]`. -/
def queryChar (c : Char) : Bool := c != '&' && !rustWhitespace c

/-- `([?&](?:token|access_token|api_key|apikey|auth|password)=)([^&\s]+)` (secrets.rs:77-79). -/
def queryAt : Matcher
  | _, [] => none
  | _, c :: s =>
    if c = '?' ∨ c = '&' then (lits queryNames s).bind fun r => run1 queryChar (c :: r.1) [] r.2
    else none

/-! ### Going through a text -/

/-- The character before the text that follows `t`. -/
def lastOr (prev : Option Char) (t : Str) : Option Char := t.getLast?.or prev

/-- `replace_all`: leftmost matches one after the other, each replaced by `f`.  (No pattern matches the
empty text.)  `fuel` is the length of the text. -/
def replaceGo (m : Matcher) (f : Hit → Str) : Nat → Option Char → Str → Str
  | 0, _, s => s
  | _ + 1, _, [] => []
  | n + 1, prev, c :: s =>
    match m prev (c :: s) with
    | some h => f h ++ replaceGo m f n (lastOr prev h.text) h.rest
    | none => c :: replaceGo m f n (some c) s

def replaceAll (m : Matcher) (f : Hit → Str) (s : Str) : Str := replaceGo m f s.length none s

/-- `captures_iter`. -/
def hitsGo (m : Matcher) : Nat → Option Char → Str → List Hit
  | 0, _, _ => []
  | _ + 1, _, [] => []
  | n + 1, prev, c :: s =>
    match m prev (c :: s) with
    | some h => h :: hitsGo m n (lastOr prev h.text) h.rest
    | none => hitsGo m n (some c) s

def hits (m : Matcher) (s : Str) : List Hit := hitsGo m s.length none s

/-- `is_match`. -/
def isMatch (m : Matcher) (s : Str) : Bool := !(hits m s).isEmpty

/-! ### The secret manager -/

/-- `SecretHistoryMode` (secrets.rs:12-20). -/
inductive Mode where
  | skip
  | redact
  | none
deriving DecidableEq, Repr

/-- `SecretManager` (secrets.rs:83-92) without the session secrets.  A custom pattern is the set of
texts it matches. -/
structure Manager where
  uni : Uni
  custom : List (Str → Bool)
  mode : Mode
  extra : List Str

/-- `DEFAULT_SENSITIVE_KEYWORDS` (secrets.rs:39-58). -/
def keywords : List Str :=
  [c!"API_KEY", c!"_KEY", c!"TOKEN", c!"SECRET", c!"PASSWORD", c!"PASSWD", c!"PASSPHRASE", c!"AUTH",
   c!"COOKIE", c!"SESSION", c!"CREDENTIAL", c!"PRIVATE", c!"ACCESS_KEY", c!"SECRET_KEY"]

/-- `to_ascii_uppercase`. -/
def upper (s : Str) : Str := s.map Char.toUpper

/-- `str::contains`. -/
def contains : Str → Str → Bool
  | [], w => w.isEmpty
  | c :: s, w => w.isPrefixOf (c :: s) || contains s w

/-- `is_sensitive_key` (secrets.rs:119-146). -/
def sensitiveKey (M : Manager) (key : Str) : Bool :=
  keywords.any (fun k => contains (upper key) k) ||
  M.extra.any (fun k => contains (upper key) (upper k)) ||
  M.custom.any (fun p => p key)

/-- `is_sensitive_command` (secrets.rs:149-178). -/
def sensitiveCmd (M : Manager) (cmd : Str) : Bool :=
  (hits (assignAt M.uni) cmd).any (fun h => sensitiveKey M h.pre) ||
  M.custom.any (fun p => p cmd) ||
  (isMatch optionAt cmd || isMatch bearerAt cmd || isMatch queryAt cmd)

/-- The replacement of an assignment (secrets.rs:187-194). -/
def hideAssign (M : Manager) (h : Hit) : Str :=
  if sensitiveKey M h.pre then h.pre ++ c!"=***" else h.text

/-- The replacement of the other three (secrets.rs:202-203, 211-212, 220-221). -/
def hideRest (h : Hit) : Str := h.pre ++ c!"***"

/-- `redact_command` (secrets.rs:181-227). -/
def redact (M : Manager) (cmd : Str) : Str :=
  replaceAll queryAt hideRest
    (replaceAll bearerAt hideRest
      (replaceAll optionAt hideRest (replaceAll (assignAt M.uni) (hideAssign M) cmd)))

/-- `process_for_history` (secrets.rs:230-250). -/
def forHistory (M : Manager) (cmd : Str) : Option Str :=
  match M.mode with
  | .none => some cmd
  | .skip => if sensitiveCmd M cmd then none else some cmd
  | .redact => if sensitiveCmd M cmd then some (redact M cmd) else some cmd

/-- The ways a command text is written to the history: a line that is run (shell/eval.rs:49-67) and
its outcome (shell/mod.rs:234-258) are filtered; a suggestion taken over in full
(repl/mod.rs:594-601) and an imported line (history_import.rs:118) are not. -/
inductive Source where
  | run
  | learned
  | imported
deriving DecidableEq, Repr

def written (M : Manager) : Source → Str → Option Str
  | .run, s => forHistory M s
  | .learned, s => some s
  | .imported, s => some s

end Dsh.Secrets
