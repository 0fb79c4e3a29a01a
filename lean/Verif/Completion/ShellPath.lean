import Verif.Util
/-!
Encoding and decoding of path tokens by completion: `dsh/src/completion/shell_path.rs`.
-/
namespace Dsh.ShellPath

/-- `ShellPathStyle` (shell_path.rs:4-9). -/
inductive Style where
  | plain | escaped
  | single (closed : Bool)
  | double (closed : Bool)
deriving DecidableEq, Repr

/-- `raw.len() > 1 && raw.ends_with(q)` for a string starting with the (one-byte) quote. -/
def closedBy (q : Char) (raw : List Char) : Bool := 1 < raw.length && raw.getLast? = some q

/-- `detect_style` (shell_path.rs:96-111). -/
def detectStyle (raw : List Char) : Style :=
  if raw.head? = some '"' then .double (closedBy '"' raw)
  else if raw.head? = some '\'' then .single (closedBy '\'' raw)
  else if raw.contains '\\' then .escaped
  else .plain

/-- `strip_wrapping_quote` (shell_path.rs:113-120). -/
def stripQuote (raw : List Char) (q : Char) (closed : Bool) : List Char :=
  let inner := if raw.head? = some q then raw.tail else raw
  if closed ∧ inner.getLast? = some q then inner.dropLast else inner

/-- `decode_backslashes` (shell_path.rs:122-139). -/
def decode : List Char → List Char
  | [] => []
  | '\\' :: c :: cs => c :: decode cs
  | ['\\'] => ['\\']
  | c :: cs => c :: decode cs

/-- The characters escaped by `escape_unquoted` (shell_path.rs:141-171). -/
def unquotedSpecial (c : Char) : Bool :=
  rustWhitespace c ||
  ['\\', '"', '\'', '|', '&', ';', '(', ')', '<', '>', '$', '`', '{', '}', '*', '?', '[', ']'].contains c

/-- `out.push('\\')` before the characters selected by `p`. -/
def escapeWith (p : Char → Bool) (s : List Char) : List Char :=
  s.flatMap (fun c => if p c then ['\\', c] else [c])

/-- `escape_unquoted` (shell_path.rs:141-171). -/
def escapeUnquoted : List Char → List Char := escapeWith unquotedSpecial
/-- `escape_single_quoted` (shell_path.rs:173-182). -/
def escapeSingle : List Char → List Char := escapeWith (fun c => c = '\\' || c = '\'')
/-- `escape_double_quoted` (shell_path.rs:184-193). -/
def escapeDouble : List Char → List Char :=
  escapeWith (fun c => c = '\\' || c = '"' || c = '$' || c = '`')

/-- `ShellPathToken::from_raw(raw).normalized` (shell_path.rs:18-30, 59-61). -/
def normalize (raw : List Char) : List Char :=
  match detectStyle raw with
  | .plain | .escaped => decode raw
  | .single closed => decode (stripQuote raw '\'' closed)
  | .double closed => decode (stripQuote raw '"' closed)

/-- `ShellPathToken::encode` (shell_path.rs:38-58). -/
def encode (st : Style) (path : List Char) : List Char :=
  match st with
  | .plain | .escaped => escapeUnquoted path
  | .single closed => '\'' :: escapeSingle path ++ (if closed then ['\''] else [])
  | .double closed => '"' :: escapeDouble path ++ (if closed then ['"'] else [])

/-- `format_path_for_token` (shell_path.rs:65-67). -/
def formatForToken (path raw : List Char) : List Char := encode (detectStyle raw) path

end Dsh.ShellPath
