/-
Basic vocabulary of the model: text, byte counts, outcomes.
-/
namespace Mitex

/-- `&str` / `String`: a sequence of Unicode scalar values. -/
abbrev Text := List Char

/-- `t!"abc"` is the text `['a', 'b', 'c']`, written as a string literal (the kernel computes faster with it than with
`"abc".toList`). -/
macro:max "t!" s:str : term => do
  let cs : List (Lean.TSyntax `term) := s.getString.toList.map fun c => ⟨(Lean.Syntax.mkCharLit c).raw⟩
  let body ← cs.foldrM (fun c r => `(List.cons $c $r)) (← `((List.nil : List Char)))
  `(($body : Text))

/-- Why a computation of the model stops without a value.
* `panic`: a Rust panic (`unwrap` on `None`, slice out of range or off a char boundary, `assert!`);
* `fuel`: the Rust loop is still running after the number of steps given to the model function;
* `error msg`: a `ConvertError::Str(msg)` (crates/mitex/src/converter.rs:98-123). -/
inductive Stop where
  | panic
  | fuel
  | error (msg : Text)
  deriving DecidableEq, Repr

/-- Outcome of a fallible model function. -/
abbrev Res (α : Type) := Except Stop α

instance {ε α : Type} [DecidableEq ε] [DecidableEq α] : DecidableEq (Except ε α) := fun a b =>
  match a, b with
  | .ok x, .ok y => if h : x = y then isTrue (by rw [h]) else isFalse (by intro e; cases e; exact h rfl)
  | .error x, .error y => if h : x = y then isTrue (by rw [h]) else isFalse (by intro e; cases e; exact h rfl)
  | .ok _, .error _ => isFalse (by intro e; cases e)
  | .error _, .ok _ => isFalse (by intro e; cases e)

/-- `char::len_utf8`. -/
def utf8Len (c : Char) : Nat :=
  if c.toNat < 0x80 then 1
  else if c.toNat < 0x800 then 2
  else if c.toNat < 0x10000 then 3
  else 4

/-- `str::len`: number of UTF-8 bytes. -/
def byteLen : Text → Nat
  | [] => 0
  | c :: cs => utf8Len c + byteLen cs

/-- `&s[n..]`: drop `n` bytes; `none` when `n` is past the end or not a char boundary (a Rust panic). -/
def dropBytes : Nat → Text → Option Text
  | 0, s => some s
  | _ + 1, [] => none
  | n + 1, c :: cs => if utf8Len c ≤ n + 1 then dropBytes (n + 1 - utf8Len c) cs else none

/-- `&s[..n]`: the first `n` bytes; `none` when `n` is past the end or not a char boundary. -/
def takeBytes : Nat → Text → Option Text
  | 0, _ => some []
  | _ + 1, [] => none
  | n + 1, c :: cs =>
    if utf8Len c ≤ n + 1 then (takeBytes (n + 1 - utf8Len c) cs).map (c :: ·) else none

/-- `char::is_whitespace`, also the class `\s` of the logos regexes: Unicode `White_Space`. -/
def isWs (c : Char) : Bool :=
  (0x9 ≤ c.toNat && c.toNat ≤ 0xd) || c.toNat == 0x20 || c.toNat == 0x85 || c.toNat == 0xa0
  || c.toNat == 0x1680 || (0x2000 ≤ c.toNat && c.toNat ≤ 0x200a) || c.toNat == 0x2028
  || c.toNat == 0x2029 || c.toNat == 0x202f || c.toNat == 0x205f || c.toNat == 0x3000

/-- `\r` or `\n`. -/
def isNl (c : Char) : Bool := c == '\n' || c == '\r'

/-- `u8::is_ascii_alphabetic` / `char::is_ascii_alphabetic`. -/
def isAsciiAlpha (c : Char) : Bool :=
  (0x41 ≤ c.toNat && c.toNat ≤ 0x5a) || (0x61 ≤ c.toNat && c.toNat ≤ 0x7a)

/-- `char::is_ascii_digit`. -/
def isAsciiDigit (c : Char) : Bool := 0x30 ≤ c.toNat && c.toNat ≤ 0x39

/-- `str::trim_start`. -/
def trimStart (s : Text) : Text := s.dropWhile isWs

/-- `str::trim_end`. -/
def trimEnd (s : Text) : Text := (s.reverse.dropWhile isWs).reverse

/-- `str::trim`. -/
def trim (s : Text) : Text := trimEnd (trimStart s)

/-- `s.strip_prefix('\\').unwrap()`: a panic unless the text starts with a backslash. -/
def stripBackslash : Text → Res Text
  | '\\' :: cs => .ok cs
  | _ => .error .panic

end Mitex
