/-
Model of the decoding of bytes at the boundary: `std::str::from_utf8`, as called by crates/mitex-wasm/src/lib.rs:71-73 (`wasm_into_str`) and, through
`std::fs::read_to_string`, by crates/mitex-cli/src/main.rs:73.  The standard library is not in /repo; this follows the source of
`core::str::validations::run_utf8_validation` and of `core::str::next_code_point`, one character at a time (the steps over whole words of ASCII are left out).
-/
import Verif.Model.Glob
import Verif.Model.Compile

namespace Mitex.Utf8
open Mitex (Text)

/-- `core::str::Utf8Error`: how many bytes are valid, and how many bytes after them are at fault (`none`: the input ends too early). -/
structure Error where
  validUpTo : Nat
  errorLen : Option Nat
  deriving DecidableEq, Repr

/-- A continuation byte (`next!() as i8 < -64`). -/
def cont (b : Nat) : Bool := decide (0x80 ≤ b) && decide (b < 0xc0)

/-- The second byte of a sequence of three. -/
def second3 (a b : Nat) : Bool :=
  if a = 0xe0 then decide (0xa0 ≤ b) && decide (b < 0xc0)
  else if a = 0xed then decide (0x80 ≤ b) && decide (b < 0xa0)
  else cont b

/-- The second byte of a sequence of four. -/
def second4 (a b : Nat) : Bool :=
  if a = 0xf0 then decide (0x90 ≤ b) && decide (b < 0xc0)
  else if a = 0xf4 then decide (0x80 ≤ b) && decide (b < 0x90)
  else cont b

/-- The first character and what follows it, or the length of the error (`none`: the input ends within the character). -/
def decodeOne : List Nat → Except (Option Nat) (Char × List Nat)
  | [] => .error none
  | a :: r =>
    if a < 0x80 then .ok (Char.ofNat a, r)
    else if a < 0xc2 then .error (some 1)
    else if a < 0xe0 then
      match r with
      | [] => .error none
      | b :: r => if cont b then .ok (Char.ofNat (a % 0x20 * 0x40 + b % 0x40), r) else .error (some 1)
    else if a < 0xf0 then
      match r with
      | [] => .error none
      | b :: r =>
        if second3 a b then
          match r with
          | [] => .error none
          | c :: r =>
            if cont c then .ok (Char.ofNat (a % 0x10 * 0x1000 + b % 0x40 * 0x40 + c % 0x40), r) else .error (some 2)
        else .error (some 1)
    else if a < 0xf5 then
      match r with
      | [] => .error none
      | b :: r =>
        if second4 a b then
          match r with
          | [] => .error none
          | c :: r =>
            if cont c then
              match r with
              | [] => .error none
              | d :: r =>
                if cont d then .ok (Char.ofNat (a % 8 * 0x40000 + b % 0x40 * 0x1000 + c % 0x40 * 0x40 + d % 0x40), r) else .error (some 3)
            else .error (some 2)
        else .error (some 1)
    else .error (some 1)

/-- One character after the other; `k` bytes have been read, and `fuel` is at least the number of those that remain. -/
def decodeFrom : Nat → Nat → List Nat → Except Error Text
  | 0, _, _ => .ok []
  | _ + 1, _, [] => .ok []
  | n + 1, k, a :: s =>
    match decodeOne (a :: s) with
    | .ok (c, r) =>
      match decodeFrom n (k + (s.length + 1 - r.length)) r with
      | .ok t => .ok (c :: t)
      | .error e => .error e
    | .error l => .error ⟨k, l⟩

/-- `std::str::from_utf8`. -/
def fromUtf8 (b : List Nat) : Except Error Text := decodeFrom b.length 0 b

/-- `impl Display for Utf8Error`. -/
def Error.message (e : Error) : Text :=
  match e.errorLen with
  | some n => t!"invalid utf-8 sequence of " ++ (Nat.repr n).toList ++ t!" bytes from index " ++ (Nat.repr e.validUpTo).toList
  | none => t!"incomplete utf-8 byte sequence from index " ++ (Nat.repr e.validUpTo).toList

/-- mitex-wasm/src/lib.rs:71-73 `wasm_into_str`. -/
def wasmIntoStr (b : List Nat) : Except Text Text :=
  match fromUtf8 b with
  | .ok t => .ok t
  | .error e => .error e.message

/-- The decoding in `std::fs::read_to_string`. -/
def readText (b : List Nat) : Option Text := (fromUtf8 b).toOption

/-- mitex-wasm/src/lib.rs:85-95 `convert_math`, `convert_text` of the plugin for Typst: `conv` is the function of the library. -/
def plugin (decode : List Nat → CommandSpec) (conv : Text → Option CommandSpec → Res Text) (input spec : List Nat) : Res (List Nat) :=
  (wasmConvert decode wasmIntoStr conv input spec).map Glob.bytes

end Mitex.Utf8
