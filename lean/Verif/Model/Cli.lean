/-
Model of crates/mitex-cli/src/lib.rs (`process_opts`), crates/mitex-cli/src/main.rs (`compile`, without
the file system) and crates/mitex-wasm/src/lib.rs.
-/
import Verif.Model.Convert
import Verif.Model.SpecQuery

namespace Mitex

/-! ### `std::path::Path` on Unix (standard library, modelled from its documentation and source) -/

/-- `std::path`: drop trailing `/` and `/.` of a reversed path. -/
def stripTrailRev : Text → Text
  | '/' :: r => stripTrailRev r
  | '.' :: '/' :: r => stripTrailRev r
  | r => r

/-- `Path::file_name`, together with the part of the path before it. `none` for paths ending in `..`,
for `.`, for the root and for the empty path. -/
def splitFileName (p : Text) : Option (Text × Text) :=
  let r := stripTrailRev p.reverse
  let file := (r.takeWhile (· ≠ '/')).reverse
  let dir := (r.dropWhile (· ≠ '/')).reverse
  if file = [] ∨ file = ['.'] ∨ file = ['.', '.'] then none else some (dir, file)

/-- `Path::file_stem` of a file name: the part before the last dot, unless that is empty. -/
def fileStem (file : Text) : Text :=
  let stem := ((file.reverse.dropWhile (· ≠ '.')).drop 1).reverse
  if stem = [] then file else stem

/-- `Path::with_extension`. -/
def withExtension (p ext : Text) : Text :=
  match splitFileName p with
  | none => p
  | some (dir, file) => dir ++ fileStem file ++ ['.'] ++ ext

/-! ### Argument processing -/

/-- mitex-cli/src/lib.rs:40-130 `CompileArgs`: the fields read by `process_opts`. Absent options have
the clap default `""`. -/
structure CompileArgs where
  input : Text
  output : Text
  positional : List Text
  deriving DecidableEq, Repr

/-- The three errors of `process_opts`. -/
inductive CliError where
  | tooMany | mixed | inputRequired
  deriving DecidableEq, Repr

/-- mitex-cli/src/lib.rs:198-218: positional arguments. -/
def resolvePositional (a : CompileArgs) : Except CliError CompileArgs :=
  if a.input = [] ∧ a.output = [] then
    match a.positional with
    | [] => .ok { a with positional := [] }
    | [i] => .ok ⟨i, a.output, []⟩
    | [i, o] => .ok ⟨i, o, []⟩
    | _ => .error .tooMany
  else if a.positional ≠ [] then .error .mixed
  else .ok { a with positional := [] }

/-- mitex-cli/src/lib.rs:196-247 `process_opts` for the subcommand `compile`. (`to_str` cannot fail:
the path comes from a `String`.) -/
def processOpts (a : CompileArgs) : Except CliError CompileArgs :=
  match resolvePositional a with
  | .error e => .error e
  | .ok a =>
    if a.input = [] then .error .inputRequired
    else if a.output = [] then .ok { a with output := withExtension a.input "tex".toList }
    else .ok a

/-! ### The document written by `mitex compile` -/

/-- main.rs:91-99: the alias of a specification item. -/
def SpecItem.aliasName : SpecItem → Option Text
  | .cmd s => s.alias
  | .env s => s.alias

/-- `char::is_ascii_alphanumeric`. -/
def isAsciiAlnum (c : Char) : Bool := isAsciiAlpha c || isAsciiDigit c

/-- main.rs:86-87 `builtin_set`. -/
def preludeBuiltins : List Text := ["and".toList, "or".toList, "in".toList, "not".toList]

/-- main.rs:89-107: the loop collecting `alias_set`, over the items in iteration order. -/
def collectAliases : List (Text × SpecItem) → List Text → List Text
  | [], acc => acc
  | (_, it) :: rest, acc =>
    match it.aliasName with
    | none => collectAliases rest acc
    | some al =>
      if al.isEmpty || !al.all isAsciiAlnum then collectAliases rest acc
      else if preludeBuiltins.contains al || acc.contains al then collectAliases rest acc
      else collectAliases rest (al :: acc)

/-- `Ord for str` (bytewise; for the ASCII strings sorted here that is by character). -/
def textLe : Text → Text → Bool
  | [], _ => true
  | _ :: _, [] => false
  | a :: as, b :: bs => if a.toNat < b.toNat then true else if a = b then textLe as bs else false

/-- main.rs:114: one line of the prelude. -/
def preludeLine (al : Text) : Text :=
  "#let ".toList ++ al ++ " = mitex-scope.at(\"".toList ++ al ++ "\", default: none);".toList

/-- `join("\n")`. -/
def joinLines : List Text → Text
  | [] => []
  | [l] => l
  | l :: ls => l ++ ['\n'] ++ joinLines ls

/-- main.rs:109-116: the prelude for an iteration order `set` of the hash set. -/
def preludeOf (set : List Text) : Text := joinLines ((set.mergeSort textLe).map preludeLine)

/-- main.rs:117-127: the text written to the output file. -/
def outputDocument (set : List Text) (output : Text) : Text :=
  "\n#import \"@preview/mitex:0.2.7\": *\n".toList ++ preludeOf set ++ "\n\n".toList ++ output

/-! ### The WASM interface -/

/-- mitex-wasm/src/lib.rs:39-43 `extract_spec`; `decode` is `CommandSpec::from_bytes` (rkyv, not
modelled). -/
def extractSpec (decode : List Nat → CommandSpec) (spec : List Nat) : Option CommandSpec :=
  if spec.isEmpty then none else some (decode spec)

/-- mitex-wasm/src/lib.rs:65-95, the wrappers for Typst: `utf8` is `std::str::from_utf8` (text or error
message), `conv` is `mitex::convert_math` or `mitex::convert_text`. -/
def wasmConvert (decode : List Nat → CommandSpec) (utf8 : List Nat → Except Text Text)
    (conv : Text → Option CommandSpec → Res Text) (input spec : List Nat) : Res Text :=
  match utf8 input with
  | .error msg => .error (.error msg)
  | .ok t => conv t (extractSpec decode spec)

end Mitex
