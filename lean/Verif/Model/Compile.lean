/-
Model of `compile` in crates/mitex-cli/src/main.rs with its effects on the file system.
Paths are compared as texts (two names of one file, as with symbolic links, are not modelled).  The operating system decides whether a file can be
opened for writing and after how many bytes writing fails; a crash may happen between any two effects.
-/
import Verif.Model.Cli
import Verif.Model.Glob

namespace Mitex

/-- The files: contents by path, `none` for paths that cannot be read. -/
abbrev Fs := Text → Option (List Nat)

/-- The files after one file got new contents. -/
def Fs.set (fs : Fs) (p : Text) (b : List Nat) : Fs := fun q => if q = p then some b else fs q

/-- The decisions of the operating system. -/
structure Os where
  /-- Can the file be opened for writing? -/
  opens : Text → Bool
  /-- The number of bytes after which writing fails, if it does. -/
  limit : Option Nat

/-- How the process ends (`running`: not within the given fuel). -/
inductive Exit where
  | success
  | readFailed
  | convertFailed (message : Text)
  | writeFailed
  | panic
  | running
  deriving DecidableEq, Repr

/-- The states of the files while the first `n` bytes are written, byte by byte: the file is truncated first. -/
def writeStates (fs : Fs) (p : Text) (b : List Nat) (n : Nat) : List Fs := (List.range (n + 1)).map fun i => fs.set p (b.take i)

/-- `std::fs::write`: the states the files go through, and whether it succeeds. -/
def writeFile (os : Os) (fs : Fs) (p : Text) (b : List Nat) : List Fs × Exit :=
  if os.opens p then
    match os.limit with
    | some n => if n < b.length then (writeStates fs p b n, .writeFailed) else (writeStates fs p b b.length, .success)
    | none => (writeStates fs p b b.length, .success)
  else ([], .writeFailed)

/-- main.rs:72-130 `compile`: all states the files go through (the first one is the state at the start), and how the process ends.
`utf8` decodes bytes (`read_to_string` fails on invalid UTF-8), `ast` is the debug output of the syntax tree (not modelled), `set` the aliases in
their iteration order. -/
def compileFile (fuel : Nat) (dflt : CommandSpec) (set : List Text) (utf8 : List Nat → Option Text) (ast : Text → Res Text) (os : Os)
    (fs : Fs) (input output : Text) (isAst : Bool) : List Fs × Exit :=
  match (fs input).bind utf8 with
  | none => ([fs], .readFailed)
  | some t =>
    match (if isAst then ast t else convertText fuel dflt t (some dflt)) with
    | .error (.error m) => ([fs], .convertFailed m)
    | .error .panic => ([fs], .panic)
    | .error .fuel => ([fs], .running)
    | .ok out =>
      let w := writeFile os fs output (Glob.bytes (outputDocument set out))
      (fs :: w.1, w.2)

end Mitex
