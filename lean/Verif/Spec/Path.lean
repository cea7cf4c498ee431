import Verif.Model.Basic

/-!
# File names

What the file name of a path is and what it becomes with another extension, as described in the
documentation of `std::path::Path` (`file_name`, `file_stem`, `with_extension`), for Unix paths.
-/

namespace Mitex

/-- What may follow a file name without changing the path: separators and `.` components. -/
inductive TrailingSep : Text → Prop
  | nil : TrailingSep []
  | sep {t} : TrailingSep t → TrailingSep ('/' :: t)
  | dot {t} : TrailingSep t → TrailingSep ('/' :: '.' :: t)

/-- The last component of the path `p` is the file name `file`, in the directory part `dir` (empty, or up to and
with a separator). -/
def NamesFile (p dir file : Text) : Prop :=
  ∃ tail, p = dir ++ file ++ tail ∧ TrailingSep tail ∧ (dir = [] ∨ dir.getLast? = some '/') ∧
    '/' ∉ file ∧ file ≠ [] ∧ file ≠ t!"." ∧ file ≠ t!".."

/-- The file name has an extension: a dot, not the first character, and what follows the last such dot. -/
def HasExtension (file stem ext : Text) : Prop := file = stem ++ '.' :: ext ∧ stem ≠ [] ∧ '.' ∉ ext

/-- `out` is the file name with the extension `ext` instead of its own, or added if it has none. -/
def WithExtension (file ext out : Text) : Prop :=
  (∃ stem e, HasExtension file stem e ∧ out = stem ++ '.' :: ext) ∨
  ((¬ ∃ stem e, HasExtension file stem e) ∧ out = file ++ '.' :: ext)

end Mitex
