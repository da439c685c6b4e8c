import Mathlib.Data.List.Basic

/-! Model of `find_spec_file_set` (crates/base-db/src/inputs.rs 238-265). -/

namespace Verif.SpecFiles

/-- A file name. -/
abbrev Name := List Char

/-- `Path::file_stem` and `Path::extension` of the standard library, for a name other than `..`
(`VfsPath::name_and_extension`): split at the last dot; a dot in front does not count. -/
def splitName (n : Name) : Name × Option Name :=
  let r := n.reverse
  let ext := (r.takeWhile (· ≠ '.')).reverse
  match r.dropWhile (· ≠ '.') with
  | [] => (n, none)
  | _ :: stem => if stem = [] then (n, none) else (stem.reverse, some ext)

/-- `str::strip_suffix(".spec").unwrap_or(self)`. -/
def stripSpec (n : Name) : Name :=
  if ".spec".toList <:+ n then n.take (n.length - 5) else n

/-- A package root: the files with their ids, and the last component of their paths
(`FileSet::iter`, `path_for_file`, `file_name`). -/
abbrev Root := List (Nat × Name)

/-- `find_spec_file_set` (inputs.rs 238-265). -/
def findSpecFileSet (fileId : Nat) (root : Root) : Option (List Nat) :=
  match root.find? (fun f => f.1 == fileId) with
  | none => none
  | some (_, name) =>
    match splitName name with
    | (stem, ext) =>
      if ext ≠ some "move".toList then none
      else
        let base := stripSpec stem
        let expected := [base ++ ".move".toList, base ++ ".spec.move".toList]
        some ((root.filter fun f => expected.contains f.2).map (·.1))

/-- The spec set stored for a file (`replace_package_roots`, inputs.rs 149-157). -/
def related (fileId : Nat) (root : Root) : List Nat := (findSpecFileSet fileId root).getD []

end Verif.SpecFiles
