import Verif.Model.Base
/-
`kofft-bench/examples/update_bench_readme.rs`: replacing the benchmark table in a README. Strings are lists of
characters (the code counts bytes; both markers are ASCII, so the slices fall on the same places). Outside the model:
reading and writing the file, JSON, and formatting the table.
-/
namespace Kofft.Readme

/-- `str::find`: position of the first occurrence. -/
def find (s pat : List Char) : Option Nat :=
  if pat.isPrefixOf s then some 0
  else match s with
    | [] => none
    | _ :: rest => (find rest pat).map (· + 1)

/-- `kofft-bench/examples/update_bench_readme.rs:69-82` `update_readme`: the new content of the file, `none` when it is
not written. -/
def updateReadme (start stop table content : List Char) : Option (List Char) :=
  match find content start, find content stop with
  | some s, some e => some (content.take (s + start.length) ++ '\n' :: (table ++ content.drop e))
  | _, _ => none

/-- The marker `<!-- BENCH_START -->` (line 72). -/
def startMarker : List Char := "<!-- BENCH_START -->".toList

/-- The marker `<!-- BENCH_END -->` (line 73). -/
def endMarker : List Char := "<!-- BENCH_END -->".toList

end Kofft.Readme
