import Verif.Props.Readme
/-
Concrete cases for C71: the markers the tool really uses.
-/
namespace Kofft.Props
open Kofft.Spec Kofft.Readme

/-- The real markers: a section is replaced. -/
example : updateReadme startMarker endMarker "T\n".toList
    ("intro\n".toList ++ startMarker ++ "\nold\n".toList ++ endMarker ++ "\nbye".toList) =
      some ("intro\n".toList ++ startMarker ++ "\nT\n".toList ++ endMarker ++ "\nbye".toList) := by decide +kernel

/-- The hypotheses of C71d are met. -/
example : ∃ s e, FirstAt ("see ".toList ++ endMarker ++ startMarker ++ endMarker) startMarker s ∧
    FirstAt ("see ".toList ++ endMarker ++ startMarker ++ endMarker) endMarker e ∧ e < s :=
  ⟨22, 4, (find_some _ _ _).mp (by decide +kernel), (find_some _ _ _).mp (by decide +kernel), by decide⟩

end Kofft.Props
