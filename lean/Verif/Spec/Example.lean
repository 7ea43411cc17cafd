/-
How a command line of the `spectrogram` example is read.
-/
namespace Kofft.Spec

/-- The words of a command line, left to right: `--floor` and `--palette` take the next word as their value, whatever
it is (none if they come last); every other word is a file name. `Reads args fl pa na`: the values given to `--floor`,
those given to `--palette` and the file names, each in the order in which they appear. -/
inductive Reads : List String → List String → List String → List String → Prop
  | nil : Reads [] [] [] []
  | floor {rest fl pa na} (v : String) : Reads rest fl pa na → Reads ("--floor" :: v :: rest) (v :: fl) pa na
  | palette {rest fl pa na} (v : String) : Reads rest fl pa na → Reads ("--palette" :: v :: rest) fl (v :: pa) na
  | floorLast : Reads ["--floor"] [] [] []
  | paletteLast : Reads ["--palette"] [] [] []
  | name {rest fl pa na} (a : String) : a ≠ "--floor" → a ≠ "--palette" → Reads rest fl pa na →
      Reads (a :: rest) fl pa (a :: na)

/-- The value in force after a list of settings of which some are unreadable: the last readable one, or the default. -/
def lastReadable {α : Type} (read : String → Option α) (dflt : α) (l : List String) : α :=
  (l.filterMap read).getLastD dflt

end Kofft.Spec
