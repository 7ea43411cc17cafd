import Verif.Model.SongIndex
/-
Vocabulary of C59: calls of the song index and their histories.
-/
namespace Kofft.Spec
open Media
variable {P D E : Type} [DecidableEq D]

/-- A call made by the user, with the file system as it is at that moment. -/
inductive SongCall (P E : Type)
  | index (path : P) (fs : Fs P E)
  | identify (path : P) (fs : Fs P E)

/-- The path a call is about. -/
def SongCall.path : SongCall P E → P
  | .index p _ => p
  | .identify p _ => p

/-- What the file at the path of a call hashes to at that moment. -/
def SongCall.hash (H : Hasher D) : SongCall P E → Except E D
  | .index p fs => hashFile H fs p
  | .identify p fs => hashFile H fs p

/-- Execute a call. -/
def SongCall.run (H : Hasher D) (name : P → Option String) (idx : SongIndex P D) :
    SongCall P E → SongIndex P D × Except E P
  | .index p fs => idx.indexSong H name fs p
  | .identify p fs => idx.identify H name fs p

/-- The index after a history of calls on a new index. -/
def songsAfter (H : Hasher D) (name : P → Option String) (calls : List (SongCall P E)) :
    SongIndex P D := calls.foldl (fun idx c => (c.run H name idx).1) SongIndex.new

/-- The result of a call after a history. -/
def songResult (H : Hasher D) (name : P → Option String) (calls : List (SongCall P E))
    (c : SongCall P E) : Except E P := (c.run H name (songsAfter H name calls)).2

/-- All files can be read and never change; equal file names mean equal contents. -/
structure FixedDisk (H : Hasher D) (name : P → Option String) (fs : Fs P E) (digest : P → D) : Prop where
  readable : ∀ p, hashFile H fs p = .ok (digest p)
  names : ∀ p q n, name p = some n → name q = some n → digest p = digest q

/-- `identify` calls only, on one disk. -/
def identifyAll (H : Hasher D) (name : P → Option String) (fs : Fs P E) (ps : List P) : SongIndex P D :=
  ps.foldl (fun i p => (i.identify H name fs p).1) SongIndex.new

end Kofft.Spec
