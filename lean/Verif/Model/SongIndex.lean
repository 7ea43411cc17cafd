import Verif.Model.Base
/-
`src/media/index.rs`. Outside the model: the BLAKE3 function (any incremental hasher), the file system (what opening and reading
each path gives at the time of a call, possibly different at each call), `Path::file_name().to_str()` (any partial function).
-/
namespace Kofft.Media

/-- The incremental interface of `blake3::Hasher` used at `src/media/index.rs:41-50`; `D` is `[u8; 32]`. -/
structure Hasher (D : Type) where
  State : Type
  init : State
  update : State → List UInt8 → State
  finalize : State → D

/-- One `read` of the file (`src/media/index.rs:44`): some bytes, or an error. A file is the finite list of its reads before the
read that returns 0 bytes. -/
inductive ReadRes (E : Type)
  | bytes (b : List UInt8)
  | err (e : E)

/-- The `loop` of `hash_file` (`src/media/index.rs:43-49`): a read of 0 bytes ends it, as does the end of the list. -/
def hashLoop {D E : Type} (H : Hasher D) (s : H.State) : List (ReadRes E) → Except E D
  | [] => .ok (H.finalize s)
  | .bytes b :: rest => if b.length = 0 then .ok (H.finalize s) else hashLoop H (H.update s b) rest
  | .err e :: _ => .error e

/-- The files as seen by one call: `File::open` may fail, otherwise the reads. -/
abbrev Fs (P E : Type) := P → Except E (List (ReadRes E))

/-- `src/media/index.rs:39-51` `hash_file`. -/
def hashFile {P D E : Type} (H : Hasher D) (fs : Fs P E) (path : P) : Except E D :=
  match fs path with
  | .error e => .error e
  | .ok reads => hashLoop H H.init reads

/-- `src/media/index.rs:25-30` `struct SongIndex`; a `HashMap` is a partial function, a `SongId` its path. -/
structure SongIndex (P D : Type) where
  byName : String → Option P
  byHash : D → Option P

/-- `src/media/index.rs:33-37` `SongIndex::new`. -/
def SongIndex.new {P D : Type} : SongIndex P D := ⟨fun _ => none, fun _ => none⟩

/-- `HashMap::insert`. -/
def insert {K V : Type} [DecidableEq K] (m : K → Option V) (k : K) (v : V) : K → Option V :=
  fun k' => if k' = k then some v else m k'

/-- `if let Some(name) = path.file_name().and_then(|s| s.to_str()) { self.by_name.insert(name, id) } self.by_hash.insert(hash, id)`
(`src/media/index.rs:57-60`, `80-83`). -/
def SongIndex.register {P D : Type} [DecidableEq D] (name : P → Option String) (idx : SongIndex P D) (path : P) (hash : D) :
    SongIndex P D :=
  ⟨match name path with
    | some n => insert idx.byName n path
    | none => idx.byName, insert idx.byHash hash path⟩

/-- `src/media/index.rs:54-62` `index_song`: new index and result. -/
def SongIndex.indexSong {P D E : Type} [DecidableEq D] (H : Hasher D) (name : P → Option String) (fs : Fs P E)
    (idx : SongIndex P D) (path : P) : SongIndex P D × Except E P :=
  match hashFile H fs path with
  | .error e => (idx, .error e)
  | .ok hash => (idx.register name path hash, .ok path)

/-- `src/media/index.rs:69-85` `identify`: the name lookup (lines 70-74), then the hash lookup, then registration. -/
def SongIndex.identify {P D E : Type} [DecidableEq D] (H : Hasher D) (name : P → Option String) (fs : Fs P E)
    (idx : SongIndex P D) (path : P) : SongIndex P D × Except E P :=
  match (name path).bind idx.byName with
  | some id => (idx, .ok id)
  | none =>
    match hashFile H fs path with
    | .error e => (idx, .error e)
    | .ok hash =>
      match idx.byHash hash with
      | some id => (idx, .ok id)
      | none => (idx.register name path hash, .ok path)

end Kofft.Media
