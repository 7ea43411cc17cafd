import Verif.Spec.SongIndex
import Mathlib.Data.List.Induction
import Mathlib.Logic.Function.Basic
/-
C59: the song index under every history of calls.
-/
namespace Kofft.Props
open Media Spec

section
variable {P D E : Type} [DecidableEq D]


/-! ### Reading files -/

omit [DecidableEq D] in
/-- C59: the hash does not depend on how the operating system splits the content into reads, given that hashing in pieces is
hashing the concatenation (a property of BLAKE3). -/
theorem hash_file_chunking (H : Hasher D) (hu : ∀ s a b, H.update (H.update s a) b = H.update s (a ++ b))
    (h0 : ∀ s, H.update s [] = s) (fs : Fs P E) (path : P) (chunks : List (List UInt8)) (hc : ∀ c ∈ chunks, c ≠ [])
    (hf : fs path = .ok (chunks.map .bytes)) :
    hashFile H fs path = .ok (H.finalize (H.update H.init chunks.flatten)) := by
  have key : ∀ (chunks : List (List UInt8)) (s : H.State), (∀ c ∈ chunks, c ≠ []) →
      hashLoop (E := E) H s (chunks.map .bytes) = .ok (H.finalize (H.update s chunks.flatten)) := by
    intro chunks
    induction chunks with
    | nil => intro s _; simp [hashLoop, h0]
    | cons c cs ih =>
      intro s h
      have hc : c ≠ [] := h c (by simp)
      rw [List.map_cons, hashLoop, if_neg (fun h => hc (List.length_eq_zero_iff.1 h)), ih _ (fun c h' => h c (by simp [h'])),
        hu, List.flatten_cons]
  unfold hashFile
  rw [hf]
  exact key chunks _ hc

omit [DecidableEq D] in
/-- A failing read makes the whole hash fail. -/
theorem hash_file_read_error (H : Hasher D) (fs : Fs P E) (path : P) (chunks : List (List UInt8)) (hc : ∀ c ∈ chunks, c ≠ [])
    (e : E) (rest : List (ReadRes E)) (hf : fs path = .ok (chunks.map .bytes ++ .err e :: rest)) :
    hashFile H fs path = .error e := by
  have key : ∀ (chunks : List (List UInt8)) (s : H.State), (∀ c ∈ chunks, c ≠ []) →
      hashLoop (E := E) H s (chunks.map .bytes ++ .err e :: rest) = .error e := by
    intro chunks
    induction chunks with
    | nil => intro s _; simp [hashLoop]
    | cons c cs ih =>
      intro s h
      have hc : c ≠ [] := h c (by simp)
      rw [List.map_cons, List.cons_append, hashLoop, if_neg (fun h => hc (List.length_eq_zero_iff.1 h)),
        ih _ (fun c h' => h c (by simp [h']))]
  unfold hashFile
  rw [hf]
  exact key chunks _ hc

/-! ### Single calls -/

/-- C59: a known file name is answered from the index, whatever the state of the disk (the file is not read), and changes
nothing. -/
theorem identify_known_name (H : Hasher D) (name : P → Option String) (idx : SongIndex P D) (path id : P) (n : String)
    (hn : name path = some n) (hk : idx.byName n = some id) (fs : Fs P E) :
    idx.identify H name fs path = (idx, .ok id) := by
  unfold SongIndex.identify
  rw [hn, Option.bind_some, hk]

/-- C59: `identify` on an unknown name returns the song registered with the same hash and changes nothing, otherwise it adds the
song under its own path; it fails exactly when the file cannot be hashed. -/
theorem identify_unknown_name (H : Hasher D) (name : P → Option String) (idx : SongIndex P D) (path : P)
    (hk : ∀ n, name path = some n → idx.byName n = none) (fs : Fs P E) :
    (∀ e, hashFile H fs path = .error e → idx.identify H name fs path = (idx, .error e)) ∧
    (∀ h, hashFile H fs path = .ok h → (∀ id, idx.byHash h = some id → idx.identify H name fs path = (idx, .ok id)) ∧
      (idx.byHash h = none → ∃ idx', idx.identify H name fs path = (idx', .ok path) ∧
        (∀ n, idx'.byName n = if name path = some n then some path else idx.byName n) ∧
        (∀ h', idx'.byHash h' = if h' = h then some path else idx.byHash h'))) := by
  have hb : (name path).bind idx.byName = none := by
    cases hn : name path with
    | none => rfl
    | some n => exact hk n hn
  constructor
  · intro e he
    unfold SongIndex.identify; rw [hb, he]
  · intro h hh
    constructor
    · intro id hid
      unfold SongIndex.identify; simp only [hb, hh, hid]
    · intro hn
      refine ⟨idx.register name path h, by unfold SongIndex.identify; simp only [hb, hh, hn], ?_, fun _ => rfl⟩
      intro n
      unfold SongIndex.register
      cases hp : name path with
      | none => simp
      | some m => simp [Media.insert, eq_comm]

/-- C59: `index_song` always registers the song under its path (overwriting), or fails and changes nothing. -/
theorem index_song_spec (H : Hasher D) (name : P → Option String) (idx : SongIndex P D) (path : P) (fs : Fs P E) :
    (∀ e, hashFile H fs path = .error e → idx.indexSong H name fs path = (idx, .error e)) ∧
    (∀ h, hashFile H fs path = .ok h → ∃ idx', idx.indexSong H name fs path = (idx', .ok path) ∧
        (∀ n, idx'.byName n = if name path = some n then some path else idx.byName n) ∧
        (∀ h', idx'.byHash h' = if h' = h then some path else idx.byHash h')) := by
  constructor
  · intro e he; unfold SongIndex.indexSong; rw [he]
  · intro h hh
    refine ⟨idx.register name path h, by unfold SongIndex.indexSong; rw [hh], ?_, fun _ => rfl⟩
    intro n
    unfold SongIndex.register
    cases hp : name path with
    | none => simp
    | some m => simp [Media.insert, eq_comm]

/-! ### All histories -/

theorem songsAfter_concat (H : Hasher D) (name : P → Option String) (calls : List (SongCall P E)) (c : SongCall P E) :
    songsAfter H name (calls ++ [c]) = (c.run H name (songsAfter H name calls)).1 := by
  simp [songsAfter, List.foldl_append]

/-- Every call leaves the index unchanged or registers its path. -/
theorem run_cases (H : Hasher D) (name : P → Option String) (idx : SongIndex P D) (c : SongCall P E) :
    (c.run H name idx).1 = idx ∨ ∃ h, c.hash H = .ok h ∧ (c.run H name idx).1 = idx.register name c.path h ∧
      (c.run H name idx).2 = .ok c.path := by
  cases c with
  | index p fs =>
    cases hh : hashFile H fs p with
    | error e => left; simp [SongCall.run, SongIndex.indexSong, hh]
    | ok h => right; exact ⟨h, hh, by simp [SongCall.run, SongIndex.indexSong, hh, SongCall.path],
        by simp [SongCall.run, SongIndex.indexSong, hh, SongCall.path]⟩
  | identify p fs =>
    cases hb : (name p).bind idx.byName with
    | some id => left; simp only [SongCall.run, SongIndex.identify, hb]
    | none =>
      cases hh : hashFile H fs p with
      | error e => left; simp only [SongCall.run, SongIndex.identify, hb, hh]
      | ok h =>
        cases hi : idx.byHash h with
        | some id => left; simp only [SongCall.run, SongIndex.identify, hb, hh, hi]
        | none =>
          right
          exact ⟨h, hh, by simp only [SongCall.run, SongIndex.identify, hb, hh, hi, SongCall.path],
            by simp only [SongCall.run, SongIndex.identify, hb, hh, hi, SongCall.path]⟩

theorem register_byName (name : P → Option String) (idx : SongIndex P D) (p : P) (h : D) (n : String) :
    (idx.register name p h).byName n = if name p = some n then some p else idx.byName n := by
  unfold SongIndex.register
  cases hp : name p with
  | none => simp
  | some m => simp [Media.insert, eq_comm]

/-- C59, all histories: every entry of the index comes from an earlier successful call on that very path: an entry under a name
has this file name, an entry under a hash had this hash when it was registered. -/
theorem song_index_provenance (H : Hasher D) (name : P → Option String) (calls : List (SongCall P E)) :
    (∀ n id, (songsAfter H name calls).byName n = some id → name id = some n ∧
      ∃ before c after, calls = before ++ c :: after ∧ c.path = id ∧ songResult H name before c = .ok id) ∧
    (∀ h id, (songsAfter H name calls).byHash h = some id →
      ∃ before c after, calls = before ++ c :: after ∧ c.path = id ∧ c.hash H = .ok h ∧
        songResult H name before c = .ok id) := by
  induction calls using List.reverseRecOn with
  | nil => constructor <;> (intro _ _ h; simp [songsAfter, SongIndex.new] at h)
  | append_singleton calls c ih =>
    have ext : ∀ (Q : SongCall P E → List (SongCall P E) → Prop),
        (∃ before d after, calls = before ++ d :: after ∧ Q d before) →
        ∃ before d after, calls ++ [c] = before ++ d :: after ∧ Q d before := by
      rintro Q ⟨b, d, a, rfl, hq⟩
      exact ⟨b, d, a ++ [c], by simp, hq⟩
    rw [songsAfter_concat]
    rcases run_cases H name (songsAfter H name calls) c with h | ⟨hh, hch, hreg, hres⟩
    · rw [h]
      refine ⟨fun n id hn => ?_, fun k id hn => ?_⟩
      · obtain ⟨h1, h2⟩ := ih.1 n id hn
        exact ⟨h1, ext (fun d b => d.path = id ∧ songResult H name b d = .ok id) h2⟩
      · exact ext (fun d b => d.path = id ∧ d.hash H = .ok k ∧ songResult H name b d = .ok id) (ih.2 k id hn)
    · rw [hreg]
      refine ⟨fun n id hn => ?_, fun k id hn => ?_⟩
      · rw [register_byName] at hn
        split at hn
        · rename_i hnm
          injection hn with hn; subst hn
          exact ⟨hnm, calls, c, [], rfl, rfl, hres⟩
        · obtain ⟨h1, h2⟩ := ih.1 n id hn
          exact ⟨h1, ext (fun d b => d.path = id ∧ songResult H name b d = .ok id) h2⟩
      · have hn' : (if k = hh then some c.path else (songsAfter H name calls).byHash k) = some id := hn
        split at hn'
        · rename_i hk
          injection hn' with hn'; subst hn'
          exact ⟨calls, c, [], rfl, rfl, by rw [hk]; exact hch, hres⟩
        · exact ext (fun d b => d.path = id ∧ d.hash H = .ok k ∧ songResult H name b d = .ok id) (ih.2 k id hn')

/-- C59, all histories: known names and hashes are never forgotten, and a call answered by an error changes nothing. -/
theorem song_index_monotone (H : Hasher D) (name : P → Option String) (idx : SongIndex P D) (c : SongCall P E) :
    (∀ n, idx.byName n ≠ none → (c.run H name idx).1.byName n ≠ none) ∧
    (∀ h, idx.byHash h ≠ none → (c.run H name idx).1.byHash h ≠ none) ∧
    (∀ e, (c.run H name idx).2 = .error e → (c.run H name idx).1 = idx ∧ c.hash H = .error e) := by
  refine ⟨?_, ?_, ?_⟩
  · intro n hn
    rcases run_cases H name idx c with h | ⟨hh, -, hreg, -⟩
    · rw [h]; exact hn
    · rw [hreg, register_byName]; split
      · simp
      · exact hn
  · intro k hk
    rcases run_cases H name idx c with h | ⟨hh, -, hreg, -⟩
    · rw [h]; exact hk
    · rw [hreg]
      show (if k = hh then some c.path else idx.byHash k) ≠ none
      split
      · simp
      · exact hk
  · intro e he
    have herr : c.hash H = .error e := by
      cases c with
      | index p fs =>
        cases hh : hashFile H fs p with
        | error e' => simp only [SongCall.run, SongIndex.indexSong, hh] at he; simpa [SongCall.hash, hh] using he
        | ok h => simp [SongCall.run, SongIndex.indexSong, hh] at he
      | identify p fs =>
        cases hb : (name p).bind idx.byName with
        | some id => simp only [SongCall.run, SongIndex.identify, hb] at he; cases he
        | none =>
          cases hh : hashFile H fs p with
          | error e' => simp only [SongCall.run, SongIndex.identify, hb, hh] at he; simpa [SongCall.hash, hh] using he
          | ok h =>
            cases hi : idx.byHash h with
            | some id => simp only [SongCall.run, SongIndex.identify, hb, hh, hi] at he; cases he
            | none => simp only [SongCall.run, SongIndex.identify, hb, hh, hi] at he; cases he
    refine ⟨?_, herr⟩
    rcases run_cases H name idx c with h | ⟨hh, hch, -, -⟩
    · exact h
    · rw [herr] at hch; cases hch

/-- The last call that registered something: once a song is identified by a call that registers it (under its own path), any
later `identify` of a file with that name, with only `identify` calls in between, gives the same answer without the disk. -/
theorem identify_sticky (H : Hasher D) (name : P → Option String) (idx : SongIndex P D) (n : String) (id : P)
    (hk : idx.byName n = some id) (calls : List (P × Fs P E)) (q : P) (hq : name q = some n) (fs : Fs P E) :
    ((calls.foldl (fun i c => (i.identify H name c.2 c.1).1) idx).identify H name fs q).2 = .ok id := by
  have key : (calls.foldl (fun i c => (i.identify H name c.2 c.1).1) idx).byName n = some id := by
    induction calls generalizing idx with
    | nil => exact hk
    | cons c cs ih =>
      rw [List.foldl_cons]
      apply ih
      by_cases hkn : ∃ m i, name c.1 = some m ∧ idx.byName m = some i
      · obtain ⟨m, i, h1, h2⟩ := hkn
        rw [identify_known_name H name idx c.1 i m h1 h2]; exact hk
      · have hkn' : ∀ m, name c.1 = some m → idx.byName m = none := by
          intro m hm
          cases hc : idx.byName m with
          | none => rfl
          | some i => exact absurd ⟨m, i, hm, hc⟩ hkn
        obtain ⟨h1, h2⟩ := identify_unknown_name H name idx c.1 hkn' c.2
        cases hh : hashFile H c.2 c.1 with
        | error e => rw [h1 e hh]; exact hk
        | ok h =>
          cases hi : idx.byHash h with
          | some i => rw [(h2 h hh).1 i hi]; exact hk
          | none =>
            obtain ⟨idx', e, hn, -⟩ := (h2 h hh).2 hi
            rw [e]
            show idx'.byName n = _
            rw [hn, if_neg]
            · exact hk
            · intro hcn; rw [hkn' n hcn] at hk; cases hk
  rw [identify_known_name H name _ q id n hq key]

/-! ### A fixed disk -/

theorem identifyAll_inv (H : Hasher D) (name : P → Option String) (fs : Fs P E) (digest : P → D)
    (hd : FixedDisk H name fs digest) (ps : List P) :
    (∀ h id, (identifyAll H name fs ps).byHash h = some id → digest id = h) ∧
    (∀ n id, (identifyAll H name fs ps).byName n = some id → name id = some n ∧
      (identifyAll H name fs ps).byHash (digest id) = some id) := by
  induction ps using List.reverseRecOn with
  | nil => constructor <;> (intro _ _ h; simp [identifyAll, SongIndex.new] at h)
  | append_singleton ps p ih =>
    have e : identifyAll H name fs (ps ++ [p]) = ((identifyAll H name fs ps).identify H name fs p).1 := by
      simp [identifyAll, List.foldl_append]
    rw [e]
    generalize identifyAll H name fs ps = idx at ih
    by_cases hkn : ∃ m i, name p = some m ∧ idx.byName m = some i
    · obtain ⟨m, i, h1, h2⟩ := hkn
      rw [identify_known_name H name idx p i m h1 h2]; exact ih
    · have hkn' : ∀ m, name p = some m → idx.byName m = none := by
        intro m hm
        cases hc : idx.byName m with
        | none => rfl
        | some i => exact absurd ⟨m, i, hm, hc⟩ hkn
      obtain ⟨-, h2⟩ := identify_unknown_name H name idx p hkn' fs
      cases hi : idx.byHash (digest p) with
      | some i => rw [(h2 _ (hd.readable p)).1 i hi]; exact ih
      | none =>
        obtain ⟨idx', e, hn, hh⟩ := (h2 _ (hd.readable p)).2 hi
        rw [e]
        constructor
        · intro h id hid
          simp only [hh] at hid
          split at hid
          · rename_i hq; injection hid with hid; rw [hq, ← hid]
          · exact ih.1 h id hid
        · intro n id hid
          simp only [hn] at hid
          simp only [hh]
          split at hid
          · rename_i hq
            injection hid with hid; subst hid
            exact ⟨hq, if_pos rfl⟩
          · obtain ⟨h3, h4⟩ := ih.2 n id hid
            refine ⟨h3, ?_⟩
            rw [if_neg]
            · exact h4
            · intro hc; rw [hc, hi] at h4; cases h4

/-- C59 on a fixed disk where equal names mean equal contents: after any sequence of `identify` calls, `identify` always
succeeds, and two files get the same id, at whatever two moments, exactly when their hashes are equal; the id is the path of a
file with that hash. -/
theorem identify_classifies_partial (H : Hasher D) (name : P → Option String) (fs : Fs P E) (digest : P → D)
    (hd : FixedDisk H name fs digest) :
    (∀ ps p, ∃ id, ((identifyAll H name fs ps).identify H name fs p).2 = .ok id ∧ digest id = digest p) ∧
    (∀ ps qs p q, (∃ id, ((identifyAll H name fs ps).identify H name fs p).2 = .ok id ∧
        ((identifyAll H name fs (ps ++ [p] ++ qs)).identify H name fs q).2 = .ok id) ↔ digest p = digest q) := by
  -- the answer is always the entry of the hash afterwards
  have ans : ∀ ps p, ∃ id, ((identifyAll H name fs ps).identify H name fs p).2 = .ok id ∧ digest id = digest p ∧
      (identifyAll H name fs (ps ++ [p])).byHash (digest p) = some id := by
    intro ps p
    obtain ⟨i1, i2⟩ := identifyAll_inv H name fs digest hd ps
    have e : identifyAll H name fs (ps ++ [p]) = ((identifyAll H name fs ps).identify H name fs p).1 := by
      simp [identifyAll, List.foldl_append]
    rw [e]
    generalize identifyAll H name fs ps = idx at i1 i2
    by_cases hkn : ∃ m i, name p = some m ∧ idx.byName m = some i
    · obtain ⟨m, i, h1, h2⟩ := hkn
      rw [identify_known_name H name idx p i m h1 h2]
      obtain ⟨h3, h4⟩ := i2 m i h2
      have := hd.names i p m h3 h1
      exact ⟨i, rfl, this, by rw [← this]; exact h4⟩
    · have hkn' : ∀ m, name p = some m → idx.byName m = none := by
        intro m hm
        cases hc : idx.byName m with
        | none => rfl
        | some i => exact absurd ⟨m, i, hm, hc⟩ hkn
      obtain ⟨-, h2⟩ := identify_unknown_name H name idx p hkn' fs
      cases hi : idx.byHash (digest p) with
      | some i => rw [(h2 _ (hd.readable p)).1 i hi]; exact ⟨i, rfl, i1 _ _ hi, hi⟩
      | none =>
        obtain ⟨idx', e, hn, hh⟩ := (h2 _ (hd.readable p)).2 hi
        rw [e]
        exact ⟨p, rfl, rfl, by simp [hh]⟩
  -- hash entries never change
  have keep : ∀ qs ps h id, (identifyAll H name fs ps).byHash h = some id → (identifyAll H name fs (ps ++ qs)).byHash h = some id := by
    intro qs
    induction qs using List.reverseRecOn with
    | nil => intro ps h id hi; simpa using hi
    | append_singleton qs q ih =>
      intro ps h id hi
      have hi' := ih ps h id hi
      have e : identifyAll H name fs (ps ++ (qs ++ [q])) = ((identifyAll H name fs (ps ++ qs)).identify H name fs q).1 := by
        simp [identifyAll, List.foldl_append]
      rw [e]
      generalize identifyAll H name fs (ps ++ qs) = idx at hi'
      by_cases hkn : ∃ m i, name q = some m ∧ idx.byName m = some i
      · obtain ⟨m, i, h1, h2⟩ := hkn
        rw [identify_known_name H name idx q i m h1 h2]; exact hi'
      · have hkn' : ∀ m, name q = some m → idx.byName m = none := by
          intro m hm
          cases hc : idx.byName m with
          | none => rfl
          | some i => exact absurd ⟨m, i, hm, hc⟩ hkn
        obtain ⟨-, h2⟩ := identify_unknown_name H name idx q hkn' fs
        cases hj : idx.byHash (digest q) with
        | some i => rw [(h2 _ (hd.readable q)).1 i hj]; exact hi'
        | none =>
          obtain ⟨idx', e, hn, hh⟩ := (h2 _ (hd.readable q)).2 hj
          rw [e]
          simp only [hh]
          rw [if_neg]
          · exact hi'
          · intro hc; rw [hc, hj] at hi'; cases hi'
  refine ⟨fun ps p => ?_, fun ps qs p q => ⟨?_, ?_⟩⟩
  · obtain ⟨id, h1, h2, -⟩ := ans ps p
    exact ⟨id, h1, h2⟩
  · rintro ⟨id, h1, h2⟩
    obtain ⟨i1, a1, a2, -⟩ := ans ps p
    obtain ⟨i2, b1, b2, -⟩ := ans (ps ++ [p] ++ qs) q
    rw [h1] at a1; rw [h2] at b1
    injection a1 with a1; injection b1 with b1
    rw [← a2, ← b2, ← a1, ← b1]
  · intro hpq
    obtain ⟨i1, a1, a2, a3⟩ := ans ps p
    obtain ⟨i2, b1, b2, b3⟩ := ans (ps ++ [p] ++ qs) q
    have := keep (qs ++ [q]) (ps ++ [p]) _ _ a3
    rw [show ps ++ [p] ++ (qs ++ [q]) = ps ++ [p] ++ qs ++ [q] by simp, hpq, b3] at this
    injection this with this
    exact ⟨i1, a1, by rw [b1, this]⟩

end

/-! ### Negations -/

/-- A hasher for the examples: the bytes themselves. -/
def idHasher : Hasher (List UInt8) := ⟨List UInt8, [], fun s b => s ++ b, id⟩

/-- C59 (finding): two files with the same name in different directories and with different contents get the same id, and this
holds whatever the hash function. -/
theorem same_name_shares_id : ∃ (name : ℕ → Option String) (fs : Fs ℕ Unit) (p q : ℕ),
    hashFile idHasher fs p ≠ hashFile idHasher fs q ∧
    songResult idHasher name [] (.identify p fs) = .ok p ∧
    songResult idHasher name [.identify p fs] (.identify q fs) = .ok p := by
  refine ⟨fun _ => some "song.mp3", fun p => .ok [.bytes [if p = 0 then 1 else 2]], 0, 1, ?_, rfl, rfl⟩
  intro h
  simp [hashFile, hashLoop, idHasher] at h

/-- C59 (finding): indexing two files with equal content gives two ids, and a third copy is then identified as the second one
while the first name still gives the first id. -/
theorem duplicates_get_two_ids : ∃ (name : ℕ → Option String) (fs : Fs ℕ Unit),
    (∀ p q, hashFile idHasher fs p = hashFile idHasher fs q) ∧
    songResult idHasher name [] (.index 0 fs) = .ok 0 ∧
    songResult idHasher name [.index 0 fs] (.index 1 fs) = .ok 1 ∧
    songResult idHasher name [.index 0 fs, .index 1 fs] (.identify 2 fs) = .ok 1 ∧
    songResult idHasher name [.index 0 fs, .index 1 fs] (.identify 0 fs) = .ok 0 := by
  refine ⟨fun p => some (if p = 0 then "a" else if p = 1 then "b" else "c"), fun _ => .ok [.bytes [1]], fun _ _ => rfl,
    ?_, ?_, ?_, ?_⟩ <;> decide

/-- C59: the hypotheses of the theorem on a fixed disk are met by a disk with two different songs and a copy. -/
example : FixedDisk (E := Unit) idHasher (fun p : ℕ => some (if p = 0 then "a" else if p = 1 then "b" else "c"))
    (fun p => .ok [.bytes [if p = 0 then 1 else 2]]) (fun p => [if p = 0 then 1 else 2]) where
  readable := fun p => by simp [hashFile, hashLoop, idHasher]
  names := by
    intro p q n hp hq
    have := hp.trans hq.symm
    clear hp hq
    by_cases h1 : p = 0 <;> by_cases h2 : q = 0 <;> by_cases h3 : p = 1 <;> by_cases h4 : q = 1 <;> simp_all

end Kofft.Props
