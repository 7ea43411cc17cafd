import Verif.Model.Trig
/-
`src/wavelet.rs`. The source is written for `f32`; here for any element type.
-/
namespace Kofft
variable {T : Type} [Flt T]

/-! ### Haar -/

/-- One iteration of the analysis loop (`src/wavelet.rs:17-18`, `132-133`). -/
def haarStep (input : List T) (i : Nat) (s : List T × List T) : Outcome (List T × List T) := do
  let a ← rd input (2 * i)
  let b ← rd input (2 * i + 1)
  let avg ← wr s.1 i ((a +. b) /. two)
  let diff ← wr s.2 i ((a -. b) /. two)
  pure (avg, diff)

/-- `src/wavelet.rs:12-21` `haar_forward`. -/
def haarForward (input : List T) : Outcome (List T × List T) :=
  let n := input.length / 2
  forRange 0 n (List.replicate n Flt.zero, List.replicate n Flt.zero) (haarStep input)

/-- One iteration of the synthesis loop (`src/wavelet.rs:28-29`, `146-147`). -/
def haarInvStep (avg diff : List T) (i : Nat) (o : List T) : Outcome (List T) := do
  let a ← rd avg i
  let d ← rd diff i
  let o ← wr o (2 * i) (a +. d)
  wr o (2 * i + 1) (a -. d)

/-- `src/wavelet.rs:24-32` `haar_inverse`. -/
def haarInverse (avg diff : List T) : Outcome (List T) :=
  forRange 0 avg.length (List.replicate (avg.length * 2) Flt.zero) (haarInvStep avg diff)

/-- `src/wavelet.rs:121-135` `haar_forward_inplace_stack`: the assertion panics on wrong output lengths. -/
def haarForwardStack (input avg diff : List T) : Outcome (List T × List T) :=
  let n := input.length / 2
  if avg.length = n ∧ diff.length = n then forRange 0 n (avg, diff) (haarStep input) else .panic

/-- `src/wavelet.rs:139-149` `haar_inverse_inplace_stack` (its `N` is unused). -/
def haarInverseStack (avg diff out : List T) : Outcome (List T) :=
  let n := avg.length
  if diff.length = n ∧ out.length = 2 * n then forRange 0 n out (haarInvStep avg diff) else .panic

/-! ### Batches and several levels -/

/-- `for input in inputs { let (a, d) = f(input); avgs.push(a); diffs.push(d) }` (`src/wavelet.rs:35-44`, `86-102`,
`244-253`). -/
def pairBatch {α β γ : Type} (f : α → Outcome (β × γ)) : List α → Outcome (List β × List γ)
  | [] => .ok ([], [])
  | x :: xs => do
    let (a, d) ← f x
    let (as, ds) ← pairBatch f xs
    pure (a :: as, d :: ds)

/-- `avgs.iter().zip(diffs.iter()).map(|(a, d)| f(a, d)).collect()` (`src/wavelet.rs:46-51`, `105-117`, `255-260`). -/
def zipBatch {α β γ : Type} (f : α → β → Outcome γ) : List α → List β → Outcome (List γ)
  | a :: as, d :: ds => do
    let y ← f a d
    let ys ← zipBatch f as ds
    pure (y :: ys)
  | _, _ => .ok []

/-- `src/wavelet.rs:61-65`: an odd length is made even by repeating the last sample. -/
def padEven (x : List T) : List T :=
  if x.length % 2 ≠ 0 then
    match x.getLast? with
    | some last => x ++ [last]
    | none => x
  else x

/-- The loop `src/wavelet.rs:58-70`; the details are returned in the order they are pushed. -/
def multiForward (forward : List T → Outcome (List T × List T)) : Nat → List T → Outcome (List T × List (List T))
  | 0, x => .ok (x, [])
  | levels + 1, x => do
    let (avg, diff) ← forward (padEven x)
    let (cur, ds) ← multiForward forward levels avg
    pure (cur, diff :: ds)

/-- `src/wavelet.rs:74-83` `multi_level_inverse`: the last detail first. -/
def multiInverse (inverse : List T → List T → Outcome (List T)) (approx : List T) (details : List (List T)) :
    Outcome (List T) :=
  details.reverse.foldlM (fun cur d => inverse cur d) approx

/-! ### Filter banks -/

/-- The loop of the closures `reflect` (`src/wavelet.rs:168-178`, `202-211`, `287-296`, ...). The loop is given fuel;
`reflect_spec` shows it is enough whenever `n ≥ 2`. -/
def reflectLoop (n : Int) : Nat → Int → Outcome Int
  | 0, _ => .hang
  | fuel + 1, idx =>
    if idx < 0 ∨ idx ≥ n then
      if idx < 0 then reflectLoop n fuel (-idx) else reflectLoop n fuel (2 * (n - 1) - idx)
    else .ok idx

/-- `reflect(idx)` for a buffer of `len` elements: the index used. -/
def reflectIdx (len : Nat) (idx : Int) : Outcome Nat := do
  let i ← reflectLoop len (2 * idx.natAbs + 3) idx
  pure i.toNat

/-- `reflect(idx)` in the analysis functions: the sample. -/
def reflectRd (x : List T) (idx : Int) : Outcome T := do
  let i ← reflectIdx x.length idx
  rd x i

/-- The analysis loop of `db4_forward`, `sym4_forward`, `coif1_forward` (`src/wavelet.rs:300-307`, `394-401`,
`484-491`): `approx[i] += h[k] * val; detail[i] += g[k] * val`. -/
def bankForward (h g : List T) (input : List T) : Outcome (List T × List T) :=
  let n := input.length / 2
  forRange 0 n (List.replicate n Flt.zero, List.replicate n Flt.zero) fun i s => do
    let j : Int := 2 * (i : Int)
    forRange 0 h.length s fun k s => do
      let val ← reflectRd input (j + (k : Int))
      let hk ← rd h k
      let gk ← rd g k
      let a ← rd s.1 i
      let d ← rd s.2 i
      let as ← wr s.1 i (a +. (hk *. val))
      let ds ← wr s.2 i (d +. (gk *. val))
      pure (as, ds)

/-- The synthesis loop (`src/wavelet.rs:215-221`, `346-353`, `440-447`, `526-533`):
`output[reflect(2i + k)] += g[k] * approx[i] + h[k] * detail[i]`. -/
def bankInverse (g h : List T) (approx detail : List T) : Outcome (List T) :=
  let n := approx.length
  let len := n * 2
  forRange 0 n (List.replicate len Flt.zero) fun i o => do
    let j := 2 * i
    forRange 0 g.length o fun k o => do
      let idx ← reflectIdx len ((j : Int) + (k : Int))
      let gk ← rd g k
      let hk ← rd h k
      let a ← rd approx i
      let d ← rd detail i
      let v ← rd o idx
      wr o idx (v +. ((gk *. a) +. (hk *. d)))

/-- `src/wavelet.rs:158-165`: the analysis filters of db2; `gk` and `hk` (`src/wavelet.rs:225-242`) are the same two
lists. -/
def db2H : List T := [Flt.lit 4829629131445341 16, Flt.lit 8365163037378079 16, Flt.lit 2241438680420134 16,
  Flt.lit (-1294095225512604) 16]
/-- See `db2H`. -/
def db2G : List T := [Flt.lit (-1294095225512604) 16, Flt.lit (-2241438680420134) 16, Flt.lit 8365163037378079 16,
  Flt.lit (-4829629131445341) 16]

/-- `h0 * reflect(j) + h1 * reflect(j + 1) + h2 * reflect(j + 2) + h3 * reflect(j + 3)` (`src/wavelet.rs:181-184`). -/
def dot4 (c : List T) (x : List T) (j : Int) : Outcome T := do
  let c0 ← rd c 0
  let x0 ← reflectRd x j
  let c1 ← rd c 1
  let x1 ← reflectRd x (j + 1)
  let c2 ← rd c 2
  let x2 ← reflectRd x (j + 2)
  let c3 ← rd c 3
  let x3 ← reflectRd x (j + 3)
  pure ((((c0 *. x0) +. (c1 *. x1)) +. (c2 *. x2)) +. (c3 *. x3))

/-- `src/wavelet.rs:154-187` `db2_forward`. -/
def db2Forward (input : List T) : Outcome (List T × List T) :=
  let n := input.length / 2
  forRange 0 n (List.replicate n Flt.zero, List.replicate n Flt.zero) fun i s => do
    let j : Int := 2 * (i : Int)
    let a ← dot4 db2H input j
    let as ← wr s.1 i a
    let d ← dot4 db2G input j
    let ds ← wr s.2 i d
    pure (as, ds)

/-- `src/wavelet.rs:190-223` `db2_inverse`. -/
def db2Inverse (approx detail : List T) : Outcome (List T) := bankInverse db2H db2G approx detail

/-- `src/wavelet.rs:268-277`. -/
def db4H : List T := [Flt.lit (-10597401785069032) 18, Flt.lit 328830116668852 16, Flt.lit 30841381835560764 18,
  Flt.lit (-18703481171909309) 17, Flt.lit (-27983769416859854) 18, Flt.lit 6308807679298589 16,
  Flt.lit 7148465705529157 16, Flt.lit 2303778133088965 16]
/-- `src/wavelet.rs:278-287`. -/
def db4G : List T := [Flt.lit (-2303778133088965) 16, Flt.lit 7148465705529157 16, Flt.lit (-6308807679298589) 16,
  Flt.lit (-27983769416859854) 18, Flt.lit 18703481171909309 17, Flt.lit 30841381835560764 18,
  Flt.lit (-328830116668852) 16, Flt.lit (-10597401785069032) 18]
/-- `src/wavelet.rs:316-325`. -/
def db4SG : List T := [Flt.lit 2303778133088965 16, Flt.lit 7148465705529157 16, Flt.lit 6308807679298589 16,
  Flt.lit (-27983769416859854) 18, Flt.lit (-18703481171909309) 17, Flt.lit 30841381835560764 18,
  Flt.lit 328830116668852 16, Flt.lit (-10597401785069032) 18]
/-- `src/wavelet.rs:326-335`. -/
def db4SH : List T := [Flt.lit (-10597401785069032) 18, Flt.lit (-328830116668852) 16, Flt.lit 30841381835560764 18,
  Flt.lit 18703481171909309 17, Flt.lit (-27983769416859854) 18, Flt.lit (-6308807679298589) 16,
  Flt.lit 7148465705529157 16, Flt.lit (-2303778133088965) 16]

/-- `src/wavelet.rs:263-309` `db4_forward`. -/
def db4Forward (input : List T) : Outcome (List T × List T) := bankForward db4H db4G input
/-- `src/wavelet.rs:312-355` `db4_inverse`. -/
def db4Inverse (approx detail : List T) : Outcome (List T) := bankInverse db4SG db4SH approx detail

/-- `src/wavelet.rs:362-371`. -/
def sym4H : List T := [Flt.lit (-7576571478927333) 17, Flt.lit (-2963552764599851) 17, Flt.lit 49761866763201545 17,
  Flt.lit 8037387518059161 16, Flt.lit 29785779560527736 17, Flt.lit (-9921954357684722) 17,
  Flt.lit (-12603967262037833) 18, Flt.lit 322231006040427 16]
/-- `src/wavelet.rs:372-381`. -/
def sym4G : List T := [Flt.lit (-322231006040427) 16, Flt.lit (-12603967262037833) 18, Flt.lit 9921954357684722 17,
  Flt.lit 29785779560527736 17, Flt.lit (-8037387518059161) 16, Flt.lit 49761866763201545 17,
  Flt.lit 2963552764599851 17, Flt.lit (-7576571478927333) 17]
/-- `src/wavelet.rs:410-419`. -/
def sym4SG : List T := [Flt.lit 322231006040427 16, Flt.lit (-12603967262037833) 18, Flt.lit (-9921954357684722) 17,
  Flt.lit 29785779560527736 17, Flt.lit 8037387518059161 16, Flt.lit 49761866763201545 17,
  Flt.lit (-2963552764599851) 17, Flt.lit (-7576571478927333) 17]
/-- `src/wavelet.rs:420-429`. -/
def sym4SH : List T := [Flt.lit (-7576571478927333) 17, Flt.lit 2963552764599851 17, Flt.lit 49761866763201545 17,
  Flt.lit (-8037387518059161) 16, Flt.lit 29785779560527736 17, Flt.lit 9921954357684722 17,
  Flt.lit (-12603967262037833) 18, Flt.lit (-322231006040427) 16]

/-- `src/wavelet.rs:358-403` `sym4_forward`. -/
def sym4Forward (input : List T) : Outcome (List T × List T) := bankForward sym4H sym4G input
/-- `src/wavelet.rs:406-449` `sym4_inverse`. -/
def sym4Inverse (approx detail : List T) : Outcome (List T) := bankInverse sym4SG sym4SH approx detail

/-- `src/wavelet.rs:456-463`. -/
def coif1H : List T := [Flt.lit (-15655728135791993) 18, Flt.lit (-7273261951252645) 17, Flt.lit 3848648468648578 16,
  Flt.lit 8525720202116004 16, Flt.lit 3378976624574818 16, Flt.lit (-7273261951252645) 17]
/-- `src/wavelet.rs:464-471`. -/
def coif1G : List T := [Flt.lit 7273261951252645 17, Flt.lit 3378976624574818 16, Flt.lit (-8525720202116004) 16,
  Flt.lit 3848648468648578 16, Flt.lit 7273261951252645 17, Flt.lit (-15655728135791993) 18]
/-- `src/wavelet.rs:500-507`. -/
def coif1SG : List T := [Flt.lit (-7273261951252645) 17, Flt.lit 3378976624574818 16, Flt.lit 8525720202116004 16,
  Flt.lit 3848648468648578 16, Flt.lit (-7273261951252645) 17, Flt.lit (-15655728135791993) 18]
/-- `src/wavelet.rs:508-515`. -/
def coif1SH : List T := [Flt.lit (-15655728135791993) 18, Flt.lit 7273261951252645 17, Flt.lit 3848648468648578 16,
  Flt.lit (-8525720202116004) 16, Flt.lit 3378976624574818 16, Flt.lit 7273261951252645 17]

/-- `src/wavelet.rs:452-493` `coif1_forward`. -/
def coif1Forward (input : List T) : Outcome (List T × List T) := bankForward coif1H coif1G input
/-- `src/wavelet.rs:496-535` `coif1_inverse`. -/
def coif1Inverse (approx detail : List T) : Outcome (List T) := bankInverse coif1SG coif1SH approx detail

end Kofft
