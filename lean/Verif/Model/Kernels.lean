import Verif.Model.Num
/-
Fixed-size kernels: `src/fft_kernels.rs`, and `butterfly4` of `src/fft.rs`.
The in-place temporaries of the source (`input[..]` used as scratch) become `let`s;
the final stores are the returned list. A slice longer than the kernel size keeps its tail
(the `debug_assert_eq!` on the length panics in debug builds only).
-/
namespace Kofft

variable {T : Type} [Flt T]

/-- `(0, -1)`, i.e. `Complex::new(T::zero(), -T::one())` (`src/fft_kernels.rs:23,34,109`). -/
def cxMinusI : Cx T := ⟨Flt.zero, -. Flt.one⟩

/-- `src/fft_kernels.rs:3-10` `fft2`. -/
def fft2 (debug : Bool) : List (Cx T) → Outcome (List (Cx T))
  | a :: b :: rest =>
    if debug && !rest.isEmpty then .panic else
    .ok (a.add b :: a.sub b :: rest)
  | _ => .panic

/-- `src/fft_kernels.rs:12-29` `fft4`. -/
def fft4 (debug : Bool) : List (Cx T) → Outcome (List (Cx T))
  | a0 :: a1 :: a2 :: a3 :: rest =>
    if debug && !rest.isEmpty then .panic else
    let even0 := a0.add a2
    let even1 := a0.sub a2
    let odd0 := a1.add a3
    let odd1 := a1.sub a3
    let t1 := odd1.mul cxMinusI
    .ok (even0.add odd0 :: even1.add t1 :: even0.sub odd0 :: even1.sub t1 :: rest)
  | _ => .panic

/-- `src/fft_kernels.rs:31-86` `fft8`. -/
def fft8 (debug : Bool) : List (Cx T) → Outcome (List (Cx T))
  | x0 :: x1 :: x2 :: x3 :: x4 :: x5 :: x6 :: x7 :: rest =>
    if debug && !rest.isEmpty then .panic else
    let w1 : Cx T := cxMinusI
    let s : T := Flt.sqrtHalf
    -- FFT4 on even indices
    let a0 := x0.add x4
    let a1 := x0.sub x4
    let a2 := x2.add x6
    let a3 := x2.sub x6
    let t := a3.mul w1
    let e0 := a0.add a2
    let e2 := a0.sub a2
    let e1 := a1.add t
    let e3 := a1.sub t
    -- FFT4 on odd indices
    let b0 := x1.add x5
    let b1 := x1.sub x5
    let b2 := x3.add x7
    let b3 := x3.sub x7
    let t := b3.mul w1
    let o0 := b0.add b2
    let i6 := b0.sub b2
    let i5 := b1.add t
    let i7 := b1.sub t
    -- twiddles
    let t1 := i5.mul ⟨s, -. s⟩
    let t2 := i6.mul w1
    let t3 := i7.mul ⟨-. s, -. s⟩
    .ok (e0.add o0 :: e1.add t1 :: e2.add t2 :: e3.add t3 ::
         e0.sub o0 :: e1.sub t1 :: e2.sub t2 :: e3.sub t3 :: rest)
  | _ => .panic

/-- The shared "even half" / "odd half" block of `fft16` (`src/fft_kernels.rs:112-144` on
`x0,x2,..,x14` and `src/fft_kernels.rs:146-178` on `x1,x3,..,x15`; the two blocks of source are
the same code with renamed variables, so they are one definition here). -/
def fft16Half (x0 x1 x2 x3 x4 x5 x6 x7 : Cx T) :
    Cx T × Cx T × Cx T × Cx T × Cx T × Cx T × Cx T × Cx T :=
  let w1 : Cx T := cxMinusI
  let s : T := Flt.sqrtHalf
  let a0 := x0.add x4
  let a1 := x0.sub x4
  let a2 := x2.add x6
  let a3 := x2.sub x6
  let t := a3.mul w1
  let ea0 := a0.add a2
  let ea2 := a0.sub a2
  let ea1 := a1.add t
  let ea3 := a1.sub t
  let b0 := x1.add x5
  let b1 := x1.sub x5
  let b2 := x3.add x7
  let b3 := x3.sub x7
  let t := b3.mul w1
  let eb0 := b0.add b2
  let eb2 := b0.sub b2
  let eb1 := b1.add t
  let eb3 := b1.sub t
  let t0 := eb0
  let t1 := eb1.mul ⟨s, -. s⟩
  let t2 := eb2.mul w1
  let t3 := eb3.mul ⟨-. s, -. s⟩
  (ea0.add t0, ea1.add t1, ea2.add t2, ea3.add t3,
   ea0.sub t0, ea1.sub t1, ea2.sub t2, ea3.sub t3)

/-- `src/fft_kernels.rs:88-224` `fft16`. `T::from_f32(-1.0)` is written `-. one`. -/
def fft16 (debug : Bool) : List (Cx T) → Outcome (List (Cx T))
  | x0 :: x1 :: x2 :: x3 :: x4 :: x5 :: x6 :: x7 ::
    x8 :: x9 :: x10 :: x11 :: x12 :: x13 :: x14 :: x15 :: rest =>
    if debug && !rest.isEmpty then .panic else
    let (e0, e1, e2, e3, e4, e5, e6, e7) := fft16Half x0 x2 x4 x6 x8 x10 x12 x14
    let (i8, i9, i10, i11, i12, i13, i14, i15) := fft16Half x1 x3 x5 x7 x9 x11 x13 x15
    let c1 : T := Flt.cosPi8
    let s1 : T := -. Flt.sinPi8
    let c2 : T := Flt.sqrtHalf
    let s2 : T := -. Flt.sqrtHalf
    let c3 : T := Flt.sinPi8
    let s3 : T := -. Flt.cosPi8
    let c4 : T := Flt.zero
    let s4 : T := -. Flt.one
    let o0 := i8
    let o1 := i9.mul ⟨c1, s1⟩
    let o2 := i10.mul ⟨c2, s2⟩
    let o3 := i11.mul ⟨c3, s3⟩
    let o4 := i12.mul ⟨c4, s4⟩
    let o5 := i13.mul ⟨-. c3, s3⟩
    let o6 := i14.mul ⟨-. c2, s2⟩
    let o7 := i15.mul ⟨-. c1, s1⟩
    .ok (e0.add o0 :: e1.add o1 :: e2.add o2 :: e3.add o3 ::
         e4.add o4 :: e5.add o5 :: e6.add o6 :: e7.add o7 ::
         e0.sub o0 :: e1.sub o1 :: e2.sub o2 :: e3.sub o3 ::
         e4.sub o4 :: e5.sub o5 :: e6.sub o6 :: e7.sub o7 :: rest)
  | _ => .panic

/-- `src/fft.rs:1595-1607` `butterfly4`. -/
def butterfly4 (a b c d : Cx T) : Cx T × Cx T × Cx T × Cx T :=
  let t0 := a.add c
  let t1 := a.sub c
  let t2 := b.add d
  let t3 := (b.sub d).mul cxMinusI
  (t0.add t2, t1.add t3, t0.sub t2, t1.sub t3)

end Kofft
