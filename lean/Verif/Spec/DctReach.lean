import Verif.Model.Trig
/-
Specification: the states a program can bring a `DctPlanner` into.
-/
namespace Kofft

/-- The states of a `DctPlanner` in a program: created by `new`, then any plans and any closure calls. -/
inductive DctReach {T : Type} [Flt T] (cfg : Cfg) (simd : Bool) : DctPlanner T → Prop
  | new {st} : DctPlanner.new = .ok st → DctReach cfg simd st
  | plan {st} (n) : DctReach cfg simd st → DctReach cfg simd (st.getCos n).1
  | call {st st' input output cosT v} : DctReach cfg simd st →
      st.dct2WithTable cfg simd input output cosT = .ok (st', v) → DctReach cfg simd st'

end Kofft
