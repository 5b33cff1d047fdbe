import Verif.Model.Float
/-! # What is assumed of the arithmetic -/

namespace Verif.Spec
open Verif.Model

variable {K : Type} [Field K] [LinearOrder K]

/-- the standard model of rounding: relative error `u` and absolute error `ν` (for results near zero) -/
structure Rounds (ar : Arith K) (u ν : K) : Prop where
  hu : 0 ≤ u
  hν : 0 ≤ ν
  close : ∀ x, |ar.fl x - x| ≤ u * |x| + ν

/-- `ord` lists for every row columns without repetition, among them all with an entry that is not zero -/
structure Visits (m : Mat K) (ord : Nat → List Nat) : Prop where
  nodup : ∀ i < m.rows, (ord i).Nodup
  lt : ∀ i < m.rows, ∀ j ∈ ord i, j < m.cols
  all : ∀ i < m.rows, ∀ j < m.cols, m.at_ i j ≠ 0 → j ∈ ord i

end Verif.Spec
