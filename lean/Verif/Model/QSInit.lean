import Verif.Model.Problem
/-! # Constructors of the initializers of `QSHeur` (qsheurparams.py) -/
namespace Verif.Model

variable {K : Type} [Field K] [LinearOrder K]

/-- qsheurparams.py:202-213 `InverseReachabilityInitializer.__init__`: the vector `Pr`; `x` is the answer of the
solver to `max_z_state` -/
def reachVector (rf : RF K) (mode : Mode) (x : Nat → K) : List K :=
  match mode with
  | .min => (List.range rf.N).map x
  | .max => (List.range rf.C).map (rf.maxZStateAction x)

/-- qsheurparams.py:229-241 `InverseFrequencyInitializer.__init__`: the vector `E`; `y` is the answer of the
solver to `max_y_state_action` -/
def freqVector (rf : RF K) (mode : Mode) (y : Nat → K) : List K :=
  match mode with
  | .min => (List.range rf.N).map (rf.maxYState y)
  | .max => (List.range rf.C).map y

/-- qsheurparams.py:256-270 `InverseCombinedInitializer.__init__`: the vector `V`, the entrywise product -/
def combinedVector (rf : RF K) (mode : Mode) (x y : Nat → K) : List K :=
  List.zipWith (· * ·) (freqVector rf mode y) (reachVector rf mode x)

end Verif.Model
