import Verif.Model.System
/-! # `switss/utils/casting.py` -/
namespace Verif.Model
variable {K : Type} [Field K] [LinearOrder K]

/-- what may be passed as a matrix: a sparse matrix, a list of lists (2-d array) or a list (1-d array).  Arrays of other
dimensions are not modelled. -/
inductive MatArg (K : Type)
  | sparse (m : Dok K)
  | dense (a : List (List K))
  | vec (v : List K)

/-- casting.py:4-18 `cast_dok_matrix`; a ragged list of lists is rejected (numpy: `ValueError`); `np.array([])` is
one-dimensional, so an empty list of lists is an empty vector -/
def castDok : MatArg K → Except Err (Dok K)
  | .sparse m => .ok m
  | .dense a => if ∀ r ∈ a, ∀ r' ∈ a, r.length = r'.length then
      (if a = [] then .ok ⟨0, 1, []⟩ else .ok (Dok.ofDense a)) else .error .valueError
  | .vec v => if v = [] then .ok ⟨0, 1, []⟩ else .ok (Dok.ofDense (v.map fun x => [x]))

end Verif.Model
