import Verif.Model.RF
/-!
# `switss/model/reachability_form.py`: what a reachability form tells about its end components

Negative arguments of `in_proper_ec` (python indices from the end) are not modelled.
-/

namespace Verif.Model.RF

variable {K : Type} [Field K] [LinearOrder K]

/-- reachability_form.py:166-171, 57 `nr_of_mecs` -/
def nrOfMecs (rf : RF K) : Int := (rf.nmec : Int) - 2

/-- reachability_form.py:173-178 `nr_of_proper_mecs` -/
def nrOfProperMecs (rf : RF K) : Int := (((List.range rf.nmec).filter rf.proper).length : Int) - 2

/-- reachability_form.py:187-192, 56 `state_to_mec` -/
def stateToMec (rf : RF K) : List Nat := (List.range (rf.sys.N - 2)).map rf.mec

/-- reachability_form.py:194-198 `in_proper_ec` as a call: the vector read first has length `N-2` -/
def inProperEcCall (rf : RF K) (s : Nat) : Except Err Bool :=
  match rf.stateToMec[s]? with
  | none => .error .indexError
  | some c => .ok (rf.proper c)

end Verif.Model.RF
