import Verif.Model.Reward
import Verif.Model.Cert
/-!
# `switss/certification/certificates.py` applied to a reward form

The functions take any object with the methods they call.  A `RewardReachabilityForm` has `fark_z_constraints`,
`fark_y_constraints` and `in_proper_ec` (which returns `False`, reward_reachability_form.py:41-42), but no attribute
`index_by_state_action`.
-/

namespace Verif.Model.RRF

variable {K : Type} [Field K] [LinearOrder K]

/-- certificates.py:51-68 `__get_right_constraint_set` -/
def constraintSet (x : RRF K) (mode : Mode) (sense : Sense) (t : K) : Except Err (Mat K × List K) :=
  match mode, sense.isLe with
  | .min, true => x.farkY t
  | .max, false => x.farkY t
  | .min, false => x.farkZ t
  | .max, true => x.farkZ t

/-- certificates.py:100-111 (and 153-165): the loop over the columns in mode "min"; `in_proper_ec` is `False`, and in
the y-case the missing attribute is read first -/
def ecLoop (mode : Mode) (sense : Sense) (cols : Nat) : Except Err Unit :=
  if mode = .min ∧ sense.isLe = true ∧ 0 < cols then .error .attributeError else .ok ()

/-- certificates.py:70-124 `check_farkas_certificate` -/
def check (x : RRF K) (mode : Mode) (sense : Sense) (t : K) (v : List K) (tol : K) : Except Err Bool :=
  if 0 ≤ t ∧ t ≤ 1 then do
    let (m, rhs) ← x.constraintSet mode sense t
    if v.length = m.cols then do
      ecLoop mode sense m.cols
      let res := m.dot v
      let n := m.rows
      match sense with
      | .le => .ok (decide (∀ i < n, rhs.getD i 0 ≤ res.getD i 0 + tol))
      | .lt => .ok (decide ((∀ i < n, rhs.getD i 0 ≤ res.getD i 0 + tol) ∧
          rhs.getD (n - 1) 0 < res.getD (n - 1) 0 + tol))
      | .ge => .ok (decide (∀ i < n, res.getD i 0 - tol ≤ rhs.getD i 0))
      | .gt => .ok (decide ((∀ i < n, res.getD i 0 - tol ≤ rhs.getD i 0) ∧
          res.getD (n - 1) 0 - tol < rhs.getD (n - 1) 0))
    else .error .assertion
  else .error .assertion

/-- the LP solved by certificates.py:126-170 -/
def generateLP (x : RRF K) (mode : Mode) (sense : Sense) (t : K) : Except Err (Milp K) :=
  if 0 ≤ t ∧ t ≤ 1 then do
    let m ← x.constraintSet mode sense t
    ecLoop mode sense m.1.cols
    interiorLP (generateMatrix sense m).1 (generateMatrix sense m).2 true []
  else .error .assertion

/-- certificates.py:126-170 `generate_farkas_certificate`; `solver` is the LP solver -/
def generate (solver : Milp K → Except Err (List K)) (x : RRF K) (mode : Mode) (sense : Sense) (t tol : K) :
    Except Err (Option (List K)) := do
  let lp ← x.generateLP mode sense t
  let ans ← solver lp
  let v := ans.dropLast
  match ← x.check mode sense t v tol with
  | true => .ok (some v)
  | false => .ok none

end Verif.Model.RRF
