import Verif.Model.RF
/-!
# `switss/model/reachability_form.py`: `ReachabilityForm.reduce`
-/

namespace Verif.Model

variable {K : Type} [Field K] [LinearOrder K]

namespace Reduce

/-- local variables of the loop in reachability_form.py:304-316 -/
structure MapState where
  map : Dict Nat Nat
  next : Nat
  cols : Dict Nat Nat
  rows : Dict (Nat × Nat) (Nat × Nat)

/-- reachability_form.py:308-316, one iteration: number the states in the order of their first row and
record where states and state-action pairs go -/
def mapStep (M : Sys K) (mask : List Bool) (st : MapState) (i : Nat) : Except Err MapState :=
  match invGet? M.idx i with
  | none => .error .keyError
  | some (s, a) =>
    match mask[s]? with
    | none => .error .indexError
    | some false => .ok st
    | some true => do
      let st1 : MapState := if st.map.has s then st else { st with map := st.map.set s st.next, next := st.next + 1 }
      match st1.map.get? s with
      | none => .error .keyError
      | some idx => do
        let rows ← bput st1.rows (s, a) (idx, a)
        let cols ← bput st1.cols s idx
        .ok { st1 with rows := rows, cols := cols }

/-- reachability_form.py:304-316 -/
def maps (M : Sys K) (mask : List Bool) : Except Err (Dict Nat Nat × Dict (Nat × Nat) (Nat × Nat)) := do
  let st ← (List.range M.C).foldlM (mapStep M mask) ⟨[], 0, [], []⟩
  .ok (st.cols, st.rows)

/-- `len(set(d.values()))` -/
def valueCount {α β : Type} [DecidableEq β] (d : Dict α β) : Nat := (d.map Prod.snd).dedup.length

/-- reachability_form.py:338-339: the new index (the loop 338-347 is split into its three results) -/
def newIndex (rows : Dict (Nat × Nat) (Nat × Nat)) : Except Err (Dict (Nat × Nat) Nat) :=
  rows.zipIdx.foldlM (fun d e => bput d e.1.2 e.2) []

/-- reachability_form.py:331, 340-341: rows of old target states go to the new target -/
def toTarget (T : List Nat) (rows : Dict (Nat × Nat) (Nat × Nat)) : List K :=
  rows.map fun e => if e.1.1 ∈ T then 1 else 0

/-- reachability_form.py:342-347 for one row: the transitions to kept states -/
def newRow (M : Sys K) (T : List Nat) (cols : Dict Nat Nat) (m : Dok K)
    (e : ((Nat × Nat) × (Nat × Nat)) × Nat) : Except Err (Dok K) :=
  if e.1.1.1 ∈ T then .ok m else
    match M.idx.get? e.1.1 with
    | none => .error .keyError
    | some idx =>
      .ok ((((M.graph.successors e.1.1.1).filter fun t => t.2.1 = e.1.1.2).map fun t => t.1).foldl (fun m d =>
        match cols.get? d with
        | none => m
        | some nd => m.set e.2 nd (M.P.get idx d)) m)

/-- reachability_form.py:323-347 -/
def newP (M : Sys K) (T : List Nat) (cols : Dict Nat Nat) (rows : Dict (Nat × Nat) (Nat × Nat)) :
    Except Err (Dok K) :=
  rows.zipIdx.foldlM (newRow M T cols) (Dok.zero (valueCount rows) (valueCount cols))

/-- reachability_form.py:393-406, one iteration: labels and reward of row `idx` -/
def labelStep (M : Sys K) (index : Dict (Nat × Nat) Nat) (mapping : Dict (Nat × Nat) (Nat × Nat))
    (st : Dict String (List Nat) × Dict String (List (Nat × Nat)) × Option (List K)) (idx : Nat) :
    Except Err (Dict String (List Nat) × Dict String (List (Nat × Nat)) × Option (List K)) :=
  match invGet? index idx with
  | none => .error .keyError
  | some (s, a) =>
    match invGet? mapping (s, a) with
    | none => .error .keyError
    | some (ss, sa) => do
      let ls ← M.labelsByState ss
      let las ← M.labelsByAction (ss, sa)
      let labS := ls.foldl (fun d l => IDict.addTo d l s) st.1
      let labA := las.foldl (fun d l => IDict.addTo d l (s, a)) st.2.1
      match M.rew, st.2.2 with
      | some r, some nr =>
        match M.idx.get? (ss, sa) with
        | none => .error .keyError
        | some si =>
          match r[si]? with
          | none => .error .indexError
          | some x => .ok (labS, labA, some (nr.set idx x))
      | _, o => .ok (labS, labA, o)

/-- reachability_form.py:374, 411-424: the completed matrix.  `not_to_fail[i]` is the sum of the stored
entries of row `i`. -/
def complete (P : Dok K) (toTarget : List K) : Dok K :=
  let m1 := P.items.foldl (fun m e => m.set e.1.1 e.1.2 e.2) (Dok.zero (P.rows + 2) (P.cols + 2))
  let m2 := toTarget.zipIdx.foldl (fun m e =>
    let m := if 0 < e.1 then m.set e.2 P.cols e.1 else m
    let pf := 1 - (e.1 + P.rowSum e.2)
    if 0 < pf then m.set e.2 (P.cols + 1) pf else m) m1
  (m2.set P.rows P.cols 1).set (P.rows + 1) (P.cols + 1) 1

/-- reachability_form.py:371-431 `__initialize_system` -/
def initializeSystem (P : Dok K) (index : Dict (Nat × Nat) Nat) (toTarget : List K)
    (mapping : Dict (Nat × Nat) (Nat × Nat)) (M : Sys K) (tl fl : String) : Except Err (Sys K) := do
  let i1 ← bput index (P.cols, 0) P.rows
  let i2 ← bput i1 (P.cols + 1, 0) (P.rows + 1)
  let rew0 := M.rew.map fun _ => List.replicate (P.rows + 2) (0 : K)
  let (labS, labA, rew) ← (List.range P.rows).foldlM (labelStep M index mapping) ([], [], rew0)
  let labS := IDict.addTo (IDict.addTo labS fl (P.cols + 1)) tl P.cols
  Sys.remake M.dtmc (complete P toTarget) i2 (IDict.mk' labA true) (IDict.mk' labS true) rew

/-- the triple returned by `reduce` -/
structure Result (K : Type) where
  rf : RF K
  cols : Dict Nat Nat
  rows : Dict (Nat × Nat) (Nat × Nat)

end Reduce

open Reduce in
/-- reachability_form.py:250-369 `reduce`.  Copying the visualisation style (367) is in `Model/Style`.
`target_mask` (334-336) is membership in the target set. -/
def Sys.reduce (ρ : Graph.Rnd) (M : Sys K) (il tl ntl nfl : String) : Except Err (Reduce.Result K) := do
  if ntl ∈ M.labS.d.keys ∨ nfl ∈ M.labS.d.keys then .error .assertion else .ok ()
  let T ← M.statesByLabel tl
  if T = [] then .error .assertion else .ok ()
  let is ← M.statesByLabel il
  let i ← match is with
    | [i] => .ok i
    | _ => .error .assertion
  let bwd ← M.reachableMask T false []
  let fwd ← M.reachableMask [i] true T
  let mask := (List.range M.N).map fun s => bwd.getD s false && fwd.getD s false
  let (cols, rows) ← maps M mask
  let P ← newP M T cols rows
  let index ← newIndex rows
  let sys ← initializeSystem P index (toTarget T rows) rows M ntl nfl
  let rf ← RF.make ρ sys il ntl nfl true
  .ok ⟨rf, cols, rows⟩

end Verif.Model
