import Verif.Model.Digraph
import Mathlib.Data.List.Sort
/-!
# The default look of pictures: `switss/utils/graphviz_utils.py` and `switss render`

`hash` stands for `int(md5(str(obj).encode("utf-8")).hexdigest(), 16)` as a function of the string `str(obj)`, `rep` for
`repr` of a string; both are arbitrary.  A set of labels is the list in which python iterates over it.
-/

namespace Verif.Model.StdMaps
open Text Digraph

/-- graphviz_utils.py:2-24 `GRAPHVIZ_COLORS` -/
def colors : List String :=
  ["coral2", "cadetblue3", "gold", "coral1", "aquamarine4", "darkslategrey", "cyan2", "antiquewhite3", "coral", "azure4",
   "darkkhaki", "deeppink", "antiquewhite4", "beige", "firebrick3", "firebrick1", "brown1", "darkgreen", "cornsilk1",
   "darkgoldenrod2", "cornsilk2", "bisque3", "darkseagreen", "darkgoldenrod1", "deeppink3", "darkviolet", "chocolate2",
   "crimson", "goldenrod", "darkseagreen2", "cornflowerblue", "blue2", "aquamarine2", "darkolivegreen1", "antiquewhite1",
   "brown", "deepskyblue3", "darkslateblue", "dodgerblue2", "burlywood4", "floralwhite", "burlywood3", "blue", "blue3",
   "deeppink1", "blue4", "dodgerblue4", "cyan4", "chocolate1", "aquamarine1", "darkgoldenrod4", "darkturquoise", "darkorchid1",
   "dimgray", "cadetblue2", "darkolivegreen", "darkorchid3", "cadetblue1", "azure1", "deeppink2", "burlywood2", "chartreuse3",
   "gold3", "darkseagreen4", "dodgerblue3", "firebrick4", "blanchedalmond", "cyan", "darkslategray", "gold2", "dimgrey",
   "gold4", "goldenrod2", "goldenrod1", "burlywood", "cadetblue", "gainsboro", "bisque", "deepskyblue4", "cyan1", "coral4",
   "darkorchid2", "deepskyblue1", "darkorange3", "ghostwhite", "bisque2", "darkslategray2", "darkolivegreen3", "cadetblue4",
   "deepskyblue", "aquamarine3", "cyan3", "brown2", "darkseagreen1", "chocolate4", "darkorange", "darkorange1", "blueviolet",
   "chartreuse", "antiquewhite2", "gold1", "cornsilk3", "darkolivegreen2", "chartreuse2", "darkgoldenrod", "brown3", "bisque1",
   "darksalmon", "deeppink4", "blue1", "darkgoldenrod3", "darkolivegreen4", "aliceblue", "burlywood1", "darkslategray1",
   "azure2", "azure", "darkorchid", "dodgerblue", "cornsilk", "darkseagreen3", "firebrick", "chocolate", "goldenrod3",
   "coral3", "firebrick2", "deepskyblue2", "bisque4", "darkslategray4", "darkorange2", "brown4", "chartreuse1", "chartreuse4",
   "dodgerblue1", "cornsilk4", "darkorchid4", "forestgreen", "chocolate3", "antiquewhite", "goldenrod4", "darkslategray3",
   "darkorange4", "aquamarine"]

/-- `str(t)` for a tuple of strings -/
def strTuple (rep : String → List Char) (ls : List String) : List Char :=
  '(' :: List.intercalate ", ".toList (ls.map rep) ++ (if ls.length = 1 then [','] else []) ++ [')']

/-- `sorted(labels)`: by code points -/
def sorted (ls : List String) : List String := ls.mergeSort fun a b => decide (a ≤ b)

/-- graphviz_utils.py:27-39 `color_from_hash`, here for the string `str(obj)` -/
def colorFromHash (hash : List Char → Nat) (obj : List Char) : List Char :=
  (colors.getD (hash obj % colors.length) "").toList

/-- `sep.join(labels)` -/
def join (sep : List Char) (ls : List String) : List Char := List.intercalate sep (ls.map String.toList)

/-- graphviz_utils.py:41-53 `std_state_map` -/
def state (hash : List Char → Nat) (rep : String → List Char) (s : Nat) (ls : List String) : Except Err Attrs :=
  .ok [("style", "filled".toList), ("color", colorFromHash hash (strTuple rep (sorted ls))),
    ("label", "State ".toList ++ fmtD s ++ '\n' :: join [','] ls), ("fontsize", "18pt".toList)]

/-- the zeros at the end removed -/
def trimZeros (ds : List Char) : List Char := (ds.reverse.dropWhile (· == '0')).reverse

/-- `str(x)` for the double `x` nearest to `n / 10^10`, for `n / 10^10 < 10^16`: the shortest decimal that is read as `x`
(this is the decimal itself, as it has at most 15 digits for probabilities), in scientific notation below 1e-4 -/
def strDec (n : Nat) : List Char :=
  if n = 0 then "0.0".toList
  else if 10 ^ 6 ≤ n then
    let f := trimZeros (List.leftpad 10 '0' (fmtD (n % 10 ^ 10)))
    fmtD (n / 10 ^ 10) ++ '.' :: (if f = [] then ['0'] else f)
  else
    let ds := fmtD n
    let f := trimZeros ds.tail
    ds.take 1 ++ (if f = [] then [] else '.' :: f) ++ 'e' :: '-' :: List.leftpad 2 '0' (fmtD (11 - ds.length))

section
variable {K : Type} [Field K] [LinearOrder K] [IsStrictOrderedRing K] [FloorRing K]

/-- `str(round(p,10))` for a non-negative number -/
def strRound (p : K) : List Char := strDec (roundEven (p * 10 ^ 10))

/-- graphviz_utils.py:55-83 `std_trans_map_mdp`, `std_trans_map_dtmc` -/
def trans (p : K) : Except Err Attrs :=
  .ok [("color", "black".toList), ("label", strRound p), ("fontsize", "18pt".toList)]

/-- graphviz_utils.py:85-100 `std_action_map` -/
def action (a : Nat) (ls : List String) : Except Err (Attrs × Attrs) :=
  .ok ([("label", fmtD a ++ '\n' :: join [] ls), ("color", "black".toList), ("shape", "rectangle".toList), ("fontsize", "18pt".toList)],
    [("color", "black".toList), ("dir", "none".toList)])

/-- graphviz_utils.py:102-106 `VisualizationConfig()` -/
def maps (hash : List Char → Nat) (rep : String → List Char) : Maps K :=
  ⟨state hash rep, fun _ _ _ => trans, fun _ => action⟩

/-- graphviz_utils.py:108-111 `DTMCVisualizationConfig()` -/
def dtmcMaps (hash : List Char → Nat) (rep : String → List Char) : DTMCMaps K :=
  ⟨state hash rep, fun _ _ => trans⟩

end

/-- `s.split(",")` -/
def splitComma : List Char → List (List Char)
  | [] => [[]]
  | c :: cs =>
    if c = ',' then [] :: splitComma cs
    else match splitComma cs with
      | [] => [[c]]
      | w :: ws => (c :: w) :: ws

/-- bin/switss:161 `set(args.coloring.split(","))`, in the order of the argument -/
def colorLabels (arg : List Char) : List String := ((splitComma arg).map String.ofList).dedup

/-- bin/switss:162-166 `state_map` for the option `-col arg` of `switss render` -/
def renderState (hash : List Char → Nat) (rep : String → List Char) (arg : List Char) (s : Nat) (ls : List String) : Except Err Attrs :=
  .ok [("color", colorFromHash hash (strTuple rep (sorted ((colorLabels arg).filter (· ∈ ls))))),
    ("label", "State ".toList ++ fmtD s ++ '\n' :: join [','] ls), ("style", "filled".toList)]

end Verif.Model.StdMaps
