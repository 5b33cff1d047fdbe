import Verif.Model.Py
/-!
# `switss/prism/prism.py`: `prism_to_tra`

The temporary file and the external program are not modelled: the result is the call that is made.
-/

namespace Verif.Model.Prism

/-- the command line and the content of the model file given to prism -/
structure Call where
  args : List String
  input : String
  deriving DecidableEq

/-- unpacking a string as in `for (C,i) in …`: a string of two characters gives these, any other length
raises `ValueError` -/
def unpack2 (s : String) : Except Err (String × String) :=
  match s.toList with
  | [a, b] => .ok (String.singleton a, String.singleton b)
  | _ => .error .valueError

/-- `sep.join(l)` -/
def join (sep : String) : List String → String
  | [] => ""
  | a :: l => l.foldl (fun acc c => acc ++ sep ++ c) a

/-- prism.py:65: iterating over a dictionary gives its keys.  `consts` maps names to the texts `str(value)` of the
values. -/
def constStrings (consts : Dict String String) : Except Err (List String) :=
  if consts.length > 0 then do
    let cs ← consts.keys.mapM fun key => do
      let ci ← unpack2 key
      Except.ok (ci.1 ++ "=" ++ ci.2)
    .ok ["-const", join "," cs]
  else .ok []

/-- prism.py:72-74 -/
def labelLines (extra : Dict String String) : Except Err (List String) :=
  extra.keys.mapM fun key => do
    let ne ← unpack2 key
    Except.ok ("label \"" ++ ne.1 ++ "\" = " ++ ne.2 ++ ";" ++ "\n")

/-- prism.py:65-79: the call; `model` is the text of the model file, `tmp` the name of the temporary file -/
def prismCall (model tmp dest : String) (consts extra : Dict String String) : Except Err Call := do
  let cs ← constStrings consts
  let ls ← labelLines extra
  .ok ⟨["prism", tmp] ++ cs ++ ["-exportmodel", dest ++ ".tra,sta,lab"], model ++ String.join ls⟩

/-- prism.py:41-87; `runs` says whether prism exits without an error for a call -/
def prismToTra (runs : Call → Bool) (model tmp dest : String) (consts extra : Dict String String) :
    Except Err Bool := do
  let c ← prismCall model tmp dest consts extra
  .ok (runs c)

end Verif.Model.Prism
