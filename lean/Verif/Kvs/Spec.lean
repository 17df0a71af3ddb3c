import Verif.Kvs.Model

/-!
# Vocabulary for stating properties of merged values
-/

namespace Maike.Kvs

/-- The value found by following a path of keys. -/
def get : List String → Json → Option Json
  | [], v => some v
  | k :: path, .obj ms => (lookup k ms).bind (get path)
  | _ :: _, _ => none

/-- In each object, no key occurs twice. This holds for all values made by jansson. -/
inductive WellFormed : Json → Prop where
  | null : WellFormed .null
  | bool (b : Bool) : WellFormed (.bool b)
  | int (i : Int) : WellFormed (.int i)
  | real (bits : Nat) : WellFormed (.real bits)
  | str (s : String) : WellFormed (.str s)
  | arr {elems : List Json} (h : ∀ v ∈ elems, WellFormed v) : WellFormed (.arr elems)
  | obj {members : Members} (nodup : (members.map Prod.fst).Nodup) (h : ∀ kv ∈ members, WellFormed kv.2) :
    WellFormed (.obj members)

/-- Neither an array nor an object. -/
def Json.isScalar : Json → Prop
  | .arr _ => False
  | .obj _ => False
  | _ => True

end Maike.Kvs
