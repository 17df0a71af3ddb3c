/-!
# Merging of JSON values

Model of core/key_value_store. Jansson itself is not modelled: a value is a tree, an object is the list of its members in
the order of iteration (jansson iterates in order of insertion, and replacing a value does not change the order).
-/

namespace Maike.Kvs

/-- `Type`, core/key_value_store/json_handle.hpp:23-33. -/
inductive JType where
  | compound
  | array
  | string
  | integer
  | float
  | true
  | false
  | null
deriving DecidableEq, Repr

/-- `json_t`. Floating point numbers are represented by their bits. -/
inductive Json where
  | null
  | bool (b : Bool)
  | int (i : Int)
  | real (bits : Nat)
  | str (s : String)
  | arr (elems : List Json)
  | obj (members : List (String × Json))

/-- The members of a `Compound`. -/
abbrev Members := List (String × Json)

/-- `JsonRefConst::type`, core/key_value_store/json_handle.hpp:91-94. -/
def Json.type : Json → JType
  | .null => .null
  | .bool true => .true
  | .bool false => .false
  | .int _ => .integer
  | .real _ => .float
  | .str _ => .string
  | .arr _ => .array
  | .obj _ => .compound

/-- `Compound::getIfAny`, core/key_value_store/compound.hpp:176-181 (`json_object_get`). -/
def lookup (k : String) : Members → Option Json
  | [] => none
  | (k', v) :: ms => if k' = k then some v else lookup k ms

/-- `Compound::set`, core/key_value_store/compound.hpp:147-151 (`json_object_set_new`). -/
def set (k : String) (v : Json) : Members → Members
  | [] => [(k, v)]
  | (k', v') :: ms => if k' = k then (k, v) :: ms else (k', v') :: set k v ms

mutual

/-- What `operator|=` does with one item of `b` if there is an item in `a` with the same key,
core/key_value_store/compound.cpp:15-32, and `operator|=` for arrays, core/key_value_store/array.cpp:7-12. The result is the new value in `a`, or
`none` if an exception is thrown. -/
def mergeValue (x : Json) : Json → Option Json
  | .arr ys =>
    match x with
    | .arr xs => some (.arr (xs ++ ys))
    | _ => none
  | .obj ys =>
    match x with
    | .obj xs =>
      match mergeInto xs ys with
      | (m, true) => some (.obj m)
      | (_, false) => none
    | _ => none
  | .null => if x.type = .null then some .null else none
  | .bool b => if x.type = Json.type (.bool b) then some (.bool b) else none
  | .int i => if x.type = .integer then some (.int i) else none
  | .real r => if x.type = .float then some (.real r) else none
  | .str s => if x.type = .string then some (.str s) else none

/-- As `mergeValue`, for the value of an item. -/
def mergeItem (x : Json) : String × Json → Option Json
  | (_, v) => mergeValue x v

/-- `operator|=(Compound& a, CompoundRefConst b)`, core/key_value_store/compound.cpp:10-40. The result is the value of `a`
afterwards, and whether the function returned normally. -/
def mergeInto (a : Members) : Members → Members × Bool
  | [] => (a, true)
  | kv :: ms =>
    match lookup kv.1 a with
    | none => mergeInto (set kv.1 kv.2 a) ms
    | some x =>
      match mergeItem x kv with
      | none => (a, false)
      | some y => mergeInto (set kv.1 y a) ms

end

/-- `operator|(Compound&& a, CompoundRefConst b)`, core/key_value_store/compound.hpp:249-252. `none` if an exception is
thrown. -/
def merge (a b : Members) : Option Members :=
  match mergeInto a b with
  | (m, true) => some m
  | (_, false) => none

end Maike.Kvs
