import Verif.Kvs.Model

/-!
# JSON values in memory

The other files of this part take a JSON value to be a tree. In the code it is a graph of reference-counted `json_t` cells,
which `JsonHandle` owns, and whose references are passed on to jansson with `release()`. Here the cells are modelled: what
jansson's functions do to the reference counts, and what `JsonHandle`, `Compound` and `Array` do with jansson's functions.

A function returns `none` if it follows a pointer to a cell that has been deleted. A real program would go on with
whatever there is in memory. Cells are never placed where a deleted cell has been: a pointer to a deleted cell does not
become valid again, so that all uses after deletion are seen. Memory is not exhausted (jansson's functions would return a
null pointer). The keys are valid UTF-8 (see `Kvs/Names.lean` for those that are not), and so are the strings.

jansson's source is not in the repository. The functions follow its documentation: which of them "steal" a reference, that
the cells of `null`, `true` and `false` are static and not counted, that a function whose name ends with `_new` releases
the reference it would have stolen also if it fails, and that storing a value under an existing key releases the old one.
-/

namespace Maike.Kvs.Heap

/-- A `json_t*` which is not a null pointer. `null`, `true` and `false` are static objects in jansson, which are not counted. -/
inductive Ptr where
  | null
  | bool (b : Bool)
  | cell (n : Nat)
deriving DecidableEq, Repr

/-- What a `json_t` that has been allocated holds. -/
inductive Node where
  | int (i : Int)
  | real (bits : Nat)
  | str (s : String)
  | arr (elems : List Ptr)
  | obj (members : List (String × Ptr))
deriving DecidableEq, Repr

/-- A `json_t` that has been allocated: the number of references to it, and what it holds. -/
structure Cell where
  refs : Nat
  node : Node
deriving DecidableEq, Repr

/-- The cells that have not been deleted. All cells have been allocated below `next`. -/
structure Memory where
  next : Nat
  cells : Nat → Option Cell

/-- The cells when maike starts. -/
def Memory.empty : Memory := ⟨0, fun _ => none⟩

/-- An assignment to a cell. -/
def Memory.put (h : Memory) (n : Nat) (c : Cell) : Memory :=
  { h with cells := fun m => if m = n then some c else h.cells m }

/-- The deletion of a cell. -/
def Memory.erase (h : Memory) (n : Nat) : Memory :=
  { h with cells := fun m => if m = n then none else h.cells m }

/-- `json_object()`, `json_array()`, `json_integer()`, `json_real()` and `json_string()`, as they are used in
core/key_value_store/json_handle.hpp:157-175, compound.hpp:139-145 and array.hpp:110-112. There is one reference to the
new cell, which is the one that is returned. -/
def Memory.alloc (h : Memory) (node : Node) : Ptr × Memory :=
  (.cell h.next, { next := h.next + 1, cells := fun m => if m = h.next then some ⟨1, node⟩ else h.cells m })

/-- `json_typeof`, as it is used in core/key_value_store/json_handle.hpp:91-94. -/
def Memory.type (h : Memory) : Ptr → Option JType
  | .null => some .null
  | .bool true => some .true
  | .bool false => some .false
  | .cell n =>
    match h.cells n with
    | none => none
    | some c =>
      match c.node with
      | .int _ => some .integer
      | .real _ => some .float
      | .str _ => some .string
      | .arr _ => some .array
      | .obj _ => some .compound

/-- The pointers a cell holds. -/
def Node.children : Node → List Ptr
  | .int _ | .real _ | .str _ => []
  | .arr ps => ps
  | .obj ms => ms.map Prod.snd

mutual

/-- `json_decref`, which is called by `JsonDeleter`, core/key_value_store/json_handle.hpp:228-234. When the last reference
goes away, the references the cell holds are released, and the cell is deleted. -/
def decref (h : Memory) (p : Ptr) : Option Memory :=
  match p with
  | .null => some h
  | .bool _ => some h
  | .cell n =>
    match h.cells n with
    | none => none
    | some c =>
      if c.refs ≤ 1 then
        (decrefAll (h.put n ⟨0, c.node⟩) c.node.children) >>= fun h' => some (h'.erase n)
      else some (h.put n ⟨c.refs - 1, c.node⟩)
partial_fixpoint

/-- The loop in jansson's functions that delete arrays and objects. -/
def decrefAll (h : Memory) (ps : List Ptr) : Option Memory :=
  match ps with
  | [] => some h
  | p :: ps => (decref h p) >>= fun h' => decrefAll h' ps
partial_fixpoint

end

/-- The destructor of `JsonHandle`, core/key_value_store/json_handle.hpp:228-236. The handle holds a null pointer if it has
been moved from, or released. -/
def destroy (h : Memory) : Option Ptr → Option Memory
  | none => some h
  | some p => decref h p

/-- A pointer among the members of an object. -/
def find (k : String) : List (String × Ptr) → Option Ptr
  | [] => none
  | (k', p) :: ms => if k' = k then some p else find k ms

/-- A pointer of an object is replaced, or added at the end. -/
def store (k : String) (p : Ptr) : List (String × Ptr) → List (String × Ptr)
  | [] => [(k, p)]
  | (k', q) :: ms => if k' = k then (k, p) :: ms else (k', q) :: store k p ms

/-- `json_object_get`, as it is used in core/key_value_store/compound.hpp:160-181. The pointer is borrowed: the count does
not change. -/
def Memory.get (h : Memory) (a : Ptr) (k : String) : Option (Option Ptr) :=
  match a with
  | .cell n =>
    match h.cells n with
    | none => none
    | some c =>
      match c.node with
      | .obj ms => some (find k ms)
      | _ => some none
  | _ => some none

/-- What is stored in an object, as `json_object_iter` gives it, core/key_value_store/compound.hpp:31-78. -/
def Memory.members (h : Memory) (b : Ptr) : Option (List (String × Ptr)) :=
  match b with
  | .cell n =>
    match h.cells n with
    | none => none
    | some c =>
      match c.node with
      | .obj ms => some ms
      | _ => some []
  | _ => some []

/-- What is stored in an array, as `json_array_get` gives it, core/key_value_store/array.hpp:27-75. -/
def Memory.elems (h : Memory) (b : Ptr) : Option (List Ptr) :=
  match b with
  | .cell n =>
    match h.cells n with
    | none => none
    | some c =>
      match c.node with
      | .arr ps => some ps
      | _ => some []
  | _ => some []

/-- `json_object_set_new`, as it is called in `Compound::set`, core/key_value_store/compound.hpp:147-158. The reference `v`
is stolen. Nothing is stored if `a` is not an object, or is the value itself; then the reference is released. -/
def setNew (h : Memory) (a : Option Ptr) (k : String) (v : Option Ptr) : Option Memory :=
  match v with
  | none => some h
  | some p =>
    match a with
    | some (.cell n) =>
      if p = .cell n then decref h p
      else
        match h.cells n with
        | none => none
        | some c =>
          match c.node with
          | .obj ms =>
            match find k ms with
            | none => some (h.put n ⟨c.refs, .obj (store k p ms)⟩)
            | some q => (decref h q) >>= fun h' => some (h'.put n ⟨c.refs, .obj (store k p ms)⟩)
          | _ => decref h p
    | _ => decref h p

/-- `json_array_append_new`, as it is called in `Array::append`, core/key_value_store/array.hpp:132-143. The reference `v` is
stolen, or released if `a` is not an array. -/
def appendNew (h : Memory) (a : Option Ptr) (v : Option Ptr) : Option Memory :=
  match v with
  | none => some h
  | some p =>
    match a with
    | some (.cell n) =>
      if p = .cell n then decref h p
      else
        match h.cells n with
        | none => none
        | some c =>
          match c.node with
          | .arr ps => some (h.put n ⟨c.refs, .arr (ps ++ [p])⟩)
          | _ => decref h p
    | _ => decref h p

mutual

/-- `json_deep_copy`, which is called by the copy constructors of `JsonHandle`,
core/key_value_store/json_handle.hpp:147-155. -/
def deepCopy (h : Memory) (p : Ptr) : Option (Ptr × Memory) :=
  match p with
  | .null => some (.null, h)
  | .bool b => some (.bool b, h)
  | .cell n =>
    match h.cells n with
    | none => none
    | some c =>
      match c.node with
      | .arr ps =>
        (copyElems (h.alloc (.arr [])).2 (h.alloc (.arr [])).1 ps) >>= fun h' => some ((h.alloc (.arr [])).1, h')
      | .obj ms =>
        (copyMembers (h.alloc (.obj [])).2 (h.alloc (.obj [])).1 ms) >>= fun h' => some ((h.alloc (.obj [])).1, h')
      | node => some (h.alloc node)
partial_fixpoint

/-- The loop for arrays in jansson's `json_deep_copy`. It is also `operator|=(Array&, ArrayRefConst)`,
core/key_value_store/array.cpp:7-12, in which `append` makes a handle from each item, which is a copy. -/
def copyElems (h : Memory) (r : Ptr) (ps : List Ptr) : Option Memory :=
  match ps with
  | [] => some h
  | p :: ps =>
    (deepCopy h p) >>= fun x => (appendNew x.2 (some r) (some x.1)) >>= fun h' => copyElems h' r ps
partial_fixpoint

/-- The loop for objects in jansson's `json_deep_copy`. -/
def copyMembers (h : Memory) (r : Ptr) (ms : List (String × Ptr)) : Option Memory :=
  match ms with
  | [] => some h
  | m :: ms =>
    (deepCopy h m.2) >>= fun x => (setNew x.2 (some r) m.1 (some x.1)) >>= fun h' => copyMembers h' r ms
partial_fixpoint

end

/-- `JsonHandle(JsonHandle const&)`, core/key_value_store/json_handle.hpp:147-150. -/
def copyHandle (h : Memory) : Option Ptr → Option (Option Ptr × Memory)
  | none => some (none, h)
  | some p => (deepCopy h p) >>= fun x => some (some x.1, x.2)

/-- `a.set(key, ref)`, core/key_value_store/compound.cpp:31 and 36: `toJson` makes a handle from the reference, which is a
copy, and `set` releases it to the object. -/
def setCopy (h : Memory) (a : Ptr) (k : String) (q : Ptr) : Option Memory :=
  (deepCopy h q) >>= fun x => setNew x.2 (some a) k (some x.1)

/-- The end of the statements in core/key_value_store/compound.cpp:20-29. `operator|` of arrays (array.hpp:196-199) and of
compounds (compound.hpp:249-252) returns by value what `operator|=` returns by reference, which is a copy of the temporary
`c`. The copy is released to `a`, and then the temporary is destroyed. -/
def setTemporary (h : Memory) (a : Ptr) (k : String) (c : Ptr) : Option Memory :=
  (deepCopy h c) >>= fun x => (setNew x.2 (some a) k (some x.1)) >>= fun h' => decref h' c

mutual

/-- `operator|=(Compound& a, CompoundRefConst b)`, core/key_value_store/compound.cpp:10-40. The result tells whether it
returned normally. -/
def mergeObj (h : Memory) (a b : Ptr) : Option (Bool × Memory) :=
  (h.members b) >>= fun ms => mergeLoop h a ms
partial_fixpoint

/-- The loop in `operator|=`, core/key_value_store/compound.cpp:12-38. `a` must not be changed through `b`: the members of
`b` are read once. -/
def mergeLoop (h : Memory) (a : Ptr) (ms : List (String × Ptr)) : Option (Bool × Memory) :=
  match ms with
  | [] => some (true, h)
  | m :: ms =>
    (h.get a m.1) >>= fun item =>
      match item with
      | none => (setCopy h a m.1 m.2) >>= fun h' => mergeLoop h' a ms
      | some r =>
        (h.type r) >>= fun tr =>
        (h.type m.2) >>= fun tq =>
          if tr ≠ tq then some (false, h)
          else if tr = .array then
            (deepCopy h r) >>= fun x =>
            (x.2.elems m.2) >>= fun es =>
            (copyElems x.2 x.1 es) >>= fun h₁ =>
            (setTemporary h₁ a m.1 x.1) >>= fun h₂ => mergeLoop h₂ a ms
          else if tr = .compound then
            (deepCopy h r) >>= fun x =>
            (mergeObj x.2 x.1 m.2) >>= fun y =>
              if y.1 then (setTemporary y.2 a m.1 x.1) >>= fun h₂ => mergeLoop h₂ a ms
              else (decref y.2 x.1) >>= fun h₂ => some (false, h₂)
          else (setCopy h a m.1 m.2) >>= fun h' => mergeLoop h' a ms
partial_fixpoint

end

/-! ## Programs that use handles -/

/-- The values a handle is made of: `Compound()`, `Array()` and the constructors of `JsonHandle`,
core/key_value_store/json_handle.hpp:157-180, compound.hpp:143-145, array.hpp:110-112. -/
inductive Fresh where
  | obj
  | arr
  | int (i : Int)
  | real (bits : Nat)
  | str (s : String)

/-- The cell that is allocated. -/
def Fresh.node : Fresh → Node
  | .obj => .obj []
  | .arr => .arr []
  | .int i => .int i
  | .real r => .real r
  | .str s => .str s

/-- What is done with handles (`JsonHandle`, `Compound` and `Array`, each of which holds one `JsonHandle`). Handles are
numbered. -/
inductive Op where
  /-- `x = Compound{}`, `x = Array{}`, `x = JsonHandle{…}`. -/
  | make (x : Nat) (v : Fresh)
  /-- `x = JsonHandle{y}`, core/key_value_store/json_handle.hpp:147-150. -/
  | copy (x y : Nat)
  /-- `x = JsonHandle{y.get<JsonRefConst>(k)}`, core/key_value_store/json_handle.hpp:152-155 and compound.hpp:160-173. -/
  | member (x y : Nat) (k : String)
  /-- `x = std::move(y)`, `x = y.takeHandle()`, core/key_value_store/json_handle.hpp:144-145. -/
  | move (x y : Nat)
  /-- `x.set(k, std::move(y))`, core/key_value_store/compound.hpp:147-158. -/
  | set (x : Nat) (k : String) (y : Nat)
  /-- `x.append(std::move(y))`, core/key_value_store/array.hpp:132-143. -/
  | append (x y : Nat)
  /-- `x |= y`, core/key_value_store/compound.hpp:240-245, or the same with exceptions that are caught. -/
  | merge (x y : Nat)
  /-- The end of the lifetime of `x`. -/
  | drop (x : Nat)

/-- The handles of a program. -/
abbrev Handles := Nat → Option Ptr

/-- A handle is overwritten. -/
def assign {α : Type} (e : Nat → Option α) (x : Nat) (v : Option α) : Nat → Option α := fun y => if y = x then v else e y

/-- `operator=(JsonHandle&&)`, core/key_value_store/json_handle.hpp:145 (that of `std::unique_ptr`): the handle takes the new
pointer, and then the old one is released. -/
def assignHandle (h : Memory) (e : Handles) (x : Nat) (v : Option Ptr) : Option (Memory × Handles) :=
  (destroy h (e x)) >>= fun h' => some (h', assign e x v)

/-- One operation. The result tells whether it returned normally. -/
def exec (h : Memory) (e : Handles) : Op → Option (Bool × Memory × Handles)
  | .make x v => (assignHandle (h.alloc v.node).2 e x (some (h.alloc v.node).1)) >>= fun s => some (true, s)
  | .copy x y => (copyHandle h (e y)) >>= fun c => (assignHandle c.2 e x c.1) >>= fun s => some (true, s)
  | .member x y k =>
    match e y with
    | none => some (false, h, e)
    | some a =>
      (h.get a k) >>= fun item =>
        match item with
        | none => some (false, h, e)
        | some q => (deepCopy h q) >>= fun c => (assignHandle c.2 e x (some c.1)) >>= fun s => some (true, s)
  | .move x y => (assignHandle h (assign e y none) x (e y)) >>= fun s => some (true, s)
  | .set x k y => (setNew h (e x) k (e y)) >>= fun h' => some (true, h', assign e y none)
  | .append x y => (appendNew h (e x) (e y)) >>= fun h' => some (true, h', assign e y none)
  | .merge x y =>
    match e x, e y with
    | some a, some b =>
      (h.type a) >>= fun ta => (h.type b) >>= fun tb =>
        if ta = .compound ∧ tb = .compound then (mergeObj h a b) >>= fun r => some (r.1, r.2, e)
        else some (false, h, e)
    | _, _ => some (false, h, e)
  | .drop x => (destroy h (e x)) >>= fun h' => some (true, h', assign e x none)

/-- A history of operations, and how each of them returned. -/
def run (h : Memory) (e : Handles) : List Op → Option (List Bool × Memory × Handles)
  | [] => some ([], h, e)
  | op :: ops => (exec h e op) >>= fun r => (run r.2.1 r.2.2 ops) >>= fun s => some (r.1 :: s.1, s.2)

end Maike.Kvs.Heap
