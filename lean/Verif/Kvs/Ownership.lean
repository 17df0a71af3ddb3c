import Verif.Kvs.Heap

/-!
# Every JSON value has one owner

What is proved of the cells of JSON values: `Owned` says that the cells reachable from a pointer are a tree, that there is
one reference to each of them, and which value they hold. The functions that handle cells keep this, and do to the cells
what the functions of `Kvs/Model.lean` do to values.
-/

namespace Maike.Kvs.Heap

/-- Two sets of cells have nothing in common. -/
def Apart (F G : List Nat) : Prop := ∀ n ∈ F, n ∉ G

mutual

/-- The pointer refers to a value. The cells the value consists of are those listed. Each of them has one reference, and
holds pointers to values which have no cell in common with one another. -/
inductive Owned (c : Nat → Option Cell) : Ptr → Json → List Nat → Prop where
  | null : Owned c .null .null []
  | bool (b : Bool) : Owned c (.bool b) (.bool b) []
  | int (n : Nat) (i : Int) : c n = some ⟨1, .int i⟩ → Owned c (.cell n) (.int i) [n]
  | real (n r : Nat) : c n = some ⟨1, .real r⟩ → Owned c (.cell n) (.real r) [n]
  | str (n : Nat) (s : String) : c n = some ⟨1, .str s⟩ → Owned c (.cell n) (.str s) [n]
  | arr (n : Nat) (ps : List Ptr) (vs : List Json) (F : List Nat) :
    c n = some ⟨1, .arr ps⟩ → n ∉ F → OwnedElems c ps vs F → Owned c (.cell n) (.arr vs) (n :: F)
  | obj (n : Nat) (ms : List (String × Ptr)) (vs : Members) (F : List Nat) :
    c n = some ⟨1, .obj ms⟩ → n ∉ F → OwnedMembers c ms vs F → Owned c (.cell n) (.obj vs) (n :: F)

/-- The pointers refer to the values. -/
inductive OwnedElems (c : Nat → Option Cell) : List Ptr → List Json → List Nat → Prop where
  | nil : OwnedElems c [] [] []
  | cons (p : Ptr) (v : Json) (F : List Nat) (ps : List Ptr) (vs : List Json) (G : List Nat) :
    Owned c p v F → OwnedElems c ps vs G → Apart F G → OwnedElems c (p :: ps) (v :: vs) (F ++ G)

/-- The pointers refer to the values, and no key occurs twice. -/
inductive OwnedMembers (c : Nat → Option Cell) : List (String × Ptr) → Members → List Nat → Prop where
  | nil : OwnedMembers c [] [] []
  | cons (k : String) (p : Ptr) (v : Json) (F : List Nat) (ms : List (String × Ptr)) (vs : Members) (G : List Nat) :
    Owned c p v F → OwnedMembers c ms vs G → Apart F G → (∀ w, (k, w) ∉ vs) →
    OwnedMembers c ((k, p) :: ms) ((k, v) :: vs) (F ++ G)

end

/-- Cells are allocated below `next` only. -/
def Memory.Ok (h : Memory) : Prop := ∀ n, h.next ≤ n → h.cells n = none

/-- The memory changes in this way: the cells `A` are replaced with the cells `B`, which are cells of `A` or new. All cells of
`A` that are not in `B` have been deleted. The other cells are as before. -/
structure Upd (h h' : Memory) (A B : List Nat) : Prop where
  ok : h'.Ok
  next : h.next ≤ h'.next
  rest : ∀ n, n ∉ B → h'.cells n = if n ∈ A then none else h.cells n
  new : ∀ n ∈ B, n ∈ A ∨ h.next ≤ n

theorem Upd.refl {h : Memory} (ok : h.Ok) (A : List Nat) : Upd h h A A :=
  ⟨ok, Nat.le_refl _, fun n hn => by simp [hn], fun n hn => .inl hn⟩

theorem Upd.trans {h h₁ h₂ : Memory} {A B C : List Nat} (ok : h.Ok) (u : Upd h h₁ A B) (w : Upd h₁ h₂ B C) :
    Upd h h₂ A C := by
  refine ⟨w.ok, Nat.le_trans u.next w.next, ?_, ?_⟩
  · intro n hn
    rw [w.rest n hn]
    by_cases hb : n ∈ B
    · rw [if_pos hb]
      rcases u.new n hb with ha | ha
      · simp [ha]
      · rw [ok n ha]; simp
    · rw [if_neg hb, u.rest n hb]
  · intro n hn
    rcases w.new n hn with hb | hb
    · exact u.new n hb
    · exact .inr (Nat.le_trans u.next hb)

theorem Upd.frame {h h' : Memory} {A B : List Nat} (u : Upd h h' A B) (X : List Nat) :
    Upd h h' (A ++ X) (B ++ X) := by
  refine ⟨u.ok, u.next, ?_, ?_⟩
  · intro n hn
    simp only [List.mem_append, not_or] at hn
    rw [u.rest n hn.1]
    simp [hn.2]
  · intro n hn
    simp only [List.mem_append] at hn ⊢
    rcases hn with hn | hn
    · rcases u.new n hn with h1 | h1
      · exact .inl (.inl h1)
      · exact .inr h1
    · exact .inl (.inr hn)

theorem Upd.congr {h h' : Memory} {A B A' B' : List Nat} (u : Upd h h' A B) (ha : ∀ n, n ∈ A ↔ n ∈ A')
    (hb : ∀ n, n ∈ B ↔ n ∈ B') : Upd h h' A' B' := by
  refine ⟨u.ok, u.next, ?_, ?_⟩
  · intro n hn
    rw [u.rest n (by rwa [hb])]
    simp [ha]
  · intro n hn
    rw [← ha]
    exact u.new n (by rwa [hb])

/-- Cells that are not part of what is replaced are as before. -/
theorem Upd.same {h h' : Memory} {A B : List Nat} (u : Upd h h' A B) {n : Nat} (ha : n ∉ A) (hn : n < h.next) :
    h'.cells n = h.cells n := by
  rw [u.rest n, if_neg ha]
  intro hb
  rcases u.new n hb with h1 | h1
  · exact ha h1
  · omega

mutual

theorem Owned.frame {c c' : Nat → Option Cell} {p : Ptr} {v : Json} {F : List Nat} (o : Owned c p v F)
    (h : ∀ n ∈ F, c' n = c n) : Owned c' p v F :=
  match o with
  | .null => .null
  | .bool b => .bool b
  | .int n i e => .int n i (by rw [h n (by simp)]; exact e)
  | .real n r e => .real n r (by rw [h n (by simp)]; exact e)
  | .str n s e => .str n s (by rw [h n (by simp)]; exact e)
  | .arr n ps vs F e hn os =>
    .arr n ps vs F (by rw [h n (by simp)]; exact e) hn (os.frame fun m hm => h m (by simp [hm]))
  | .obj n ms vs F e hn os =>
    .obj n ms vs F (by rw [h n (by simp)]; exact e) hn (os.frame fun m hm => h m (by simp [hm]))

theorem OwnedElems.frame {c c' : Nat → Option Cell} {ps : List Ptr} {vs : List Json} {F : List Nat}
    (o : OwnedElems c ps vs F) (h : ∀ n ∈ F, c' n = c n) : OwnedElems c' ps vs F :=
  match o with
  | .nil => .nil
  | .cons p v F ps vs G o os d =>
    .cons p v F ps vs G (o.frame fun m hm => h m (by simp [hm])) (os.frame fun m hm => h m (by simp [hm])) d

theorem OwnedMembers.frame {c c' : Nat → Option Cell} {ms : List (String × Ptr)} {vs : Members} {F : List Nat}
    (o : OwnedMembers c ms vs F) (h : ∀ n ∈ F, c' n = c n) : OwnedMembers c' ms vs F :=
  match o with
  | .nil => .nil
  | .cons k p v F ms vs G o os d u =>
    .cons k p v F ms vs G (o.frame fun m hm => h m (by simp [hm])) (os.frame fun m hm => h m (by simp [hm])) d u

end

mutual

theorem Owned.live {c : Nat → Option Cell} {p : Ptr} {v : Json} {F : List Nat} (o : Owned c p v F) :
    ∀ n ∈ F, c n ≠ none :=
  match o with
  | .null => by simp
  | .bool b => by simp
  | .int n i e => by simp [e]
  | .real n r e => by simp [e]
  | .str n s e => by simp [e]
  | .arr n ps vs F e hn os => by
    intro m hm
    rcases List.mem_cons.mp hm with rfl | hm
    · simp [e]
    · exact os.live m hm
  | .obj n ms vs F e hn os => by
    intro m hm
    rcases List.mem_cons.mp hm with rfl | hm
    · simp [e]
    · exact os.live m hm

theorem OwnedElems.live {c : Nat → Option Cell} {ps : List Ptr} {vs : List Json} {F : List Nat}
    (o : OwnedElems c ps vs F) : ∀ n ∈ F, c n ≠ none :=
  match o with
  | .nil => by simp
  | .cons p v F ps vs G o os d => by
    intro m hm
    rcases List.mem_append.mp hm with hm | hm
    · exact o.live m hm
    · exact os.live m hm

theorem OwnedMembers.live {c : Nat → Option Cell} {ms : List (String × Ptr)} {vs : Members} {F : List Nat}
    (o : OwnedMembers c ms vs F) : ∀ n ∈ F, c n ≠ none :=
  match o with
  | .nil => by simp
  | .cons k p v F ms vs G o os d u => by
    intro m hm
    rcases List.mem_append.mp hm with hm | hm
    · exact o.live m hm
    · exact os.live m hm

end

theorem below {h : Memory} (ok : h.Ok) {n : Nat} (hn : h.cells n ≠ none) : n < h.next := by
  rcases Nat.lt_or_ge n h.next with h1 | h1
  · exact h1
  · exact absurd (ok n h1) hn

theorem Owned.lt {h : Memory} (ok : h.Ok) {p : Ptr} {v : Json} {F : List Nat} (o : Owned h.cells p v F) :
    ∀ n ∈ F, n < h.next := fun n hn => Heap.below ok (o.live n hn)

theorem OwnedElems.lt {h : Memory} (ok : h.Ok) {p : List Ptr} {v : List Json} {F : List Nat}
    (o : OwnedElems h.cells p v F) : ∀ n ∈ F, n < h.next := fun n hn => Heap.below ok (o.live n hn)

theorem OwnedMembers.lt {h : Memory} (ok : h.Ok) {p : List (String × Ptr)} {v : Members} {F : List Nat}
    (o : OwnedMembers h.cells p v F) : ∀ n ∈ F, n < h.next := fun n hn => Heap.below ok (o.live n hn)

theorem Owned.upd {h h' : Memory} (ok : h.Ok) {A B : List Nat} (u : Upd h h' A B) {p : Ptr} {v : Json} {F : List Nat}
    (o : Owned h.cells p v F) (d : Apart F A) : Owned h'.cells p v F :=
  o.frame fun n hn => u.same (d n hn) (o.lt ok n hn)

theorem OwnedElems.upd {h h' : Memory} (ok : h.Ok) {A B : List Nat} (u : Upd h h' A B) {p : List Ptr} {v : List Json}
    {F : List Nat} (o : OwnedElems h.cells p v F) (d : Apart F A) : OwnedElems h'.cells p v F :=
  o.frame fun n hn => u.same (d n hn) (o.lt ok n hn)

theorem OwnedMembers.upd {h h' : Memory} (ok : h.Ok) {A B : List Nat} (u : Upd h h' A B) {p : List (String × Ptr)}
    {v : Members} {F : List Nat} (o : OwnedMembers h.cells p v F) (d : Apart F A) : OwnedMembers h'.cells p v F :=
  o.frame fun n hn => u.same (d n hn) (o.lt ok n hn)

theorem Owned.head {c : Nat → Option Cell} {n : Nat} {v : Json} {F : List Nat} (o : Owned c (.cell n) v F) : n ∈ F := by
  cases o <;> simp

/-! ## Deletion -/

theorem OwnedMembers.elems {c : Nat → Option Cell} : ∀ {ms : List (String × Ptr)} {vs : Members} {F : List Nat},
    OwnedMembers c ms vs F → OwnedElems c (ms.map Prod.snd) (vs.map Prod.snd) F
  | _, _, _, .nil => .nil
  | _, _, _, .cons _ p v F _ _ G o os d _ => .cons p v F _ _ G o os.elems d

theorem sizeOf_values : ∀ ms : Members, sizeOf (ms.map Prod.snd) ≤ sizeOf ms
  | [] => by simp
  | (k, v) :: ms => by
    have := sizeOf_values ms
    simp only [List.map_cons, List.cons.sizeOf_spec, Prod.mk.sizeOf_spec]
    omega

/-- The memory without some cells. -/
def Memory.free (h : Memory) (F : List Nat) : Memory := ⟨h.next, fun n => if n ∈ F then none else h.cells n⟩

theorem free_nil (h : Memory) : h.free [] = h := by simp [Memory.free]

theorem free_append (h : Memory) (F G : List Nat) : (h.free F).free G = h.free (F ++ G) := by
  simp only [Memory.free, Memory.mk.injEq, true_and]
  funext n
  by_cases hg : n ∈ G <;> by_cases hf : n ∈ F <;> simp [hg, hf]

theorem put_free_erase (h : Memory) (n : Nat) (c : Cell) (F : List Nat) :
    ((h.put n c).free F).erase n = h.free (n :: F) := by
  simp only [Memory.free, Memory.put, Memory.erase, Memory.mk.injEq, true_and]
  funext m
  by_cases hm : m = n <;> by_cases hf : m ∈ F <;> simp [hm, hf]

theorem Upd.free {h : Memory} (ok : h.Ok) (F : List Nat) : Upd h (h.free F) F [] :=
  ⟨fun n hn => by simp [Memory.free, ok n hn], Nat.le_refl _, fun n _ => rfl, by simp⟩

mutual

/-- The cells of a value are deleted when its reference is released, and nothing else is changed. -/
theorem decref_owned (v : Json) (h : Memory) (p : Ptr) (F : List Nat) (o : Owned h.cells p v F) :
    decref h p = some (h.free F) := by
  match v, o with
  | .null, .null => simp [decref, free_nil]
  | .bool b, .bool _ => simp [decref, free_nil]
  | .int i, .int n _ e =>
    have := put_free_erase h n ⟨0, .int i⟩ []
    rw [free_nil] at this
    simp [decref, e, Node.children, decrefAll, this]
  | .real i, .real n _ e =>
    have := put_free_erase h n ⟨0, .real i⟩ []
    rw [free_nil] at this
    simp [decref, e, Node.children, decrefAll, this]
  | .str i, .str n _ e =>
    have := put_free_erase h n ⟨0, .str i⟩ []
    rw [free_nil] at this
    simp [decref, e, Node.children, decrefAll, this]
  | .arr vs, .arr n ps _ G e hn os =>
    have := decrefAll_owned vs (h.put n ⟨0, .arr ps⟩) ps G
      (os.frame fun m hm => by simp [Memory.put, show m ≠ n from fun e => hn (e ▸ hm)])
    rw [decref]
    simp [e, Node.children, this, put_free_erase]
  | .obj vs, .obj n ms _ G e hn os =>
    have := decrefAll_owned (vs.map Prod.snd) (h.put n ⟨0, .obj ms⟩) (ms.map Prod.snd) G
      ((os.elems).frame fun m hm => by simp [Memory.put, show m ≠ n from fun e => hn (e ▸ hm)])
    rw [decref]
    simp [e, Node.children, this, put_free_erase]
termination_by sizeOf v
decreasing_by
  · simp
  · have := sizeOf_values vs
    simp only [Json.obj.sizeOf_spec]
    omega

theorem decrefAll_owned (vs : List Json) (h : Memory) (ps : List Ptr) (F : List Nat) (o : OwnedElems h.cells ps vs F) :
    decrefAll h ps = some (h.free F) := by
  match vs, o with
  | [], .nil => simp [decrefAll, free_nil]
  | v :: vs, .cons p _ F ps _ G o os d =>
    rw [decrefAll, decref_owned v h p F o]
    have := decrefAll_owned vs (h.free F) ps G
      (os.frame fun m hm => by simp [Memory.free, show m ∉ F from fun hf => d m hf hm])
    simp [this, free_append]
termination_by sizeOf vs

end

/-! ## Storing -/

theorem appended {c : Nat → Option Cell} {p : Ptr} {v : Json} {F : List Nat} :
    ∀ {ps : List Ptr} {vs : List Json} {G : List Nat}, OwnedElems c ps vs G → Owned c p v F → Apart G F →
      OwnedElems c (ps ++ [p]) (vs ++ [v]) (G ++ F)
  | _, _, _, .nil, o, _ => by
    have := OwnedElems.cons p v F [] [] [] o .nil (by simp [Apart])
    simpa using this
  | _, _, _, .cons q w A ps vs B oq os d, o, h => by
    have h1 := appended os o fun n hn => h n (by simp [hn])
    rw [List.append_assoc]
    refine .cons q w A _ _ (B ++ F) oq h1 fun n hn => ?_
    simp only [List.mem_append, not_or]
    exact ⟨d n hn, h n (by simp [hn])⟩

theorem ne_cell {c : Nat → Option Cell} {p : Ptr} {v : Json} {F G : List Nat} {n : Nat} (o : Owned c p v F) (hn : n ∈ G)
    (d : Apart G F) : p ≠ .cell n := by
  rintro rfl
  exact d n hn o.head

/-- `append` stores the value at the end. -/
theorem appendNew_owned {h : Memory} (ok : h.Ok) {a p : Ptr} {us : List Json} {v : Json} {A F : List Nat}
    (oa : Owned h.cells a (.arr us) A) (op : Owned h.cells p v F) (d : Apart A F) :
    ∃ h' A', appendNew h (some a) (some p) = some h' ∧ Owned h'.cells a (.arr (us ++ [v])) A' ∧
      Upd h h' (A ++ F) A' := by
  cases oa with
  | arr n ps _ G e hn os =>
    have hne := ne_cell op (show n ∈ n :: G by simp) d
    refine ⟨h.put n ⟨1, .arr (ps ++ [p])⟩, n :: (G ++ F), ?_, ?_, ?_⟩
    · simp [appendNew, hne, e]
    · have hd : n ∉ F := d n (by simp)
      refine .arr n (ps ++ [p]) _ _ (by simp [Memory.put]) (by simp [hn, hd]) ?_
      refine (appended os op fun m hm => d m (by simp [hm])).frame fun m hm => ?_
      have : m ≠ n := by
        rintro rfl
        rcases List.mem_append.mp hm with hm | hm
        · exact hn hm
        · exact hd hm
      simp [Memory.put, this]
    · refine ⟨?_, Nat.le_refl _, ?_, ?_⟩
      · intro m hm
        have : n < h.next := Heap.below ok (by simp [e])
        simp only [Memory.put] at hm ⊢
        rw [if_neg (by omega)]
        exact ok m hm
      · intro m hm
        simp only [List.mem_cons, List.mem_append, not_or] at hm
        simp [Memory.put, hm]
      · intro m hm
        simp only [List.mem_cons, List.mem_append] at hm ⊢
        exact .inl (by rcases hm with h1 | h1 | h1 <;> simp [h1])

theorem keys_eq {c : Nat → Option Cell} (k : String) : ∀ {ms : List (String × Ptr)} {vs : Members} {F : List Nat},
    OwnedMembers c ms vs F → find k ms = none → lookup k vs = none ∧ ∀ w, (k, w) ∉ vs
  | _, _, _, .nil, _ => by simp [lookup]
  | _, _, _, .cons k' p v F ms vs G o os d u, h => by
    simp only [find] at h
    split at h
    · exact absurd h (by simp)
    · rename_i hk
      obtain ⟨h1, h2⟩ := keys_eq k os h
      refine ⟨by simp [lookup, hk, h1], fun w hw => ?_⟩
      rcases List.mem_cons.mp hw with hw | hw
      · injection hw with h3 h4
        exact hk h3.symm
      · exact h2 w hw

theorem mem_set {k k' : String} {v w : Json} : ∀ {vs : Members}, (k', w) ∈ set k v vs → k' = k ∨ (k', w) ∈ vs
  | [], h => by simp only [set, List.mem_singleton, Prod.mk.injEq] at h; exact .inl h.1
  | (j, x) :: vs, h => by
    simp only [set] at h
    split at h
    · rcases List.mem_cons.mp h with h | h
      · injection h with h1; exact .inl h1
      · exact .inr (by simp [h])
    · rcases List.mem_cons.mp h with h | h
      · exact .inr (by simp [h])
      · rcases mem_set h with h | h
        · exact .inl h
        · exact .inr (by simp [h])

/-- Under a key that is not there. -/
theorem stored_new {c : Nat → Option Cell} {k : String} {p : Ptr} {v : Json} {F : List Nat} :
    ∀ {ms : List (String × Ptr)} {vs : Members} {G : List Nat}, OwnedMembers c ms vs G → find k ms = none →
      Owned c p v F → Apart G F → OwnedMembers c (store k p ms) (set k v vs) (G ++ F)
  | _, _, _, .nil, _, o, _ => by
    have := OwnedMembers.cons k p v F [] [] [] o .nil (by simp [Apart]) (by simp)
    simpa [store, set] using this
  | _, _, _, .cons k' q w A ms vs B oq os d u, hf, o, h => by
    simp only [find] at hf
    split at hf
    · exact absurd hf (by simp)
    · rename_i hk
      have h1 := stored_new os hf o fun n hn => h n (by simp [hn])
      simp only [store, set, if_neg hk]
      rw [List.append_assoc]
      refine .cons k' q w A _ _ (B ++ F) oq h1 (fun n hn => ?_) (fun x hx => ?_)
      · simp only [List.mem_append, not_or]
        exact ⟨d n hn, h n (by simp [hn])⟩
      · rcases mem_set hx with h2 | h2
        · exact hk h2
        · exact u x h2

/-- Under a key that is there: the cells of the old value are not used any more. -/
theorem stored_old {c : Nat → Option Cell} {k : String} {q : Ptr} :
    ∀ {ms : List (String × Ptr)} {vs : Members} {G : List Nat}, OwnedMembers c ms vs G → find k ms = some q →
      ∃ old Q, Owned c q old Q ∧ lookup k vs = some old ∧ (∀ n ∈ Q, n ∈ G) ∧
        ∀ (c' : Nat → Option Cell) (p : Ptr) (v : Json) (F : List Nat), (∀ n ∈ G, n ∉ Q → c' n = c n) →
          Owned c' p v F → Apart G F →
          ∃ G', OwnedMembers c' (store k p ms) (set k v vs) G' ∧ ∀ n, n ∈ G' ↔ (n ∈ G ∧ n ∉ Q) ∨ n ∈ F
  | _, _, _, .nil, h => by simp [find] at h
  | _, _, _, .cons k' r w A ms vs B o os d u, h => by
    simp only [find] at h
    by_cases hk : k' = k
    · rw [if_pos hk] at h
      injection h with h; subst h; subst hk
      refine ⟨w, A, o, by simp [lookup], fun n hn => by simp [hn], fun c' p v F hc op hd => ?_⟩
      refine ⟨F ++ B, ?_, ?_⟩
      · simp only [store, set, if_pos]
        refine .cons k' p v F ms vs B op (os.frame fun n hn => hc n (by simp [hn]) fun ha => d n ha hn)
          (fun n hn hb => hd n (by simp [hb]) hn) u
      · intro n
        simp only [List.mem_append]
        constructor
        · rintro (hf | hb)
          · exact .inr hf
          · exact .inl ⟨.inr hb, fun ha => d n ha hb⟩
        · rintro (⟨ha | hb, hn⟩ | hf)
          · exact absurd ha hn
          · exact .inr hb
          · exact .inl hf
    · rw [if_neg hk] at h
      obtain ⟨old, Q, oq, hl, hq, hs⟩ := stored_old os h
      refine ⟨old, Q, oq, by simp [lookup, hk, hl], fun n hn => by simp [hq n hn], fun c' p v F hc op hd => ?_⟩
      obtain ⟨G', og, hg⟩ := hs c' p v F (fun n hn hnq => hc n (by simp [hn]) hnq) op fun n hn => hd n (by simp [hn])
      have hAQ : ∀ n ∈ A, n ∉ Q := fun n ha hn => d n ha (hq n hn)
      refine ⟨A ++ G', ?_, ?_⟩
      · simp only [store, set, if_neg hk]
        refine .cons k' r w A _ _ G' (o.frame fun n hn => hc n (by simp [hn]) (hAQ n hn)) og (fun n hn hg' => ?_)
          (fun x hx => ?_)
        · rcases (hg n).mp hg' with ⟨h1, _⟩ | h1
          · exact d n hn h1
          · exact hd n (by simp [hn]) h1
        · rcases mem_set hx with h2 | h2
          · exact hk h2
          · exact u x h2
      · intro n
        simp only [List.mem_append, hg]
        constructor
        · rintro (ha | ⟨hb, hn⟩ | hf)
          · exact .inl ⟨.inl ha, hAQ n ha⟩
          · exact .inl ⟨.inr hb, hn⟩
          · exact .inr hf
        · rintro (⟨ha | hb, hn⟩ | hf)
          · exact .inl ha
          · exact .inr (.inl ⟨hb, hn⟩)
          · exact .inr (.inr hf)

/-- `set` stores the value under the key, and deletes what was there. -/
theorem setNew_owned {h : Memory} (ok : h.Ok) {a p : Ptr} {k : String} {us : Members} {v : Json} {A F : List Nat}
    (oa : Owned h.cells a (.obj us) A) (op : Owned h.cells p v F) (d : Apart A F) :
    ∃ h' A', setNew h (some a) k (some p) = some h' ∧ Owned h'.cells a (.obj (set k v us)) A' ∧
      Upd h h' (A ++ F) A' := by
  cases oa with
  | obj n ms _ G e hn os =>
    have hne := ne_cell op (show n ∈ n :: G by simp) d
    have hd : n ∉ F := d n (by simp)
    have hlt : n < h.next := Heap.below ok (by simp [e])
    cases hf : find k ms with
    | none =>
      refine ⟨h.put n ⟨1, .obj (store k p ms)⟩, n :: (G ++ F), ?_, ?_, ?_⟩
      · simp [setNew, hne, e, hf]
      · refine .obj n (store k p ms) _ _ (by simp [Memory.put]) (by simp [hn, hd]) ?_
        refine (stored_new os hf op fun m hm => d m (by simp [hm])).frame fun m hm => ?_
        have : m ≠ n := by
          rintro rfl
          rcases List.mem_append.mp hm with hm | hm
          · exact hn hm
          · exact hd hm
        simp [Memory.put, this]
      · refine ⟨?_, Nat.le_refl _, ?_, ?_⟩
        · intro m hm
          simp only [Memory.put] at hm ⊢
          rw [if_neg (by omega)]
          exact ok m hm
        · intro m hm
          simp only [List.mem_cons, List.mem_append, not_or] at hm
          simp [Memory.put, hm]
        · intro m hm
          simp only [List.mem_cons, List.mem_append] at hm ⊢
          exact .inl (by rcases hm with h1 | h1 | h1 <;> simp [h1])
    | some q =>
      obtain ⟨old, Q, oq, hl, hq, hs⟩ := stored_old os hf
      have hdec := decref_owned old h q Q oq
      have hnQ : n ∉ Q := fun hh => hn (hq n hh)
      have hFQ : ∀ m ∈ F, m ∉ Q := fun m hm hh => d m (by simp [hq m hh]) hm
      let h' := (h.free Q).put n ⟨1, .obj (store k p ms)⟩
      have hc : ∀ m, m ≠ n → m ∉ Q → h'.cells m = h.cells m := fun m h1 h2 => by
        simp [h', Memory.put, Memory.free, h1, h2]
      obtain ⟨G', og, hg⟩ := hs h'.cells p v F
        (fun m hm hmq => hc m (fun e => hn (e ▸ hm)) hmq)
        (op.frame fun m hm => hc m (fun e => hd (e ▸ hm)) (hFQ m hm))
        (fun m hm => d m (by simp [hm]))
      refine ⟨h', n :: G', ?_, ?_, ?_⟩
      · simp [setNew, hne, e, hf, hdec, h']
      · refine .obj n (store k p ms) _ _ (by simp [h', Memory.put]) ?_ og
        rw [hg]
        simp [hn, hd]
      · refine ⟨?_, Nat.le_refl _, ?_, ?_⟩
        · intro m hm
          simp only [h', Memory.put, Memory.free] at hm ⊢
          rw [if_neg (by omega), ok m hm]
          simp
        · intro m hm
          simp only [List.mem_cons, not_or, hg, not_and, Classical.not_not] at hm
          obtain ⟨h1, h2, h3⟩ := hm
          simp only [h', Memory.put, Memory.free, List.mem_append, List.mem_cons, h1, h3, false_or, or_false]
          by_cases hmQ : m ∈ Q
          · simp [hmQ, hq m hmQ]
          · have : m ∉ G := fun hh => hmQ (h2 hh)
            simp [hmQ, this]
        · intro m hm
          simp only [List.mem_cons, hg, List.mem_append] at hm ⊢
          exact .inl (by rcases hm with h1 | h1 | h1 <;> simp [h1])

/-! ## Copying -/

theorem Memory.Ok.alloc {h : Memory} (ok : h.Ok) (node : Node) : (h.alloc node).2.Ok := by
  intro n hn
  simp only [Memory.alloc] at hn ⊢
  rw [if_neg (by omega)]
  exact ok n (by omega)

theorem Upd.alloc {h : Memory} (ok : h.Ok) (node : Node) : Upd h (h.alloc node).2 [] [h.next] := by
  refine ⟨ok.alloc node, by simp [Memory.alloc], ?_, ?_⟩
  · intro n hn
    simp only [List.mem_singleton] at hn
    simp [Memory.alloc, hn]
  · intro n hn
    simp only [List.mem_singleton] at hn
    exact .inr (by omega)

theorem set_new {k : String} {v : Json} : ∀ {vs : Members}, (∀ w, (k, w) ∉ vs) → set k v vs = vs ++ [(k, v)]
  | [], _ => rfl
  | (j, x) :: vs, h => by
    have hk : j ≠ k := fun e => h x (by simp [e])
    simp only [set, if_neg hk, List.cons_append]
    rw [set_new fun w hw => h w (by simp [hw])]

mutual

/-- The copy holds the same value, in new cells. -/
theorem deepCopy_owned (v : Json) (h : Memory) (ok : h.Ok) (p : Ptr) (F : List Nat) (o : Owned h.cells p v F) :
    ∃ p' h' G, deepCopy h p = some (p', h') ∧ Owned h'.cells p' v G ∧ Upd h h' [] G := by
  match v, o with
  | .null, .null => exact ⟨.null, h, [], by simp [deepCopy], .null, .refl ok []⟩
  | .bool b, .bool _ => exact ⟨.bool b, h, [], by simp [deepCopy], .bool b, .refl ok []⟩
  | .int i, .int n _ e =>
    exact ⟨_, _, _, by simp only [deepCopy, e]; rfl, .int h.next i (by simp [Memory.alloc]), .alloc ok _⟩
  | .real i, .real n _ e =>
    exact ⟨_, _, _, by simp only [deepCopy, e]; rfl, .real h.next i (by simp [Memory.alloc]), .alloc ok _⟩
  | .str i, .str n _ e =>
    exact ⟨_, _, _, by simp only [deepCopy, e]; rfl, .str h.next i (by simp [Memory.alloc]), .alloc ok _⟩
  | .arr vs, .arr n ps _ G e hn os =>
    have hu := Upd.alloc ok (.arr [])
    have o0 : Owned (h.alloc (.arr [])).2.cells (.cell h.next) (.arr []) [h.next] :=
      .arr h.next [] [] [] (by simp [Memory.alloc]) (by simp) .nil
    obtain ⟨h', A', he, oa, ua⟩ := copyElems_owned vs (h.alloc (.arr [])).2 hu.ok (.cell h.next) ps G [] [h.next] o0
      (os.upd ok hu (by simp [Apart])) (by
        intro m hm hG
        simp only [List.mem_singleton] at hm
        have := os.lt ok m hG
        omega)
    refine ⟨.cell h.next, h', A', ?_, by simpa using oa, hu.trans ok ua⟩
    rw [deepCopy]
    simp only [e]
    show (copyElems (h.alloc (.arr [])).2 (.cell h.next) ps >>= fun h' => some (Ptr.cell h.next, h')) = _
    rw [he]; rfl
  | .obj vs, .obj n ms _ G e hn os =>
    have hu := Upd.alloc ok (.obj [])
    have o0 : Owned (h.alloc (.obj [])).2.cells (.cell h.next) (.obj []) [h.next] :=
      .obj h.next [] [] [] (by simp [Memory.alloc]) (by simp) .nil
    obtain ⟨h', A', he, oa, ua⟩ := copyMembers_owned vs (h.alloc (.obj [])).2 hu.ok (.cell h.next) ms G [] [h.next] o0
      (os.upd ok hu (by simp [Apart])) (by
        intro m hm hG
        simp only [List.mem_singleton] at hm
        have := os.lt ok m hG
        omega) (by simp)
    refine ⟨.cell h.next, h', A', ?_, by simpa using oa, hu.trans ok ua⟩
    rw [deepCopy]
    simp only [e]
    show (copyMembers (h.alloc (.obj [])).2 (.cell h.next) ms >>= fun h' => some (Ptr.cell h.next, h')) = _
    rw [he]; rfl
termination_by sizeOf v

/-- Copies of the elements are added to the array. -/
theorem copyElems_owned (vs : List Json) (h : Memory) (ok : h.Ok) (r : Ptr) (ps : List Ptr) (F : List Nat)
    (us : List Json) (A : List Nat) (oa : Owned h.cells r (.arr us) A) (o : OwnedElems h.cells ps vs F)
    (d : Apart A F) :
    ∃ h' A', copyElems h r ps = some h' ∧ Owned h'.cells r (.arr (us ++ vs)) A' ∧ Upd h h' A A' := by
  match vs, o with
  | [], .nil => exact ⟨h, A, by simp [copyElems], by simpa using oa, .refl ok A⟩
  | v :: vs, .cons p _ F₁ ps _ F₂ op os dp =>
    obtain ⟨p', h₁, G, e1, o1, u1⟩ := deepCopy_owned v h ok p F₁ op
    have oa1 := oa.upd ok u1 (by simp [Apart])
    have dAG : Apart A G := fun n hn hG => by
      rcases u1.new n hG with h2 | h2
      · simp at h2
      · have := oa.lt ok n hn; omega
    obtain ⟨h₂, A₂, e2, o2, u2⟩ := appendNew_owned u1.ok oa1 o1 dAG
    have u12 : Upd h h₂ A A₂ :=
      ((u1.frame A).congr (fun n => by simp) (fun n => by simp [or_comm])).trans ok u2
    have dA : Apart A₂ F₂ := fun n hn hf => by
      rcases u12.new n hn with h2 | h2
      · exact d n h2 (by simp [hf])
      · have := os.lt ok n hf; omega
    have os2 := os.upd ok u12 (fun n hn ha => d n ha (by simp [hn]))
    obtain ⟨h₃, A₃, e3, o3, u3⟩ := copyElems_owned vs h₂ u2.ok r ps F₂ (us ++ [v]) A₂ o2 os2 dA
    refine ⟨h₃, A₃, ?_, by simpa using o3, u12.trans ok u3⟩
    rw [copyElems]
    simp [e1, e2, e3]
termination_by sizeOf vs

/-- Copies of the members are added to the object. -/
theorem copyMembers_owned (vs : Members) (h : Memory) (ok : h.Ok) (r : Ptr) (ms : List (String × Ptr)) (F : List Nat)
    (us : Members) (A : List Nat) (oa : Owned h.cells r (.obj us) A) (o : OwnedMembers h.cells ms vs F)
    (d : Apart A F) (hk : ∀ k v w, (k, v) ∈ vs → (k, w) ∉ us) :
    ∃ h' A', copyMembers h r ms = some h' ∧ Owned h'.cells r (.obj (us ++ vs)) A' ∧ Upd h h' A A' := by
  match vs, o with
  | [], .nil => exact ⟨h, A, by simp [copyMembers], by simpa using oa, .refl ok A⟩
  | (_, v) :: vs, .cons k p _ F₁ ms _ F₂ op os dp u =>
    obtain ⟨p', h₁, G, e1, o1, u1⟩ := deepCopy_owned v h ok p F₁ op
    have oa1 := oa.upd ok u1 (by simp [Apart])
    have dAG : Apart A G := fun n hn hG => by
      rcases u1.new n hG with h2 | h2
      · simp at h2
      · have := oa.lt ok n hn; omega
    obtain ⟨h₂, A₂, e2, o2, u2⟩ := setNew_owned (k := k) u1.ok oa1 o1 dAG
    rw [set_new fun w => hk k v w (by simp)] at o2
    have u12 : Upd h h₂ A A₂ :=
      ((u1.frame A).congr (fun n => by simp) (fun n => by simp [or_comm])).trans ok u2
    have dA : Apart A₂ F₂ := fun n hn hf => by
      rcases u12.new n hn with h2 | h2
      · exact d n h2 (by simp [hf])
      · have := os.lt ok n hf; omega
    have os2 := os.upd ok u12 (fun n hn ha => d n ha (by simp [hn]))
    obtain ⟨h₃, A₃, e3, o3, u3⟩ := copyMembers_owned vs h₂ u2.ok r ms F₂ (us ++ [(k, v)]) A₂ o2 os2 dA (by
      intro j x w hj hw
      rcases List.mem_append.mp hw with hw | hw
      · exact hk j x w (by simp [hj]) hw
      · simp only [List.mem_singleton, Prod.mk.injEq] at hw
        rw [hw.1] at hj
        exact u x hj)
    refine ⟨h₃, A₃, ?_, by simpa using o3, u12.trans ok u3⟩
    rw [copyMembers]
    simp [e1, e2, e3]
termination_by sizeOf vs

end

/-! ## Merging -/

theorem type_owned {h : Memory} {p : Ptr} {v : Json} {F : List Nat} (o : Owned h.cells p v F) :
    h.type p = some v.type := by
  cases o with
  | null => rfl
  | bool b => cases b <;> rfl
  | int n i e => simp [Memory.type, e, Json.type]
  | real n i e => simp [Memory.type, e, Json.type]
  | str n i e => simp [Memory.type, e, Json.type]
  | arr n ps vs F e hn os => simp [Memory.type, e, Json.type]
  | obj n ps vs F e hn os => simp [Memory.type, e, Json.type]

theorem found {c : Nat → Option Cell} {k : String} : ∀ {ms : List (String × Ptr)} {vs : Members} {F : List Nat},
    OwnedMembers c ms vs F →
    (find k ms = none ∧ lookup k vs = none) ∨
      ∃ q v Q, find k ms = some q ∧ lookup k vs = some v ∧ Owned c q v Q ∧ ∀ n ∈ Q, n ∈ F := by
  intro ms vs F o
  cases hf : find k ms with
  | none => exact .inl ⟨rfl, (keys_eq k o hf).1⟩
  | some q =>
    obtain ⟨old, Q, oq, hl, hq, _⟩ := stored_old o hf
    exact .inr ⟨q, old, Q, rfl, hl, oq, hq⟩

theorem get_owned {h : Memory} {a : Ptr} {us : Members} {A : List Nat} (oa : Owned h.cells a (.obj us) A) (k : String) :
    (h.get a k = some none ∧ lookup k us = none) ∨
      ∃ q v Q, h.get a k = some (some q) ∧ lookup k us = some v ∧ Owned h.cells q v Q ∧ ∀ n ∈ Q, n ∈ A := by
  cases oa with
  | obj n ms _ F e hn os =>
    rcases found (k := k) os with ⟨h1, h2⟩ | ⟨q, v, Q, h1, h2, h3, h4⟩
    · exact .inl ⟨by simp [Memory.get, e, h1], h2⟩
    · exact .inr ⟨q, v, Q, by simp [Memory.get, e, h1], h2, h3, fun n hn => by simp [h4 n hn]⟩

theorem setCopy_owned {h : Memory} (ok : h.Ok) {a q : Ptr} {k : String} {us : Members} {v : Json} {A F : List Nat}
    (oa : Owned h.cells a (.obj us) A) (oq : Owned h.cells q v F) :
    ∃ h' A', setCopy h a k q = some h' ∧ Owned h'.cells a (.obj (set k v us)) A' ∧ Upd h h' A A' := by
  obtain ⟨p', h₁, G, e1, o1, u1⟩ := deepCopy_owned v h ok q F oq
  have oa1 := oa.upd ok u1 (by simp [Apart])
  have dAG : Apart A G := fun n hn hG => by
    rcases u1.new n hG with h2 | h2
    · simp at h2
    · have := oa.lt ok n hn; omega
  obtain ⟨h₂, A₂, e2, o2, u2⟩ := setNew_owned (k := k) u1.ok oa1 o1 dAG
  refine ⟨h₂, A₂, by simp [setCopy, e1, e2], o2, ?_⟩
  exact ((u1.frame A).congr (fun n => by simp) (fun n => by simp [or_comm])).trans ok u2

theorem setTemporary_owned {h : Memory} (ok : h.Ok) {a c : Ptr} {k : String} {us : Members} {v : Json} {A C : List Nat}
    (oa : Owned h.cells a (.obj us) A) (oc : Owned h.cells c v C) (d : Apart A C) :
    ∃ h' A', setTemporary h a k c = some h' ∧ Owned h'.cells a (.obj (set k v us)) A' ∧ Upd h h' (A ++ C) A' := by
  obtain ⟨p', h₁, G, e1, o1, u1⟩ := deepCopy_owned v h ok c C oc
  have oa1 := oa.upd ok u1 (by simp [Apart])
  have oc1 := oc.upd ok u1 (by simp [Apart])
  have hG : ∀ n ∈ G, h.next ≤ n := fun n hn => (u1.new n hn).resolve_left (by simp)
  have dAG : Apart A G := fun n hn hg => by
    have := oa.lt ok n hn
    have := hG n hg
    omega
  have dCG : Apart C G := fun n hn hg => by
    have := oc.lt ok n hn
    have := hG n hg
    omega
  obtain ⟨h₂, A₂, e2, o2, u2⟩ := setNew_owned (k := k) u1.ok oa1 o1 dAG
  have hC : Apart C (A ++ G) := fun n hn ha => by
    rcases List.mem_append.mp ha with ha | ha
    · exact d n ha hn
    · exact dCG n hn ha
  have oc2 := oc1.upd u1.ok u2 hC
  have hA₂ : Apart A₂ C := fun n hn hc => by
    rcases u2.new n hn with h2 | h2
    · exact hC n hc h2
    · have := oc1.lt u1.ok n hc; omega
  have e3 := decref_owned v h₂ c C oc2
  have u3 := Upd.free u2.ok C
  refine ⟨h₂.free C, A₂, by simp [setTemporary, e1, e2, e3], ?_, ?_⟩
  · exact o2.upd u2.ok u3 hA₂
  · have w1 := (u1.frame (A ++ C)).congr (A' := A ++ C) (B' := (A ++ G) ++ C) (fun n => by simp)
      (fun n => by simp only [List.mem_append]; grind)
    have w2 := (u2.frame C)
    have w3 := (u3.frame A₂).congr (A' := A₂ ++ C) (B' := A₂) (fun n => by simp [or_comm]) (fun n => by simp)
    exact (w1.trans ok w2).trans ok w3

theorem type_array {v : Json} (h : v.type = .array) : ∃ vs, v = .arr vs := by
  cases v with
  | arr vs => exact ⟨vs, rfl⟩
  | bool b => cases b <;> simp [Json.type] at h
  | _ => simp [Json.type] at h

theorem type_compound {v : Json} (h : v.type = .compound) : ∃ vs, v = .obj vs := by
  cases v with
  | obj vs => exact ⟨vs, rfl⟩
  | bool b => cases b <;> simp [Json.type] at h
  | _ => simp [Json.type] at h

theorem mergeValue_mismatch {x v : Json} (h : x.type ≠ v.type) : mergeValue x v = none := by
  cases v with
  | arr vs => cases x <;> simp_all [mergeValue, Json.type]
  | obj vs => cases x <;> simp_all [mergeValue, Json.type]
  | null => simp_all [mergeValue, Json.type]
  | bool b => simp_all [mergeValue]
  | int b => simp_all [mergeValue, Json.type]
  | real b => simp_all [mergeValue, Json.type]
  | str b => simp_all [mergeValue, Json.type]

theorem mergeValue_other {x v : Json} (h : x.type = v.type) (ha : x.type ≠ .array) (hc : x.type ≠ .compound) :
    mergeValue x v = some v := by
  cases v with
  | arr vs => simp_all [Json.type]
  | obj vs => simp_all [Json.type]
  | null => simp_all [mergeValue, Json.type]
  | bool b => simp_all [mergeValue]
  | int b => simp_all [mergeValue, Json.type]
  | real b => simp_all [mergeValue, Json.type]
  | str b => simp_all [mergeValue, Json.type]

mutual

/-- `operator|=` for compounds. -/
theorem mergeObj_owned (vs : Members) (h : Memory) (ok : h.Ok) (a b : Ptr) (F : List Nat)
    (us : Members) (A : List Nat) (oa : Owned h.cells a (.obj us) A) (ob : Owned h.cells b (.obj vs) F)
    (d : Apart A F) :
    ∃ h' A', mergeObj h a b = some ((mergeInto us vs).2, h') ∧ Owned h'.cells a (.obj (mergeInto us vs).1) A' ∧
      Upd h h' A A' := by
  cases ob with
  | obj n ms _ G e hn os =>
    obtain ⟨h', A', e1, o1, u1⟩ := mergeLoop_owned vs h ok a ms G us A oa os fun m hm hg => d m hm (by simp [hg])
    refine ⟨h', A', ?_, o1, u1⟩
    rw [mergeObj]
    simp [Memory.members, e, e1]
termination_by (sizeOf vs, 1)

theorem mergeLoop_owned (vs : Members) (h : Memory) (ok : h.Ok) (a : Ptr) (ms : List (String × Ptr)) (F : List Nat)
    (us : Members) (A : List Nat) (oa : Owned h.cells a (.obj us) A) (o : OwnedMembers h.cells ms vs F)
    (d : Apart A F) :
    ∃ h' A', mergeLoop h a ms = some ((mergeInto us vs).2, h') ∧ Owned h'.cells a (.obj (mergeInto us vs).1) A' ∧
      Upd h h' A A' := by
  match vs, o with
  | [], .nil => exact ⟨h, A, by simp [mergeLoop, mergeInto], by simpa [mergeInto] using oa, .refl ok A⟩
  | (_, v) :: vs, .cons k p _ F₁ ms _ F₂ op os dp u =>
    -- what happens after `a` has been changed under the key
    have next : ∀ (w : Json) (h₁ : Memory) (A₁ : List Nat), Owned h₁.cells a (.obj (set k w us)) A₁ → Upd h h₁ A A₁ →
        ∃ h' A', mergeLoop h₁ a ms = some ((mergeInto (set k w us) vs).2, h') ∧
          Owned h'.cells a (.obj (mergeInto (set k w us) vs).1) A' ∧ Upd h h' A A' := by
      intro w h₁ A₁ o1 u1
      have os1 := os.upd ok u1 fun n hn ha => d n ha (by simp [hn])
      obtain ⟨h', A', e2, o2, u2⟩ := mergeLoop_owned vs h₁ u1.ok a ms F₂ (set k w us) A₁ o1 os1 (by
        intro n hn hf
        rcases u1.new n hn with h2 | h2
        · exact d n h2 (by simp [hf])
        · have := os.lt ok n hf; omega)
      exact ⟨h', A', e2, o2, u1.trans ok u2⟩
    have copied : ∃ h' A', ((setCopy h a k p) >>= fun h' => mergeLoop h' a ms) = some ((mergeInto (set k v us) vs).2, h') ∧
          Owned h'.cells a (.obj (mergeInto (set k v us) vs).1) A' ∧ Upd h h' A A' := by
      obtain ⟨h₁, A₁, e1, o1, u1⟩ := setCopy_owned (k := k) ok oa op
      obtain ⟨h', A', e2, o2, u2⟩ := next v h₁ A₁ o1 u1
      exact ⟨h', A', by simp [e1, e2], o2, u2⟩
    rw [mergeLoop]
    rcases get_owned oa k with ⟨hg, hl⟩ | ⟨q, x, Q, hg, hl, oq, hQ⟩
    · simp only [mergeInto, hl, hg, Option.bind_eq_bind, Option.bind_some]
      simpa using copied
    · simp only [mergeInto, hl, hg, type_owned oq, type_owned op, Option.bind_eq_bind, Option.bind_some, mergeItem]
      by_cases ht : x.type = v.type
      · simp only [ht, ne_eq, not_true_eq_false, if_false]
        by_cases ha : v.type = .array
        · -- arrays
          obtain ⟨ys, rfl⟩ : ∃ ys, v = .arr ys := type_array ha
          obtain ⟨xs, rfl⟩ : ∃ xs, x = .arr xs := type_array (ht.trans ha)
          simp only [Json.type, if_true, mergeValue]
          obtain ⟨c, h₁, C, e1, o1, u1⟩ := deepCopy_owned _ h ok q Q oq
          have hC : ∀ n ∈ C, h.next ≤ n := fun n hn => (u1.new n hn).resolve_left (by simp)
          have op1 := op.upd ok u1 (by simp [Apart])
          cases op1 with
          | arr n es _ E en hn oes =>
            have dCE : Apart C E := fun m hm he => by
              have := op.lt ok m (by simp [he])
              have := hC m hm
              omega
            obtain ⟨h₂, C₂, e2, o2, u2⟩ := copyElems_owned ys h₁ u1.ok c es E xs C o1 oes dCE
            have u12 := u1.trans ok u2
            have dAC : Apart A C₂ := fun m hm hc => by
              have := oa.lt ok m hm
              have := (u12.new m hc).resolve_left (by simp)
              omega
            obtain ⟨h₃, A₃, e3, o3, u3⟩ :=
              setTemporary_owned (k := k) u2.ok (oa.upd ok u12 (by simp [Apart])) o2 dAC
            have u13 : Upd h h₃ A A₃ :=
              ((u12.frame A).congr (fun n => by simp) (fun n => by simp [or_comm])).trans ok u3
            obtain ⟨h', A', e4, o4, u4⟩ := next _ h₃ A₃ o3 u13
            exact ⟨h', A', by simp [e1, Memory.elems, en, e2, e3, e4], o4, u4⟩
        · by_cases hc : v.type = .compound
          · -- compounds
            obtain ⟨ys, rfl⟩ : ∃ ys, v = .obj ys := type_compound hc
            obtain ⟨xs, rfl⟩ : ∃ xs, x = .obj xs := type_compound (ht.trans hc)
            simp only [Json.type, reduceCtorEq, if_false, if_true, mergeValue]
            obtain ⟨c, h₁, C, e1, o1, u1⟩ := deepCopy_owned _ h ok q Q oq
            have hC : ∀ n ∈ C, h.next ≤ n := fun n hn => (u1.new n hn).resolve_left (by simp)
            have op1 := op.upd ok u1 (by simp [Apart])
            have dCF : Apart C F₁ := fun m hm he => by
              have := op.lt ok m he
              have := hC m hm
              omega
            obtain ⟨h₂, C₂, e2, o2, u2⟩ := mergeObj_owned ys h₁ u1.ok c p F₁ xs C o1 op1 dCF
            have u12 := u1.trans ok u2
            have dAC : Apart A C₂ := fun m hm hc => by
              have := oa.lt ok m hm
              have := (u12.new m hc).resolve_left (by simp)
              omega
            have oa2 := oa.upd ok u12 (by simp [Apart])
            cases hm : mergeInto xs ys with
            | mk m good =>
              rw [hm] at e2 o2
              simp only at e2 o2
              cases good with
              | true =>
                obtain ⟨h₃, A₃, e3, o3, u3⟩ := setTemporary_owned (k := k) u2.ok oa2 o2 dAC
                have u13 : Upd h h₃ A A₃ :=
                  ((u12.frame A).congr (fun n => by simp) (fun n => by simp [or_comm])).trans ok u3
                obtain ⟨h', A', e4, o4, u4⟩ := next _ h₃ A₃ o3 u13
                exact ⟨h', A', by simp [e1, e2, e3, e4], o4, u4⟩
              | false =>
                have e3 := decref_owned _ h₂ c C₂ o2
                have u3 := Upd.free u2.ok C₂
                refine ⟨h₂.free C₂, A, by simp [e1, e2, e3], oa2.upd u2.ok u3 dAC, ?_⟩
                exact (((u12.trans ok u3).frame A).congr (fun n => by simp) (fun n => by simp))
          · rw [mergeValue_other ht (by rwa [ht]) (by rwa [ht])]
            simp only [ha, hc, if_false]
            simpa using copied
      · simp only [ne_eq, ht, not_false_eq_true, if_true, mergeValue_mismatch ht]
        exact ⟨h, A, rfl, oa, .refl ok A⟩
termination_by (sizeOf vs, 0)

end

end Maike.Kvs.Heap
