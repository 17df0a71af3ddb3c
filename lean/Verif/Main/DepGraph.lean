import Verif.Main.Request
import Verif.Main.Source
import Verif.Main.Targets

/-!
# Printing the dependency graph (C77)

`--print-dep-graph`, core/bin/maike.cpp:72-94.
-/

namespace Maike.Main

open Fs Tree Paths

/-! ## Model -/

/-- `operator<` for `std::pair<fs::path, fs::path>`. -/
def pairLt (a b : Path × Path) : Bool := a.1.lt b.1 || (!b.1.lt a.1 && a.2.lt b.2)

/-- `std::set::insert`, core/bin/maike.cpp:83. -/
def insertPair (x : Path × Path) : List (Path × Path) → List (Path × Path)
  | [] => [x]
  | y :: l => if pairLt x y then x :: y :: l else if pairLt y x then y :: insertPair x l else y :: l

/-- What is inserted, in this order: core/bin/maike.cpp:75-88 with core/db/dependency_graph.hpp:63-68 and
core/db/source_file_record.hpp:64-73. -/
def visitedEdges (g : Db.DepGraph Path) : List (Path × Path) :=
  g.files.flatMap fun x => (x.2.useDeps ++ x.2.buildDeps).map fun e => (x.1, e.name)

/-- The set, core/bin/maike.cpp:74-88. -/
def graphEdges (g : Db.DepGraph Path) : List (Path × Path) := (visitedEdges g).foldl (fun out x => insertPair x out) []

/-- The text between the two names, core/bin/maike.cpp:91. -/
def arrow : Str := ['"', ' ', '-', '>', ' ', '"']

/-- One line, core/bin/maike.cpp:91. -/
def edgeLine (x : Path × Path) : Str := '"' :: x.1.str ++ arrow ++ x.2.str ++ ['"']

/-- The lines printed, core/bin/maike.cpp:89-93. -/
def graphLines (g : Db.DepGraph Path) : List Str :=
  [['d', 'i', 'g', 'r', 'a', 'p', 'h', ' ', '"', 'G', '"', ' ', '{'], ['r', 'a', 'n', 'k', 'd', 'i', 'r', '=', 'L', 'R'], []] ++
    (graphEdges g).map edgeLine ++ [['}']]

/-! ## Specification -/

/-- One can get from `a` to `b` by following edges of the list. -/
inductive Follow (l : List (Path × Path)) : Path → Path → Prop
  | single {a b} : (a, b) ∈ l → Follow l a b
  | tail {a b c} : Follow l a b → (b, c) ∈ l → Follow l a c

/-! ## Lemmas -/

theorem pairLt_irrefl (a : Path × Path) : pairLt a a = false := by
  simp [pairLt, Path.lt_irrefl]

theorem pairLt_trans {a b c : Path × Path} (h1 : pairLt a b = true) (h2 : pairLt b c = true) : pairLt a c = true := by
  have tr := Path.lt_trans
  have tri := Path.lt_tri
  simp only [pairLt, Bool.or_eq_true, Bool.and_eq_true, Bool.not_eq_true'] at *
  rcases h1 with h1 | ⟨h1, h1'⟩
  · rcases h2 with h2 | ⟨h2, h2'⟩
    · exact .inl (tr _ _ _ h1 h2)
    · left
      cases h : b.1.lt c.1 with
      | true => exact tr _ _ _ h1 h
      | false => rw [tri _ _ h h2] at h1; exact h1
  · rcases h2 with h2 | ⟨h2, h2'⟩
    · left
      cases h : a.1.lt b.1 with
      | true => exact tr _ _ _ h h2
      | false => rw [tri _ _ h h1]; exact h2
    · by_cases hac : a.1.lt c.1 = true
      · exact .inl hac
      · refine .inr ⟨?_, tr _ _ _ h1' h2'⟩
        cases h : c.1.lt a.1 with
        | false => rfl
        | true =>
          exfalso
          cases hab : a.1.lt b.1 with
          | true => rw [tr _ _ _ h hab] at h2; cases h2
          | false =>
            rw [tri _ _ hab h1] at h
            rw [h] at h2; cases h2

theorem pairLt_tri {a b : Path × Path} (h1 : pairLt a b = false) (h2 : pairLt b a = false) : a = b := by
  have tri := Path.lt_tri
  simp only [pairLt, Bool.or_eq_false_iff, Bool.and_eq_false_imp, Bool.not_eq_true'] at *
  have e := tri _ _ h1.1 h2.1
  exact Prod.ext e (tri _ _ (h1.2 h2.1) (h2.2 h1.1))

theorem mem_insertPair (x y : Path × Path) (l : List (Path × Path)) : y ∈ insertPair x l ↔ y = x ∨ y ∈ l := by
  induction l with
  | nil => simp [insertPair]
  | cons z l ih =>
    simp only [insertPair]
    split
    · simp
    · split
      · simp only [List.mem_cons, ih]; grind
      · rename_i h1 h2
        have := pairLt_tri (Bool.not_eq_true _ ▸ h1) (Bool.not_eq_true _ ▸ h2)
        subst this
        simp

theorem insertPair_sorted (x : Path × Path) (l : List (Path × Path)) (h : l.Pairwise fun a b => pairLt a b = true) :
    (insertPair x l).Pairwise fun a b => pairLt a b = true := by
  induction l with
  | nil => simp [insertPair]
  | cons z l ih =>
    simp only [insertPair]
    have h' := List.pairwise_cons.mp h
    split
    · rename_i hx
      refine List.pairwise_cons.mpr ⟨?_, h⟩
      intro b hb
      rcases List.mem_cons.mp hb with rfl | hb
      · exact hx
      · exact pairLt_trans hx (h'.1 b hb)
    · split
      · rename_i hz
        refine List.pairwise_cons.mpr ⟨?_, ih h'.2⟩
        intro b hb
        rcases (mem_insertPair _ _ _).mp hb with rfl | hb
        · exact hz
        · exact h'.1 b hb
      · exact h

theorem mem_graphEdges (g : Db.DepGraph Path) (x : Path × Path) : x ∈ graphEdges g ↔ x ∈ visitedEdges g := by
  have : ∀ (l out : List (Path × Path)), x ∈ l.foldl (fun out x => insertPair x out) out ↔ x ∈ l ∨ x ∈ out := by
    intro l
    induction l with
    | nil => simp
    | cons y l ih => intro out; rw [List.foldl_cons, ih, mem_insertPair]; simp only [List.mem_cons]; grind
  unfold graphEdges
  rw [this]; simp

theorem before_quote {a b c d : Str} (h : a ++ arrow ++ b = c ++ arrow ++ d) (ha : '"' ∉ a) (hc : '"' ∉ c) : a = c ∧ b = d := by
  have e : a = c := by
    have h1 : ∀ (x y : Str), '"' ∉ x → (x ++ arrow ++ y).takeWhile (· ≠ '"') = x := by
      intro x y hx
      rw [List.append_assoc, List.takeWhile_append_of_pos]
      · simp [arrow]
      · intro z hz
        simp only [ne_eq, decide_eq_true_eq]
        rintro rfl; exact hx hz
    rw [← h1 a b ha, h, h1 c d hc]
  subst e
  simp only [List.append_assoc, List.append_cancel_left_eq] at h
  exact ⟨rfl, h⟩

section

variable {o : Outside} {loaders : List (String × Kvs.Loader)} {j : Job} {kind : Path → Bool} {d : Disk} {now : Nat}

/-! ## C77 -/

/-- **C77.** The first file of a printed edge depends directly on the second one, and all such pairs are printed. -/
theorem C77_edges {files : Db.SrcList Path} (hs : Db.Map.Sorted files) {tree : Db.SourceTree Path} (h : Db.load files = .ok tree) (a b : Path) :
    (a, b) ∈ graphEdges tree.graph ↔ ∃ u v, tree.graph.PathOf u a ∧ tree.graph.PathOf v b ∧ Graph.Adj tree.graph.toGraph u v := by
  obtain ⟨_, files3, _, _, _, hg, s3⟩ := Build.load_ok hs h
  have hr := (Db.C06_resolved _ s3 hg).2
  rw [mem_graphEdges]
  simp only [visitedEdges, List.mem_flatMap, List.mem_map, Prod.mk.injEq, Prod.exists]
  constructor
  · rintro ⟨p, info, hm, e, he, rfl, rfl⟩
    obtain ⟨u, hu⟩ := List.getElem?_of_mem hm
    obtain ⟨_, _, _, _, _, _, h6⟩ := hr u p info hu
    obtain ⟨v, h7, h8⟩ := h6 e he
    refine ⟨u, v, ⟨info, hu⟩, h8, e, ?_, h7⟩
    simp only [Db.DepGraph.toGraph, hu]; exact he
  · rintro ⟨u, v, ⟨info, hu⟩, ⟨vinfo, hv⟩, e, he, hev⟩
    simp only [Db.DepGraph.toGraph, hu] at he hev
    obtain ⟨_, _, _, _, _, _, h6⟩ := hr u a info hu
    obtain ⟨v', h7, _, h8⟩ := h6 e he
    rw [hev] at h7
    injection h7 with h7
    subst h7
    rw [hv] at h8
    injection h8 with h8
    injection h8 with h8 _
    exact ⟨a, info, List.mem_of_getElem? hu, e, he, rfl, h8.symm⟩

/-- **C77.** The printed edges are exactly what the files of the project declare. -/
theorem C77_exact (hp : Proper j kind d now) {files : List (Path × FileInfo)} {tree : Db.SourceTree Path} (hl : Loads j d files tree) (hap : Apart j d)
    (a b : Path) : (a, b) ∈ graphEdges tree.graph ↔ ∃ x, DependsOn j d a x ∧ x.name = b := by
  have hL := loadable hp hl
  rw [C77_edges hL.sorted hl.2]
  constructor
  · rintro ⟨u, v, hu, hv, hadj⟩
    obtain ⟨e, he, hpe⟩ := (Build.adj_exact hL hl.2 (apart_files hp hl hap) hu).1 v hadj
    obtain ⟨x, hx, rfl⟩ := (refers_iff hp hl).mpr he
    refine ⟨x, hx, ?_⟩
    obtain ⟨i, hi⟩ := hpe
    obtain ⟨i', hi'⟩ := hv
    rw [hi] at hi'
    injection hi' with hi'
    injection hi' with hi'
  · rintro ⟨x, hx, rfl⟩
    have he := (refers_iff hp hl).mp ⟨x, hx, rfl⟩
    have hu : ∀ e, Build.Refers (srcList files) a e → ∃ u, tree.graph.PathOf u a := by
      intro e he
      cases he with
      | use h1 _ => obtain ⟨u, info, h, _⟩ := Build.file_kept hL hl.2 h1; exact ⟨u, info, h⟩
      | source h1 h2 h3 => obtain ⟨u, h, _⟩ := Build.target_kept hL hl.2 h1 h2 h3; exact ⟨u, h⟩
      | link h1 h2 h3 => obtain ⟨u, h, _⟩ := Build.target_kept hL hl.2 h1 h2 h3; exact ⟨u, h⟩
      | ofTarget h1 _ => obtain ⟨u, info, h, _⟩ := Build.file_kept hL hl.2 h1; exact ⟨u, info, h⟩
    obtain ⟨u, hu⟩ := hu _ he
    obtain ⟨v, hadj, hv⟩ := (Build.adj_exact hL hl.2 (apart_files hp hl hap) hu).2 _ he
    exact ⟨u, v, hu, hv, hadj⟩

/-- **C77.** Edges are printed in ascending order, so none of them is printed twice. -/
theorem C77_order (g : Db.DepGraph Path) : (graphEdges g).Pairwise (fun a b => pairLt a b = true) ∧ (graphEdges g).Nodup := by
  have h : (graphEdges g).Pairwise (fun a b => pairLt a b = true) := by
    have : ∀ (l out : List (Path × Path)), out.Pairwise (fun a b => pairLt a b = true) →
        (l.foldl (fun out x => insertPair x out) out).Pairwise (fun a b => pairLt a b = true) := by
      intro l
      induction l with
      | nil => exact fun _ h => h
      | cons y l ih => exact fun out h => ih _ (insertPair_sorted y out h)
    exact this _ _ .nil
  refine ⟨h, h.imp ?_⟩
  rintro a b hab rfl
  rw [pairLt_irrefl] at hab; cases hab

/-- **C77.** If no name contains a quotation mark, then the edges can be read from the lines. -/
theorem C77_readable (x y : Path × Path) (hx : '"' ∉ x.1.str) (hy : '"' ∉ y.1.str) (h : edgeLine x = edgeLine y) :
    x.1.str = y.1.str ∧ x.2.str = y.2.str := by
  unfold edgeLine at h
  have h := List.append_cancel_right h
  simp only [List.cons_append, List.cons.injEq, true_and] at h
  exact before_quote h hx hy

/-- **C77.** What is printed is a graph in the language of Graphviz: after the opening lines there is one line for each dependency, and only for these, and
then the closing line. -/
theorem C77_lines (hp : Proper j kind d now) {files : List (Path × FileInfo)} {tree : Db.SourceTree Path} (hl : Loads j d files tree) (hap : Apart j d) :
    ∃ edges : List (Path × Path), edges.Nodup ∧ (∀ a b, (a, b) ∈ edges ↔ ∃ x, DependsOn j d a x ∧ x.name = b) ∧
      graphLines tree.graph = ["digraph \"G\" {".toList, "rankdir=LR".toList, "".toList] ++
        edges.map (fun e => "\"".toList ++ e.1.str ++ "\" -> \"".toList ++ e.2.str ++ "\"".toList) ++ ["}".toList] := by
  refine ⟨graphEdges tree.graph, (C77_order _).2, C77_exact hp hl hap, ?_⟩
  rfl

/-- C77 needs that: with quotation marks, different edges are printed alike. -/
theorem C77_quotes : edgeLine (parse ['a'], parse ['b', '"', ' ', '-', '>', ' ', '"', 'c']) =
    edgeLine (parse ['a', '"', ' ', '-', '>', ' ', '"', 'b'], parse ['c']) := by decide +kernel

/-- **C77.** Whatever is needed for a file can be found by following the edges. -/
theorem C77_needs (hp : Proper j kind d now) {files : List (Path × FileInfo)} {tree : Db.SourceTree Path} (hl : Loads j d files tree)
    {a b : Path} (h : Needs j d a b) : Follow (graphEdges tree.graph) a b := by
  have hs := (loadable hp hl).sorted
  obtain ⟨u, v, hu, hv, w, hw, hadj⟩ := needs_reach hp hl h
  have hgs := graph_sorted hp hl
  have hend : ∀ {u v}, Graph.Adj tree.graph.toGraph u v → ∃ x y, tree.graph.PathOf u x ∧ tree.graph.PathOf v y := by
    rintro u v ⟨e, he, hev⟩
    obtain ⟨_, files3, _, _, _, hg, s3⟩ := Build.load_ok hs hl.2
    simp only [Db.DepGraph.toGraph] at he hev
    split at he
    · cases he
    · rename_i x info hu
      obtain ⟨_, _, _, _, _, _, h6⟩ := (Db.C06_resolved _ s3 hg).2 u x info hu
      obtain ⟨v', h7, h8⟩ := h6 e he
      rw [hev] at h7; injection h7 with h7; subst h7
      exact ⟨x, e.name, ⟨info, hu⟩, h8⟩
  have step : ∀ {u v x y}, tree.graph.PathOf u x → tree.graph.PathOf v y → Graph.Adj tree.graph.toGraph u v → (x, y) ∈ graphEdges tree.graph :=
    fun hx hy h => (C77_edges hs hl.2 _ _).mpr ⟨_, _, hx, hy, h⟩
  have same : ∀ {v x y}, tree.graph.PathOf v x → tree.graph.PathOf v y → x = y := by
    rintro v x y ⟨_, hx⟩ ⟨_, hy⟩
    rw [hx] at hy; injection hy with hy; injection hy
  have chain : ∀ w, Graph.Reach tree.graph.toGraph u w → ∀ v b, Graph.Adj tree.graph.toGraph w v → tree.graph.PathOf v b →
      Follow (graphEdges tree.graph) a b := by
    intro w hw
    induction hw with
    | refl => intro v b h hb; exact .single (step hu hb h)
    | tail _ h1 ih =>
      intro v b h hb
      obtain ⟨x, y, hx, hy⟩ := hend h
      exact .tail (ih _ _ h1 hx) (step hx hb h)
  exact chain w hw v b hadj hv

/-- **C77.** In particular, a chain of include directives can be followed. -/
theorem C77_includes (hj : j.loader = loaderOf o loaders) (hp : Proper j kind d now) {files : List (Path × FileInfo)} {tree : Db.SourceTree Path}
    (hl : Loads j d files tree) {a b : Path} (h : IncludesTrans o loaders j d a b) : Follow (graphEdges tree.graph) a b :=
  C77_needs hp hl (C75_needed hj h)

/-- The order in which the threads proceed has no influence on what is found. -/
theorem loads_unique (hw : (j.world d).Ok) {files files' : List (Path × FileInfo)} {tree tree' : Db.SourceTree Path} (h : Loads j d files tree)
    (h' : Loads j d files' tree') : files = files' ∧ tree = tree' := by
  obtain ⟨⟨n, s, hs, hr⟩, ht⟩ := h
  obtain ⟨⟨n', s', hs', hr'⟩, ht'⟩ := h'
  have := C49_schedule hw hs hs' hr (by rw [hr']; simp)
  rw [hr'] at this
  injection this with this
  injection this with this
  subst this
  rw [ht] at ht'
  injection ht' with ht'
  exact ⟨rfl, ht'⟩

/-- **C77.** The output does not depend on the number of workers, or on the order in which they proceed. -/
theorem C77_schedule (hw : (j.world d).Ok) {files files' : List (Path × FileInfo)} {tree tree' : Db.SourceTree Path} (n n' : Nat)
    (h : Loads { j with workers := n } d files tree) (h' : Loads { j with workers := n' } d files' tree') :
    graphLines tree.graph = graphLines tree'.graph ∧ listing j.targetDir tree.targets = listing j.targetDir tree'.targets := by
  have e : ∀ n files tree, Loads { j with workers := n } d files tree ↔ Loads j d files tree := fun _ _ _ => Iff.rfl
  obtain ⟨_, rfl⟩ := loads_unique hw ((e _ _ _).mp h) ((e _ _ _).mp h')
  exact ⟨rfl, rfl⟩

end

/-! ## Example -/

namespace SourceExample

/-- The graph of the example of C75: the object file is made from the C++ file, which includes the header; the directories are there
as well. -/
example : graphEdges (treeOf files).graph =
    [(p ".", p "make_directory.py"), (p "__t/", p "."), (p "__t/a.o", p "a.cpp"), (p "a.cpp", p "."), (p "a.cpp", p "cxx_compiler.py"),
     (p "a.cpp", p "h.hpp"), (p "h.hpp", p "."), (p "h.hpp", p "cxx_compiler.py")] := by
  decide +kernel

example : edgeLine (p "a.cpp", p "h.hpp") = "\"a.cpp\" -> \"h.hpp\"".toList := by decide +kernel

example : Follow (graphEdges (treeOf files).graph) (parse ['a', '.', 'c', 'p', 'p']) (parse ['h', '.', 'h', 'p', 'p']) :=
  C77_includes (j := job) rfl proper loads (.single includes)

end SourceExample

end Maike.Main
