import Verif.Model.Paths

/-!
`dijkstra_iterator` (rosemary/graphs/algorithms/paths.py:115-199) run by a caller that changes the lists it is given.

Line 193 yields `path`, the list object that lines 195-199 extend by `path + [v]` after the generator is resumed.
A caller that changes the list in place before it asks for the next tuple therefore changes what is put on the heap.
`edit u w path` is the contents of the list when the generator is resumed after yielding `(u, w, path)`; since each vertex is
yielded once, any behaviour of a caller during a run is such a function.  Changes made later, after the next tuple was asked
for, touch no list of the generator, because `path + [v]` is a new list.
-/

namespace Rosemary.Paths

open Graph

variable {V W : Type} [LinearOrder V] [AddCommMonoid W] [LinearOrder W]

/-- paths.py:186-199 with a caller that leaves `edit u w path` in the list yielded. -/
def iteratorEditLoop (edit : V → W → List V → List V) (g : Graph V W) (D : Dict V (WithTop W))
    (H : List (W × V × List V)) (vis : Finset V) : Option (Except PyErr (List (V × W × List V))) :=
  match popMin key3 H with
  | none => some (.ok [])
  | some ((w, u, path), H) =>
    if u ∈ vis then iteratorEditLoop edit g D H vis
    else
      match Dict.get? g u with
      | none => some (.error .keyError)
      | some N =>
        match relaxPath w (edit u w path) N D H with
        | .error e => some (.error e)
        | .ok (D, H) => do
          let r ← iteratorEditLoop edit g D H (insert u vis)
          match r with
          | .error e => some (.error e)
          | .ok l => some (.ok ((u, w, path) :: l))
partial_fixpoint

/-- paths.py:115-199: the tuples yielded, each as it is at the moment of the yield. -/
def dijkstraIteratorEdit (edit : V → W → List V → List V) (g : Graph V W) (s : V) :
    Option (Except PyErr (List (V × W × List V))) :=
  if s ∉ Dict.keys g then some (.error .valueError)
  else iteratorEditLoop edit g (Dict.set (g.map (fun e => (e.1, ⊤))) s ((0 : W) : WithTop W)) [(0, s, [s])] ∅

end Rosemary.Paths
