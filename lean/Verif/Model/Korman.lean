import Verif.Model.Coloring
import Verif.Model.Cliques

/-!
# Model of `graphs/algorithms/coloring.py`: `korman` and `exact_coloring`

The search of `korman` is one loop over the local variables of the function; they are the fields of `Korman.State`.
A local variable that may be unbound is an `Option`.
-/

namespace Rosemary.Coloring

open Rosemary.Graph

variable {V W : Type} [LinearOrder V]

namespace Korman

/-- The local variables of the loop of coloring.py:566-616. -/
structure State (V : Type) where
  /-- `color`; the color `0` means that the vertex is not colored. -/
  color : Dict V ℕ
  /-- `uncolored` -/
  uncolored : Finset V
  /-- `order` -/
  order : Dict ℕ V
  /-- `best` -/
  best : ℕ
  /-- `best_coloring` -/
  bestColoring : Option (Dict V ℕ)
  /-- `idx`.  It cannot become negative: `order[-1]` is a `KeyError`, which ends the function. -/
  idx : ℕ
  /-- `find_next_s` -/
  findNext : Bool
  /-- `s` -/
  s : Option V
  /-- `s_color` -/
  sColor : Option ℕ

/-- coloring.py:571, 586: `{color[v] for v in graph_dict[u]}`. -/
def adjColors (color : Dict V ℕ) : List V → Except PyErr (Finset ℕ)
  | [] => .ok ∅
  | v :: vs =>
    match Dict.get? color v with
    | none => .error .keyError
    | some c =>
      match adjColors color vs with
      | .error e => .error e
      | .ok l => .ok (insert c l)

/-- coloring.py:570-581: the loop over the uncolored vertices with the variables `max_adj`, `max_deg` and `s`. -/
def select (g : Graph V W) (color : Dict V ℕ) : List V → ℕ → ℕ → Option V → Except PyErr (Option V)
  | [], _, _, s => .ok s
  | u :: us, maxAdj, maxDeg, s =>
    match Dict.get? g u with
    | none => .error .keyError
    | some N =>
      match adjColors color (Dict.keys N) with
      | .error e => .error e
      | .ok adj =>
        if adj.card = maxAdj then
          if maxDeg < N.length then select g color us maxAdj N.length (some u) else select g color us maxAdj maxDeg s
        else if maxAdj < adj.card then select g color us adj.card N.length (some u)
        else select g color us maxAdj maxDeg s

/-- coloring.py:567-584: choose the next vertex. -/
def pick (ord : Finset V → List V) (g : Graph V W) (st : State V) : Except PyErr (State V) :=
  if st.findNext then
    match select g st.color (ord st.uncolored) 0 0 st.s with
    | .error e => .error e
    | .ok none => .error .unboundLocalError
    | .ok (some s) => .ok { st with s := some s, order := Dict.set st.order st.idx s, findNext := false }
  else .ok st

/-- coloring.py:592: `max([color[order[i]] + 1 for i in range(idx)])`. -/
def limit (color : Dict V ℕ) (order : Dict ℕ V) : ℕ → Except PyErr ℕ
  | 0 => .error .valueError
  | i + 1 =>
    match Dict.get? order i with
    | none => .error .keyError
    | some u =>
      match Dict.get? color u with
      | none => .error .keyError
      | some c =>
        if i = 0 then .ok (c + 1)
        else
          match limit color order i with
          | .error e => .error e
          | .ok m => .ok (max m (c + 1))

/-- coloring.py:596: `max([color[u] for u in vertices])`. -/
def maxColor (color : Dict V ℕ) : List V → Except PyErr ℕ
  | [] => .error .valueError
  | u :: us =>
    match Dict.get? color u with
    | none => .error .keyError
    | some c =>
      if us = [] then .ok c
      else
        match maxColor color us with
        | .error e => .error e
        | .ok m => .ok (max c m)

/-- coloring.py:599-601: the first position with a color of at least `best`.  The first argument is one more than the
number of keys of `order`, so a key is missing before it is used up. -/
def firstBest (color : Dict V ℕ) (order : Dict ℕ V) (best : ℕ) : ℕ → ℕ → Except PyErr ℕ
  | 0, _ => .error .keyError
  | fuel + 1, idx =>
    match Dict.get? order idx with
    | none => .error .keyError
    | some u =>
      match Dict.get? color u with
      | none => .error .keyError
      | some c => if c < best then firstBest color order best fuel (idx + 1) else .ok idx

/-- coloring.py:603-605: remove the colors of the positions in a list. -/
def uncolor (order : Dict ℕ V) : List ℕ → Dict V ℕ × Finset V → Except PyErr (Dict V ℕ × Finset V)
  | [], r => .ok r
  | i :: is, r =>
    match Dict.get? order i with
    | none => .error .keyError
    | some u => uncolor order is (Dict.set r.1 u 0, insert u r.2)

/-- coloring.py:607-608, 615-616: one position back. -/
def back (st : State V) : Except PyErr (State V) :=
  match st.idx with
  | 0 => .error .keyError
  | i + 1 =>
    match Dict.get? st.order i with
    | none => .error .keyError
    | some u => .ok { st with idx := i, s := some u }

/-- coloring.py:595-608: all vertices are colored. -/
def complete (vs : List V) (st : State V) : Except PyErr (State V) :=
  match maxColor st.color vs with
  | .error e => .error e
  | .ok best =>
    match firstBest st.color st.order best (st.order.length + 1) 0 with
    | .error e => .error e
    | .ok i =>
      match uncolor st.order (List.range' i (vs.length - i)) (st.color, st.uncolored) with
      | .error e => .error e
      | .ok r =>
        back { st with color := r.1, uncolored := r.2, best := best, bestColoring := some st.color, idx := i }

/-- coloring.py:593-611: the vertex `s` gets the color `c`. -/
def accept (vs : List V) (s : V) (c : ℕ) (st : State V) : Except PyErr (State V) :=
  let st := { st with color := Dict.set st.color s c, uncolored := st.uncolored.erase s }
  if st.idx + 1 = vs.length then complete vs st else .ok { st with idx := st.idx + 1, findNext := true }

/-- coloring.py:613-616: there is no color for the vertex `s`. -/
def reject (s : V) (st : State V) : Except PyErr (State V) :=
  back { st with color := Dict.set st.color s 0, uncolored := insert s st.uncolored }

/-- coloring.py:586-616: try the next color of the vertex `s`. -/
def attempt (g : Graph V W) (vs : List V) (st : State V) : Except PyErr (State V) :=
  match st.s with
  | none => .error .unboundLocalError
  | some s =>
    match Dict.get? g s with
    | none => .error .keyError
    | some N =>
      match adjColors st.color (Dict.keys N) with
      | .error e => .error e
      | .ok adj =>
        match Dict.get? st.color s with
        | none => .error .keyError
        | some c0 =>
          match ((List.range' (c0 + 1) (vs.length - c0)).find? (fun i => i ∉ adj)).or st.sColor with
          | none => .error .unboundLocalError
          | some c =>
            let st := { st with sColor := some c }
            if c < st.best then
              match limit st.color st.order st.idx with
              | .error e => .error e
              | .ok m => if c ≤ m then accept vs s c st else reject s st
            else reject s st

/-- coloring.py:566-616: the loop. -/
def loop (ord : Finset V → List V) (g : Graph V W) (vs : List V) (q : ℕ) (st : State V) :
    Option (Except PyErr (State V)) :=
  if st.idx < q then some (.ok st)
  else
    match pick ord g st with
    | .error e => some (.error e)
    | .ok st =>
      match attempt g vs st with
      | .error e => some (.error e)
      | .ok st => loop ord g vs q st
partial_fixpoint

/-- coloring.py:556-560: the colors of the clique. -/
def colorClique : List V → ℕ → Dict V ℕ × Dict ℕ V × Finset V → Dict V ℕ × Dict ℕ V × Finset V
  | [], _, r => r
  | u :: us, i, r => colorClique us (i + 1) (Dict.set r.1 u (i + 1), Dict.set r.2.1 i u, r.2.2.erase u)

/-- coloring.py:618-632: the result.  The color `0` would be the index `-1`, the last class. -/
def result (initial : Dict V ℕ) (classes : Bool) (best : ℕ) (bestColoring : Option (Dict V ℕ)) :
    Except PyErr (ℕ × Result V) :=
  let m := match bestColoring with
    | none => initial.map (fun e => (e.1, e.2 + 1))
    | some m => m
  if classes then
    match fillClasses (m.map (fun e => (e.1, if e.2 = 0 then best - 1 else e.2 - 1))) (List.replicate best []) with
    | .error e => .error e
    | .ok cl => .ok (best, .classes cl)
  else .ok (best, .colorMap m)

end Korman

open Korman in
/-- coloring.py:486-632 `korman`.  `none` means that the loop does not end. -/
def korman (ord : Finset V → List V) (g : Graph V W) (classes : Bool) : Option (Except PyErr (ℕ × Result V)) :=
  match dsatur ord g false with
  | .error e => some (.error e)
  | .ok (_, .classes _) => some (.error .attributeError)
  | .ok (best, .colorMap initial) =>
    match Cliques.ostergard g with
    | .error e => some (.error e)
    | .ok (q, clique) =>
      let vs := vertices g
      let r := colorClique clique 0 (vs.map (fun u => (u, 0)), [], vs.toFinset)
      if q ≠ vs.length then
        match loop ord g vs q ⟨r.1, r.2.2, r.2.1, best, none, q, true, none, none⟩ with
        | none => none
        | some (.error e) => some (.error e)
        | some (.ok st) => some (result initial classes st.best st.bestColoring)
      else some (result initial classes best none)

/-- coloring.py:635-699 `exact_coloring`. -/
def exactColoring (ord : Finset V → List V) (g : Graph V W) (classes : Bool) : Option (Except PyErr (ℕ × Result V)) :=
  korman ord g classes

end Rosemary.Coloring
