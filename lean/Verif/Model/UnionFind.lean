import Verif.Model.Py

/-!
# Model of `data_structures/unionfind.py`

Dictionaries are partial functions.  The `while` loops that follow pointers may run forever (a cycle
of pointers), so they are `partial_fixpoint` functions whose value `none` is divergence; a missing
key is the exception `KeyError`.
-/

namespace Rosemary.UnionFind

variable {α : Type} [DecidableEq α]

/-- `d[k] = v`. -/
def put {β : Type} (d : α → Option β) (k : α) (v : β) : α → Option β :=
  fun j => if j = k then some v else d j

/-- `for v in path: d[v] = x`. -/
def putAll {β : Type} (d : α → Option β) (path : List α) (x : β) : α → Option β :=
  path.foldl (fun d v => put d v x) d

/-! ## UnionFind (unionfind.py:53-134) -/

/-- The attributes set at unionfind.py:84-85. -/
structure UF (α : Type) where
  rank : α → Option Nat
  parent : α → Option α

/-- unionfind.py:66-85 `UnionFind.__init__`. -/
def UF.init (elements : List α) : UF α :=
  elements.foldl (fun s u => ⟨put s.rank u 0, put s.parent u u⟩) ⟨fun _ => none, fun _ => none⟩

/-- unionfind.py:103-105, the loop that walks to the root; returns the root and `path`. -/
def walk (parent : α → Option α) (x : α) (path : List α) : Option (Except PyErr (α × List α)) :=
  match parent x with
  | none => some (.error .keyError)
  | some y => if x = y then some (.ok (x, path)) else walk parent y (path ++ [x])
partial_fixpoint

/-- unionfind.py:87-112 `UnionFind.find`: the result and the new state. -/
def UF.find (s : UF α) (x : α) : Option (Except PyErr (α × UF α)) :=
  match walk s.parent x [] with
  | none => none
  | some (.error e) => some (.error e)
  | some (.ok (r, path)) => some (.ok (r, { s with parent := putAll s.parent path r }))

/-- unionfind.py:114-134 `UnionFind.union`.  Exchanging `x` and `y` at line 129 has no effect, since
only `px` and `py` are used afterwards. -/
def UF.union (s : UF α) (x y : α) : Except PyErr (UF α) :=
  match s.parent x, s.parent y with
  | some px, some py =>
    match s.rank px, s.rank py with
    | some rx, some ry =>
      let rank := if rx = ry then put s.rank py (ry + 1) else s.rank
      .ok ⟨rank, put s.parent px py⟩
    | _, _ => .error .keyError
  | _, _ => .error .keyError

/-- A call on a `UnionFind` object. -/
inductive Op (α : Type)
  | find (x : α)
  | union (x y : α)
  deriving DecidableEq

/-- One call. -/
def UF.step (s : UF α) : Op α → Option (Except PyErr (UF α))
  | .find x =>
    match s.find x with
    | none => none
    | some (.error e) => some (.error e)
    | some (.ok (_, s)) => some (.ok s)
  | .union x y => some (s.union x y)

/-- A sequence of calls. -/
def UF.run (s : UF α) : List (Op α) → Option (Except PyErr (UF α))
  | [] => some (.ok s)
  | o :: os =>
    match s.step o with
    | none => none
    | some (.error e) => some (.error e)
    | some (.ok s) => UF.run s os

/-! ## NamedUnionFind (unionfind.py:1-50) -/

/-- The attributes set at unionfind.py:17-20. -/
structure NUF (α : Type) where
  count : α → Option Nat
  name : α → Option α
  father : α → Option (Option α)
  root : α → Option α

/-- unionfind.py:2-20 `NamedUnionFind.__init__`. -/
def NUF.init (nodes : List α) : NUF α :=
  nodes.foldl (fun s u => ⟨put s.count u 1, put s.name u u, put s.father u none, put s.root u u⟩)
    ⟨fun _ => none, fun _ => none, fun _ => none, fun _ => none⟩

/-- unionfind.py:30-32. -/
def nwalk (father : α → Option (Option α)) (u : α) (path : List α) :
    Option (Except PyErr (α × List α)) :=
  match father u with
  | none => some (.error .keyError)
  | some none => some (.ok (u, path))
  | some (some v) => nwalk father v (path ++ [u])
partial_fixpoint

/-- unionfind.py:22-37 `NamedUnionFind.find`: the result and the new state. -/
def NUF.find (s : NUF α) (u : α) : Option (Except PyErr (α × NUF α)) :=
  match nwalk s.father u [] with
  | none => none
  | some (.error e) => some (.error e)
  | some (.ok (r, path)) =>
    match s.name r with
    | none => some (.error .keyError)
    | some nm => some (.ok (nm, { s with father := putAll s.father path (some r) }))

/-- unionfind.py:39-50 `NamedUnionFind.union`. -/
def NUF.union (s : NUF α) (u v w : α) : Except PyErr (NUF α) :=
  match s.root u, s.root v with
  | some ru, some rv =>
    match s.count ru, s.count rv with
    | some cu, some cv =>
      let large := if cu > cv then ru else rv
      let small := if cu > cv then rv else ru
      let csmall := if cu > cv then cv else cu
      let clarge := if cu > cv then cu else cv
      -- when `small` and `large` are the same node, both counts are read after the same update
      .ok ⟨put s.count large (clarge + csmall), put s.name large w,
        put s.father small (some large), put s.root w large⟩
    | _, _ => .error .keyError
  | _, _ => .error .keyError

end Rosemary.UnionFind
