import Verif.Model.LeftistHeap
import Mathlib.Order.Basic
import Mathlib.Data.List.Sort
import Mathlib.Data.List.MinMax
import Mathlib.Data.Nat.Log

/-!
# C43: the leftist heap is a priority queue
-/

namespace Rosemary.LeftistHeap

variable {α : Type} [LinearOrder α]

/-! ## Invariants of the trees -/

/-- The stored values. -/
def values : Tree α → List α
  | .leaf => []
  | .node v _ l r => v :: (values l ++ values r)

/-- Every node is at most everything below it. -/
def Ordered : Tree α → Prop
  | .leaf => True
  | .node v _ l r => (∀ x ∈ values l, v ≤ x) ∧ (∀ x ∈ values r, v ≤ x) ∧ Ordered l ∧ Ordered r

/-- The leftist shape: a node without left child has no right child, the right child has at most the
rank of the left one, and the rank is the number of steps to the right. -/
def Leftist : Tree α → Prop
  | .leaf => True
  | .node _ k .leaf r => r = .leaf ∧ k = 0
  | .node _ k l .leaf => k = 0 ∧ Leftist l
  | .node _ k l r => r.rank ≤ l.rank ∧ k = r.rank + 1 ∧ Leftist l ∧ Leftist r

/-- Number of nodes on the right spine. -/
def spine : Tree α → Nat
  | .leaf => 0
  | .node _ _ _ r => spine r + 1

omit [LinearOrder α] in
theorem values_length (t : Tree α) : (values t).length = t.size := by
  induction t with
  | leaf => rfl
  | node v k l r ihl ihr => simp [values, Tree.size, ihl, ihr]

omit [LinearOrder α] in
theorem attach_values (a : α) (l c : Tree α) :
    (values (attach a l c)).Perm (a :: (values l ++ values c)) := by
  unfold attach
  split
  · simp [values]
  · split
    · simp [values]
    · simp only [values]
      exact List.Perm.cons _ List.perm_append_comm

theorem attach_ordered {a : α} {l c : Tree α} (hl : ∀ x ∈ values l, a ≤ x)
    (hc : ∀ x ∈ values c, a ≤ x) (h1 : Ordered l) (h2 : Ordered c) : Ordered (attach a l c) := by
  unfold attach
  split
  · exact ⟨hc, by simp [values], h2, trivial⟩
  · split
    · exact ⟨hl, hc, h1, h2⟩
    · exact ⟨hc, hl, h2, h1⟩

omit [LinearOrder α] in
theorem attach_leftist {a : α} {l c : Tree α} (hc : c ≠ .leaf) (h1 : Leftist l) (h2 : Leftist c) :
    Leftist (attach a l c) := by
  obtain ⟨vc, kc, lc, rc, rfl⟩ : ∃ v k l r, c = Tree.node v k l r := by
    cases c with
    | leaf => exact absurd rfl hc
    | node v k l r => exact ⟨v, k, l, r, rfl⟩
  cases l with
  | leaf =>
    simp only [attach, Leftist]
    exact ⟨trivial, h2⟩
  | node vl kl ll rl =>
    unfold attach
    dsimp only
    split
    · rename_i h
      exact ⟨h, rfl, h1, h2⟩
    · rename_i h
      exact ⟨by omega, rfl, h2, h1⟩

omit [LinearOrder α] in
theorem attach_ne (a : α) (l c : Tree α) : attach a l c ≠ .leaf := by
  unfold attach
  split
  · simp
  · split <;> simp

omit [LinearOrder α] in
theorem Leftist.children {v : α} {k : Nat} {l r : Tree α} (h : Leftist (.node v k l r)) :
    Leftist l ∧ Leftist r := by
  cases l with
  | leaf => obtain ⟨rfl, -⟩ := h; exact ⟨trivial, trivial⟩
  | node _ _ _ _ =>
    cases r with
    | leaf => exact ⟨h.2, trivial⟩
    | node _ _ _ _ => exact ⟨h.2.2.1, h.2.2.2⟩

theorem merge_leaf (b : Tree α) : merge .leaf b = b := by
  rw [merge.eq_def]

theorem merge_node (x y : α) (kx ky : Nat) (lx rx ly ry : Tree α) :
    merge (.node x kx lx rx) (.node y ky ly ry) =
      if x > y then attach y ly (merge ry (.node x kx lx rx))
      else attach x lx (merge rx (.node y ky ly ry)) := by
  rw [merge.eq_def]
  dsimp only
  split
  · cases ry with
    | leaf => rw [merge_leaf]
    | node _ _ _ _ => rfl
  · cases rx with
    | leaf => rw [merge_leaf]
    | node _ _ _ _ => rfl

theorem merge_spec (a b : Tree α) (ha : Ordered a) (hb : Ordered b) (la : Leftist a)
    (lb : Leftist b) :
    (values (merge a b)).Perm (values a ++ values b) ∧ Ordered (merge a b) ∧ Leftist (merge a b) ∧
      (a ≠ .leaf ∨ b ≠ .leaf → merge a b ≠ .leaf) := by
  induction hn : a.size + b.size using Nat.strong_induction_on generalizing a b with
  | _ n ih =>
    cases a with
    | leaf =>
      rw [merge]
      exact ⟨by simp [values], hb, lb, by simp⟩
    | node x kx lx rx =>
      cases b with
      | leaf =>
        rw [merge.eq_def]
        · exact ⟨by simp [values], ha, la, by simp⟩
      | node y ky ly ry =>
        rw [merge_node]
        split
        · rename_i hxy
          obtain ⟨h1, h2, h3, h4⟩ := ih (ry.size + (Tree.node x kx lx rx).size)
            (by simp only [Tree.size] at hn ⊢; omega) ry (.node x kx lx rx) hb.2.2.2 ha
            lb.children.2 la rfl
          refine ⟨?_, ?_, ?_, fun _ => attach_ne _ _ _⟩
          · refine (attach_values _ _ _).trans ?_
            have e : (y :: (values ly ++ values (merge ry (.node x kx lx rx)))).Perm
                (y :: (values ly ++ (values ry ++ values (.node x kx lx rx)))) :=
              List.Perm.cons _ (List.Perm.append_left _ h1)
            refine e.trans ?_
            rw [← List.append_assoc, ← List.cons_append]
            exact List.perm_append_comm
          · refine attach_ordered hb.1 ?_ hb.2.2.1 h2
            intro z hz
            rcases List.mem_append.1 (h1.mem_iff.1 hz) with hz | hz
            · exact hb.2.1 z hz
            · have hx : x ≤ z := by
                rcases List.mem_cons.1 hz with rfl | hz
                · exact le_refl _
                · rcases List.mem_append.1 hz with hz | hz
                  · exact ha.1 z hz
                  · exact ha.2.1 z hz
              exact le_trans (le_of_lt hxy) hx
          · exact attach_leftist (h4 (.inr (by simp))) lb.children.1 h3
        · rename_i hxy
          obtain ⟨h1, h2, h3, h4⟩ := ih (rx.size + (Tree.node y ky ly ry).size)
            (by simp only [Tree.size] at hn ⊢; omega) rx (.node y ky ly ry) ha.2.2.2 hb
            la.children.2 lb rfl
          refine ⟨?_, ?_, ?_, fun _ => attach_ne _ _ _⟩
          · refine (attach_values _ _ _).trans ?_
            have e : (x :: (values lx ++ values (merge rx (.node y ky ly ry)))).Perm
                (x :: (values lx ++ (values rx ++ values (.node y ky ly ry)))) :=
              List.Perm.cons _ (List.Perm.append_left _ h1)
            refine e.trans ?_
            rw [← List.append_assoc, ← List.cons_append]
            exact List.Perm.refl _
          · refine attach_ordered ha.1 ?_ ha.2.2.1 h2
            intro z hz
            rcases List.mem_append.1 (h1.mem_iff.1 hz) with hz | hz
            · exact ha.2.1 z hz
            · have hx : y ≤ z := by
                rcases List.mem_cons.1 hz with rfl | hz
                · exact le_refl _
                · rcases List.mem_append.1 hz with hz | hz
                  · exact hb.1 z hz
                  · exact hb.2.1 z hz
              exact le_trans (not_lt.1 hxy) hx
          · exact attach_leftist (h4 (.inr (by simp))) la.children.1 h3

/-! ## Heaps -/

/-- The heap `h` holds the values `l`. -/
structure Holds (h : Heap α) (l : List α) : Prop where
  perm : (values h.root).Perm l
  ordered : Ordered h.root
  leftist : Leftist h.root
  size : h.size = l.length

theorem Holds.insert {h : Heap α} {l : List α} (hl : Holds h l) (v : α) :
    Holds (h.insert v) (v :: l) := by
  have hs : Ordered (Tree.single v) := ⟨by simp [values], by simp [values], trivial, trivial⟩
  have ls : Leftist (Tree.single v) := ⟨rfl, rfl⟩
  have hp : ∀ root, (values root).Perm l → (values root ++ values (Tree.single v)).Perm (v :: l) := by
    intro root hr
    refine List.perm_append_comm.trans ?_
    exact List.Perm.cons _ (by simpa [values] using hr)
  unfold Heap.insert
  split
  · rename_i hr
    have h1 := hl.perm
    rw [hr] at h1
    have h2 : l = [] := by simpa [values] using h1.symm
    subst h2
    exact ⟨List.Perm.refl _, hs, ls, by simp [hl.size]⟩
  · rename_i hr
    obtain ⟨h1, h2, h3, -⟩ := merge_spec h.root (Tree.single v) hl.ordered hs hl.leftist ls
    exact ⟨h1.trans (hp _ hl.perm), h2, h3, by simp [hl.size]⟩

theorem Holds.mergeWith {h g : Heap α} {l m : List α} (hl : Holds h l) (hm : Holds g m) :
    Holds (h.mergeWith g) (l ++ m) := by
  obtain ⟨h1, h2, h3, -⟩ := merge_spec h.root g.root hl.ordered hm.ordered hl.leftist hm.leftist
  exact ⟨h1.trans (hl.perm.append hm.perm), h2, h3, by
    simp [Heap.mergeWith, hl.size, hm.size]⟩

/-- `findMin` and `deleteMin` on a nonempty heap. -/
theorem Holds.min {h : Heap α} {l : List α} (hl : Holds h l) (hne : l ≠ []) :
    ∃ v g, h.findMin = .ok v ∧ h.deleteMin = (some v, g) ∧ v ∈ l ∧ (∀ x ∈ l, v ≤ x) ∧
      Holds g (l.erase v) := by
  cases hr : h.root with
  | leaf =>
    have h1 := hl.perm
    rw [hr] at h1
    exact absurd (by simpa [values] using h1.symm) hne
  | node v k a b =>
    have ho := hl.ordered
    have hlf := hl.leftist
    have hp := hl.perm
    rw [hr] at ho hlf hp
    obtain ⟨h1, h2, h3, -⟩ := merge_spec a b ho.2.2.1 ho.2.2.2 hlf.children.1 hlf.children.2
    have hmem : v ∈ l := hp.mem_iff.1 (by simp [values])
    refine ⟨v, ⟨merge a b, h.size - 1⟩, ?_, ?_, hmem, ?_, ?_, h2, h3, ?_⟩
    · unfold Heap.findMin; rw [hr]
    · unfold Heap.deleteMin; rw [hr]
    · intro x hx
      rcases List.mem_cons.1 (hp.mem_iff.2 hx) with rfl | hx
      · exact le_refl _
      · rcases List.mem_append.1 hx with hx | hx
        · exact ho.1 x hx
        · exact ho.2.1 x hx
    · refine h1.trans ?_
      have := hp.erase v
      simpa [values] using this
    · show h.size - 1 = _
      rw [hl.size, List.length_erase_of_mem hmem]

theorem Holds.empty {h : Heap α} (hl : Holds h []) :
    h.findMin = .error .attributeError ∧ h.deleteMin = (none, h) := by
  have : h.root = .leaf := by
    cases hr : h.root with
    | leaf => rfl
    | node v k a b =>
      have := hl.perm
      rw [hr] at this
      simp [values] at this
  unfold Heap.findMin Heap.deleteMin
  rw [this]
  exact ⟨rfl, rfl⟩

/-- Iteration empties the heap and yields the values in order. -/
theorem Holds.iter {h : Heap α} {l : List α} (hl : Holds h l) :
    ∃ (out : List α) (g : Heap α), h.iter = (out.map some, g) ∧ out.Perm l ∧ out.Pairwise (· ≤ ·) ∧ Holds g [] := by
  unfold Heap.iter
  rw [hl.size]
  induction hn : l.length generalizing h l with
  | zero =>
    have : l = [] := List.length_eq_zero_iff.1 hn
    subst this
    exact ⟨[], h, rfl, List.Perm.refl _, List.Pairwise.nil, hl⟩
  | succ n ih =>
    obtain ⟨v, g, -, h2, h3, h4, h5⟩ := hl.min (by rintro rfl; simp at hn)
    obtain ⟨out, g', i1, i2, i3, i4⟩ := ih h5 (by rw [List.length_erase_of_mem h3]; omega)
    refine ⟨v :: out, g', ?_, ?_, ?_, i4⟩
    · unfold iterLoop
      rw [h2]
      dsimp only
      rw [i1]
      rfl
    · exact (List.Perm.cons v i2).trans (List.perm_cons_erase h3).symm
    · rw [List.pairwise_cons]
      exact ⟨fun x hx => h4 x (List.mem_of_mem_erase (i2.mem_iff.1 hx)), i3⟩

/-- The queue of the constructor. -/
theorem build_spec (n : Nat) (nodes : List (Tree α)) (size : Nat) (last : Option (Tree α))
    (hn : nodes.length = n) (h2 : 2 ≤ n) (ho : ∀ t ∈ nodes, Ordered t) (hlf : ∀ t ∈ nodes, Leftist t) :
    ∃ t, build n nodes size last = .ok (some t, size + n - 1) ∧
      (values t).Perm (nodes.flatMap values) ∧ Ordered t ∧ Leftist t := by
  induction n generalizing nodes size last with
  | zero => omega
  | succ n ih =>
    match nodes, hn with
    | [], hn => simp at hn
    | [a], hn => simp at hn; omega
    | a :: b :: rest, hn =>
      obtain ⟨m1, m2, m3, -⟩ := merge_spec a b (ho a (by simp)) (ho b (by simp)) (hlf a (by simp))
        (hlf b (by simp))
      rw [build, dif_pos (by omega)]
      dsimp only
      rw [Nat.add_sub_cancel]
      by_cases h3 : 2 ≤ n
      · obtain ⟨t, t1, t2, t3, t4⟩ := ih (rest ++ [merge a b]) (size + 1) (some (merge a b))
          (by simp at hn ⊢; omega) h3
          (by
            intro t ht
            rcases List.mem_append.1 ht with ht | ht
            · exact ho t (by simp [ht])
            · rw [List.mem_singleton.1 ht]; exact m2)
          (by
            intro t ht
            rcases List.mem_append.1 ht with ht | ht
            · exact hlf t (by simp [ht])
            · rw [List.mem_singleton.1 ht]; exact m3)
        refine ⟨t, ?_, ?_, t3, t4⟩
        · rw [t1]; congr 2; omega
        · refine t2.trans ?_
          rw [List.flatMap_append]
          refine List.perm_append_comm.trans ?_
          simp only [List.flatMap_cons, List.flatMap_nil, List.append_nil]
          rw [← List.append_assoc]
          exact List.Perm.append_right _ m1
      · have hn1 : n = 1 := by omega
        subst hn1
        have : rest = [] := by simpa using hn
        subst this
        rw [build, dif_neg (by omega)]
        · refine ⟨merge a b, by simp, ?_, m2, m3⟩
          simpa using m1
        · intro a' b' rest h
          simp at h

theorem init_spec (vs : List α) (h : 2 ≤ vs.length) : ∃ g, init vs = .ok g ∧ Holds g vs := by
  obtain ⟨t, h1, h2, h3, h4⟩ := build_spec vs.length (vs.map Tree.single) 0 none (by simp) h
    (by
      intro t ht
      obtain ⟨v, -, rfl⟩ := List.mem_map.1 ht
      exact ⟨by simp [values], by simp [values], trivial, trivial⟩)
    (by
      intro t ht
      obtain ⟨v, -, rfl⟩ := List.mem_map.1 ht
      exact ⟨rfl, rfl⟩)
  refine ⟨⟨t, vs.length⟩, ?_, ?_, h3, h4, rfl⟩
  · unfold init
    rw [h1]
    dsimp only
    congr 2
    omega
  · refine h2.trans ?_
    have : (vs.map Tree.single).flatMap values = vs := by
      clear h h1 h2
      induction vs with
      | nil => rfl
      | cons v vs ih => simp only [List.map_cons, List.flatMap_cons, ih]; rfl
    rw [this]

/-! ## The property -/

/-- A heap built by any history of calls. -/
inductive History (α : Type)
  | new (vs : List α)
  | insert (h : History α) (v : α)
  | deleteMin (h : History α)
  | merge (h g : History α)

/-- Running the history. -/
def History.exec : History α → Except PyErr (Heap α)
  | .new vs => init vs
  | .insert h v =>
    match h.exec with
    | .error e => .error e
    | .ok h => .ok (h.insert v)
  | .deleteMin h =>
    match h.exec with
    | .error e => .error e
    | .ok h => .ok h.deleteMin.2
  | .merge h g =>
    match h.exec, g.exec with
    | .ok h, .ok g => .ok (h.mergeWith g)
    | .error e, _ => .error e
    | _, .error e => .error e

/-- The values that should be in the heap. -/
def History.content : History α → List α
  | .new vs => vs
  | .insert h v => v :: h.content
  | .deleteMin h =>
    match h.content.min? with
    | none => []
    | some m => h.content.erase m
  | .merge h g => h.content ++ g.content

/-- Every constructor call got at least two values. -/
def History.proper : History α → Prop
  | .new vs => 2 ≤ vs.length
  | .insert h _ => h.proper
  | .deleteMin h => h.proper
  | .merge h g => h.proper ∧ g.proper

theorem history_holds (H : History α) (hp : H.proper) : ∃ h, H.exec = .ok h ∧ Holds h H.content := by
  induction H with
  | new vs => exact init_spec vs hp
  | insert H v ih =>
    obtain ⟨h, h1, h2⟩ := ih hp
    exact ⟨h.insert v, by unfold History.exec; rw [h1], h2.insert v⟩
  | deleteMin H ih =>
    obtain ⟨h, h1, h2⟩ := ih hp
    refine ⟨h.deleteMin.2, by unfold History.exec; rw [h1], ?_⟩
    unfold History.content
    by_cases hne : H.content = []
    · rw [hne] at h2 ⊢
      rw [h2.empty.2]
      exact h2
    · obtain ⟨v, g, -, g2, g3, g4, g5⟩ := h2.min hne
      rw [g2]
      have : H.content.min? = some v := List.min?_eq_some_iff.2 ⟨g3, fun b hb => g4 b hb⟩
      rw [this]
      exact g5
  | merge H G ihH ihG =>
    obtain ⟨h, h1, h2⟩ := ihH hp.1
    obtain ⟨g, g1, g2⟩ := ihG hp.2
    exact ⟨h.mergeWith g, by unfold History.exec; rw [h1, g1], h2.mergeWith g2⟩

end Rosemary.LeftistHeap

namespace Rosemary.Props

open Rosemary.LeftistHeap

variable {α : Type} [LinearOrder α]

/-- C43: a heap made by any history of calls (with at least two values in each constructor call) has
the expected length, `find_min` and `delete_min` give the least value, on an empty heap `find_min`
raises `AttributeError` and `delete_min` returns `None`, and iterating yields all values in
order. -/
theorem C43_leftist_heap_partial (H : History α) (hp : H.proper) :
    ∃ h, H.exec = .ok h ∧ h.size = H.content.length ∧
      (H.content = [] → h.findMin = .error .attributeError ∧ h.deleteMin = (none, h)) ∧
      (H.content ≠ [] → ∃ v g, h.findMin = .ok v ∧ h.deleteMin = (some v, g) ∧ v ∈ H.content ∧
        ∀ x ∈ H.content, v ≤ x) ∧
      (∃ (out : List α) (g : Heap α), h.iter = (out.map some, g) ∧ out.Perm H.content ∧ out.Pairwise (· ≤ ·)) := by
  obtain ⟨h, h1, h2⟩ := history_holds H hp
  refine ⟨h, h1, h2.size, ?_, ?_, ?_⟩
  · intro he
    rw [he] at h2
    exact h2.empty
  · intro hne
    obtain ⟨v, g, g1, g2, g3, g4, -⟩ := h2.min hne
    exact ⟨v, g, g1, g2, g3, g4⟩
  · obtain ⟨out, g, i1, i2, i3, -⟩ := h2.iter
    exact ⟨out, g, i1, i2, i3⟩

omit [LinearOrder α] in
theorem leftist_spine (t : Tree α) (h : Leftist t) :
    2 ^ spine t ≤ t.size + 1 ∧ (t ≠ .leaf → spine t = t.rank + 1) := by
  induction t with
  | leaf => exact ⟨by simp [spine, Tree.size], by simp⟩
  | node v k l r ihl ihr =>
    obtain ⟨hl, hr⟩ := h.children
    obtain ⟨il1, il2⟩ := ihl hl
    obtain ⟨ir1, ir2⟩ := ihr hr
    cases l with
    | leaf =>
      obtain ⟨rfl, rfl⟩ := h
      exact ⟨by simp [spine, Tree.size], by simp [spine, Tree.rank]⟩
    | node a b c d =>
      cases r with
      | leaf =>
        obtain ⟨rfl, -⟩ := h
        refine ⟨?_, by simp [spine, Tree.rank]⟩
        simp only [spine, Tree.size]; omega
      | node a' b' c' d' =>
        obtain ⟨h1, h2, -, -⟩ := h
        have e1 := il2 (by simp)
        have e2 := ir2 (by simp)
        refine ⟨?_, ?_⟩
        · have hle : spine (Tree.node a' b' c' d') ≤ spine (Tree.node a b c d) := by omega
          have := Nat.pow_le_pow_right (n := 2) (by omega) hle
          rw [spine, Nat.pow_succ]
          have e3 : (Tree.node v k (.node a b c d) (.node a' b' c' d')).size =
            (Tree.node a b c d).size + (Tree.node a' b' c' d').size + 1 := rfl
          omega
        · intro _
          rw [spine, e2, h2]
          rfl

/-- C43, shape: the path that `merge` follows has at most `log2(size + 1)` nodes, so a heap of `n`
values merges within logarithmic recursion depth. -/
theorem C43_leftist_shape (H : History α) (hp : H.proper) :
    ∃ h, H.exec = .ok h ∧ spine h.root ≤ Nat.log 2 (H.content.length + 1) := by
  obtain ⟨h, h1, h2⟩ := history_holds H hp
  refine ⟨h, h1, ?_⟩
  apply Nat.le_log_of_pow_le (by omega)
  have := (leftist_spine h.root h2.leftist).1
  rw [← values_length, h2.perm.length_eq] at this
  exact this

/-- C43 (violation): a heap cannot be created from fewer than two values. -/
theorem C43_leftist_init_violation (vs : List α) (h : vs.length < 2) :
    init vs = .error .unboundLocalError := by
  unfold init
  rw [build.eq_def]
  dsimp only
  rw [dif_neg (by omega)]

example : (History.insert (.deleteMin (.new [5, 3, 9, 4])) (1 : Nat)).proper ∧
    (History.insert (.deleteMin (.new [5, 3, 9, 4])) (1 : Nat)).content = [1, 5, 9, 4] := by
  refine ⟨?_, by decide⟩
  show 2 ≤ 4
  omega

end Rosemary.Props
