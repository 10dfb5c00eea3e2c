import Verif.Lemmas.HeapNodes

/-!
# C143: leftist heaps do not disturb each other, except after `merge`
-/

namespace Rosemary.Props

open Rosemary.HeapNodes
open Rosemary.LeftistHeap (Tree Heap Holds merge)

variable {α : Type} [LinearOrder α]

/-! ## What a program should show -/

/-- One statement, for priority queues given by what is in them. -/
def queueStep (M : ℕ → Multiset α) : Op α → (ℕ → Multiset α) × Out α
  | .new i vs =>
    if vs.length < 2 then (M, .raised .unboundLocalError) else (Function.update M i ↑vs, .nothing)
  | .insert i v => (Function.update M i (v ::ₘ M i), .nothing)
  | .findMin i =>
    match (M i).sort (· ≤ ·) with
    | [] => (M, .raised .attributeError)
    | v :: _ => (M, .value (some v))
  | .deleteMin i =>
    match (M i).sort (· ≤ ·) with
    | [] => (M, .value none)
    | v :: l => (Function.update M i ↑l, .value (some v))
  | .merge i j => (Function.update M i (M i + M j), .nothing)
  | .len i => (M, .number (M i).card)
  | .list i => (Function.update M i 0, .values (((M i).sort (· ≤ ·)).map some))

/-- A program on priority queues. -/
def queueRun (M : ℕ → Multiset α) : List (Op α) → List (Out α)
  | [] => []
  | op :: ops => (queueStep M op).2 :: queueRun (queueStep M op).1 ops

/-- The variables that may be used after a statement: those that hold a heap that was not handed to
`merge`. -/
def usableAfter (A : Finset ℕ) : Op α → Finset ℕ
  | .new i vs => if vs.length < 2 then A else insert i A
  | .merge _ j => A.erase j
  | _ => A

/-- The statement uses only such variables, and does not merge a heap with itself. -/
def usable (A : Finset ℕ) : Op α → Prop
  | .new _ _ => True
  | .insert i _ | .findMin i | .deleteMin i | .len i | .list i => i ∈ A
  | .merge i j => i ∈ A ∧ j ∈ A ∧ i ≠ j

/-- All statements of the program are like this. -/
def usableAll : Finset ℕ → List (Op α) → Prop
  | _, [] => True
  | A, op :: ops => usable A op ∧ usableAll (usableAfter A op) ops

private theorem sort_of_holds {l s : List α} {M : Multiset α} (h : (↑l : Multiset α) = M)
    (h1 : s.Perm l) (h2 : s.Pairwise (· ≤ ·)) : M.sort (· ≤ ·) = s := by
  subst h
  rw [Multiset.coe_sort]
  refine List.Perm.eq_of_pairwise (fun a b _ _ => le_antisymm) (List.pairwise_mergeSort' _ _) h2 ?_
  exact (List.mergeSort_perm _ _).trans h1.symm

/-- `findMin` and `deleteMin` in terms of the sorted contents. -/
private theorem min_of_holds {h : Heap α} {l : List α} {M : Multiset α} (hl : Holds h l)
    (e : (↑l : Multiset α) = M) :
    match M.sort (· ≤ ·) with
    | [] => h.root = .leaf ∧ h.deleteMin = (none, h) ∧ M = 0
    | v :: s => (∃ k a b, h.root = .node v k a b) ∧ h.deleteMin.1 = some v ∧
        ∃ l' : List α, (↑l' : Multiset α) = ↑s ∧ Holds h.deleteMin.2 l' := by
  subst e
  by_cases hne : l = []
  · subst hne
    have h1 := hl.empty
    have : (↑([] : List α) : Multiset α).sort (· ≤ ·) = [] := by simp
    rw [this]
    dsimp only
    refine ⟨?_, h1.2, rfl⟩
    have h2 := h1.1
    unfold Heap.findMin at h2
    cases hr : h.root with
    | leaf => rfl
    | node v k a b => rw [hr] at h2; simp at h2
  · obtain ⟨v, g, h1, h2, h3, h4, h5⟩ := hl.min hne
    have hs : (↑l : Multiset α).sort (· ≤ ·) = v :: (↑(l.erase v) : Multiset α).sort (· ≤ ·) := by
      refine sort_of_holds rfl ?_ ?_
      · refine (List.Perm.cons v ?_).trans (List.perm_cons_erase h3).symm
        rw [← Multiset.coe_eq_coe, Multiset.sort_eq]
      · rw [List.pairwise_cons]
        refine ⟨fun x hx => h4 x (List.mem_of_mem_erase (b := v) ?_), Multiset.pairwise_sort _ _⟩
        rw [Multiset.mem_sort] at hx
        exact Multiset.mem_coe.1 hx
    rw [hs]
    dsimp only
    refine ⟨?_, by rw [h2], l.erase v, by rw [Multiset.sort_eq], by rw [h2]; exact h5⟩
    unfold Heap.findMin at h1
    cases hr : h.root with
    | leaf => rw [hr] at h1; simp at h1
    | node x k a b =>
      rw [hr] at h1
      simp only [Except.ok.injEq] at h1
      exact ⟨k, a, b, by rw [h1]⟩

/-- One statement does what it should, and leaves the other heaps alone. -/
private theorem step_good {w : World α} {hs : ℕ → HeapObj} {A : Finset ℕ} {M : ℕ → Multiset α}
    (hg : Good w hs A M) (op : Op α) (hu : usable A op) :
    ∃ w' hs', step w hs op = some ((w', hs'), (queueStep M op).2) ∧
      Good w' hs' (usableAfter A op) (queueStep M op).1 := by
  obtain ⟨S, H, g1, g2⟩ := id hg
  cases op with
  | new i vs =>
    simp only [step, queueStep, usableAfter]
    by_cases hlt : vs.length < 2
    · rw [initObj_short w vs hlt, if_pos hlt, if_pos hlt]
      exact ⟨_, _, rfl, hg⟩
    · obtain ⟨w', h', G, e1, e2, e3⟩ := initObj_spec w vs (by omega)
      obtain ⟨G', e4, e5⟩ := Rosemary.LeftistHeap.init_spec vs (by omega)
      rw [e2] at e4
      cases e4
      rw [e1, if_neg hlt, if_neg hlt]
      refine ⟨_, _, rfl, good_change i g1 g2 ?_ ?_ e3 e5⟩
      · intro k hk hki
        exact (Finset.mem_insert.1 hk).resolve_left hki
      · intro k hk hki x hx
        have := (g1 k ((Finset.mem_insert.1 hk).resolve_left hki)).2.2.1 x hx
        exact not_le.2 this
  | insert i v =>
    obtain ⟨t, s, b, l, hl, ho⟩ := g1 i hu
    obtain ⟨w', h', e1, e2⟩ := insertObj_spec v t s b
    simp only [step, queueStep, usableAfter]
    rw [e1]
    refine ⟨_, _, rfl, ?_⟩
    rw [← hl, Multiset.cons_coe]
    refine good_change i g1 g2 (fun k hk _ => hk) ?_ e2 (ho.insert v)
    intro k hk hki x hx
    rintro (h | h)
    · exact Finset.disjoint_left.1 (g2 k hk i hu hki) hx h
    · exact absurd ((g1 k hk).2.2.1 x hx) (not_lt.2 h)
  | findMin i =>
    obtain ⟨t, s, b, l, hl, ho⟩ := g1 i hu
    have hm := min_of_holds ho hl
    simp only [step, queueStep, usableAfter, findMinObj]
    cases hr : (hs i).root with
    | none =>
      rw [hr] at t
      have hlf := (isTree_none t).1
      cases hsrt : (M i).sort (· ≤ ·) with
      | nil => exact ⟨_, _, rfl, hg⟩
      | cons v q =>
        rw [hsrt] at hm
        obtain ⟨⟨k, a, b, h⟩, -⟩ := hm
        rw [hlf] at h
        simp at h
    | some c =>
      rw [hr] at t
      obtain ⟨v, k, a, b, hnode, hv, -⟩ := isTree_some t
      cases hsrt : (M i).sort (· ≤ ·) with
      | nil =>
        rw [hsrt] at hm
        rw [hm.1] at hnode
        simp at hnode
      | cons v' q =>
        rw [hsrt] at hm
        obtain ⟨⟨k', a', b', h⟩, -⟩ := hm
        rw [hnode] at h
        simp only [Tree.node.injEq] at h
        dsimp only
        rw [hv, h.1]
        exact ⟨_, _, rfl, hg⟩
  | deleteMin i =>
    obtain ⟨t, s, b, l, hl, ho⟩ := g1 i hu
    have hm := min_of_holds ho hl
    obtain ⟨w', h', e1, e2⟩ := deleteMinObj_spec t s b
    have hC : ∀ k ∈ A, k ≠ i → ∀ x ∈ S k, ¬ x ∈ S i := fun k hk hki x hx =>
      Finset.disjoint_left.1 (g2 k hk i hu hki) hx
    simp only [step, queueStep, usableAfter]
    rw [e1]
    cases hsrt : (M i).sort (· ≤ ·) with
    | nil =>
      rw [hsrt] at hm
      obtain ⟨-, h2, h3⟩ := hm
      refine ⟨_, _, by rw [h2]; rfl, ?_⟩
      have := good_change i g1 g2 (fun k hk _ => hk) hC e2 (l := l) (by rw [h2]; exact ho)
      rw [hl, Function.update_eq_self] at this
      exact this
    | cons v q =>
      rw [hsrt] at hm
      obtain ⟨-, h2, l', h3, h4⟩ := hm
      refine ⟨_, _, by rw [h2]; rfl, ?_⟩
      dsimp only
      rw [← h3]
      exact good_change i g1 g2 (fun k hk _ => hk) hC e2 h4
  | merge i j =>
    obtain ⟨hi, hj, hij⟩ := hu
    obtain ⟨t, s, b, l, hl, ho⟩ := g1 i hi
    obtain ⟨t', s', b', l', hl', ho'⟩ := g1 j hj
    obtain ⟨w', h', e1, e2⟩ := mergeObj_spec t t' (g2 i hi j hj hij) s s' b b'
    simp only [step, queueStep, usableAfter]
    rw [e1]
    refine ⟨_, _, rfl, ?_⟩
    rw [← hl, ← hl', Multiset.coe_add]
    refine good_change i g1 g2 (fun k hk _ => Finset.mem_of_mem_erase hk) ?_ e2 (ho.mergeWith ho')
    intro k hk hki x hx hx'
    have hkA := Finset.mem_of_mem_erase hk
    rcases Finset.mem_union.1 hx' with h | h
    · exact Finset.disjoint_left.1 (g2 k hkA i hi hki) hx h
    · exact Finset.disjoint_left.1 (g2 k hkA j hj (Finset.ne_of_mem_erase hk)) hx h
  | len i =>
    obtain ⟨t, s, b, l, hl, ho⟩ := g1 i hu
    simp only [step, queueStep, usableAfter]
    refine ⟨_, _, ?_, hg⟩
    rw [s, ho.size, ← hl, Multiset.coe_card]
  | list i =>
    obtain ⟨t, s, b, l, hl, ho⟩ := g1 i hu
    obtain ⟨w', h', e1, e2⟩ := iterObj_spec (hs i).size t s b
    obtain ⟨out, g, o1, o2, o3, o4⟩ := ho.iter
    rw [s] at e1 e2
    unfold Heap.iter at o1
    rw [o1] at e1 e2
    have hsrt := sort_of_holds hl o2 o3
    simp only [step, queueStep, usableAfter]
    rw [s, e1, hsrt]
    refine ⟨_, _, rfl, ?_⟩
    exact good_change i g1 g2 (fun k hk _ => hk) (fun k hk hki x hx =>
      Finset.disjoint_left.1 (g2 k hk i hu hki) hx) e2 o4

/-- C143: a program that makes and uses any number of heaps, and that no longer uses a heap once it was
the argument of `merge`, ends, and everything it shows is what it would show with separate priority
queues: no heap is affected by what is done to another one. -/
theorem C143_heaps_partial (w : World α) (hs : ℕ → HeapObj) (M : ℕ → Multiset α) (ops : List (Op α))
    (h : usableAll ∅ ops) : run w hs ops = some (queueRun M ops) := by
  have key : ∀ (ops : List (Op α)) (w : World α) (hs : ℕ → HeapObj) (A : Finset ℕ)
      (M : ℕ → Multiset α), Good w hs A M → usableAll A ops →
      run w hs ops = some (queueRun M ops) := by
    intro ops
    induction ops with
    | nil => intro w hs A M _ _; rfl
    | cons op ops ih =>
      intro w hs A M hg hu
      obtain ⟨w', hs', e1, e2⟩ := step_good hg op hu.1
      rw [run, e1]
      dsimp only
      rw [ih w' hs' _ _ e2 hu.2]
      rfl
  exact key ops w hs ∅ M ⟨fun _ => ∅, fun _ => ⟨.leaf, 0⟩, by simp, by simp⟩ h

/-- C143 (violation): `h0.merge(h1)` leaves `h1` with nodes that now belong to `h0`.  For two heaps
with one value each, `x ≤ y`, a later `h1.insert(v)` with `y ≤ v` puts `v` into `h0`, whose length stays 2. -/
theorem C143_merge_violation (w : World α) (h0 h1 : HeapObj) (a b : ℕ) (x y v : α) (hab : a ≠ b)
    (ha : a < w.next) (hb : b < w.next)
    (h0r : h0 = ⟨some a, 1⟩) (h1r : h1 = ⟨some b, 1⟩)
    (hna : w.nodes a = ⟨x, 0, none, none⟩) (hnb : w.nodes b = ⟨y, 0, none, none⟩)
    (hxy : x ≤ y) (hyv : y ≤ v) :
    ∃ w1 g0 w2 g1, mergeObj w h0 h1 = some (w1, g0) ∧
      (∃ S, IsTree w1.nodes g0.root (.node x 0 (.node y 0 .leaf .leaf) .leaf) S) ∧
      insertObj w1 h1 v = some (w2, g1) ∧
      (∃ S, IsTree w2.nodes g0.root (.node x 0 (.node y 0 (.node v 0 .leaf .leaf) .leaf) .leaf) S) ∧
      g0.size = 2 := by
  subst h0r h1r
  have hba : b ≠ a := hab.symm
  have e1 : mergeNodes w.nodes a b = some (Function.update w.nodes a ⟨x, 0, some b, none⟩, a) := by
    rw [mergeNodes.eq_def]
    have : smaller w.nodes a b = (a, b) := by
      unfold smaller
      rw [hna, hnb, if_neg (not_lt.2 hxy)]
    rw [this]
    simp only [hna, attachNode]
  have hn1 : a ≠ w.next := by omega
  have hn2 : b ≠ w.next := by omega
  have e2 : mergeNodes (Function.update (Function.update w.nodes a ⟨x, 0, some b, none⟩) w.next
      ⟨v, 0, none, none⟩) b w.next = some (Function.update (Function.update (Function.update w.nodes a
        ⟨x, 0, some b, none⟩) w.next ⟨v, 0, none, none⟩) b ⟨y, 0, some w.next, none⟩, b) := by
    have hb' : Function.update (Function.update w.nodes a ⟨x, 0, some b, none⟩) w.next
      ⟨v, 0, none, none⟩ b = ⟨y, 0, none, none⟩ := by
      rw [Function.update_of_ne hn2, Function.update_of_ne hba, hnb]
    rw [mergeNodes.eq_def]
    have : smaller (Function.update (Function.update w.nodes a ⟨x, 0, some b, none⟩) w.next
      ⟨v, 0, none, none⟩) b w.next = (b, w.next) := by
      unfold smaller
      rw [hb', Function.update_self, if_neg (not_lt.2 hyv)]
    rw [this]
    simp only [hb', attachNode]
  refine ⟨⟨_, w.next⟩, ⟨some a, 2⟩, ⟨_, w.next + 1⟩, ⟨some b, 2⟩, by
    simp only [mergeObj, mergeRoots, e1, Option.map_some]; rfl, ⟨{a, b}, ?_⟩,
    by simp only [insertObj, World.alloc, e2, Option.map_some]; rfl, ⟨{a, b, w.next}, ?_⟩, rfl⟩
  · simp only [IsTree, Function.update_self, Function.update_of_ne hba, hnb]
    refine ⟨trivial, trivial, {b}, ∅, ⟨trivial, trivial, ∅, ∅, rfl, rfl, by simp, by simp, by simp,
      by simp⟩, rfl, by simpa using hab, by simp, by simp, by simp⟩
  · simp only [IsTree, Function.update_self, Function.update_of_ne hab, Function.update_of_ne hn1,
      Function.update_of_ne hn2.symm]
    refine ⟨trivial, trivial, {b, w.next}, ∅, ⟨trivial, trivial, {w.next}, ∅, ⟨trivial, trivial, ∅, ∅,
      rfl, rfl, by simp, by simp, by simp, by simp⟩, rfl, by simpa using hn2, by simp, by simp,
      by simp⟩, rfl, by simp [hab, hn1], by simp, by simp, by simp⟩

/-- A merge of nodes does not end when the node with the smaller value is its own right child. -/
private theorem mergeNodes_loop (m : Nodes α) (a b : ℕ) (h1 : (m a).right = some a)
    (h2 : (m a).value ≤ (m b).value) : mergeNodes m a b = none := by
  have key : ∀ (a b : ℕ) (r : Nodes α × ℕ), mergeNodes m a b = some r →
      ¬ ((m a).right = some a ∧ (m a).value ≤ (m b).value) := by
    apply mergeNodes.partial_correctness
    intro f hf a b r hr ⟨h1, h2⟩
    have hs : smaller m a b = (a, b) := by
      unfold smaller
      rw [if_neg (not_lt.2 h2)]
    rw [hs] at hr
    simp only [h1] at hr
    cases hq : f a b with
    | none => rw [hq] at hr; simp at hr
    | some q => exact hf a b q hq ⟨h1, h2⟩
  cases hq : mergeNodes m a b with
  | none => rfl
  | some q => exact absurd ⟨h1, h2⟩ (key a b q hq)

/-- C143 (violation): after `h.merge(h)` on a heap whose two values are `x < y`, the length is 4, the
root is its own right child, and `h.delete_min()` and every `h.insert(v)` with `x ≤ v` never end (infinite
recursion). -/
theorem C143_self_merge_violation (w : World α) (h : HeapObj) (a b : ℕ) (x y v : α) (hab : a ≠ b)
    (ha : a < w.next) (hb : b < w.next) (hr : h = ⟨some a, 2⟩)
    (hna : w.nodes a = ⟨x, 0, some b, none⟩) (hnb : w.nodes b = ⟨y, 0, none, none⟩) (hxy : x < y)
    (hv : x ≤ v) :
    ∃ w1 g, mergeObj w h h = some (w1, g) ∧ g.size = 4 ∧ insertObj w1 g v = none ∧ deleteMinObj w1 g = none := by
  subst hr
  have e1 : mergeNodes w.nodes a a = some (Function.update w.nodes a ⟨x, 1, some b, some a⟩, a) := by
    rw [mergeNodes.eq_def]
    have : smaller w.nodes a a = (a, a) := by
      unfold smaller
      rw [if_neg (lt_irrefl _)]
    rw [this]
    simp only [hna, hnb, attachNode, le_refl, if_true]
  refine ⟨⟨_, w.next⟩, ⟨some a, 4⟩, by simp only [mergeObj, mergeRoots, e1, Option.map_some]; rfl, rfl,
    ?_, ?_⟩
  · simp only [insertObj, World.alloc]
    rw [mergeNodes_loop]
    · rfl
    · rw [Function.update_of_ne (by omega), Function.update_self]
    · rw [Function.update_of_ne (by omega), Function.update_self, Function.update_self]
      exact hv
  · simp only [deleteMinObj, mergeRoots, Function.update_self]
    rw [mergeNodes.eq_def]
    have hs : smaller (Function.update w.nodes a ⟨x, 1, some b, some a⟩) b a = (a, b) := by
      unfold smaller
      rw [Function.update_self, Function.update_of_ne hab.symm, hnb, if_pos hxy]
    rw [hs]
    simp only [Function.update_self]
    rw [mergeNodes_loop]
    · rfl
    · rw [Function.update_self]
    · rw [Function.update_self, Function.update_of_ne hab.symm, hnb]
      exact hxy.le

private theorem nodes_single {m : Nodes ℕ} {a b : ℕ} (h : (m a).value ≤ (m b).value)
    (hr : (m a).right = none) : mergeNodes m a b = some (attachNode m a b, a) := by
  rw [mergeNodes.eq_def]
  have : smaller m a b = (a, b) := by
    unfold smaller
    rw [if_neg (not_lt.2 h)]
  rw [this]
  simp only [hr]

/-- The program that goes wrong: `h0 = {1}`, `h1 = {2}`, `h0.merge(h1)`, `h1.insert(5)`. -/
def mergeThenInsert : List (Op ℕ) :=
  [.new 0 [0, 1], .deleteMin 0, .new 1 [0, 2], .deleteMin 1, .merge 0 1, .insert 1 5, .len 0,
    .deleteMin 0, .deleteMin 0, .deleteMin 0]

/-- C143 (violation): the same as a program: after `h1.insert(5)` the heap `h0` of length 2 gives three
values, where a queue would answer `None`. -/
theorem C143_program_violation (n : Nodes ℕ) (hs : ℕ → HeapObj) :
    run ⟨n, 0⟩ hs mergeThenInsert =
      some [.nothing, .value (some 0), .nothing, .value (some 0), .nothing, .nothing, .number 2,
        .value (some 1), .value (some 2), .value (some 5)] ∧
    queueRun (fun _ => 0) mergeThenInsert =
      [.nothing, .value (some 0), .nothing, .value (some 0), .nothing, .nothing, .number 2,
        .value (some 1), .value (some 2), .value none] := by
  constructor
  · simp [mergeThenInsert, run, step, initObj, World.allocAll, World.alloc, buildNodes, nodes_single,
      attachNode, deleteMinObj, mergeRoots, mergeObj, insertObj, Function.update_apply]
  · have s1 : ([0, 1] : List ℕ).mergeSort (fun a b => decide (a ≤ b)) = [0, 1] :=
      List.mergeSort_of_pairwise (by decide)
    have s2 : ([0, 2] : List ℕ).mergeSort (fun a b => decide (a ≤ b)) = [0, 2] :=
      List.mergeSort_of_pairwise (by decide)
    have s3 : ((1 ::ₘ {2} : Multiset ℕ)).sort (· ≤ ·) = [1, 2] :=
      sort_of_holds (l := [1, 2]) rfl (List.Perm.refl _) (by decide)
    simp [mergeThenInsert, queueRun, queueStep, s1, s2, s3, Function.update_apply]

/-- A program that `C143_heaps_partial` covers. -/
example : usableAll ∅ ([.new 0 [5, 3], .new 1 [4, 1, 7], .insert 1 2, .merge 0 1, .new 1 [9, 8], .insert 1 6,
    .deleteMin 0, .list 0, .list 1] : List (Op ℕ)) := by
  simp [usableAll, usable, usableAfter]

end Rosemary.Props
