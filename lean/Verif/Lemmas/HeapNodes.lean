import Verif.Model.HeapNodes
import Verif.Props.LeftistHeap
import Mathlib.Data.Finset.Basic
import Mathlib.Data.Finset.Disjoint
import Mathlib.Data.Finset.Lattice.Lemmas
import Mathlib.Data.Multiset.Sort

/-!
# Leftist heaps whose nodes are objects: every heap that owns its nodes behaves like a tree
-/

namespace Rosemary.HeapNodes

open Rosemary.LeftistHeap

variable {α : Type} [LinearOrder α]

/-- The reference `p` shows the tree `t`, whose nodes are at the addresses `S`, each used once. -/
def IsTree (m : Nodes α) : Option ℕ → Tree α → Finset ℕ → Prop
  | none, .leaf, S => S = ∅
  | some a, .node v k l r, S => (m a).value = v ∧ (m a).rank = k ∧ ∃ Sl Sr, IsTree m (m a).left l Sl ∧
      IsTree m (m a).right r Sr ∧ a ∉ Sl ∧ a ∉ Sr ∧ Disjoint Sl Sr ∧ S = insert a (Sl ∪ Sr)
  | _, _, _ => False

omit [LinearOrder α] in
theorem isTree_none {m : Nodes α} {t : Tree α} {S : Finset ℕ} (h : IsTree m none t S) :
    t = .leaf ∧ S = ∅ := by
  cases t with
  | leaf => exact ⟨rfl, h⟩
  | node v k l r => exact absurd h (by simp [IsTree])

omit [LinearOrder α] in
theorem isTree_leaf {m : Nodes α} {p : Option ℕ} {S : Finset ℕ} (h : IsTree m p .leaf S) :
    p = none ∧ S = ∅ := by
  cases p with
  | none => exact ⟨rfl, h⟩
  | some a => exact absurd h (by simp [IsTree])

omit [LinearOrder α] in
theorem isTree_some {m : Nodes α} {a : ℕ} {t : Tree α} {S : Finset ℕ} (h : IsTree m (some a) t S) :
    ∃ v k l r, t = .node v k l r ∧ (m a).value = v ∧ (m a).rank = k ∧ ∃ Sl Sr,
      IsTree m (m a).left l Sl ∧ IsTree m (m a).right r Sr ∧ a ∉ Sl ∧ a ∉ Sr ∧ Disjoint Sl Sr ∧
      S = insert a (Sl ∪ Sr) := by
  cases t with
  | leaf => exact absurd h (by simp [IsTree])
  | node v k l r => exact ⟨v, k, l, r, rfl, h⟩

omit [LinearOrder α] in
theorem isTree_mem {m : Nodes α} {a : ℕ} {t : Tree α} {S : Finset ℕ} (h : IsTree m (some a) t S) :
    a ∈ S := by
  obtain ⟨v, k, l, r, -, -, -, Sl, Sr, -, -, -, -, -, rfl⟩ := isTree_some h
  simp

omit [LinearOrder α] in
theorem isTree_rank {m : Nodes α} {a : ℕ} {t : Tree α} {S : Finset ℕ} (h : IsTree m (some a) t S) :
    (m a).rank = t.rank := by
  obtain ⟨v, k, l, r, rfl, -, h, -⟩ := isTree_some h
  exact h

omit [LinearOrder α] in
/-- The tree shown depends only on the nodes in it. -/
theorem isTree_frame {m m' : Nodes α} {p : Option ℕ} {t : Tree α} {S : Finset ℕ}
    (h : IsTree m p t S) (hm : ∀ x ∈ S, m' x = m x) : IsTree m' p t S := by
  induction t generalizing p S with
  | leaf =>
    obtain ⟨rfl, rfl⟩ := isTree_leaf h
    rfl
  | node v k l r ihl ihr =>
    cases p with
    | none => exact absurd (isTree_none h).1 (by simp)
    | some a =>
      obtain ⟨h1, h2, Sl, Sr, h3, h4, h5, h6, h7, rfl⟩ := h
      have e := hm a (by simp)
      rw [IsTree, e]
      exact ⟨h1, h2, Sl, Sr, ihl h3 (fun x hx => hm x (by simp [hx])),
        ihr h4 (fun x hx => hm x (by simp [hx])), h5, h6, h7, rfl⟩

omit [LinearOrder α] in
/-- Attaching a tree to a node. -/
theorem attachNode_spec {m : Nodes α} {a c : ℕ} {l t : Tree α} {Sl S : Finset ℕ}
    (hl : IsTree m (m a).left l Sl) (ht : IsTree m (some c) t S) (h1 : a ∉ Sl) (h2 : a ∉ S)
    (hd : Disjoint Sl S) :
    IsTree (attachNode m a c) (some a) (attach (m a).value l t) (insert a (Sl ∪ S)) ∧
      ∀ x, x ≠ a → attachNode m a c x = m x := by
  unfold attachNode
  have hu : ∀ (n : Node α) {q : Option ℕ} {u : Tree α} {R : Finset ℕ}, IsTree m q u R → a ∉ R →
      IsTree (Function.update m a n) q u R := by
    intro n q u R hq haR
    refine isTree_frame hq fun x hx => Function.update_of_ne ?_ _ _
    rintro rfl
    exact haR hx
  cases hp : (m a).left with
  | none =>
    rw [hp] at hl
    obtain ⟨rfl, rfl⟩ := isTree_none hl
    refine ⟨?_, fun x hx => Function.update_of_ne hx _ _⟩
    simp only [attach, IsTree, Function.update_self]
    refine ⟨trivial, trivial, S, ∅, hu _ ht h2, rfl, h2, by simp, by simp, by simp⟩
  | some b =>
    rw [hp] at hl
    have hr1 := isTree_rank ht
    have hr2 := isTree_rank hl
    obtain ⟨vl, kl, ll, rl, rfl, -⟩ := isTree_some hl
    simp only [attach, ← hr1, ← hr2]
    by_cases hc : (m c).rank ≤ (m b).rank
    · rw [if_pos hc, if_pos hc]
      refine ⟨?_, fun x hx => Function.update_of_ne hx _ _⟩
      simp only [IsTree, Function.update_self]
      exact ⟨trivial, trivial, Sl, S, hu _ hl h1, hu _ ht h2, h1, h2, hd, rfl⟩
    · rw [if_neg hc, if_neg hc]
      refine ⟨?_, fun x hx => Function.update_of_ne hx _ _⟩
      simp only [IsTree, Function.update_self]
      exact ⟨trivial, trivial, S, Sl, hu _ ht h2, hu _ hl h1, h2, h1, hd.symm, by
        rw [Finset.union_comm]⟩

/-- The second half of a merge, when the node `a` has the smaller value. -/
private theorem step_spec {m : Nodes α} {a b : ℕ} {x : α} {kx : ℕ} {lx rx u : Tree α}
    {S S' : Finset ℕ} (h1 : IsTree m (some a) (.node x kx lx rx) S) (h2 : IsTree m (some b) u S')
    (hd : Disjoint S S')
    (ih : ∀ r S1, IsTree m (some r) rx S1 → Disjoint S1 S' → ∃ m' c, mergeNodes m r b = some (m', c) ∧
      IsTree m' (some c) (merge rx u) (S1 ∪ S') ∧ ∀ z, z ∉ S1 ∪ S' → m' z = m z) :
    ∃ m' c, (match (m a).right with
        | none => some (attachNode m a b, a)
        | some r => do
          let q ← mergeNodes m r b
          some (attachNode q.1 a q.2, a)) = some (m', c) ∧
      IsTree m' (some c) (attach x lx (merge rx u)) (S ∪ S') ∧ ∀ z, z ∉ S ∪ S' → m' z = m z := by
  obtain ⟨hv, -, Sl, Sr, hl, hr, ha1, ha2, hlr, rfl⟩ := h1
  have haS' : a ∉ S' := Finset.disjoint_left.1 hd (by simp)
  have hlS' : Disjoint Sl S' := Finset.disjoint_of_subset_left (by
    intro z hz; simp [hz]) hd
  have hrS' : Disjoint Sr S' := Finset.disjoint_of_subset_left (by
    intro z hz; simp [hz]) hd
  cases hp : (m a).right with
  | none =>
    rw [hp] at hr
    obtain ⟨rfl, rfl⟩ := isTree_none hr
    obtain ⟨g1, g2⟩ := attachNode_spec hl h2 ha1 haS' hlS'
    refine ⟨_, _, rfl, ?_, ?_⟩
    · rw [merge_leaf, ← hv]
      rw [Finset.union_empty, Finset.insert_union]
      exact g1
    · intro z hz
      apply g2
      rintro rfl
      simp at hz
  | some r =>
    rw [hp] at hr
    obtain ⟨m', c, e1, e2, e3⟩ := ih r Sr hr hrS'
    have ea : m' a = m a := e3 a (by simp [ha2, haS'])
    have hl' : IsTree m' (m' a).left lx Sl := by
      rw [ea]
      refine isTree_frame hl fun z hz => e3 z ?_
      rw [Finset.mem_union]
      rintro (h | h)
      · exact Finset.disjoint_left.1 hlr hz h
      · exact Finset.disjoint_left.1 hlS' hz h
    obtain ⟨g1, g2⟩ := attachNode_spec hl' e2 ha1 (by simp [ha2, haS'])
      (Finset.disjoint_union_right.2 ⟨hlr, hlS'⟩)
    refine ⟨_, _, by dsimp only; rw [e1]; rfl, ?_, ?_⟩
    · rw [ea, hv] at g1
      rw [Finset.insert_union, Finset.union_assoc]
      exact g1
    · intro z hz
      simp only [Finset.mem_union, Finset.mem_insert, not_or] at hz
      rw [g2 z hz.1.1, e3 z (by simp [hz.1.2.2, hz.2])]

theorem mergeNodes_spec (t u : Tree α) : ∀ {m : Nodes α} {a b : ℕ} {S S' : Finset ℕ},
    IsTree m (some a) t S → IsTree m (some b) u S' → Disjoint S S' →
    ∃ m' c, mergeNodes m a b = some (m', c) ∧ IsTree m' (some c) (merge t u) (S ∪ S') ∧
      ∀ z, z ∉ S ∪ S' → m' z = m z := by
  induction hn : t.size + u.size using Nat.strong_induction_on generalizing t u with
  | _ n ih =>
    intro m a b S S' h1 h2 hd
    obtain ⟨x, kx, lx, rx, rfl, hx, -⟩ := isTree_some h1
    obtain ⟨y, ky, ly, ry, rfl, hy, -⟩ := isTree_some h2
    rw [mergeNodes.eq_def, merge_node]
    unfold smaller
    rw [hx, hy]
    by_cases hxy : x > y
    · rw [if_pos hxy, if_pos hxy]
      rw [Finset.union_comm]
      refine step_spec h2 h1 hd.symm ?_
      intro r S1 hr hS1
      exact ih _ (by simp only [Tree.size] at hn ⊢; omega) ry _ rfl hr h1 hS1
    · rw [if_neg hxy, if_neg hxy]
      refine step_spec h1 h2 hd ?_
      intro r S1 hr hS1
      exact ih _ (by simp only [Tree.size] at hn ⊢; omega) rx _ rfl hr h2 hS1

theorem mergeRoots_spec {t u : Tree α} {m : Nodes α} {p q : Option ℕ} {S S' : Finset ℕ}
    (h1 : IsTree m p t S) (h2 : IsTree m q u S') (hd : Disjoint S S') :
    ∃ m' r, mergeRoots m p q = some (m', r) ∧ IsTree m' r (merge t u) (S ∪ S') ∧
      ∀ z, z ∉ S ∪ S' → m' z = m z := by
  cases p with
  | none =>
    obtain ⟨rfl, rfl⟩ := isTree_none h1
    exact ⟨m, q, rfl, by rw [merge_leaf, Finset.empty_union]; exact h2, fun _ _ => rfl⟩
  | some a =>
    cases q with
    | none =>
      obtain ⟨rfl, rfl⟩ := isTree_none h2
      refine ⟨m, some a, rfl, ?_, fun _ _ => rfl⟩
      obtain ⟨x, kx, lx, rx, rfl, -⟩ := isTree_some h1
      rw [merge.eq_def, Finset.union_empty]
      exact h1
    | some b =>
      obtain ⟨m', c, e1, e2, e3⟩ := mergeNodes_spec t u h1 h2 hd
      exact ⟨m', some c, by simp only [mergeRoots, e1, Option.map_some], e2, e3⟩

/-! ### The methods -/

omit [LinearOrder α] in
theorem single_isTree {m : Nodes α} {a : ℕ} {v : α} (h : m a = ⟨v, 0, none, none⟩) :
    IsTree m (some a) (Tree.single v) {a} := by
  unfold Tree.single IsTree
  rw [h]
  exact ⟨rfl, rfl, ∅, ∅, rfl, rfl, by simp, by simp, by simp, by simp⟩

/-- What a method does to one heap: afterwards it shows the heap `G`, only the nodes `C` were changed,
and the nodes of the heap are among these. -/
structure Effect (w w' : World α) (h' : HeapObj) (G : Heap α) (C : ℕ → Prop) : Prop where
  next : w.next ≤ w'.next
  same : ∀ x, ¬ C x → w'.nodes x = w.nodes x
  size : h'.size = G.size
  tree : ∃ S, IsTree w'.nodes h'.root G.root S ∧ ∀ x ∈ S, C x ∧ x < w'.next

theorem deleteMinObj_spec {w : World α} {h : HeapObj} {G : Heap α} {S : Finset ℕ}
    (ht : IsTree w.nodes h.root G.root S) (hs : h.size = G.size) (hb : ∀ x ∈ S, x < w.next) :
    ∃ w' h', deleteMinObj w h = some (w', h', G.deleteMin.1) ∧
      Effect w w' h' G.deleteMin.2 (· ∈ S) := by
  unfold deleteMinObj Heap.deleteMin
  cases hr : h.root with
  | none =>
    rw [hr] at ht
    obtain ⟨hl, rfl⟩ := isTree_none ht
    rw [hl]
    exact ⟨w, h, rfl, le_refl _, fun _ _ => rfl, hs, ∅, by rw [hr, hl]; rfl, by simp⟩
  | some a =>
    rw [hr] at ht
    obtain ⟨v, k, l, r, hG, hv, -, Sl, Sr, hl, hr', ha1, ha2, hd, rfl⟩ := isTree_some ht
    obtain ⟨m', c, e1, e2, e3⟩ := mergeRoots_spec hl hr' hd
    rw [hG]
    dsimp only
    refine ⟨⟨m', w.next⟩, ⟨c, h.size - 1⟩, by rw [e1, hv]; rfl, le_refl _, ?_, by rw [hs], Sl ∪ Sr, e2, ?_⟩
    · intro x hx
      exact e3 x fun hx' => hx (Finset.mem_insert_of_mem hx')
    · intro x hx
      exact ⟨Finset.mem_insert_of_mem hx, hb x (Finset.mem_insert_of_mem hx)⟩

theorem iterObj_spec (n : ℕ) : ∀ {w : World α} {h : HeapObj} {G : Heap α} {S : Finset ℕ},
    IsTree w.nodes h.root G.root S → h.size = G.size → (∀ x ∈ S, x < w.next) →
    ∃ w' h', iterObj n w h = some (w', h', (iterLoop n G).1) ∧
      Effect w w' h' (iterLoop n G).2 (· ∈ S) := by
  induction n with
  | zero =>
    intro w h G S ht hs hb
    exact ⟨w, h, rfl, le_refl _, fun _ _ => rfl, hs, S, ht, fun x hx => ⟨hx, hb x hx⟩⟩
  | succ n ih =>
    intro w h G S ht hs hb
    obtain ⟨w1, h1, e1, f1⟩ := deleteMinObj_spec ht hs hb
    obtain ⟨S1, t1, s1⟩ := f1.tree
    obtain ⟨w2, h2, e2, f2⟩ := ih t1 f1.size (fun x hx => (s1 x hx).2)
    obtain ⟨S2, t2, s2⟩ := f2.tree
    refine ⟨w2, h2, ?_, ?_⟩
    · rw [iterObj, e1]
      dsimp only
      rw [e2]
      rfl
    · refine ⟨f1.next.trans f2.next, ?_, f2.size, S2, t2, fun x hx => ⟨(s1 x (s2 x hx).1).1, (s2 x hx).2⟩⟩
      intro x hx
      rw [f2.same x (fun hx' => hx (s1 x hx').1), f1.same x hx]

theorem insertObj_spec {w : World α} {h : HeapObj} {G : Heap α} {S : Finset ℕ} (v : α)
    (ht : IsTree w.nodes h.root G.root S) (hs : h.size = G.size) (hb : ∀ x ∈ S, x < w.next) :
    ∃ w' h', insertObj w h v = some (w', h') ∧
      Effect w w' h' (G.insert v) (fun x => x ∈ S ∨ w.next ≤ x) := by
  unfold insertObj Heap.insert World.alloc
  have hsing : IsTree (Function.update w.nodes w.next ⟨v, 0, none, none⟩) (some w.next)
      (Tree.single v) {w.next} := single_isTree (Function.update_self _ _ _)
  cases hr : h.root with
  | none =>
    rw [hr] at ht
    obtain ⟨hl, rfl⟩ := isTree_none ht
    rw [hl]
    refine ⟨_, _, rfl, Nat.le_succ _, ?_, by rw [hs], {w.next}, hsing, ?_⟩
    · intro x hx
      refine Function.update_of_ne ?_ _ _
      rintro rfl
      exact hx (.inr le_rfl)
    · intro x hx
      rw [Finset.mem_singleton] at hx
      subst hx
      exact ⟨.inr le_rfl, Nat.lt_succ_self _⟩
  | some a =>
    rw [hr] at ht
    have hfr : IsTree (Function.update w.nodes w.next ⟨v, 0, none, none⟩) (some a) G.root S := by
      refine isTree_frame ht fun x hx => Function.update_of_ne ?_ _ _
      have := hb x hx
      omega
    have hd : Disjoint S {w.next} := by
      rw [Finset.disjoint_singleton_right]
      intro hx
      exact absurd (hb _ hx) (lt_irrefl _)
    obtain ⟨m', c, e1, e2, e3⟩ := mergeNodes_spec _ _ hfr hsing hd
    dsimp only
    rw [e1]
    obtain ⟨x, k, l, r, hG, -⟩ := isTree_some ht
    refine ⟨_, _, rfl, Nat.le_succ _, ?_, ?_, S ∪ {w.next}, ?_, ?_⟩
    · intro z hz
      rw [not_or] at hz
      show m' z = _
      rw [e3 z (by
        rw [Finset.mem_union, Finset.mem_singleton]
        rintro (h | h)
        · exact hz.1 h
        · exact hz.2 h.ge)]
      refine Function.update_of_ne ?_ _ _
      rintro rfl
      exact hz.2 le_rfl
    · rw [hG]
      dsimp only
      rw [hs]
    · rw [hG] at e2 ⊢
      exact e2
    · intro z hz
      rw [Finset.mem_union, Finset.mem_singleton] at hz
      rcases hz with hz | rfl
      · exact ⟨.inl hz, Nat.lt_succ_of_lt (hb z hz)⟩
      · exact ⟨.inr le_rfl, Nat.lt_succ_self _⟩

theorem mergeObj_spec {w : World α} {h g : HeapObj} {H G : Heap α} {S S' : Finset ℕ}
    (h1 : IsTree w.nodes h.root H.root S) (h2 : IsTree w.nodes g.root G.root S') (hd : Disjoint S S')
    (s1 : h.size = H.size) (s2 : g.size = G.size) (b1 : ∀ x ∈ S, x < w.next)
    (b2 : ∀ x ∈ S', x < w.next) :
    ∃ w' h', mergeObj w h g = some (w', h') ∧ Effect w w' h' (H.mergeWith G) (· ∈ S ∪ S') := by
  obtain ⟨m', c, e1, e2, e3⟩ := mergeRoots_spec h1 h2 hd
  unfold mergeObj
  rw [e1]
  refine ⟨_, _, rfl, le_refl _, e3, ?_, S ∪ S', e2, ?_⟩
  · show h.size + g.size = _
    rw [s1, s2]
    rfl
  · intro x hx
    refine ⟨hx, ?_⟩
    rcases Finset.mem_union.1 hx with h | h
    · exact b1 x h
    · exact b2 x h

/-! ### The constructor -/

/-- The references `as` show the trees `ts`, with all nodes different. -/
def Forest (m : Nodes α) : List ℕ → List (Tree α) → Finset ℕ → Prop
  | [], [], S => S = ∅
  | a :: as, t :: ts, S => ∃ S1 S2, IsTree m (some a) t S1 ∧ Forest m as ts S2 ∧ Disjoint S1 S2 ∧
      S = S1 ∪ S2
  | _, _, _ => False

omit [LinearOrder α] in
theorem forest_frame {m m' : Nodes α} {as : List ℕ} {ts : List (Tree α)} {S : Finset ℕ}
    (h : Forest m as ts S) (hm : ∀ x ∈ S, m' x = m x) : Forest m' as ts S := by
  induction as generalizing ts S with
  | nil =>
    cases ts with
    | nil => exact h
    | cons t ts => exact absurd h (by simp [Forest])
  | cons a as ih =>
    cases ts with
    | nil => exact absurd h (by simp [Forest])
    | cons t ts =>
      obtain ⟨S1, S2, h1, h2, h3, rfl⟩ := h
      exact ⟨S1, S2, isTree_frame h1 fun x hx => hm x (Finset.mem_union_left _ hx),
        ih h2 fun x hx => hm x (Finset.mem_union_right _ hx), h3, rfl⟩

omit [LinearOrder α] in
theorem forest_snoc {m : Nodes α} {as : List ℕ} {ts : List (Tree α)} {S : Finset ℕ} {c : ℕ} {t : Tree α}
    {S' : Finset ℕ} (h : Forest m as ts S) (ht : IsTree m (some c) t S') (hd : Disjoint S S') :
    Forest m (as ++ [c]) (ts ++ [t]) (S ∪ S') := by
  induction as generalizing ts S with
  | nil =>
    cases ts with
    | nil =>
      have : S = ∅ := h
      subst this
      exact ⟨S', ∅, ht, rfl, by simp, by simp⟩
    | cons t ts => exact absurd h (by simp [Forest])
  | cons a as ih =>
    cases ts with
    | nil => exact absurd h (by simp [Forest])
    | cons t ts =>
      obtain ⟨S1, S2, h1, h2, h3, rfl⟩ := h
      rw [Finset.disjoint_union_left] at hd
      exact ⟨S1, S2 ∪ S', h1, ih h2 hd.2, Finset.disjoint_union_right.2 ⟨h3, hd.1⟩, by
        rw [Finset.union_assoc]⟩

theorem buildNodes_spec (n : ℕ) : ∀ {m : Nodes α} {as : List ℕ} {ts : List (Tree α)} {S : Finset ℕ}
    (size : ℕ) (p : Option ℕ) (q : Option (Tree α)), Forest m as ts S → ts.length = n → 2 ≤ n →
    ∃ m' c t k, buildNodes n m as size p = some (.ok (m', some c, k)) ∧
      build n ts size q = .ok (some t, k) ∧ IsTree m' (some c) t S ∧ ∀ x, x ∉ S → m' x = m x := by
  induction n with
  | zero => intro m as ts S size p q hf hl h2; omega
  | succ n ih =>
    intro m as ts S size p q hf hl h2
    match as, ts, hf, hl with
    | [], [], _, hl => simp at hl
    | [a], [t], _, hl => simp at hl; omega
    | [a], [], hf, hl => exact absurd hf (by simp [Forest])
    | [a], t :: u :: ts, hf, hl =>
      obtain ⟨_, _, _, h, _⟩ := hf
      exact absurd h (by simp [Forest])
    | a :: b :: as, [t], hf, hl =>
      obtain ⟨_, _, _, h, _⟩ := hf
      exact absurd h (by simp [Forest])
    | a :: b :: as, t :: u :: ts, hf, hl =>
      obtain ⟨S1, S2, h1, ⟨S3, S4, h3, h4, hd2, rfl⟩, hd1, rfl⟩ := hf
      rw [Finset.disjoint_union_right] at hd1
      obtain ⟨m', c, e1, e2, e3⟩ := mergeNodes_spec t u h1 h3 hd1.1
      rw [buildNodes, dif_pos (by omega), build, dif_pos (by omega)]
      dsimp only
      rw [e1]
      dsimp only
      rw [Nat.add_sub_cancel]
      have hd : Disjoint S4 (S1 ∪ S3) := Finset.disjoint_union_right.2 ⟨hd1.2.symm, hd2.symm⟩
      have hf' : Forest m' (as ++ [c]) (ts ++ [merge t u]) (S4 ∪ (S1 ∪ S3)) :=
        forest_snoc (forest_frame h4 fun x hx => e3 x (Finset.disjoint_left.1 hd hx)) e2 hd
      have hS : S4 ∪ (S1 ∪ S3) = S1 ∪ (S3 ∪ S4) := by
        rw [Finset.union_comm, Finset.union_assoc]
      have hl' : (ts ++ [merge t u]).length = n := by
        simp only [List.length_append, List.length_cons, List.length_nil] at hl ⊢; omega
      by_cases h3 : 2 ≤ n
      · obtain ⟨m'', c', t', k, g1, g2, g3, g4⟩ := ih (size + 1) (some c) (some (merge t u)) hf' hl' h3
        rw [hS] at g3 g4
        refine ⟨m'', c', t', k, g1, g2, g3, fun x hx => ?_⟩
        rw [g4 x hx, e3 x fun h => hx ?_]
        rw [← hS]
        exact Finset.mem_union_right _ h
      · have hn1 : n = 1 := by omega
        subst hn1
        have hts : ts = [] := by simpa using hl'
        subst hts
        have has : as = [] ∧ S4 = ∅ := by
          cases as with
          | nil => exact ⟨rfl, h4⟩
          | cons _ _ => exact absurd h4 (by simp [Forest])
        obtain ⟨rfl, rfl⟩ := has
        rw [buildNodes.eq_def, build.eq_def]
        refine ⟨m', c, merge t u, size + 1, ?_, ?_, ?_, ?_⟩
        · dsimp only; rw [dif_neg (by omega)]
        · dsimp only; rw [dif_neg (by omega)]
        · rw [Finset.union_empty]; exact e2
        · rw [Finset.union_empty]; exact e3

omit [LinearOrder α] in
theorem allocAll_spec (vs : List α) : ∀ (w : World α),
    w.next ≤ (w.allocAll vs).1.next ∧ (∀ x, x < w.next → (w.allocAll vs).1.nodes x = w.nodes x) ∧
    ∃ S, Forest (w.allocAll vs).1.nodes (w.allocAll vs).2 (vs.map Tree.single) S ∧
      ∀ x ∈ S, w.next ≤ x ∧ x < (w.allocAll vs).1.next := by
  induction vs with
  | nil => exact fun w => ⟨le_refl _, fun _ _ => rfl, ∅, rfl, by simp⟩
  | cons v vs ih =>
    intro w
    obtain ⟨h1, h2, S, h3, h4⟩ := ih (w.alloc v).1
    have hn : (w.alloc v).1.next = w.next + 1 := rfl
    rw [hn] at h1 h2 h4
    simp only [World.allocAll, List.map_cons]
    refine ⟨by omega, ?_, {w.next} ∪ S, ?_, ?_⟩
    · intro x hx
      rw [h2 x (by omega)]
      exact Function.update_of_ne (by omega) _ _
    · refine ⟨{w.next}, S, single_isTree ?_, h3, ?_, rfl⟩
      · show _ = _
        have : (w.alloc v).2 = w.next := rfl
        rw [this, h2 _ (by omega)]
        exact Function.update_self _ _ _
      · rw [Finset.disjoint_singleton_left]
        intro hx
        have := h4 _ hx
        omega
    · intro x hx
      rw [Finset.mem_union, Finset.mem_singleton] at hx
      rcases hx with rfl | hx
      · exact ⟨le_rfl, by omega⟩
      · have := h4 x hx
        omega

theorem initObj_spec (w : World α) (vs : List α) (h : 2 ≤ vs.length) :
    ∃ w' h' G, initObj w vs = some (.ok (w', h')) ∧ init vs = .ok G ∧
      Effect w w' h' G (w.next ≤ ·) := by
  obtain ⟨h1, h2, S, h3, h4⟩ := allocAll_spec vs w
  obtain ⟨m', c, t, k, e1, e2, e3, e4⟩ := buildNodes_spec vs.length 0 none none h3
    (by simp) h
  unfold initObj init
  dsimp only
  rw [e1, e2]
  refine ⟨_, _, _, rfl, rfl, h1, ?_, rfl, S, e3, fun x hx => h4 x hx⟩
  intro x hx
  show m' x = _
  rw [e4 x fun hx' => hx (h4 x hx').1, h2 x (by omega)]

theorem initObj_short (w : World α) (vs : List α) (h : vs.length < 2) :
    initObj w vs = some (.error .unboundLocalError) := by
  unfold initObj
  dsimp only
  rw [buildNodes.eq_def]
  dsimp only
  rw [dif_neg (by omega)]

/-! ### The variables of a program -/

/-- The heaps in the variables `alive` own disjoint sets of nodes and hold the values `M`. -/
def Good (w : World α) (hs : ℕ → HeapObj) (alive : Finset ℕ) (M : ℕ → Multiset α) : Prop :=
  ∃ (S : ℕ → Finset ℕ) (H : ℕ → Heap α), (∀ i ∈ alive, IsTree w.nodes (hs i).root (H i).root (S i) ∧
      (hs i).size = (H i).size ∧ (∀ x ∈ S i, x < w.next) ∧ ∃ l : List α, ↑l = M i ∧ Holds (H i) l) ∧
    ∀ i ∈ alive, ∀ j ∈ alive, i ≠ j → Disjoint (S i) (S j)

/-- One heap changes or is made. -/
theorem good_change {w w' : World α} {hs : ℕ → HeapObj} {alive alive' : Finset ℕ}
    {M : ℕ → Multiset α} {S : ℕ → Finset ℕ} {H : ℕ → Heap α} (i : ℕ) {h' : HeapObj} {G : Heap α}
    {C : ℕ → Prop} {l : List α}
    (g1 : ∀ i ∈ alive, IsTree w.nodes (hs i).root (H i).root (S i) ∧
      (hs i).size = (H i).size ∧ (∀ x ∈ S i, x < w.next) ∧ ∃ l : List α, ↑l = M i ∧ Holds (H i) l)
    (g2 : ∀ i ∈ alive, ∀ j ∈ alive, i ≠ j → Disjoint (S i) (S j))
    (ha : ∀ k ∈ alive', k ≠ i → k ∈ alive) (hC : ∀ k ∈ alive', k ≠ i → ∀ x ∈ S k, ¬ C x)
    (he : Effect w w' h' G C) (hl : Holds G l) :
    Good w' (Function.update hs i h') alive' (Function.update M i ↑l) := by
  obtain ⟨S', t', s'⟩ := he.tree
  refine ⟨Function.update S i S', Function.update H i G, ?_, ?_⟩
  · intro k hk
    by_cases hki : k = i
    · subst hki
      simp only [Function.update_self]
      exact ⟨t', he.size, fun x hx => (s' x hx).2, l, rfl, hl⟩
    · simp only [Function.update_of_ne hki]
      obtain ⟨q1, q2, q3, q4⟩ := g1 k (ha k hk hki)
      exact ⟨isTree_frame q1 fun x hx => he.same x (hC k hk hki x hx), q2,
        fun x hx => lt_of_lt_of_le (q3 x hx) he.next, q4⟩
  · have key : ∀ k ∈ alive', k ≠ i → Disjoint S' (S k) := by
      intro k hk hki
      rw [Finset.disjoint_left]
      intro x hx hx'
      exact hC k hk hki x hx' (s' x hx).1
    intro k hk j hj hkj
    by_cases hki : k = i
    · subst hki
      rw [Function.update_self, Function.update_of_ne hkj.symm]
      exact key j hj hkj.symm
    · by_cases hji : j = i
      · subst hji
        rw [Function.update_self, Function.update_of_ne hki]
        exact (key k hk hki).symm
      · rw [Function.update_of_ne hki, Function.update_of_ne hji]
        exact g2 k (ha k hk hki) j (ha j hj hji) hkj

end Rosemary.HeapNodes
