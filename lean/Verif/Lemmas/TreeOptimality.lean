import Verif.Lemmas.TreeExchange
import Verif.Spec.Walk

/-!
# Minimum spanning trees: uniqueness, cuts, cycles, bottlenecks
-/

namespace Rosemary.Spec

open BigOperators Rosemary.SpanningTrees

variable {V W : Type} [LinearOrder V] [AddCommGroup W] [LinearOrder W] [IsOrderedAddMonoid W]
variable {A : V → V → Option W} {C : Finset V} {T S : Finset (V × V)}

theorem edgeWeight_eq {e : V × V} {w : W} (h : A e.1 e.2 = some w) : edgeWeight A e = w := by rw [edgeWeight, h]; rfl

/-- No exchange makes the tree lighter. -/
theorem MinSpanningTree.swap_le (hT : MinSpanningTree A C T) {e f : V × V} (he : e ∈ T)
    (hf : f.1 < f.2 ∧ f.1 ∈ C ∧ f.2 ∈ C ∧ ∃ w, A f.1 f.2 = some w) (hnj : ¬ Joined (T.erase e) f.1 f.2) :
    edgeWeight A e ≤ edgeWeight A f := by
  obtain ⟨h1, h2⟩ := hT.tree.swap he hf hnj
  have h3 := hT.min _ h1
  rw [totalWeight_swap he h2] at h3
  have : totalWeight A T + edgeWeight A e ≤ totalWeight A T + edgeWeight A f := by
    have := add_le_add_left h3 (edgeWeight A e)
    calc totalWeight A T + edgeWeight A e ≤ totalWeight A T - edgeWeight A e + edgeWeight A f + edgeWeight A e := this
      _ = totalWeight A T + edgeWeight A f := by abel
  exact le_of_add_le_add_left this

/-- If different edges have different weights, there is only one minimum spanning tree. -/
theorem MinSpanningTree.unique (hT : MinSpanningTree A C T) (hS : MinSpanningTree A C S)
    (hd : ∀ e f : V × V, e.1 < e.2 → f.1 < f.2 → ∀ w, A e.1 e.2 = some w → A f.1 f.2 = some w → e = f) : T = S := by
  have hcard : T.card = S.card := by have := hT.tree.card; have := hS.tree.card; omega
  refine Finset.eq_of_subset_of_card_le (fun e he => ?_) hcard.ge
  by_contra heS
  obtain ⟨f, hf, hfT, hnj, hx⟩ := hT.tree.symmetric_exchange hS.tree he heS
  have heT := hT.tree.edge e.1 e.2 he
  have hfS := hS.tree.edge f.1 f.2 hf
  have h1 := hT.swap_le he hfS hnj
  have h2 : edgeWeight A f ≤ edgeWeight A e := by
    have h3 := hS.min _ hx
    rw [totalWeight_swap hf (fun h => heS (Finset.mem_of_mem_erase h))] at h3
    have : totalWeight A S + edgeWeight A f ≤ totalWeight A S + edgeWeight A e := by
      have := add_le_add_left h3 (edgeWeight A f)
      calc totalWeight A S + edgeWeight A f ≤ totalWeight A S - edgeWeight A f + edgeWeight A e + edgeWeight A f := this
        _ = totalWeight A S + edgeWeight A e := by abel
    exact le_of_add_le_add_left this
  obtain ⟨w, hw⟩ := heT.2.2.2
  obtain ⟨x, hx'⟩ := hfS.2.2.2
  have hwx : w = x := by rw [← edgeWeight_eq hw, ← edgeWeight_eq hx']; exact le_antisymm h1 h2
  subst hwx
  exact hfT (hd e f heT.1 hfS.1 w hw hx' ▸ he)

theorem joined_classes (R : Finset (V × V)) (a b : V) :
    (fun v => {u | Joined R v u}) a = (fun v => {u | Joined R v u}) b ↔ Joined R a b := by
  constructor
  · intro h
    have : b ∈ (fun v => {u | Joined R v u}) a := by rw [h]; exact Joined.refl _ _
    exact this
  · intro h
    ext u
    exact ⟨fun h' => h.symm.trans h', fun h' => h.trans h'⟩

/-- Every edge of the graph that joins two classes is not lighter than one of the tree on the way, which also joins two
classes. -/
theorem MinSpanningTree.cross (hT : MinSpanningTree A C T) {α : Type*} (c : V → α) {f : V × V}
    (hf : f.1 < f.2 ∧ f.1 ∈ C ∧ f.2 ∈ C ∧ ∃ w, A f.1 f.2 = some w) (hc : c f.1 ≠ c f.2) :
    ∃ e ∈ T, c e.1 ≠ c e.2 ∧ edgeWeight A e ≤ edgeWeight A f ∧ (f ∉ T → ¬ Joined (T.erase e) f.1 f.2) := by
  by_cases hfT : f ∈ T
  · exact ⟨f, hfT, hc, le_refl _, fun h => absurd hfT h⟩
  obtain ⟨e, he, hce, hj⟩ := exchange c (hT.tree.joined _ hf.2.1 _ hf.2.2.1) hc
  have hnj : ¬ Joined (T.erase e) f.1 f.2 := by
    intro h
    apply hT.tree.not_joined_erase he
    have h1 := hj e.1 e.2 (Joined.of_mem he)
    exact h1.lift fun a b hab => by
      rcases Finset.mem_insert.1 hab with h2 | h2
      · rw [Prod.mk.injEq] at h2
        rw [h2.1, h2.2]; exact h
      · exact Joined.of_mem h2
  exact ⟨e, he, hce, hT.swap_le he hf hnj, fun _ => hnj⟩

/-- A walk that leaves a class uses an edge that does. -/
theorem Reach.leaves {E : V → V → Prop} {α : Type*} (c : V → α) {u v : V} (h : Reach E u v) (hc : c u ≠ c v) :
    ∃ a b, E a b ∧ c a ≠ c b := by
  by_contra hno
  push Not at hno
  obtain ⟨n, hn⟩ := h
  apply hc
  clear hc
  induction hn with
  | zero => rfl
  | succ _ he ih => exact ih.trans (hno _ _ he)

/-- The edge as an increasing pair. -/
theorem ordered_edge (hA : ∀ u v, A u v = A v u) {a b : V} {w : W} (h : A a b = some w) (hne : a ≠ b) (ha : a ∈ C) (hb : b ∈ C) :
    ∃ f : V × V, (f = (a, b) ∨ f = (b, a)) ∧ (f.1 < f.2 ∧ f.1 ∈ C ∧ f.2 ∈ C ∧ ∃ w, A f.1 f.2 = some w) ∧ A f.1 f.2 = some w := by
  rcases lt_or_gt_of_ne hne with hlt | hlt
  · exact ⟨(a, b), Or.inl rfl, ⟨hlt, ha, hb, w, h⟩, h⟩
  · exact ⟨(b, a), Or.inr rfl, ⟨hlt, hb, ha, w, by rw [hA]; exact h⟩, by rw [hA]; exact h⟩

/-- An edge is not in a minimum spanning tree if its ends are joined by lighter edges. -/
theorem MinSpanningTree.heavy (hT : MinSpanningTree A C T) (hA : ∀ u v, A u v = A v u) (hC : ∀ u v w, A u v = some w → u ∈ C)
    {e : V × V} {w : W} (he : A e.1 e.2 = some w) (hr : Reach (fun a b => ∃ x, A a b = some x ∧ x < w) e.1 e.2) : e ∉ T := by
  intro heT
  have hnj := hT.tree.not_joined_erase heT
  obtain ⟨a, b, ⟨x, hx, hlt⟩, hab⟩ := hr.leaves (fun v => {u | Joined (T.erase e) v u}) (fun h => hnj ((joined_classes _ _ _).1 h))
  have hne : a ≠ b := fun h => hab (by rw [h])
  have hnj' : ¬ Joined (T.erase e) a b := fun h => hab ((joined_classes _ _ _).2 h)
  obtain ⟨f, hf, hf', hfw⟩ := ordered_edge hA hx hne (hC a b x hx) (hC b a x (by rw [hA]; exact hx))
  have := hT.swap_le heT hf' (by rcases hf with rfl | rfl; exacts [hnj', fun h => hnj' h.symm])
  rw [edgeWeight_eq he, edgeWeight_eq hfw] at this
  exact absurd this (not_le.2 hlt)

/-- Vertices joined by edges of weight at most `c` are joined by such edges of the tree. -/
theorem MinSpanningTree.bottleneck (hT : MinSpanningTree A C T) (hA : ∀ u v, A u v = A v u) (hC : ∀ u v w, A u v = some w → u ∈ C)
    {c : W} {u v : V} (hr : Reach (fun a b => ∃ x, A a b = some x ∧ x ≤ c) u v) :
    Reach (fun a b => ((a, b) ∈ T ∨ (b, a) ∈ T) ∧ ∃ x, A a b = some x ∧ x ≤ c) u v := by
  by_contra hno
  have hsymm : ∀ {a b}, Reach (fun a b => ((a, b) ∈ T ∨ (b, a) ∈ T) ∧ ∃ x, A a b = some x ∧ x ≤ c) a b →
      Reach (fun a b => ((a, b) ∈ T ∨ (b, a) ∈ T) ∧ ∃ x, A a b = some x ∧ x ≤ c) b a := fun ⟨n, h⟩ =>
    ⟨n, h.symm fun a b ⟨h1, x, h2, h3⟩ => ⟨h1.symm, x, by rw [hA]; exact h2, h3⟩⟩
  set κ : V → Set V := fun v => {u | Reach (fun a b => ((a, b) ∈ T ∨ (b, a) ∈ T) ∧ ∃ x, A a b = some x ∧ x ≤ c) v u} with hκ
  have hiff : ∀ a b, κ a = κ b ↔ Reach (fun a b => ((a, b) ∈ T ∨ (b, a) ∈ T) ∧ ∃ x, A a b = some x ∧ x ≤ c) a b := by
    intro a b
    constructor
    · intro h
      have : b ∈ κ a := by rw [h]; exact Reach.refl _ _
      exact this
    · intro h
      ext z
      exact ⟨fun h' => (hsymm h).trans h', fun h' => h.trans h'⟩
  obtain ⟨a, b, ⟨x, hx, hle⟩, hab⟩ := hr.leaves κ (fun h => hno ((hiff _ _).1 h))
  have hne : a ≠ b := fun h => hab (by rw [h])
  obtain ⟨f, hf, hf', hfw⟩ := ordered_edge hA hx hne (hC a b x hx) (hC b a x (by rw [hA]; exact hx))
  obtain ⟨e, he, hce, hew, -⟩ := hT.cross κ hf' (by rcases hf with rfl | rfl; exacts [hab, fun h => hab h.symm])
  obtain ⟨y, hy⟩ := (hT.tree.edge e.1 e.2 he).2.2.2
  rw [edgeWeight_eq hy, edgeWeight_eq hfw] at hew
  exact hce ((hiff _ _).2 ⟨1, Steps.succ (Steps.zero _) ⟨Or.inl he, y, hy, hew.trans hle⟩⟩)

/-- An edge lighter than all others that leave a set of vertices is in the tree. -/
theorem MinSpanningTree.light (hT : MinSpanningTree A C T) {e : V × V} {w : W} (hlt : e.1 < e.2) (h1 : e.1 ∈ C) (h2 : e.2 ∈ C)
    (he : A e.1 e.2 = some w) (X : Set V) (hx : e.1 ∈ X ↔ e.2 ∉ X)
    (hmin : ∀ a b x, a < b → A a b = some x → (a ∈ X ↔ b ∉ X) → (a, b) ≠ e → w < x) : e ∈ T := by
  obtain ⟨f, hf, hc, hw, -⟩ := hT.cross (f := e) (fun v => v ∈ X) ⟨hlt, h1, h2, w, he⟩ (fun h => by
    have h : (e.1 ∈ X) = (e.2 ∈ X) := h
    rw [h] at hx; tauto)
  by_contra hne
  have hfe : f ≠ e := by rintro rfl; exact hne hf
  obtain ⟨k1, -, -, y, hy⟩ := hT.tree.edge f.1 f.2 hf
  have hcut : f.1 ∈ X ↔ f.2 ∉ X := by
    have hc : ¬ (f.1 ∈ X) = (f.2 ∈ X) := hc
    rw [eq_iff_iff] at hc
    tauto
  have := hmin f.1 f.2 y k1 hy hcut hfe
  rw [edgeWeight_eq hy, edgeWeight_eq he] at hw
  exact absurd hw (not_le.2 this)

end Rosemary.Spec
