import Verif.Lemmas.SpanningTree
import Verif.Model.SpanningTrees
import Mathlib.Algebra.Order.Group.Defs
import Mathlib.Order.Lattice.Nat
import Mathlib.Logic.Function.Iterate
import Mathlib.Tactic.Abel

/-!
# Exchanges in spanning trees

The best tree of a family other than its minimum is obtained by the exchange of one edge; in a rooted tree the exchanges
are given by the ancestor relation.
-/

namespace Rosemary.Spec

open BigOperators Rosemary.SpanningTrees

variable {V W : Type} [LinearOrder V]

section

variable {A : V → V → Option W} {C : Finset V} {T S : Finset (V × V)}

theorem SpanningTree.not_joined_erase (hT : SpanningTree A C T) {e : V × V} (he : e ∈ T) : ¬ Joined (T.erase e) e.1 e.2 := by
  intro hj
  have := card_le_of_joined (C := C) (T := T.erase e) (fun u hu v hv => (hT.joined u hu v hv).lift (fun a b hab => by
    by_cases h : (a, b) = e
    · subst h; exact hj
    · exact Joined.of_mem (Finset.mem_erase.2 ⟨h, hab⟩)))
  have h1 := Finset.card_erase_add_one he
  have h2 := hT.card
  omega

/-- An edge may be replaced by one that joins the two parts. -/
theorem SpanningTree.swap (hT : SpanningTree A C T) {e f : V × V} (he : e ∈ T)
    (hf : f.1 < f.2 ∧ f.1 ∈ C ∧ f.2 ∈ C ∧ ∃ w, A f.1 f.2 = some w) (hnj : ¬ Joined (T.erase e) f.1 f.2) :
    SpanningTree A C (insert f (T.erase e)) ∧ f ∉ T.erase e := by
  have hf' : f ∉ T.erase e := fun h => hnj (Joined.of_mem h)
  refine ⟨⟨?_, ?_, ?_⟩, hf'⟩
  · intro u v huv
    rcases Finset.mem_insert.1 huv with rfl | h
    · exact hf
    · exact hT.edge u v (Finset.mem_of_mem_erase h)
  · have hj : Joined (insert (e.1, e.2) (T.erase e)) f.1 f.2 := by
      rw [Prod.mk.eta, Finset.insert_erase he]; exact hT.joined _ hf.2.1 _ hf.2.2.1
    have hmono : ∀ {a b}, Joined (T.erase e) a b → Joined (insert f (T.erase e)) a b := fun h => h.mono (Finset.subset_insert _ _)
    have hff : Joined (insert f (T.erase e)) f.1 f.2 := Joined.of_mem (Finset.mem_insert_self _ _)
    have hee : Joined (insert f (T.erase e)) e.1 e.2 := by
      rcases joined_insert.1 hj with h | ⟨h1, h2⟩ | ⟨h1, h2⟩
      · exact absurd h hnj
      · exact ((hmono h1.symm).trans hff).trans (hmono h2.symm)
      · exact ((hmono h2).trans hff.symm).trans (hmono h1)
    intro u hu v hv
    refine (hT.joined u hu v hv).lift (fun a b hab => ?_)
    by_cases h : (a, b) = e
    · subst h; exact hee
    · exact hmono (Joined.of_mem (Finset.mem_erase.2 ⟨h, hab⟩))
  · rw [Finset.card_insert_of_notMem hf', Finset.card_erase_add_one he]; exact hT.card

/-- The symmetric exchange of two edges between two spanning trees. -/
theorem SpanningTree.symmetric_exchange (hT : SpanningTree A C T) (hS : SpanningTree A C S) {e : V × V} (he : e ∈ T) (heS : e ∉ S) :
    ∃ f ∈ S, f ∉ T ∧ ¬ Joined (T.erase e) f.1 f.2 ∧ SpanningTree A C (insert e (S.erase f)) := by
  have heT := hT.edge e.1 e.2 he
  have hiff : ∀ a b, (fun v => {u | Joined (T.erase e) v u}) a = (fun v => {u | Joined (T.erase e) v u}) b ↔ Joined (T.erase e) a b := by
    intro a b
    constructor
    · intro h
      have : b ∈ (fun v => {u | Joined (T.erase e) v u}) a := by rw [h]; exact Joined.refl _ _
      exact this
    · intro h
      ext u
      exact ⟨fun h' => h.symm.trans h', fun h' => h.trans h'⟩
  obtain ⟨f, hf, hcf, hj⟩ := exchange (fun v => {u | Joined (T.erase e) v u}) (hS.joined e.1 heT.2.1 e.2 heT.2.2.1)
    (fun h => hT.not_joined_erase he ((hiff _ _).1 h))
  have hfe : f ≠ e := by rintro rfl; exact heS hf
  have hnj : ¬ Joined (T.erase e) f.1 f.2 := fun h => hcf ((hiff _ _).2 h)
  have he' : e ∉ S.erase f := fun h => heS (Finset.mem_of_mem_erase h)
  refine ⟨f, hf, fun hfT => hnj (Joined.of_mem (Finset.mem_erase.2 ⟨hfe, hfT⟩)), hnj, ⟨?_, ?_, ?_⟩⟩
  · intro u v huv
    rcases Finset.mem_insert.1 huv with rfl | h
    · exact heT
    · exact hS.edge u v (Finset.mem_of_mem_erase h)
  · intro u hu v hv
    exact hj u v (hS.joined u hu v hv)
  · rw [Finset.card_insert_of_notMem he', Finset.card_erase_add_one hf]; exact hS.card

/-- The spanning trees that contain `I` and avoid `X`. -/
structure InFamily (A : V → V → Option W) (C : Finset V) (I X S : Finset (V × V)) : Prop where
  tree : SpanningTree A C S
  inc : I ⊆ S
  exc : ∀ e ∈ X, e ∉ S

end

section

variable [AddCommGroup W] {A : V → V → Option W} {C : Finset V} {T S : Finset (V × V)}

/-- The weight of an edge. -/
def edgeWeight (A : V → V → Option W) (e : V × V) : W := (A e.1 e.2).getD 0

theorem totalWeight_swap {e f : V × V} (he : e ∈ T) (hf : f ∉ T.erase e) :
    totalWeight A (insert f (T.erase e)) = totalWeight A T - edgeWeight A e + edgeWeight A f := by
  rw [totalWeight, totalWeight, Finset.sum_insert hf, ← Finset.add_sum_erase T _ he, edgeWeight, edgeWeight]
  abel

variable [LinearOrder W] [IsOrderedAddMonoid W]

/-- Every other tree of the family is at least as heavy as the minimum with one edge exchanged. -/
theorem second_best {I X : Finset (V × V)} (hT : InFamily A C I X T) (hmin : ∀ S, InFamily A C I X S → totalWeight A T ≤ totalWeight A S)
    (hS : InFamily A C I X S) (hne : S ≠ T) :
    ∃ e ∈ T, e ∉ I ∧ ∃ f, f ∉ T ∧ f ∉ X ∧ (f.1 < f.2 ∧ f.1 ∈ C ∧ f.2 ∈ C ∧ ∃ w, A f.1 f.2 = some w) ∧ ¬ Joined (T.erase e) f.1 f.2 ∧
      totalWeight A T - edgeWeight A e + edgeWeight A f ≤ totalWeight A S := by
  obtain ⟨e, he, heS⟩ : ∃ e ∈ T, e ∉ S := by
    by_contra h
    push Not at h
    have : T = S := Finset.eq_of_subset_of_card_le h (by have := hT.tree.card; have := hS.tree.card; omega)
    exact hne this.symm
  obtain ⟨f, hf, hfT, hnj, hS'⟩ := hT.tree.symmetric_exchange hS.tree he heS
  have he' : e ∉ S.erase f := fun h => heS (Finset.mem_of_mem_erase h)
  refine ⟨e, he, fun h => heS (hS.inc h), f, hfT, fun h => hS.exc f h hf, hS.tree.edge f.1 f.2 hf, hnj, ?_⟩
  have := hmin (insert e (S.erase f)) ⟨hS', ?_, ?_⟩
  · rw [totalWeight_swap hf he'] at this
    have h2 := add_le_add_right this (edgeWeight A f - edgeWeight A e)
    calc _ = edgeWeight A f - edgeWeight A e + totalWeight A T := by abel
      _ ≤ _ := h2
      _ = _ := by abel
  · intro g hg
    refine Finset.mem_insert_of_mem (Finset.mem_erase.2 ⟨?_, hS.inc hg⟩)
    rintro rfl
    exact hfT (hT.inc hg)
  · intro g hg hmem
    rcases Finset.mem_insert.1 hmem with rfl | h
    · exact hT.exc _ hg he
    · exact hS.exc _ hg (Finset.mem_of_mem_erase h)

end

/-! ### Rooted trees -/

/-- The tree `T` given by the predecessors `φ`. -/
structure Rooted (A : V → V → Option W) (C : Finset V) (root : V) (φ : V → V) (T : Finset (V × V)) : Prop where
  mem : root ∈ C
  fix : φ root = root
  closed : ∀ v ∈ C, φ v ∈ C
  edges : ∀ p, p ∈ T ↔ ∃ v ∈ C, v ≠ root ∧ p = pair v (φ v)
  tree : SpanningTree A C T

/-- `z` is an ancestor of `u`, or `u` itself. -/
def Anc (φ : V → V) (z u : V) : Prop := ∃ k, φ^[k] u = z

/-- The number of steps to the root. -/
noncomputable def depthOf (φ : V → V) (root u : V) : ℕ := sInf {k | φ^[k] u = root}

variable {A : V → V → Option W} {C : Finset V} {T : Finset (V × V)} {root : V} {φ : V → V}

omit [LinearOrder V] in
theorem Anc.refl (φ : V → V) (u : V) : Anc φ u u := ⟨0, rfl⟩

omit [LinearOrder V] in
theorem Anc.up {z u : V} (h : Anc φ z (φ u)) : Anc φ z u := by
  obtain ⟨k, hk⟩ := h
  exact ⟨k + 1, by rw [Function.iterate_succ_apply]; exact hk⟩

omit [LinearOrder V] in
theorem Anc.pred {z u : V} (h : Anc φ z u) (hne : z ≠ u) : Anc φ z (φ u) := by
  obtain ⟨k, hk⟩ := h
  cases k with
  | zero => exact absurd hk.symm hne
  | succ k => exact ⟨k, by rw [← Function.iterate_succ_apply]; exact hk⟩

omit [LinearOrder V] in
theorem Anc.trans {a b c : V} (h : Anc φ a b) (h' : Anc φ b c) : Anc φ a c := by
  obtain ⟨k, hk⟩ := h
  obtain ⟨l, hl⟩ := h'
  exact ⟨k + l, by rw [Function.iterate_add_apply, hl, hk]⟩

theorem Rooted.anc_root (h : Rooted A C root φ T) {u : V} (hu : u ∈ C) : Anc φ root u := by
  have hstep : ∀ v, Anc φ root v ↔ Anc φ root (φ v) := by
    intro v
    refine ⟨fun h' => ?_, Anc.up⟩
    by_cases hv : root = v
    · subst hv; rw [h.fix]; exact h'
    · exact h'.pred hv
  have := (h.tree.joined root h.mem u hu).const (fun v => Anc φ root v) (fun a b hab => by
    obtain ⟨v, _, _, hp⟩ := (h.edges _).1 hab
    rw [pair] at hp
    injection hp with h1 h2
    rcases le_total v (φ v) with hle | hle
    · rw [min_eq_left hle] at h1; rw [max_eq_right hle] at h2
      rw [h1, h2]; exact propext (hstep v)
    · rw [min_eq_right hle] at h1; rw [max_eq_left hle] at h2
      rw [h1, h2]; exact propext (hstep v).symm)
  rw [← this]
  exact Anc.refl _ _

theorem Rooted.depth_succ (h : Rooted A C root φ T) {u : V} (hu : u ∈ C) (hne : u ≠ root) :
    depthOf φ root u = depthOf φ root (φ u) + 1 := by
  have h1 : φ^[depthOf φ root (φ u)] (φ u) = root := Nat.sInf_mem (s := {k | φ^[k] (φ u) = root}) (h.anc_root (h.closed u hu))
  have h2 : φ^[depthOf φ root u] u = root := Nat.sInf_mem (s := {k | φ^[k] u = root}) (h.anc_root hu)
  apply le_antisymm
  · refine Nat.sInf_le ?_
    show φ^[depthOf φ root (φ u) + 1] u = root
    rw [Function.iterate_succ_apply]; exact h1
  · cases hd : depthOf φ root u with
    | zero => rw [hd] at h2; exact absurd h2 hne
    | succ k =>
      rw [hd, Function.iterate_succ_apply] at h2
      have : depthOf φ root (φ u) ≤ k := Nat.sInf_le h2
      omega

theorem Rooted.anc_mem (h : Rooted A C root φ T) {z u : V} (hu : u ∈ C) (ha : Anc φ z u) : z ∈ C := by
  obtain ⟨k, rfl⟩ := ha
  induction k generalizing u with
  | zero => exact hu
  | succ k ih => rw [Function.iterate_succ_apply]; exact ih (h.closed u hu)

theorem Rooted.depth_le (h : Rooted A C root φ T) {z u : V} (hu : u ∈ C) (ha : Anc φ z u) :
    depthOf φ root z ≤ depthOf φ root u := by
  obtain ⟨k, rfl⟩ := ha
  induction k generalizing u with
  | zero => exact le_refl _
  | succ k ih =>
    rw [Function.iterate_succ_apply]
    refine (ih (h.closed u hu)).trans ?_
    by_cases hr : u = root
    · subst hr; rw [h.fix]
    · rw [h.depth_succ hu hr]; omega

/-- Induction along the predecessors. -/
theorem Rooted.induct (h : Rooted A C root φ T) {P : V → Prop} (h0 : P root) (h1 : ∀ u ∈ C, u ≠ root → P (φ u) → P u) :
    ∀ u ∈ C, P u := by
  have : ∀ d, ∀ u ∈ C, depthOf φ root u = d → P u := by
    intro d
    induction d with
    | zero =>
      intro u hu hd
      by_cases hr : u = root
      · rw [hr]; exact h0
      · rw [h.depth_succ hu hr] at hd; omega
    | succ d ih =>
      intro u hu hd
      by_cases hr : u = root
      · rw [hr]; exact h0
      · refine h1 u hu hr (ih (φ u) (h.closed u hu) ?_)
        rw [h.depth_succ hu hr] at hd; omega
  intro u hu
  exact this _ u hu rfl

theorem Rooted.ne_pred (h : Rooted A C root φ T) {u : V} (hu : u ∈ C) (hne : u ≠ root) : φ u ≠ u := by
  intro he
  have := h.depth_succ hu hne
  rw [he] at this
  omega

theorem Rooted.not_anc_pred (h : Rooted A C root φ T) {u : V} (hu : u ∈ C) (hne : u ≠ root) : ¬ Anc φ u (φ u) := by
  intro ha
  have h1 := h.depth_le (h.closed u hu) ha
  have h2 := h.depth_succ hu hne
  omega

omit [LinearOrder V] in
theorem pair_eq_iff [LinearOrder V] {a b c d : V} : pair a b = pair c d ↔ (a = c ∧ b = d) ∨ (a = d ∧ b = c) := by
  constructor
  · intro h
    simp only [pair, Prod.mk.injEq] at h
    obtain ⟨h1, h2⟩ := h
    rcases le_total a b with hab | hab <;> rcases le_total c d with hcd | hcd <;>
      simp only [min_eq_left hab, max_eq_right hab, min_eq_right hab, max_eq_left hab, min_eq_left hcd, max_eq_right hcd,
        min_eq_right hcd, max_eq_left hcd] at h1 h2 <;> tauto
  · rintro (⟨rfl, rfl⟩ | ⟨rfl, rfl⟩)
    · rfl
    · rw [pair, pair, min_comm, max_comm]

theorem Rooted.pair_inj (h : Rooted A C root φ T) {u v : V} (hu : u ∈ C) (hne : u ≠ root) (hv : v ∈ C) (hne' : v ≠ root)
    (he : pair u (φ u) = pair v (φ v)) : u = v := by
  rcases pair_eq_iff.1 he with ⟨h1, -⟩ | ⟨h1, h2⟩
  · exact h1
  · have k1 := h.depth_succ hu hne
    have k2 := h.depth_succ hv hne'
    rw [h2] at k1
    rw [← h1] at k2
    omega

/-- Without the edge above `v`, two vertices are joined if both or none of them is below `v`. -/
theorem Rooted.joined_iff (h : Rooted A C root φ T) {v x y : V} (hv : v ∈ C) (hne : v ≠ root) (hx : x ∈ C) (hy : y ∈ C) :
    Joined (T.erase (pair v (φ v))) x y ↔ (Anc φ v x ↔ Anc φ v y) := by
  have hstep : ∀ u ∈ C, u ≠ root → u ≠ v → (pair u (φ u)) ∈ T.erase (pair v (φ v)) := by
    intro u hu hur huv
    refine Finset.mem_erase.2 ⟨fun he => huv (h.pair_inj hu hur hv hne he), (h.edges _).2 ⟨u, hu, hur, rfl⟩⟩
  have hj : ∀ u ∈ C, u ≠ root → u ≠ v → Joined (T.erase (pair v (φ v))) u (φ u) := by
    intro u hu hur huv
    have := hstep u hu hur huv
    rcases le_total u (φ u) with hle | hle
    · rw [show pair u (φ u) = (u, φ u) by rw [pair, min_eq_left hle, max_eq_right hle]] at this; exact Joined.of_mem this
    · rw [show pair u (φ u) = (φ u, u) by rw [pair, min_eq_right hle, max_eq_left hle]] at this; exact (Joined.of_mem this).symm
  constructor
  · intro hjo
    have := hjo.const (fun u => Anc φ v u) (fun a b hab => by
      obtain ⟨hnp, hab⟩ := Finset.mem_erase.1 hab
      obtain ⟨u, hu, hur, hp⟩ := (h.edges _).1 hab
      have huv : v ≠ u := by rintro rfl; exact hnp hp
      have hiff : Anc φ v u = Anc φ v (φ u) := propext ⟨fun h' => h'.pred huv, Anc.up⟩
      rw [pair] at hp
      injection hp with h1 h2
      rcases le_total u (φ u) with hle | hle
      · rw [min_eq_left hle] at h1; rw [max_eq_right hle] at h2
        rw [h1, h2]; exact hiff
      · rw [min_eq_right hle] at h1; rw [max_eq_left hle] at h2
        rw [h1, h2]; exact hiff.symm)
    exact iff_of_eq this
  · have hbelow : ∀ u ∈ C, (Anc φ v u → Joined (T.erase (pair v (φ v))) u v) ∧ (¬ Anc φ v u → Joined (T.erase (pair v (φ v))) u root) := by
      refine h.induct (P := fun u => (Anc φ v u → Joined (T.erase (pair v (φ v))) u v) ∧
        (¬ Anc φ v u → Joined (T.erase (pair v (φ v))) u root)) ?_ ?_
      · refine ⟨fun ha => ?_, fun _ => Joined.refl _ _⟩
        exfalso
        have h1 := h.depth_le h.mem ha
        have h2 := h.depth_succ hv hne
        have h3 : depthOf φ root root = 0 := by
          have : depthOf φ root root ≤ 0 := Nat.sInf_le (s := {k | φ^[k] root = root}) rfl
          omega
        omega
      · intro u hu hur ih
        by_cases huv : u = v
        · subst huv
          exact ⟨fun _ => Joined.refl _ _, fun hn => absurd (Anc.refl _ _) hn⟩
        · refine ⟨fun ha => (hj u hu hur huv).trans (ih.1 (ha.pred (Ne.symm huv))), fun hn => (hj u hu hur huv).trans (ih.2 (fun ha => hn ha.up))⟩
    intro hiff
    by_cases hax : Anc φ v x
    · exact ((hbelow x hx).1 hax).trans ((hbelow y hy).1 (hiff.1 hax)).symm
    · exact ((hbelow x hx).2 hax).trans ((hbelow y hy).2 (fun ha => hax (hiff.2 ha))).symm

end Rosemary.Spec
