import Verif.Spec.SpanningTree
import Mathlib.Order.WellFounded

/-!
# The exchange argument for minimum spanning trees
-/

namespace Rosemary.Spec

open BigOperators

variable {V W : Type}

theorem Joined.mono {T T' : Finset (V × V)} (h : T ⊆ T') {a b : V} (hj : Joined T a b) : Joined T' a b :=
  Relation.EqvGen.mono (r := fun a b => (a, b) ∈ T) (fun _ _ h' => h h') _ _ hj

theorem Joined.refl (T : Finset (V × V)) (a : V) : Joined T a a := Relation.EqvGen.refl _
theorem Joined.symm {T : Finset (V × V)} {a b : V} (h : Joined T a b) : Joined T b a := Relation.EqvGen.symm _ _ h
theorem Joined.trans {T : Finset (V × V)} {a b c : V} (h : Joined T a b) (h' : Joined T b c) : Joined T a c :=
  Relation.EqvGen.trans _ _ _ h h'
theorem Joined.of_mem {T : Finset (V × V)} {a b : V} (h : (a, b) ∈ T) : Joined T a b := Relation.EqvGen.rel _ _ h

/-- A function that is constant on edges is constant on joined vertices. -/
theorem Joined.const {α : Type*} {T : Finset (V × V)} (c : V → α) (hc : ∀ a b, (a, b) ∈ T → c a = c b) {a b : V} (h : Joined T a b) :
    c a = c b := by
  induction h with
  | rel a b h => exact hc a b h
  | refl a => rfl
  | symm a b _ ih => exact ih.symm
  | trans a b d _ _ ih1 ih2 => exact ih1.trans ih2

theorem Joined.lift {T T' : Finset (V × V)} (hc : ∀ a b, (a, b) ∈ T → Joined T' a b) {a b : V} (h : Joined T a b) :
    Joined T' a b := by
  induction h with
  | rel a b h => exact hc a b h
  | refl a => exact Joined.refl _ _
  | symm a b _ ih => exact ih.symm
  | trans a b d _ _ ih1 ih2 => exact ih1.trans ih2

section

variable [DecidableEq V]

theorem joined_insert {T : Finset (V × V)} {x y a b : V} : Joined (insert (x, y) T) a b ↔
    Joined T a b ∨ (Joined T a x ∧ Joined T y b) ∨ (Joined T a y ∧ Joined T x b) := by
  have mono : ∀ {a b}, Joined T a b → Joined (insert (x, y) T) a b := fun h => h.mono (Finset.subset_insert _ _)
  have hxy : Joined (insert (x, y) T) x y := Joined.of_mem (Finset.mem_insert_self _ _)
  constructor
  · intro h
    induction h with
    | rel a b h =>
      rcases Finset.mem_insert.1 h with h | h
      · injection h with h1 h2
        subst h1; subst h2
        exact .inr (.inl ⟨.refl _ _, .refl _ _⟩)
      · exact .inl (.of_mem h)
    | refl a => exact .inl (.refl _ _)
    | symm a b _ ih =>
      rcases ih with h | ⟨h1, h2⟩ | ⟨h1, h2⟩
      · exact .inl h.symm
      · exact .inr (.inr ⟨h2.symm, h1.symm⟩)
      · exact .inr (.inl ⟨h2.symm, h1.symm⟩)
    | trans a b c _ _ ih1 ih2 =>
      rcases ih1 with h | ⟨h1, h2⟩ | ⟨h1, h2⟩ <;> rcases ih2 with g | ⟨g1, g2⟩ | ⟨g1, g2⟩
      · exact .inl (h.trans g)
      · exact .inr (.inl ⟨h.trans g1, g2⟩)
      · exact .inr (.inr ⟨h.trans g1, g2⟩)
      · exact .inr (.inl ⟨h1, h2.trans g⟩)
      · exact .inr (.inl ⟨h1, g2⟩)
      · exact .inl (h1.trans g2)
      · exact .inr (.inr ⟨h1, h2.trans g⟩)
      · exact .inl (h1.trans g2)
      · exact .inr (.inr ⟨h1, g2⟩)
  · rintro (h | ⟨h1, h2⟩ | ⟨h1, h2⟩)
    · exact mono h
    · exact ((mono h1).trans hxy).trans (mono h2)
    · exact ((mono h1).trans hxy.symm).trans (mono h2)

/-- An edge between different classes of `c`, on the way from `x` to `y`, may be replaced by `(x, y)`. -/
theorem exchange {α : Type*} {T : Finset (V × V)} (c : V → α) {x y : V} (h : Joined T x y) (hc : c x ≠ c y) :
    ∃ f ∈ T, c f.1 ≠ c f.2 ∧ ∀ a b, Joined T a b → Joined (insert (x, y) (T.erase f)) a b := by
  classical
  -- a smallest set of edges of `T` that joins `x` and `y`
  have hex : ∃ n, ∃ S, S ⊆ T ∧ Joined S x y ∧ S.card = n := ⟨_, T, Finset.Subset.refl _, h, rfl⟩
  obtain ⟨S, hST, hS, hcard⟩ := Nat.find_spec hex
  have hmin : ∀ f ∈ S, ¬ Joined (S.erase f) x y := by
    intro f hf hj
    have h1 := Nat.find_min' hex ⟨S.erase f, (Finset.erase_subset _ _).trans hST, hj, rfl⟩
    have h2 := Finset.card_erase_lt_of_mem hf
    omega
  obtain ⟨f, hf, hcf⟩ : ∃ f ∈ S, c f.1 ≠ c f.2 := by
    by_contra hno
    push Not at hno
    exact hc (hS.const c (fun a b hab => hno (a, b) hab))
  refine ⟨f, hST hf, hcf, fun a b hab => ?_⟩
  have hsub : S.erase f ⊆ insert (x, y) (T.erase f) := (Finset.erase_subset_erase f hST).trans (Finset.subset_insert _ _)
  have hxy : Joined (insert (x, y) (T.erase f)) x y := Joined.of_mem (Finset.mem_insert_self _ _)
  have hS' : Joined (insert (f.1, f.2) (S.erase f)) x y := by
    rw [Prod.mk.eta, Finset.insert_erase hf]; exact hS
  have key : Joined (insert (x, y) (T.erase f)) f.1 f.2 := by
    rcases joined_insert.1 hS' with h1 | ⟨h1, h2⟩ | ⟨h1, h2⟩
    · exact absurd h1 (hmin f hf)
    · exact ((h1.symm.mono hsub).trans hxy).trans (h2.symm.mono hsub)
    · exact ((h2.mono hsub).trans hxy.symm).trans (h1.mono hsub)
  refine hab.lift (fun p q hpq => ?_)
  by_cases e : (p, q) = f
  · subst e; exact key
  · exact Joined.of_mem (Finset.mem_insert_of_mem (Finset.mem_erase.2 ⟨e, hpq⟩))

/-- Every set of edges has pairwise unjoined vertices, at least as many as there are vertices less edges. -/
theorem exists_unjoined (C : Finset V) (T : Finset (V × V)) :
    ∃ R ⊆ C, C.card ≤ R.card + T.card ∧ ∀ a ∈ R, ∀ b ∈ R, Joined T a b → a = b := by
  induction T using Finset.induction_on with
  | empty =>
    refine ⟨C, Finset.Subset.refl _, by simp, fun a _ b _ h => ?_⟩
    exact h.const id (fun _ _ h' => by simp at h')
  | insert e T he ih =>
    obtain ⟨x, y⟩ := e
    obtain ⟨R, hR, hcard, hun⟩ := ih
    by_cases hx : ∃ r ∈ R, Joined T r x
    · obtain ⟨r, hr, hrx⟩ := hx
      refine ⟨R.erase r, (Finset.erase_subset _ _).trans hR, ?_, ?_⟩
      · rw [Finset.card_insert_of_notMem he]
        have := Finset.card_erase_add_one hr
        omega
      · intro a ha b hb hab
        obtain ⟨har, ha⟩ := Finset.mem_erase.1 ha
        obtain ⟨hbr, hb⟩ := Finset.mem_erase.1 hb
        rcases joined_insert.1 hab with h1 | ⟨h1, -⟩ | ⟨-, h1⟩
        · exact hun a ha b hb h1
        · exact absurd (hun a ha r hr (h1.trans hrx.symm)) har
        · exact absurd (hun b hb r hr (h1.symm.trans hrx.symm)) hbr
    · push Not at hx
      refine ⟨R, hR, by rw [Finset.card_insert_of_notMem he]; omega, fun a ha b hb hab => ?_⟩
      rcases joined_insert.1 hab with h1 | ⟨h1, -⟩ | ⟨-, h1⟩
      · exact hun a ha b hb h1
      · exact absurd h1 (hx a ha)
      · exact absurd h1.symm (hx b hb)

/-- Edges that join all vertices of `C` are at least as many as the vertices but one. -/
theorem card_le_of_joined {C : Finset V} {T : Finset (V × V)} (h : ∀ u ∈ C, ∀ v ∈ C, Joined T u v) : C.card ≤ T.card + 1 := by
  obtain ⟨R, hR, hcard, hun⟩ := exists_unjoined C T
  have : R.card ≤ 1 := Finset.card_le_one.2 (fun a ha b hb => hun a ha b hb (h a (hR ha) b (hR hb)))
  omega

end

variable [LinearOrder V] [AddCommMonoid W] [LinearOrder W] [IsOrderedCancelAddMonoid W]

/-- Every spanning tree may be changed, without increasing its weight, into one that contains `S`. -/
def Safe (A : V → V → Option W) (C : Finset V) (S : Finset (V × V)) : Prop :=
  ∀ T, SpanningTree A C T → ∃ T', SpanningTree A C T' ∧ S ⊆ T' ∧ totalWeight A T' ≤ totalWeight A T

omit [IsOrderedCancelAddMonoid W] in
theorem safe_empty (A : V → V → Option W) (C : Finset V) : Safe A C ∅ :=
  fun T hT => ⟨T, hT, Finset.empty_subset _, le_refl _⟩

/-- An edge of least weight between different classes of a function that is constant on the edges of `S`. -/
theorem Safe.add {α : Type*} {A : V → V → Option W} {C : Finset V} {S : Finset (V × V)} (h : Safe A C S) (c : V → α)
    (hc : ∀ a b, (a, b) ∈ S → c a = c b) {x y : V} {w : W} (hxy : x < y) (hx : x ∈ C) (hy : y ∈ C) (hw : A x y = some w)
    (hne : c x ≠ c y) (hmin : ∀ a b w', a < b → A a b = some w' → c a ≠ c b → w ≤ w') : Safe A C (insert (x, y) S) := by
  intro T hT
  obtain ⟨T1, hT1, hS, hle⟩ := h T hT
  by_cases he : (x, y) ∈ T1
  · exact ⟨T1, hT1, Finset.insert_subset he hS, hle⟩
  obtain ⟨f, hf, hcf, hj⟩ := exchange c (hT1.joined x hx y hy) hne
  obtain ⟨hf1, hf2, hf3, w', hf4⟩ := hT1.edge f.1 f.2 hf
  have he' : (x, y) ∉ T1.erase f := fun h => he (Finset.mem_of_mem_erase h)
  refine ⟨insert (x, y) (T1.erase f), ⟨?_, fun u hu v hv => hj u v (hT1.joined u hu v hv), ?_⟩, ?_, le_trans ?_ hle⟩
  · intro u v huv
    rcases Finset.mem_insert.1 huv with e | huv
    · injection e with e1 e2
      subst e1; subst e2
      exact ⟨hxy, hx, hy, w, hw⟩
    · exact hT1.edge u v (Finset.mem_of_mem_erase huv)
  · rw [Finset.card_insert_of_notMem he', Finset.card_erase_add_one hf]; exact hT1.card
  · refine Finset.insert_subset (Finset.mem_insert_self _ _) (fun e heS => Finset.mem_insert_of_mem ?_)
    refine Finset.mem_erase.2 ⟨?_, hS heS⟩
    rintro rfl
    exact hcf (hc e.1 e.2 heS)
  · rw [totalWeight, totalWeight, Finset.sum_insert he', ← Finset.add_sum_erase T1 _ hf, hw, hf4]
    have hww := hmin f.1 f.2 w' hf1 hf4 hcf
    exact add_le_add hww (le_refl _)

omit [IsOrderedCancelAddMonoid W] in
theorem Safe.final {A : V → V → Option W} {C : Finset V} {S : Finset (V × V)} (h : Safe A C S) (hS : SpanningTree A C S) :
    MinSpanningTree A C S := by
  refine ⟨hS, fun T hT => ?_⟩
  obtain ⟨T', hT', hsub, hle⟩ := h T hT
  have : S = T' := Finset.eq_of_subset_of_card_le hsub (by have := hS.card; have := hT'.card; omega)
  rw [this]; exact hle

end Rosemary.Spec
