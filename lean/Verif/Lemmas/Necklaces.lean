import Verif.Model.Enumeration
import Verif.Lemmas.Zn
import Mathlib.GroupTheory.GroupAction.Quotient
import Mathlib.GroupTheory.SpecificGroups.Cyclic
import Mathlib.Data.List.Cycle
import Mathlib.Data.ZMod.Basic
import Mathlib.Data.ZMod.QuotientGroup
import Mathlib.NumberTheory.ArithmeticFunction.Misc

/-!
# Counting necklaces by Burnside's lemma
-/

namespace Rosemary.Necklaces

open Finset

/-- Words of length `m + 1` over `k` letters, as functions on the cyclic group. -/
abbrev Word (m k : Nat) : Type := Fin (m + 1) → Fin k

variable {m k : Nat}


/-- Rotation. -/
instance : AddAction (Fin (m + 1)) (Word m k) where
  vadd g f := fun x => f (x + g)
  zero_vadd f := by
    funext x
    show f (x + 0) = f x
    rw [add_zero]
  add_vadd a b f := by
    funext x
    show f (x + (a + b)) = f (x + a + b)
    rw [add_assoc]

theorem vadd_apply (g : Fin (m + 1)) (f : Word m k) (x : Fin (m + 1)) : (g +ᵥ f) x = f (x + g) := rfl

theorem card_fixedBy (g : Fin (m + 1)) :
    Fintype.card (AddAction.fixedBy (Word m k) g) = k ^ ((m + 1) / addOrderOf g) := by
  classical
  let H := AddSubgroup.zmultiples g
  have hconst : ∀ f ∈ AddAction.fixedBy (Word m k) g, ∀ (x y : Fin (m + 1)), -x + y ∈ H → f x = f y := by
    intro f hf x y hxy
    have hf' : ∀ x, f (x + g) = f x := fun x => congrFun (AddAction.mem_fixedBy.1 hf) x
    have hn : ∀ (j : ℕ) (x : Fin (m + 1)), f (x + j • g) = f x := by
      intro j
      induction j with
      | zero => intro x; rw [zero_nsmul, add_zero]
      | succ j ih => intro x; rw [succ_nsmul, ← add_assoc, hf', ih]
    obtain ⟨j, hj⟩ := AddSubgroup.mem_zmultiples_iff.1 hxy
    have hxj : y = x + j • g := by rw [hj]; simp
    rw [hxj]
    cases j with
    | ofNat j => rw [Int.ofNat_eq_natCast, natCast_zsmul, hn]
    | negSucc j =>
      rw [negSucc_zsmul]
      have := hn (j + 1) (x + -((j + 1) • g))
      rw [neg_add_cancel_right] at this
      rw [this]
  have e : AddAction.fixedBy (Word m k) g ≃ ((Fin (m + 1) ⧸ H) → Fin k) := {
    toFun := fun f q => Quotient.liftOn' q f.1 (fun x y hxy =>
      hconst f.1 f.2 x y (QuotientAddGroup.leftRel_apply.1 hxy))
    invFun := fun F => ⟨fun x => F (QuotientAddGroup.mk x), by
      rw [AddAction.mem_fixedBy]
      funext x
      rw [vadd_apply]
      congr 1
      rw [QuotientAddGroup.eq]
      have : -(x + g) + x = -g := by abel
      rw [this]
      exact H.neg_mem (AddSubgroup.mem_zmultiples g)⟩
    left_inv := fun f => by
      apply Subtype.ext
      rfl
    right_inv := fun F => by
      funext q
      induction q using QuotientAddGroup.induction_on with
      | H x => rfl }
  rw [Fintype.card_congr e, Fintype.card_fun, Fintype.card_fin]
  congr 1
  have h1 := AddSubgroup.card_eq_card_quotient_mul_card_addSubgroup H
  rw [Nat.card_zmultiples, Nat.card_eq_fintype_card, Fintype.card_fin, Nat.card_eq_fintype_card] at h1
  have hpos : 0 < addOrderOf g := addOrderOf_pos g
  exact (Nat.div_eq_of_eq_mul_left hpos h1).symm

theorem sum_fixed : ∑ g : Fin (m + 1), Fintype.card (AddAction.fixedBy (Word m k) g) =
    ∑ d ∈ (m + 1).divisors, d.totient * k ^ ((m + 1) / d) := by
  have hmaps : ∀ g ∈ (univ : Finset (Fin (m + 1))), addOrderOf g ∈ (m + 1).divisors := by
    intro g _
    rw [Nat.mem_divisors]
    refine ⟨?_, by omega⟩
    have := addOrderOf_dvd_card (x := g)
    rwa [Fintype.card_fin] at this
  rw [← sum_fiberwise_of_maps_to hmaps]
  refine sum_congr rfl fun d hd => ?_
  have hd' := Nat.dvd_of_mem_divisors hd
  have hcard : (univ.filter (fun g : Fin (m + 1) => addOrderOf g = d)).card = d.totient := by
    haveI : IsAddCyclic (Fin (m + 1)) := inferInstanceAs (IsAddCyclic (ZMod (m + 1)))
    exact IsAddCyclic.card_addOrderOf_eq_totient (by rwa [Fintype.card_fin])
  rw [← hcard, ← smul_eq_mul, ← sum_const]
  refine sum_congr rfl fun g hg => ?_
  rw [card_fixedBy, (mem_filter.1 hg).2]

theorem rotate_ofFn (f : Word m k) (g : Fin (m + 1)) :
    (List.ofFn f).rotate g = List.ofFn (g +ᵥ f : Word m k) := by
  apply List.ext_getElem
  · simp
  · intro i h1 h2
    rw [List.getElem_rotate, List.getElem_ofFn, List.getElem_ofFn]
    rw [vadd_apply]
    congr 1
    apply Fin.ext
    simp [Fin.add_def]

theorem isRotated_iff (f f' : Word m k) :
    (List.ofFn f).IsRotated (List.ofFn f') ↔ ∃ g : Fin (m + 1), g +ᵥ f = f' := by
  constructor
  · rintro ⟨n, hn⟩
    have hlen : (List.ofFn f).length = m + 1 := List.length_ofFn
    refine ⟨⟨n % (m + 1), Nat.mod_lt _ (by omega)⟩, ?_⟩
    rw [← List.rotate_mod, hlen] at hn
    have := rotate_ofFn f ⟨n % (m + 1), Nat.mod_lt _ (by omega)⟩
    exact List.ofFn_injective (this.symm.trans hn)
  · rintro ⟨g, rfl⟩
    exact ⟨g, rotate_ofFn f g⟩

/-- The orbits are the cyclic words. -/
theorem card_orbits [Fintype (Quotient (AddAction.orbitRel (Fin (m + 1)) (Word m k)))] :
    Fintype.card (Quotient (AddAction.orbitRel (Fin (m + 1)) (Word m k))) =
      Nat.card {c : Cycle (Fin k) // c.length = m + 1} := by
  rw [← Nat.card_eq_fintype_card]
  refine Nat.card_congr (Equiv.ofBijective
    (fun q => Quotient.liftOn' q (fun f => (⟨(List.ofFn f : Cycle (Fin k)), by simp⟩ :
      {c : Cycle (Fin k) // c.length = m + 1})) ?_) ⟨?_, ?_⟩)
  · intro f f' h
    apply Subtype.ext
    obtain ⟨g, hg⟩ := AddAction.orbitRel_apply.1 h
    exact (Cycle.coe_eq_coe.2 ((isRotated_iff f' f).2 ⟨g, hg⟩)).symm
  · intro q q'
    induction q using Quotient.inductionOn'
    induction q' using Quotient.inductionOn'
    rename_i f f'
    intro h
    have h' := Cycle.coe_eq_coe.1 (Subtype.ext_iff.1 h)
    obtain ⟨g, hg⟩ := (isRotated_iff f f').1 h'
    apply Quotient.sound'
    refine AddAction.orbitRel_apply.2 ⟨-g, ?_⟩
    show -g +ᵥ f' = f
    rw [← hg, neg_vadd_vadd]
  · rintro ⟨c, hc⟩
    induction c using Quotient.inductionOn' with
    | _ l =>
      rw [Cycle.mk''_eq_coe, Cycle.length_coe] at hc
      refine ⟨Quotient.mk'' (fun i : Fin (m + 1) => l[i.1]'(by omega)), ?_⟩
      apply Subtype.ext
      show ((List.ofFn fun i : Fin (m + 1) => l[i.1]'(by omega) : List (Fin k)) : Cycle (Fin k)) = (l : Cycle (Fin k))
      congr 1
      apply List.ext_getElem
      · simp [hc]
      · intro i h1 h2
        rw [List.getElem_ofFn]

theorem card_necklaces (n k : Nat) (hn : 1 ≤ n) :
    n * Nat.card {c : Cycle (Fin k) // c.length = n} = ∑ d ∈ n.divisors, d.totient * k ^ (n / d) := by
  classical
  obtain ⟨m, rfl⟩ : ∃ m, n = m + 1 := ⟨n - 1, by omega⟩
  rw [← sum_fixed, AddAction.sum_card_fixedBy_eq_card_orbits_mul_card_addGroup, Fintype.card_fin, card_orbits,
    Nat.mul_comm]

theorem necklaceLoop_eq (factor : Nat → List (Nat × Nat)) (n k : Nat) (ds : List Nat)
    (hds : ∀ d ∈ ds, 1 ≤ d ∧ FactorsTo (factor d) d) (ss : Nat) :
    Enumeration.necklaceLoop factor n k ds ss = .ok (ss + (ds.map (fun d => d.totient * k ^ (n / d))).sum) := by
  induction ds generalizing ss with
  | nil => simp [Enumeration.necklaceLoop]
  | cons d ds ih =>
    obtain ⟨h1, h2⟩ := hds d List.mem_cons_self
    rw [Enumeration.necklaceLoop, ArithFunctions.validateInt]
    by_cases hd : d = 1
    · subst hd
      rw [if_pos (by simp)]
      dsimp only
      rw [Props.C29_euler_phi 1 [(1, 1)] (Or.inl ⟨rfl, rfl⟩), ih (fun d hd => hds d (List.mem_cons_of_mem _ hd)),
        List.map_cons, List.sum_cons, Nat.add_assoc]
    · rw [if_neg (by omega), if_neg (by omega)]
      dsimp only
      rw [Props.C29_euler_phi d _ h2.isFactorization, ih (fun d hd => hds d (List.mem_cons_of_mem _ hd)),
        List.map_cons, List.sum_cons, Nat.add_assoc]

end Rosemary.Necklaces
