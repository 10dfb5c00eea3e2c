import Mathlib.Order.Partition.Finpartition
import Mathlib.Combinatorics.Enumerative.Bell
import Mathlib.Data.Finset.Powerset
import Mathlib.SetTheory.Cardinal.Finite
import Mathlib.Algebra.BigOperators.Ring.Finset

/-!
# Bell numbers count set partitions
-/

namespace Rosemary.SetPartitions

open Finset

variable {α : Type} [DecidableEq α]

/-- `P` is a partition of `s`: its members are nonempty, disjoint, and their union is `s`. -/
def IsSetPart (s : Finset α) (P : Finset (Finset α)) : Prop :=
  (∀ B ∈ P, B.Nonempty) ∧ (∀ B ∈ P, ∀ C ∈ P, B ≠ C → Disjoint B C) ∧ ∀ x, x ∈ s ↔ ∃ B ∈ P, x ∈ B

open Classical in
/-- The partitions of `s`. -/
noncomputable def setParts (s : Finset α) : Finset (Finset (Finset α)) :=
  s.powerset.powerset.filter (IsSetPart s)

theorem mem_setParts {s : Finset α} {P : Finset (Finset α)} : P ∈ setParts s ↔ IsSetPart s P := by
  classical
  rw [setParts, mem_filter, and_iff_right_iff_imp]
  intro h
  rw [mem_powerset]
  intro B hB
  rw [mem_powerset]
  exact fun x hx => (h.2.2 x).2 ⟨B, hB, hx⟩

theorem setParts_insert {a : α} {s : Finset α} (ha : a ∉ s) :
    setParts (insert a s) = s.powerset.biUnion (fun B => (setParts (s \ B)).image (insert (insert a B))) := by
  ext P
  rw [mem_setParts, mem_biUnion]
  constructor
  · rintro ⟨h1, h2, h3⟩
    obtain ⟨A, hA, haA⟩ := (h3 a).1 (mem_insert_self _ _)
    have hins : insert a (A.erase a) = A := insert_erase haA
    refine ⟨A.erase a, mem_powerset.2 fun x hx => ?_, mem_image.2 ⟨P.erase A, ?_, ?_⟩⟩
    · have := (h3 x).2 ⟨A, hA, mem_of_mem_erase hx⟩
      exact (mem_insert.1 this).resolve_left (ne_of_mem_erase hx)
    · rw [mem_setParts]
      refine ⟨fun B hB => h1 B (mem_of_mem_erase hB),
        fun B hB C hC => h2 B (mem_of_mem_erase hB) C (mem_of_mem_erase hC), fun x => ?_⟩
      rw [mem_sdiff]
      constructor
      · rintro ⟨hx, hxA⟩
        obtain ⟨B, hB, hxB⟩ := (h3 x).1 (mem_insert_of_mem hx)
        refine ⟨B, mem_erase.2 ⟨?_, hB⟩, hxB⟩
        rintro rfl
        exact hxA (mem_erase.2 ⟨fun h => ha (h ▸ hx), hxB⟩)
      · rintro ⟨B, hB, hxB⟩
        have hd := h2 B (mem_of_mem_erase hB) A hA (ne_of_mem_erase hB)
        have hxA : x ∉ A := fun h => disjoint_left.1 hd hxB h
        have := (h3 x).2 ⟨B, mem_of_mem_erase hB, hxB⟩
        refine ⟨(mem_insert.1 this).resolve_left ?_, fun h => hxA (mem_of_mem_erase h)⟩
        rintro rfl
        exact hxA haA
    · rw [hins, insert_erase hA]
  · rintro ⟨B, hB, hP⟩
    rw [mem_powerset] at hB
    obtain ⟨Q, hQ, rfl⟩ := mem_image.1 hP
    rw [mem_setParts] at hQ
    obtain ⟨h1, h2, h3⟩ := hQ
    have hdis : ∀ C ∈ Q, Disjoint (insert a B) C := by
      intro C hC
      rw [disjoint_left]
      intro x hx hxC
      have := mem_sdiff.1 ((h3 x).2 ⟨C, hC, hxC⟩)
      rcases mem_insert.1 hx with rfl | hx
      · exact ha this.1
      · exact this.2 hx
    refine ⟨?_, ?_, fun x => ?_⟩
    · intro C hC
      rcases mem_insert.1 hC with rfl | hC
      · exact ⟨a, mem_insert_self _ _⟩
      · exact h1 C hC
    · intro C hC D hD hne
      rcases mem_insert.1 hC with rfl | hC <;> rcases mem_insert.1 hD with rfl | hD
      · exact absurd rfl hne
      · exact hdis D hD
      · exact (hdis C hC).symm
      · exact h2 C hC D hD hne
    · constructor
      · intro hx
        rcases mem_insert.1 hx with rfl | hx
        · exact ⟨_, mem_insert_self _ _, mem_insert_self _ _⟩
        · by_cases hxB : x ∈ B
          · exact ⟨_, mem_insert_self _ _, mem_insert_of_mem hxB⟩
          · obtain ⟨C, hC, hxC⟩ := (h3 x).1 (mem_sdiff.2 ⟨hx, hxB⟩)
            exact ⟨C, mem_insert_of_mem hC, hxC⟩
      · rintro ⟨C, hC, hxC⟩
        rcases mem_insert.1 hC with rfl | hC
        · exact insert_subset_insert _ hB hxC
        · exact mem_insert_of_mem (mem_sdiff.1 ((h3 x).2 ⟨C, hC, hxC⟩)).1

theorem card_setParts_insert {a : α} {s : Finset α} (ha : a ∉ s) :
    (setParts (insert a s)).card = ∑ B ∈ s.powerset, (setParts (s \ B)).card := by
  have key : ∀ B, B ⊆ s → ∀ Q ∈ setParts (s \ B), ∀ C ∈ insert (insert a B) Q, a ∈ C → C = insert a B := by
    intro B _ Q hQ C hC haC
    rcases mem_insert.1 hC with h | h
    · exact h
    · exact absurd (mem_sdiff.1 (((mem_setParts.1 hQ).2.2 a).2 ⟨C, h, haC⟩)).1 ha
  have knot : ∀ B, B ⊆ s → ∀ Q ∈ setParts (s \ B), insert a B ∉ Q := by
    intro B _ Q hQ h
    exact ha (mem_sdiff.1 (((mem_setParts.1 hQ).2.2 a).2 ⟨_, h, mem_insert_self _ _⟩)).1
  rw [setParts_insert ha, card_biUnion]
  · refine sum_congr rfl fun B hB => ?_
    refine card_image_of_injOn fun Q hQ R hR hQR => ?_
    have h1 := knot B (mem_powerset.1 hB) Q hQ
    have h2 := knot B (mem_powerset.1 hB) R hR
    have hQR : insert (insert a B) Q = insert (insert a B) R := hQR
    rw [← erase_insert h1, hQR, erase_insert h2]
  · intro B hB C hC hne
    rw [mem_coe, mem_powerset] at hB hC
    change Disjoint _ _
    rw [disjoint_left]
    intro P hP hP'
    obtain ⟨Q, hQ, rfl⟩ := mem_image.1 hP
    obtain ⟨R, hR, hQR⟩ := mem_image.1 hP'
    have h := key C hC R hR (insert a B) (by rw [hQR]; exact mem_insert_self _ _) (mem_insert_self _ _)
    apply hne
    rw [← erase_insert (fun h' => ha (hB h')), h, erase_insert (fun h' => ha (hC h'))]

theorem card_setParts (n : Nat) : ∀ s : Finset α, s.card = n → (setParts s).card = n.bell := by
  induction n using Nat.strong_induction_on with
  | _ n ih =>
    intro s hs
    rcases s.eq_empty_or_nonempty with rfl | ⟨a, ha⟩
    · rw [card_empty] at hs
      subst hs
      rw [Nat.bell_zero, card_eq_one]
      refine ⟨∅, ?_⟩
      ext P
      rw [mem_setParts, mem_singleton]
      constructor
      · rintro ⟨h1, h2, h3⟩
        rw [eq_empty_iff_forall_notMem]
        intro B hB
        obtain ⟨x, hx⟩ := h1 B hB
        exact absurd ((h3 x).2 ⟨B, hB, hx⟩) (by simp)
      · rintro rfl
        exact ⟨by simp, by simp, by simp⟩
    · have hc := card_erase_of_mem ha
      have hpos : 0 < s.card := card_pos.2 ⟨a, ha⟩
      obtain ⟨m, rfl⟩ : ∃ m, n = m + 1 := ⟨n - 1, by omega⟩
      rw [← insert_erase ha, card_setParts_insert (notMem_erase a s), Nat.bell_succ, ← Nat.range_succ_eq_Iic]
      have h1 : ∀ B ∈ (s.erase a).powerset, (setParts (s.erase a \ B)).card = (m - B.card).bell := by
        intro B hB
        rw [mem_powerset] at hB
        have hcard : (s.erase a \ B).card = m - B.card := by
          rw [card_sdiff_of_subset hB, hc]; omega
        exact ih _ (by omega) _ hcard
      rw [sum_congr rfl h1, sum_powerset_apply_card (fun k => (m - k).bell), hc, hs]
      simp

/-- `Nat.bell` is the number of set partitions in the sense of Mathlib. -/
theorem card_finpartition (s : Finset α) : Fintype.card (Finpartition s) = s.card.bell := by
  rw [← card_setParts _ s rfl, ← Fintype.card_coe]
  refine Fintype.card_congr ⟨fun P => ⟨P.parts, mem_setParts.2 ⟨?_, ?_, ?_⟩⟩, fun P => ⟨P.1, ?_, ?_, ?_⟩, ?_, ?_⟩
  · exact fun B hB => P.nonempty_of_mem_parts hB
  · exact fun B hB C hC hne => P.disjoint hB hC hne
  · intro x
    have h : x ∈ P.parts.biUnion id ↔ x ∈ s := by rw [P.biUnion_parts]
    rw [← h]
    simp
  · obtain ⟨h1, h2, h3⟩ := mem_setParts.1 P.2
    rw [supIndep_iff_pairwiseDisjoint]
    exact fun B hB C hC hne => h2 B hB C hC hne
  · obtain ⟨h1, h2, h3⟩ := mem_setParts.1 P.2
    ext x
    rw [h3, mem_sup]
    rfl
  · obtain ⟨h1, h2, h3⟩ := mem_setParts.1 P.2
    intro h
    simpa using h1 _ h
  · intro P; rfl
  · intro P; rfl

end Rosemary.SetPartitions
