import Verif.Model.Tilings
import Verif.Lemmas.SetPartitions

/-!
# Counting tilings by covering the least square first
-/

namespace Rosemary.Tilings

open Finset Rosemary.SetPartitions

variable {α : Type} [DecidableEq α]

open Classical in
/-- The number of partitions of `U` into pieces. -/
noncomputable def N (Piece : Finset α → Prop) (U : Finset α) : Nat :=
  ((setParts U).filter (fun T => ∀ t ∈ T, Piece t)).card

theorem N_empty (Piece : Finset α → Prop) : N Piece ∅ = 1 := by
  classical
  rw [N, card_eq_one]
  refine ⟨∅, ?_⟩
  ext T
  rw [mem_filter, mem_setParts, mem_singleton]
  constructor
  · rintro ⟨⟨h1, h2, h3⟩, -⟩
    rw [eq_empty_iff_forall_notMem]
    intro B hB
    obtain ⟨x, hx⟩ := h1 B hB
    exact absurd ((h3 x).2 ⟨B, hB, hx⟩) (by simp)
  · rintro rfl
    exact ⟨⟨by simp, by simp, by simp⟩, by simp⟩

open Classical in
theorem N_rec (Piece : Finset α → Prop) {U : Finset α} {r : α} (hr : r ∈ U) :
    N Piece U = ∑ t ∈ U.powerset.filter (fun t => r ∈ t ∧ Piece t), N Piece (U \ t) := by
  have key : (setParts U).filter (fun T => ∀ t ∈ T, Piece t) =
      (U.powerset.filter (fun t => r ∈ t ∧ Piece t)).biUnion (fun t =>
        ((setParts (U \ t)).filter (fun T => ∀ t ∈ T, Piece t)).image (insert t)) := by
    ext P
    rw [mem_filter, mem_setParts, mem_biUnion]
    constructor
    · rintro ⟨⟨h1, h2, h3⟩, h4⟩
      obtain ⟨A, hA, hrA⟩ := (h3 r).1 hr
      refine ⟨A, mem_filter.2 ⟨mem_powerset.2 fun x hx => (h3 x).2 ⟨A, hA, hx⟩, hrA, h4 A hA⟩,
        mem_image.2 ⟨P.erase A, mem_filter.2 ⟨mem_setParts.2 ⟨?_, ?_, fun x => ?_⟩, ?_⟩, insert_erase hA⟩⟩
      · exact fun B hB => h1 B (mem_of_mem_erase hB)
      · exact fun B hB C hC => h2 B (mem_of_mem_erase hB) C (mem_of_mem_erase hC)
      · rw [mem_sdiff]
        constructor
        · rintro ⟨hx, hxA⟩
          obtain ⟨B, hB, hxB⟩ := (h3 x).1 hx
          exact ⟨B, mem_erase.2 ⟨fun h => hxA (h ▸ hxB), hB⟩, hxB⟩
        · rintro ⟨B, hB, hxB⟩
          exact ⟨(h3 x).2 ⟨B, mem_of_mem_erase hB, hxB⟩, fun h =>
            disjoint_left.1 (h2 B (mem_of_mem_erase hB) A hA (ne_of_mem_erase hB)) hxB h⟩
      · exact fun t ht => h4 t (mem_of_mem_erase ht)
    · rintro ⟨A, hA, hP⟩
      rw [mem_filter, mem_powerset] at hA
      obtain ⟨hAU, hrA, hpA⟩ := hA
      obtain ⟨Q, hQ, rfl⟩ := mem_image.1 hP
      rw [mem_filter, mem_setParts] at hQ
      obtain ⟨⟨h1, h2, h3⟩, h4⟩ := hQ
      have hdis : ∀ C ∈ Q, Disjoint A C := by
        intro C hC
        rw [disjoint_left]
        intro x hx hxC
        exact (mem_sdiff.1 ((h3 x).2 ⟨C, hC, hxC⟩)).2 hx
      refine ⟨⟨?_, ?_, fun x => ?_⟩, ?_⟩
      · intro C hC
        rcases mem_insert.1 hC with rfl | hC
        · exact ⟨r, hrA⟩
        · exact h1 C hC
      · intro C hC D hD hne
        rcases mem_insert.1 hC with e | hC' <;> rcases mem_insert.1 hD with e' | hD'
        · exact absurd (e.trans e'.symm) hne
        · rw [e]; exact hdis D hD'
        · rw [e']; exact (hdis C hC').symm
        · exact h2 C hC' D hD' hne
      · constructor
        · intro hx
          by_cases hxA : x ∈ A
          · exact ⟨A, mem_insert_self _ _, hxA⟩
          · obtain ⟨C, hC, hxC⟩ := (h3 x).1 (mem_sdiff.2 ⟨hx, hxA⟩)
            exact ⟨C, mem_insert_of_mem hC, hxC⟩
        · rintro ⟨C, hC, hxC⟩
          rcases mem_insert.1 hC with rfl | hC
          · exact hAU hxC
          · exact (mem_sdiff.1 ((h3 x).2 ⟨C, hC, hxC⟩)).1
      · intro t ht
        rcases mem_insert.1 ht with rfl | ht
        · exact hpA
        · exact h4 t ht
  have knot : ∀ t, r ∈ t → ∀ Q ∈ setParts (U \ t), ∀ C ∈ Q, r ∉ C := by
    intro t hrt Q hQ C hC hrC
    exact (mem_sdiff.1 (((mem_setParts.1 hQ).2.2 r).2 ⟨C, hC, hrC⟩)).2 hrt
  rw [N, key, card_biUnion]
  · refine sum_congr rfl fun t ht => ?_
    have hrt := (mem_filter.1 ht).2.1
    refine card_image_of_injOn fun Q hQ R hR hQR => ?_
    have h1 : t ∉ Q := fun h => knot t hrt Q (mem_filter.1 hQ).1 t h hrt
    have h2 : t ∉ R := fun h => knot t hrt R (mem_filter.1 hR).1 t h hrt
    have hQR : insert t Q = insert t R := hQR
    rw [← erase_insert h1, hQR, erase_insert h2]
  · intro t ht t' ht' hne
    change Disjoint _ _
    rw [disjoint_left]
    intro P hP hP'
    have hrt := (mem_filter.1 ht).2.1
    have hrt' := (mem_filter.1 ht').2.1
    obtain ⟨Q, hQ, rfl⟩ := mem_image.1 hP
    obtain ⟨R, hR, hQR⟩ := mem_image.1 hP'
    have h : t ∈ insert t' R := by rw [hQR]; exact mem_insert_self _ _
    rcases mem_insert.1 h with h | h
    · exact hne h
    · exact knot t' hrt' R (mem_filter.1 hR).1 t h hrt

/-- In terms of a list of the pieces at `r`. -/
theorem N_list (Piece : Finset α → Prop) {U : Finset α} {r : α} (hr : r ∈ U) (F : List (Finset α)) (hnd : F.Nodup)
    (hF : ∀ t, t ∈ F ↔ t ⊆ U ∧ r ∈ t ∧ Piece t) : N Piece U = (F.map (fun t => N Piece (U \ t))).sum := by
  classical
  rw [N_rec Piece hr, ← List.sum_toFinset _ hnd]
  refine sum_congr ?_ fun _ _ => rfl
  ext t
  rw [mem_filter, mem_powerset, List.mem_toFinset, hF]

theorem N_piece (Piece : Finset α → Prop) {c : Nat} (hc : ∀ t, Piece t → t.card = c) {U : Finset α} {r : α}
    (hr : r ∈ U) (hU : Piece U) : N Piece U = 1 := by
  have := N_list Piece hr [U] (by simp) (fun t => by
    rw [List.mem_singleton]
    constructor
    · rintro rfl; exact ⟨Subset.rfl, hr, hU⟩
    · rintro ⟨h1, -, h3⟩
      exact eq_of_subset_of_card_le h1 (by rw [hc t h3, hc U hU]))
  rw [this]
  simp [N_empty]

/-- All entries of the dictionary are right. -/
def Good (Piece : Finset α → Prop) (D : Cache α) : Prop := ∀ e ∈ D, e.2 = N Piece e.1.2

/-- What is assumed of the list of pieces to try. -/
def Tries (Piece : Finset α → Prop) (cands : List (Finset α × Bool)) (U : Finset α) (r : α) : Prop :=
  ((cands.filter (fun c => c.2)).map (fun c => c.1)).Nodup ∧
    ∀ t, t ∈ (cands.filter (fun c => c.2)).map (fun c => c.1) ↔ t ⊆ U ∧ r ∈ t ∧ Piece t

theorem tileLoop_spec (Piece : Finset α → Prop)
    (rec : Finset α → Finset α → Cache α → Except PyErr (Nat × Cache α)) (covered U : Finset α)
    (cands : List (Finset α × Bool))
    (hrec : ∀ t, t ∈ (cands.filter (fun c => c.2)).map (fun c => c.1) → U \ t ≠ ∅ → ∀ D, Good Piece D →
      ∃ D', rec (covered ∪ t) (U \ t) D = .ok (N Piece (U \ t), D') ∧ Good Piece D') :
    ∀ (ss : Nat) (D : Cache α), Good Piece D →
      ∃ D', Good Piece D' ∧
        (((∃ t, t ∈ (cands.filter (fun c => c.2)).map (fun c => c.1) ∧ U \ t = ∅) ∧
            tileLoop rec covered U cands ss D = .ok (true, 1, D')) ∨
          tileLoop rec covered U cands ss D = .ok (false, ss +
            (((cands.filter (fun c => c.2)).map (fun c => c.1)).map (fun t => N Piece (U \ t))).sum, D')) := by
  induction cands with
  | nil => intro ss D hD; exact ⟨D, hD, Or.inr (by simp [tileLoop])⟩
  | cons c cands ih =>
    intro ss D hD
    obtain ⟨t, b⟩ := c
    cases b with
    | false =>
      have hf : ((t, false) :: cands).filter (fun c => c.2) = cands.filter (fun c => c.2) := by simp
      rw [hf] at hrec ⊢
      rw [tileLoop, if_neg (by simp)]
      exact ih hrec ss D hD
    | true =>
      have hf : ((t, true) :: cands).filter (fun c => c.2) = (t, true) :: cands.filter (fun c => c.2) := by simp
      rw [hf, List.map_cons] at hrec ⊢
      rw [tileLoop, if_pos rfl]
      dsimp only
      by_cases hU : U \ t = ∅
      · rw [if_pos hU]
        exact ⟨D, hD, Or.inl ⟨⟨t, List.mem_cons_self, hU⟩, rfl⟩⟩
      · rw [if_neg hU]
        obtain ⟨D1, h1, h2⟩ := hrec t List.mem_cons_self hU D hD
        rw [h1]
        dsimp only
        obtain ⟨D2, h3, h4⟩ := ih (fun t ht => hrec t (List.mem_cons_of_mem _ ht)) (ss + N Piece (U \ t)) D1 h2
        refine ⟨D2, h3, ?_⟩
        rcases h4 with ⟨⟨t', ht', hU'⟩, h5⟩ | h5
        · exact Or.inl ⟨⟨t', List.mem_cons_of_mem _ ht', hU'⟩, h5⟩
        · right
          rw [h5, List.map_cons, List.sum_cons, Nat.add_assoc]

theorem backtrack_spec [LinearOrder α] (Piece : Finset α → Prop) {c : Nat} (hc1 : 1 ≤ c)
    (hc : ∀ t, Piece t → t.card = c) (pieces : Finset α → Finset α → α → List (Finset α × Bool))
    (hit : Cache α → Finset α × Finset α → Bool) (Inv : Finset α → Finset α → Prop)
    (hinv : ∀ C U t, Inv C U → t ⊆ U → Inv (C ∪ t) (U \ t))
    (htries : ∀ C U r, Inv C U → r ∈ U → (∀ x ∈ U, r ≤ x) → Tries Piece (pieces C U r) U r) (fuel : Nat) :
    ∀ (C U : Finset α) (D : Cache α), Inv C U → U.Nonempty → U.card < fuel → Good Piece D →
      ∃ D', backtrack pieces hit fuel C U D = .ok (N Piece U, D') ∧ Good Piece D' := by
  induction fuel with
  | zero => intro C U D _ _ h; omega
  | succ fuel ih =>
    intro C U D hI hne hfuel hD
    rw [backtrack]
    split
    · rename_i v hv
      split_ifs at hv with hh
      have hmem : ((C, U), v) ∈ D := by
        rw [List.lookup_eq_some_iff] at hv
        obtain ⟨l1, l2, rfl, -⟩ := hv
        simp
      have := hD _ hmem
      simp only at this
      rw [this]
      exact ⟨D, rfl, hD⟩
    · obtain ⟨r, hr⟩ := Finset.min_of_nonempty hne
      rw [hr]
      dsimp only
      have hrU := Finset.mem_of_min hr
      have hmin : ∀ x ∈ U, r ≤ x := fun x hx => Finset.min_le_of_eq hx hr
      obtain ⟨hnd, hF⟩ := htries C U r hI hrU hmin
      have hstep : ∀ t, t ∈ ((pieces C U r).filter (fun c => c.2)).map (fun c => c.1) → U \ t ≠ ∅ →
          ∀ D, Good Piece D → ∃ D', backtrack pieces hit fuel (C ∪ t) (U \ t) D = .ok (N Piece (U \ t), D') ∧
            Good Piece D' := by
        intro t ht hne' D hD
        obtain ⟨t1, t2, t3⟩ := (hF t).1 ht
        refine ih (C ∪ t) (U \ t) D (hinv C U t hI t1) (nonempty_iff_ne_empty.2 hne') ?_ hD
        rw [card_sdiff_of_subset t1, hc t t3]
        have := card_le_card t1
        rw [hc t t3] at this
        omega
      obtain ⟨D1, g1, g2⟩ := tileLoop_spec Piece (backtrack pieces hit fuel) C U (pieces C U r) hstep 0 D hD
      rcases g2 with ⟨⟨t, ht, htU⟩, g3⟩ | g3
      · rw [g3]
        obtain ⟨t1, t2, t3⟩ := (hF t).1 ht
        have : t = U := Subset.antisymm t1 (sdiff_eq_empty_iff_subset.1 htU)
        subst this
        exact ⟨D1, by rw [N_piece Piece hc hrU t3], g1⟩
      · rw [g3, Nat.zero_add, ← N_list Piece hrU _ hnd hF]
        refine ⟨_, rfl, ?_⟩
        intro e he
        rcases List.mem_cons.1 he with rfl | he
        · rfl
        · exact g1 e he

/-- Renaming the squares does not change the number of tilings. -/
theorem N_map {β : Type} [DecidableEq β] (f : α ↪ β) (Piece : Finset α → Prop) (Piece' : Finset β → Prop)
    (U : Finset α) (h : ∀ t, t ⊆ U → (Piece t ↔ Piece' (t.map f))) : N Piece U = N Piece' (U.map f) := by
  classical
  rw [N, N]
  refine card_bij (fun T _ => T.image (fun t => t.map f)) ?_ ?_ ?_
  · intro T hT
    rw [mem_filter, mem_setParts] at hT ⊢
    obtain ⟨⟨h1, h2, h3⟩, h4⟩ := hT
    refine ⟨⟨?_, ?_, fun y => ?_⟩, ?_⟩
    · intro B hB
      obtain ⟨t, ht, rfl⟩ := mem_image.1 hB
      exact (h1 t ht).map
    · intro B hB C hC hne
      obtain ⟨t, ht, rfl⟩ := mem_image.1 hB
      obtain ⟨s, hs, rfl⟩ := mem_image.1 hC
      rw [disjoint_map]
      exact h2 t ht s hs (fun h => hne (by rw [h]))
    · rw [mem_map]
      constructor
      · rintro ⟨x, hx, rfl⟩
        obtain ⟨B, hB, hxB⟩ := (h3 x).1 hx
        exact ⟨_, mem_image_of_mem _ hB, mem_map_of_mem _ hxB⟩
      · rintro ⟨B, hB, hy⟩
        obtain ⟨t, ht, rfl⟩ := mem_image.1 hB
        obtain ⟨x, hx, rfl⟩ := mem_map.1 hy
        exact ⟨x, (h3 x).2 ⟨t, ht, hx⟩, rfl⟩
    · intro B hB
      obtain ⟨t, ht, rfl⟩ := mem_image.1 hB
      exact (h t (fun x hx => (h3 x).2 ⟨t, ht, hx⟩)).1 (h4 t ht)
  · intro T hT S hS hTS
    have hinj : Function.Injective (fun t : Finset α => t.map f) := map_injective f
    exact (image_injective hinj) hTS
  · intro T hT
    rw [mem_filter, mem_setParts] at hT
    obtain ⟨⟨h1, h2, h3⟩, h4⟩ := hT
    have hpre : ∀ B ∈ T, ∃ t, t ⊆ U ∧ t.map f = B := by
      intro B hB
      have hsub : B ⊆ U.map f := fun y hy => (h3 y).2 ⟨B, hB, hy⟩
      exact subset_map_iff.1 hsub |>.imp fun t ht => ⟨ht.1, ht.2.symm⟩
    refine ⟨U.powerset.filter (fun t => t.map f ∈ T), ?_, ?_⟩
    · rw [mem_filter, mem_setParts]
      refine ⟨⟨?_, ?_, fun x => ?_⟩, ?_⟩
      · intro t ht
        have := h1 _ (mem_filter.1 ht).2
        exact map_nonempty.1 this
      · intro t ht s hs hne
        have := h2 _ (mem_filter.1 ht).2 _ (mem_filter.1 hs).2 (fun h => hne (map_injective f h))
        exact (disjoint_map f).1 this
      · constructor
        · intro hx
          obtain ⟨B, hB, hxB⟩ := (h3 (f x)).1 (mem_map_of_mem _ hx)
          obtain ⟨t, ht, rfl⟩ := hpre B hB
          exact ⟨t, mem_filter.2 ⟨mem_powerset.2 ht, hB⟩, (mem_map' f).1 hxB⟩
        · rintro ⟨t, ht, hx⟩
          exact mem_powerset.1 (mem_filter.1 ht).1 hx
      · intro t ht
        exact (h t (mem_powerset.1 (mem_filter.1 ht).1)).2 (h4 _ (mem_filter.1 ht).2)
    · ext B
      rw [mem_image]
      constructor
      · rintro ⟨t, ht, rfl⟩
        exact (mem_filter.1 ht).2
      · intro hB
        obtain ⟨t, ht, rfl⟩ := hpre B hB
        exact ⟨t, mem_filter.2 ⟨mem_powerset.2 ht, hB⟩, rfl⟩

/-- The number of tilings in terms of Mathlib's partitions of a set. -/
theorem N_eq_card (Piece : Finset α → Prop) (U : Finset α) :
    N Piece U = Nat.card {T : Finpartition U // ∀ t ∈ T.parts, Piece t} := by
  classical
  rw [N, ← Nat.card_eq_finsetCard]
  have hto : ∀ P : {T : Finpartition U // ∀ t ∈ T.parts, Piece t},
      P.1.parts ∈ (setParts U).filter (fun T => ∀ t ∈ T, Piece t) := by
    intro P
    rw [mem_filter, mem_setParts]
    refine ⟨⟨fun B hB => P.1.nonempty_of_mem_parts hB, fun B hB C hC hne => P.1.disjoint hB hC hne, fun x => ?_⟩, P.2⟩
    have h : x ∈ P.1.parts.biUnion id ↔ x ∈ U := by rw [P.1.biUnion_parts]
    rw [← h]
    simp
  symm
  refine Nat.card_eq_of_bijective (fun P => (⟨P.1.parts, hto P⟩ :
    {x // x ∈ (setParts U).filter (fun T => ∀ t ∈ T, Piece t)})) ⟨?_, ?_⟩
  · intro P Q h
    exact Subtype.ext (Finpartition.ext (Subtype.mk.inj h))
  · rintro ⟨P, hP⟩
    obtain ⟨⟨h1, h2, h3⟩, h4⟩ : IsSetPart U P ∧ ∀ t ∈ P, Piece t := by
      rw [mem_filter, mem_setParts] at hP; exact hP
    refine ⟨⟨⟨P, ?_, ?_, ?_⟩, h4⟩, rfl⟩
    · rw [supIndep_iff_pairwiseDisjoint]
      exact fun B hB C hC hne => h2 B hB C hC hne
    · ext x
      rw [h3, mem_sup]
      rfl
    · intro h
      simpa using h1 _ h

end Rosemary.Tilings
