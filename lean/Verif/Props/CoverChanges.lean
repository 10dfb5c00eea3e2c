import Verif.Props.ExactCover

/-!
# Property C192: how the exact covers depend on the input

`algorithmx(target, sets)` is asked twice, with sets in another order, with one set more, or with the sets written as bits of
integers for `ExactCoverBinary`.
-/

namespace Rosemary.Props

open Rosemary.ExactCover

variable {κ : Type} [DecidableEq κ]

/-- The iteration order of sets is an enumeration. -/
def EnumeratesRows (ord : Finset ℕ → List ℕ) : Prop := ∀ S, (ord S).Nodup ∧ ∀ x, x ∈ ord S ↔ x ∈ S

/-- The sets have no repetitions and lie inside the target. -/
def ProperSets (target : List κ) (sets : List (List κ)) : Prop := (∀ y ∈ sets, y.Nodup) ∧ ∀ y ∈ sets, ∀ k ∈ y, k ∈ target

/-- `S` is the set of indices of an exact cover by nonempty sets. -/
def ChosenCover (target : List κ) (sets : List (List κ)) (S : Finset ℕ) : Prop :=
  (∀ i ∈ S, i < sets.length ∧ sets.getD i [] ≠ []) ∧ ∀ x ∈ target, ∃! i, i ∈ S ∧ x ∈ sets.getD i []

theorem algorithmx_chosen {ord : Finset ℕ → List ℕ} (hord : EnumeratesRows ord) {target : List κ} {sets : List (List κ)}
    (h : ProperSets target sets) {R : List (List (List κ))} (hR : algorithmx ord target sets = .ok R) :
    ∃ M : List (Finset ℕ), M.Nodup ∧ M.length = R.length ∧ ∀ S, S ∈ M ↔ ChosenCover target sets S := by
  obtain ⟨L, h1, -, h2, h3⟩ := C61_algorithmx ord hord target sets h.1 h.2
  rw [h1] at hR
  injection hR with hR
  subst hR
  exact ⟨_, h2, by simp, h3⟩

/-- C192: the number of covers does not depend on the order of the sets nor on the order in which Python iterates over them. -/
theorem C192_order {ord ord' : Finset ℕ → List ℕ} (hord : EnumeratesRows ord) (hord' : EnumeratesRows ord') {target target' : List κ}
    {sets : List (List κ)} (h : ProperSets target sets) (ht : ∀ x, x ∈ target' ↔ x ∈ target) {f : ℕ → ℕ}
    (hf : ∀ i < sets.length, f i < sets.length) (hi : ∀ i < sets.length, ∀ j < sets.length, f i = f j → i = j)
    {R R' : List (List (List κ))} (hR : algorithmx ord target sets = .ok R)
    (hR' : algorithmx ord' target' ((List.range sets.length).map fun i => sets.getD (f i) []) = .ok R') : R'.length = R.length := by
  set n := sets.length with hn
  set sets' := (List.range n).map fun i => sets.getD (f i) [] with hs'
  have hl' : sets'.length = n := by simp [hs']
  have hg : ∀ i < n, sets'.getD i [] = sets.getD (f i) [] := fun i hi => by
    rw [List.getD_eq_getElem?_getD, List.getElem?_eq_getElem (by omega)]
    simp [hs']
  have hmem : ∀ y ∈ sets', y ∈ sets := by
    intro y hy
    obtain ⟨i, hi, rfl⟩ := List.mem_map.1 hy
    have := hf i (List.mem_range.1 hi)
    rw [List.getD_eq_getElem?_getD, List.getElem?_eq_getElem this]
    exact List.getElem_mem this
  obtain ⟨M, m1, m2, m3⟩ := algorithmx_chosen hord h hR
  obtain ⟨M', m1', m2', m3'⟩ := algorithmx_chosen hord' ⟨fun y hy => h.1 y (hmem y hy), fun y hy k hk => (ht k).2 (h.2 y (hmem y hy) k hk)⟩ hR'
  have himg : (Finset.range n).image f = Finset.range n := by
    refine Finset.eq_of_subset_of_card_le (fun x hx => ?_) ?_
    · obtain ⟨i, hi, rfl⟩ := Finset.mem_image.1 hx
      exact Finset.mem_range.2 (hf i (Finset.mem_range.1 hi))
    · rw [Finset.card_image_of_injOn (fun i h1 j h2 e => hi i (by simpa using h1) j (by simpa using h2) e)]
  have key : ∀ S : Finset ℕ, (∀ i ∈ S, i < n) → (ChosenCover target' sets' S ↔ ChosenCover target sets (S.image f)) := by
    intro S hS
    unfold ChosenCover
    have e1 : (∀ i ∈ S, i < sets'.length ∧ sets'.getD i [] ≠ []) ↔ ∀ i ∈ S.image f, i < sets.length ∧ sets.getD i [] ≠ [] := by
      constructor
      · intro h1 x hx
        obtain ⟨i, hi, rfl⟩ := Finset.mem_image.1 hx
        exact ⟨hf i (hS i hi), by rw [← hg i (hS i hi)]; exact (h1 i hi).2⟩
      · intro h1 i hi
        exact ⟨by rw [hl']; exact hS i hi, by rw [hg i (hS i hi)]; exact (h1 _ (Finset.mem_image_of_mem f hi)).2⟩
    have e2 : ∀ x, (∃! i, i ∈ S ∧ x ∈ sets'.getD i []) ↔ ∃! i, i ∈ S.image f ∧ x ∈ sets.getD i [] := by
      intro x
      constructor
      · rintro ⟨i, ⟨h1, h2⟩, h3⟩
        refine ⟨f i, ⟨Finset.mem_image_of_mem f h1, by rw [← hg i (hS i h1)]; exact h2⟩, ?_⟩
        rintro y ⟨hy, hxy⟩
        obtain ⟨j, hj, rfl⟩ := Finset.mem_image.1 hy
        rw [h3 j ⟨hj, by rw [hg j (hS j hj)]; exact hxy⟩]
      · rintro ⟨y, ⟨hy, h2⟩, h3⟩
        obtain ⟨i, h1, rfl⟩ := Finset.mem_image.1 hy
        refine ⟨i, ⟨h1, by rw [hg i (hS i h1)]; exact h2⟩, ?_⟩
        rintro j ⟨hj, hxj⟩
        exact hi j (hS j hj) i (hS i h1) (h3 _ ⟨Finset.mem_image_of_mem f hj, by rw [← hg j (hS j hj)]; exact hxj⟩)
    rw [e1]
    exact and_congr_right fun _ => ⟨fun h1 x hx => (e2 x).1 (h1 x ((ht x).2 hx)), fun h1 x hx => (e2 x).2 (h1 x ((ht x).1 hx))⟩
  have hlt' : ∀ S ∈ M', ∀ i ∈ S, i < n := fun S hS i hi => by have := (((m3' S).1 hS).1 i hi).1; omega
  have hinj : ∀ S ∈ M', ∀ S' ∈ M', S.image f = S'.image f → S = S' := by
    have sub : ∀ S ∈ M', ∀ S' ∈ M', S.image f = S'.image f → S ⊆ S' := by
      intro S hS S' hS' he i hi'
      have : f i ∈ S'.image f := he ▸ Finset.mem_image_of_mem f hi'
      obtain ⟨j, hj, e⟩ := Finset.mem_image.1 this
      rw [← hi j (hlt' S' hS' j hj) i (hlt' S hS i hi') e]
      exact hj
    exact fun S hS S' hS' he => (sub S hS S' hS' he).antisymm (sub S' hS' S hS he.symm)
  have hp : (M'.map (Finset.image f)).Perm M := by
    refine (List.perm_ext_iff_of_nodup (List.Nodup.map_on hinj m1') m1).2 fun S => ?_
    rw [m3 S, List.mem_map]
    constructor
    · rintro ⟨S', h1, rfl⟩
      exact (key S' (hlt' S' h1)).1 ((m3' S').1 h1)
    · intro hS
      set S' := (Finset.range n).filter fun i => f i ∈ S with hS'
      have hb : ∀ i ∈ S', i < n := fun i hi => Finset.mem_range.1 (Finset.mem_filter.1 hi).1
      have he : S'.image f = S := by
        ext x
        rw [Finset.mem_image]
        constructor
        · rintro ⟨i, hi, rfl⟩; exact (Finset.mem_filter.1 hi).2
        · intro hx
          have hxn : x ∈ (Finset.range n).image f := by rw [himg]; exact Finset.mem_range.2 (hS.1 x hx).1
          obtain ⟨i, hi, rfl⟩ := Finset.mem_image.1 hxn
          exact ⟨i, Finset.mem_filter.2 ⟨hi, hx⟩, rfl⟩
      exact ⟨S', (m3' S').2 ((key S' hb).2 (by rw [he]; exact hS)), he⟩
  rw [← m2, ← m2', ← hp.length_eq, List.length_map]

/-- C192: one more set `y` (not empty).  The covers are those without it and those of what `y` leaves uncovered by the sets that
do not meet `y`; the sets that meet `y` are replaced by empty ones, which are never chosen. -/
theorem C192_one_more_set {ord ord' ord'' : Finset ℕ → List ℕ} (hord : EnumeratesRows ord) (hord' : EnumeratesRows ord') (hord'' : EnumeratesRows ord'')
    {target : List κ} {sets : List (List κ)} {y : List κ} (hy : y ≠ []) (h : ProperSets target (sets ++ [y]))
    {R R' R'' : List (List (List κ))} (hR : algorithmx ord target (sets ++ [y]) = .ok R) (hR' : algorithmx ord' target sets = .ok R')
    (hR'' : algorithmx ord'' (target.filter (· ∉ y)) (sets.map fun s => if ∀ x ∈ s, x ∉ y then s else []) = .ok R'') :
    R.length = R'.length + R''.length := by
  set n := sets.length with hn
  set rest := sets.map fun s => if ∀ x ∈ s, x ∉ y then s else [] with hrest
  have gS : ∀ i < n, (sets ++ [y]).getD i [] = sets.getD i [] := fun i hi => by
    rw [List.getD_eq_getElem?_getD, List.getD_eq_getElem?_getD, List.getElem?_append_left (by omega)]
  have gY : (sets ++ [y]).getD n [] = y := by
    rw [List.getD_eq_getElem?_getD, List.getElem?_append_right (by omega)]
    simp [hn]
  have gR : ∀ i < n, rest.getD i [] = if ∀ x ∈ sets.getD i [], x ∉ y then sets.getD i [] else [] := fun i hi => by
    rw [List.getD_eq_getElem?_getD, List.getD_eq_getElem?_getD, hrest, List.getElem?_map, List.getElem?_eq_getElem (by omega)]
    rfl
  have hyt : ∀ x ∈ y, x ∈ target := h.2 y (by simp)
  have hprop : ProperSets target sets := ⟨fun s hs => h.1 s (by simp [hs]), fun s hs => h.2 s (by simp [hs])⟩
  have hpropR : ProperSets (target.filter (· ∉ y)) rest := by
    constructor
    · intro s hs
      obtain ⟨s', h1, rfl⟩ := List.mem_map.1 hs
      split
      · exact hprop.1 s' h1
      · exact List.nodup_nil
    · intro s hs k hk
      obtain ⟨s', h1, rfl⟩ := List.mem_map.1 hs
      split at hk
      · rename_i hd
        rw [List.mem_filter]
        exact ⟨hprop.2 s' h1 k hk, by simpa using hd k hk⟩
      · cases hk
  obtain ⟨M, m1, m2, m3⟩ := algorithmx_chosen hord h hR
  obtain ⟨M', m1', m2', m3'⟩ := algorithmx_chosen hord' hprop hR'
  obtain ⟨M'', m1'', m2'', m3''⟩ := algorithmx_chosen hord'' hpropR hR''
  have lt' : ∀ S ∈ M', ∀ i ∈ S, i < n := fun S hS i hi => (((m3' S).1 hS).1 i hi).1
  have lt'' : ∀ S ∈ M'', ∀ i ∈ S, i < n := fun S hS i hi => by
    have := (((m3'' S).1 hS).1 i hi).1
    simpa [hrest] using this
  have k1 : ∀ S : Finset ℕ, n ∉ S → (ChosenCover target (sets ++ [y]) S ↔ ChosenCover target sets S) := by
    intro S hnS
    have aux : (∀ i ∈ S, i < n) → ((∀ i ∈ S, (sets ++ [y]).getD i [] = sets.getD i [])) := fun hS i hi => gS i (hS i hi)
    constructor
    · rintro ⟨a, b⟩
      have hS : ∀ i ∈ S, i < n := fun i hi => by
        have := (a i hi).1
        rw [List.length_append, List.length_singleton] at this
        have : i ≠ n := fun e => hnS (e ▸ hi)
        omega
      refine ⟨fun i hi => ⟨hS i hi, by rw [← gS i (hS i hi)]; exact (a i hi).2⟩, fun x hx => ?_⟩
      obtain ⟨i, ⟨h1, h2⟩, h3⟩ := b x hx
      exact ⟨i, ⟨h1, by rw [← gS i (hS i h1)]; exact h2⟩, fun j ⟨h4, h5⟩ => h3 j ⟨h4, by rw [gS j (hS j h4)]; exact h5⟩⟩
    · rintro ⟨a, b⟩
      have hS : ∀ i ∈ S, i < n := fun i hi => (a i hi).1
      refine ⟨fun i hi => ⟨by have := hS i hi; rw [List.length_append, List.length_singleton]; omega, by rw [gS i (hS i hi)]; exact (a i hi).2⟩,
        fun x hx => ?_⟩
      obtain ⟨i, ⟨h1, h2⟩, h3⟩ := b x hx
      exact ⟨i, ⟨h1, by rw [gS i (hS i h1)]; exact h2⟩, fun j ⟨h4, h5⟩ => h3 j ⟨h4, by rw [← gS j (hS j h4)]; exact h5⟩⟩
  have k2 : ∀ S : Finset ℕ, (∀ i ∈ S, i < n) →
      (ChosenCover target (sets ++ [y]) (insert n S) ↔ ChosenCover (target.filter (· ∉ y)) rest S) := by
    intro S hS
    have hnS : n ∉ S := fun hc => lt_irrefl n (hS n hc)
    constructor
    · rintro ⟨a, b⟩
      have hd : ∀ i ∈ S, ∀ x ∈ sets.getD i [], x ∉ y := by
        intro i hi x hx hxy
        obtain ⟨j, -, h3⟩ := b x (hyt x hxy)
        have e1 := h3 n ⟨Finset.mem_insert_self n S, by rw [gY]; exact hxy⟩
        have e2 := h3 i ⟨Finset.mem_insert_of_mem hi, by rw [gS i (hS i hi)]; exact hx⟩
        have := hS i hi
        omega
      have gE : ∀ i ∈ S, rest.getD i [] = sets.getD i [] := fun i hi => by rw [gR i (hS i hi), if_pos (hd i hi)]
      refine ⟨fun i hi => ⟨by simpa [hrest] using hS i hi, ?_⟩, fun x hx => ?_⟩
      · rw [gE i hi, ← gS i (hS i hi)]
        exact (a i (Finset.mem_insert_of_mem hi)).2
      · obtain ⟨hx1, hx2⟩ := List.mem_filter.1 hx
        have hx2 : x ∉ y := by simpa using hx2
        obtain ⟨i, ⟨h1, h2⟩, h3⟩ := b x hx1
        rcases Finset.mem_insert.1 h1 with rfl | h1
        · rw [gY] at h2; exact absurd h2 hx2
        · exact ⟨i, ⟨h1, by rw [gE i h1, ← gS i (hS i h1)]; exact h2⟩, fun j ⟨h4, h5⟩ => h3 j ⟨Finset.mem_insert_of_mem h4, by
            rw [gS j (hS j h4), ← gE j h4]; exact h5⟩⟩
    · rintro ⟨a, b⟩
      have hd : ∀ i ∈ S, ∀ x ∈ sets.getD i [], x ∉ y := by
        intro i hi
        by_contra hc
        exact (a i hi).2 (by rw [gR i (hS i hi), if_neg hc])
      have gE : ∀ i ∈ S, rest.getD i [] = sets.getD i [] := fun i hi => by rw [gR i (hS i hi), if_pos (hd i hi)]
      refine ⟨fun i hi => ?_, fun x hx => ?_⟩
      · rw [List.length_append, List.length_singleton]
        rcases Finset.mem_insert.1 hi with rfl | hi
        · exact ⟨by omega, by rw [gY]; exact hy⟩
        · exact ⟨by have := hS i hi; omega, by rw [gS i (hS i hi), ← gE i hi]; exact (a i hi).2⟩
      · by_cases hxy : x ∈ y
        · refine ⟨n, ⟨Finset.mem_insert_self n S, by rw [gY]; exact hxy⟩, fun j ⟨h4, h5⟩ => ?_⟩
          rcases Finset.mem_insert.1 h4 with rfl | h4
          · rfl
          · rw [gS j (hS j h4)] at h5; exact absurd hxy (hd j h4 x h5)
        · obtain ⟨i, ⟨h1, h2⟩, h3⟩ := b x (List.mem_filter.2 ⟨hx, by simpa using hxy⟩)
          refine ⟨i, ⟨Finset.mem_insert_of_mem h1, by rw [gS i (hS i h1), ← gE i h1]; exact h2⟩, fun j ⟨h4, h5⟩ => ?_⟩
          rcases Finset.mem_insert.1 h4 with rfl | h4
          · rw [gY] at h5; exact absurd h5 hxy
          · exact h3 j ⟨h4, by rw [gE j h4, ← gS j (hS j h4)]; exact h5⟩
  have hp : M.Perm (M' ++ M''.map (insert n)) := by
    refine (List.perm_ext_iff_of_nodup m1 (List.nodup_append.2 ⟨m1', ?_, ?_⟩)).2 fun S => ?_
    · refine List.Nodup.map_on (fun S hS S' hS' he => ?_) m1''
      have a := fun hc => lt_irrefl n (lt'' S hS n hc)
      have b := fun hc => lt_irrefl n (lt'' S' hS' n hc)
      rw [← Finset.erase_insert a, he, Finset.erase_insert b]
    · rintro S hS S' hS' rfl
      obtain ⟨T, -, rfl⟩ := List.mem_map.1 hS'
      exact lt_irrefl n (lt' _ hS n (Finset.mem_insert_self n T))
    · rw [m3 S, List.mem_append, m3' S, List.mem_map]
      constructor
      · intro hS
        by_cases hc : n ∈ S
        · right
          have hb : ∀ i ∈ S.erase n, i < n := fun i hi => by
            have h1 := (hS.1 i (Finset.mem_of_mem_erase hi)).1
            rw [List.length_append, List.length_singleton] at h1
            have := Finset.ne_of_mem_erase hi
            omega
          exact ⟨S.erase n, (m3'' _).2 ((k2 _ hb).1 (by rw [Finset.insert_erase hc]; exact hS)), Finset.insert_erase hc⟩
        · exact Or.inl ((k1 S hc).1 hS)
      · rintro (hS | ⟨T, hT, rfl⟩)
        · exact (k1 S fun hc => lt_irrefl n ((hS.1 n hc).1)).2 hS
        · exact (k2 T (lt'' T hT)).2 ((m3'' T).1 hT)
  rw [← m2, ← m2', ← m2'', hp.length_eq, List.length_append, List.length_map]

theorem card_of_list {P : Finset ℕ → Prop} {M : List (Finset ℕ)} (h : M.Nodup) (hM : ∀ S, S ∈ M ↔ P S) :
    Nat.card {S : Finset ℕ // P S} = M.length := by
  rw [Nat.subtype_card M.toFinset (fun S => by rw [List.mem_toFinset, hM]), List.toFinset_card_of_nodup h]

/-- C192: `ExactCoverBinary(ints)` has as many solutions as it yields, and as `algorithmx` finds for the sets of bits. -/
theorem C192_binary {ord : Finset ℕ → List ℕ} (hord : EnumeratesRows ord) (ints : List ℕ) : ∃ (N : ℕ) (L : List (List ℕ)) (R : List (List (List ℕ))),
    (Binary.init ints).numberOfSolutions = .ok N ∧ (Binary.init ints).solutions = some L ∧ L.length = N ∧
    algorithmx ord (List.range (Binary.init ints).numBits)
      (ints.map fun v => (List.range (Binary.init ints).numBits).filter fun b => v.testBit b) = .ok R ∧ R.length = N := by
  set nb := (Binary.init ints).numBits with hnb
  set sets := ints.map fun v => (List.range nb).filter fun b => v.testBit b with hs
  obtain ⟨L, l1, -, l2, l3⟩ := C61_solutions ints
  rw [← hnb] at l3
  have hprop : ProperSets (List.range nb) sets := by
    constructor
    · intro y hy
      obtain ⟨v, -, rfl⟩ := List.mem_map.1 hy
      exact List.nodup_range.filter _
    · intro y hy k hk
      obtain ⟨v, -, rfl⟩ := List.mem_map.1 hy
      exact (List.mem_filter.1 hk).1
  obtain ⟨Q, q1, -⟩ := C61_algorithmx ord hord _ sets hprop.1 hprop.2
  obtain ⟨M, m1, m2, m3⟩ := algorithmx_chosen hord hprop q1
  have hg : ∀ i < ints.length, ∀ x, x ∈ sets.getD i [] ↔ x ∈ bits nb (ints.getD i 0) := fun i hi x => by
    rw [List.getD_eq_getElem?_getD, List.getD_eq_getElem?_getD, hs, List.getElem?_map, List.getElem?_eq_getElem hi]
    simp [bits]
  have hiff : ∀ S, ChosenCover (List.range nb) sets S ↔ IsCover ints.length (fun i => bits nb (ints.getD i 0)) (Finset.range nb) S := by
    intro S
    have hl : sets.length = ints.length := by simp [hs]
    have hne : ∀ i < ints.length, sets.getD i [] ≠ [] ↔ (bits nb (ints.getD i 0)).Nonempty := fun i hi => by
      constructor
      · intro h
        obtain ⟨x, hx⟩ := List.exists_mem_of_ne_nil _ h
        exact ⟨x, (hg i hi x).1 hx⟩
      · rintro ⟨x, hx⟩
        exact List.ne_nil_of_mem ((hg i hi x).2 hx)
    have e1 : (∀ i ∈ S, i < sets.length ∧ sets.getD i [] ≠ []) ↔
        ∀ i ∈ S, i < ints.length ∧ (bits nb (ints.getD i 0)).Nonempty ∧ bits nb (ints.getD i 0) ⊆ Finset.range nb := by
      refine forall₂_congr fun i _ => ?_
      rw [hl]
      exact and_congr_right fun hi => ⟨fun h => ⟨(hne i hi).1 h, Finset.filter_subset _ _⟩, fun h => (hne i hi).2 h.1⟩
    unfold ChosenCover
    rw [isCover_iff, e1]
    refine and_congr_right fun hS => forall_congr' fun x => ?_
    rw [List.mem_range, Finset.mem_range]
    refine forall_congr' fun _ => ?_
    have : ∀ i, (i ∈ S ∧ x ∈ sets.getD i []) ↔ (i ∈ S ∧ x ∈ bits nb (ints.getD i 0)) := fun i =>
      and_congr_right fun hi => hg i (hS i hi).1 x
    simp only [this]
  refine ⟨_, _, _, C61_number_of_solutions ints, l1, ?_, q1, ?_⟩
  · rw [← hnb, card_of_list l2 l3, List.length_map, List.length_map]
  · rw [← hnb, card_of_list m1 (fun S => (m3 S).trans (hiff S)), m2]

/-- One more set: `[2, 7]` completes one cover of Knuth's example. -/
example : let ord := fun S : Finset ℕ => (List.range 6).filter (· ∈ S)
    algorithmx ord [1, 2, 3, 4, 5, 6, 7] [[3, 5, 6], [1, 4, 7], [2, 3, 6], [1, 4], [4, 5, 7]] = .ok [] ∧
    (algorithmx ord [1, 2, 3, 4, 5, 6, 7] [[3, 5, 6], [1, 4, 7], [2, 3, 6], [1, 4], [4, 5, 7], [2, 7]]).map List.length = .ok 1 ∧
    (algorithmx ord [1, 3, 4, 5, 6] [[3, 5, 6], [], [], [1, 4], []]).map List.length = .ok 1 := by decide +kernel

/-- The numbers 1, 2, 3 and 3: the covers of two bits are `{1, 2}`, `{3}` and `{3}`. -/
example : (Binary.init [1, 2, 3, 3]).numberOfSolutions = .ok 3 := by decide +kernel

end Rosemary.Props
