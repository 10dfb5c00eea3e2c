import Verif.Lemmas.CliqueMasks
import Mathlib.Algebra.BigOperators.Ring.Finset
import Mathlib.Algebra.Order.BigOperators.Group.Finset

/-!
# Lemmas on the searches for maximum cliques
-/

namespace Rosemary.Cliques

open Rosemary.Graph Rosemary.Spec
open Rosemary.Traversal (E)

variable {V W : Type} [DecidableEq V]

/-- The cliques of the graph. -/
abbrev Clq (g : Graph V W) (C : Finset V) : Prop := IsClique {v | Mem g v} (E g) C

theorem Clq.mono {g : Graph V W} {C D : Finset V} (h : Clq g D) (hs : C ⊆ D) : Clq g C :=
  ⟨fun v hv => h.1 v (hs hv), fun u hu v hv => h.2 u (hs hu) v (hs hv)⟩

theorem find_spec (c : Finset V) (l : List V) : ∀ k, c.Nonempty → (∀ v ∈ c, v ∈ l) →
    ∃ i u, (l.zipIdx k).find? (fun p => p.1 ∈ c) = some (u, k + i) ∧ u ∈ c ∧ l.drop i = u :: l.drop (i + 1) ∧
      ∀ v ∈ c, v ∈ l.drop i := by
  induction l with
  | nil => rintro k ⟨v, hv⟩ h; exact absurd (h v hv) (by simp)
  | cons a l ih =>
    intro k hne h
    rw [List.zipIdx_cons, List.find?_cons]
    by_cases ha : a ∈ c
    · refine ⟨0, a, ?_, ha, rfl, h⟩
      simp [ha]
    · obtain ⟨i, u, h1, h2, h3, h4⟩ := ih (k + 1) hne (by
        intro v hv
        rcases List.mem_cons.1 (h v hv) with rfl | hv'
        · exact absurd hv ha
        · exact hv')
      refine ⟨i + 1, u, ?_, h2, by simpa using h3, by simpa using h4⟩
      simp only [ha, decide_false]
      rw [h1]
      congr 2
      omega

theorem scan_spec {vs : List V} {c : Finset V} {last : ℕ} (hne : c.Nonempty) (h : ∀ v ∈ c, v ∈ vs.drop last) :
    ∃ u i, scan vs c last = .ok (u, i) ∧ last ≤ i ∧ u ∈ c ∧ vs.drop i = u :: vs.drop (i + 1) ∧ ∀ v ∈ c, v ∈ vs.drop i := by
  obtain ⟨i, u, h1, h2, h3, h4⟩ := find_spec c (vs.drop last) last hne h
  refine ⟨u, last + i, ?_, by omega, h2, ?_, ?_⟩
  · rw [scan, h1]
  · rw [List.drop_drop, List.drop_drop] at h3
    rw [h3]; congr 2; 
  · rw [List.drop_drop] at h4
    exact h4

theorem drop_erase {vs : List V} {c : Finset V} {i : ℕ} {u : V} (hd : vs.drop i = u :: vs.drop (i + 1))
    (h : ∀ v ∈ c, v ∈ vs.drop i) : ∀ v ∈ c.erase u, v ∈ vs.drop (i + 1) := by
  intro v hv
  rw [Finset.mem_erase] at hv
  have := h v hv.2
  rw [hd] at this
  rcases List.mem_cons.1 this with h' | h'
  · exact absurd h' hv.1
  · exact h'

/-- What is known about the current clique and its candidates. -/
structure Node (g : Graph V W) (used : List V) (c : Finset V) : Prop where
  nodup : used.Nodup
  clique : Clq g used.toFinset
  ext : ∀ v ∈ c, Extending g used.toFinset v

theorem Node.child {g : Graph V W} (hg : Good g) {used : List V} {c : Finset V} (h : Node g used c) {u : V} (hu : u ∈ c)
    {d : Finset V} (hd : ∀ v ∈ d, v ∈ c ∧ v ≠ u ∧ v ∈ nb g u) : Node g (used ++ [u]) d := by
  have hue := h.ext u hu
  refine ⟨?_, ?_, ?_⟩
  · rw [List.nodup_append]
    refine ⟨h.nodup, by simp, ?_⟩
    intro a ha b hb
    rw [List.mem_singleton.1 hb]
    rintro rfl; exact hue.2.1 (List.mem_toFinset.2 ha)
  · rw [toFinset_snoc]; exact clique_insert hg h.clique hue
  · intro v hv
    obtain ⟨h1, h2, h3⟩ := hd v hv
    obtain ⟨e1, e2, e3⟩ := h.ext v h1
    rw [toFinset_snoc]
    refine ⟨e1, ?_, ?_⟩
    · rw [Finset.mem_insert, not_or]; exact ⟨h2, e2⟩
    · intro w hw
      rcases Finset.mem_insert.1 hw with rfl | hw
      · exact mem_nb.1 h3
      · exact e3 w hw

theorem Node.erase {g : Graph V W} {used : List V} {c : Finset V} (h : Node g used c) {d : Finset V} (hd : d ⊆ c) :
    Node g used d := ⟨h.nodup, h.clique, fun v hv => h.ext v (hd hv)⟩

/-- A clique that was found. -/
def Valid (g : Graph V W) (best : ℕ × List V) : Prop :=
  best.2.Nodup ∧ Clq g best.2.toFinset ∧ best.1 = best.2.length

theorem leaf_valid {g : Graph V W} {best : ℕ × List V} (hb : Valid g best) {used : List V} {c : Finset V}
    (h : Node g used c) {size : ℕ} (hs : size = used.length) :
    Valid g (leaf best size used) ∧ best.1 ≤ (leaf best size used).1 ∧ size ≤ (leaf best size used).1 := by
  rw [leaf]
  split
  · exact ⟨⟨h.nodup, h.clique, hs⟩, by omega, le_rfl⟩
  · exact ⟨hb, le_rfl, by omega⟩

theorem sub_child {g : Graph V W} {c Q : Finset V} {u : V} (hQ : Q ⊆ c) (hcl : Clq g Q) (hu : u ∈ Q) :
    Q.erase u ⊆ c.erase u ∩ nb g u := by
  intro v hv
  rw [Finset.mem_erase] at hv
  exact Finset.mem_inter.2 ⟨Finset.mem_erase.2 ⟨hv.1, hQ hv.2⟩, mem_nb.2 (hcl.2 u hu v hv.2 (Ne.symm hv.1))⟩

theorem singleton_clq {g : Graph V W} {v : V} (h : Mem g v) : Clq g {v} := by
  refine ⟨fun w hw => ?_, fun a ha b hb hne => ?_⟩
  · rw [Finset.mem_singleton.1 hw]; exact h
  · rw [Finset.mem_singleton.1 ha, Finset.mem_singleton.1 hb] at hne
    exact absurd rfl hne

/-! ## `pardalos` -/

theorem pardalosLoop_spec {g : Graph V W} (hg : Good g) (vs : List V) (n : ℕ) : ∀ (used : List V) (size last : ℕ)
    (c : Finset V) (best : ℕ × List V), c.card ≤ n → Node g used c → size = used.length →
    (∀ v ∈ c, v ∈ vs.drop last) → Valid g best →
    ∃ best', pardalosLoop g vs n used size last c best = .ok best' ∧ Valid g best' ∧ best.1 ≤ best'.1 ∧
      ∀ Q, Q ⊆ c → Q.Nonempty → Clq g Q → size + Q.card ≤ best'.1 := by
  induction n with
  | zero =>
    intro used size last c best hc _ _ _ hb
    refine ⟨best, rfl, hb, le_rfl, ?_⟩
    rintro Q hQ ⟨v, hv⟩
    have : c = ∅ := Finset.card_eq_zero.1 (by omega)
    exact absurd (hQ hv) (by simp [this])
  | succ n ih =>
    intro used size last c best hc hnode hsize hsub hb
    rw [pardalosLoop]
    by_cases hcond : c ≠ ∅ ∧ best.1 < size + c.card
    · rw [if_pos hcond]
      obtain ⟨u, i, h1, h2, h3, h4, h5⟩ := scan_spec (Finset.nonempty_iff_ne_empty.2 hcond.1) hsub
      rw [h1]
      have hcard : (c.erase u).card = c.card - 1 := Finset.card_erase_of_mem h3
      have hchild : Node g (used ++ [u]) (c.erase u ∩ nb g u) := hnode.child hg h3 (by
        intro v hv
        rw [Finset.mem_inter, Finset.mem_erase] at hv
        exact ⟨hv.1.2, hv.1.1, hv.2⟩)
      have hrec : ∃ b1, (if c.erase u ∩ nb g u = ∅ then .ok (leaf best (size + 1) (used ++ [u]))
          else pardalosLoop g vs n (used ++ [u]) (size + 1) 0 (c.erase u ∩ nb g u) best : Except PyErr _) = .ok b1 ∧
          Valid g b1 ∧ best.1 ≤ b1.1 ∧
          ∀ Q, Q ⊆ c → u ∈ Q → Clq g Q → size + Q.card ≤ b1.1 := by
        by_cases he : c.erase u ∩ nb g u = ∅
        · rw [if_pos he]
          obtain ⟨l1, l2, l3⟩ := leaf_valid hb hchild (size := size + 1) (by simp [hsize])
          refine ⟨_, rfl, l1, l2, ?_⟩
          intro Q hQ hu hcl
          have := Finset.card_le_card (sub_child hQ hcl hu)
          rw [he, Finset.card_empty, Finset.card_erase_of_mem hu] at this
          omega
        · rw [if_neg he]
          obtain ⟨b1, r1, r2, r3, r4⟩ := ih (used ++ [u]) (size + 1) 0 (c.erase u ∩ nb g u) best
            ((Finset.card_le_card Finset.inter_subset_left).trans (by omega)) hchild (by simp [hsize])
            (fun v hv => hsub v (Finset.mem_of_mem_erase (Finset.mem_inter.1 hv).1) |> List.mem_of_mem_drop) hb
          refine ⟨b1, r1, r2, r3, ?_⟩
          intro Q hQ hu hcl
          by_cases hQe : (Q.erase u).Nonempty
          · have := r4 _ (sub_child hQ hcl hu) hQe (hcl.mono (Finset.erase_subset _ _))
            rw [Finset.card_erase_of_mem hu] at this
            omega
          · obtain ⟨w, hw⟩ := Finset.nonempty_iff_ne_empty.2 he
            have := r4 {w} (by simpa using hw) ⟨w, Finset.mem_singleton_self w⟩ (singleton_clq (hchild.ext w hw).1)
            rw [Finset.not_nonempty_iff_eq_empty] at hQe
            have h0 := Finset.card_erase_of_mem hu
            rw [hQe, Finset.card_empty] at h0
            simp at this
            omega
      obtain ⟨b1, r1, r2, r3, r4⟩ := hrec
      obtain ⟨b2, s1, s2, s3, s4⟩ := ih used size (i + 1) (c.erase u) b1 (by omega) (hnode.erase (Finset.erase_subset _ _)) hsize
        (drop_erase h4 h5) r2
      refine ⟨b2, ?_, s2, r3.trans s3, ?_⟩
      · dsimp only
        rw [r1]; exact s1
      · intro Q hQ hne hcl
        by_cases hu : u ∈ Q
        · exact (r4 Q hQ hu hcl).trans s3
        · exact s4 Q (fun v hv => Finset.mem_erase.2 ⟨by rintro rfl; exact hu hv, hQ hv⟩) hne hcl
    · rw [if_neg hcond]
      refine ⟨best, rfl, hb, le_rfl, ?_⟩
      intro Q hQ hne hcl
      have hce : c ≠ ∅ := by
        rintro rfl
        obtain ⟨v, hv⟩ := hne
        exact absurd (hQ hv) (by simp)
      have h1 : ¬ best.1 < size + c.card := fun h => hcond ⟨hce, h⟩
      have := Finset.card_le_card hQ
      omega

theorem start_node {g : Graph V W} {c : Finset V} (h : ∀ v ∈ c, Mem g v) : Node g [] c :=
  ⟨List.nodup_nil, ⟨by simp, by simp⟩, fun v hv => ⟨h v hv, by simp, by simp⟩⟩

theorem valid_zero (g : Graph V W) : Valid g (0, []) := ⟨List.nodup_nil, ⟨by simp, by simp⟩, rfl⟩

theorem pardalosLoop_top {g : Graph V W} (hg : Good g) {vs : List V} (hmem : ∀ v, v ∈ vs ↔ Mem g v) :
    ∃ k l, pardalosLoop g vs vs.length [] 0 0 vs.toFinset (0, []) = .ok (k, l) ∧ Valid g (k, l) ∧
      ∀ Q, Clq g Q → Q.card ≤ k := by
  obtain ⟨⟨k, l⟩, h1, h2, -, h3⟩ := pardalosLoop_spec hg vs vs.length [] 0 0 vs.toFinset (0, [])
    (List.toFinset_card_le _) (start_node (fun v hv => (hmem v).1 (List.mem_toFinset.1 hv))) rfl
    (fun v hv => by simpa using hv) (valid_zero g)
  refine ⟨k, l, h1, h2, fun Q hQ => ?_⟩
  by_cases hne : Q.Nonempty
  · have := h3 Q (fun v hv => List.mem_toFinset.2 ((hmem v).2 (hQ.1 v hv))) hne hQ
    simpa using this
  · rw [Finset.not_nonempty_iff_eq_empty.1 hne]; simp

/-! ## `ostergard` -/

theorem idx_ge {vs : List V} (hnd : vs.Nodup) {i lo : ℕ} {u : V} (hd : vs.drop i = u :: vs.drop (i + 1))
    (hu : u ∈ vs.drop lo) : lo ≤ i := by
  by_contra hlt
  have h1 : vs.drop lo = (vs.drop (i + 1)).drop (lo - (i + 1)) := by
    rw [List.drop_drop]; congr 1; omega
  have h2 : u ∈ vs.drop (i + 1) := List.mem_of_mem_drop (h1 ▸ hu)
  have h3 : (vs.drop i).Nodup := hnd.sublist (List.drop_sublist i vs)
  rw [hd, List.nodup_cons] at h3
  exact h3.1 h2

theorem ostergardLoop_spec {g : Graph V W} (hg : Good g) {vs : List V} (hnd : vs.Nodup) {largest : List ℕ} {lo N : ℕ}
    (hlar : ∀ i, lo ≤ i → i < vs.length → ∃ m, largest[i]? = some m ∧ ∀ Q, (∀ v ∈ Q, v ∈ vs.drop i) → Clq g Q → Q.card ≤ m)
    (n : ℕ) : ∀ (used : List V) (size last : ℕ)
    (c : Finset V) (best : ℕ × List V), c.card ≤ n → Node g used c → size = used.length →
    (∀ v ∈ c, v ∈ vs.drop last) → (∀ v ∈ c, v ∈ vs.drop lo) → Valid g best → best.1 = N →
    (∀ Q, Q ⊆ used.toFinset ∪ c → Clq g Q → Q.card ≤ N + 1) →
    ∃ best' f, ostergardLoop g vs largest n used size last c (best, false) = .ok (best', f) ∧ Valid g best' ∧
      ((f = true ∧ best'.1 = N + 1) ∨
        (f = false ∧ best' = best ∧ ∀ Q, Q ⊆ c → Q.Nonempty → Clq g Q → size + Q.card ≤ N)) := by
  induction n with
  | zero =>
    intro used size last c best hc _ _ _ _ hb _ _
    refine ⟨best, false, rfl, hb, Or.inr ⟨rfl, rfl, ?_⟩⟩
    rintro Q hQ ⟨v, hv⟩
    have : c = ∅ := Finset.card_eq_zero.1 (by omega)
    exact absurd (hQ hv) (by simp [this])
  | succ n ih =>
    intro used size last c best hc hnode hsize hsub hsub' hb hN hbd
    rw [ostergardLoop]
    by_cases hcond : c ≠ ∅ ∧ best.1 < size + c.card
    · rw [if_pos hcond]
      obtain ⟨u, i, h1, h2, h3, h4, h5⟩ := scan_spec (Finset.nonempty_iff_ne_empty.2 hcond.1) hsub
      rw [h1]
      have hil : i < vs.length := by
        by_contra hge
        rw [List.drop_eq_nil_of_le (by omega)] at h4
        simp at h4
      obtain ⟨m, hm1, hm2⟩ := hlar i (idx_ge hnd h4 (hsub' u h3)) hil
      by_cases hprune : size + m ≤ best.1
      · refine ⟨best, false, ?_, hb, Or.inr ⟨rfl, rfl, ?_⟩⟩
        · dsimp only
          rw [hm1]
          exact if_pos hprune
        · intro Q hQ _ hcl
          have := hm2 Q (fun v hv => h5 v (hQ hv)) hcl
          omega
      · have hcard : (c.erase u).card = c.card - 1 := Finset.card_erase_of_mem h3
        have hchild : Node g (used ++ [u]) (c.erase u ∩ nb g u) := hnode.child hg h3 (by
          intro v hv
          rw [Finset.mem_inter, Finset.mem_erase] at hv
          exact ⟨hv.1.2, hv.1.1, hv.2⟩)
        have hrec : ∃ b1 f, (if c.erase u ∩ nb g u = ∅ then
              .ok (leaf best (size + 1) (used ++ [u]), false || decide (best.1 < size + 1))
            else ostergardLoop g vs largest n (used ++ [u]) (size + 1) 0 (c.erase u ∩ nb g u) (best, false) :
              Except PyErr _) = .ok (b1, f) ∧ Valid g b1 ∧
            ((f = true ∧ b1.1 = N + 1) ∨
              (f = false ∧ b1 = best ∧ ∀ Q, Q ⊆ c → u ∈ Q → Clq g Q → size + Q.card ≤ N)) := by
          by_cases he : c.erase u ∩ nb g u = ∅
          · rw [if_pos he]
            obtain ⟨l1, l2, l3⟩ := leaf_valid hb hchild (size := size + 1) (by simp [hsize])
            refine ⟨_, _, rfl, l1, ?_⟩
            by_cases hlt : best.1 < size + 1
            · refine Or.inl ⟨by simp [hlt], ?_⟩
              rw [leaf, if_pos hlt]
              have := hbd (used ++ [u]).toFinset (by
                rw [toFinset_snoc]
                intro v hv
                rcases Finset.mem_insert.1 hv with rfl | hv
                · exact Finset.mem_union_right _ h3
                · exact Finset.mem_union_left _ hv) hchild.clique
              rw [List.toFinset_card_of_nodup hchild.nodup, List.length_append, ← hsize] at this
              simp at this
              dsimp only
              omega
            · refine Or.inr ⟨by simp [hlt], by rw [leaf, if_neg hlt], ?_⟩
              intro Q hQ hu hcl
              have := Finset.card_le_card (sub_child hQ hcl hu)
              rw [he, Finset.card_empty, Finset.card_erase_of_mem hu] at this
              omega
          · rw [if_neg he]
            obtain ⟨b1, f, r1, r2, r3⟩ := ih (used ++ [u]) (size + 1) 0 (c.erase u ∩ nb g u) best
              ((Finset.card_le_card Finset.inter_subset_left).trans (by omega)) hchild (by simp [hsize])
              (fun v hv => hsub v (Finset.mem_of_mem_erase (Finset.mem_inter.1 hv).1) |> List.mem_of_mem_drop)
              (fun v hv => hsub' v (Finset.mem_of_mem_erase (Finset.mem_inter.1 hv).1)) hb hN (by
                intro Q hQ hcl
                refine hbd Q ?_ hcl
                intro v hv
                rcases Finset.mem_union.1 (hQ hv) with h | h
                · rw [toFinset_snoc] at h
                  rcases Finset.mem_insert.1 h with rfl | h
                  · exact Finset.mem_union_right _ h3
                  · exact Finset.mem_union_left _ h
                · exact Finset.mem_union_right _ (Finset.mem_of_mem_erase (Finset.mem_inter.1 h).1))
            refine ⟨b1, f, r1, r2, ?_⟩
            rcases r3 with r3 | ⟨r3, r4, r5⟩
            · exact Or.inl r3
            · refine Or.inr ⟨r3, r4, ?_⟩
              intro Q hQ hu hcl
              by_cases hQe : (Q.erase u).Nonempty
              · have := r5 _ (sub_child hQ hcl hu) hQe (hcl.mono (Finset.erase_subset _ _))
                rw [Finset.card_erase_of_mem hu] at this
                omega
              · obtain ⟨w, hw⟩ := Finset.nonempty_iff_ne_empty.2 he
                have := r5 {w} (by simpa using hw) ⟨w, Finset.mem_singleton_self w⟩ (singleton_clq (hchild.ext w hw).1)
                rw [Finset.not_nonempty_iff_eq_empty] at hQe
                have h0 := Finset.card_erase_of_mem hu
                rw [hQe, Finset.card_empty] at h0
                simp at this
                omega
        obtain ⟨b1, f, r1, r2, r3⟩ := hrec
        dsimp only
        rw [hm1]
        dsimp only
        rw [if_neg hprune, r1]
        dsimp only
        rcases r3 with ⟨rfl, r3⟩ | ⟨rfl, rfl, r5⟩
        · exact ⟨b1, true, by simp, r2, Or.inl ⟨rfl, r3⟩⟩
        · obtain ⟨b2, f2, s1, s2, s3⟩ := ih used size (i + 1) (c.erase u) b1 (by omega)
            (hnode.erase (Finset.erase_subset _ _)) hsize (drop_erase h4 h5)
            (fun v hv => hsub' v (Finset.mem_of_mem_erase hv)) hb hN (by
              intro Q hQ hcl
              exact hbd Q (hQ.trans (Finset.union_subset_union_right (Finset.erase_subset _ _))) hcl)
          refine ⟨b2, f2, by simpa using s1, s2, ?_⟩
          rcases s3 with s3 | ⟨s3, s4, s5⟩
          · exact Or.inl s3
          · refine Or.inr ⟨s3, s4, ?_⟩
            intro Q hQ hne hcl
            by_cases hu : u ∈ Q
            · exact r5 Q hQ hu hcl
            · exact s5 Q (fun v hv => Finset.mem_erase.2 ⟨by rintro rfl; exact hu hv, hQ hv⟩) hne hcl
    · rw [if_neg hcond]
      refine ⟨best, false, rfl, hb, Or.inr ⟨rfl, rfl, ?_⟩⟩
      intro Q hQ hne hcl
      have hce : c ≠ ∅ := by
        rintro rfl
        obtain ⟨v, hv⟩ := hne
        exact absurd (hQ hv) (by simp)
      have h1 : ¬ best.1 < size + c.card := fun h => hcond ⟨hce, h⟩
      have := Finset.card_le_card hQ
      omega

theorem mem_drop_cons {vs : List V} {i : ℕ} (hi : i < vs.length) : vs.drop i = vs[i] :: vs.drop (i + 1) :=
  List.drop_eq_getElem_cons hi

theorem ostergardOuter_spec {g : Graph V W} (hg : Good g) (hloop : ∀ v, ¬ E g v v) {vs : List V} (hnd : vs.Nodup)
    (hmem : ∀ v ∈ vs, Mem g v) (i : ℕ) : ∀ (largest : List ℕ) (best : ℕ × List V), i ≤ vs.length →
    largest.length = vs.length →
    (∀ j, i ≤ j → j < vs.length → ∃ m, largest[j]? = some m ∧ ∀ Q, (∀ v ∈ Q, v ∈ vs.drop j) → Clq g Q → Q.card ≤ m) →
    Valid g best → (∀ Q, (∀ v ∈ Q, v ∈ vs.drop i) → Clq g Q → Q.card ≤ best.1) →
    ∃ best', ostergardOuter g vs (List.range i).reverse largest best = .ok best' ∧ Valid g best' ∧
      ∀ Q, (∀ v ∈ Q, v ∈ vs) → Clq g Q → Q.card ≤ best'.1 := by
  induction i with
  | zero =>
    intro largest best _ _ _ hb h
    exact ⟨best, rfl, hb, fun Q hQ => h Q (by simpa using hQ)⟩
  | succ i ih =>
    intro largest best hi hlen hlar hb hbest
    have hi' : i < vs.length := hi
    rw [List.range_succ, List.reverse_append, List.reverse_singleton, List.singleton_append, ostergardOuter,
      List.getElem?_eq_getElem hi']
    dsimp only
    have hdrop := mem_drop_cons hi'
    generalize hu : vs[i] = u at hdrop
    have huvs : u ∈ vs := hu ▸ List.getElem_mem hi'
    have hnotin : u ∉ vs.drop (i + 1) := by
      have h3 : (vs.drop i).Nodup := hnd.sublist (List.drop_sublist i vs)
      rw [hdrop, List.nodup_cons] at h3
      exact h3.1
    have hc1 : ∀ v ∈ (vs.drop i).toFinset ∩ nb g u, v ∈ vs.drop (i + 1) ∧ v ≠ u ∧ E g u v := by
      intro v hv
      rw [Finset.mem_inter, List.mem_toFinset, hdrop, List.mem_cons, mem_nb] at hv
      have hne : v ≠ u := by rintro rfl; exact hloop v hv.2
      rcases hv.1 with h | h
      · exact absurd h hne
      · exact ⟨h, hne, hv.2⟩
    have hnode : Node g [u] ((vs.drop i).toFinset ∩ nb g u) := by
      refine ⟨by simp, ?_, ?_⟩
      · have : [u].toFinset = {u} := by simp
        rw [this]; exact singleton_clq (hmem u huvs)
      · intro v hv
        obtain ⟨h1, h2, h3⟩ := hc1 v hv
        exact ⟨E_mem hg h3, by simpa using h2, by simpa using h3⟩
    have hplus : ∀ Q, (∀ v ∈ Q, v ∈ vs.drop i) → Clq g Q → Q.card ≤ best.1 + 1 := by
      intro Q hQ hcl
      have h1 := hbest (Q.erase u) (by
        intro v hv
        rw [Finset.mem_erase] at hv
        have := hQ v hv.2
        rw [hdrop] at this
        exact (List.mem_cons.1 this).resolve_left hv.1) (hcl.mono (Finset.erase_subset _ _))
      have h2 : Q.card - 1 ≤ (Q.erase u).card := Finset.pred_card_le_card_erase
      omega
    have hstep : ∃ b1 f, (if (vs.drop i).toFinset ∩ nb g u = ∅ then .ok (leaf best 1 [u], decide (best.1 < 1))
        else ostergardLoop g vs largest vs.length [u] 1 0 ((vs.drop i).toFinset ∩ nb g u) (best, false) : Except PyErr _) =
          .ok (b1, f) ∧ Valid g b1 ∧ ∀ Q, (∀ v ∈ Q, v ∈ vs.drop i) → Clq g Q → Q.card ≤ b1.1 := by
      by_cases he : (vs.drop i).toFinset ∩ nb g u = ∅
      · rw [if_pos he]
        obtain ⟨l1, l2, l3⟩ := leaf_valid hb hnode (size := 1) (by simp)
        refine ⟨_, _, rfl, l1, ?_⟩
        intro Q hQ hcl
        by_cases huQ : u ∈ Q
        · have hs := sub_child (c := (vs.drop i).toFinset) (fun v hv => List.mem_toFinset.2 (hQ v hv)) hcl huQ
          have hs' : Q.erase u ⊆ ∅ := by
            rw [← he]
            exact hs.trans (Finset.inter_subset_inter_right (Finset.erase_subset _ _))
          have := Finset.card_le_card hs'
          rw [Finset.card_empty, Finset.card_erase_of_mem huQ] at this
          omega
        · refine (hbest Q ?_ hcl).trans l2
          intro v hv
          have := hQ v hv
          rw [hdrop] at this
          exact (List.mem_cons.1 this).resolve_left (by rintro rfl; exact huQ hv)
      · rw [if_neg he]
        obtain ⟨b1, f, r1, r2, r3⟩ := ostergardLoop_spec hg hnd (lo := i + 1) (N := best.1) hlar vs.length [u] 1 0
          ((vs.drop i).toFinset ∩ nb g u) best
          ((Finset.card_le_card Finset.inter_subset_left).trans ((List.toFinset_card_le _).trans (by simp))) hnode rfl
          (fun v hv => List.mem_of_mem_drop (hc1 v hv).1) (fun v hv => (hc1 v hv).1) hb rfl (by
            intro Q hQ hcl
            refine hplus Q ?_ hcl
            intro v hv
            rcases Finset.mem_union.1 (hQ hv) with h | h
            · rw [hdrop]; simp at h; rw [h]; exact List.mem_cons_self
            · exact List.mem_toFinset.1 (Finset.mem_inter.1 h).1)
        refine ⟨b1, f, r1, r2, ?_⟩
        rcases r3 with ⟨-, r3⟩ | ⟨-, rfl, r5⟩
        · rw [r3]; exact hplus
        · intro Q hQ hcl
          by_cases huQ : u ∈ Q
          · have hs := sub_child (c := (vs.drop i).toFinset) (fun v hv => List.mem_toFinset.2 (hQ v hv)) hcl huQ
            have hs' : Q.erase u ⊆ (vs.drop i).toFinset ∩ nb g u :=
              hs.trans (Finset.inter_subset_inter_right (Finset.erase_subset _ _))
            by_cases hQe : (Q.erase u).Nonempty
            · have := r5 _ hs' hQe (hcl.mono (Finset.erase_subset _ _))
              rw [Finset.card_erase_of_mem huQ] at this
              omega
            · obtain ⟨w, hw⟩ := Finset.nonempty_iff_ne_empty.2 he
              have := r5 {w} (by simpa using hw) ⟨w, Finset.mem_singleton_self w⟩ (singleton_clq (hnode.ext w hw).1)
              rw [Finset.not_nonempty_iff_eq_empty] at hQe
              have h0 := Finset.card_erase_of_mem huQ
              rw [hQe, Finset.card_empty] at h0
              simp at this
              omega
          · refine hbest Q ?_ hcl
            intro v hv
            have := hQ v hv
            rw [hdrop] at this
            exact (List.mem_cons.1 this).resolve_left (by rintro rfl; exact huQ hv)
    obtain ⟨b1, f, r1, r2, r3⟩ := hstep
    obtain ⟨b2, s1, s2, s3⟩ := ih (largest.set i b1.1) b1 (by omega) (by rw [List.length_set, hlen]) (by
      intro j hj hjl
      by_cases hij : i = j
      · subst hij
        exact ⟨b1.1, by rw [List.getElem?_set_self (by omega)], r3⟩
      · rw [List.getElem?_set_ne hij]
        exact hlar j (by omega) hjl) r2 r3
    refine ⟨b2, ?_, s2, s3⟩
    rw [r1]
    exact s1

end Rosemary.Cliques
