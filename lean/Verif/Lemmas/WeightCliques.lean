import Verif.Lemmas.MaxCliques
import Mathlib.Tactic.Linarith

/-!
# Lemmas on the search for maximum weight cliques
-/

namespace Rosemary.Cliques

open Rosemary.Graph Rosemary.Spec
open Rosemary.Traversal (E)

variable {V W : Type} [DecidableEq V]

/-- A clique that was found, with its weight. -/
def ValidW (g : Graph V W) (wt : V → ℤ) (best : ℤ × List V) : Prop :=
  best.2.Nodup ∧ Clq g best.2.toFinset ∧ best.1 = ∑ v ∈ best.2.toFinset, wt v

theorem leaf_validW {g : Graph V W} {wt : V → ℤ} {best : ℤ × List V} (hb : ValidW g wt best) {used : List V}
    {c : Finset V} (h : Node g used c) {weight : ℤ} (hs : weight = ∑ v ∈ used.toFinset, wt v) :
    ValidW g wt (leaf best weight used) ∧ best.1 ≤ (leaf best weight used).1 ∧ weight ≤ (leaf best weight used).1 := by
  rw [leaf]
  split
  · exact ⟨⟨h.nodup, h.clique, hs⟩, by dsimp only; omega, le_rfl⟩
  · exact ⟨hb, le_rfl, by omega⟩

theorem sum_snoc (wt : V → ℤ) {used : List V} {u : V} (hu : u ∉ used.toFinset) :
    ∑ v ∈ (used ++ [u]).toFinset, wt v = ∑ v ∈ used.toFinset, wt v + wt u := by
  rw [toFinset_snoc, Finset.sum_insert hu, add_comm]

theorem sum_erase' (wt : V → ℤ) {Q : Finset V} {u : V} (hu : u ∈ Q) : ∑ v ∈ Q, wt v = wt u + ∑ v ∈ Q.erase u, wt v := by
  rw [Finset.add_sum_erase Q wt hu]

theorem weightLoop_spec {g : Graph V W} (hg : Good g) {wt : V → ℤ} (hwt : ∀ v, Mem g v → 0 ≤ wt v) {vs : List V}
    (hnd : vs.Nodup) {largest : List ℤ} {lo : ℕ}
    (hlar : ∀ i, lo ≤ i → i < vs.length → ∃ m, largest[i]? = some m ∧
      ∀ Q, (∀ v ∈ Q, v ∈ vs.drop i) → Clq g Q → ∑ v ∈ Q, wt v ≤ m)
    (n : ℕ) : ∀ (used : List V) (weight : ℤ) (last : ℕ) (cw : ℤ)
    (c : Finset V) (best : ℤ × List V), c.card ≤ n → Node g used c → weight = ∑ v ∈ used.toFinset, wt v →
    cw = ∑ v ∈ c, wt v → (∀ v ∈ c, v ∈ vs.drop last) → (∀ v ∈ c, v ∈ vs.drop lo) → ValidW g wt best →
    ∃ best', weightLoop g wt vs largest n used weight last cw c best = .ok best' ∧ ValidW g wt best' ∧ best.1 ≤ best'.1 ∧
      ∀ Q, Q ⊆ c → Q.Nonempty → Clq g Q → weight + ∑ v ∈ Q, wt v ≤ best'.1 := by
  induction n with
  | zero =>
    intro used weight last cw c best hc _ _ _ _ _ hb
    refine ⟨best, rfl, hb, le_rfl, ?_⟩
    rintro Q hQ ⟨v, hv⟩
    have : c = ∅ := Finset.card_eq_zero.1 (by omega)
    exact absurd (hQ hv) (by simp [this])
  | succ n ih =>
    intro used weight last cw c best hc hnode hweight hcw hsub hsub' hb
    rw [weightLoop]
    by_cases hce : c = ∅
    · rw [if_pos hce]
      refine ⟨best, rfl, hb, le_rfl, ?_⟩
      rintro Q hQ ⟨v, hv⟩
      exact absurd (hQ hv) (by simp [hce])
    · rw [if_neg hce]
      have hpos : ∀ v ∈ c, 0 ≤ wt v := fun v hv => hwt v (hnode.ext v hv).1
      by_cases hcond : weight + cw ≤ best.1
      · rw [if_pos hcond]
        refine ⟨best, rfl, hb, le_rfl, ?_⟩
        intro Q hQ hne hcl
        have := Finset.sum_le_sum_of_subset_of_nonneg hQ (fun v hv _ => hpos v hv)
        omega
      · rw [if_neg hcond]
        obtain ⟨u, i, h1, h2, h3, h4, h5⟩ := scan_spec (Finset.nonempty_iff_ne_empty.2 hce) hsub
        rw [h1]
        have hil : i < vs.length := by
          by_contra hge
          rw [List.drop_eq_nil_of_le (by omega)] at h4
          simp at h4
        obtain ⟨m, hm1, hm2⟩ := hlar i (idx_ge hnd h4 (hsub' u h3)) hil
        dsimp only
        rw [hm1]
        dsimp only
        by_cases hprune : weight + m ≤ best.1
        · rw [if_pos hprune]
          refine ⟨best, rfl, hb, le_rfl, ?_⟩
          intro Q hQ _ hcl
          have := hm2 Q (fun v hv => h5 v (hQ hv)) hcl
          omega
        · rw [if_neg hprune]
          have hcard : (c.erase u).card = c.card - 1 := Finset.card_erase_of_mem h3
          have hchild : Node g (used ++ [u]) (c.erase u ∩ nb g u) := hnode.child hg h3 (by
            intro v hv
            rw [Finset.mem_inter, Finset.mem_erase] at hv
            exact ⟨hv.1.2, hv.1.1, hv.2⟩)
          have hweight' : weight + wt u = ∑ v ∈ (used ++ [u]).toFinset, wt v := by
            rw [sum_snoc wt (hnode.ext u h3).2.1, hweight]
          have hrec : ∃ b1, (if c.erase u ∩ nb g u = ∅ then .ok (leaf best (weight + wt u) (used ++ [u]))
              else weightLoop g wt vs largest n (used ++ [u]) (weight + wt u) 0 (∑ v ∈ c.erase u ∩ nb g u, wt v)
                (c.erase u ∩ nb g u) best : Except PyErr _) = .ok b1 ∧
              ValidW g wt b1 ∧ best.1 ≤ b1.1 ∧
              ∀ Q, Q ⊆ c → u ∈ Q → Clq g Q → weight + ∑ v ∈ Q, wt v ≤ b1.1 := by
            by_cases he : c.erase u ∩ nb g u = ∅
            · rw [if_pos he]
              obtain ⟨l1, l2, l3⟩ := leaf_validW hb hchild hweight'
              refine ⟨_, rfl, l1, l2, ?_⟩
              intro Q hQ hu hcl
              have hs := sub_child hQ hcl hu
              rw [he, Finset.subset_empty] at hs
              rw [sum_erase' wt hu, hs, Finset.sum_empty]
              linarith
            · rw [if_neg he]
              obtain ⟨b1, r1, r2, r3, r4⟩ := ih (used ++ [u]) (weight + wt u) 0 _ (c.erase u ∩ nb g u) best
                ((Finset.card_le_card Finset.inter_subset_left).trans (by omega)) hchild hweight' rfl
                (fun v hv => hsub v (Finset.mem_of_mem_erase (Finset.mem_inter.1 hv).1) |> List.mem_of_mem_drop)
                (fun v hv => hsub' v (Finset.mem_of_mem_erase (Finset.mem_inter.1 hv).1)) hb
              refine ⟨b1, r1, r2, r3, ?_⟩
              intro Q hQ hu hcl
              rw [sum_erase' wt hu]
              by_cases hQe : (Q.erase u).Nonempty
              · have := r4 _ (sub_child hQ hcl hu) hQe (hcl.mono (Finset.erase_subset _ _))
                linarith
              · obtain ⟨w, hw⟩ := Finset.nonempty_iff_ne_empty.2 he
                have hwm := (hchild.ext w hw).1
                have := r4 {w} (by simpa using hw) ⟨w, Finset.mem_singleton_self w⟩ (singleton_clq hwm)
                rw [Finset.not_nonempty_iff_eq_empty] at hQe
                rw [hQe, Finset.sum_empty]
                rw [Finset.sum_singleton] at this
                have := hwt w hwm
                linarith
          obtain ⟨b1, r1, r2, r3, r4⟩ := hrec
          obtain ⟨b2, s1, s2, s3, s4⟩ := ih used weight (i + 1) (cw - wt u) (c.erase u) b1 (by omega)
            (hnode.erase (Finset.erase_subset _ _)) hweight (by rw [hcw, sum_erase' wt h3]; ring)
            (drop_erase h4 h5) (fun v hv => hsub' v (Finset.mem_of_mem_erase hv)) r2
          refine ⟨b2, ?_, s2, r3.trans s3, ?_⟩
          · rw [r1]; exact s1
          · intro Q hQ hne hcl
            by_cases hu : u ∈ Q
            · exact (r4 Q hQ hu hcl).trans s3
            · exact s4 Q (fun v hv => Finset.mem_erase.2 ⟨by rintro rfl; exact hu hv, hQ hv⟩) hne hcl

theorem weightOuter_spec {g : Graph V W} (hg : Good g) (hloop : ∀ v, ¬ E g v v) {wt : V → ℤ}
    (hwt : ∀ v, Mem g v → 0 ≤ wt v) {vs : List V} (hnd : vs.Nodup)
    (hmem : ∀ v ∈ vs, Mem g v) (i : ℕ) : ∀ (largest : List ℤ) (best : ℤ × List V), i ≤ vs.length →
    largest.length = vs.length →
    (∀ j, i ≤ j → j < vs.length → ∃ m, largest[j]? = some m ∧
      ∀ Q, (∀ v ∈ Q, v ∈ vs.drop j) → Clq g Q → ∑ v ∈ Q, wt v ≤ m) →
    ValidW g wt best → (∀ Q, (∀ v ∈ Q, v ∈ vs.drop i) → Clq g Q → ∑ v ∈ Q, wt v ≤ best.1) →
    ∃ best', weightOuter g wt vs (List.range i).reverse largest best = .ok best' ∧ ValidW g wt best' ∧
      ∀ Q, (∀ v ∈ Q, v ∈ vs) → Clq g Q → ∑ v ∈ Q, wt v ≤ best'.1 := by
  induction i with
  | zero =>
    intro largest best _ _ _ hb h
    exact ⟨best, rfl, hb, fun Q hQ => h Q (by simpa using hQ)⟩
  | succ i ih =>
    intro largest best hi hlen hlar hb hbest
    have hi' : i < vs.length := hi
    rw [List.range_succ, List.reverse_append, List.reverse_singleton, List.singleton_append, weightOuter,
      List.getElem?_eq_getElem hi']
    dsimp only
    have hdrop := mem_drop_cons hi'
    generalize hu : vs[i] = u at hdrop
    have huvs : u ∈ vs := hu ▸ List.getElem_mem hi'
    have hc1 : ∀ v ∈ (vs.drop i).toFinset ∩ nb g u, v ∈ vs.drop (i + 1) ∧ v ≠ u ∧ E g u v := by
      intro v hv
      rw [Finset.mem_inter, List.mem_toFinset, hdrop, List.mem_cons, mem_nb] at hv
      have hne : v ≠ u := by rintro rfl; exact hloop v hv.2
      rcases hv.1 with h | h
      · exact absurd h hne
      · exact ⟨h, hne, hv.2⟩
    have hone : [u].toFinset = {u} := by simp
    have hnode : Node g [u] ((vs.drop i).toFinset ∩ nb g u) := by
      refine ⟨by simp, ?_, ?_⟩
      · rw [hone]; exact singleton_clq (hmem u huvs)
      · intro v hv
        obtain ⟨h1, h2, h3⟩ := hc1 v hv
        exact ⟨E_mem hg h3, by simpa using h2, by simpa using h3⟩
    have hrest : ∀ Q : Finset V, (∀ v ∈ Q, v ∈ vs.drop i) → u ∉ Q → ∀ v ∈ Q, v ∈ vs.drop (i + 1) := by
      intro Q hQ huQ v hv
      have := hQ v hv
      rw [hdrop] at this
      exact (List.mem_cons.1 this).resolve_left (by rintro rfl; exact huQ hv)
    have hw1 : wt u = ∑ v ∈ [u].toFinset, wt v := by rw [hone, Finset.sum_singleton]
    have hstep : ∃ b1, (if (vs.drop i).toFinset ∩ nb g u = ∅ then .ok (leaf best (wt u) [u])
        else weightLoop g wt vs largest vs.length [u] (wt u) 0 (∑ v ∈ (vs.drop i).toFinset ∩ nb g u, wt v)
          ((vs.drop i).toFinset ∩ nb g u) best : Except PyErr _) =
          .ok b1 ∧ ValidW g wt b1 ∧ ∀ Q, (∀ v ∈ Q, v ∈ vs.drop i) → Clq g Q → ∑ v ∈ Q, wt v ≤ b1.1 := by
      by_cases he : (vs.drop i).toFinset ∩ nb g u = ∅
      · rw [if_pos he]
        obtain ⟨l1, l2, l3⟩ := leaf_validW hb hnode hw1
        refine ⟨_, rfl, l1, ?_⟩
        intro Q hQ hcl
        by_cases huQ : u ∈ Q
        · have hs := sub_child (c := (vs.drop i).toFinset) (fun v hv => List.mem_toFinset.2 (hQ v hv)) hcl huQ
          have hs' : Q.erase u ⊆ ∅ := by
            rw [← he]
            exact hs.trans (Finset.inter_subset_inter_right (Finset.erase_subset _ _))
          rw [sum_erase' wt huQ, Finset.subset_empty.1 hs', Finset.sum_empty, add_zero]
          exact l3
        · exact (hbest Q (hrest Q hQ huQ) hcl).trans l2
      · rw [if_neg he]
        obtain ⟨b1, r1, r2, r3, r4⟩ := weightLoop_spec hg hwt hnd (lo := i + 1) hlar vs.length [u] (wt u) 0
          (∑ v ∈ (vs.drop i).toFinset ∩ nb g u, wt v) ((vs.drop i).toFinset ∩ nb g u) best
          ((Finset.card_le_card Finset.inter_subset_left).trans ((List.toFinset_card_le _).trans (by simp))) hnode hw1 rfl
          (fun v hv => List.mem_of_mem_drop (hc1 v hv).1) (fun v hv => (hc1 v hv).1) hb
        refine ⟨b1, r1, r2, ?_⟩
        intro Q hQ hcl
        by_cases huQ : u ∈ Q
        · have hs := sub_child (c := (vs.drop i).toFinset) (fun v hv => List.mem_toFinset.2 (hQ v hv)) hcl huQ
          have hs' : Q.erase u ⊆ (vs.drop i).toFinset ∩ nb g u :=
            hs.trans (Finset.inter_subset_inter_right (Finset.erase_subset _ _))
          rw [sum_erase' wt huQ]
          by_cases hQe : (Q.erase u).Nonempty
          · exact r4 _ hs' hQe (hcl.mono (Finset.erase_subset _ _))
          · obtain ⟨w, hw⟩ := Finset.nonempty_iff_ne_empty.2 he
            have hwm := (hnode.ext w hw).1
            have := r4 {w} (by simpa using hw) ⟨w, Finset.mem_singleton_self w⟩ (singleton_clq hwm)
            rw [Finset.not_nonempty_iff_eq_empty] at hQe
            rw [hQe, Finset.sum_empty]
            rw [Finset.sum_singleton] at this
            have := hwt w hwm
            linarith
        · exact (hbest Q (hrest Q hQ huQ) hcl).trans r3
    obtain ⟨b1, r1, r2, r3⟩ := hstep
    obtain ⟨b2, s1, s2, s3⟩ := ih (largest.set i b1.1) b1 (by omega) (by rw [List.length_set, hlen]) (by
      intro j hj hjl
      by_cases hij : i = j
      · subst hij
        exact ⟨b1.1, by rw [List.getElem?_set_self (by omega)], r3⟩
      · rw [List.getElem?_set_ne hij]
        exact hlar j (by omega) hjl) r2 r3
    refine ⟨b2, ?_, s2, s3⟩
    rw [r1]
    exact s1

end Rosemary.Cliques
