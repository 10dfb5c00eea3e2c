import Verif.Lemmas.MaxCliques
import Verif.Model.IndependentSets

/-!
# Lemmas on independent sets
-/

namespace Rosemary.IndependentSets

open Rosemary.Graph Rosemary.Spec Rosemary.Cliques
open Rosemary.Traversal (E)

variable {V W : Type} [DecidableEq V]

/-- The independent sets of the graph. -/
abbrev Ind (g : Graph V W) (C : Finset V) : Prop := IsIndependent {v | Mem g v} (E g) C

theorem Ind.mono {g : Graph V W} {C D : Finset V} (h : Ind g D) (hs : C ⊆ D) : Ind g C :=
  ⟨fun v hv => h.1 v (hs hv), fun u hu v hv => h.2 u (hs hu) v (hs hv)⟩

/-- What is known about the current set and the allowed vertices. -/
structure Node (g : Graph V W) (used : List V) (c : Finset V) : Prop where
  nodup : used.Nodup
  ind : Ind g used.toFinset
  ext : ∀ v ∈ c, Mem g v ∧ v ∉ used ∧ ∀ u ∈ used, ¬ E g u v

theorem Node.child {g : Graph V W} (hg : Good g) {used : List V} {c : Finset V} (h : Node g used c) {u : V} (hu : u ∈ c) :
    Node g (used ++ [u]) (c.erase u \ nb g u) := by
  obtain ⟨u1, u2, u3⟩ := h.ext u hu
  refine ⟨?_, ?_, ?_⟩
  · rw [List.nodup_append]
    refine ⟨h.nodup, by simp, ?_⟩
    intro a ha b hb
    rw [List.mem_singleton.1 hb]
    rintro rfl; exact u2 ha
  · rw [toFinset_snoc]
    refine ⟨?_, ?_⟩
    · intro v hv
      rcases Finset.mem_insert.1 hv with rfl | hv
      · exact u1
      · exact h.ind.1 v hv
    · intro a ha b hb hne
      rcases Finset.mem_insert.1 ha with rfl | ha' <;> rcases Finset.mem_insert.1 hb with rfl | hb'
      · exact absurd rfl hne
      · exact fun he => u3 b (List.mem_toFinset.1 hb') ((E_symm hg).1 he)
      · exact u3 a (List.mem_toFinset.1 ha')
      · exact h.ind.2 a ha' b hb' hne
  · intro v hv
    rw [Finset.mem_sdiff, Finset.mem_erase, mem_nb] at hv
    obtain ⟨v1, v2, v3⟩ := h.ext v hv.1.2
    refine ⟨v1, ?_, ?_⟩
    · rw [List.mem_append, not_or, List.mem_singleton]; exact ⟨v2, hv.1.1⟩
    · intro w hw
      rcases List.mem_append.1 hw with hw | hw
      · exact v3 w hw
      · rw [List.mem_singleton.1 hw]; exact hv.2

theorem Node.erase {g : Graph V W} {used : List V} {c : Finset V} (h : Node g used c) {d : Finset V} (hd : d ⊆ c) :
    Node g used d := ⟨h.nodup, h.ind, fun v hv => h.ext v (hd hv)⟩

/-- A set that was found. -/
def Found (g : Graph V W) (best : ℕ × List V) : Prop :=
  best.2.Nodup ∧ Ind g best.2.toFinset ∧ best.1 = best.2.length

theorem leaf_found {g : Graph V W} {best : ℕ × List V} (hb : Found g best) {used : List V} {c : Finset V}
    (h : Node g used c) {size : ℕ} (hs : size = used.length) :
    Found g (leaf best size used) ∧ best.1 ≤ (leaf best size used).1 ∧ size ≤ (leaf best size used).1 := by
  rw [leaf]
  split
  · exact ⟨⟨h.nodup, h.ind, hs⟩, by omega, le_rfl⟩
  · exact ⟨hb, le_rfl, by omega⟩

theorem bbLoop_spec {g : Graph V W} (hg : Good g) (vs : List V) (n : ℕ) : ∀ (used : List V) (size last : ℕ)
    (c : Finset V) (best : ℕ × List V), c.card ≤ n → Node g used c → size = used.length →
    (∀ v ∈ c, v ∈ vs.drop last) → Found g best → size ≤ best.1 →
    ∃ best', bbLoop g vs n used size last c best = .ok best' ∧ Found g best' ∧ best.1 ≤ best'.1 ∧
      ∀ Q, Q ⊆ c → Ind g Q → size + Q.card ≤ best'.1 := by
  induction n with
  | zero =>
    intro used size last c best hc _ _ _ hb hs
    refine ⟨best, rfl, hb, le_rfl, ?_⟩
    intro Q hQ _
    have := Finset.card_le_card hQ
    omega
  | succ n ih =>
    intro used size last c best hc hnode hsize hsub hb hs
    rw [bbLoop]
    by_cases hcond : c ≠ ∅ ∧ best.1 < size + c.card
    · rw [if_pos hcond]
      obtain ⟨u, i, h1, h2, h3, h4, h5⟩ := scan_spec (Finset.nonempty_iff_ne_empty.2 hcond.1) hsub
      rw [h1]
      have hcard : (c.erase u).card = c.card - 1 := Finset.card_erase_of_mem h3
      have hchild := hnode.child hg h3
      obtain ⟨l1, l2, l3⟩ := leaf_found hb hchild (size := size + 1) (by simp [hsize])
      obtain ⟨b1, r1, r2, r3, r4⟩ := ih (used ++ [u]) (size + 1) i (c.erase u \ nb g u) _
        ((Finset.card_le_card Finset.sdiff_subset).trans (by omega)) hchild (by simp [hsize])
        (fun v hv => h5 v (Finset.mem_of_mem_erase (Finset.mem_sdiff.1 hv).1)) l1 l3
      obtain ⟨b2, s1, s2, s3, s4⟩ := ih used size (i + 1) (c.erase u) b1 (by omega)
        (hnode.erase (Finset.erase_subset _ _)) hsize (drop_erase h4 h5) r2 (by omega)
      refine ⟨b2, ?_, s2, l2.trans (r3.trans s3), ?_⟩
      · dsimp only
        rw [r1]; exact s1
      · intro Q hQ hi
        by_cases hu : u ∈ Q
        · have := r4 (Q.erase u) (by
            intro v hv
            rw [Finset.mem_erase] at hv
            rw [Finset.mem_sdiff, Finset.mem_erase, mem_nb]
            exact ⟨⟨hv.1, hQ hv.2⟩, hi.2 u hu v hv.2 (Ne.symm hv.1)⟩) (hi.mono (Finset.erase_subset _ _))
          have h0 := Finset.card_erase_of_mem hu
          have h1 : 0 < Q.card := Finset.card_pos.2 ⟨u, hu⟩
          omega
        · exact s4 Q (fun v hv => Finset.mem_erase.2 ⟨by rintro rfl; exact hu hv, hQ hv⟩) hi
    · rw [if_neg hcond]
      refine ⟨best, rfl, hb, le_rfl, ?_⟩
      intro Q hQ _
      have := Finset.card_le_card hQ
      by_cases hce : c = ∅
      · rw [hce, Finset.card_empty] at this
        omega
      · have h1 : ¬ best.1 < size + c.card := fun h => hcond ⟨hce, h⟩
        omega

theorem start_node {g : Graph V W} {c : Finset V} (h : ∀ v ∈ c, Mem g v) : Node g [] c :=
  ⟨List.nodup_nil, ⟨by simp, by simp⟩, fun v hv => ⟨h v hv, by simp, by simp⟩⟩

/-! ## `greedy` -/

theorem degreeOf_eq {g : Graph V W} {u : V} (h : Mem g u) : degreeOf g u = (nbrs g u).length := by
  rw [degreeOf, degree_eq h]

theorem minDegree_fold (g : Graph V W) (l : List V) : ∀ m, (∀ u ∈ l, degreeOf g u ≤ m) →
    l ≠ [] → ∃ u ∈ l, degreeOf g u = l.foldl (fun m u => if degreeOf g u < m then degreeOf g u else m) m := by
  have aux : ∀ (l : List V) (m : ℕ), l.foldl (fun m u => if degreeOf g u < m then degreeOf g u else m) m = m ∨
      ∃ u ∈ l, degreeOf g u = l.foldl (fun m u => if degreeOf g u < m then degreeOf g u else m) m := by
    intro l
    induction l with
    | nil => intro m; exact Or.inl rfl
    | cons a l ih =>
      intro m
      rw [List.foldl_cons]
      rcases ih (if degreeOf g a < m then degreeOf g a else m) with h | ⟨u, hu, h⟩
      · by_cases hlt : degreeOf g a < m
        · rw [if_pos hlt] at h ⊢
          exact Or.inr ⟨a, List.mem_cons_self, h.symm⟩
        · rw [if_neg hlt] at h ⊢
          exact Or.inl h
      · exact Or.inr ⟨u, List.mem_cons_of_mem _ hu, h⟩
  have mono : ∀ (l : List V) (m : ℕ), l.foldl (fun m u => if degreeOf g u < m then degreeOf g u else m) m ≤ m ∧
      ∀ u ∈ l, l.foldl (fun m u => if degreeOf g u < m then degreeOf g u else m) m ≤ degreeOf g u := by
    intro l
    induction l with
    | nil => intro m; simp
    | cons a l ih =>
      intro m
      rw [List.foldl_cons]
      obtain ⟨h1, h2⟩ := ih (if degreeOf g a < m then degreeOf g a else m)
      refine ⟨h1.trans (by split <;> omega), ?_⟩
      intro u hu
      rcases List.mem_cons.1 hu with rfl | hu
      · exact h1.trans (by split <;> omega)
      · exact h2 u hu
  intro m hle hne
  rcases aux l m with h | h
  · obtain ⟨u, hu⟩ := List.exists_mem_of_ne_nil l hne
    have h1 := (mono l m).2 u hu
    have h2 := hle u hu
    exact ⟨u, hu, by omega⟩
  · exact h

theorem greedyLoop_spec {ord : Finset V → List V} (hord : ∀ S, (ord S).Nodup ∧ ∀ x, x ∈ ord S ↔ x ∈ S)
    {pick : List V → List V → V} (hpick : ∀ acc l, l ≠ [] → pick acc l ∈ l) {g0 : Graph V W} (hg0 : Good g0) (n : ℕ) :
    ∀ (acc : List V) (g : Graph V W), Good g → (vertexSet g).card ≤ n → acc.Nodup → Ind g0 acc.toFinset →
    (∀ v, Mem g v ↔ Mem g0 v ∧ v ∉ acc ∧ ∀ u ∈ acc, ¬ E g0 u v) →
    (∀ u v, E g u v ↔ Mem g u ∧ Mem g v ∧ E g0 u v) →
    ∃ l, greedyLoop ord pick n acc g = .ok l ∧ l.Nodup ∧ IsMaximalIndependent {v | Mem g0 v} (E g0) l.toFinset := by
  have hdone : ∀ (acc : List V) (g : Graph V W), vertexSet g = ∅ → Ind g0 acc.toFinset →
      (∀ v, Mem g v ↔ Mem g0 v ∧ v ∉ acc ∧ ∀ u ∈ acc, ¬ E g0 u v) →
      IsMaximalIndependent {v | Mem g0 v} (E g0) acc.toFinset := by
    intro acc g he hi hm
    refine ⟨hi, fun D hD hs => ?_⟩
    refine (Finset.Subset.antisymm hs ?_).symm
    intro v hv
    by_contra hc
    have hv' : v ∉ acc := fun h => hc (List.mem_toFinset.2 h)
    have : Mem g v := (hm v).2 ⟨hD.1 v hv, hv', fun u hu => hD.2 u (hs (List.mem_toFinset.2 hu)) v hv
      (by rintro rfl; exact hv' hu)⟩
    have := Graph.mem_vertexSet.2 this
    rw [he] at this; simp at this
  induction n with
  | zero =>
    intro acc g hg hc hnd hi hm _
    exact ⟨acc, rfl, hnd, hdone acc g (Finset.card_eq_zero.1 (by omega)) hi hm⟩
  | succ n ih =>
    intro acc g hg hc hnd hi hm hE
    rw [greedyLoop]
    by_cases he : vertexSet g = ∅
    · rw [if_pos he]
      exact ⟨acc, rfl, hnd, hdone acc g he hi hm⟩
    · rw [if_neg he]
      dsimp only
      have hex : ∃ u ∈ ord (vertexSet g), degreeOf g u = minDegree g (vertexSet g) (ord (vertexSet g)) := by
        refine minDegree_fold g _ _ ?_ ?_
        · intro u hu
          have hu' := Graph.mem_vertexSet.1 (((hord _).2 u).1 hu)
          rw [degreeOf_eq hu', ← List.toFinset_card_of_nodup (nodup_nbrs hg u)]
          refine Finset.card_le_card ?_
          intro v hv
          exact Graph.mem_vertexSet.2 (E_mem hg (List.mem_toFinset.1 hv))
        · intro hn
          obtain ⟨v, hv⟩ := Finset.nonempty_iff_ne_empty.2 he
          have := ((hord _).2 v).2 hv
          rw [hn] at this; simp at this
      have hcne : (ord (vertexSet g)).filter
          (fun u => degreeOf g u = minDegree g (vertexSet g) (ord (vertexSet g))) ≠ [] := by
        obtain ⟨u, hu, hd⟩ := hex
        exact List.ne_nil_of_mem (List.mem_filter.2 ⟨hu, by simpa using hd⟩)
      rw [if_neg hcne]
      have hv := hpick acc _ hcne
      generalize pick acc _ = v at hv
      have hvg : Mem g v := Graph.mem_vertexSet.1 (((hord _).2 v).1 (List.mem_filter.1 hv).1)
      obtain ⟨v1, v2, v3⟩ := (hm v).1 hvg
      have hg1 := hg.deleteVertex v
      have hmem' : ∀ x, Mem (deleteVertices (deleteVertex g v) (ord (nb g v))) x ↔ Mem g x ∧ x ≠ v ∧ ¬ E g v x := by
        intro x
        rw [mem_deleteVertices hg1, mem_deleteVertex hg, (hord _).2, mem_nb]
        tauto
      refine ih (acc ++ [v]) _ (hg1.deleteVertices _) ?_ ?_ ?_ ?_ ?_
      · have : (vertexSet (deleteVertices (deleteVertex g v) (ord (nb g v)))).card < (vertexSet g).card := by
          refine Finset.card_lt_card ⟨?_, fun hs => ?_⟩
          · intro x hx
            exact Graph.mem_vertexSet.2 ((hmem' x).1 (Graph.mem_vertexSet.1 hx)).1
          · have := hs (Graph.mem_vertexSet.2 hvg)
            exact ((hmem' v).1 (Graph.mem_vertexSet.1 this)).2.1 rfl
        omega
      · rw [List.nodup_append]
        refine ⟨hnd, by simp, ?_⟩
        intro a ha b hb
        rw [List.mem_singleton.1 hb]
        rintro rfl; exact v2 ha
      · rw [toFinset_snoc]
        refine ⟨?_, ?_⟩
        · intro w hw
          rcases Finset.mem_insert.1 hw with rfl | hw
          · exact v1
          · exact hi.1 w hw
        · intro a ha b hb hne
          rcases Finset.mem_insert.1 ha with rfl | ha' <;> rcases Finset.mem_insert.1 hb with rfl | hb'
          · exact absurd rfl hne
          · exact fun he => v3 b (List.mem_toFinset.1 hb') ((E_symm hg0).1 he)
          · exact v3 a (List.mem_toFinset.1 ha')
          · exact hi.2 a ha' b hb' hne
      · intro x
        rw [hmem', hm]
        simp only [List.mem_append, List.mem_singleton, not_or]
        constructor
        · rintro ⟨⟨h1, h2, h3⟩, h4, h5⟩
          refine ⟨h1, ⟨h2, h4⟩, ?_⟩
          rintro u (hu | rfl)
          · exact h3 u hu
          · intro hux
            exact h5 ((hE u x).2 ⟨hvg, (hm x).2 ⟨h1, h2, h3⟩, hux⟩)
        · rintro ⟨h1, ⟨h2, h4⟩, h3⟩
          refine ⟨⟨h1, h2, fun u hu => h3 u (Or.inl hu)⟩, h4, ?_⟩
          intro hvx
          exact h3 v (Or.inr rfl) ((hE v x).1 hvx).2.2
      · intro a b
        have key : E (deleteVertices (deleteVertex g v) (ord (nb g v))) a b ↔
            (Mem (deleteVertices (deleteVertex g v) (ord (nb g v))) a ∧
              Mem (deleteVertices (deleteVertex g v) (ord (nb g v))) b) ∧ E g a b := by
          rw [hmem', hmem', E, mem_nbrs, adj_deleteVertices hg1, adj_deleteVertex hg]
          constructor
          · rintro ⟨w, hw⟩
            split at hw
            · simp at hw
            · rename_i hn1
              split at hw
              · simp at hw
              · rename_i hn2
                rw [not_or, (hord _).2, (hord _).2, mem_nb, mem_nb] at hn1
                rw [not_or] at hn2
                have hab : E g a b := mem_nbrs.2 ⟨w, hw⟩
                exact ⟨⟨⟨E_mem hg ((E_symm hg).1 hab), hn2.1, hn1.1⟩, E_mem hg hab, hn2.2, hn1.2⟩, hab⟩
          · rintro ⟨⟨⟨a1, a2, a3⟩, b1, b2, b3⟩, hab⟩
            obtain ⟨w, hw⟩ := mem_nbrs.1 hab
            refine ⟨w, ?_⟩
            rw [if_neg, if_neg, hw]
            · rw [not_or]; exact ⟨a2, b2⟩
            · rw [not_or, (hord _).2, (hord _).2, mem_nb, mem_nb]; exact ⟨a3, b3⟩
        rw [key, hE]
        constructor
        · rintro ⟨⟨h1, h2⟩, -, -, h3⟩
          exact ⟨h1, h2, h3⟩
        · rintro ⟨h1, h2, h3⟩
          exact ⟨⟨h1, h2⟩, ((hmem' a).1 h1).1, ((hmem' b).1 h2).1, h3⟩

/-! ## `culberson` -/

theorem swapEnds_perm (l : List V) : (swapEnds l).Perm l := by
  rw [swapEnds]
  cases l with
  | nil => simp
  | cons a t =>
    rcases List.eq_nil_or_concat t with rfl | ⟨m, b, rfl⟩
    · simp
    · rw [List.concat_eq_append]
      have h1 : (a :: (m ++ [b])).getLast? = some b := by
        rw [← List.cons_append, List.getLast?_append]; simp
      rw [h1, List.head?_cons]
      have h2 : ((a :: (m ++ [b])).set 0 b).set ((a :: (m ++ [b])).length - 1) a = b :: (m ++ [a]) := by
        simp
      dsimp only
      rw [h2]
      have e1 : (b :: (m ++ [a])).Perm (b :: a :: m) := (List.perm_append_comm (l₁ := m) (l₂ := [a])).cons b
      have e2 : (a :: (m ++ [b])).Perm (a :: b :: m) := (List.perm_append_comm (l₁ := m) (l₂ := [b])).cons a
      exact e1.trans ((List.Perm.swap a b m).trans e2.symm)

theorem swapEnds_head {l : List V} {b : V} (h : l.getLast? = some b) : (swapEnds l).head? = some b := by
  cases l with
  | nil => simp at h
  | cons a t =>
    rw [swapEnds, h, List.head?_cons]
    dsimp only
    cases t with
    | nil => simp at h; simp [h]
    | cons c t => simp

/-- The results of `indset`. -/
def Res (g : Graph V W) (degree : V → ℕ) (r : ℕ × ℕ × List V) : Prop :=
  r.2.2.Nodup ∧ Ind g r.2.2.toFinset ∧ r.1 = r.2.2.length ∧ r.2.1 = ∑ v ∈ r.2.2.toFinset, degree v

theorem tryLoop_spec {g : Graph V W} {degree : V → ℕ} {sub : V → Except PyErr (ℕ × ℕ × List V)}
    (vs : List V) : ∀ best, (∀ v ∈ vs, ∃ k d s, sub v = .ok (k, d, s) ∧ Res g degree (k + 1, d + degree v, s ++ [v])) →
    Res g degree best → ∃ r, tryLoop degree sub vs best = .ok r ∧ Res g degree r ∧ best.2.1 ≤ r.2.1 ∧
      (∀ v ∈ vs, degree v ≤ r.2.1) ∧ (r = best ∨ 0 < r.2.1) := by
  induction vs with
  | nil => intro best _ hb; exact ⟨best, rfl, hb, le_rfl, by simp, Or.inl rfl⟩
  | cons v vs ih =>
    intro best hs hb
    obtain ⟨k, d, s, h1, h2⟩ := hs v List.mem_cons_self
    rw [tryLoop, h1]
    dsimp only
    by_cases hlt : best.2.1 < d + degree v
    · rw [if_pos hlt]
      obtain ⟨r, r1, r2, r3, r4, r5⟩ := ih _ (fun w hw => hs w (List.mem_cons_of_mem _ hw)) h2
      dsimp only at r3
      refine ⟨r, r1, r2, by omega, ?_, ?_⟩
      · intro w hw
        rcases List.mem_cons.1 hw with rfl | hw
        · omega
        · exact r4 w hw
      · right; omega
    · rw [if_neg hlt]
      obtain ⟨r, r1, r2, r3, r4, r5⟩ := ih best (fun w hw => hs w (List.mem_cons_of_mem _ hw)) hb
      refine ⟨r, r1, r2, r3, ?_, r5⟩
      intro w hw
      rcases List.mem_cons.1 hw with rfl | hw
      · omega
      · exact r4 w hw

theorem degreeOrder_perm (g : Graph V W) : (degreeOrder g).Perm (Dict.keys g) := by
  rw [degreeOrder]
  refine ((pySort_perm _ _).map _).trans ?_
  rw [List.map_map]
  exact List.Perm.refl _

theorem removeClosed_spec {ord : Finset V → List V} (hord : ∀ S, (ord S).Nodup ∧ ∀ x, x ∈ ord S ↔ x ∈ S)
    {g : Graph V W} (hg : Good g) {v : V} (hv : Mem g v) :
    ∃ h, removeClosedNeighborhood ord g v = .ok h ∧ Good h ∧ (∀ x, Mem h x ↔ Mem g x ∧ x ≠ v ∧ ¬ E g v x) ∧
      ∀ a b, E h a b ↔ Mem h a ∧ Mem h b ∧ E g a b := by
  have hN : ∀ x, x ∈ ord (insert v (nbrs g v).toFinset) ↔ x = v ∨ E g v x := by
    intro x
    rw [(hord _).2, Finset.mem_insert, List.mem_toFinset]
    exact Iff.rfl
  have hmem : ∀ x, Mem (deleteVertices g (ord (insert v (nbrs g v).toFinset))) x ↔ Mem g x ∧ x ≠ v ∧ ¬ E g v x := by
    intro x
    rw [mem_deleteVertices hg, hN, not_or]
    tauto
  refine ⟨deleteVertices g (ord (insert v (nbrs g v).toFinset)), ?_, hg.deleteVertices _, hmem, ?_⟩
  · rw [removeClosedNeighborhood, closedNeighborhood, neighbors_eq hv]
    rfl
  · intro a b
    rw [hmem, hmem, E, mem_nbrs, adj_deleteVertices hg]
    constructor
    · rintro ⟨w, hw⟩
      split at hw
      · simp at hw
      · rename_i hn
        rw [hN, hN, not_or, not_or, not_or] at hn
        have hab : E g a b := mem_nbrs.2 ⟨w, hw⟩
        exact ⟨⟨E_mem hg ((E_symm hg).1 hab), hn.1⟩, ⟨E_mem hg hab, hn.2⟩, hab⟩
    · rintro ⟨⟨-, a2⟩, ⟨-, b2⟩, hab⟩
      obtain ⟨w, hw⟩ := mem_nbrs.1 hab
      refine ⟨w, ?_⟩
      rw [if_neg, hw]
      rw [hN, hN, not_or, not_or, not_or]
      exact ⟨a2, b2⟩

theorem indset_spec {ord : Finset V → List V} (hord : ∀ S, (ord S).Nodup ∧ ∀ x, x ∈ ord S ↔ x ∈ S) (degree : V → ℕ)
    (n : ℕ) : ∀ g : Graph V W, Good g → (vertexSet g).card ≤ n →
    ∃ r, indset ord degree n g = .ok r ∧ Res g degree r ∧
      (∀ v, (degreeOrder g).getLast? = some v → degree v ≤ r.2.1) ∧ (r = (0, 0, []) ∨ 0 < r.2.1) := by
  induction n with
  | zero =>
    intro g hg hc
    have he : vertexSet g = ∅ := Finset.card_eq_zero.1 (by omega)
    refine ⟨_, rfl, ⟨by simp, ⟨by simp, by simp⟩, rfl, by simp⟩, ?_, Or.inl rfl⟩
    intro v hv
    have h1 := List.mem_of_getLast? hv
    have h2 := (degreeOrder_perm g).mem_iff.1 h1
    have h3 : v ∈ vertexSet g := Graph.mem_vertexSet.2 h2
    rw [he] at h3; simp at h3
  | succ n ih =>
    intro g hg hc
    rw [indset]
    by_cases he : degreeOrder g = []
    · rw [if_pos he]
      refine ⟨_, rfl, ⟨by simp, ⟨by simp, by simp⟩, rfl, by simp⟩, ?_, Or.inl rfl⟩
      intro v hv
      rw [he] at hv; simp at hv
    · rw [if_neg he]
      obtain ⟨r, r1, r2, r3, r4, r5⟩ := tryLoop_spec (g := g) (degree := degree) (sub := fun v =>
        match removeClosedNeighborhood ord g v with
        | .error e => .error e
        | .ok h => indset ord degree n h) ((swapEnds (degreeOrder g)).take (cutoff (degreeOrder g).length)) (0, 0, []) (by
          intro v hv
          have hv2 : Mem g v :=
            (degreeOrder_perm g).mem_iff.1 ((swapEnds_perm _).mem_iff.1 (List.mem_of_mem_take hv))
          obtain ⟨h, h1, h2, h3, h4⟩ := removeClosed_spec hord hg hv2
          obtain ⟨⟨k, d, s⟩, i1, ⟨j1, j2, j3, j4⟩, -, -⟩ := ih h h2 (by
            have : (vertexSet h).card < (vertexSet g).card := by
              refine Finset.card_lt_card ⟨?_, fun hs => ?_⟩
              · intro x hx
                exact Graph.mem_vertexSet.2 ((h3 x).1 (Graph.mem_vertexSet.1 hx)).1
              · have := hs (Graph.mem_vertexSet.2 hv2)
                exact ((h3 v).1 (Graph.mem_vertexSet.1 this)).2.1 rfl
            omega)
          dsimp only at j1 j2 j3 j4
          have hvs : v ∉ s.toFinset := fun hc => ((h3 v).1 (j2.1 v hc)).2.1 rfl
          refine ⟨k, d, s, by rw [h1]; exact i1, ?_, ?_, by simp [j3], ?_⟩
          · dsimp only
            rw [List.nodup_append]
            refine ⟨j1, by simp, ?_⟩
            intro a ha b hb
            rw [List.mem_singleton.1 hb]
            rintro rfl; exact hvs (List.mem_toFinset.2 ha)
          · dsimp only
            rw [toFinset_snoc]
            refine ⟨?_, ?_⟩
            · intro w hw
              rcases Finset.mem_insert.1 hw with rfl | hw
              · exact hv2
              · exact ((h3 w).1 (j2.1 w hw)).1
            · intro a ha b hb hne
              rcases Finset.mem_insert.1 ha with rfl | ha' <;> rcases Finset.mem_insert.1 hb with rfl | hb'
              · exact absurd rfl hne
              · exact ((h3 b).1 (j2.1 b hb')).2.2
              · exact fun he => ((h3 a).1 (j2.1 a ha')).2.2 ((E_symm hg).1 he)
              · exact fun he => j2.2 a ha' b hb' hne ((h4 a b).2 ⟨j2.1 a ha', j2.1 b hb', he⟩)
          · dsimp only
            rw [toFinset_snoc, Finset.sum_insert hvs, j4, add_comm])
        ⟨by simp, ⟨by simp, by simp⟩, rfl, by simp⟩
      refine ⟨r, r1, r2, ?_, r5⟩
      intro v hv
      refine r4 v ?_
      have hh := swapEnds_head hv
      cases hs : swapEnds (degreeOrder g) with
      | nil => rw [hs] at hh; simp at hh
      | cons a t =>
        rw [hs] at hh
        cases hh
        have hpos : 0 < cutoff (degreeOrder g).length := by
          rw [cutoff]; split <;> [omega; split <;> [omega; split <;> omega]]
        obtain ⟨k, hk⟩ := Nat.exists_eq_add_of_lt hpos
        rw [hk, Nat.zero_add, List.take_succ_cons]
        exact List.mem_cons_self

end Rosemary.IndependentSets
