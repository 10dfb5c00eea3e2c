import Verif.Lemmas.Tours

/-!
# Farthest insertion
-/

namespace Rosemary.Tsp

open Rosemary.Spec

variable {R : Type} [AddCommGroup R] [LinearOrder R]

/-- The edges of the way from `a` along `l` to `z`. -/
def arcs : ℕ → List ℕ → ℕ → List (ℕ × ℕ)
  | a, [], z => [(a, z)]
  | a, b :: l, z => (a, b) :: arcs b l z

theorem arcs_eq (a : ℕ) (l : List ℕ) (z : ℕ) : arcs a l z = (a :: l).zip (l ++ [z]) := by
  induction l generalizing a with
  | nil => rfl
  | cons b l ih => rw [arcs, ih]; rfl

theorem map_fst_arcs (a : ℕ) (l : List ℕ) (z : ℕ) : (arcs a l z).map Prod.fst = a :: l := by
  induction l generalizing a with
  | nil => rfl
  | cons b l ih => rw [arcs, List.map_cons, ih]

theorem map_snd_arcs (a : ℕ) (l : List ℕ) (z : ℕ) : (arcs a l z).map Prod.snd = l ++ [z] := by
  induction l generalizing a with
  | nil => rfl
  | cons b l ih => rw [arcs, List.map_cons, ih]; rfl

theorem way_arcs {A : Type} [AddCommMonoid A] (D : ℕ → ℕ → A) (a : ℕ) (l : List ℕ) (z : ℕ) :
    way D a l z = ((arcs a l z).map (fun e => D e.1 e.2)).sum := by
  induction l generalizing a with
  | nil => simp [way_nil, arcs]
  | cons b l ih => rw [way_cons, ih, arcs]; simp

theorem insert_arc (f t h : ℕ) (l : List ℕ) (a z : ℕ) (hth : (t, h) ∈ arcs a l z) :
    ∃ l', l'.Perm (f :: l) ∧ ((t, h) :: arcs a l' z).Perm ((t, f) :: (f, h) :: arcs a l z) := by
  induction l generalizing a with
  | nil =>
    rw [arcs, List.mem_singleton, Prod.mk.injEq] at hth
    obtain ⟨rfl, rfl⟩ := hth
    refine ⟨[f], List.Perm.refl _, ?_⟩
    rw [arcs, arcs, arcs]
    exact ((List.Perm.swap _ _ _).trans ((List.Perm.swap _ _ _).cons _))
  | cons b l ih =>
    rw [arcs, List.mem_cons] at hth
    rcases hth with hth | hth
    · rw [Prod.mk.injEq] at hth
      obtain ⟨rfl, rfl⟩ := hth
      refine ⟨f :: h :: l, List.Perm.refl _, ?_⟩
      rw [arcs, arcs, arcs]
      exact ((List.Perm.swap _ _ _).trans ((List.Perm.swap _ _ _).cons _))
    · obtain ⟨l', h1, h2⟩ := ih b hth
      refine ⟨b :: l', (h1.cons b).trans (List.Perm.swap _ _ _), ?_⟩
      rw [arcs, arcs]
      refine (List.Perm.swap _ _ _).trans ?_
      refine (h2.cons _).trans ?_
      exact (List.Perm.swap _ _ _).trans ((List.Perm.swap _ _ _).cons _)

theorem farthest_mem (dist : ℕ → R) (left : List ℕ) :
    (farthest dist left = none ↔ left = []) ∧ ∀ v, farthest dist left = some v → v ∈ left := by
  induction left with
  | nil => simp [farthest]
  | cons a left ih =>
    rw [farthest]
    cases hf : farthest dist left with
    | none => simp
    | some w =>
      dsimp only
      split
      · refine ⟨by simp, ?_⟩
        intro v hv
        rw [Option.some.injEq] at hv
        exact List.mem_cons_of_mem _ (hv ▸ ih.2 w hf)
      · refine ⟨by simp, ?_⟩
        intro v hv
        rw [Option.some.injEq] at hv
        simp [hv]

theorem cheapest_mem (c : ℕ × ℕ → R) (es : List (ℕ × ℕ)) (h : es ≠ []) :
    ∃ e ∈ es, cheapest c es = some e ∧ ∀ e' ∈ es, c e ≤ c e' := by
  induction es with
  | nil => exact absurd rfl h
  | cons a es ih =>
    rw [cheapest]
    by_cases hes : es = []
    · subst hes
      exact ⟨a, by simp, rfl, by simp⟩
    · obtain ⟨e, h1, h2, h3⟩ := ih hes
      rw [h2]
      dsimp only
      split
      · rename_i hc
        refine ⟨e, by simp [h1], rfl, ?_⟩
        intro e' he'
        rcases List.mem_cons.1 he' with rfl | he'
        · rcases hc with hc | hc
          · exact hc.le
          · exact hc.1.le
        · exact h3 e' he'
      · rename_i hc
        rw [not_or] at hc
        refine ⟨a, by simp, rfl, ?_⟩
        intro e' he'
        rcases List.mem_cons.1 he' with rfl | he'
        · exact le_rfl
        · exact (not_lt.1 hc.1).trans (h3 e' he')

theorem insertLoop_spec (D : ℕ → ℕ → R) (k : ℕ) (dist : ℕ → R) (left : List ℕ) (edges : List (ℕ × ℕ)) (tw : R)
    (q : List ℕ) (hk : left.length = k) (hnd : (0 :: (left ++ q)).Nodup) (he : edges.Perm (arcs 0 q 0))
    (htw : tw = if q = [] then 0 else way D 0 q 0) :
    ∃ q' edges' tw', insertLoop D k dist left edges tw = .ok (edges', tw') ∧ q'.Perm (left ++ q) ∧
      edges'.Perm (arcs 0 q' 0) ∧ tw' = if q' = [] then 0 else way D 0 q' 0 := by
  induction k generalizing dist left edges tw q with
  | zero =>
    have : left = [] := List.length_eq_zero_iff.1 hk
    subst this
    exact ⟨q, edges, tw, rfl, List.Perm.refl _, he, htw⟩
  | succ k ih =>
    rw [insertLoop]
    cases hf : farthest dist left with
    | none => rw [((farthest_mem dist left).1.1 hf)] at hk; simp at hk
    | some f =>
      have hfl := (farthest_mem dist left).2 f hf
      have hene : edges ≠ [] := by
        rintro rfl
        have := he.length_eq
        rw [arcs_eq] at this
        simp at this
      obtain ⟨⟨t, h⟩, h1, h2, -⟩ := cheapest_mem (insertionCost D f) edges hene
      dsimp only
      rw [h2]
      dsimp only
      have hperm : left.Perm (f :: left.erase f) := List.perm_cons_erase hfl
      have hnd' : (0 :: f :: (left.erase f ++ q)).Nodup := by
        refine (List.Perm.nodup_iff ?_).1 hnd
        exact ((hperm.append_right q)).cons 0
      obtain ⟨hn1, hn2⟩ := List.nodup_cons.1 hnd'
      obtain ⟨hn3, hn4⟩ := List.nodup_cons.1 hn2
      have hf0 : f ≠ 0 := by rintro rfl; simp at hn1
      have h0q : 0 ∉ q := by intro h; apply hn1; simp [h]
      have hfq : f ∉ q := by intro h; apply hn3; simp [h]
      have harc := he.mem_iff.1 h1
      have ht : t ∈ 0 :: q := by rw [← map_fst_arcs 0 q 0]; exact List.mem_map_of_mem (f := Prod.fst) harc
      have htf : f ≠ t := by
        rintro rfl
        rcases List.mem_cons.1 ht with h | h
        · exact hf0 h
        · exact hfq h
      have hnm1 : (t, f) ∉ edges := by
        intro hm
        have := List.mem_map_of_mem (f := Prod.snd) (he.mem_iff.1 hm)
        rw [map_snd_arcs] at this
        simp only [List.mem_append, List.mem_singleton] at this
        rcases this with h | h
        · exact hfq h
        · exact hf0 h
      have hnm2 : (f, h) ∉ edges.insert (t, f) := by
        rw [List.mem_insert_iff]
        rintro (hm | hm)
        · exact htf (Prod.ext_iff.1 hm).1
        · have := List.mem_map_of_mem (f := Prod.fst) (he.mem_iff.1 hm)
          rw [map_fst_arcs] at this
          rcases List.mem_cons.1 this with h | h
          · exact hf0 h
          · exact hfq h
      obtain ⟨q1, hq1, hq2⟩ := insert_arc f t h q 0 0 harc
      have hedges : (((edges.insert (t, f)).insert (f, h)).erase (t, h)).Perm (arcs 0 q1 0) := by
        rw [List.insert_of_not_mem hnm2, List.insert_of_not_mem hnm1]
        have h5 : ((f, h) :: (t, f) :: edges).Perm ((t, h) :: arcs 0 q1 0) :=
          (List.Perm.swap _ _ _).trans ((((he.cons _).cons _)).trans hq2.symm)
        have := h5.erase (t, h)
        rwa [List.erase_cons_head] at this
      have hq1ne : q1 ≠ [] := by rintro rfl; simpa using hq1.length_eq
      have hsum := (hq2.map (fun e => D e.1 e.2)).sum_eq
      simp only [List.map_cons, List.sum_cons] at hsum
      rw [← way_arcs, ← way_arcs] at hsum
      have htw' : tw + insertionCost D f (t, h) = if q1 = [] then 0 else way D 0 q1 0 := by
        rw [if_neg hq1ne, htw]
        by_cases hq : q = []
        · subst hq
          rw [if_pos rfl, zero_add]
          rw [arcs, List.mem_singleton] at harc
          rw [harc]
          have : q1 = [f] := List.perm_singleton.1 hq1
          rw [this, insertionCost]
          dsimp only
          rw [if_neg (by simp), way_cons, way_nil]
        · rw [if_neg hq, insertionCost]
          dsimp only
          rw [if_pos]
          · have : way D 0 q1 0 = D t f + (D f h + way D 0 q 0) - D t h := by rw [← hsum]; abel
            rw [this]; abel
          · intro hth
            rw [hth] at harc
            cases q with
            | nil => exact hq rfl
            | cons b q =>
              rw [arcs, List.mem_cons] at harc
              rcases harc with harc | harc
              · have hb : 0 = b := congrArg Prod.snd harc
                exact h0q (by simp [← hb])
              · have := List.mem_map_of_mem (f := Prod.fst) harc
                rw [map_fst_arcs] at this
                exact h0q this
      have hlen : (left.erase f).length = k := by rw [List.length_erase_of_mem hfl, hk]; rfl
      have hmid : (left.erase f ++ q1).Perm (left ++ q) :=
        (hq1.append_left _).trans (List.perm_middle.trans ((hperm.append_right q).symm))
      obtain ⟨q', e', tw', hr1, hr2, hr3, hr4⟩ := ih (fun x => if D f x < dist x then D f x else dist x) (left.erase f) _ _ q1
        hlen ((hmid.cons 0).nodup_iff.2 hnd) hedges htw'
      exact ⟨q', e', tw', hr1, hr2.trans hmid, hr3, hr4⟩

theorem farthestEdges_spec (D : ℕ → ℕ → R) {n : ℕ} (hn : 0 < n) :
    ∃ q edges tw, farthestEdges D n = .ok (edges, tw) ∧ IsTour n (0 :: q) ∧ edges.Perm (arcs 0 q 0) ∧
      tw = if q = [] then 0 else way D 0 q 0 := by
  obtain ⟨m, rfl⟩ : ∃ m, n = m + 1 := ⟨n - 1, by omega⟩
  have hr : 0 :: List.range' 1 m = List.range (m + 1) := by rw [List.range_eq_range', List.range'_succ]
  obtain ⟨q, e, tw, h1, h2, h3, h4⟩ := insertLoop_spec D (m + 1 - 1) (fun v => D 0 v) (List.range' 1 (m + 1 - 1)) [(0, 0)] 0 []
    (by simp) (by rw [List.append_nil]; exact hr ▸ List.nodup_range) (List.Perm.refl _) rfl
  refine ⟨q, e, tw, h1, ?_, h3, h4⟩
  rw [isTour_iff, ← hr]
  rw [List.append_nil] at h2
  exact h2.cons 0

theorem nextNode_eq {edges : List (ℕ × ℕ)} (h : (edges.map Prod.fst).Nodup) {u v : ℕ} (huv : (u, v) ∈ edges) :
    nextNode edges u = .ok v := by
  rw [nextNode]
  cases hf : edges.reverse.find? (fun e => e.1 = u) with
  | none =>
    have := List.find?_eq_none.1 hf (u, v) (by simpa using huv)
    simp at this
  | some e =>
    have h1 := List.mem_of_find?_eq_some hf
    have h2 := List.find?_some hf
    simp only [decide_eq_true_eq] at h2
    have := List.inj_on_of_nodup_map h (List.mem_reverse.1 h1) huv h2
    rw [this]

theorem mem_arcs (s : List ℕ) (x : ℕ) (r : List ℕ) (a z : ℕ) : (x, r.headD z) ∈ arcs a (s ++ x :: r) z := by
  induction s generalizing a with
  | nil =>
    rw [List.nil_append, arcs]
    cases r with
    | nil => simp [arcs]
    | cons b r => simp [arcs]
  | cons b s ih => rw [List.cons_append, arcs]; exact List.mem_cons_of_mem _ (ih b)

theorem follow_spec {edges : List (ℕ × ℕ)} {q : List ℕ} (he : edges.Perm (arcs 0 q 0)) (hnd : (0 :: q).Nodup)
    (r s : List ℕ) (hq : q = s ++ r) : follow edges (0 :: s) (r.headD 0) = some (.ok (0 :: q)) := by
  have hfst : (edges.map Prod.fst).Nodup := by
    rw [(he.map _).nodup_iff, map_fst_arcs]; exact hnd
  induction r generalizing s with
  | nil =>
    rw [follow.eq_def, List.headD_nil, if_pos rfl, hq, List.append_nil]
  | cons x r ih =>
    rw [follow.eq_def, List.headD_cons, if_neg, nextNode_eq hfst (he.mem_iff.2 (hq ▸ mem_arcs s x r 0 0))]
    · exact ih (s ++ [x]) (by rw [hq]; simp)
    · rintro rfl
      exact (List.nodup_cons.1 hnd).1 (by rw [hq]; simp)

theorem farthestInsertion_spec (D : ℕ → ℕ → R) {n : ℕ} (hn : 0 < n) :
    ∃ q tw, farthestInsertion D n = some (.ok (tw, 0 :: q)) ∧ IsTour n (0 :: q) ∧
      tw = if q = [] then 0 else way D 0 q 0 := by
  obtain ⟨q, edges, tw, h1, h2, h3, h4⟩ := farthestEdges_spec D hn
  refine ⟨q, tw, ?_, h2, h4⟩
  have hfst : (edges.map Prod.fst).Nodup := by
    rw [(h3.map _).nodup_iff, map_fst_arcs]; exact h2.1
  have h0 : (0, q.headD 0) ∈ edges := by
    rw [h3.mem_iff]
    cases q with
    | nil => simp [arcs]
    | cons b q => simp [arcs]
  rw [farthestInsertion, h1]
  dsimp only
  rw [nextNode_eq hfst h0]
  dsimp only
  rw [follow_spec h3 h2.1 q [] rfl]

end Rosemary.Tsp
