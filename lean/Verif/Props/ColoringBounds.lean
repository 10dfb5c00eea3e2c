import Verif.Props.Korman
import Verif.Props.MaxCliques
import Verif.Props.GraphMatrices
import Mathlib.Algebra.Order.BigOperators.Group.Finset
import Mathlib.Logic.Relation

/-!
# What the searches for colorings, cliques and independent sets say about each other (C178)
-/

namespace Rosemary.Props

open Rosemary.Graph Rosemary.Coloring Rosemary.Spec

variable {V W : Type}

section bounds

variable [LinearOrder V]

theorem verts_finite (g : Graph V W) : (toAbs g).verts.Finite := by
  refine Set.Finite.subset (List.toFinset (Dict.keys g)).finite_toSet (fun v hv => ?_)
  rw [Finset.mem_coe, List.mem_toFinset]; exact hv

theorem chromatic_unique {g : Graph V W} {k k' : ℕ} (h : IsChromaticNumber g k) (h' : IsChromaticNumber g k') : k = k' := by
  obtain ⟨⟨f, hf, rfl⟩, hmin⟩ := h
  obtain ⟨⟨f', hf', rfl⟩, hmin'⟩ := h'
  exact le_antisymm (hmin f' hf') (hmin' f hf)

/-- No coloring has fewer colors than the chromatic number. -/
theorem chromatic_le {g : Graph V W} {k0 lo k : ℕ} {m : List (V × ℕ)} (h0 : IsChromaticNumber g k0)
    (h : IsColoring (toAbs g).verts (Linked g) lo k m) : k0 ≤ k := by
  have hget : ∀ v c, (v, c) ∈ m → Dict.get? m v = some c := fun v c hc => (mem_iff_get? h.nodup).1 hc
  refine (h0.2 (fun v => (Dict.get? m v).getD 0) ?_).trans ?_
  · intro u hu v hv he hne
    obtain ⟨⟨u, c⟩, hu', rfl⟩ := List.mem_map.1 ((h.verts u).2 hu)
    obtain ⟨⟨v, d⟩, hv', rfl⟩ := List.mem_map.1 ((h.verts v).2 hv)
    dsimp only
    rw [hget _ _ hu', hget _ _ hv']
    exact h.proper _ _ _ _ hu' hv' he hne
  · have : (fun v => (Dict.get? m v).getD 0) '' (toAbs g).verts ⊆ (Finset.Ico lo (lo + k) : Finset ℕ) := by
      rintro c ⟨v, hv, rfl⟩
      obtain ⟨⟨v, d⟩, hv', rfl⟩ := List.mem_map.1 ((h.verts v).2 hv)
      dsimp only
      rw [hget _ _ hv', Finset.mem_coe, Finset.mem_Ico]
      exact h.range _ _ hv'
    have := Set.ncard_le_ncard this (Finset.finite_toSet _)
    rw [Set.ncard_coe_finset] at this
    simpa using this

/-- A clique has at most as many members as every coloring has colors. -/
theorem clique_le {g : Graph V W} {k : ℕ} (h0 : IsChromaticNumber g k) {C : Finset V}
    (hC : IsClique (toAbs g).verts (Linked g) C) : C.card ≤ k := by
  obtain ⟨⟨f, hf, rfl⟩, -⟩ := h0
  have hinj : Set.InjOn f (C : Set V) := fun u hu v hv he => by
    by_contra hne
    exact hf u (hC.1 u hu) v (hC.1 v hv) (hC.2 u hu v hv hne) hne he
  rw [← Set.ncard_coe_finset, ← Set.ncard_image_of_injOn hinj]
  exact Set.ncard_le_ncard (Set.image_mono fun v hv => hC.1 v hv) ((verts_finite g).image f)

theorem verts_le_mul {g : Graph V W} {k : ℕ} (h0 : IsChromaticNumber g k) {C : Finset V}
    (hC : IsMaximumIndependent (toAbs g).verts (Linked g) C) : (toAbs g).verts.ncard ≤ C.card * k := by
  obtain ⟨⟨f, hf, rfl⟩, -⟩ := h0
  classical
  have hfin := verts_finite g
  obtain ⟨S, hS⟩ := hfin.exists_finset_coe
  rw [← hS, Set.ncard_coe_finset, ← Finset.coe_image, Set.ncard_coe_finset]
  refine Finset.card_le_mul_card_image S _ (fun c _ => hC.2 _ ⟨fun v hv => ?_, fun u hu v hv hne he => ?_⟩)
  · rw [← hS]; exact (Finset.mem_filter.1 hv).1
  · rw [Finset.mem_filter] at hu hv
    exact hf u (by rw [← hS]; exact hu.1) v (by rw [← hS]; exact hv.1) he hne (hu.2.trans hv.2.symm)

theorem chromatic_add_le {g : Graph V W} {k : ℕ} (h0 : IsChromaticNumber g k) {C : Finset V}
    (hC : IsIndependent (toAbs g).verts (Linked g) C) : k + C.card ≤ (toAbs g).verts.ncard + 1 := by
  obtain ⟨f, hf⟩ := exists_injective (g := g)
  classical
  obtain ⟨S, hS⟩ := (verts_finite g).exists_finset_coe
  have hCS : C ⊆ S := fun v hv => by
    have := hC.1 v hv
    rw [← hS] at this; exact this
  have h1 := h0.2 (fun v => if v ∈ C then 0 else f v + 1) (by
    intro u hu v hv he hne
    dsimp only
    split_ifs with a b b
    · exact absurd he (hC.2 u a v b hne)
    · omega
    · omega
    · intro e
      exact hne (hf hu hv (by omega)))
  have h2 : (fun v => if v ∈ C then 0 else f v + 1) '' (toAbs g).verts ⊆ (insert 0 ((S \ C).image (fun v => f v + 1)) : Finset ℕ) := by
    rintro c ⟨v, hv, rfl⟩
    dsimp only
    rw [Finset.mem_coe, Finset.mem_insert, Finset.mem_image]
    split_ifs with a
    · exact Or.inl rfl
    · refine Or.inr ⟨v, Finset.mem_sdiff.2 ⟨?_, a⟩, rfl⟩
      rw [← hS] at hv; exact hv
  have h3 := Set.ncard_le_ncard h2 (Finset.finite_toSet _)
  rw [Set.ncard_coe_finset] at h3
  have h4 := Finset.card_insert_le 0 ((S \ C).image (fun v => f v + 1))
  have h5 : ((S \ C).image (fun v => f v + 1)).card ≤ (S \ C).card := Finset.card_image_le
  have h6 := Finset.card_sdiff_add_card_eq_card hCS
  rw [← hS, Set.ncard_coe_finset]
  omega

end bounds

section order

variable [LinearOrder V]

/-- C178: the size `w` that `pardalos` reports, the number `x` of `branch_and_bound`, the numbers of colors `d` of `dsatur`
and `s` of `greedy_sequential`, and the size `a` of an independent set that `branch_and_bound` reports satisfy
`w ≤ x ≤ d, s ≤ D + 1`, `n ≤ a x` and `x + a ≤ n + 1` in a graph with `n` vertices and largest degree `D`. -/
theorem C178_chain (ord : Finset V → List V) (hord : ∀ S, (ord S).Nodup ∧ ∀ x, x ∈ ord S ↔ x ∈ S) (ops : List (Op V W))
    (hne : (toAbs (history ops)).verts.Nonempty) :
    ∃ w x d s a Q mx md ms I, Cliques.pardalos ord (history ops) = .ok (w, Q) ∧
      branchAndBound ord (history ops) false = .ok (x, .colorMap mx) ∧ dsatur ord (history ops) false = .ok (d, .colorMap md) ∧
      greedySequential (history ops) none 1 false = .ok (s, .colorMap ms) ∧
      IndependentSets.branchAndBound (history ops) = .ok (a, I) ∧
      1 ≤ w ∧ w ≤ x ∧ x ≤ d ∧ x ≤ s ∧
      (∀ D, (∀ v ∈ (toAbs (history ops)).verts, degreeOf (history ops) v ≤ D) → d ≤ D + 1 ∧ s ≤ D + 1) ∧
      (toAbs (history ops)).verts.ncard ≤ a * x ∧ x + a ≤ (toAbs (history ops)).verts.ncard + 1 := by
  obtain ⟨⟨w, Q⟩, p1, p2, p3, p4⟩ := C73_pardalos ord hord ops
  obtain ⟨x, mx, -, b1, -, b2⟩ := C92_number ord hord ops hne
  obtain ⟨d, md, -, d1, -, d2, -, -, d3⟩ := C71_dsatur ord hord ops hne
  obtain ⟨g1, g2, g3, -⟩ := C71_greedy_default ops 1 false
  obtain ⟨s, ms, -, s1, -, s2, -, -, -, -, s3⟩ := C71_greedy_given ops _ (degreeOrder_ne_nil hne) g2 (fun v hv => (g3 v).1 hv)
  obtain ⟨⟨a, I⟩, i1, i2, i3, i4⟩ := C73_branch_and_bound ops
  dsimp only at p2 p3 p4 i2 i3 i4
  have s2' : IsColoring (toAbs (history ops)).verts (Linked (history ops)) 0 s ms := by
    have : {v | v ∈ (degreeOrder (history ops)).reverse} = (toAbs (history ops)).verts := Set.ext fun v => g3 v
    rwa [this] at s2
  have hw : w = Q.toFinset.card := by rw [List.toFinset_card_of_nodup p2, p3]
  have ha : a = I.toFinset.card := by rw [List.toFinset_card_of_nodup i2, i3]
  refine ⟨w, x, d, s, a, Q, mx, md, ms, I, p1, b1, d1, by rw [g1]; exact s1, i1, ?_, ?_, chromatic_le b2 d2, chromatic_le b2 s2',
    fun D hD => ⟨d3 D hD, s3 D fun v hv => hD v ((g3 v).1 hv)⟩, ?_, ?_⟩
  · obtain ⟨v, hv⟩ := hne
    have := p4.2 {v} ⟨fun u hu => by rw [Finset.mem_singleton.1 hu]; exact hv, fun u hu u' hu' h => by
      rw [Finset.mem_singleton] at hu hu'; exact absurd (hu.trans hu'.symm) h⟩
    rw [hw]; simpa using this
  · rw [hw]; exact clique_le b2 p4.1
  · rw [ha]; exact verts_le_mul b2 i4
  · rw [ha]; exact chromatic_add_le b2 i4.1

/-- C178: whenever C108 says that `exact_coloring` returns, it reports the number of `branch_and_bound`. -/
theorem C178_exact_searches_agree (ord ord' : Finset V → List V) (hord : ∀ S, (ord S).Nodup ∧ ∀ x, x ∈ ord S ↔ x ∈ S)
    (hord' : ∀ S, (ord' S).Nodup ∧ ∀ x, x ∈ ord' S ↔ x ∈ S)
    (ops : List (Op V W)) (hne : (toAbs (history ops)).verts.Nonempty) (hloop : ∀ v, ¬ Linked (history ops) v v)
    (hdeg : (∀ u ∈ (toAbs (history ops)).verts, ∃ v, Linked (history ops) u v) ∨
      ∀ u ∈ (toAbs (history ops)).verts, ∀ v ∈ (toAbs (history ops)).verts, u ≠ v → Linked (history ops) u v) :
    ∃ k m m', exactColoring ord (history ops) false = some (.ok (k, .colorMap m)) ∧
      branchAndBound ord' (history ops) false = .ok (k, .colorMap m') := by
  obtain ⟨k, m, -, h1, -, h2, -⟩ := C108_exact_coloring_partial ord hord ops hne hloop hdeg
  obtain ⟨x, mx, -, b1, -, b2⟩ := C92_number ord' hord' ops hne
  obtain rfl := chromatic_unique h2 b2
  exact ⟨k, m, mx, h1, b1⟩

/-- First fit along vertices sorted by the colors of a proper coloring does not give any vertex a larger color. -/
theorem first_fit_le {E : V → V → Prop} {h : V → ℕ} {m : List (V × ℕ)} (hnd : (m.map Prod.fst).Nodup)
    (hp : ∀ u ∈ m.map Prod.fst, ∀ v ∈ m.map Prod.fst, E u v → u ≠ v → h u ≠ h v)
    (hs : (m.map Prod.fst).Pairwise (fun u v => h u ≤ h v))
    (hff : ∀ pre v c post, m = pre ++ (v, c) :: post → FirstFit E pre v c) :
    ∀ n pre post, m = pre ++ post → pre.length = n → ∀ v c, (v, c) ∈ pre → c ≤ h v := by
  intro n
  induction n with
  | zero => intro pre post _ hl v c hv; rw [List.length_eq_zero_iff.1 hl] at hv; simp at hv
  | succ n ih =>
    intro pre post e hl v c hv
    obtain ⟨pre', x, rfl⟩ : ∃ pre' x, pre = pre' ++ [x] := by
      rcases List.eq_nil_or_concat pre with h | ⟨l, x, h⟩
      · rw [h] at hl; simp at hl
      · exact ⟨l, x, by rw [h, List.concat_eq_append]⟩
    have hl' : pre'.length = n := by simpa using hl
    have ih' := ih pre' (x :: post) (by rw [e]; simp) hl'
    rcases List.mem_append.1 hv with hv | hv
    · exact ih' v c hv
    · rw [List.mem_singleton] at hv
      subst hv
      by_contra hc
      obtain ⟨u, hu1, hu2⟩ := (hff pre' v c post (by rw [e]; simp)).2 (h v) (by omega)
      have h1 := ih' u (h v) hu2
      have hm : m.map Prod.fst = pre'.map Prod.fst ++ v :: post.map Prod.fst := by rw [e]; simp
      have hu3 : u ∈ pre'.map Prod.fst := List.mem_map.2 ⟨_, hu2, rfl⟩
      have h2 : h u ≤ h v := by
        rw [hm, List.pairwise_append] at hs
        exact hs.2.2 u hu3 v List.mem_cons_self
      have hne : v ≠ u := by
        rintro rfl
        rw [hm, List.nodup_append] at hnd
        exact hnd.2.2 v hu3 v List.mem_cons_self rfl
      exact hp v (by rw [hm]; simp) u (by rw [hm]; exact List.mem_append_left _ hu3) hu1 hne (by omega)

/-- C178: for every graph there is an order of the vertices with which `greedy_sequential` finds an optimal coloring: the
number of colors is the one that `branch_and_bound` reports. -/
theorem C178_greedy_can_be_optimal (ord : Finset V → List V) (hord : ∀ S, (ord S).Nodup ∧ ∀ x, x ∈ ord S ↔ x ∈ S)
    (ops : List (Op V W)) (hne : (toAbs (history ops)).verts.Nonempty) :
    ∃ l k m m', l.Nodup ∧ (∀ v, v ∈ l ↔ v ∈ (toAbs (history ops)).verts) ∧
      greedySequential (history ops) (some l) 1 false = .ok (k, .colorMap m) ∧
      branchAndBound ord (history ops) false = .ok (k, .colorMap m') := by
  obtain ⟨x, mx, -, b1, -, b2⟩ := C92_number ord hord ops hne
  obtain ⟨⟨f, hf, hx⟩, -⟩ := id b2
  -- the ranks of the colors
  have hfin : (f '' (toAbs (history ops)).verts).Finite := (verts_finite _).image f
  obtain ⟨F, hF⟩ := hfin.exists_finset_coe
  rw [← hF, Set.ncard_coe_finset] at hx
  let h : V → ℕ := fun v => (F.filter (· < f v)).card
  have hmemF : ∀ v, v ∈ (toAbs (history ops)).verts → f v ∈ F := fun v hv => by
    rw [← Finset.mem_coe, hF]; exact ⟨v, hv, rfl⟩
  have hmono : ∀ u ∈ (toAbs (history ops)).verts, ∀ v, f u < f v → h u < h v := by
    intro u hu v huv
    refine Finset.card_lt_card (Finset.ssubset_iff_of_subset (fun c hc => ?_) |>.2 ⟨f u, ?_, ?_⟩)
    · rw [Finset.mem_filter] at hc ⊢; exact ⟨hc.1, hc.2.trans huv⟩
    · rw [Finset.mem_filter]; exact ⟨hmemF u hu, huv⟩
    · rw [Finset.mem_filter]; exact fun hc => lt_irrefl _ hc.2
  have hlt : ∀ v ∈ (toAbs (history ops)).verts, h v < x := by
    intro v hv
    rw [← hx]
    refine Finset.card_lt_card (Finset.ssubset_iff_of_subset (Finset.filter_subset _ _) |>.2 ⟨f v, hmemF v hv, ?_⟩)
    rw [Finset.mem_filter]; exact fun hc => lt_irrefl _ hc.2
  let l := pySort (Dict.keys (history ops)) (fun a b => decide (h a ≤ h b))
  have hperm : l.Perm (Dict.keys (history ops)) := pySort_perm _ _
  have hlm : ∀ v, v ∈ l ↔ v ∈ (toAbs (history ops)).verts := fun v => hperm.mem_iff
  have hlne : l ≠ [] := by
    obtain ⟨v, hv⟩ := hne
    exact List.ne_nil_of_mem ((hlm v).2 hv)
  have hlnd : l.Nodup := hperm.nodup_iff.2 (history_spec ops).1.wf
  have hsort : l.Pairwise (fun a b => h a ≤ h b) := by
    have := pairwise_pySort (le := fun a b : V => decide (h a ≤ h b)) (by
      intro a b c h1 h2
      simp only [decide_eq_true_eq] at *
      omega) (by
      intro a b
      simp only [Bool.or_eq_true, decide_eq_true_eq]
      omega) (Dict.keys (history ops))
    exact this.imp (fun h => by simpa using h)
  obtain ⟨s, ms, -, s1, -, s2, -, s3, s4, -, -⟩ := C71_greedy_given ops l hlne hlnd (fun v hv => (hlm v).1 hv)
  have hset : {v | v ∈ l} = (toAbs (history ops)).verts := Set.ext hlm
  rw [hset] at s2
  have hle : s ≤ x := by
    by_contra hc
    obtain ⟨v, hv⟩ := s2.all x (Nat.zero_le _) (by omega)
    have h1 := first_fit_le (h := h) s2.nodup (by
      intro u hu v hv he hne heq
      rw [s3, hlm] at hu hv
      rcases lt_trichotomy (f u) (f v) with h1 | h1 | h1
      · exact absurd heq (hmono u hu v h1).ne
      · exact hf u hu v hv he hne h1
      · exact absurd heq (hmono v hv u h1).ne') (by rw [s3]; exact hsort) s4 ms.length ms [] (by simp) rfl v x hv
    have h2 := hlt v ((s2.verts v).1 (List.mem_map.2 ⟨_, hv, rfl⟩))
    omega
  obtain rfl : s = x := le_antisymm hle (chromatic_le b2 s2)
  exact ⟨l, s, ms, mx, hlnd, hlm, s1, b1⟩

theorem first_fit_length {E : V → V → Prop} {pre : List (V × ℕ)} {v : V} {c : ℕ} (h : FirstFit E pre v c) : c ≤ pre.length := by
  have : (Finset.range c) ⊆ (pre.map Prod.snd).toFinset := fun d hd => by
    obtain ⟨u, -, hu⟩ := h.2 d (Finset.mem_range.1 hd)
    exact List.mem_toFinset.2 (List.mem_map.2 ⟨_, hu, rfl⟩)
  have := Finset.card_le_card this
  rw [Finset.card_range] at this
  exact this.trans ((List.toFinset_card_le _).trans (by simp))

theorem first_fit_degree {g : Graph V W} {pre : List (V × ℕ)} (hnd : (pre.map Prod.fst).Nodup) {v : V} {c : ℕ}
    (hv : v ∉ pre.map Prod.fst)
    (hpre : ∀ u ∈ pre.map Prod.fst, u ∈ (toAbs g).verts) (h : FirstFit (Linked g) pre v c) : c ≤ degreeWithout g [] v := by
  have h' : ∀ d, ∃ u, d < c → Linked g v u ∧ (u, d) ∈ pre := fun d => by
    by_cases hd : d < c
    · obtain ⟨u, hu⟩ := h.2 d hd
      exact ⟨u, fun _ => hu⟩
    · exact ⟨v, fun h => absurd h hd⟩
  choose u hu using h'
  have hu1 := fun d hd => (hu d hd).1
  have hu2 := fun d hd => (hu d hd).2
  have hinj : Set.InjOn u (Finset.range c : Set ℕ) := by
    intro a ha b hb e
    have ha' := hu2 a (Finset.mem_range.1 ha)
    have hb' := hu2 b (Finset.mem_range.1 hb)
    rw [e] at ha'
    have h1 := (mem_iff_get? hnd).1 ha'
    have h2 := (mem_iff_get? hnd).1 hb'
    rw [h1] at h2
    exact Option.some.inj h2
  have h1 : c = (u '' (Finset.range c : Set ℕ)).ncard := by
    rw [Set.ncard_image_of_injOn hinj, Set.ncard_coe_finset, Finset.card_range]
  rw [h1, degreeWithout]
  refine Set.ncard_le_ncard ?_ ?_
  · rintro _ ⟨d, hd, rfl⟩
    obtain ⟨w, hw⟩ := hu1 d (Finset.mem_range.1 hd)
    exact ⟨by simp, by rw [hw]; simp⟩
  · refine Set.Finite.subset (List.toFinset (nbrs g v)).finite_toSet (fun w hw => ?_)
    rw [Finset.mem_coe, List.mem_toFinset]
    obtain ⟨x, hx⟩ := Option.ne_none_iff_exists'.1 hw.2
    exact mem_nbrs.2 ⟨x, hx⟩

/-- C178, the bound of Welsh and Powell: if at most `t` vertices have `t` or more neighbours, `greedy_sequential` with its
default order uses at most `t` colors. -/
theorem C178_welsh_powell (ops : List (Op V W)) (hne : (toAbs (history ops)).verts.Nonempty) (t : ℕ)
    (ht : {v ∈ (toAbs (history ops)).verts | t ≤ degreeWithout (history ops) [] v}.ncard ≤ t) :
    ∃ k m, greedySequential (history ops) none 1 false = .ok (k, .colorMap m) ∧ k ≤ t := by
  obtain ⟨g1, g2, g3, g4⟩ := C71_greedy_default ops 1 false
  obtain ⟨s, ms, -, s1, -, s2, -, s3, s4, -, -⟩ := C71_greedy_given ops _ (degreeOrder_ne_nil hne) g2 (fun v hv => (g3 v).1 hv)
  refine ⟨s, ms, by rw [g1]; exact s1, ?_⟩
  by_contra hc
  obtain ⟨v, hv⟩ := s2.all t (Nat.zero_le _) (by omega)
  obtain ⟨pre, post, e⟩ := List.append_of_mem hv
  have hff := s4 pre v t post e
  have h1 := first_fit_length hff
  have hm : ms.map Prod.fst = pre.map Prod.fst ++ v :: post.map Prod.fst := by rw [e]; simp
  have hnd := s2.nodup
  rw [hm, List.nodup_append] at hnd
  have hvn : v ∉ pre.map Prod.fst := fun h => hnd.2.2 v h v List.mem_cons_self rfl
  have hpre : ∀ u ∈ pre.map Prod.fst, u ∈ (toAbs (history ops)).verts := fun u hu =>
    (g3 u).1 (by rw [← s3, hm]; exact List.mem_append_left _ hu)
  have h2 := first_fit_degree hnd.1 hvn hpre hff
  rw [← s3, hm, List.pairwise_append] at g4
  have hsub : ((insert v (pre.map Prod.fst).toFinset : Finset V) : Set V) ⊆
      {v ∈ (toAbs (history ops)).verts | t ≤ degreeWithout (history ops) [] v} := by
    intro u hu
    rw [Finset.mem_coe, Finset.mem_insert, List.mem_toFinset] at hu
    rcases hu with rfl | hu
    · exact ⟨(g3 u).1 (by rw [← s3, hm]; simp), h2⟩
    · exact ⟨hpre u hu, h2.trans (g4.2.2 u hu v List.mem_cons_self)⟩
  have h3 := Set.ncard_le_ncard hsub ((verts_finite _).subset (fun v hv => hv.1))
  rw [Set.ncard_coe_finset, Finset.card_insert_of_notMem (by rwa [List.mem_toFinset]), List.toFinset_card_of_nodup hnd.1,
    List.length_map] at h3
  omega

theorem saturation_finite {E : V → V → Prop} {pre : List (V × ℕ)} (v : V) : {d | ∃ u, E v u ∧ (u, d) ∈ pre}.Finite := by
  refine Set.Finite.subset (pre.map Prod.snd).toFinset.finite_toSet ?_
  rintro d ⟨u, -, hu⟩
  rw [Finset.mem_coe, List.mem_toFinset]
  exact List.mem_map.2 ⟨_, hu, rfl⟩

/-- First fit along vertices of largest saturation agrees with the sides of a bipartite graph on every component. -/
theorem saturation_bipartite {E : V → V → Prop} (hsymm : ∀ u v, E u v → E v u) {S : Set V} (hS : ∀ u v, E u v → v ∈ S)
    {f : V → Bool} (hf : ∀ u v, E u v → u ≠ v → f u ≠ f v) {m : List (V × ℕ)} (hnd : (m.map Prod.fst).Nodup)
    (hff : ∀ pre v c post, m = pre ++ (v, c) :: post → FirstFit E pre v c)
    (hsat : ∀ pre v c post, m = pre ++ (v, c) :: post → pre ≠ [] → ∀ w ∈ S, w ∉ pre.map Prod.fst →
      saturation E pre w ≤ saturation E pre v) :
    ∀ n pre post, m = pre ++ post → pre.length = n → (∀ v c, (v, c) ∈ pre → c < 2) ∧
      ∀ x a y b, (x, a) ∈ pre → (y, b) ∈ pre → Relation.ReflTransGen (fun u v => E u v ∧ u ≠ v) x y → (a = b ↔ f x = f y) := by
  intro n
  induction n with
  | zero =>
    intro pre post _ hl
    rw [List.length_eq_zero_iff.1 hl]
    exact ⟨fun v c h => absurd h List.not_mem_nil, fun x a y b h => absurd h List.not_mem_nil⟩
  | succ n ih =>
    intro pre post e hl
    obtain ⟨pre, ⟨v, c⟩, rfl⟩ : ∃ pre' x, pre = pre' ++ [x] := by
      rcases List.eq_nil_or_concat pre with h | ⟨l, x, h⟩
      · rw [h] at hl; simp at hl
      · exact ⟨l, x, by rw [h, List.concat_eq_append]⟩
    have e' : m = pre ++ (v, c) :: post := by rw [e]; simp
    obtain ⟨ih1, ih2⟩ := ih pre ((v, c) :: post) e' (by simpa using hl)
    have hff' := hff pre v c post e'
    have hm : m.map Prod.fst = pre.map Prod.fst ++ v :: post.map Prod.fst := by rw [e']; simp
    rw [hm, List.nodup_append] at hnd
    have hvn : v ∉ pre.map Prod.fst := fun h => hnd.2.2 v h v List.mem_cons_self rfl
    have hne : ∀ u d, (u, d) ∈ pre → u ≠ v := fun u d hu h => hvn (h ▸ List.mem_map.2 ⟨_, hu, rfl⟩)
    have hNs : ∀ x y, Relation.ReflTransGen (fun u v => E u v ∧ u ≠ v) x y →
        Relation.ReflTransGen (fun u v => E u v ∧ u ≠ v) y x := by
      intro x y h
      induction h with
      | refl => exact .refl
      | tail _ h ih => exact .head ⟨hsymm _ _ h.1, h.2.symm⟩ ih
    -- it is enough to look at the new vertex
    have key : c < 2 ∧ ∀ x a, (x, a) ∈ pre → Relation.ReflTransGen (fun u v => E u v ∧ u ≠ v) x v → (a = c ↔ f x = f v) := by
      by_cases hu : ∃ u d, E v u ∧ (u, d) ∈ pre
      · obtain ⟨u0, d0, hE, hu0⟩ := hu
        have hd : ∀ u d, E v u → (u, d) ∈ pre → d = d0 := by
          intro u d hE' hu
          refine (ih2 u d u0 d0 hu hu0 ?_).2 ?_
          · exact (Relation.ReflTransGen.single ⟨hsymm _ _ hE', hne _ _ hu⟩).tail ⟨hE, (hne _ _ hu0).symm⟩
          · have h1 := hf v u hE' (hne _ _ hu).symm
            have h2 := hf v u0 hE (hne _ _ hu0).symm
            revert h1 h2
            cases f v <;> cases f u <;> cases f u0 <;> simp
        have hc : c ≠ d0 := fun h => hff'.1 u0 hE (h ▸ hu0)
        have hc2 : c < 2 := by
          by_contra h
          obtain ⟨u, h1, h2⟩ := hff'.2 0 (by omega)
          obtain ⟨u', h1', h2'⟩ := hff'.2 1 (by omega)
          have := hd u 0 h1 h2
          have := hd u' 1 h1' h2'
          omega
        refine ⟨hc2, fun x a hx hxv => ?_⟩
        have h1 := ih2 x a u0 d0 hx hu0 (hxv.tail ⟨hE, (hne _ _ hu0).symm⟩)
        have h2 := hf v u0 hE (hne _ _ hu0).symm
        have h3 := ih1 x a hx
        have h4 := ih1 u0 d0 hu0
        have h5 : a = c ↔ ¬ a = d0 := by omega
        rw [h5, h1]
        revert h2
        cases f v <;> cases f x <;> cases f u0 <;> simp
      · have hc : c = 0 := by
          by_contra h
          obtain ⟨u, h1, h2⟩ := hff'.2 0 (by omega)
          exact hu ⟨u, 0, h1, h2⟩
        refine ⟨by omega, fun x a hx hxv => ?_⟩
        exfalso
        have hpre : pre ≠ [] := List.ne_nil_of_mem hx
        have hs0 : saturation E pre v = 0 := by
          rw [saturation]
          have : {d | ∃ u, E v u ∧ (u, d) ∈ pre} = ∅ := by
            rw [Set.eq_empty_iff_forall_notMem]
            rintro d ⟨u, h1, h2⟩
            exact hu ⟨u, d, h1, h2⟩
          rw [this, Set.ncard_empty]
        have : ∀ y, Relation.ReflTransGen (fun u v => E u v ∧ u ≠ v) x y → y ∈ pre.map Prod.fst := by
          intro y hy
          induction hy with
          | refl => exact List.mem_map.2 ⟨_, hx, rfl⟩
          | tail _ h ihy =>
            rename_i y z _
            by_contra hz
            obtain ⟨⟨y', b⟩, hy, rfl⟩ := List.mem_map.1 ihy
            have h1 := hsat pre v c post e' hpre z (hS _ _ h.1) hz
            rw [hs0, Nat.le_zero, saturation, Set.ncard_eq_zero (saturation_finite z)] at h1
            have : b ∈ {d | ∃ u, E z u ∧ (u, d) ∈ pre} := ⟨y', hsymm _ _ h.1, hy⟩
            rw [h1] at this
            exact this
        exact hvn (this v hxv)
    refine ⟨fun u d hu => ?_, fun x a y b hx hy hxy => ?_⟩
    · rcases List.mem_append.1 hu with hu | hu
      · exact ih1 u d hu
      · rw [List.mem_singleton, Prod.mk.injEq] at hu
        rw [hu.2]; exact key.1
    · rcases List.mem_append.1 hx with hx | hx <;> rcases List.mem_append.1 hy with hy | hy
      · exact ih2 x a y b hx hy hxy
      · rw [List.mem_singleton, Prod.mk.injEq] at hy
        rw [hy.1, hy.2]
        rw [hy.1] at hxy
        exact key.2 x a hx hxy
      · rw [List.mem_singleton, Prod.mk.injEq] at hx
        rw [hx.1, hx.2]
        rw [hx.1] at hxy
        rw [eq_comm, key.2 y b hy (hNs _ _ hxy), eq_comm]
      · rw [List.mem_singleton, Prod.mk.injEq] at hx hy
        rw [hx.1, hx.2, hy.1, hy.2]
        simp

/-- C178, the theorem of Brelaz: on a bipartite graph `dsatur` is optimal.  It uses two colors if there is an edge between
different vertices, else one. -/
theorem C178_dsatur_bipartite (ord : Finset V → List V) (hord : ∀ S, (ord S).Nodup ∧ ∀ x, x ∈ ord S ↔ x ∈ S)
    (ops : List (Op V W)) (hne : (toAbs (history ops)).verts.Nonempty) (f : V → Bool)
    (hf : ∀ u v, Linked (history ops) u v → u ≠ v → f u ≠ f v) :
    ∃ k m, dsatur ord (history ops) false = .ok (k, .colorMap m) ∧ IsChromaticNumber (history ops) k ∧
      ((∃ u v, u ≠ v ∧ Linked (history ops) u v) → k = 2) ∧ ((¬ ∃ u v, u ≠ v ∧ Linked (history ops) u v) → k = 1) := by
  obtain ⟨d, md, -, d1, -, d2, -⟩ := C71_dsatur ord hord ops hne
  obtain ⟨d', md', d1', hrule⟩ := C71_dsatur_rule ord hord ops hne
  rw [d1] at d1'
  simp only [Except.ok.injEq, Prod.mk.injEq, Result.colorMap.injEq] at d1'
  obtain ⟨rfl, rfl⟩ := d1'
  obtain ⟨h1, -⟩ := saturation_bipartite (linked_symm ops) (S := (toAbs (history ops)).verts)
    (fun u v h => (linked_mem ops u v h).2) hf d2.nodup (fun pre v c post e => (hrule pre v c post e).1)
    (fun pre v c post e hp w hw hwp => by
      rcases (hrule pre v c post e).2.2 hp w hw hwp with h | h
      · exact h.le
      · exact h.1.le) md.length md [] (by simp) rfl
  have hle : d ≤ 2 := by
    by_contra hc
    obtain ⟨v, hv⟩ := d2.all 2 (Nat.zero_le _) (by omega)
    exact absurd (h1 v 2 hv) (by omega)
  have hpos : ∀ g : V → ℕ, 1 ≤ (g '' (toAbs (history ops)).verts).ncard := fun g =>
    (Set.ncard_pos ((verts_finite _).image g)).2 (hne.image g)
  have hd2 : (∃ u v, u ≠ v ∧ Linked (history ops) u v) → d = 2 := by
    rintro ⟨u, v, huv, hE⟩
    by_contra hd
    have hm := linked_mem ops u v hE
    obtain ⟨⟨u, a⟩, hu, rfl⟩ := List.mem_map.1 ((d2.verts u).2 hm.1)
    obtain ⟨⟨v, b⟩, hv, rfl⟩ := List.mem_map.1 ((d2.verts v).2 hm.2)
    have ha := d2.range u a hu
    have hb := d2.range v b hv
    exact d2.proper u a v b hu hv hE huv (by omega)
  have hd1 : (¬ ∃ u v, u ≠ v ∧ Linked (history ops) u v) → d = 1 := by
    intro hno
    have hall : ∀ v c, (v, c) ∈ md → c = 0 := by
      intro v c hv
      obtain ⟨pre, post, e⟩ := List.append_of_mem hv
      by_contra hc
      obtain ⟨u, hu1, hu2⟩ := (hrule pre v c post e).1.2 0 (by omega)
      refine hno ⟨v, u, ?_, hu1⟩
      rintro rfl
      have hnd := d2.nodup
      rw [e, List.map_append, List.map_cons, List.nodup_append] at hnd
      exact hnd.2.2 v (List.mem_map.2 ⟨_, hu2, rfl⟩) v List.mem_cons_self rfl
    obtain ⟨v, hv⟩ := hne
    obtain ⟨⟨v, a⟩, hv', rfl⟩ := List.mem_map.1 ((d2.verts v).2 hv)
    have ha := d2.range v a hv'
    by_contra hd
    obtain ⟨u, hu⟩ := d2.all 1 (Nat.zero_le _) (by omega)
    exact absurd (hall u 1 hu) (by omega)
  refine ⟨d, md, d1, ?_, hd2, hd1⟩
  obtain ⟨x, -, -, -, -, b2⟩ := C92_number ord hord ops hne
  have hxd := chromatic_le b2 d2
  obtain rfl : x = d := by
    refine le_antisymm hxd ?_
    obtain ⟨⟨g, hg, rfl⟩, -⟩ := b2
    by_cases hex : ∃ u v, u ≠ v ∧ Linked (history ops) u v
    · obtain ⟨u, v, huv, hE⟩ := hex
      have hm := linked_mem ops u v hE
      refine hle.trans ?_
      have := Set.ncard_le_ncard (s := {g u, g v}) (t := g '' (toAbs (history ops)).verts) (by
        rintro c (rfl | rfl)
        · exact ⟨u, hm.1, rfl⟩
        · exact ⟨v, hm.2, rfl⟩) ((verts_finite _).image g)
      rwa [Set.ncard_pair (hg u hm.1 v hm.2 hE huv)] at this
    · rw [hd1 hex]; exact hpos g
  exact b2

end order

/-- A tree: the path 0, 1, 2, 3 with two more leaves at each end. -/
def doubleBroom : List (Op ℕ ℤ) :=
  [Op.addEdges [(0, 1, 1), (1, 2, 1), (2, 3, 1), (0, 4, 1), (0, 5, 1), (3, 6, 1), (3, 7, 1)]]

/-- C178: what holds for `dsatur` on bipartite graphs fails for the default order of `greedy_sequential`: on this tree it
needs three colors, `dsatur` and `branch_and_bound` need two. -/
theorem C178_greedy_bipartite_violation :
    (∃ f : ℕ → Bool, ∀ u v, Linked (history doubleBroom) u v → u ≠ v → f u ≠ f v) ∧
      (∃ m, greedySequential (history doubleBroom) none 1 false = .ok (3, .colorMap m)) ∧
      ∀ ord : Finset ℕ → List ℕ, (∀ S, (ord S).Nodup ∧ ∀ x, x ∈ ord S ↔ x ∈ S) →
        (∃ m, dsatur ord (history doubleBroom) false = .ok (2, .colorMap m)) ∧
        ∃ m, branchAndBound ord (history doubleBroom) false = .ok (2, .colorMap m) := by
  have hf : ∀ u v, Linked (history doubleBroom) u v → u ≠ v →
      (fun v => decide (v ∈ [0, 2, 6, 7])) u ≠ (fun v => decide (v ∈ [0, 2, 6, 7])) v := by
    intro u v h _
    rw [← E_eq] at h
    have hu : u ∈ Dict.keys (history doubleBroom) := (linked_mem doubleBroom u v (by rwa [E_eq] at h)).1
    have : ∀ u ∈ Dict.keys (history doubleBroom), ∀ v ∈ nbrs (history doubleBroom) u,
        decide (u ∈ [0, 2, 6, 7]) ≠ decide (v ∈ [0, 2, 6, 7]) := by decide +kernel
    exact this u hu v h
  have hne : (toAbs (history doubleBroom)).verts.Nonempty :=
    ⟨0, show 0 ∈ Dict.keys (history doubleBroom) by decide +kernel⟩
  refine ⟨⟨_, hf⟩, ⟨_, rfl⟩, fun ord hord => ?_⟩
  obtain ⟨k, m, h1, h2, h3, -⟩ := C178_dsatur_bipartite ord hord doubleBroom hne _ hf
  obtain rfl := h3 ⟨0, 1, by decide, 1, by decide +kernel⟩
  obtain ⟨x, mx, -, b1, -, b2⟩ := C92_number ord hord doubleBroom hne
  obtain rfl := chromatic_unique h2 b2
  exact ⟨⟨m, h1⟩, mx, b1⟩

/-! ## Examples -/

/-- The graph of the examples of C71: a triangle with a tail; clique, chromatic number, `dsatur` and greedy all say 3, the
largest independent set has two vertices, and `5 ≤ 2 · 3`, `3 + 2 ≤ 5 + 1`. -/
example : Cliques.pardalos (fun S => (List.range 5).filter (· ∈ S)) (history colorOps) = .ok (3, [0, 1, 2]) := by rfl

example : ∃ I, IndependentSets.branchAndBound (history colorOps) = .ok (2, I) := ⟨_, by rfl⟩

/-- At most three vertices have three or more neighbours. -/
example : ∃ m, greedySequential (history colorOps) none 1 false = .ok (3, .colorMap m) := ⟨_, rfl⟩

/-- An order with which greedy is optimal on the tree. -/
example : ∃ m, greedySequential (history doubleBroom) (some [0, 2, 6, 7, 1, 3, 4, 5]) 1 false = .ok (2, .colorMap m) :=
  ⟨_, rfl⟩

example : ∃ m, dsatur (fun S => (List.range 8).filter (· ∈ S)) (history doubleBroom) false = .ok (2, .colorMap m) := ⟨_, rfl⟩

end Rosemary.Props
