import Verif.Model.SearchCosts
import Verif.Lemmas.Paths
import Verif.Lemmas.Traversal
import Mathlib.Algebra.BigOperators.Group.Finset.Basic
import Mathlib.Algebra.Order.BigOperators.Group.Finset
import Mathlib.Tactic.Ring
import Mathlib.Tactic.Linarith

/-!
# Counting the steps of the graph searches
-/

namespace Rosemary.Graph

open BigOperators

variable {V W : Type} [DecidableEq V]

/-- The number of entries of all adjacency dictionaries. -/
def entries (g : Graph V W) : ℕ := (g.map (fun e => e.2.length)).sum

/-- The number of entries of the dictionary of one vertex. -/
def degOf (g : Graph V W) (u : V) : ℕ := ((Dict.get? g u).getD []).length

theorem degOf_eq {g : Graph V W} {u : V} {N : Dict V W} (h : Dict.get? g u = some N) : degOf g u = N.length := by
  rw [degOf, h]; rfl

theorem sum_degOf {g : Graph V W} (hg : Dict.WF g) : ∑ u ∈ vertexSet g, degOf g u = entries g := by
  rw [vertexSet, List.sum_toFinset _ hg, Dict.keys, List.map_map, entries]
  congr 1
  refine List.map_congr_left fun e he => ?_
  exact degOf_eq (Dict.get?_of_mem hg he)

/-- The entries of the vertices that have not been visited. -/
def restDeg (g : Graph V W) (vis : Finset V) : ℕ := ∑ u ∈ vertexSet g \ vis, degOf g u

theorem restDeg_empty {g : Graph V W} (hg : Dict.WF g) : restDeg g ∅ = entries g := by
  rw [restDeg, Finset.sdiff_empty, sum_degOf hg]

theorem restDeg_insert {g : Graph V W} {vis : Finset V} {u : V} {N : Dict V W} (h : Dict.get? g u = some N) (hu : u ∉ vis) :
    N.length + restDeg g (insert u vis) = restDeg g vis := by
  have hm : u ∈ vertexSet g \ vis := by
    rw [Finset.mem_sdiff, vertexSet, List.mem_toFinset]
    exact ⟨Dict.get?_isSome.1 ⟨N, h⟩, hu⟩
  rw [restDeg, restDeg, ← degOf_eq h, ← Finset.add_sum_erase _ _ hm, Finset.sdiff_insert]

end Rosemary.Graph

namespace Rosemary.Paths

open Graph BigOperators

variable {V W : Type} [LinearOrder V] [AddCommMonoid W] [LinearOrder W]

theorem mem_of_entry {g : Graph V W} (hg : Good g) {u : V} {N : Dict V W} (h : Dict.get? g u = some N) :
    ∀ e ∈ N, Mem g e.1 := by
  intro e he
  refine hg.mem_right (u := u) (w := e.2) ?_
  rw [adj, h]
  exact Dict.get?_of_mem (hg.inner u N h) he

/-! ## `dijkstra` -/

theorem relax_ok {g : Graph V W} (w : W) (u : V) : ∀ (N : Dict V W) (D : Dict V (WithTop W)) (P : Dict V (Option V)) (H : List (W × V)),
    (∀ e ∈ N, Mem g e.1) → Dict.keys D = Dict.keys g →
    ∃ D' P' H', relax w u N D P H = .ok (D', P', H') ∧ Dict.keys D' = Dict.keys g ∧ H'.length ≤ H.length + N.length ∧
      ∀ e ∈ H', e ∈ H ∨ Mem g e.2 := by
  intro N
  induction N with
  | nil => intro D P H _ hD; exact ⟨D, P, H, rfl, hD, le_refl _, fun e he => .inl he⟩
  | cons a N ih =>
    obtain ⟨v, x⟩ := a
    intro D P H hN hD
    have hv : Mem g v := hN (v, x) (by simp)
    obtain ⟨dv, hdv⟩ := Dict.get?_isSome.2 (show v ∈ Dict.keys D by rw [hD]; exact hv)
    rw [relax, hdv]
    dsimp only
    split
    · obtain ⟨D', P', H', h1, h2, h3, h4⟩ := ih (Dict.set D v ((w + x : W) : WithTop W)) (Dict.set P v (some u)) ((w + x, v) :: H)
        (fun e he => hN e (by simp [he])) (by rw [Dict.keys_set, if_pos (by rw [hD]; exact hv)]; exact hD)
      refine ⟨D', P', H', h1, h2, by simp only [List.length_cons] at h3 ⊢; omega, fun e he => ?_⟩
      rcases h4 e he with h | h
      · rcases List.mem_cons.1 h with rfl | h
        · exact .inr hv
        · exact .inl h
      · exact .inr h
    · obtain ⟨D', P', H', h1, h2, h3, h4⟩ := ih D P H (fun e he => hN e (by simp [he])) hD
      exact ⟨D', P', H', h1, h2, by simp only [List.length_cons]; omega, h4⟩

theorem dijkstraLoopC_spec {g : Graph V W} (hg : Good g) : ∀ (F : ℕ) (D : Dict V (WithTop W)) (P : Dict V (Option V))
    (H : List (W × V)) (vis : Finset V) (pops scans : ℕ), Dict.keys D = Dict.keys g → (∀ e ∈ H, Mem g e.2) →
    H.length + restDeg g vis = F →
    ∃ r pops' scans', dijkstraLoopC g D P H vis pops scans = some (.ok r, pops', scans') ∧
      dijkstraLoop g D P H vis = some (.ok r) ∧ pops' ≤ pops + F ∧ scans' ≤ scans + restDeg g vis := by
  intro F
  induction F using Nat.strong_induction_on with
  | _ F ih =>
    intro D P H vis pops scans hD hH hF
    rw [dijkstraLoopC.eq_def, dijkstraLoop.eq_def]
    cases hp : popMin key2 H with
    | none => exact ⟨_, pops, scans, rfl, rfl, by omega, by omega⟩
    | some e =>
      obtain ⟨⟨w, u⟩, H'⟩ := e
      obtain ⟨p1, -⟩ := popMin_some key2 hp
      have hl := p1.length_eq
      rw [List.length_cons] at hl
      have hu : Mem g u := hH (w, u) (p1.mem_iff.2 (by simp))
      have hH' : ∀ e ∈ H', Mem g e.2 := fun e he => hH e (p1.mem_iff.2 (by simp [he]))
      dsimp only
      by_cases hv : u ∈ vis
      · rw [if_pos hv, if_pos hv]
        obtain ⟨r, p', s', h1, h2, h3, h4⟩ := ih (H'.length + restDeg g vis) (by omega) D P H' vis (pops + 1) scans hD hH' rfl
        exact ⟨r, p', s', h1, h2, by omega, h4⟩
      · rw [if_neg hv, if_neg hv]
        obtain ⟨N, hN⟩ := mem_iff.1 hu
        have hr := restDeg_insert hN hv
        obtain ⟨D', P', H2, h1, h2, h3, h4⟩ := relax_ok w u N D P H' (mem_of_entry hg hN) hD
        rw [hN]
        dsimp only
        rw [h1]
        dsimp only
        obtain ⟨r, p', s', i1, i2, i3, i4⟩ := ih (H2.length + restDeg g (insert u vis)) (by omega) D' P' H2 (insert u vis) (pops + 1)
          (scans + N.length) h2 (fun e he => (h4 e he).elim (hH' e) id) rfl
        exact ⟨r, p', s', i1, i2, by omega, by omega⟩

/-! ## `bellman_ford` -/

theorem bfRelax_ok {g : Graph V W} {u : V} (hu : Mem g u) : ∀ (N : Dict V W) (C : Dict V (WithTop W)) (P : Dict V (Option V))
    (q : List V) (S : Finset V), (∀ e ∈ N, Mem g e.1) → Dict.keys C = Dict.keys g →
    ∃ C' P' q' S', bfRelax u N C P q S = .ok (C', P', q', S') ∧ Dict.keys C' = Dict.keys g ∧ ∀ v ∈ q', v ∈ q ∨ Mem g v := by
  intro N
  induction N with
  | nil => intro C P q S _ hC; exact ⟨C, P, q, S, rfl, hC, fun v hv => .inl hv⟩
  | cons a N ih =>
    obtain ⟨v, x⟩ := a
    intro C P q S hN hC
    have hv : Mem g v := hN (v, x) (by simp)
    obtain ⟨cu, hcu⟩ := Dict.get?_isSome.2 (show u ∈ Dict.keys C by rw [hC]; exact hu)
    obtain ⟨cv, hcv⟩ := Dict.get?_isSome.2 (show v ∈ Dict.keys C by rw [hC]; exact hv)
    have hk : Dict.keys (Dict.set C v (cu + (x : WithTop W))) = Dict.keys g := by
      rw [Dict.keys_set, if_pos (by rw [hC]; exact hv)]; exact hC
    have hN' : ∀ e ∈ N, Mem g e.1 := fun e he => hN e (by simp [he])
    rw [bfRelax, hcu, hcv]
    dsimp only
    split
    · split
      · exact ih _ _ _ _ hN' hk
      · obtain ⟨C', P', q', S', h1, h2, h3⟩ := ih (Dict.set C v (cu + (x : WithTop W))) (Dict.set P v (some u)) (q ++ [v]) (insert v S) hN' hk
        refine ⟨C', P', q', S', h1, h2, fun y hy => ?_⟩
        rcases h3 y hy with h | h
        · rcases List.mem_append.1 h with h | h
          · exact .inl h
          · rw [List.mem_singleton.1 h]; exact .inr hv
        · exact .inr h
    · exact ih _ _ _ _ hN' hC

/-- How often the vertex can still be taken from the queue. -/
def left (n : ℕ) (count : Dict V ℕ) (u : V) : ℕ := n - (Dict.get? count u).getD 0

theorem left_set (n : ℕ) (count : Dict V ℕ) (f : V → ℕ) {s : Finset V} {u : V} (hu : u ∈ s) {k : ℕ}
    (hk : Dict.get? count u = some k) (hn : k < n) :
    f u + ∑ v ∈ s, left n (Dict.set count u (k + 1)) v * f v = ∑ v ∈ s, left n count v * f v := by
  rw [← Finset.add_sum_erase _ _ hu, ← Finset.add_sum_erase (f := fun v => left n count v * f v) _ hu, ← Nat.add_assoc]
  congr 1
  · rw [left, left, Dict.get?_set, if_pos rfl, hk, Option.getD_some, Option.getD_some,
      show n - k = n - (k + 1) + 1 by omega, Nat.add_mul, Nat.one_mul, Nat.add_comm]
  · refine Finset.sum_congr rfl fun v hv => ?_
    rw [left, left, Dict.get?_set, if_neg (Finset.ne_of_mem_erase hv).symm]

theorem bfLoopC_spec {g : Graph V W} (hg : Good g) (n : ℕ) : ∀ (F : ℕ) (count : Dict V ℕ) (C : Dict V (WithTop W))
    (P : Dict V (Option V)) (q : List V) (S : Finset V) (pops scans : ℕ), Dict.keys C = Dict.keys g →
    Dict.keys count = Dict.keys g → (∀ v ∈ q, Mem g v) → ∑ v ∈ vertexSet g, left n count v * 1 = F →
    ∃ r pops' scans', bfLoopC g n count C P q S pops scans = some (r, pops', scans') ∧
      bfLoop g n count C P q S = some r ∧ pops' ≤ pops + F + 1 ∧
      scans' ≤ scans + ∑ v ∈ vertexSet g, left n count v * degOf g v := by
  intro F
  induction F using Nat.strong_induction_on with
  | _ F ih =>
    intro count C P q S pops scans hC hc hq hF
    rw [bfLoopC.eq_def, bfLoop.eq_def]
    cases q with
    | nil => exact ⟨_, pops, scans, rfl, rfl, by omega, by omega⟩
    | cons u q =>
      have hu : Mem g u := hq u (by simp)
      obtain ⟨N, hN⟩ := mem_iff.1 hu
      obtain ⟨k, hk⟩ := Dict.get?_isSome.2 (show u ∈ Dict.keys count by rw [hc]; exact hu)
      dsimp only
      rw [hk, hN]
      dsimp only
      by_cases hn : n + 1 ≤ k + 1
      · rw [if_pos hn, if_pos hn]
        exact ⟨_, pops + 1, scans, rfl, rfl, by omega, by omega⟩
      · rw [if_neg hn, if_neg hn]
        obtain ⟨C', P', q', S', h1, h2, h3⟩ := bfRelax_ok hu N C P q (S.erase u) (mem_of_entry hg hN) hC
        rw [h1]
        dsimp only
        have hus : u ∈ vertexSet g := List.mem_toFinset.2 hu
        have e1 := left_set n count (fun _ => 1) hus hk (by omega)
        have e2 := left_set n count (degOf g) hus hk (by omega)
        rw [degOf_eq hN] at e2
        obtain ⟨r, p', s', i1, i2, i3, i4⟩ := ih _ (by rw [← hF, ← e1]; omega) (Dict.set count u (k + 1)) C' P' q' S' (pops + 1)
          (scans + N.length) h2 (by rw [Dict.keys_set, if_pos (by rw [hc]; exact hu)]; exact hc)
          (fun v hv => (h3 v hv).elim (fun h => hq v (by simp [h])) id) rfl
        exact ⟨r, p', s', i1, i2, by omega, by omega⟩

/-! ## `dijkstra_buckets` -/

/-- The number of elements of all buckets. -/
def tot (B : Dict ℤ (List V)) : ℕ := (B.map (fun e => e.2.length)).sum

theorem tot_push (B : Dict ℤ (List V)) (k : ℤ) (v : V) : tot (Dict.set B k ((Dict.get? B k).getD [] ++ [v])) = tot B + 1 := by
  induction B with
  | nil => simp [Dict.set, Dict.get?, tot]
  | cons a B ih =>
    obtain ⟨j, l⟩ := a
    rw [Dict.set, Dict.get?]
    by_cases h : j = k
    · rw [if_pos h, if_pos h]
      simp [tot]; omega
    · rw [if_neg h, if_neg h]
      simp only [tot, List.map_cons, List.sum_cons] at ih ⊢
      omega

theorem tot_erase (B : Dict ℤ (List V)) (k : ℤ) : tot (Dict.erase B k) + ((Dict.get? B k).getD []).length = tot B := by
  induction B with
  | nil => simp [Dict.erase, Dict.get?, tot]
  | cons a B ih =>
    obtain ⟨j, l⟩ := a
    rw [Dict.erase, Dict.get?]
    by_cases h : j = k
    · rw [if_pos h, if_pos h]
      simp [tot]; omega
    · rw [if_neg h, if_neg h]
      simp only [tot, List.map_cons, List.sum_cons] at ih ⊢
      omega

theorem relaxBuckets_ok {g : Graph V W} {asInt : W → Option ℤ} {c : ℤ} (w : ℤ) (u : V) : ∀ (N : Dict V W)
    (D : Dict V (WithTop ℤ)) (P : Dict V (Option V)) (B : Dict ℤ (List V)),
    (∀ e ∈ N, Mem g e.1 ∧ ∃ i, asInt e.2 = some i ∧ 0 ≤ i ∧ i ≤ c) → Dict.keys D = Dict.keys g → Dict.WF B →
    ∃ D' P' B', relaxBuckets asInt w u N D P B = .ok (D', P', B') ∧ Dict.keys D' = Dict.keys g ∧ Dict.WF B' ∧
      (∀ k ∈ Dict.keys B', k ∈ Dict.keys B ∨ (w ≤ k ∧ k ≤ w + c)) ∧ tot B' ≤ tot B + N.length ∧
      (∀ k, ∃ l, (Dict.get? B' k).getD [] = (Dict.get? B k).getD [] ++ l) ∧ (∀ k ∈ Dict.keys B, k ∈ Dict.keys B') ∧
      (∀ k l, Dict.get? B' k = some l → (Dict.get? B k = some l) ∨ l ≠ []) ∧
      (∀ k l, Dict.get? B' k = some l → ∀ v ∈ l, (v ∈ (Dict.get? B k).getD []) ∨ Mem g v) := by
  intro N
  induction N with
  | nil =>
    intro D P B _ hD hB
    exact ⟨D, P, B, rfl, hD, hB, fun k hk => .inl hk, le_refl _, fun k => ⟨[], by simp⟩, fun k hk => hk, fun k l h => .inl h,
      fun k l h v hv => .inl (by rw [h]; exact hv)⟩
  | cons a N ih =>
    obtain ⟨v, x⟩ := a
    intro D P B hN hD hB
    obtain ⟨hv, i, hi, h0, hc⟩ := hN (v, x) (by simp)
    obtain ⟨dv, hdv⟩ := Dict.get?_isSome.2 (show v ∈ Dict.keys D by rw [hD]; exact hv)
    have hN' : ∀ e ∈ N, Mem g e.1 ∧ ∃ i, asInt e.2 = some i ∧ 0 ≤ i ∧ i ≤ c := fun e he => hN e (by simp [he])
    rw [relaxBuckets]
    simp only at hi
    rw [hi]
    dsimp only
    rw [hdv]
    dsimp only
    split
    · obtain ⟨D', P', B', h1, h2, h3, h4, h5, h6, h7, h8, h9⟩ := ih (Dict.set D v ((w + i : ℤ) : WithTop ℤ)) (Dict.set P v (some u))
        (Dict.set B (w + i) ((Dict.get? B (w + i)).getD [] ++ [v])) hN'
        (by rw [Dict.keys_set, if_pos (by rw [hD]; exact hv)]; exact hD) (hB.set _ _)
      rw [tot_push] at h5
      refine ⟨D', P', B', h1, h2, h3, fun k hk => ?_, by rw [List.length_cons]; omega, fun k => ?_, fun k hk => ?_, fun k l hl => ?_,
        fun k l hl y hy => ?_⟩
      · rcases h4 k hk with h | h
        · rcases Dict.mem_keys_set.1 h with h | h
          · exact .inr (by omega)
          · exact .inl h
        · exact .inr h
      · obtain ⟨l, hl⟩ := h6 k
        rw [Dict.get?_set] at hl
        split at hl
        · rename_i e
          subst e
          exact ⟨[v] ++ l, by rw [hl]; simp⟩
        · exact ⟨l, hl⟩
      · exact h7 k (Dict.mem_keys_set.2 (.inr hk))
      · rcases h8 k l hl with h | h
        · rw [Dict.get?_set] at h
          split at h
          · injection h with h
            exact .inr (by rw [← h]; simp)
          · exact .inl h
        · exact .inr h
      · rcases h9 k l hl y hy with h | h
        · rw [Dict.get?_set] at h
          split at h
          · rename_i e
            subst e
            rw [Option.getD_some] at h
            rcases List.mem_append.1 h with h | h
            · exact .inl h
            · rw [List.mem_singleton.1 h]; exact .inr hv
          · exact .inl h
        · exact .inr h
    · obtain ⟨D', P', B', h1, h2, h3, h4, h5, h6, h7, h8, h9⟩ := ih D P B hN' hD hB
      exact ⟨D', P', B', h1, h2, h3, h4, by rw [List.length_cons]; omega, h6, h7, h8, h9⟩

theorem findBucketC_spec (B : Dict ℤ (List V)) : ∀ (d : ℕ) (w : ℤ) (k : ℕ), w + d ∈ Dict.keys B →
    ∃ (w' : ℤ) (j : ℕ), findBucketC B w k = some (w', k + j + 1) ∧ findBucket B w = some w' ∧ w' = w + j ∧ w' ∈ Dict.keys B ∧
      ∀ x ∈ Dict.keys B, w ≤ x → w' ≤ x := by
  intro d
  induction d with
  | zero =>
    intro w k hw
    rw [Nat.cast_zero, add_zero] at hw
    refine ⟨w, 0, ?_, ?_, by simp, hw, fun x _ h => h⟩
    · rw [findBucketC.eq_def, if_pos hw]
    · rw [findBucket.eq_def, if_pos hw]
  | succ d ih =>
    intro w k hw
    rw [findBucketC.eq_def, findBucket.eq_def]
    by_cases h : w ∈ Dict.keys B
    · rw [if_pos h, if_pos h]
      exact ⟨w, 0, rfl, rfl, by simp, h, fun x _ h => h⟩
    · rw [if_neg h, if_neg h]
      obtain ⟨w', j, h1, h2, h3, h4, h5⟩ := ih (w + 1) (k + 1) (by rw [show w + 1 + (d : ℤ) = w + ((d + 1 : ℕ) : ℤ) by push_cast; ring]; exact hw)
      refine ⟨w', j + 1, by rw [h1]; congr 2; omega, h2, by rw [h3]; push_cast; ring, h4, fun x hx hwx => h5 x hx ?_⟩
      rcases eq_or_lt_of_le hwx with e | e
      · exact absurd (e ▸ hx) h
      · omega

/-- What holds between the passes of `dijkstra_buckets`: the bucket keys are at least `w` and at most `c` times the number of
visited vertices. -/
structure BkCost (g : Graph V W) (c w : ℤ) (D : Dict V (WithTop ℤ)) (B : Dict ℤ (List V)) (vis : Finset V) : Prop where
  keysD : Dict.keys D = Dict.keys g
  wf : Dict.WF B
  low : ∀ k ∈ Dict.keys B, w ≤ k
  high : ∀ k ∈ Dict.keys B, k ≤ vis.card * c
  ne : ∀ k l, Dict.get? B k = some l → l ≠ []
  mem : ∀ k l, Dict.get? B k = some l → ∀ v ∈ l, Mem g v
  vis : ∀ v ∈ vis, Mem g v

theorem visitBucketC_spec {g : Graph V W} (hg : Good g) {asInt : W → Option ℤ} {c : ℤ} (hc0 : 0 ≤ c)
    (hw : ∀ u v x, adj g u v = some x → ∃ i, asInt x = some i ∧ 0 ≤ i ∧ i ≤ c) (w : ℤ) : ∀ (F i : ℕ)
    (D : Dict V (WithTop ℤ)) (P : Dict V (Option V)) (B : Dict ℤ (List V)) (vis : Finset V) (pops scans : ℕ),
    BkCost g c w D B vis → w ∈ Dict.keys B → i ≤ ((Dict.get? B w).getD []).length → tot B + restDeg g vis = F + i →
    ∃ D' P' B' vis' pops' scans', visitBucketC asInt g w i D P B vis pops scans = some (.ok (D', P', B', vis'), pops', scans') ∧
      visitBucket asInt g w i D P B vis = some (.ok (D', P', B', vis')) ∧ BkCost g c w D' B' vis' ∧ w ∈ Dict.keys B' ∧
      pops' + tot (Dict.erase B' w) + restDeg g vis' ≤ pops + F ∧ scans' + restDeg g vis' ≤ scans + restDeg g vis ∧
      pops + (((Dict.get? B w).getD []).length - i) ≤ pops' := by
  intro F
  induction F using Nat.strong_induction_on with
  | _ F ih =>
    intro i D P B vis pops scans hI hwB hi hF
    rw [visitBucketC.eq_def, visitBucket.eq_def]
    cases hu : ((Dict.get? B w).getD [])[i]? with
    | none =>
      have := List.getElem?_eq_none_iff.1 hu
      have ht := tot_erase B w
      exact ⟨D, P, B, vis, pops, scans, rfl, rfl, hI, hwB, by omega, by omega, by omega⟩
    | some u =>
      obtain ⟨hlt, hui⟩ := List.getElem?_eq_some_iff.1 hu
      obtain ⟨l, hl⟩ := Dict.get?_isSome.2 hwB
      have hum : Mem g u := by
        refine hI.mem w l hl u ?_
        rw [← hui]
        have : (Dict.get? B w).getD [] = l := by rw [hl]; rfl
        exact this ▸ List.getElem_mem _
      have ht := tot_erase B w
      dsimp only
      by_cases hv : u ∈ vis
      · rw [if_pos hv, if_pos hv]
        obtain ⟨D', P', B', vis', p', s', h1, h2, h3, h4, h5, h6, h7⟩ := ih (F - 1) (by omega) (i + 1) D P B vis (pops + 1) scans hI hwB
          (by omega) (by omega)
        exact ⟨D', P', B', vis', p', s', h1, h2, h3, h4, by omega, h6, by omega⟩
      · rw [if_neg hv, if_neg hv]
        obtain ⟨N, hN⟩ := mem_iff.1 hum
        have hr := restDeg_insert hN hv
        have hN' : ∀ e ∈ N, Mem g e.1 ∧ ∃ i, asInt e.2 = some i ∧ 0 ≤ i ∧ i ≤ c := by
          intro e he
          refine ⟨mem_of_entry hg hN e he, hw u e.1 e.2 ?_⟩
          rw [adj, hN]
          exact Dict.get?_of_mem (hg.inner u N hN) he
        obtain ⟨D1, P1, B1, r1, r2, r3, r4, r5, r6, r7, r8, r9⟩ := relaxBuckets_ok w u N D P B hN' hI.keysD hI.wf
        rw [hN]
        dsimp only
        rw [r1]
        dsimp only
        have hcard : ((insert u vis).card : ℤ) = vis.card + 1 := by
          rw [Finset.card_insert_of_notMem hv]; push_cast; ring
        have hI' : BkCost g c w D1 B1 (insert u vis) := by
          refine ⟨r2, r3, fun k hk => ?_, fun k hk => ?_, fun k l hl => ?_, fun k l hl y hy => ?_, fun y hy => ?_⟩
          · rcases r4 k hk with h | h
            · exact hI.low k h
            · exact h.1
          · rw [hcard, add_mul, one_mul]
            rcases r4 k hk with h | h
            · have := hI.high k h; omega
            · have := hI.high w hwB; omega
          · rcases r8 k l hl with h | h
            · exact hI.ne k l h
            · exact h
          · rcases r9 k l hl y hy with h | h
            · cases hk : Dict.get? B k with
              | none => rw [hk] at h; simp at h
              | some l' =>
                rw [hk] at h
                exact hI.mem k l' hk y h
            · exact h
          · rcases Finset.mem_insert.1 hy with rfl | hy
            · exact hum
            · exact hI.vis y hy
        obtain ⟨m, hm⟩ := r6 w
        have hlen := congrArg List.length hm
        rw [List.length_append] at hlen
        have ht1 := tot_erase B1 w
        obtain ⟨D', P', B', vis', p', s', h1, h2, h3, h4, h5, h6, h7⟩ := ih (tot B1 + restDeg g (insert u vis) - (i + 1)) (by omega) (i + 1) D1 P1 B1
          (insert u vis) (pops + 1) (scans + N.length) hI' (r7 w hwB) (by omega) (by omega)
        exact ⟨D', P', B', vis', p', s', h1, h2, h3, h4, by omega, by omega, by omega⟩

theorem bucketsLoopC_spec {g : Graph V W} (hg : Good g) {asInt : W → Option ℤ} {c : ℤ} (hc0 : 0 ≤ c)
    (hw : ∀ u v x, adj g u v = some x → ∃ i, asInt x = some i ∧ 0 ≤ i ∧ i ≤ c) : ∀ (F : ℕ) (w : ℤ)
    (D : Dict V (WithTop ℤ)) (P : Dict V (Option V)) (B : Dict ℤ (List V)) (vis : Finset V) (tries pops scans : ℕ),
    BkCost g c w D B vis → w ≤ g.length * c → tot B + restDeg g vis = F →
    ∃ r tries' pops' scans', bucketsLoopC asInt g w D P B vis tries pops scans = some (.ok r, tries', pops', scans') ∧
      bucketsLoop asInt g w D P B vis = some (.ok r) ∧ (tries' : ℤ) ≤ tries + (g.length * c - w) + F ∧ pops' ≤ pops + F ∧
      scans' ≤ scans + restDeg g vis := by
  intro F
  induction F using Nat.strong_induction_on with
  | _ F ih =>
    intro w D P B vis tries pops scans hI hwn hF
    rw [bucketsLoopC.eq_def, bucketsLoop.eq_def]
    by_cases hB : B = []
    · rw [if_pos hB, if_pos hB]
      exact ⟨_, tries, pops, scans, rfl, rfl, by omega, by omega, by omega⟩
    · rw [if_neg hB, if_neg hB]
      obtain ⟨⟨k, l⟩, B0, rfl⟩ := List.exists_cons_of_ne_nil hB
      have hkB : k ∈ Dict.keys (((k, l) :: B0 : Dict ℤ (List V))) := by simp [Dict.keys]
      obtain ⟨w', j, f1, f2, f3, f4, f5⟩ := findBucketC_spec ((k, l) :: B0) (k - w).toNat w tries
        (by have := hI.low k hkB; rw [Int.toNat_of_nonneg (by omega)]; simpa using hkB)
      rw [f1, f2]
      simp only [bind, Option.bind]
      have hI1 : BkCost g c w' D ((k, l) :: B0) vis := ⟨hI.keysD, hI.wf, fun x hx => f5 x hx (hI.low x hx), hI.high, hI.ne, hI.mem, hI.vis⟩
      obtain ⟨D', P', B', vis', p', s', h1, h2, h3, h4, h5, h6, h7⟩ := visitBucketC_spec hg hc0 hw w' F 0 D P ((k, l) :: B0) vis pops scans hI1 f4
        (Nat.zero_le _) (by omega)
      rw [h1, h2]
      dsimp only
      obtain ⟨l', hl'⟩ := Dict.get?_isSome.2 f4
      have hpos : 0 < ((Dict.get? ((k, l) :: B0 : Dict ℤ (List V)) w').getD []).length := by
        rw [hl', Option.getD_some]
        exact List.length_pos_of_ne_nil (hI.ne w' l' hl')
      have hI2 : BkCost g c w' D' (Dict.erase B' w') vis' := by
        refine ⟨h3.keysD, h3.wf.erase _, fun x hx => h3.low x ((Dict.mem_keys_erase h3.wf).1 hx).2,
          fun x hx => h3.high x ((Dict.mem_keys_erase h3.wf).1 hx).2, fun x m hm => ?_, fun x m hm => ?_, h3.vis⟩
        · rw [Dict.get?_erase h3.wf] at hm
          split at hm
          · simp at hm
          · exact h3.ne x m hm
        · rw [Dict.get?_erase h3.wf] at hm
          split at hm
          · simp at hm
          · exact h3.mem x m hm
      have hwn' : w' ≤ g.length * c := by
        have h8 := h3.high w' h4
        have h9 : (vis'.card : ℤ) ≤ g.length := by
          have : vis'.card ≤ (vertexSet g).card := Finset.card_le_card fun y hy => List.mem_toFinset.2 (h3.vis y hy)
          have h10 := List.toFinset_card_le (Dict.keys g)
          have h11 : (Dict.keys g).length = g.length := by simp [Dict.keys]
          have : vis'.card ≤ g.length := by
            rw [← h11]; exact this.trans h10
          exact_mod_cast this
        exact h8.trans (mul_le_mul_of_nonneg_right h9 hc0)
      obtain ⟨r, t', q', u', i1, i2, i3, i4, i5⟩ := ih (tot (Dict.erase B' w') + restDeg g vis') (by omega) w' D' P' (Dict.erase B' w') vis'
        (tries + j + 1) p' s' hI2 hwn' rfl
      refine ⟨r, t', q', u', i1, i2, ?_, by omega, by omega⟩
      push_cast at i3
      omega

end Rosemary.Paths

namespace Rosemary.SpanningTrees

open Graph Paths BigOperators

variable {V W : Type} [LinearOrder V] [AddCommMonoid W] [LinearOrder W]

theorem primRelax_ok {g : Graph V W} (u : V) (vis : Finset V) : ∀ (N : Dict V W) (D : Dict V (WithTop W)) (P : Dict V (Option V)) (H : List (W × V)),
    (∀ e ∈ N, Mem g e.1) → Dict.keys D = Dict.keys g →
    ∃ D' P' H', primRelax u vis N D P H = .ok (D', P', H') ∧ Dict.keys D' = Dict.keys g ∧ H'.length ≤ H.length + N.length ∧
      ∀ e ∈ H', e ∈ H ∨ Mem g e.2 := by
  intro N
  induction N with
  | nil => intro D P H _ hD; exact ⟨D, P, H, rfl, hD, le_refl _, fun e he => .inl he⟩
  | cons a N ih =>
    obtain ⟨v, x⟩ := a
    intro D P H hN hD
    have hv : Mem g v := hN (v, x) (by simp)
    obtain ⟨dv, hdv⟩ := Dict.get?_isSome.2 (show v ∈ Dict.keys D by rw [hD]; exact hv)
    rw [primRelax, hdv]
    dsimp only
    split
    · obtain ⟨D', P', H', h1, h2, h3, h4⟩ := ih D P H (fun e he => hN e (by simp [he])) hD
      exact ⟨D', P', H', h1, h2, by simp only [List.length_cons]; omega, h4⟩
    · split
      · obtain ⟨D', P', H', h1, h2, h3, h4⟩ := ih (Dict.set D v (x : WithTop W)) (Dict.set P v (some u)) ((x, v) :: H)
          (fun e he => hN e (by simp [he])) (by rw [Dict.keys_set, if_pos (by rw [hD]; exact hv)]; exact hD)
        refine ⟨D', P', H', h1, h2, by simp only [List.length_cons] at h3 ⊢; omega, fun e he => ?_⟩
        rcases h4 e he with h | h
        · rcases List.mem_cons.1 h with rfl | h
          · exact .inr hv
          · exact .inl h
        · exact .inr h
      · obtain ⟨D', P', H', h1, h2, h3, h4⟩ := ih D P H (fun e he => hN e (by simp [he])) hD
        exact ⟨D', P', H', h1, h2, by simp only [List.length_cons]; omega, h4⟩

theorem primLoopC_spec {g : Graph V W} (hg : Good g) : ∀ (F : ℕ) (D : Dict V (WithTop W)) (P : Dict V (Option V))
    (H : List (W × V)) (vis : Finset V) (pops scans : ℕ), Dict.keys D = Dict.keys g → (∀ e ∈ H, Mem g e.2) →
    H.length + restDeg g vis = F →
    ∃ r pops' scans', primLoopC g D P H vis pops scans = some (.ok r, pops', scans') ∧
      primLoop g D P H vis = some (.ok r) ∧ pops' ≤ pops + F ∧ scans' ≤ scans + restDeg g vis := by
  intro F
  induction F using Nat.strong_induction_on with
  | _ F ih =>
    intro D P H vis pops scans hD hH hF
    rw [primLoopC.eq_def, primLoop.eq_def]
    cases hp : popMin key2 H with
    | none => exact ⟨_, pops, scans, rfl, rfl, by omega, by omega⟩
    | some e =>
      obtain ⟨⟨w, u⟩, H'⟩ := e
      obtain ⟨p1, -⟩ := popMin_some key2 hp
      have hl := p1.length_eq
      rw [List.length_cons] at hl
      have hu : Mem g u := hH (w, u) (p1.mem_iff.2 (by simp))
      have hH' : ∀ e ∈ H', Mem g e.2 := fun e he => hH e (p1.mem_iff.2 (by simp [he]))
      dsimp only
      by_cases hv : u ∈ vis
      · rw [if_pos hv, if_pos hv]
        obtain ⟨r, p', s', h1, h2, h3, h4⟩ := ih (H'.length + restDeg g vis) (by omega) D P H' vis (pops + 1) scans hD hH' rfl
        exact ⟨r, p', s', h1, h2, by omega, h4⟩
      · rw [if_neg hv, if_neg hv]
        obtain ⟨N, hN⟩ := mem_iff.1 hu
        have hr := restDeg_insert hN hv
        obtain ⟨D', P', H2, h1, h2, h3, h4⟩ := primRelax_ok u (insert u vis) N D P H' (mem_of_entry hg hN) hD
        rw [hN]
        dsimp only
        rw [h1]
        dsimp only
        obtain ⟨r, p', s', i1, i2, i3, i4⟩ := ih (H2.length + restDeg g (insert u vis)) (by omega) D' P' H2 (insert u vis) (pops + 1)
          (scans + N.length) h2 (fun e he => (h4 e he).elim (hH' e) id) rfl
        exact ⟨r, p', s', i1, i2, by omega, by omega⟩

end Rosemary.SpanningTrees

namespace Rosemary.Traversal

open Graph

variable {V W : Type} [DecidableEq V]

/-- Every element put on the queue is taken from it once, and the entries of its dictionary are looked at once. -/
theorem bfsLoopC_spec {g : Graph V W} (md : Option ℤ) {q : List (V × ℤ)} {vis : Finset V} {r : List V × Option PyErr}
    (h : bfsLoop g md q vis = some r) :
    ∃ pops scans, bfsLoopC g md q vis = some (r, pops, scans) ∧ pops ≤ q.length + r.1.length ∧
      scans ≤ (q.map (fun e => degOf g e.1)).sum + (r.1.map (degOf g)).sum ∧
      (r.2 = none → pops = q.length + r.1.length ∧
        (md = none → scans = (q.map (fun e => degOf g e.1)).sum + (r.1.map (degOf g)).sum)) := by
  refine bfsLoop.partial_correctness g md
    (motive := fun q vis r => ∃ pops scans, bfsLoopC g md q vis = some (r, pops, scans) ∧ pops ≤ q.length + r.1.length ∧
      scans ≤ (q.map (fun e => degOf g e.1)).sum + (r.1.map (degOf g)).sum ∧
      (r.2 = none → pops = q.length + r.1.length ∧
        (md = none → scans = (q.map (fun e => degOf g e.1)).sum + (r.1.map (degOf g)).sum))) ?_ q vis r h
  intro f ih q vis r h
  rw [bfsLoopC.eq_def]
  cases q with
  | nil =>
    simp only [Option.some.injEq] at h
    subst h
    exact ⟨0, 0, rfl, by simp, by simp, by simp⟩
  | cons e q =>
    obtain ⟨u, d⟩ := e
    dsimp only at h ⊢
    by_cases hb : below md d = true
    · rw [if_pos hb] at h ⊢
      cases hN : Dict.get? g u with
      | none =>
        rw [hN] at h
        simp only [Option.some.injEq] at h
        subst h
        exact ⟨1, 0, rfl, by simp, by simp, by simp⟩
      | some N =>
        rw [hN] at h
        simp only [bind, Option.bind] at h ⊢
        split at h
        · simp at h
        · rename_i r' hr'
          obtain ⟨p, s, i1, i2, i3, i4⟩ := ih _ _ _ hr'
          rw [i1]
          simp only [Option.some.injEq] at h
          subst h
          have e1 : degOf g u = N.length := degOf_eq hN
          have e2 : ((fun e : V × ℤ => degOf g e.1) ∘ fun v => (v, d + 1)) = degOf g := by funext v; rfl
          simp only [List.map_append, List.sum_append, List.map_map, List.map_cons, List.sum_cons, e1, e2,
            List.length_append, List.length_map, List.length_cons] at i2 i3 i4 ⊢
          refine ⟨p + 1, s + N.length, rfl, by omega, by omega, fun hr => ?_⟩
          obtain ⟨i5, i6⟩ := i4 hr
          refine ⟨by omega, fun hm => ?_⟩
          have := i6 hm
          omega
    · rw [if_neg hb] at h ⊢
      obtain ⟨p, s, i1, i2, i3, i4⟩ := ih _ _ _ h
      simp only [bind, Option.bind]
      rw [i1]
      simp only [List.map_cons, List.sum_cons, List.length_cons]
      refine ⟨p + 1, s, rfl, by omega, by omega, fun hr => ⟨by have := (i4 hr).1; omega, fun hm => ?_⟩⟩
      subst hm
      exact absurd rfl hb

theorem breadthFirstSearchC_spec {g : Graph V W} {start : V} {md : Option ℤ} {r : List V × Option PyErr}
    (h : breadthFirstSearch g start md = some r) :
    ∃ pops scans, breadthFirstSearchC g start md = some (r, pops, scans) ∧ pops ≤ r.1.length ∧ scans ≤ (r.1.map (degOf g)).sum ∧
      (r.2 = none → pops = r.1.length ∧ (md = none → scans = (r.1.map (degOf g)).sum)) := by
  rw [breadthFirstSearch] at h
  simp only [bind, Option.bind] at h
  split at h
  · simp at h
  · rename_i r' hr'
    obtain ⟨p, s, h1, h2, h3, h4⟩ := bfsLoopC_spec md hr'
    simp only [Option.some.injEq] at h
    subst h
    refine ⟨p, s, ?_, ?_, ?_, fun hr => ⟨?_, fun hm => ?_⟩⟩
    · rw [breadthFirstSearchC, h1]; rfl
    · simp only [List.length_cons, List.length_nil] at h2 ⊢; omega
    · simpa using h3
    · have := (h4 hr).1
      simp only [List.length_cons, List.length_nil] at this ⊢; omega
    · simpa using (h4 hr).2 hm

theorem componentsLoopC_spec {g : Graph V W} : ∀ (us : List V) (vis : Finset V) (cs : List (List V)),
    componentsLoop g us vis = some (.ok cs) →
    ∃ pops scans, componentsLoopC g us vis = some (.ok cs, pops, scans) ∧ pops = cs.flatten.length ∧
      scans = (cs.flatten.map (degOf g)).sum := by
  intro us
  induction us with
  | nil =>
    intro vis cs h
    rw [componentsLoop] at h
    simp only [Option.some.injEq, Except.ok.injEq] at h
    subst h
    exact ⟨0, 0, rfl, by simp, by simp⟩
  | cons u us ih =>
    intro vis cs h
    rw [componentsLoop] at h
    rw [componentsLoopC]
    by_cases hu : u ∈ vis
    · rw [if_pos hu] at h ⊢
      exact ih vis cs h
    · rw [if_neg hu] at h ⊢
      cases hb : breadthFirstSearch g u none with
      | none => rw [hb] at h; simp at h
      | some r =>
        obtain ⟨p, s, h1, -, -, h2⟩ := breadthFirstSearchC_spec hb
        rw [hb] at h
        rw [h1]
        dsimp only at h ⊢
        cases hr : toList r with
        | error e => rw [hr] at h; simp at h
        | ok c =>
          have hc : r.1 = c ∧ r.2 = none := by
            unfold toList at hr
            split at hr
            · rename_i hr2
              injection hr with hr
              exact ⟨hr, hr2⟩
            · simp at hr
          obtain ⟨hc, hn⟩ := hc
          obtain ⟨h2, h3⟩ := h2 hn
          have h3 := h3 rfl
          rw [hr] at h
          dsimp only at h ⊢
          cases hl : componentsLoop g us (vis ∪ c.toFinset) with
          | none => rw [hl] at h; simp at h
          | some e =>
            rw [hl] at h
            cases e with
            | error e => simp at h
            | ok cs' =>
              simp only [Option.some.injEq, Except.ok.injEq] at h
              subst h
              obtain ⟨p', s', i1, i2, i3⟩ := ih _ _ hl
              rw [i1]
              refine ⟨p + p', s + s', rfl, ?_, ?_⟩
              · rw [hc] at h2
                simp only [List.flatten_cons, List.length_append]
                omega
              · rw [hc] at h3
                simp only [List.flatten_cons, List.map_append, List.sum_append]
                omega

end Rosemary.Traversal
