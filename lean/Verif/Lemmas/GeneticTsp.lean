import Verif.Model.GeneticTsp
import Verif.Lemmas.TwoOpt
import Mathlib.Data.Finset.Card
import Mathlib.Data.Finset.Range
import Mathlib.Data.Finset.Dedup

/-!
# Lemmas for `genetic_tsp.py`
-/

namespace Rosemary.GeneticTsp

open Rosemary.Spec Rosemary.Tsp

/-! ## Reversal of a stretch of the circle -/

theorem circle_up (n j : ℕ) (hj : j < n) (d k : ℕ) (hd : j = k + d + 1) (acc : List ℕ) :
    circle n j k acc = some (acc ++ List.range' k (d + 2)) := by
  induction d generalizing k acc with
  | zero =>
    rw [circle, if_pos (by rw [Nat.mod_eq_of_lt (by omega)]; omega), Nat.mod_eq_of_lt (by omega)]
    simp [List.range'_succ]
  | succ d ih =>
    rw [circle, if_neg (by rw [Nat.mod_eq_of_lt (by omega)]; omega), Nat.mod_eq_of_lt (by omega),
      ih (k + 1) (by omega)]
    rw [List.append_assoc]
    congr 1

theorem circle_spec (n j : ℕ) (d k : ℕ) (hjk : j < k) (hd : n = k + d + 1) (acc : List ℕ) :
    circle n j k acc = some (acc ++ (List.range' k (d + 1) ++ List.range (j + 1))) := by
  induction d generalizing k acc with
  | zero =>
    have h0 : (k + 1) % n = 0 := by rw [hd]; simp
    by_cases hj : j = 0
    · subst hj
      rw [circle, if_pos h0, h0]
      simp
    · rw [circle, if_neg (by omega), h0, circle_up n j (by omega) (j - 1) 0 (by omega)]
      rw [List.append_assoc, show j - 1 + 2 = j + 1 by omega, List.range_eq_range']
      simp
  | succ d ih =>
    rw [circle, if_neg (by rw [Nat.mod_eq_of_lt (by omega)]; omega), Nat.mod_eq_of_lt (by omega),
      ih (k + 1) (by omega) (by omega)]
    rw [List.append_assoc]
    congr 1

theorem assign_append (ps qs vs ws r : List ℕ) (h : ps.length = vs.length) :
    assign (ps ++ qs) (vs ++ ws) r = assign qs ws (assign ps vs r) := by
  induction ps generalizing vs r with
  | nil => cases vs with
    | nil => rfl
    | cons => simp at h
  | cons p ps ih => cases vs with
    | nil => simp at h
    | cons v vs => exact ih vs _ (by simpa using h)

theorem assign_range' (s : ℕ) (vs r : List ℕ) (h : s + vs.length ≤ r.length) :
    assign (List.range' s vs.length) vs r = r.take s ++ vs ++ r.drop (s + vs.length) := by
  induction vs generalizing s r with
  | nil => simp [assign]
  | cons v vs ih =>
    rw [List.length_cons] at h
    rw [List.length_cons, List.range'_succ, assign, ih (s + 1) (r.set s v) (by simp; omega)]
    have h1 : (r.set s v).take (s + 1) = r.take s ++ [v] := by
      apply List.ext_getElem
      · simp; omega
      · intro i h1 h2
        simp only [List.getElem_take, List.getElem_set, List.getElem_append, List.length_take]
        have : min s r.length = s := by omega
        simp only [this]
        simp only [List.length_take, List.length_set] at h1
        by_cases hi : s = i
        · subst hi; simp
        · rw [if_neg hi, dif_pos (by omega)]
    have h2 : (r.set s v).drop (s + 1 + vs.length) = r.drop (s + (vs.length + 1)) := by
      rw [List.drop_set_of_lt (by omega), show s + 1 + vs.length = s + (vs.length + 1) by omega]
    rw [h1, h2]
    simp

/-- `rev` reverses the stretch of the circle from position `k` to position `i`. -/
theorem rev_rotate (P : List ℕ) (k i : ℕ) (hk : k < P.length) (hi : i < P.length) (hne : k ≠ i) :
    ∃ Q seg rest, rev P k i = some Q ∧ P.rotate k = seg ++ rest ∧ Q.rotate k = seg.reverse ++ rest ∧
      seg.length = (i + P.length - k) % P.length + 1 ∧ Q.length = P.length := by
  rcases Nat.lt_or_gt_of_ne hne with h | h
  · refine ⟨_, (P.take (i + 1)).drop k, P.drop (i + 1) ++ P.take k, by rw [rev, if_pos h], ?_, ?_, ?_, ?_⟩
    · rw [List.rotate_eq_drop_append_take hk.le, ← List.append_assoc]
      congr 1
      conv_lhs => rw [← List.take_append_drop (i + 1) P]
      rw [List.drop_append_of_le_length (by simp; omega)]
    · have hl : (P.take k).length = k := by simp; omega
      have e := List.rotate_append_length_eq (P.take k) (((P.take (i + 1)).drop k).reverse ++ P.drop (i + 1))
      rw [hl] at e
      rw [List.append_assoc, e, List.append_assoc]
    · simp only [List.length_drop, List.length_take]
      rw [show i + P.length - k = (i - k) + P.length by omega, Nat.add_mod_right, Nat.mod_eq_of_lt (by omega)]
      omega
    · simp; omega
  · set vals := P.drop k ++ P.take (i + 1) with hvals
    have hlv : vals.length = P.length - k + (i + 1) := by simp [hvals]; omega
    have hmap : (List.range' k (P.length - k - 1 + 1) ++ List.range (i + 1)).map (fun l => P.getD l 0) = vals := by
      rw [List.map_append, List.range_eq_range', map_getD _ _ _ (by omega), map_getD _ _ _ (by omega), hvals]
      congr 1
      · rw [List.take_of_length_le (by simp; omega)]
    have hrl : vals.reverse.length = P.length - k + (i + 1) := by rw [List.length_reverse, hlv]
    have hQ : rev P k i = some (vals.reverse.drop (P.length - k) ++ (P.take k).drop (i + 1) ++
        vals.reverse.take (P.length - k)) := by
      rw [rev, if_neg (by omega), if_pos h, circle_spec P.length i (P.length - k - 1) k h (by omega)]
      dsimp only
      rw [List.nil_append, hmap]
      congr 1
      rw [← List.take_append_drop (P.length - k) vals.reverse, assign_append _ _ _ _ _ (by
        rw [List.length_range', List.length_take]; omega)]
      have l1 : (vals.reverse.take (P.length - k)).length = P.length - k := by rw [List.length_take]; omega
      have l2 : (vals.reverse.drop (P.length - k)).length = i + 1 := by rw [List.length_drop]; omega
      have e1 : assign (List.range' k (P.length - k - 1 + 1)) (vals.reverse.take (P.length - k)) P =
          P.take k ++ vals.reverse.take (P.length - k) := by
        have := assign_range' k (vals.reverse.take (P.length - k)) P (by rw [l1]; omega)
        rw [l1] at this
        rw [show P.length - k - 1 + 1 = P.length - k by omega, this,
          List.drop_of_length_le (by omega), List.append_nil]
      rw [e1]
      have e2 := assign_range' 0 (vals.reverse.drop (P.length - k)) (P.take k ++ vals.reverse.take (P.length - k)) (by
        rw [l2, List.length_append, l1, List.length_take]; omega)
      rw [l2] at e2
      rw [List.range_eq_range', e2]
      rw [List.take_zero, List.nil_append, zero_add, List.drop_append_of_le_length (by simp; omega)]
      rw [List.take_append_drop, List.append_assoc]
    refine ⟨_, vals, (P.take k).drop (i + 1), hQ, ?_, ?_, ?_, ?_⟩
    · rw [List.rotate_eq_drop_append_take hk.le, hvals, List.append_assoc]
      congr 1
      conv_lhs => rw [← List.take_append_drop (i + 1) (P.take k)]
      rw [List.take_take]
      congr 2
      omega
    · have hl : (vals.reverse.drop (P.length - k) ++ (P.take k).drop (i + 1)).length = k := by
        simp only [List.length_append, List.length_drop, List.length_take, hrl]; omega
      nth_rewrite 4 [← hl]
      rw [List.rotate_append_length_eq, ← List.append_assoc, List.take_append_drop]
    · rw [hlv, Nat.mod_eq_of_lt (by omega)]; omega
    · simp only [List.length_append, List.length_drop, List.length_take, hrl]; omega

variable {R : Type} [AddCommGroup R] [LinearOrder R]

/-- The effect of `rev` on the tour. -/
theorem rev_spec (P : List ℕ) (k i : ℕ) (hk : k < P.length) (hi : i < P.length) (hne : k ≠ i)
    (hne' : k ≠ (i + 1) % P.length) : ∃ Q, rev P k i = some Q ∧ Q.Perm P ∧
    ∀ D : ℕ → ℕ → R, (∀ i j, D i j = D j i) → tourLength D Q = tourLength D P -
      (D (P.getD i 0) (P.getD ((i + 1) % P.length) 0) + D (P.getD ((k + P.length - 1) % P.length) 0) (P.getD k 0)
        - D (P.getD ((i + 1) % P.length) 0) (P.getD k 0) - D (P.getD i 0) (P.getD ((k + P.length - 1) % P.length) 0)) := by
  obtain ⟨Q, seg, rest, h1, h2, h3, h4, h5⟩ := rev_rotate P k i hk hi hne
  set n := P.length with hn
  have hlen : seg.length + rest.length = n := by
    rw [← List.length_append, ← h2, List.length_rotate]
  refine ⟨Q, h1, ?_, ?_⟩
  · have e1 : (Q.rotate k).Perm Q := List.rotate_perm Q k
    have e2 : (P.rotate k).Perm P := List.rotate_perm P k
    rw [h3] at e1
    rw [h2] at e2
    exact e1.symm.trans (((List.reverse_perm seg).append_right rest).trans e2)
  · intro D hD
    have hat : ∀ t, t < n → (seg ++ rest).getD t 0 = P.getD ((t + k) % n) 0 := by
      intro t ht
      rw [← h2, List.getD_eq_getElem?_getD, List.getElem?_rotate ht, List.getD_eq_getElem?_getD]
    -- the lengths
    have hL : 2 ≤ seg.length := by
      rw [h4]
      have : (i + n - k) % n ≠ 0 := by
        intro h
        obtain ⟨c, hc⟩ := Nat.dvd_of_mod_eq_zero h
        have : c = 1 := by
          have c1 : c < 2 := by
            by_contra hc2
            have : n * 2 ≤ n * c := Nat.mul_le_mul_left _ (by omega)
            omega
          have c0 : c ≠ 0 := by rintro rfl; omega
          omega
        subst this
        omega
      omega
    have hmod : seg.length - 1 + k = i ∨ seg.length - 1 + k = i + n := by
      rw [h4]
      rcases Nat.lt_or_ge i k with h | h
      · right
        rw [Nat.mod_eq_of_lt (by omega)]; omega
      · left
        rw [show i + n - k = (i - k) + n by omega, Nat.add_mod_right, Nat.mod_eq_of_lt (by omega)]; omega
    have hrest : rest ≠ [] := by
      intro h
      rw [h, List.length_nil] at hlen
      apply hne'
      rcases hmod with h | h
      · have hi : i + 1 = k + n := by omega
        have : k = 0 := by omega
        rw [hi, this]; simp
      · have hi : i + 1 = k := by omega
        rw [hi, Nat.mod_eq_of_lt (by omega)]
    obtain ⟨b, rest', rfl⟩ := List.exists_cons_of_ne_nil hrest
    obtain ⟨c, seg', rfl⟩ := List.exists_cons_of_ne_nil (show seg ≠ [] by rintro rfl; simp at hL)
    obtain ⟨mid, a, rfl⟩ : ∃ mid a, seg' = mid ++ [a] := by
      refine ⟨seg'.dropLast, seg'.getLast (by rintro rfl; simp at hL), ?_⟩
      rw [List.dropLast_append_getLast]
    simp only [List.length_cons, List.length_append, List.length_nil] at hlen hmod hL
    -- the cities
    have hc : c = P.getD k 0 := by
      have := hat 0 (by omega)
      simpa [Nat.mod_eq_of_lt hk] using this
    have ha : a = P.getD i 0 := by
      have := hat (mid.length + 1) (by omega)
      have e : (mid.length + 1 + k) % n = i := by
        rcases hmod with h | h
        · rw [show mid.length + 1 + k = i by omega, Nat.mod_eq_of_lt hi]
        · rw [show mid.length + 1 + k = i + n by omega, Nat.add_mod_right, Nat.mod_eq_of_lt hi]
      rw [e] at this
      rw [← this]
      simp
    have hb : b = P.getD ((i + 1) % n) 0 := by
      have := hat (mid.length + 2) (by omega)
      have e : (mid.length + 2 + k) % n = (i + 1) % n := by
        rcases hmod with h | h
        · rw [show mid.length + 2 + k = i + 1 by omega]
        · rw [show mid.length + 2 + k = i + 1 + n by omega, Nat.add_mod_right]
      rw [e] at this
      rw [← this]
      simp
    have he : rest'.getLastD b = P.getD ((k + n - 1) % n) 0 := by
      have := hat (n - 1) (by omega)
      rw [show n - 1 + k = k + n - 1 by omega] at this
      rw [← this]
      have hsplit : n - 1 = (c :: (mid ++ [a])).length + rest'.length := by simp; omega
      rw [hsplit, List.getD_append_right _ _ _ _ (by omega), Nat.add_sub_cancel_left]
      have := getD_last b rest' []
      rw [List.append_nil] at this
      exact this.symm
    rw [← hc, ← ha, ← hb, ← he]
    have t1 : tourLength D P = tourLength D (b :: (rest' ++ c :: (mid ++ a :: []))) := by
      rw [← tourLength_rotate D P k, h2, ← tourLength_rotate D _ (c :: (mid ++ [a])).length,
        List.rotate_append_length_eq]
      rfl
    have t2 : tourLength D Q = tourLength D (b :: (rest' ++ a :: (mid.reverse ++ c :: []))) := by
      rw [← tourLength_rotate D Q k, h3, ← tourLength_rotate D _ (c :: (mid ++ [a])).reverse.length,
        List.rotate_append_length_eq]
      congr 2
      simp
    rw [t1, t2, tourLength_cons, tourLength_cons, way_exchange hD]
    simp only [List.headD_nil]
    rw [hD c b, add_comm (D (rest'.getLastD b) c) (D a b), hD (rest'.getLastD b) a]

/-! ## Costs and neighbours -/

theorem point_ok {n : ℕ} {P : List ℕ} (hP : IsTour n P) {i : ℕ} (hi : i < n) : point n P i = .ok (P.getD i 0) := by
  have hl := tour_length hP
  rw [point, List.getElem?_eq_getElem (by omega)]
  dsimp only
  rw [if_pos ((hP.2 _).1 (List.getElem_mem _)), List.getD_eq_getElem?_getD, List.getElem?_eq_getElem (by omega)]
  rfl

theorem costLoop_eq (D : ℕ → ℕ → R) {n : ℕ} {P : List ℕ} (hP : IsTour n P) (is : List ℕ) (h : ∀ i ∈ is, i + 1 < n) (t : R) :
    costLoop D n P is t = is.foldlM (fun total i =>
      match P[i]?, P[i + 1]? with
      | some a, some b => .ok (total + D a b)
      | _, _ => .error .indexError) t := by
  induction is generalizing t with
  | nil => rfl
  | cons i is ih =>
    have hi := h i (by simp)
    have hl := tour_length hP
    rw [costLoop, point_ok hP (by omega), point_ok hP hi, List.foldlM_cons,
      List.getElem?_eq_getElem (by omega), List.getElem?_eq_getElem (by omega)]
    dsimp only
    rw [ih (fun j hj => h j (by simp [hj]))]
    rw [List.getD_eq_getElem?_getD, List.getD_eq_getElem?_getD, List.getElem?_eq_getElem (by omega),
      List.getElem?_eq_getElem (by omega)]
    rfl

theorem cost_tour {D : ℕ → ℕ → R} (hD : ∀ i j, D i j = D j i) {n : ℕ} (hn : 0 < n) {P : List ℕ} (hP : IsTour n P) :
    cost D n P = .ok (tourLength D P) := by
  have hl := tour_length hP
  have h0 : P ≠ [] := by rintro rfl; simp at hl; omega
  rw [← cost_eq D P n hl h0, cost, Tsp.cost, point_ok hP hn, point_ok hP (by omega)]
  dsimp only
  rw [costLoop_eq D hP _ (by intro i hi; rw [List.mem_range] at hi; omega)]
  rw [List.getLast?_eq_getElem?, List.head?_eq_getElem?, List.getElem?_eq_getElem (by omega),
    List.getElem?_eq_getElem (by omega)]
  dsimp only
  rw [List.getD_eq_getElem?_getD, List.getD_eq_getElem?_getD, List.getElem?_eq_getElem (by omega),
      List.getElem?_eq_getElem (by omega), hD]
  rfl

theorem leNear_trans (a b c : R × ℕ) (h1 : leNear a b = true) (h2 : leNear b c = true) : leNear a c = true := by
  simp only [leNear, decide_eq_true_eq] at *
  rcases h1 with h1 | ⟨h1, h1'⟩ <;> rcases h2 with h2 | ⟨h2, h2'⟩
  · exact Or.inl (h1.trans h2)
  · exact Or.inl (h2 ▸ h1)
  · exact Or.inl (h1 ▸ h2)
  · exact Or.inr ⟨h1.trans h2, h1'.trans h2'⟩

theorem leNear_total (a b : R × ℕ) : (leNear a b || leNear b a) = true := by
  simp only [leNear, Bool.or_eq_true, decide_eq_true_eq]
  rcases lt_trichotomy a.1 b.1 with h | h | h
  · exact Or.inl (Or.inl h)
  · rcases Nat.le_total a.2 b.2 with h' | h'
    · exact Or.inl (Or.inr ⟨h, h'⟩)
    · exact Or.inr (Or.inr ⟨h.symm, h'⟩)
  · exact Or.inr (Or.inl h)

/-- What the list of neighbours holds. -/
theorem mem_nearest {D : ℕ → ℕ → R} {n i : ℕ} {p : R × ℕ} (h : p ∈ nearest D n i) :
    p.1 = D i p.2 ∧ p.2 < n ∧ p.2 ≠ i := by
  have := mem_pySort.1 (List.mem_of_mem_take h)
  obtain ⟨j, hj, rfl⟩ := List.mem_map.1 this
  rw [List.mem_filter, List.mem_range] at hj
  exact ⟨rfl, hj.1, fun e => (of_decide_eq_true hj.2) e.symm⟩

theorem nearest_sorted (D : ℕ → ℕ → R) (n i : ℕ) : (nearest D n i).Pairwise (fun p q => p.1 ≤ q.1) := by
  have := (pairwise_pySort leNear_trans leNear_total
    (((List.range n).filter (fun j => i ≠ j)).map (fun j => (D i j, j)))).sublist (List.take_sublist (min n 20) _)
  refine this.imp ?_
  intro p q h
  simp only [leNear, decide_eq_true_eq] at h
  rcases h with h | h
  · exact h.le
  · exact h.1.le

/-- A city with fewer than twenty cities nearer to `i` is in the list of neighbours. -/
theorem nearest_complete {D : ℕ → ℕ → R} {n i c : ℕ} (hc : c < n) (hci : c ≠ i)
    (hr : ((Finset.range n).filter (fun x => x ≠ i ∧ (D i x < D i c ∨ (D i x = D i c ∧ x < c)))).card < 20) :
    (D i c, c) ∈ nearest D n i := by
  rw [nearest]
  set l := ((List.range n).filter (fun j => i ≠ j)).map (fun j => (D i j, j)) with hl
  have hmem : (D i c, c) ∈ pySort l leNear := by
    rw [mem_pySort, hl]
    exact List.mem_map.2 ⟨c, List.mem_filter.2 ⟨List.mem_range.2 hc, by simpa using fun e => hci e.symm⟩, rfl⟩
  have hnd : (pySort l leNear).Nodup := by
    rw [(pySort_perm l leNear).nodup_iff, hl]
    refine List.Nodup.map (fun a b h => (Prod.mk.inj h).2) (List.Nodup.filter _ List.nodup_range)
  have hs := pairwise_pySort leNear_trans leNear_total l
  have hlen : (pySort l leNear).length ≤ n := by
    rw [(pySort_perm l leNear).length_eq, hl, List.length_map]
    exact (List.length_filter_le _ _).trans (by simp)
  by_contra hno
  rw [← List.take_append_drop (min n 20) (pySort l leNear)] at hmem hnd hs
  rcases List.mem_append.1 hmem with h | h
  · exact hno h
  · have hlt : min n 20 < (pySort l leNear).length := by
      by_contra hge
      rw [List.drop_of_length_le (by omega)] at h
      simp at h
    have h20 : min n 20 = 20 := by omega
    rw [h20] at hnd hs h
    have htl : ((pySort l leNear).take 20).length = 20 := by rw [List.length_take]; omega
    have hsub : ((((pySort l leNear).take 20).map Prod.snd).toFinset) ⊆
        ((Finset.range n).filter (fun x => x ≠ i ∧ (D i x < D i c ∨ (D i x = D i c ∧ x < c)))) := by
      intro x hx
      rw [List.mem_toFinset, List.mem_map] at hx
      obtain ⟨p, hp, rfl⟩ := hx
      have hpl := mem_pySort.1 (List.mem_of_mem_take hp)
      obtain ⟨j, hj, rfl⟩ := List.mem_map.1 hpl
      rw [List.mem_filter, List.mem_range] at hj
      rw [Finset.mem_filter, Finset.mem_range]
      refine ⟨hj.1, fun e => (of_decide_eq_true hj.2) e.symm, ?_⟩
      have hle := (List.pairwise_append.1 hs).2.2 _ hp _ h
      have hne : (D i j, j) ≠ (D i c, c) := (List.nodup_append.1 hnd).2.2 _ hp _ h
      simp only [leNear, decide_eq_true_eq] at hle
      rcases hle with hle | ⟨e, hle⟩
      · exact Or.inl hle
      · refine Or.inr ⟨e, lt_of_le_of_ne hle ?_⟩
        rintro rfl
        exact hne rfl
    have hcard : ((((pySort l leNear).take 20).map Prod.snd).toFinset).card = 20 := by
      rw [List.toFinset_card_of_nodup, List.length_map, htl]
      have h1 := (List.nodup_append.1 hnd).1
      refine List.Nodup.map_on ?_ h1
      intro p hp q hq e
      have h1 := mem_pySort.1 (List.mem_of_mem_take hp)
      have h2 := mem_pySort.1 (List.mem_of_mem_take hq)
      obtain ⟨a, -, rfl⟩ := List.mem_map.1 h1
      obtain ⟨b, -, rfl⟩ := List.mem_map.1 h2
      dsimp only at e
      rw [e]
    have := Finset.card_le_card hsub
    omega

/-! ## The loop of `two_opt` -/

/-- The gain of the exchange at position `i` with the city `c`. -/
def gainAt (D : ℕ → ℕ → R) (n : ℕ) (P : List ℕ) (i c : ℕ) : R :=
  D (P.getD i 0) (P.getD ((i + 1) % n) 0) + D (P.getD ((P.idxOf c + n - 1) % n) 0) c
    - D (P.getD ((i + 1) % n) 0) c - D (P.getD i 0) (P.getD ((P.idxOf c + n - 1) % n) 0)

theorem idxOf_tour {n : ℕ} {P : List ℕ} (hP : IsTour n P) {c : ℕ} (hc : c < n) : ¬ c ∉ P ∧
    P.idxOf c < n ∧ P.getD (P.idxOf c) 0 = c := by
  have hm : c ∈ P := (hP.2 c).2 hc
  have hl := tour_length hP
  have h1 : P.idxOf c < P.length := List.idxOf_lt_length_iff.2 hm
  refine ⟨not_not.2 hm, by omega, ?_⟩
  · rw [List.getD_eq_getElem?_getD, List.getElem?_eq_getElem h1]
    simp

variable [IsOrderedAddMonoid R]

theorem scan_spec {D : ℕ → ℕ → R} (hD : ∀ i j, D i j = D j i) {eps : R} (heps : 0 ≤ eps) {n : ℕ} {P : List ℕ}
    (hP : IsTour n P) {i : ℕ} (hi : i < n) (l : List (R × ℕ))
    (hl : ∀ p ∈ l, p.1 = D (P.getD ((i + 1) % n) 0) p.2 ∧ p.2 < n ∧ p.2 ≠ P.getD ((i + 1) % n) 0)
    (hs : l.Pairwise (fun p q => p.1 ≤ q.1)) :
    (scan D eps n P i (P.getD i 0) (D (P.getD i 0) (P.getD ((i + 1) % n) 0)) l = some (.ok none) ∧
      ∀ p ∈ l, p.1 < D (P.getD i 0) (P.getD ((i + 1) % n) 0) → gainAt D n P i p.2 ≤ eps) ∨
    ∃ Q, scan D eps n P i (P.getD i 0) (D (P.getD i 0) (P.getD ((i + 1) % n) 0)) l = some (.ok (some Q)) ∧
      IsTour n Q ∧ tourLength D Q < tourLength D P := by
  induction l with
  | nil => exact Or.inl ⟨rfl, by simp⟩
  | cons p l ih =>
    obtain ⟨d, c⟩ := p
    obtain ⟨h1, h2, h3⟩ := hl (d, c) (by simp)
    dsimp only at h1 h2 h3
    have hlen := tour_length hP
    by_cases hle : D (P.getD i 0) (P.getD ((i + 1) % n) 0) ≤ d
    · left
      rw [scan, if_pos hle]
      refine ⟨rfl, fun p hp hlt => ?_⟩
      rcases List.mem_cons.1 hp with rfl | hp
      · exact absurd hlt (not_lt.2 hle)
      · exact absurd hlt (not_lt.2 (hle.trans ((List.pairwise_cons.1 hs).1 p hp)))
    · obtain ⟨k1, k2, k3⟩ := idxOf_tour hP h2
      rw [scan, if_neg hle, if_neg k1]
      dsimp only
      rw [point_ok hP (Nat.mod_lt _ (by omega))]
      dsimp only
      by_cases hg : eps < D (P.getD i 0) (P.getD ((i + 1) % n) 0) + D (P.getD ((P.idxOf c + n - 1) % n) 0) c - d -
          D (P.getD i 0) (P.getD ((P.idxOf c + n - 1) % n) 0)
      · right
        rw [if_pos hg]
        have hki : P.idxOf c ≠ i := by
          intro e
          rw [e] at k3
          apply hle
          rw [h1, k3, hD]
        have hkj : P.idxOf c ≠ (i + 1) % P.length := by
          intro e
          rw [hlen] at e
          rw [e] at k3
          exact h3 k3.symm
        obtain ⟨Q, q1, q2, q3⟩ := rev_spec (R := R) P (P.idxOf c) i (by omega) (by omega) hki hkj
        rw [q1]
        refine ⟨Q, rfl, isTour_iff.2 (q2.trans (isTour_iff.1 hP)), ?_⟩
        rw [q3 D hD, hlen, k3, ← h1]
        exact sub_lt_self _ (lt_of_le_of_lt heps hg)
      · rw [if_neg hg]
        rcases ih (fun p hp => hl p (by simp [hp])) (List.pairwise_cons.1 hs).2 with ⟨g1, g2⟩ | h
        · left
          refine ⟨g1, fun p hp hlt => ?_⟩
          rcases List.mem_cons.1 hp with rfl | hp
          · have := not_lt.1 hg
            dsimp only at hlt ⊢
            rw [gainAt, ← h1]
            exact this
          · exact g2 p hp hlt
        · exact Or.inr h

theorem twoOptLoop_spec {D : ℕ → ℕ → R} (hD : ∀ i j, D i j = D j i) {eps : R} (heps : 0 ≤ eps) {n : ℕ} (hn : 0 < n)
    (P : List ℕ) (hP : IsTour n P) (i : ℕ)
    (hprev : ∀ i' < i, i' < n → ∀ p ∈ nearest D n (P.getD ((i' + 1) % n) 0),
      p.1 < D (P.getD i' 0) (P.getD ((i' + 1) % n) 0) → gainAt D n P i' p.2 ≤ eps) :
    ∃ Q, twoOptLoop D eps n P i = some (.ok (tourLength D Q, Q)) ∧ IsTour n Q ∧ tourLength D Q ≤ tourLength D P ∧
      ∀ i' < n, ∀ p ∈ nearest D n (Q.getD ((i' + 1) % n) 0),
        p.1 < D (Q.getD i' 0) (Q.getD ((i' + 1) % n) 0) → gainAt D n Q i' p.2 ≤ eps := by
  induction hN : ((List.range n).permutations.filter (fun t => tourLength D t < tourLength D P)).length
    using Nat.strong_induction_on generalizing P i with
  | _ N ih =>
    induction hd : n - i generalizing i with
    | zero =>
      rw [twoOptLoop, if_neg (by omega), cost_tour hD hn hP]
      exact ⟨P, rfl, hP, le_rfl, fun i' hi' => hprev i' (by omega) hi'⟩
    | succ d ihd =>
      rw [twoOptLoop, if_pos (by omega), point_ok hP (by omega), point_ok hP (Nat.mod_lt _ hn)]
      dsimp only
      rcases scan_spec hD heps hP (show i < n by omega) (nearest D n (P.getD ((i + 1) % n) 0))
        (fun p hp => mem_nearest hp) (nearest_sorted _ _ _) with ⟨h1, h2⟩ | ⟨Q, h1, h2, h3⟩
      · rw [h1]
        dsimp only
        refine ihd (i + 1) ?_ (by omega)
        intro i' hi' hn'
        by_cases he : i' = i
        · subst he; exact h2
        · exact hprev i' (by omega) hn'
      · rw [h1]
        dsimp only
        obtain ⟨Q', q1, q2, q3, q4⟩ := ih _ (by
          rw [← hN, ← List.countP_eq_length_filter, ← List.countP_eq_length_filter]
          have hmem : Q ∈ (List.range n).permutations := List.mem_permutations.2 (isTour_iff.1 h2)
          obtain ⟨s, t, hst⟩ := List.append_of_mem hmem
          rw [hst, List.countP_append, List.countP_append, List.countP_cons, List.countP_cons]
          have hmono : ∀ u : List (List ℕ), u.countP (fun t => decide (tourLength D t < tourLength D Q)) ≤
              u.countP (fun t => decide (tourLength D t < tourLength D P)) := by
            intro u
            apply List.countP_mono_left
            intro t _ ht
            simp only [decide_eq_true_eq] at *
            exact ht.trans h3
          have e1 := hmono s
          have e2 := hmono t
          simp only [lt_self_iff_false, decide_false, Bool.false_eq_true, if_false, h3, decide_true, if_true]
          omega) Q h2 0 (by omega) rfl
        exact ⟨Q', q1, q2, q3.trans h3.le, q4⟩

/-! ## The crossover -/

omit [AddCommGroup R] [LinearOrder R] [IsOrderedAddMonoid R]

theorem crossHead_spec {n j : ℕ} {P1 : List ℕ} (hP : P1.length = n) (d s : ℕ) (hs : s + d ≤ n) (C T : List ℕ) (hC : C.length = n)
    (hT : T = ((P1.rotate j).take s).reverse) (hCs : C.take s = (P1.rotate j).take s) :
    ∃ C', crossHead n j P1 (List.range' s d) C T = .ok (C', ((P1.rotate j).take (s + d)).reverse) ∧ C'.length = n ∧
      C'.take (s + d) = (P1.rotate j).take (s + d) := by
  induction d generalizing s C T with
  | zero => exact ⟨C, by rw [hT]; rfl, hC, hCs⟩
  | succ d ih =>
    have hlt : (s + j) % n < P1.length := by rw [hP]; exact Nat.mod_lt _ (by omega)
    have hrot : (P1.rotate j)[s]'(by rw [List.length_rotate]; omega) = P1[(s + j) % n] := by
      rw [List.getElem_rotate]
      simp only [hP]
    have htake : (P1.rotate j).take (s + 1) = (P1.rotate j).take s ++ [P1[(s + j) % n]] := by
      rw [List.take_succ_eq_append_getElem (by rw [List.length_rotate]; omega), hrot]
    rw [List.range'_succ, crossHead, List.getElem?_eq_getElem hlt]
    dsimp only
    obtain ⟨C', h1, h2, h3⟩ := ih (s + 1) (by omega) (C.set s P1[(s + j) % n]) (P1[(s + j) % n] :: T) (by simpa using hC)
      (by rw [htake, hT]; simp) (by
        rw [htake, ← hCs, List.take_succ_eq_append_getElem (by simp; omega)]
        simp [List.take_set_of_le])
    exact ⟨C', by rw [h1, show s + 1 + d = s + (d + 1) by omega], h2, by rw [show s + (d + 1) = s + 1 + d by omega]; exact h3⟩

theorem crossTail_spec {n : ℕ} (T ps C : List ℕ) (i : ℕ) (hC : C.length = n)
    (hi : i + (ps.filter (· ∉ T)).length = n) :
    crossTail n T ps C i = .ok (C.take i ++ ps.filter (· ∉ T)) := by
  induction ps generalizing C i with
  | nil =>
    simp only [List.filter_nil, List.length_nil, add_zero] at hi
    rw [crossTail, List.filter_nil, List.append_nil, List.take_of_length_le (by omega)]
  | cons p ps ih =>
    rw [crossTail]
    by_cases hp : p ∈ T
    · have hf : (p :: ps).filter (· ∉ T) = ps.filter (· ∉ T) := by simp [hp]
      rw [hf] at hi ⊢
      rw [if_pos hp, ih C i hC hi]
    · have hf : (p :: ps).filter (· ∉ T) = p :: ps.filter (· ∉ T) := by simp [hp]
      rw [hf] at hi ⊢
      rw [List.length_cons] at hi
      rw [if_neg hp, if_neg (by omega)]
      have htk : (C.set i p).take (i + 1) = C.take i ++ [p] := by
        rw [List.take_succ_eq_append_getElem (by simp; omega)]
        simp [List.take_set_of_le]
      by_cases hn : n ≤ i + 1
      · rw [if_pos hn]
        have : ps.filter (· ∉ T) = [] := List.length_eq_zero_iff.1 (by omega)
        rw [this, ← htk, List.take_of_length_le (by simp; omega)]
      · rw [if_neg hn, ih (C.set i p) (i + 1) (by simpa using hC) (by omega), htk]
        simp

/-- The child starts with `h` cities of one parent, and has the others in the order of the other parent. -/
theorem crossover_spec {n h : ℕ} (j : ℕ) (hh : h ≤ n) {P1 P2 : List ℕ} (h1 : IsTour n P1) (h2 : IsTour n P2) :
    crossover n h j P1 P2 = .ok ((P1.rotate j).take h ++ P2.filter (· ∉ (P1.rotate j).take h)) ∧
      IsTour n ((P1.rotate j).take h ++ P2.filter (· ∉ (P1.rotate j).take h)) := by
  set H := (P1.rotate j).take h with hH
  have hr := tour_rotate h1 j
  have hHl : H.length = h := by
    rw [hH, List.length_take, tour_length hr]; omega
  have hHnd : H.Nodup := hr.1.sublist (List.take_sublist _ _)
  have htour : IsTour n (H ++ P2.filter (· ∉ H)) := by
    constructor
    · rw [List.nodup_append]
      refine ⟨hHnd, h2.1.filter _, ?_⟩
      rintro a ha b hb rfl
      have := (List.mem_filter.1 hb).2
      simp only [decide_eq_true_eq] at this
      exact this ha
    · intro i
      rw [List.mem_append, List.mem_filter, decide_eq_true_eq]
      constructor
      · rintro (hi | ⟨hi, -⟩)
        · exact (hr.2 i).1 (List.mem_of_mem_take hi)
        · exact (h2.2 i).1 hi
      · intro hi
        by_cases hm : i ∈ H
        · exact Or.inl hm
        · exact Or.inr ⟨(h2.2 i).2 hi, hm⟩
  refine ⟨?_, htour⟩
  obtain ⟨C, c1, c2, c3⟩ := crossHead_spec (j := j) (tour_length h1) h 0 (by omega) (List.replicate n 0) []
    (by simp) (by simp) (by simp)
  rw [zero_add] at c1 c3
  rw [crossover, List.range_eq_range', c1]
  dsimp only
  rw [← hH] at c3 ⊢
  have hfil : P2.filter (· ∉ H.reverse) = P2.filter (· ∉ H) := by
    congr 1; funext x; simp
  have hlen := tour_length htour
  rw [List.length_append, hHl] at hlen
  rw [crossTail_spec _ _ _ _ c2 (by rw [hfil]; exact hlen), hfil, c3]

/-! ## The population -/

section Population

variable [AddCommGroup R] [LinearOrder R] [IsOrderedAddMonoid R]

/-- A tour with its length. -/
def FinTour (D : ℕ → ℕ → R) (n : ℕ) (m : Member R) : Prop := IsTour n m.2 ∧ m.1 = ((tourLength D m.2 : R) : WithTop R)

theorem twoOpt_fin {D : ℕ → ℕ → R} (hD : ∀ i j, D i j = D j i) {eps : R} (heps : 0 ≤ eps) {n : ℕ} (hn : 0 < n)
    {P : List ℕ} (hP : IsTour n P) : ∃ Q, twoOpt D eps n P = some (.ok (tourLength D Q, Q)) ∧ IsTour n Q := by
  obtain ⟨Q, h1, h2, -, -⟩ := twoOptLoop_spec hD heps hn P hP 0 (by omega)
  exact ⟨Q, h1, h2⟩

theorem select_spec {D : ℕ → ℕ → R} (hD : ∀ i j, D i j = D j i) {eps : R} (heps : 0 ≤ eps) {n : ℕ} (hn : 0 < n)
    {shuffled : ℕ → List ℕ} (is : List ℕ) (hs : ∀ i ∈ is, IsTour n (shuffled i)) :
    ∃ pop, select D eps n shuffled is = some (.ok pop) ∧ pop.length = is.length ∧ (∀ m ∈ pop, FinTour D n m) ∧
      (∀ m ∈ pop, ∃ i ∈ is, ∃ c, twoOpt D eps n (shuffled i) = some (.ok (c, m.2)) ∧ m.1 = (c : WithTop R)) ∧
      ∀ i ∈ is, ∃ c p, twoOpt D eps n (shuffled i) = some (.ok (c, p)) ∧ ((c : WithTop R), p) ∈ pop := by
  induction is with
  | nil => exact ⟨[], rfl, rfl, by simp, by simp, by simp⟩
  | cons i is ih =>
    obtain ⟨Q, q1, q2⟩ := twoOpt_fin hD heps hn (hs i (by simp))
    obtain ⟨pop, h1, h2, h3, h4, h5⟩ := ih (fun j hj => hs j (by simp [hj]))
    refine ⟨((tourLength D Q : R), Q) :: pop, by rw [select, q1]; dsimp only; rw [h1], by simp [h2], ?_, ?_, ?_⟩
    · intro m hm
      rcases List.mem_cons.1 hm with rfl | hm
      · exact ⟨q2, rfl⟩
      · exact h3 m hm
    · intro m hm
      rcases List.mem_cons.1 hm with rfl | hm
      · exact ⟨i, by simp, _, q1, rfl⟩
      · obtain ⟨j, hj, h⟩ := h4 m hm
        exact ⟨j, by simp [hj], h⟩
    · intro j hj
      rcases List.mem_cons.1 hj with rfl | hj
      · exact ⟨_, _, q1, by simp⟩
      · obtain ⟨c, p, h6, h7⟩ := h5 j hj
        exact ⟨c, p, h6, by simp [h7]⟩

theorem mgkrec_spec {D : ℕ → ℕ → R} (hD : ∀ i j, D i j = D j i) {eps : R} (heps : 0 ≤ eps) {n : ℕ} (hn : 20 ≤ n)
    {draw : ℕ × ℕ × ℕ} (hd : draw.1 ≤ n) {A B : List ℕ} (hA : IsTour n A) (hB : IsTour n B) :
    ∃ a b, mgkrec D eps n draw A B = some (.ok ((tourLength D a, a), (tourLength D b, b))) ∧ IsTour n a ∧ IsTour n b ∧
      twoOpt D eps n ((B.rotate draw.2.1).take draw.1 ++ A.filter (· ∉ (B.rotate draw.2.1).take draw.1)) =
        some (.ok (tourLength D a, a)) ∧
      twoOpt D eps n ((A.rotate draw.2.2).take draw.1 ++ B.filter (· ∉ (A.rotate draw.2.2).take draw.1)) =
        some (.ok (tourLength D b, b)) := by
  obtain ⟨c1, c2⟩ := crossover_spec draw.2.1 hd hB hA
  obtain ⟨c3, c4⟩ := crossover_spec draw.2.2 hd hA hB
  obtain ⟨a, a1, a2⟩ := twoOpt_fin hD heps (by omega) c2
  obtain ⟨b, b1, b2⟩ := twoOpt_fin hD heps (by omega) c4
  refine ⟨a, b, ?_, a2, b2, a1, b1⟩
  rw [mgkrec, if_neg (by omega), c1]
  dsimp only
  rw [a1]
  dsimp only
  rw [c3]
  dsimp only
  rw [b1]

/-- The population: `2 * popsize` members, the first half tours. -/
structure Pop (D : ℕ → ℕ → R) (n popsize : ℕ) (pop : List (Member R)) : Prop where
  len : pop.length = 2 * popsize
  good : ∀ m ∈ pop, m.1 = ⊤ ∨ FinTour D n m
  fin : ∀ k (hk : k < pop.length), k < popsize → FinTour D n pop[k]

theorem breed_spec {D : ℕ → ℕ → R} (hD : ∀ i j, D i j = D j i) {eps : R} (heps : 0 ≤ eps) {n popsize : ℕ}
    (hn : 2 ≤ popsize → 20 ≤ n) {draws : ℕ → ℕ × ℕ × ℕ} (hd : ∀ i, (draws i).1 ≤ n) (is : List ℕ)
    (his : ∀ i ∈ is, i < popsize / 2) (pop : List (Member R)) (hp : Pop D n popsize pop) :
    ∃ pop', breed D eps n popsize draws is pop = some (.ok pop') ∧ Pop D n popsize pop' := by
  induction is generalizing pop with
  | nil => exact ⟨pop, rfl, hp⟩
  | cons i is ih =>
    have hi := his i (by simp)
    have hl := hp.len
    rw [breed, List.getElem?_eq_getElem (by omega), List.getElem?_eq_getElem (by omega)]
    dsimp only
    obtain ⟨a, b, h1, h2, h3, -, -⟩ := mgkrec_spec hD heps (hn (by omega)) (hd i)
      (hp.fin (2 * i) (by omega) (by omega)).1 (hp.fin (2 * i + 1) (by omega) (by omega)).1
    rw [h1]
    dsimp only
    rw [if_pos (by omega)]
    apply ih (fun j hj => his j (by simp [hj]))
    refine ⟨by simp [hl], ?_, ?_⟩
    · intro m hm
      rcases List.mem_or_eq_of_mem_set hm with hm | rfl
      · rcases List.mem_or_eq_of_mem_set hm with hm | rfl
        · exact hp.good m hm
        · exact Or.inr ⟨h2, rfl⟩
      · exact Or.inr ⟨h3, rfl⟩
    · intro k hk hkp
      rw [List.getElem_set_of_ne (by omega), List.getElem_set_of_ne (by omega)]
      exact hp.fin k (by simp at hk; omega) hkp

omit [IsOrderedAddMonoid R] [AddCommGroup R] in
theorem leMember_trans (a b c : Member R) (h1 : leMember a b = true) (h2 : leMember b c = true) : leMember a c = true := by
  simp only [leMember, decide_eq_true_eq] at *
  rcases h1 with h1 | ⟨h1, h1'⟩ <;> rcases h2 with h2 | ⟨h2, h2'⟩
  · exact Or.inl (h1.trans h2)
  · exact Or.inl (h2 ▸ h1)
  · exact Or.inl (h1 ▸ h2)
  · exact Or.inr ⟨h1.trans h2, List.le_trans h1' h2'⟩

omit [IsOrderedAddMonoid R] [AddCommGroup R] in
theorem leMember_total (a b : Member R) : (leMember a b || leMember b a) = true := by
  simp only [leMember, Bool.or_eq_true, decide_eq_true_eq]
  rcases lt_trichotomy a.1 b.1 with h | h | h
  · exact Or.inl (Or.inl h)
  · rcases List.le_total a.2 b.2 with h' | h'
    · exact Or.inl (Or.inr ⟨h, h'⟩)
    · exact Or.inr (Or.inr ⟨h.symm, h'⟩)
  · exact Or.inr (Or.inl h)

omit [IsOrderedAddMonoid R] in
theorem sort_pop {D : ℕ → ℕ → R} {n popsize : ℕ} {pop : List (Member R)} (hl : pop.length = 2 * popsize)
    (hg : ∀ m ∈ pop, m.1 = ⊤ ∨ FinTour D n m) (hf : popsize ≤ pop.countP (fun m => decide (m.1 ≠ ⊤))) :
    Pop D n popsize (pySort pop leMember) ∧
      ∀ (h0 : 0 < (pySort pop leMember).length), ∀ m ∈ pop, (pySort pop leMember)[0].1 ≤ m.1 := by
  have hs := pairwise_pySort leMember_trans leMember_total pop
  have hperm := pySort_perm pop leMember
  set S := pySort pop leMember
  have hle : ∀ i j (hi : i < S.length) (hj : j < S.length), i ≤ j → S[i].1 ≤ S[j].1 := by
    intro i j hi hj hij
    rcases Nat.lt_or_eq_of_le hij with h | h
    · have := List.pairwise_iff_getElem.1 hs i j hi hj h
      simp only [leMember, decide_eq_true_eq] at this
      rcases this with h | h
      · exact h.le
      · exact h.1.le
    · subst h; exact le_rfl
  refine ⟨⟨by rw [hperm.length_eq, hl], fun m hm => hg m (hperm.mem_iff.1 hm), ?_⟩, ?_⟩
  · intro k hk hkp
    rcases hg _ (hperm.mem_iff.1 (List.getElem_mem hk)) with h | h
    · exfalso
      rw [← hperm.countP_eq] at hf
      have hdrop : (S.drop k).countP (fun m => decide (m.1 ≠ ⊤)) = 0 := by
        rw [List.countP_eq_zero]
        intro m hm
        obtain ⟨t, ht, rfl⟩ := List.getElem_of_mem hm
        rw [List.getElem_drop]
        have := hle k (k + t) hk (by rw [List.length_drop] at ht; omega) (by omega)
        rw [h, top_le_iff] at this
        simp [this]
      rw [← List.take_append_drop k S, List.countP_append, hdrop] at hf
      have := List.countP_le_length (p := fun m : Member R => decide (m.1 ≠ ⊤)) (l := S.take k)
      rw [List.length_take] at this
      omega
    · exact h
  · intro h0 m hm
    obtain ⟨t, ht, rfl⟩ := List.getElem_of_mem (hperm.mem_iff.2 hm)
    exact hle 0 t h0 ht (Nat.zero_le _)

omit [IsOrderedAddMonoid R] in
theorem Pop.count {D : ℕ → ℕ → R} {n popsize : ℕ} {pop : List (Member R)} (hp : Pop D n popsize pop) :
    popsize ≤ pop.countP (fun m => decide (m.1 ≠ ⊤)) := by
  have hl := hp.len
  rw [← List.take_append_drop popsize pop, List.countP_append]
  have : (pop.take popsize).countP (fun m => decide (m.1 ≠ ⊤)) = popsize := by
    have hlt : (pop.take popsize).length = popsize := by rw [List.length_take]; omega
    conv_rhs => rw [← hlt]
    rw [List.countP_eq_length]
    intro m hm
    obtain ⟨t, ht, rfl⟩ := List.getElem_of_mem hm
    rw [List.getElem_take]
    have := hp.fin t (by omega) (by omega)
    rw [decide_eq_true_eq, this.2]
    exact WithTop.coe_ne_top
  omega

theorem generations_spec {D : ℕ → ℕ → R} (hD : ∀ i j, D i j = D j i) {eps : R} (heps : 0 ≤ eps) {n popsize : ℕ}
    (hpos : 0 < popsize) (hn : 2 ≤ popsize → 20 ≤ n) {draws : ℕ → ℕ → ℕ × ℕ × ℕ} (hd : ∀ c i, (draws c i).1 ≤ n)
    (cs : List ℕ) (pop : List (Member R)) (hp : Pop D n popsize pop) (best : WithTop R) (X : XBest R) :
    ∃ best' X', generations D eps n popsize draws cs pop best X = some (.ok (best', X')) ∧
      ((best' = best ∧ X' = X) ∨ (best' < best ∧ (∃ t, IsTour n t ∧ best' = (tourLength D t : R)) ∧
        ∃ c p, X' = .costAndPath c p ∧ best' ≤ c)) := by
  induction cs generalizing pop best X with
  | nil => exact ⟨best, X, rfl, Or.inl ⟨rfl, rfl⟩⟩
  | cons c cs ih =>
    obtain ⟨pop', h1, h2⟩ := breed_spec hD heps hn (hd c) (List.range (popsize / 2)) (by simp) pop hp
    obtain ⟨h3, h4⟩ := sort_pop h2.len h2.good h2.count
    have hl := h3.len
    rw [generations, h1]
    dsimp only
    rw [List.getElem?_eq_getElem (by omega)]
    dsimp only
    have hf := h3.fin 0 (by omega) hpos
    by_cases hlt : (pySort pop' leMember)[0].1 < best
    · rw [if_pos hlt, List.getElem?_eq_getElem (by omega)]
      dsimp only
      obtain ⟨b, X', g1, g2⟩ := ih _ h3 (pySort pop' leMember)[0].1 (.costAndPath (pySort pop' leMember)[1].1 (pySort pop' leMember)[1].2)
      refine ⟨b, X', g1, Or.inr ?_⟩
      rcases g2 with ⟨rfl, rfl⟩ | ⟨g2, g3, g4⟩
      · exact ⟨hlt, ⟨_, hf.1, hf.2⟩, _, _, rfl, h4 (by omega) _ (mem_pySort.1 (List.getElem_mem _))⟩
      · exact ⟨g2.trans hlt, g3, g4⟩
    · rw [if_neg hlt]
      exact ih _ h3 best X

end Population

end Rosemary.GeneticTsp
