import Verif.Model.ChartresCosts
import Verif.Lemmas.Chartres
import Verif.Lemmas.PrimeReciprocals

/-!
# Lemmas about the work of `chartres`
-/

namespace Rosemary.Sieves

open Rosemary.Spec

/-- How often the entry has been taken from the heap and put back: `k` runs through the numbers prime to six from `p` on. -/
def steps (e : Nat × Nat × Nat) : Nat := e.1 / (e.2.2 / 6) / 3 - e.2.2 / 6 / 3

theorem Entry.prime_eq {P p k : Nat} {e : Nat × Nat × Nat} (h : Entry P p k e) : e.2.2 / 6 = p := by
  obtain ⟨-, -, -, -, -, rfl⟩ := h
  dsimp only
  omega

theorem Entry.steps_eq {P p k : Nat} {e : Nat × Nat × Nat} (h : Entry P p k e) : steps e = k / 3 - p / 3 := by
  rw [steps, h.prime_eq]
  obtain ⟨-, h5, -, -, -, rfl⟩ := h
  rw [Nat.mul_div_cancel_left k (by omega)]

/-- The work done so far, in terms of the heap. -/
structure Work (q : Nat) (H : List (Nat × Nat × Nat)) (pops : Nat) : Prop where
  nodup : (H.map (fun e => e.2.2)).Nodup
  count : pops = (H.map steps).sum
  last : ∀ e ∈ H, steps e = 0 ∨ e.2.2 / 6 * (e.2.2 / 6) ≤ q ∧ steps e ≤ q / 3 / (e.2.2 / 6)

theorem Work.pop {P q u v w m k0 p0 : Nat} {H : List (Nat × Nat × Nat)} (h : Work q ((u, v, w) :: H) m) (hqu : q ≤ u)
    (he : Entry P p0 k0 (u, v, w)) : Work u (heapPush (u + v, w - v, w) H) (m + 1) := by
  obtain ⟨k1, hn1, hn2, hn3, hn4, hn5⟩ := he.next
  have hk1 : k1 / 3 = k0 / 3 + 1 := by
    have hs0 : Six k0 := he.2.2.2.2.1
    have hs1 : Six k1 := hn1.2.2.2.2.1
    rcases hs0 with h0 | h0
    · have : ¬ k0 + 4 < k1 := fun h' => hn3 (k0 + 4) (by omega) h' (by unfold Six; omega)
      unfold Six at hs1; omega
    · have : ¬ k0 + 2 < k1 := fun h' => hn3 (k0 + 2) (by omega) h' (by unfold Six; omega)
      unfold Six at hs1; omega
  have h5 : 5 ≤ p0 := he.2.1
  have hpk : p0 ≤ k0 := he.2.2.2.1
  have hd : p0 / 3 ≤ k0 / 3 := Nat.div_le_div_right hpk
  have hst : steps (u + v, w - v, w) = steps (u, v, w) + 1 := by rw [hn1.steps_eq, he.steps_eq]; omega
  refine ⟨?_, ?_, ?_⟩
  · have := h.nodup
    exact (((heapPush_perm _ H).map _).nodup_iff).2 this
  · rw [((heapPush_perm _ H).map _).sum_eq, List.map_cons, List.sum_cons, hst, h.count, List.map_cons, List.sum_cons]
    omega
  · intro e hmem
    rcases mem_heapPush.1 hmem with rfl | hmem
    · right
      rw [hn1.prime_eq, hn1.steps_eq, hn4]
      refine ⟨Nat.mul_le_mul_left _ hpk, ?_⟩
      rw [Nat.div_div_eq_div_mul, Nat.mul_comm 3 p0, ← Nat.div_div_eq_div_mul, Nat.mul_div_cancel_left k0 (by omega)]
      omega
    · rcases h.last e (List.mem_cons_of_mem _ hmem) with h' | ⟨h1, h2⟩
      · exact .inl h'
      · exact .inr ⟨h1.trans hqu, h2.trans (Nat.div_le_div_right (Nat.div_le_div_right hqu))⟩

theorem Work.push {P q m u v c : Nat} {H : List (Nat × Nat × Nat)} (h : Work q H m) (hi : HeapInv P c q H) (hPu : P < u) :
    Work q (heapPush (u * u, v, 6 * u) H) m := by
  have h0 : steps (u * u, v, 6 * u) = 0 := by
    rw [steps]
    dsimp only
    rw [Nat.mul_div_cancel_left u (by omega), Nat.mul_div_cancel_left u (by omega)]
    omega
  refine ⟨?_, ?_, ?_⟩
  · refine (((heapPush_perm _ H).map _).nodup_iff).2 ?_
    rw [List.map_cons, List.nodup_cons]
    refine ⟨fun hc => ?_, h.nodup⟩
    obtain ⟨e, he, hw⟩ := List.mem_map.1 hc
    obtain ⟨p, k, -, -, h3, -, -, rfl⟩ := hi.ok e he
    dsimp only at hw
    omega
  · rw [((heapPush_perm _ H).map _).sum_eq, List.map_cons, List.sum_cons, h0, h.count, Nat.zero_add]
  · intro e hmem
    rcases mem_heapPush.1 hmem with rfl | hmem
    · exact .inl h0
    · exact h.last e hmem

theorem Work.le {P q m c B : Nat} {H : List (Nat × Nat × Nat)} (h : Work q H m) (hi : HeapInv P c q H) (hB : q ≤ B) :
    m ≤ 2 * (B / 3) * Nat.log 2 (Nat.log 2 (Nat.sqrt B)) := by
  refine le_trans ?_ (sum_div_primes_le (B / 3) (Nat.sqrt B))
  have hnd : (H.map (fun e => e.2.2 / 6)).Nodup := by
    have : H.map (fun e => e.2.2) = (H.map (fun e => e.2.2 / 6)).map (fun p => 6 * p) := by
      rw [List.map_map]
      refine List.map_congr_left fun e he => ?_
      obtain ⟨p, k, hk⟩ := hi.ok e he
      simp only [Function.comp, hk.prime_eq]
      obtain ⟨-, -, -, -, -, rfl⟩ := hk
      rfl
    have h' := h.nodup
    rw [this] at h'
    exact h'.of_map
  have key : ∀ e ∈ H, steps e ≤ if e.2.2 / 6 ≤ Nat.sqrt B then B / 3 / (e.2.2 / 6) else 0 := by
    intro e he
    rcases h.last e he with h0 | ⟨h1, h2⟩
    · rw [h0]; exact Nat.zero_le _
    · rw [if_pos (Nat.le_sqrt.2 (h1.trans hB))]
      exact h2.trans (Nat.div_le_div_right (Nat.div_le_div_right hB))
  rw [h.count]
  refine le_trans (List.sum_le_sum key) ?_
  have hm : (H.map (fun e => if e.2.2 / 6 ≤ Nat.sqrt B then B / 3 / (e.2.2 / 6) else 0)) =
      (H.map (fun e => e.2.2 / 6)).map (fun p => if p ≤ Nat.sqrt B then B / 3 / p else 0) := by
    rw [List.map_map]; rfl
  rw [hm, ← List.sum_toFinset _ hnd, ← Finset.sum_filter]
  refine Finset.sum_le_sum_of_subset ?_
  intro p hp
  rw [Finset.mem_filter, List.mem_toFinset, List.mem_map] at hp
  obtain ⟨⟨e, he, rfl⟩, h2⟩ := hp
  obtain ⟨p, k, hk⟩ := hi.ok e he
  rw [hk.prime_eq] at h2 ⊢
  exact Finset.mem_filter.2 ⟨Finset.mem_Ioc.2 ⟨by have := hk.2.1; omega, h2⟩, hk.1⟩

theorem chartresPopC_spec {P c : Nat} (hP : P.Prime) (h5 : 5 ≤ P) (hc : c ≤ P * P)
    (q : Nat) (H : List (Nat × Nat × Nat)) (m : Nat) (h : HeapInv P c q H) (hq : Comp q) (hqP : q ≤ P * P) (hW : Work q H m) :
    ∃ q' H' m', chartresPopC c q H m = some (.ok (q', H'), m') ∧ HeapInv P c q' H' ∧ Comp q' ∧
      q' ≤ P * P ∧ c ≤ q' ∧ Work q' H' m' ∧ H'.length = H.length := by
  induction hm : (H.map (fun e => c - e.1)).sum using Nat.strong_induction_on generalizing q H m with
  | _ μ ih =>
    rw [chartresPopC.eq_def]
    by_cases hlt : q < c
    · rw [if_pos hlt]
      cases H with
      | nil => exact absurd rfl (h.ne_nil hP h5)
      | cons e H =>
        obtain ⟨u, v, w⟩ := e
        dsimp only
        have hpop := h.pop hlt
        have hle := h.head_le hP h5 hc hlt
        obtain ⟨p0, k0, he0⟩ := h.ok (u, v, w) (by simp)
        obtain ⟨k1, -, -, -, -, hv⟩ := he0.next
        have hW' := hW.pop (h.ge (u, v, w) (by simp)) he0
        have hl : (heapPush (u + v, w - v, w) H).length = ((u, v, w) :: H).length := (heapPush_perm _ H).length_eq
        by_cases huc : u < c
        · obtain ⟨q', H', m', a1, a2, a3, a4, a5, a6, a7⟩ := ih _ (by
            rw [((heapPush_perm _ H).map _).sum_eq, ← hm]
            simp only [List.map_cons, List.sum_cons]
            omega) u _ (m + 1) hpop he0.comp hle hW' rfl
          exact ⟨q', H', m', a1, a2, a3, a4, a5, a6, a7.trans hl⟩
        · rw [chartresPopC.eq_def, if_neg huc]
          exact ⟨u, _, _, rfl, hpop, he0.comp, hle, by omega, hW', hl⟩
    · rw [if_neg hlt]
      exact ⟨q, H, m, rfl, h, hq, hqP, by omega, hW, rfl⟩

theorem chartresAddC_spec (q c d : Nat) (h5 : 5 ≤ c) (hg : Gap c d) (hq : Six q) (hcq : c ≤ q)
    (hall : ∀ x, Six x → c ≤ x → x < q → x.Prime) (a : Nat) (ha : a + 1 = c / 3) :
    ∃ d' a', chartresAddC q c d (0 :: primesUpTo (c - 1)) a = some ((q, d', 0 :: primesUpTo (q - 1)), a') ∧
      Gap q d' ∧ a' + 1 = q / 3 := by
  induction hm : q - c using Nat.strong_induction_on generalizing c d a with
  | _ μ ih =>
    rw [chartresAddC]
    by_cases hlt : c < q
    · rw [if_pos hlt]
      have hp := hall c hg.six le_rfl hlt
      have hle := hg.le_of_six hq hlt
      have hd : d = 2 ∨ d = 4 := by unfold Gap at hg; omega
      have := primesUpTo_gap_prime h5 hg hp
      rw [List.cons_append, ← this]
      exact ih _ (by omega) (c + d) (6 - d) (by omega) hg.next hle
        (fun x h1 h2 h3 => hall x h1 (by omega) h3) (a + 1) (by unfold Gap at hg; omega) rfl
    · rw [if_neg hlt]
      have : c = q := by omega
      subst this
      exact ⟨d, a, rfl, hg, ha⟩

/-- The next composite number prime to six is at most 20 away: a multiple of five. -/
theorem HeapInv.near {P c q : Nat} {H : List (Nat × Nat × Nat)} (h : HeapInv P c q H) (hqP : q ≤ P * P) (h5 : 5 ≤ c) :
    q ≤ c + 20 := by
  by_contra hc
  have key : ∀ x, 25 ≤ x → Six x → x % 5 = 0 → c ≤ x → x < q → False := by
    intro x h25 hx hx5 hcx hxq
    have hp := h.prime_below hqP x (by omega) hx hcx hxq
    have := (Nat.prime_dvd_prime_iff_eq Nat.prime_five hp).1 (Nat.dvd_of_mod_eq_zero hx5)
    omega
  by_cases h1 : c ≤ 25
  · exact key 25 le_rfl (.inl rfl) rfl h1 (by omega)
  · by_cases h2 : c % 30 ≤ 5
    · exact key (c + (5 - c % 30)) (by omega) (by unfold Six; omega) (by omega) (by omega) (by omega)
    · by_cases h3 : c % 30 ≤ 25
      · exact key (c + (25 - c % 30)) (by omega) (by unfold Six; omega) (by omega) (by omega) (by omega)
      · exact key (c + (35 - c % 30)) (by omega) (by unfold Six; omega) (by omega) (by omega) (by omega)

theorem chartresLoopC_spec (n : Int) (c d size q P : Nat) (H : List (Nat × Nat × Nat)) (m a : Nat)
    (h5 : 5 ≤ c) (hg : Gap c d) (hP : P.Prime) (hP5 : 5 ≤ P)
    (hsize : (primesUpTo P).length = size + 2) (hcP : c ≤ P * P) (hqP : q ≤ P * P) (hq : Comp q)
    (h : HeapInv P c q H) (hW : Work q H m) (hH : H.length = size) (ha : a + 1 = c / 3) (hcn : c ≤ n.toNat + 24)
    (hsz : size ≤ max 2 (primesUpTo (Nat.sqrt n.toNat)).length) (hlow : P = 5 ∨ ∀ r, r.Prime → r < P → r * r < c) :
    ∃ m' a' s, chartresLoopC n (0 :: primesUpTo (c - 1)) c d size q (P * P) H m a size =
      some (.ok (some (primesUpTo n.toNat)), m', a', s) ∧
      m' ≤ 2 * ((n.toNat + 44) / 3) * Nat.log 2 (Nat.log 2 (Nat.sqrt (n.toNat + 44))) ∧ a' + 1 ≤ (n.toNat + 24) / 3 ∧
      size ≤ s ∧ s ≤ max 2 (primesUpTo (Nat.sqrt n.toNat)).length := by
  induction hm : n.toNat + 5 - c using Nat.strong_induction_on
    generalizing c d size q P H m a with
  | _ μ ih =>
    rw [chartresLoopC, if_neg (h.ne_nil hP hP5)]
    obtain ⟨q', H', m', hpop, hinv, hcomp, hqP', hcq, hW', hlen⟩ := chartresPopC_spec hP hP5 hcP q H m h hq hqP hW
    have hnear := hinv.near hqP' h5
    rw [hpop]
    dsimp only
    by_cases hn : (c : Int) > n
    · rw [if_pos hn]
      refine ⟨m', a, size, ?_, hW'.le hinv (by omega), by omega, le_rfl, hsz⟩
      congr 4
      refine sorted_ext ?_ (primesUpTo_sorted _) ?_
      · refine List.Pairwise.filter _ (List.pairwise_cons.2 ⟨?_, primesUpTo_sorted _⟩)
        intro x hx
        exact (mem_primesUpTo.1 hx).1.pos
      · intro x
        simp only [List.mem_filter, List.mem_cons, mem_primesUpTo, decide_eq_true_eq]
        constructor
        · rintro ⟨h1, h2, h3⟩
          exact ⟨(h1.resolve_left h2).1, by omega⟩
        · rintro ⟨h1, h2⟩
          have := h1.two_le
          exact ⟨.inr ⟨h1, by omega⟩, by omega, by omega⟩
    · rw [if_neg hn]
      obtain ⟨d', a', hadd, hg', ha'⟩ := chartresAddC_spec q' c d h5 hg hcomp.six hcq
        (fun x h1 h2 h3 => hinv.prime_below hqP' x (by omega) h1 h2 h3) a ha
      rw [hadd]
      dsimp only
      have hd' : d' = 2 ∨ d' = 4 := by unfold Gap at hg'; omega
      have hlist : primesUpTo (q' - 1) = primesUpTo (q' + d' - 1) :=
        (primesUpTo_gap_composite (by omega) hg' hcomp.not_prime).symm
      have ha'' : a' + 1 + 1 = (q' + d') / 3 := by unfold Gap at hg'; omega
      by_cases ht : q' = P * P
      · rw [if_pos ht]
        obtain ⟨u, hu1, hu2, hu3, hu4, hu5, hu6⟩ := next_prime_entry hP hP5 hsize
        rw [← ht] at hu1
        rw [hu1]
        dsimp only
        have hPu : P * P + 4 ≤ u * u := by nlinarith
        have hu7 : Six u := Six.of_prime hu2 (by omega)
        have hadv := (hinv.advance (c' := q' + d') (by omega)).push hu2 hu3 (by omega)
          (by omega) hu6 _ rfl
        have hheap : (if u % 3 = 2 then heapPush (u * u, 2 * u, 6 * u) H'
            else if u % 3 = 1 then heapPush (u * u, 4 * u, 6 * u) H' else H') =
            heapPush (u * u, if u % 6 = 1 then 4 * u else 2 * u, 6 * u) H' := by
          rcases hu7 with h6 | h6
          · rw [if_neg (by omega), if_pos (by omega), if_pos h6]
          · rw [if_pos (by omega), if_neg (by omega)]
        rw [hheap, hlist]
        have hlen' : (heapPush (u * u, if u % 6 = 1 then 4 * u else 2 * u, 6 * u) H').length = size + 1 := by
          rw [(heapPush_perm _ H').length_eq, List.length_cons, hlen, hH]
        rw [hlen', max_eq_right (Nat.le_succ size)]
        have hsz' : size + 1 ≤ max 2 (primesUpTo (Nat.sqrt n.toNat)).length := by
          rcases hlow with hlow | hlow
          · refine le_trans ?_ (le_max_left _ _)
            rw [hlow] at hsize
            have : (primesUpTo 5).length = 3 := by decide
            omega
          · refine le_trans ?_ (le_max_right _ _)
            have e1 : primesUpTo P = primesUpTo (P - 1) ++ [P] := by
              rw [primesUpTo_append (a := P - 1) (b := P) (by omega)]
              congr 1
              refine sorted_ext (List.Pairwise.filter _ (pyRange_sorted _ _)) (by simp) ?_
              intro x
              simp only [List.mem_filter, mem_pyRange, decide_eq_true_eq, List.mem_singleton]
              constructor
              · rintro ⟨h1, -⟩; omega
              · rintro rfl; exact ⟨by omega, hP⟩
            rw [e1, List.length_append, List.length_singleton] at hsize
            have hsub : primesUpTo (P - 1) ⊆ primesUpTo (Nat.sqrt n.toNat) := by
              intro r hr
              obtain ⟨r1, r2⟩ := mem_primesUpTo.1 hr
              have := hlow r r1 (by omega)
              exact mem_primesUpTo.2 ⟨r1, Nat.le_sqrt.2 (by omega)⟩
            have hnd : (primesUpTo (P - 1)).Nodup := (primesUpTo_sorted _).imp (fun h => Nat.ne_of_lt h)
            have := (hnd.subperm hsub).length_le
            omega
        obtain ⟨m2, a2, s2, r1, r2, r3, r4, r5⟩ := ih _ (by omega) (q' + d') (6 - d') (size + 1) q' u _ m' (a' + 1) (by omega)
          hg'.next hu2 (by omega) hu5 (by omega) (by omega) hcomp hadv (hW'.push hinv hu3) hlen' ha'' (by omega) hsz'
          (.inr (fun r hr hru => by
            have : r ≤ P := by
              by_contra hcon
              have := hu6 r hr (by omega)
              omega
            have := Nat.mul_le_mul this this
            omega)) rfl
        exact ⟨m2, a2, s2, r1, r2, r3, by omega, r5⟩
      · rw [if_neg ht, hlist]
        exact ih _ (by omega) (q' + d') (6 - d') size q' P H' m' (a' + 1) (by omega) hg'.next hP hP5 hsize
          (hg'.le_of_six ((Six.of_prime hP hP5).mul (Six.of_prime hP hP5)) (by omega)) hqP' hcomp
          (hinv.advance (by omega)) hW' (hlen.trans hH) ha'' (by omega) hsz
          (hlow.imp id (fun h' r r1 r2 => (h' r r1 r2).trans_le (by omega))) rfl

theorem chartresC_spec (n : Int) : ∃ m a s, chartresC n = some (.ok (some (primesUpTo n.toNat)), m, a, s) ∧
    m ≤ 2 * ((n.toNat + 44) / 3) * Nat.log 2 (Nat.log 2 (Nat.sqrt (n.toNat + 44))) ∧ a + 1 ≤ (n.toNat + 24) / 3 ∧
    s ≤ max 2 (primesUpTo (Nat.sqrt n.toNat)).length := by
  have h := chartresLoopC_spec n 5 2 1 25 5 [(25, 10, 30)] 0 0 (by omega) (.inl ⟨by omega, rfl⟩)
    (by norm_num) (by omega) (by decide) (by omega) (by omega)
    ⟨5, 5, by omega, by omega, .inr (by omega), .inr (by omega), by omega⟩
    ⟨by simp, by
      intro e he
      simp only [List.mem_singleton] at he
      subst he
      exact ⟨5, 5, by norm_num, by omega, by omega, by omega, .inr (by omega), by simp⟩,
     by simp, by
      intro p hp h5 hP
      have : p = 5 := by omega
      subst this
      exact ⟨5, _, List.mem_singleton.2 rfl, ⟨hp, by omega, by omega, by omega, .inr (by omega),
        by simp⟩, fun k h1 h2 _ => by omega⟩⟩
    ⟨by simp, by decide, by
      intro e he
      simp only [List.mem_singleton] at he
      subst he
      exact .inl (by decide)⟩ rfl (by decide) (by omega) (by omega) (.inl rfl)
  have e : primesUpTo (5 - 1) = [2, 3] := by decide
  rw [e] at h
  obtain ⟨m, a, s, h1, h2, h3, -, h4⟩ := h
  exact ⟨m, a, s, h1, h2, h3, h4⟩

end Rosemary.Sieves
