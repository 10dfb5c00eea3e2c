import Verif.Lemmas.Tables

/-!
# Lemmas about the segmented generators `moebius_range` and `factored_range`
-/

namespace Rosemary.Tables

open Rosemary.Sieves Rosemary.Spec

/-- `segOffset` is the least `i` with `p ∣ start + i`. -/
theorem segOffset_eq {a start bs p : Nat} (hp : 0 < p) (hpb : p ≤ bs) (ha : a ≤ start)
    (hk : bs ∣ start - a) : segOffset a start bs p < p ∧ p ∣ start + segOffset a start bs p := by
  unfold segOffset
  refine ⟨Nat.mod_lt _ hp, ?_⟩
  have hdm := Nat.div_add_mod start p
  have hlt := Nat.mod_lt start hp
  obtain ⟨k, hk⟩ := hk
  have h1 : p * (start / p + 1) = start - start % p + p := by rw [Nat.mul_add]; omega
  have h2 : p * (start / p + 1) - a = (p - start % p) + bs * k := by omega
  rw [h2, Nat.add_mul_mod_self_left]
  have h3 : p ∣ start + (p - start % p) := by
    have : start + (p - start % p) = p * (start / p + 1) := by omega
    rw [this]; exact dvd_mul_right _ _
  rcases Nat.lt_or_ge (p - start % p) bs with h | h
  · rw [Nat.mod_eq_of_lt h]
    rcases Nat.eq_zero_or_pos (start % p) with h0 | h0
    · rw [h0]; simpa using Nat.dvd_of_mod_eq_zero h0
    · rwa [Nat.mod_eq_of_lt (by omega)]
  · have h4 : p - start % p = bs := by omega
    rw [h4, Nat.mod_self, Nat.zero_mod, Nat.add_zero]
    exact Nat.dvd_of_mod_eq_zero (by omega)

theorem mem_segment {a start bs p i : Nat} (hp : 0 < p) (hpb : p ≤ bs) (ha : a ≤ start)
    (hk : bs ∣ start - a) :
    i ∈ pyRangeStep (segOffset a start bs p) bs p ↔ i < bs ∧ p ∣ start + i := by
  obtain ⟨h1, h2⟩ := segOffset_eq hp hpb ha hk
  rw [mem_pyRangeStep hp]
  generalize segOffset a start bs p = o at *
  constructor
  · rintro ⟨h3, h4, h5⟩
    refine ⟨h4, ?_⟩
    have := dvd_add h2 h5
    rwa [show start + o + (i - o) = start + i by omega] at this
  · rintro ⟨h3, h4⟩
    rcases Nat.lt_or_ge i o with h | h
    · exfalso
      have h5 := Nat.dvd_sub h2 h4
      rw [show start + o - (start + i) = o - i by omega] at h5
      have := Nat.le_of_dvd (by omega) h5
      omega
    · refine ⟨h, h3, ?_⟩
      have h5 := Nat.dvd_sub h4 h2
      rwa [show start + i - (start + o) = i - o by omega] at h5

theorem mrInner_spec {n p start : Nat} (is : List Nat) (hnd : is.Nodup) (hlt : ∀ i ∈ is, i < n)
    (block values : List Int) (g v : Nat → Int) (h : Tab n block g) (hv : Tab n values v) :
    ∃ b w, mrInner start p is block values = .ok (b, w) ∧
      Tab n b (fun i => if i ∈ is then (if (start + i) % (p * p) = 0 then 0 else g i * -1) else g i) ∧
      Tab n w (fun i => if i ∈ is ∧ ¬ (start + i) % (p * p) = 0 then v i * p else v i) := by
  induction is generalizing block values g v with
  | nil => exact ⟨block, values, rfl, by simpa using h, by simpa using hv⟩
  | cons i is ih =>
    rw [List.nodup_cons] at hnd
    unfold mrInner
    rw [h.get i (hlt i (by simp)), hv.get i (hlt i (by simp))]
    dsimp only
    by_cases hpp : (start + i) % (p * p) = 0
    · rw [if_pos hpp]
      obtain ⟨b, w, hb, ht, hw⟩ := ih hnd.2 (fun j hj => hlt j (by simp [hj])) _ _ _ _
        (h.set i 0) hv
      refine ⟨b, w, hb, ht.congr ?_, hw.congr ?_⟩
      · intro j hj
        by_cases hji : j = i
        · subst hji; simp [hnd.1, hpp]
        · simp [hji]
      · intro j hj
        by_cases hji : j = i
        · subst hji; simp [hpp]
        · simp [hji]
    · rw [if_neg hpp]
      obtain ⟨b, w, hb, ht, hw⟩ := ih hnd.2 (fun j hj => hlt j (by simp [hj])) _ _ _ _
        (h.set i (g i * -1)) (hv.set i (v i * p))
      refine ⟨b, w, hb, ht.congr ?_, hw.congr ?_⟩
      · intro j hj
        by_cases hji : j = i
        · subst hji; simp [hnd.1, hpp]
        · simp [hji]
      · intro j hj
        by_cases hji : j = i
        · subst hji; simp [hnd.1, hpp]
        · simp [hji]

theorem mrLoop_spec {a start bs : Nat} (ha : a ≤ start) (hk : bs ∣ start - a)
    (ps : List Nat) (hps : ∀ p ∈ ps, 0 < p ∧ p ≤ bs)
    (block values : List Int) (g v : Nat → Int) (h : Tab bs block g) (hv : Tab bs values v) :
    ∃ b w, mrLoop a start bs ps block values = .ok (b, w) ∧
      Tab bs b (fun i => g i * (ps.map (muTerm (start + i))).prod) ∧
      Tab bs w (fun i => v i * (ps.map (valTerm (start + i))).prod) := by
  induction ps generalizing block values g v with
  | nil => exact ⟨block, values, rfl, by simpa using h, by simpa using hv⟩
  | cons p ps ih =>
    obtain ⟨hp, hpb⟩ := hps p (by simp)
    unfold mrLoop
    obtain ⟨b1, w1, hb1, ht1, hw1⟩ := mrInner_spec (start := start) (p := p)
      (pyRangeStep (segOffset a start bs p) bs p)
      (nodup_pyRangeStep hp) (fun i hi => ((mem_segment hp hpb ha hk).1 hi).1)
      block values g v h hv
    rw [hb1]
    dsimp only
    obtain ⟨b, w, hb, ht, hw⟩ := ih (fun q hq => hps q (by simp [hq])) b1 w1 _ _ ht1 hw1
    refine ⟨b, w, hb, ht.congr ?_, hw.congr ?_⟩
    · intro i hi
      simp only [List.map_cons, List.prod_cons, ← mul_assoc]
      congr 1
      simp only [mem_segment hp hpb ha hk, muTerm, ← Nat.dvd_iff_mod_eq_zero]
      by_cases hd : p ∣ start + i
      · rw [if_pos ⟨hi, hd⟩, if_pos hd]
        split <;> simp
      · rw [if_neg (fun h => hd h.2), if_neg hd, mul_one]
    · intro i hi
      simp only [List.map_cons, List.prod_cons, ← mul_assoc]
      congr 1
      simp only [mem_segment hp hpb ha hk, valTerm, ← Nat.dvd_iff_mod_eq_zero]
      by_cases hd : p ∣ start + i ∧ ¬ p * p ∣ start + i
      · rw [if_pos ⟨⟨hi, hd.1⟩, hd.2⟩, if_pos hd]
      · rw [if_neg (fun h => hd ⟨h.1.2, h.2⟩), if_neg hd, mul_one]

/-- The pairs yielded from one block: those below `b`; the flag says whether `b` was reached. -/
theorem mrYield_spec {b start bs : Nat} (block values : List Int) (g v : Nat → Int)
    (h : Tab bs block g) (hv : Tab bs values v) (k j : Nat) (hkj : j + k = bs) :
    mrYield b start block values (List.range' j k) = .ok
      ((List.range' j (min k (b - start - j))).map (fun i => (start + i,
          if g i ≠ 0 ∧ v i < ((start + i : Nat) : Int) then g i * -1 else g i)),
        decide (¬ (start + bs ≤ b ∨ k = 0))) := by
  induction k generalizing j with
  | zero => simp [mrYield]
  | succ k ih =>
    rw [List.range'_succ]
    unfold mrYield
    by_cases hb : start + j ≥ b
    · rw [if_pos hb, show b - start - j = 0 by omega]
      have : decide (¬ (start + bs ≤ b ∨ k + 1 = 0)) = true := by
        simp only [decide_eq_true_eq]; omega
      rw [this]; simp
    · rw [if_neg hb, h.get j (by omega), hv.get j (by omega)]
      dsimp only
      rw [ih (j + 1) (by omega)]
      dsimp only
      rw [show min (k + 1) (b - start - j) = min k (b - start - (j + 1)) + 1 by omega,
        List.range'_succ, List.map_cons]
      have : decide (¬ (start + bs ≤ b ∨ k = 0)) = decide (¬ (start + bs ≤ b ∨ k + 1 = 0)) := by
        rw [decide_eq_decide]; omega
      rw [this]

theorem range'_map_add (start j k : Nat) {β : Type} (f : Nat → β) :
    (List.range' j k).map (fun i => f (start + i)) = (List.range' (start + j) k).map f := by
  induction k generalizing j with
  | zero => simp
  | succ k ih => simp only [List.range'_succ, List.map_cons, ih (j + 1), Nat.add_assoc]

theorem mrBlocks_spec {a b bs : Nat} (ha : 0 < a) (hbs : 0 < bs)
    (hb : b ≤ (bs + 1) * (bs + 1)) (start : Nat) (hs : a ≤ start) (hk : bs ∣ start - a) :
    mrBlocks a b bs (primesUpTo bs) start =
      .ok ((List.range' start (b - start)).map (fun m => (m, ArithmeticFunction.moebius m))) := by
  induction hm : b - start using Nat.strong_induction_on generalizing start with
  | _ m ih =>
    rw [mrBlocks]
    by_cases hlt : start < b
    · rw [dif_pos ⟨hlt, hbs⟩]
      obtain ⟨b1, w1, hb1, ht1, hw1⟩ := mrLoop_spec hs hk (primesUpTo bs)
        (fun p hp => by have := mem_primesUpTo.1 hp; exact ⟨this.1.pos, this.2⟩) _ _ _ _
        (Tab.replicate bs (1 : Int)) (Tab.replicate bs (1 : Int))
      rw [hb1]
      dsimp only
      rw [List.range_eq_range', mrYield_spec _ _ _ _ ht1 hw1 bs 0 (by omega)]
      have hval : (List.range' 0 (min bs (b - start - 0))).map (fun i => (start + i,
          if (1 : Int) * ((primesUpTo bs).map (muTerm (start + i))).prod ≠ 0 ∧
            1 * ((primesUpTo bs).map (valTerm (start + i))).prod < ((start + i : Nat) : Int)
          then 1 * ((primesUpTo bs).map (muTerm (start + i))).prod * -1
          else 1 * ((primesUpTo bs).map (muTerm (start + i))).prod)) =
          (List.range' start (min bs (b - start))).map
            (fun m => (m, ArithmeticFunction.moebius m)) := by
        rw [← Nat.add_zero start, ← range'_map_add, Nat.add_zero]
        apply List.map_congr_left
        intro i hi
        rw [List.mem_range'_1] at hi
        simp only [one_mul]
        rw [← moebius_of_tables (i := start + i) (s := bs) (by omega) (by omega)]
      rw [hval]
      by_cases hend : start + bs ≤ b
      · have hd : decide (¬ (start + bs ≤ b ∨ bs = 0)) = false := by simp [hend]
        rw [hd]
        dsimp only
        rw [ih (b - (start + bs)) (by omega) (start + bs) (by omega) (by
          rw [show start + bs - a = start - a + bs by omega]
          exact dvd_add hk (dvd_refl _)) rfl]
        dsimp only
        rw [← List.map_append, Nat.min_eq_left (by omega),
          show m = bs + (b - (start + bs)) by omega, ← List.range'_append_1]
      · have hd : decide (¬ (start + bs ≤ b ∨ bs = 0)) = true := by
          simp only [decide_eq_true_eq]; omega
        rw [hd]
        dsimp only
        rw [Nat.min_eq_right (by omega), hm]
    · rw [dif_neg (fun h => hlt h.1), show m = 0 by omega]
      rfl

/-! ## factored_range -/

theorem divOut_eq {p m : Nat} (hp : p.Prime) (hm : 0 < m) :
    divOut p m = (m / p ^ m.factorization p, m.factorization p) := by
  induction m using Nat.strong_induction_on with
  | _ m ih =>
    rw [divOut]
    by_cases hd : m % p = 0
    · have hd' : p ∣ m := Nat.dvd_of_mod_eq_zero hd
      have hpos : 0 < m / p := Nat.div_pos (Nat.le_of_dvd hm hd') hp.pos
      rw [dif_pos ⟨hd, hp.one_lt, hm⟩, ih _ (Nat.div_lt_self hm hp.one_lt) hpos]
      have hf : (m / p).factorization p = m.factorization p - 1 := by
        rw [Nat.factorization_div hd']
        simp [hp.factorization_self]
      have h1 : 1 ≤ m.factorization p := hp.factorization_pos_of_dvd (by omega) hd'
      dsimp only
      rw [hf, Nat.div_div_eq_div_mul, ← pow_succ', Nat.sub_add_cancel h1]
    · rw [dif_neg (fun h => hd h.1)]
      have : m.factorization p = 0 :=
        Nat.factorization_eq_zero_of_not_dvd (fun h => hd (Nat.mod_eq_zero_of_dvd h))
      rw [this]; simp

theorem frInner_spec {n p : Nat} (is : List Nat) (hnd : is.Nodup) (hlt : ∀ i ∈ is, i < n)
    (block : List Nat) (facs : List (List (Nat × Nat))) (g : Nat → Nat)
    (f : Nat → List (Nat × Nat)) (h : Tab n block g) (hf : Tab n facs f) :
    ∃ b w, frInner p is block facs = .ok (b, w) ∧
      Tab n b (fun i => if i ∈ is then (divOut p (g i)).1 else g i) ∧
      Tab n w (fun i => if i ∈ is then f i ++ [(p, (divOut p (g i)).2)] else f i) := by
  induction is generalizing block facs g f with
  | nil => exact ⟨block, facs, rfl, by simpa using h, by simpa using hf⟩
  | cons i is ih =>
    rw [List.nodup_cons] at hnd
    unfold frInner
    rw [h.get i (hlt i (by simp)), hf.get i (hlt i (by simp))]
    dsimp only
    obtain ⟨b, w, hb, ht, hw⟩ := ih hnd.2 (fun j hj => hlt j (by simp [hj])) _ _ _ _
      (h.set i (divOut p (g i)).1) (hf.set i (f i ++ [(p, (divOut p (g i)).2)]))
    refine ⟨b, w, hb, ht.congr ?_, hw.congr ?_⟩
    · intro j hj
      by_cases hji : j = i
      · subst hji; simp [hnd.1]
      · simp [hji]
    · intro j hj
      by_cases hji : j = i
      · subst hji; simp [hnd.1]
      · simp [hji]

/-- The part of the factorization of `m` over the primes `ps`. -/
def facPart (m : Nat) (ps : List Nat) : List (Nat × Nat) :=
  (ps.filter (fun p => p ∣ m)).map (fun p => (p, m.factorization p))

/-- `m` with the primes `ps` divided out. -/
def cofactor (m : Nat) (ps : List Nat) : Nat := ps.foldl (fun c p => c / p ^ m.factorization p) m

theorem frLoop_spec {a start bs : Nat} (ha : a ≤ start) (hk : bs ∣ start - a) (h0 : 0 < start)
    (ps : List Nat) (hps : ∀ p ∈ ps, p.Prime ∧ p ≤ bs) (hnd : ps.Nodup)
    (block : List Nat) (facs : List (List (Nat × Nat))) (g : Nat → Nat)
    (f : Nat → List (Nat × Nat)) (h : Tab bs block g) (hf : Tab bs facs f)
    (hg : ∀ i, i < bs → 0 < g i ∧ ∀ p ∈ ps, (g i).factorization p = (start + i).factorization p) :
    ∃ b w, frLoop a start bs ps block facs = .ok (b, w) ∧
      Tab bs b (fun i => ps.foldl (fun c p => c / p ^ (start + i).factorization p) (g i)) ∧
      Tab bs w (fun i => f i ++ facPart (start + i) ps) := by
  induction ps generalizing block facs g f with
  | nil => exact ⟨block, facs, rfl, by simpa using h, by simpa [facPart] using hf⟩
  | cons p ps ih =>
    obtain ⟨hp, hpb⟩ := hps p (by simp)
    rw [List.nodup_cons] at hnd
    unfold frLoop
    obtain ⟨b1, w1, hb1, ht1, hw1⟩ := frInner_spec (p := p)
      (pyRangeStep (segOffset a start bs p) bs p)
      (nodup_pyRangeStep hp.pos) (fun i hi => ((mem_segment hp.pos hpb ha hk).1 hi).1)
      block facs g f h hf
    rw [hb1]
    dsimp only
    have ht1' : Tab bs b1 (fun i => g i / p ^ (start + i).factorization p) := by
      refine ht1.congr ?_
      intro i hi
      obtain ⟨hgi, hgf⟩ := hg i hi
      simp only [mem_segment hp.pos hpb ha hk]
      by_cases hd : p ∣ start + i
      · rw [if_pos ⟨hi, hd⟩, divOut_eq hp hgi, hgf p (by simp)]
      · rw [if_neg (fun h => hd h.2), Nat.factorization_eq_zero_of_not_dvd hd]; simp
    have hdv : ∀ i, i < bs → p ^ (start + i).factorization p ∣ g i := by
      intro i hi
      obtain ⟨hgi, hgf⟩ := hg i hi
      rw [← hgf p (by simp)]
      exact Nat.ordProj_dvd _ _
    obtain ⟨b, w, hb, ht, hw⟩ := ih (fun q hq => hps q (by simp [hq])) hnd.2 b1 w1 _ _ ht1' hw1 (by
      intro i hi
      obtain ⟨hgi, hgf⟩ := hg i hi
      refine ⟨Nat.div_pos (Nat.le_of_dvd hgi (hdv i hi)) (Nat.pow_pos hp.pos), ?_⟩
      intro q hq
      have hqp : p ≠ q := fun e => hnd.1 (e ▸ hq)
      rw [Nat.factorization_div (hdv i hi)]
      simp only [Finsupp.tsub_apply, hp.factorization_pow, Finsupp.single_apply, if_neg hqp,
        Nat.sub_zero]
      exact hgf q (by simp [hq]))
    refine ⟨b, w, hb, ht.congr ?_, hw.congr ?_⟩
    · intro i hi; rfl
    · intro i hi
      obtain ⟨hgi, hgf⟩ := hg i hi
      simp only [mem_segment hp.pos hpb ha hk, facPart, List.filter_cons]
      by_cases hd : p ∣ start + i
      · rw [if_pos ⟨hi, hd⟩, divOut_eq hp hgi, hgf p (by simp)]
        simp [hd]
      · rw [if_neg (fun h => hd h.2)]
        simp [hd]

theorem cofactor_fold {m : Nat} (ps : List Nat) (hps : ∀ p ∈ ps, p.Prime) (hnd : ps.Nodup) (c : Nat)
    (hc : 0 < c) (hcm : c ∣ m) (hv : ∀ p ∈ ps, c.factorization p = m.factorization p) :
    let r := ps.foldl (fun c p => c / p ^ m.factorization p) c
    0 < r ∧ r ∣ m ∧ (∀ p ∈ ps, ¬ p ∣ r) ∧
      (∀ q, q.Prime → q ∉ ps → r.factorization q = c.factorization q) := by
  induction ps generalizing c with
  | nil => exact ⟨hc, hcm, by simp, by simp⟩
  | cons p ps ih =>
    rw [List.nodup_cons] at hnd
    have hp := hps p (by simp)
    have hdv : p ^ m.factorization p ∣ c := by
      rw [← hv p (by simp)]; exact Nat.ordProj_dvd _ _
    have hfac : ∀ q, p ≠ q → (c / p ^ m.factorization p).factorization q = c.factorization q := by
      intro q hqp
      rw [Nat.factorization_div hdv]
      simp only [Finsupp.tsub_apply, hp.factorization_pow, Finsupp.single_apply, if_neg hqp,
        Nat.sub_zero]
    obtain ⟨h1, h2, h3, h4⟩ := ih (fun q hq => hps q (by simp [hq])) hnd.2
      (c / p ^ m.factorization p)
      (Nat.div_pos (Nat.le_of_dvd hc hdv) (Nat.pow_pos hp.pos))
      ((Nat.div_dvd_of_dvd hdv).trans hcm)
      (fun q hq => by
        rw [hfac q (fun e => hnd.1 (e ▸ hq))]
        exact hv q (by simp [hq]))
    refine ⟨h1, h2, ?_, ?_⟩
    · intro q hq
      rcases List.mem_cons.1 hq with rfl | hq
      · intro hd
        have h5 := h4 q hp hnd.1
        have h6 : 0 < Nat.factorization _ q := hp.factorization_pos_of_dvd (Nat.pos_iff_ne_zero.1 h1) hd
        have h7 : (c / q ^ m.factorization q).factorization q = 0 := by
          rw [Nat.factorization_div hdv]
          simp only [Finsupp.tsub_apply, hp.factorization_pow, Finsupp.single_eq_same]
          rw [hv q (by simp)]; omega
        omega
      · exact h3 q hq
    · intro q hq hnq
      rw [List.mem_cons, not_or] at hnq
      have := h4 q hq hnq.2
      exact this.trans (hfac q (fun e => hnq.1 e.symm))

theorem nodup_primesUpTo (n : Nat) : (primesUpTo n).Nodup :=
  (primesUpTo_sorted n).imp (fun h => Nat.ne_of_lt h)

/-- The finished list of one entry of a block. -/
theorem facPart_complete {m bs : Nat} (hm : 0 < m) (hb : m < (bs + 1) * (bs + 1)) :
    (if cofactor m (primesUpTo bs) ≠ 1
      then facPart m (primesUpTo bs) ++ [(cofactor m (primesUpTo bs), 1)]
      else facPart m (primesUpTo bs)) = Spec.primePowers m := by
  obtain ⟨h1, h2, h3, h4⟩ := cofactor_fold (m := m) (primesUpTo bs)
    (fun p hp => (mem_primesUpTo.1 hp).1) (nodup_primesUpTo bs) m hm (dvd_refl m) (fun _ _ => rfl)
  change 0 < cofactor m (primesUpTo bs) at h1
  change cofactor m (primesUpTo bs) ∣ m at h2
  change ∀ p ∈ primesUpTo bs, ¬ p ∣ cofactor m (primesUpTo bs) at h3
  change ∀ q, q.Prime → q ∉ primesUpTo bs →
    (cofactor m (primesUpTo bs)).factorization q = m.factorization q at h4
  generalize cofactor m (primesUpTo bs) = c at *
  unfold Spec.primePowers
  have hle : c ≤ m := Nat.le_of_dvd hm h2
  -- every prime factor of the cofactor exceeds `bs`
  have hbig : ∀ q, q.Prime → q ∣ c → bs < q := by
    intro q hq hd
    by_contra hle
    exact h3 q (mem_primesUpTo.2 ⟨hq, by omega⟩) hd
  have hdvd : ∀ q, q.Prime → bs < q → q ∣ m → q ∣ c := by
    intro q hq hlt hd
    have := h4 q hq (fun h => by have := (mem_primesUpTo.1 h).2; omega)
    have h5 : 1 ≤ m.factorization q := hq.factorization_pos_of_dvd (by omega) hd
    exact Nat.dvd_of_factorization_pos (by omega)
  by_cases hc : c = 1
  · rw [if_neg (by simpa using hc), facPart]
    congr 1
    apply sorted_ext
    · exact (primesUpTo_sorted bs).filter _
    · exact (primesUpTo_sorted m).filter _
    · intro p
      simp only [List.mem_filter, mem_primesUpTo, decide_eq_true_eq]
      constructor
      · rintro ⟨⟨h5, h6⟩, h7⟩
        exact ⟨⟨h5, Nat.le_of_dvd hm h7⟩, h7⟩
      · rintro ⟨⟨h5, h6⟩, h7⟩
        refine ⟨⟨h5, ?_⟩, h7⟩
        by_contra hlt
        have := hdvd p h5 (by omega) h7
        rw [hc] at this
        exact h5.one_lt.ne' (Nat.dvd_one.1 this)
  · rw [if_pos hc]
    have hcp : c.Prime := by
      by_contra hnp
      have h5 := Nat.minFac_prime hc
      have h6 := hbig _ h5 (Nat.minFac_dvd c)
      have h7 := Nat.minFac_sq_le_self h1 hnp
      have h8 := Nat.mul_le_mul (by omega : bs + 1 ≤ c.minFac) (by omega : bs + 1 ≤ c.minFac)
      rw [pow_two] at h7
      omega
    have hcb := hbig c hcp (dvd_refl c)
    have hv : m.factorization c = 1 := by
      rw [← h4 c hcp (fun h => by have := (mem_primesUpTo.1 h).2; omega), hcp.factorization_self]
    have : facPart m (primesUpTo bs) ++ [(c, 1)] =
        ((primesUpTo bs).filter (fun p => p ∣ m) ++ [c]).map (fun p => (p, m.factorization p)) := by
      rw [List.map_append, facPart]
      simp [hv]
    rw [this]
    congr 1
    apply sorted_ext
    · rw [List.pairwise_append]
      refine ⟨(primesUpTo_sorted bs).filter _, by simp, ?_⟩
      intro p hp q hq
      rw [List.mem_singleton] at hq
      have := (mem_primesUpTo.1 (List.mem_of_mem_filter hp)).2
      omega
    · exact (primesUpTo_sorted m).filter _
    · intro p
      simp only [List.mem_append, List.mem_singleton, List.mem_filter, mem_primesUpTo,
        decide_eq_true_eq]
      constructor
      · rintro (⟨⟨h5, h6⟩, h7⟩ | rfl)
        · exact ⟨⟨h5, Nat.le_of_dvd hm h7⟩, h7⟩
        · exact ⟨⟨hcp, hle⟩, h2⟩
      · rintro ⟨⟨h5, h6⟩, h7⟩
        by_cases hpb : p ≤ bs
        · exact Or.inl ⟨⟨h5, hpb⟩, h7⟩
        · exact Or.inr ((Nat.prime_dvd_prime_iff_eq h5 hcp).1 (hdvd p h5 (by omega) h7))

theorem frYield_spec {b start bs : Nat} (block : List Nat) (facs : List (List (Nat × Nat)))
    (g : Nat → Nat) (f : Nat → List (Nat × Nat))
    (h : Tab bs block g) (hf : Tab bs facs f) (k j : Nat) (hkj : j + k = bs) :
    frYield b start block facs (List.range' j k) = .ok
      ((List.range' j (min k (b - start - j))).map (fun i => (start + i,
          if g i ≠ 1 then f i ++ [(g i, 1)] else f i)),
        decide (¬ (start + bs ≤ b ∨ k = 0))) := by
  induction k generalizing j with
  | zero => simp [frYield]
  | succ k ih =>
    rw [List.range'_succ]
    unfold frYield
    by_cases hb : start + j ≥ b
    · rw [if_pos hb, show b - start - j = 0 by omega]
      have : decide (¬ (start + bs ≤ b ∨ k + 1 = 0)) = true := by
        simp only [decide_eq_true_eq]; omega
      rw [this]; simp
    · rw [if_neg hb, h.get j (by omega), hf.get j (by omega)]
      dsimp only
      rw [ih (j + 1) (by omega)]
      dsimp only
      rw [show min (k + 1) (b - start - j) = min k (b - start - (j + 1)) + 1 by omega,
        List.range'_succ, List.map_cons]
      have : decide (¬ (start + bs ≤ b ∨ k = 0)) = decide (¬ (start + bs ≤ b ∨ k + 1 = 0)) := by
        rw [decide_eq_decide]; omega
      rw [this]

theorem frBlocks_spec {a b bs : Nat} (ha : 0 < a) (hbs : 0 < bs)
    (hb : b ≤ (bs + 1) * (bs + 1)) (start : Nat) (hs : a ≤ start) (hk : bs ∣ start - a) :
    frBlocks a b bs (primesUpTo bs) start =
      .ok ((List.range' start (b - start)).map (fun m => (m, Spec.primePowers m))) := by
  induction hm : b - start using Nat.strong_induction_on generalizing start with
  | _ m ih =>
    rw [frBlocks]
    by_cases hlt : start < b
    · rw [dif_pos ⟨hlt, hbs⟩]
      have hblk : Tab bs (List.range' start bs) (fun i => start + i) :=
        ⟨by simp, fun i hi => by simp [hi]⟩
      obtain ⟨b1, w1, hb1, ht1, hw1⟩ := frLoop_spec hs hk (by omega) (primesUpTo bs)
        (fun p hp => mem_primesUpTo.1 hp) (nodup_primesUpTo bs) _ _ _ _
        hblk (Tab.replicate bs ([] : List (Nat × Nat)))
        (fun i hi => ⟨by omega, fun _ _ => rfl⟩)
      rw [hb1]
      dsimp only
      rw [List.range_eq_range', frYield_spec _ _ _ _ ht1 hw1 bs 0 (by omega)]
      have hval : (List.range' 0 (min bs (b - start - 0))).map (fun i => (start + i,
          if (primesUpTo bs).foldl (fun c p => c / p ^ (start + i).factorization p) (start + i) ≠ 1
          then [] ++ facPart (start + i) (primesUpTo bs) ++
            [((primesUpTo bs).foldl (fun c p => c / p ^ (start + i).factorization p) (start + i), 1)]
          else [] ++ facPart (start + i) (primesUpTo bs))) =
          (List.range' start (min bs (b - start))).map
            (fun m => (m, Spec.primePowers m)) := by
        rw [← Nat.add_zero start, ← range'_map_add, Nat.add_zero]
        apply List.map_congr_left
        intro i hi
        rw [List.mem_range'_1] at hi
        rw [← facPart_complete (m := start + i) (bs := bs) (by omega) (by omega)]
        rfl
      rw [hval]
      by_cases hend : start + bs ≤ b
      · have hd : decide (¬ (start + bs ≤ b ∨ bs = 0)) = false := by simp [hend]
        rw [hd]
        dsimp only
        rw [ih (b - (start + bs)) (by omega) (start + bs) (by omega) (by
          rw [show start + bs - a = start - a + bs by omega]
          exact dvd_add hk (dvd_refl _)) rfl]
        dsimp only
        rw [← List.map_append, Nat.min_eq_left (by omega),
          show m = bs + (b - (start + bs)) by omega, ← List.range'_append_1]
      · have hd : decide (¬ (start + bs ≤ b ∨ bs = 0)) = true := by
          simp only [decide_eq_true_eq]; omega
        rw [hd]
        dsimp only
        rw [Nat.min_eq_right (by omega), hm]
    · rw [dif_neg (fun h => hlt h.1), show m = 0 by omega]
      rfl

end Rosemary.Tables
