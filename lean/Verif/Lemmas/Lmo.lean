import Verif.Lemmas.CubeRoots
import Mathlib.NumberTheory.Bertrand

/-!
# The parts of `lmo`
-/

namespace Rosemary.PrimeCounting

open Rosemary.Sieves Rosemary.Spec Finset

theorem mem_takeWhile_le {T : List Nat} (hs : T.Pairwise (· < ·)) (n : Int) (p : Nat) :
    p ∈ T.takeWhile (fun q : Nat => decide ((q : Int) ≤ n)) ↔ p ∈ T ∧ (p : Int) ≤ n := by
  induction T with
  | nil => simp
  | cons a T ih =>
    rw [List.pairwise_cons] at hs
    rw [List.takeWhile_cons]
    split
    · rename_i h
      simp only [decide_eq_true_eq] at h
      rw [List.mem_cons, ih hs.2, List.mem_cons]
      constructor
      · rintro (rfl | h1)
        · exact ⟨.inl rfl, h⟩
        · exact ⟨.inr h1.1, h1.2⟩
      · rintro ⟨rfl | h1, h2⟩
        · exact .inl rfl
        · exact .inr ⟨h1, h2⟩
    · rename_i h
      simp only [decide_eq_true_eq] at h
      simp only [List.not_mem_nil, List.mem_cons, false_iff, not_and]
      rintro (rfl | h1)
      · exact h
      · have := hs.1 p h1; omega

theorem bisect_primesUpTo {R y : Nat} (h : y ≤ R) :
    bisectRight (primesUpTo R) (y : Int) = Nat.primeCounting y := by
  have e : (primesUpTo R).takeWhile (fun q : Nat => decide ((q : Int) ≤ (y : Int))) = primesUpTo y := by
    refine sorted_ext ((primesUpTo_sorted R).sublist (List.takeWhile_sublist _)) (primesUpTo_sorted _) ?_
    intro p
    rw [mem_takeWhile_le (primesUpTo_sorted R), mem_primesUpTo, mem_primesUpTo]
    constructor
    · rintro ⟨⟨h4, -⟩, h5⟩; exact ⟨h4, by omega⟩
    · rintro ⟨h4, h5⟩
      exact ⟨⟨h4, by omega⟩, by omega⟩
  unfold bisectRight
  rw [e, primesUpTo_eq]
  simp

theorem lmoSum_spec {R x k i : Nat} (hik : i + k ≤ Nat.primeCounting R)
    (hx : ∀ j, i ≤ j → x / P j ≤ R) (v : Int) :
    lmoSum (primesUpTo R) x (List.range' i k) v =
      .ok (v - ∑ j ∈ Ico i (i + k), (Nat.primeCounting (x / P j) : Int)) := by
  induction k generalizing i v with
  | zero => simp [lmoSum]
  | succ k ih =>
    rw [List.range'_succ]
    unfold lmoSum
    rw [primesUpTo_get (by omega)]
    dsimp only
    rw [bisect_primesUpTo (hx i (le_refl _)), ih (by omega) (fun j h1 => hx j (by omega)),
      Finset.sum_eq_sum_Ico_succ_bot (by omega : i < i + (k + 1)),
      show i + 1 + k = i + (k + 1) by omega, sub_sub]

/-! ## The tree of leaves -/

/-- The contribution of a leaf list. -/
noncomputable def leafSum (a : Nat) (l : List (Nat × Int)) : Int := (l.map (fun e => e.2 * phiN e.1 a)).sum

/-- The contribution of `special`. -/
noncomputable def specialSum (sp : Special) : Int := (sp.map (fun e => leafSum e.1 e.2)).sum

theorem specialSum_set (sp : Special) (a v : Nat) (s : Int) :
    specialSum (sp.set a (((sp.get? a).getD []) ++ [(v, s)])) = specialSum sp + s * phiN v a := by
  induction sp with
  | nil => simp [specialSum, Dict.set, Dict.get?, leafSum]
  | cons e sp ih =>
    obtain ⟨k, l⟩ := e
    by_cases h : k = a
    · subst h
      simp [specialSum, Dict.set, Dict.get?, leafSum]
      ring
    · have hih := ih
      simp only [Dict.set, Dict.get?, if_neg h]
      unfold specialSum at hih ⊢
      rw [List.map_cons, List.sum_cons, hih, List.map_cons, List.sum_cons]
      ring

/-- The contribution of the stack. -/
noncomputable def stackSum (x : Nat) (st : List (Nat × Nat × Int)) : Int :=
  (st.map (fun e => e.2.2 * phiN (x / e.1) e.2.1)).sum

/-- The number of steps still to do. -/
def stackCost (st : List (Nat × Nat × Int)) : Nat := (st.map (fun e => 2 ^ (e.2.1 + 1) - 1)).sum

/-- What is known of a stack entry. -/
structure NodeOk (t c : Nat) (e : Nat × Nat × Int) : Prop where
  pos : 1 ≤ e.2.1
  le : e.2.1 ≤ c
  npos : 1 ≤ e.1
  sign : e.2.2 = 1 ∨ e.2.2 = -1
  top : e.2.1 = c → e.1 = 1
  next : e.2.1 + 1 = c → e.1 ≤ t

/-- What is known of `special`. -/
structure SpecialOk (root c : Nat) (sp : Special) : Prop where
  wf : Dict.WF sp
  ok : ∀ a l, Dict.get? sp a = some l → 1 ≤ a ∧ a + 2 ≤ c ∧ ∀ e ∈ l, e.1 ≤ root ∧ (e.2 = 1 ∨ e.2 = -1)

/-- The key `k` is there or will come. -/
def Pending (t c k : Nat) (st : List (Nat × Nat × Int)) (sp : Special) : Prop :=
  k ∈ Dict.keys sp ∨ ∃ e ∈ st, (e.2.1 = c ∧ e.1 = 1) ∨ (e.1 = P (c - 1) ∧ k < e.2.1) ∨ (e.2.1 = k ∧ t < e.1)

/-- Bertrand's postulate for the largest prime up to `t`. -/
theorem lt_two_mul_P {t : Nat} (h : 2 ≤ t) : t < 2 * P (Nat.primeCounting t - 1) := by
  have h0 : 0 < Nat.primeCounting t := lt_pi_iff.2 (by rw [P_zero]; exact h)
  by_contra hc
  obtain ⟨q, hq, h1, h2⟩ := Nat.exists_prime_lt_and_le_two_mul (P (Nat.primeCounting t - 1)) (P_prime _).ne_zero
  obtain ⟨i, rfl⟩ := exists_P hq
  have h3 := lt_pi_iff.2 (show P i ≤ t by omega)
  have h4 := P_lt.1 h1
  omega

theorem lmoStack_spec {x root t c r : Nat} (hR : Roots x root t r) (hc : c = Nat.primeCounting t)
    (fuel : Nat) (st : List (Nat × Nat × Int)) (value : Int) (sp : Special)
    (hcost : stackCost st ≤ fuel) (hst : ∀ e ∈ st, NodeOk t c e) (hsp : SpecialOk root c sp) :
    ∃ v' sp', lmoStack (primesUpTo root) x t fuel st value sp = .ok (v', sp') ∧
      v' + specialSum sp' = value + stackSum x st + specialSum sp ∧ SpecialOk root c sp' ∧
      ∀ k, 1 ≤ k → k + 2 ≤ c → Pending t c k st sp → k ∈ Dict.keys sp' := by
  have hcr : c ≤ Nat.primeCounting root := hc ▸ pi_mono hR.t_le_root
  have hPc : ∀ i, i < c → P i ≤ t := fun i hi => lt_pi_iff.1 (hc ▸ hi)
  induction fuel generalizing st value sp with
  | zero =>
    cases st with
    | nil =>
      refine ⟨value, sp, by unfold lmoStack; rfl, by simp [stackSum], hsp, ?_⟩
      rintro k - - (h | ⟨e, he, -⟩)
      · exact h
      · simp at he
    | cons e st =>
      exfalso
      simp only [stackCost, List.map_cons, List.sum_cons] at hcost
      have : 2 ^ 1 ≤ 2 ^ (e.2.1 + 1) := Nat.pow_le_pow_right (by norm_num) (by omega)
      omega
  | succ fuel ih =>
    cases st with
    | nil =>
      refine ⟨value, sp, by unfold lmoStack; rfl, by simp [stackSum], hsp, ?_⟩
      rintro k - - (h | ⟨e, he, -⟩)
      · exact h
      · simp at he
    | cons e st =>
      obtain ⟨n, a, s⟩ := e
      have hn := hst (n, a, s) (by simp)
      have hpos := hn.pos
      have hsign := hn.sign
      have hle := hn.le
      have htop := hn.top
      have hnext := hn.next
      have hnpos := hn.npos
      dsimp only at hpos hsign hle htop hnext hnpos
      have hst' : ∀ e ∈ st, NodeOk t c e := fun e he => hst e (by simp [he])
      have hpow : 2 ^ 1 ≤ 2 ^ (a + 1) := Nat.pow_le_pow_right (by norm_num) (by omega)
      simp only [stackCost, List.map_cons, List.sum_cons] at hcost
      have hsum : stackSum x ((n, a, s) :: st) = s * phiN (x / n) a + stackSum x st := by
        simp [stackSum]
      unfold lmoStack
      by_cases hleaf : a = 1 ∧ n ≤ t
      · rw [if_pos hleaf]
        have hnot : ∀ k, 1 ≤ k → k + 2 ≤ c → Pending t c k ((n, a, s) :: st) sp → Pending t c k st sp := by
          rintro k hk1 hk2 (h | ⟨e, he, h⟩)
          · exact Or.inl h
          · rcases List.mem_cons.1 he with rfl | he
            · exfalso
              dsimp only at h
              omega
            · exact Or.inr ⟨e, he, h⟩
        rw [hsum, hleaf.1, phiN_one]
        rcases hsign with rfl | rfl
        · rw [if_pos (by norm_num)]
          obtain ⟨v', sp', h1, h2, h3, h4⟩ := ih st _ sp (by unfold stackCost; omega) hst' hsp
          refine ⟨v', sp', h1, by rw [h2]; ring, h3, fun k hk1 hk2 hp => h4 k hk1 hk2 (hnot k hk1 hk2 (by rw [hleaf.1]; exact hp))⟩
        · rw [if_neg (by norm_num)]
          obtain ⟨v', sp', h1, h2, h3, h4⟩ := ih st _ sp (by unfold stackCost; omega) hst' hsp
          refine ⟨v', sp', h1, by rw [h2]; ring, h3, fun k hk1 hk2 hp => h4 k hk1 hk2 (hnot k hk1 hk2 (by rw [hleaf.1]; exact hp))⟩
      · rw [if_neg hleaf]
        by_cases hnt : n > t
        · rw [if_pos hnt]
          have hac : a + 2 ≤ c := by
            have h2 := hR.t_two
            rcases Nat.lt_or_ge a c with h | h
            · rcases Nat.lt_or_ge (a + 1) c with h' | h'
              · omega
              · have := hnext (by omega); omega
            · have := htop (by omega); omega
          have hsp' : SpecialOk root c (sp.set a (((sp.get? a).getD []) ++ [(x / n, s)])) := by
            refine ⟨hsp.wf.set _ _, ?_⟩
            intro b l hl
            rw [Dict.get?_set] at hl
            by_cases hab : a = b
            · rw [if_pos hab] at hl
              subst hab
              injection hl with hl
              subst hl
              refine ⟨hpos, hac, ?_⟩
              intro e he
              rcases List.mem_append.1 he with he | he
              · cases hg : Dict.get? sp a with
                | none => rw [hg] at he; simp at he
                | some l =>
                  rw [hg] at he
                  exact (hsp.ok a l hg).2.2 e he
              · rw [List.mem_singleton] at he
                subst he
                exact ⟨hR.div_le_root hnt, hsign⟩
            · rw [if_neg hab] at hl
              exact hsp.ok b l hl
          obtain ⟨v', sp', h1, h2, h3, h4⟩ := ih st value _ (by unfold stackCost; omega) hst' hsp'
          refine ⟨v', sp', h1, by rw [h2, specialSum_set, hsum]; ring, h3, ?_⟩
          intro k hk1 hk2 hp
          apply h4 k hk1 hk2
          rcases hp with h | ⟨e, he, h⟩
          · exact Or.inl (Dict.mem_keys_set.2 (Or.inr h))
          · rcases List.mem_cons.1 he with rfl | he
            · left
              dsimp only at h
              have h2 := hR.t_two
              rcases h with h | h | h
              · omega
              · have := hPc (c - 1) (by omega); omega
              · exact Dict.mem_keys_set.2 (Or.inl h.1.symm)
            · exact Or.inr ⟨e, he, h⟩
        · rw [if_neg hnt, if_neg (by omega)]
          have ha2 : 2 ≤ a := by
            by_contra h
            exact hleaf ⟨by omega, by omega⟩
          rw [primesUpTo_get (by omega)]
          dsimp only
          have hp := P_prime (a - 1)
          obtain ⟨v', sp', h1, h2, h3, h4⟩ := ih ((n * P (a - 1), a - 1, -s) :: (n, a - 1, s) :: st) value sp
            (by
              have e : 2 ^ (a + 1) = 2 * 2 ^ (a - 1 + 1) := by
                rw [← pow_succ']; congr 1; omega
              have : 0 < 2 ^ (a - 1 + 1) := by positivity
              simp only [stackCost, List.map_cons, List.sum_cons]
              omega)
            (by
              intro e he
              rcases List.mem_cons.1 he with rfl | he
              · refine ⟨by dsimp only; omega, by dsimp only; omega, Nat.mul_pos hnpos hp.pos, ?_,
                  by dsimp only; omega, ?_⟩
                · dsimp only
                  rcases hsign with rfl | rfl
                  · right; rfl
                  · left; rfl
                · dsimp only
                  intro h
                  rw [htop (by omega), one_mul]
                  exact hPc _ (by omega)
              · rcases List.mem_cons.1 he with rfl | he
                · exact ⟨by dsimp only; omega, by dsimp only; omega, hnpos, hsign, by dsimp only; omega,
                    by dsimp only; omega⟩
                · exact hst' e he) hsp
          refine ⟨v', sp', h1, ?_, h3, ?_⟩
          · rw [h2, hsum]
            have hstep := phiN_step (x / n) (a - 1)
            rw [Nat.sub_add_cancel hpos, Nat.div_div_eq_div_mul] at hstep
            simp only [stackSum, List.map_cons, List.sum_cons]
            rw [hstep]
            ring
          · intro k hk1 hk2 hpend
            apply h4 k hk1 hk2
            rcases hpend with h | ⟨e, he, h⟩
            · exact Or.inl h
            · right
              rcases List.mem_cons.1 he with rfl | he
              · dsimp only at h
                rcases h with ⟨h5, h6⟩ | ⟨h5, h6⟩ | ⟨h5, h6⟩
                · refine ⟨(n * P (a - 1), a - 1, -s), by simp, Or.inr (Or.inl ?_)⟩
                  dsimp only
                  rw [h6, one_mul, h5]
                  exact ⟨rfl, by omega⟩
                · by_cases hk : k < a - 1
                  · exact ⟨(n, a - 1, s), by simp, Or.inr (Or.inl ⟨h5, hk⟩)⟩
                  · refine ⟨(n * P (a - 1), a - 1, -s), by simp, Or.inr (Or.inr ⟨by dsimp only; omega, ?_⟩)⟩
                    dsimp only
                    have h7 := lt_two_mul_P hR.t_two
                    rw [← hc, ← h5] at h7
                    have := Nat.mul_le_mul_left n hp.two_le
                    omega
                · omega
              · exact ⟨e, by simp [he], h⟩

/-! ## The sieve -/

/-- The block after clearing the multiples of the first `a` primes. -/
noncomputable def blk (root a : Nat) : List Nat :=
  (List.range (root + 1)).map (fun m => if 1 ≤ m ∧ ∀ j < a, ¬ P j ∣ m then 1 else 0)

theorem blk_zero (root : Nat) : 0 :: List.replicate root 1 = blk root 0 := by
  unfold blk
  rw [List.range_succ_eq_map, List.map_cons, List.map_map]
  simp
  apply List.ext_getElem <;> simp

theorem clearMultiples_blk (root a : Nat) : clearMultiples (P a) (blk root a) = blk root (a + 1) := by
  unfold clearMultiples
  apply List.ext_getElem
  · simp [blk]
  · intro i h1 h2
    rw [List.getElem_mapIdx]
    simp only [blk, List.getElem_map, List.getElem_range]
    have hp := P_prime a
    by_cases hd : P a ≤ i ∧ i % P a = 0
    · rw [if_pos hd, if_neg]
      rintro ⟨-, h4⟩
      exact h4 a (by omega) (Nat.dvd_of_mod_eq_zero hd.2)
    · rw [if_neg hd]
      congr 1
      apply propext
      constructor
      · rintro ⟨h3, h4⟩
        refine ⟨h3, fun j hj => ?_⟩
        rcases Nat.lt_or_ge j a with h | h
        · exact h4 j h
        · have : j = a := by omega
          subst this
          intro hdvd
          exact hd ⟨Nat.le_of_dvd (by omega) hdvd, Nat.mod_eq_zero_of_dvd hdvd⟩
      · rintro ⟨h3, h4⟩
        exact ⟨h3, fun j hj => h4 j (by omega)⟩

theorem blk_take_sum {root a v : Nat} (hv : v ≤ root) : (((blk root a).take (v + 1)).sum : Int) = phiN v a := by
  unfold blk phiN
  rw [← List.map_take, List.take_range, Nat.min_eq_left (by omega)]
  congr 1
  have : ∀ f : Nat → Nat, ((List.range (v + 1)).map f).sum = ∑ m ∈ range (v + 1), f m := by
    intro f
    rw [Finset.sum_range, ← List.sum_ofFn, List.ofFn_eq_map]
    simp [List.finRange_eq_pmap_range, List.map_pmap]
  rw [this, ← Finset.card_filter]
  congr 1
  ext m
  simp only [mem_filter, Finset.mem_range, mem_Icc]
  constructor
  · rintro ⟨h1, h2, h3⟩; exact ⟨⟨h2, by omega⟩, h3⟩
  · rintro ⟨⟨h1, h2⟩, h3⟩; exact ⟨by omega, h1, h3⟩

theorem lmoLeaves_spec {root a : Nat} (l : List (Nat × Int)) (lastV : Nat) (value : Int)
    (hl : ∀ e ∈ l, e.1 ≤ root ∧ (e.2 = 1 ∨ e.2 = -1) ∧ lastV ≤ e.1 + 1)
    (hs : l.Pairwise (fun a b => a.1 ≤ b.1)) :
    lmoLeaves (blk root a) l lastV ((blk root a).take lastV).sum value = value + leafSum a l := by
  induction l generalizing lastV value with
  | nil => simp [lmoLeaves, leafSum]
  | cons e l ih =>
    obtain ⟨v, s⟩ := e
    obtain ⟨h1, h2, h3⟩ := hl (v, s) (by simp)
    dsimp only at h1 h2 h3
    obtain ⟨hs1, hs2⟩ := List.pairwise_cons.1 hs
    have e : ((blk root a).take lastV).sum + (((blk root a).drop lastV).take (v + 1 - lastV)).sum =
        ((blk root a).take (v + 1)).sum := by
      rw [← List.sum_append, ← List.take_add]
      congr 2
      omega
    have hih := fun val => ih (v + 1) val (fun e he => ⟨(hl e (by simp [he])).1, (hl e (by simp [he])).2.1,
      by have := hs1 e he; dsimp only at this; omega⟩) hs2
    unfold lmoLeaves
    dsimp only
    rw [e, hih, hih, blk_take_sum h1]
    have hsum : leafSum a ((v, s) :: l) = s * phiN v a + leafSum a l := by simp [leafSum]
    rw [hsum]
    rcases h2 with rfl | rfl
    · rw [if_pos (by norm_num)]; ring
    · rw [if_neg (by norm_num)]; ring

theorem leLeaf_sorted (l : List (Nat × Int)) : (pySort l leLeaf).Pairwise (fun a b => a.1 ≤ b.1) := by
  refine (pairwise_pySort (le := leLeaf) ?_ ?_ l).imp ?_
  · intro a b c; unfold leLeaf; simp only [decide_eq_true_eq]; omega
  · intro a b; unfold leLeaf; simp only [Bool.or_eq_true, decide_eq_true_eq]; omega
  · intro a b; unfold leLeaf; simp only [decide_eq_true_eq]; omega

theorem leafSum_perm {a : Nat} {l l' : List (Nat × Int)} (h : l.Perm l') : leafSum a l = leafSum a l' :=
  (h.map _).sum_eq

theorem lmoSieve_spec {root c : Nat} {sp : Special} (hsp : SpecialOk root c sp) (hc : c ≤ Nat.primeCounting root)
    (k i : Nat) (hi : 1 ≤ i) (hk : ∀ a ∈ List.range' i k, a ∈ Dict.keys sp) (value : Int) :
    lmoSieve (primesUpTo root) sp (List.range' i k) (blk root (i - 1)) value =
      .ok (value + ((List.range' i k).map (fun a => leafSum a ((Dict.get? sp a).getD []))).sum) := by
  induction k generalizing i value with
  | zero => simp [lmoSieve]
  | succ k ih =>
    rw [List.range'_succ] at hk ⊢
    obtain ⟨l, hl⟩ := Dict.get?_isSome.2 (hk i (by simp))
    obtain ⟨h1, h2, h3⟩ := hsp.ok i l hl
    unfold lmoSieve
    rw [primesUpTo_get (by omega)]
    dsimp only
    rw [hl]
    dsimp only
    rw [clearMultiples_blk, Nat.sub_add_cancel hi]
    have hleaf := lmoLeaves_spec (root := root) (a := i) (pySort l leLeaf) 0 value
      (fun e he => ⟨(h3 e (mem_pySort.1 he)).1, (h3 e (mem_pySort.1 he)).2, by omega⟩) (leLeaf_sorted l)
    rw [List.take_zero, List.sum_nil] at hleaf
    rw [hleaf]
    have := ih (i + 1) (by omega) (fun a ha => hk a (by simp [ha])) (value + leafSum i (pySort l leLeaf))
    rw [Nat.add_sub_cancel] at this
    rw [this, leafSum_perm (pySort_perm l leLeaf), List.map_cons, List.sum_cons, hl, Option.getD_some, add_assoc]

theorem specialSum_eq {root c : Nat} {sp : Special} (hsp : SpecialOk root c sp) {ks : List Nat}
    (hks : ks.Perm (Dict.keys sp)) :
    (ks.map (fun a => leafSum a ((Dict.get? sp a).getD []))).sum = specialSum sp := by
  rw [(hks.map _).sum_eq]
  unfold specialSum Dict.keys
  rw [List.map_map]
  congr 1
  apply List.map_congr_left
  rintro ⟨a, l⟩ he
  simp only [Function.comp]
  rw [Dict.get?_of_mem hsp.wf he]
  rfl

end Rosemary.PrimeCounting
