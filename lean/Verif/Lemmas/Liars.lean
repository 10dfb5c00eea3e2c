import Mathlib.Data.ZMod.Units
import Mathlib.FieldTheory.Finite.Basic
import Mathlib.GroupTheory.Index
import Mathlib.NumberTheory.LegendreSymbol.JacobiSymbol
import Mathlib.RingTheory.ZMod.UnitsCyclic

/-!
# Lemmas: how many bases pass the tests of Solovay and Strassen and of Miller and Rabin
-/

namespace Rosemary.Liars

open Finset

/-! ## Groups -/

theorem card_lt_half {G : Type*} [Group G] [Finite G] {H K : Subgroup G} (h : H ≤ K) (hne : H ≠ K) :
    2 * Nat.card H ≤ Nat.card K := by
  obtain ⟨c, hc⟩ := Subgroup.card_dvd_of_le h
  have h0 : 0 < Nat.card K := Nat.card_pos
  have h1 : 0 < Nat.card H := Nat.card_pos
  have : c ≠ 1 := by
    rintro rfl
    exact hne (Subgroup.eq_of_le_of_card_ge h (by rw [hc]; simp))
  have : c ≠ 0 := by rintro rfl; omega
  rw [hc, mul_comm]
  exact Nat.mul_le_mul_left _ (by omega)

/-- The elements with `u ^ m = 1` or `u ^ m = -1` modulo a divisor `d` of `n`. -/
def signPow (n d m : ℕ) (hd : d ∣ n) : Subgroup (ZMod n)ˣ where
  carrier := {u | (ZMod.unitsMap hd u) ^ m = 1 ∨ (ZMod.unitsMap hd u) ^ m = -1}
  one_mem' := by simp
  mul_mem' := by
    rintro a b (ha | ha) (hb | hb) <;> simp [mul_pow, ha, hb]
  inv_mem' := by
    rintro a (ha | ha) <;> simp [ha]

/-- The elements with `u ^ (n - 1) = 1`. -/
def fermat (n : ℕ) : Subgroup (ZMod n)ˣ := (powMonoidHom (n - 1)).ker

theorem mem_fermat {n : ℕ} {u : (ZMod n)ˣ} : u ∈ fermat n ↔ u ^ (n - 1) = 1 := Iff.rfl

theorem mem_signPow {n d m : ℕ} {hd : d ∣ n} {u : (ZMod n)ˣ} :
    u ∈ signPow n d m hd ↔ (ZMod.unitsMap hd u) ^ m = 1 ∨ (ZMod.unitsMap hd u) ^ m = -1 := Iff.rfl

theorem neg_one_ne {d : ℕ} (h : 2 < d) : (-1 : (ZMod d)ˣ) ≠ 1 := by
  intro h1
  have h2 : ((-1 : (ZMod d)ˣ) : ZMod d) = ((1 : (ZMod d)ˣ) : ZMod d) := by rw [h1]
  have : Fact (2 < d) := ⟨h⟩
  exact ZMod.neg_one_ne_one (by simpa using h2)

/-! ## Units with given residues -/

/-- The Chinese remainder theorem for units, with the reductions. -/
theorem exists_unit {a b : ℕ} (hab : a.Coprime b) (x : (ZMod a)ˣ) (y : (ZMod b)ˣ) :
    ∃ u : (ZMod (a * b))ˣ, ZMod.unitsMap (dvd_mul_right a b) u = x ∧ ZMod.unitsMap (dvd_mul_left b a) u = y := by
  set e := ZMod.chineseRemainder hab with he
  have h1 : ZMod.castHom (dvd_mul_right a b) (ZMod a) = (RingHom.fst _ _).comp e.toRingHom := RingHom.ext_zmod _ _
  have h2 : ZMod.castHom (dvd_mul_left b a) (ZMod b) = (RingHom.snd _ _).comp e.toRingHom := RingHom.ext_zmod _ _
  refine ⟨Units.map e.symm.toRingHom (MulEquiv.prodUnits.symm (x, y)), ?_, ?_⟩
  · rw [ZMod.unitsMap_def, h1]
    ext
    simp
    rfl
  · rw [ZMod.unitsMap_def, h2]
    ext
    simp
    rfl

theorem unit_ext {a b : ℕ} (hab : a.Coprime b) {u : (ZMod (a * b))ˣ} (h1 : ZMod.unitsMap (dvd_mul_right a b) u = 1)
    (h2 : ZMod.unitsMap (dvd_mul_left b a) u = 1) : u = 1 := by
  set e := ZMod.chineseRemainder hab with he
  have e1 : ZMod.castHom (dvd_mul_right a b) (ZMod a) = (RingHom.fst _ _).comp e.toRingHom := RingHom.ext_zmod _ _
  have e2 : ZMod.castHom (dvd_mul_left b a) (ZMod b) = (RingHom.snd _ _).comp e.toRingHom := RingHom.ext_zmod _ _
  rw [ZMod.unitsMap_def, e1] at h1
  rw [ZMod.unitsMap_def, e2] at h2
  have h1' := congrArg Units.val h1
  have h2' := congrArg Units.val h2
  simp at h1' h2'
  ext
  apply e.injective
  rw [Units.val_one, map_one]
  exact Prod.ext h1' h2'

theorem unit_of {n a b : ℕ} (hn : n = a * b) (hab : a.Coprime b) (ha : a ∣ n) (hb : b ∣ n) (x : (ZMod a)ˣ) (y : (ZMod b)ˣ) :
    ∃ u : (ZMod n)ˣ, ZMod.unitsMap ha u = x ∧ ZMod.unitsMap hb u = y := by
  subst hn
  exact exists_unit hab x y

theorem unit_eq_one {n a b : ℕ} (hn : n = a * b) (hab : a.Coprime b) (ha : a ∣ n) (hb : b ∣ n) {u : (ZMod n)ˣ}
    (h1 : ZMod.unitsMap ha u = 1) (h2 : ZMod.unitsMap hb u = 1) : u = 1 := by
  subst hn
  exact unit_ext hab h1 h2

theorem unitsMap_trans {d e n : ℕ} (hd : d ∣ e) (he : e ∣ n) (u : (ZMod n)ˣ) :
    ZMod.unitsMap hd (ZMod.unitsMap he u) = ZMod.unitsMap (hd.trans he) u := by
  rw [← MonoidHom.comp_apply, ZMod.unitsMap_comp]

theorem unitsMap_neg_one {d n : ℕ} (h : d ∣ n) : ZMod.unitsMap h (-1) = -1 := by
  ext
  simp [ZMod.unitsMap_def]

/-- If `n` is divisible by the square of a prime, then some unit does not satisfy Fermat's congruence. -/
theorem exists_not_fermat_of_sq {n p : ℕ} (hn : 0 < n) (hp : 1 < p) (h : p * p ∣ n) : ∃ u : (ZMod n)ˣ, u ∉ fermat n := by
  obtain ⟨x, hx⟩ := h
  set k := p * x with hk
  have hnk : n = p * k := by rw [hx, hk]; ring
  have hk0 : 0 < k := by
    rcases Nat.eq_zero_or_pos k with h | h
    · rw [h] at hnk; omega
    · exact h
  have hsq : (k : ZMod n) * k = 0 := by
    rw [← Nat.cast_mul, ZMod.natCast_eq_zero_iff]
    exact ⟨x, by rw [hnk]; conv_lhs => rw [hk]
                 ring⟩
  have hpow : ∀ j : ℕ, (1 + (k : ZMod n)) ^ j = 1 + j * k := by
    intro j
    induction j with
    | zero => simp
    | succ j ih =>
      rw [pow_succ, ih]
      push_cast
      linear_combination (j : ZMod n) * hsq
  refine ⟨⟨1 + k, 1 - k, by linear_combination -hsq, by linear_combination -hsq⟩, ?_⟩
  rw [mem_fermat]
  intro h1
  have h2 := congrArg Units.val h1
  rw [Units.val_pow_eq_pow_val, Units.val_one] at h2
  dsimp only at h2
  rw [hpow, Nat.cast_sub hn, ZMod.natCast_self] at h2
  have h3 : (k : ZMod n) = 0 := by push_cast at h2; linear_combination -h2
  rw [ZMod.natCast_eq_zero_iff] at h3
  have := Nat.le_of_dvd hk0 h3
  have : 2 * k ≤ p * k := Nat.mul_le_mul_right k hp
  omega

/-- A product of two different primes is not a Carmichael number. -/
theorem exists_not_fermat_of_two {n p q : ℕ} (hp : p.Prime) (hq : q.Prime) (hpq : p < q) (hn : n = p * q) :
    ∃ u : (ZMod n)ˣ, u ∉ fermat n := by
  have : Fact q.Prime := ⟨hq⟩
  have hc : p.Coprime q := (Nat.coprime_primes hp hq).2 hpq.ne
  obtain ⟨g, hg⟩ := IsCyclic.exists_generator (α := (ZMod q)ˣ)
  obtain ⟨u, -, hu⟩ := unit_of hn hc (hn ▸ dvd_mul_right p q) (hn ▸ dvd_mul_left q p) 1 g
  refine ⟨u, fun h => ?_⟩
  rw [mem_fermat] at h
  have h1 : g ^ (n - 1) = 1 := by rw [← hu, ← map_pow, h, map_one]
  have h2 := orderOf_dvd_of_pow_eq_one h1
  rw [orderOf_eq_card_of_forall_mem_zpowers hg, Nat.card_eq_fintype_card, ZMod.card_units] at h2
  have hp2 := hp.two_le
  obtain ⟨r, rfl⟩ : ∃ r, q = r + 1 := ⟨q - 1, by omega⟩
  have h3 : n - 1 = r * p + (p - 1) := by rw [hn, Nat.mul_add, mul_one, mul_comm p r]; omega
  rw [h3, Nat.add_sub_cancel] at h2
  have h4 := (Nat.dvd_add_right (Dvd.intro _ rfl)).1 h2
  have := Nat.le_of_dvd (by omega) h4
  omega

theorem card_fermat_prime_pow {p e : ℕ} (hp : p.Prime) (he : 1 ≤ e) : Nat.card (fermat (p ^ e)) ≤ p - 1 := by
  have : Fact p.Prime := ⟨hp⟩
  have hn : p ^ e ≠ 0 := pow_ne_zero _ hp.ne_zero
  have : NeZero (p ^ e) := ⟨hn⟩
  have h1 : Nat.card (fermat (p ^ e)) ∣ p ^ (e - 1) * (p - 1) := by
    have := Subgroup.card_subgroup_dvd_card (fermat (p ^ e))
    rwa [Nat.card_eq_fintype_card (α := (ZMod (p ^ e))ˣ), ZMod.card_units_eq_totient, Nat.totient_prime_pow hp he] at this
  have h2 : ¬ p ∣ Nat.card (fermat (p ^ e)) := by
    intro h
    obtain ⟨⟨u, hu⟩, ho⟩ := exists_prime_orderOf_dvd_card' p h
    rw [Subgroup.orderOf_mk] at ho
    rw [mem_fermat] at hu
    have h3 := orderOf_dvd_of_pow_eq_one hu
    rw [ho] at h3
    have h4 : p ∣ p ^ e := dvd_pow_self p (by omega)
    have h5 : p ∣ 1 := by
      have := (Nat.dvd_sub h4 h3)
      rwa [Nat.sub_sub_self (Nat.pos_of_ne_zero hn)] at this
    exact hp.one_lt.ne' (Nat.dvd_one.1 h5)
  have h3 : (Nat.card (fermat (p ^ e))).Coprime (p ^ (e - 1)) :=
    ((Nat.Prime.coprime_iff_not_dvd hp).2 h2).symm.pow_right _
  have h4 := h3.dvd_of_dvd_mul_left h1
  exact Nat.le_of_dvd (by have := hp.two_le; omega) h4

/-- Every prime factor is 1 modulo `M`, so the number is. -/
theorem modEq_one_of_primes {n M : ℕ} (hn : n ≠ 0) (h : ∀ p, p.Prime → p ∣ n → p ≡ 1 [MOD M]) : n ≡ 1 [MOD M] := by
  induction n using Nat.recOnMul with
  | zero => exact absurd rfl hn
  | one => rfl
  | prime p hp => exact h p hp dvd_rfl
  | mul a b iha ihb =>
    have ha : a ≠ 0 := by rintro rfl; simp at hn
    have hb : b ≠ 0 := by rintro rfl; simp at hn
    exact (iha ha fun p hp hd => h p hp (hd.mul_right b)).mul (ihb hb fun p hp hd => h p hp (hd.mul_left a))

/-- If `-1` is a `2 ^ k`-th power modulo an odd number `n`, then `2 ^ (k + 1)` divides `n - 1`. -/
theorem two_pow_dvd {n k : ℕ} (hn : n % 2 = 1) {u : (ZMod n)ˣ} (hu : u ^ 2 ^ k = -1) : n ≡ 1 [MOD 2 ^ (k + 1)] := by
  refine modEq_one_of_primes (by omega) fun p hp hd => ?_
  have : Fact p.Prime := ⟨hp⟩
  have h2 : 2 < p := by
    have := hp.two_le
    have : p ≠ 2 := by rintro rfl; omega
    omega
  have h1 : (ZMod.unitsMap hd u) ^ 2 ^ k = -1 := by rw [← map_pow, hu, unitsMap_neg_one]
  have h3 : orderOf (ZMod.unitsMap hd u) = 2 ^ (k + 1) := by
    apply orderOf_eq_prime_pow
    · rw [h1]; exact neg_one_ne h2
    · rw [pow_succ, pow_mul, h1]; simp
  have h4 := orderOf_dvd_card (x := ZMod.unitsMap hd u)
  rw [h3, ZMod.card_units] at h4
  exact ((Nat.modEq_iff_dvd' hp.one_lt.le).2 h4).symm

/-- The largest `k` for which `-1` is a `2 ^ k`-th power. -/
theorem exists_max_root {n : ℕ} (hn : n % 2 = 1) (h1 : 1 < n) : ∃ k, (∃ u : (ZMod n)ˣ, u ^ 2 ^ k = -1) ∧
    ∀ j, (∃ u : (ZMod n)ˣ, u ^ 2 ^ j = -1) → j ≤ k := by
  classical
  set P : ℕ → Prop := fun k => ∃ u : (ZMod n)ˣ, u ^ 2 ^ k = -1 with hP
  have h0 : P 0 := ⟨-1, by simp⟩
  have hb : ∀ j, P j → j ≤ n := by
    rintro j ⟨u, hu⟩
    have h2 := (Nat.modEq_iff_dvd' h1.le).1 (two_pow_dvd hn hu).symm
    have h3 := Nat.le_of_dvd (by omega) h2
    have h4 : j + 1 < 2 ^ (j + 1) := Nat.lt_two_pow_self
    omega
  exact ⟨Nat.findGreatest P n, Nat.findGreatest_spec (Nat.zero_le n) h0, fun j hj => Nat.le_findGreatest (hb j hj) hj⟩

theorem signPow_self_mem {n m : ℕ} {u : (ZMod n)ˣ} : u ∈ signPow n n m dvd_rfl ↔ u ^ m = 1 ∨ u ^ m = -1 := by
  rw [mem_signPow, ZMod.unitsMap_self]; rfl

/-- `v ^ m` is `-1` modulo `a` and `1` modulo `b`, where `n = a * b`. -/
theorem mixed_sign {n a b m : ℕ} (hn : n = a * b) (hab : a.Coprime b) (ha : a ∣ n) (hb : b ∣ n) {u : (ZMod n)ˣ}
    (hu : u ^ m = -1) : ∃ v : (ZMod n)ˣ, (ZMod.unitsMap ha v) ^ m = -1 ∧ ZMod.unitsMap hb v = 1 := by
  obtain ⟨v, h1, h2⟩ := unit_of hn hab ha hb (ZMod.unitsMap ha u) 1
  exact ⟨v, by rw [h1, ← map_pow, hu, unitsMap_neg_one], h2⟩

theorem signPow_le_fermat {n m : ℕ} (h : 2 * m ∣ n - 1) : signPow n n m dvd_rfl ≤ fermat n := by
  intro u hu
  rw [signPow_self_mem] at hu
  rw [mem_fermat]
  obtain ⟨c, hc⟩ := h
  have : u ^ (2 * m) = 1 := by
    rw [mul_comm, pow_mul]
    rcases hu with h | h <;> rw [h] <;> simp
  rw [hc, pow_mul, this, one_pow]

theorem four_card_le {n m : ℕ} (hn : n % 2 = 1) (h1 : 1 < n) (hc : ¬ n.Prime) {u : (ZMod n)ˣ} (hu : u ^ m = -1)
    (hm : 2 * m ∣ n - 1) : 4 * Nat.card (signPow n n m dvd_rfl) ≤ n - 1 := by
  have : NeZero n := ⟨by omega⟩
  have hG : Nat.card (⊤ : Subgroup (ZMod n)ˣ) ≤ n - 1 := by
    rw [Subgroup.card_top, Nat.card_eq_fintype_card, ZMod.card_units_eq_totient]
    have := Nat.totient_lt n h1
    omega
  have hp := Nat.minFac_prime (show n ≠ 1 by omega)
  have hpd := Nat.minFac_dvd n
  set p := n.minFac with hpdef
  have hodd : ∀ d, d ∣ n → d % 2 = 1 := by
    intro d hd
    by_contra h
    obtain ⟨c, hc⟩ := (Nat.dvd_of_mod_eq_zero (show d % 2 = 0 by omega)).trans hd
    omega
  have hp3 : 3 ≤ p := by have := hodd p hpd; have := hp.two_le; omega
  obtain ⟨e, x, hx, hnx⟩ := Nat.exists_eq_pow_mul_and_not_dvd (n := n) (by omega) p hp.ne_one
  have he : 1 ≤ e := by
    by_contra h
    have : e = 0 := by omega
    subst this
    rw [pow_zero, one_mul] at hnx
    exact hx (hnx ▸ hpd)
  have hxd : x ∣ n := hnx ▸ dvd_mul_left _ _
  have had : p ^ e ∣ n := hnx ▸ dvd_mul_right _ _
  have hcop : (p ^ e).Coprime x := ((Nat.Prime.coprime_iff_not_dvd hp).2 hx).pow_left e
  by_cases hx1 : x = 1
  · -- a prime power
    rw [hx1, mul_one] at hnx
    have he2 : 2 ≤ e := by
      by_contra h
      have : e = 1 := by omega
      rw [this, pow_one] at hnx
      exact hc (hnx ▸ hp)
    have h2 := Nat.le_of_dvd Nat.card_pos (Subgroup.card_dvd_of_le (signPow_le_fermat hm))
    have h3 : Nat.card (fermat n) ≤ p - 1 := by
      have := card_fermat_prime_pow hp he
      rwa [← hnx] at this
    have h4 : p ^ 2 ≤ n := hnx ▸ Nat.pow_le_pow_right (by omega) he2
    obtain ⟨r, hr⟩ : ∃ r, p = r + 3 := ⟨p - 3, by omega⟩
    rw [hr] at h3 h4
    have h5 : (r + 3) ^ 2 = r * r + 6 * r + 9 := by ring
    have h6 : 0 ≤ r * r := Nat.zero_le _
    omega
  · have hx0 : x ≠ 0 := by rintro rfl; simp at hnx; omega
    have hx3 : 2 < x := by have := hodd x hxd; omega
    have ha3 : 2 < p ^ e := lt_of_lt_of_le (by omega) (Nat.le_self_pow (by omega) p)
    obtain ⟨v, hv1, hv2⟩ := mixed_sign hnx hcop had hxd hu
    have hvB : v ∉ signPow n n m dvd_rfl := by
      rw [signPow_self_mem]
      rintro (h | h)
      · rw [← map_pow, h, map_one] at hv1
        exact neg_one_ne ha3 hv1.symm
      · have h3 : (ZMod.unitsMap hxd v) ^ m = 1 := by rw [hv2, one_pow]
        rw [← map_pow, h, unitsMap_neg_one] at h3
        exact neg_one_ne hx3 h3
    have hvF : v ∈ fermat n := by
      obtain ⟨c, hc⟩ := hm
      have : v ^ (2 * m) = 1 := by
        refine unit_eq_one hnx hcop had hxd ?_ ?_
        · rw [map_pow, mul_comm, pow_mul, hv1]; simp
        · rw [map_pow, hv2, one_pow]
      rw [mem_fermat, hc, pow_mul, this, one_pow]
    by_cases hF : fermat n = ⊤
    · -- a Carmichael number
      have hsq : ∀ q, 1 < q → ¬ q * q ∣ n := by
        intro q hq hd
        obtain ⟨w, hw⟩ := exists_not_fermat_of_sq (by omega) hq hd
        exact hw (hF ▸ Subgroup.mem_top w)
      have he1 : e = 1 := by
        by_contra h
        refine hsq p (by omega) ((pow_two p ▸ pow_dvd_pow p (show 2 ≤ e by omega)).trans had)
      rw [he1, pow_one] at hnx
      have hq := Nat.minFac_prime hx1
      have hqx := Nat.minFac_dvd x
      set q := x.minFac with hqdef
      obtain ⟨y, hy⟩ := hqx
      have hqd : q ∣ n := (hy ▸ dvd_mul_right q y).trans hxd
      have hyd : y ∣ n := (hy ▸ dvd_mul_left y q).trans hxd
      have hq3 : 2 < q := by have := hodd q hqd; have := hq.two_le; omega
      have hpq : p ≠ q := by rintro h; exact hx (h ▸ hy ▸ dvd_mul_right q y)
      have hqy : ¬ q ∣ y := by
        rintro ⟨z, hz⟩
        exact hsq q (by omega) (Dvd.dvd.trans (⟨z, by rw [hy, hz]; ring⟩ : q * q ∣ x) hxd)
      have hpy : ¬ p ∣ y := fun h => hx (h.trans (hy ▸ dvd_mul_left y q))
      have hy1 : y ≠ 1 := by
        rintro rfl
        rw [mul_one] at hy
        rw [hy] at hnx
        rcases Nat.lt_or_gt_of_ne hpq with h | h
        · obtain ⟨w, hw⟩ := exists_not_fermat_of_two hp hq h hnx
          exact hw (hF ▸ Subgroup.mem_top w)
        · obtain ⟨w, hw⟩ := exists_not_fermat_of_two hq hp h (hnx.trans (mul_comm p q))
          exact hw (hF ▸ Subgroup.mem_top w)
      have hy0 : y ≠ 0 := by rintro rfl; rw [mul_zero] at hy; exact hx0 hy
      have hy3 : 2 < y := by have := hodd y hyd; omega
      have hpqd : p * q ∣ n := ⟨y, by rw [hnx, hy]; ring⟩
      have c1 : (p * q).Coprime y :=
        Nat.Coprime.mul_left ((Nat.Prime.coprime_iff_not_dvd hp).2 hpy) ((Nat.Prime.coprime_iff_not_dvd hq).2 hqy)
      have hle : signPow n n m dvd_rfl ≤ signPow n (p * q) m hpqd := by
        intro w hw
        rw [signPow_self_mem] at hw
        rw [mem_signPow, ← map_pow]
        rcases hw with h | h
        · left; rw [h, map_one]
        · right; rw [h, unitsMap_neg_one]
      have hne : signPow n n m dvd_rfl ≠ signPow n (p * q) m hpqd := by
        intro heq
        obtain ⟨w, hw1, hw2⟩ := mixed_sign (show n = y * (p * q) by rw [hnx, hy]; ring) c1.symm hyd hpqd hu
        have hw : w ∈ signPow n (p * q) m hpqd := by rw [mem_signPow, hw2]; left; simp
        rw [← heq, signPow_self_mem] at hw
        rcases hw with h | h
        · rw [← map_pow, h, map_one] at hw1
          exact neg_one_ne hy3 hw1.symm
        · have h3 : (ZMod.unitsMap hpqd w) ^ m = 1 := by rw [hw2, one_pow]
          rw [← map_pow, h, unitsMap_neg_one] at h3
          exact neg_one_ne (by nlinarith) h3
      have hne2 : signPow n (p * q) m hpqd ≠ ⊤ := by
        intro heq
        obtain ⟨w, hw1, hw2⟩ := mixed_sign hnx ((Nat.Prime.coprime_iff_not_dvd hp).2 hx) hpd hxd hu
        have hw : w ∈ signPow n (p * q) m hpqd := heq ▸ Subgroup.mem_top w
        rw [mem_signPow] at hw
        rcases hw with h | h
        · have h3 := congrArg (ZMod.unitsMap (dvd_mul_right p q)) h
          rw [map_pow, unitsMap_trans, hw1, map_one] at h3
          exact neg_one_ne (by omega) h3
        · have h3 := congrArg (ZMod.unitsMap (dvd_mul_left q p)) h
          rw [map_pow, unitsMap_trans, unitsMap_neg_one] at h3
          have h4 : ZMod.unitsMap ((dvd_mul_left q p).trans hpqd) w = 1 := by
            rw [← unitsMap_trans (hy ▸ dvd_mul_right q y : q ∣ x) hxd, hw2, map_one]
          rw [h4, one_pow] at h3
          exact neg_one_ne hq3 h3.symm
      have := card_lt_half hle hne
      have := card_lt_half le_top hne2
      omega
    · have h2 := card_lt_half (signPow_le_fermat hm) (fun h => hvB (h ▸ hvF))
      have h3 := card_lt_half le_top hF
      omega

/-! ## Solovay and Strassen -/

/-- The Jacobi symbol of a unit. -/
def jac {n : ℕ} (u : (ZMod n)ˣ) : ℤ := jacobiSym ((u : ZMod n).val : ℤ) n

theorem jac_mul {n : ℕ} (u v : (ZMod n)ˣ) : jac (u * v) = jac u * jac v := by
  unfold jac
  rw [Units.val_mul, ZMod.val_mul, Int.natCast_mod, ← jacobiSym.mod_left, Nat.cast_mul, jacobiSym.mul_left]

theorem jac_one {n : ℕ} (hn : 1 < n) : jac (1 : (ZMod n)ˣ) = 1 := by
  unfold jac
  have : Fact (1 < n) := ⟨hn⟩
  rw [Units.val_one, ZMod.val_one, Nat.cast_one, jacobiSym.one_left]

theorem jac_sq {n : ℕ} (hn : 1 < n) (u : (ZMod n)ˣ) : jac u * jac u = 1 := by
  have h : jac u * jac u⁻¹ = 1 := by rw [← jac_mul, mul_inv_cancel, jac_one hn]
  rcases Int.eq_one_or_neg_one_of_mul_eq_one h with h1 | h1 <;> rw [h1] <;> rfl

/-- The bases that pass the test of Solovay and Strassen. -/
def euler (n : ℕ) (hn : 1 < n) : Subgroup (ZMod n)ˣ where
  carrier := {u | ((u : ZMod n)) ^ ((n - 1) / 2) = (jac u : ℤ)}
  one_mem' := by
    rw [Set.mem_setOf_eq, jac_one hn]; simp
  mul_mem' := by
    intro a b ha hb
    rw [Set.mem_setOf_eq] at ha hb ⊢
    rw [Units.val_mul, mul_pow, ha, hb, jac_mul]; push_cast; rfl
  inv_mem' := by
    intro u hu
    rw [Set.mem_setOf_eq] at hu ⊢
    have h1 : (u : ZMod n) ^ ((n - 1) / 2) * ((u⁻¹ : (ZMod n)ˣ) : ZMod n) ^ ((n - 1) / 2) = 1 := by
      rw [← mul_pow, Units.mul_inv, one_pow]
    have h2 : ((jac u : ℤ) : ZMod n) * ((jac u⁻¹ : ℤ) : ZMod n) = 1 := by
      rw [← Int.cast_mul, ← jac_mul, mul_inv_cancel, jac_one hn, Int.cast_one]
    rw [hu] at h1
    linear_combination (((jac u⁻¹ : ℤ) : ZMod n)) * h1 - ((u⁻¹ : (ZMod n)ˣ) : ZMod n) ^ ((n - 1) / 2) * h2

theorem mem_euler {n : ℕ} {hn : 1 < n} {u : (ZMod n)ˣ} :
    u ∈ euler n hn ↔ (u : ZMod n) ^ ((n - 1) / 2) = (jac u : ℤ) := Iff.rfl

theorem euler_ne_top {n : ℕ} (hodd : n % 2 = 1) (hn : 1 < n) (hc : ¬ n.Prime) : euler n hn ≠ ⊤ := by
  intro htop
  by_cases hsq : ∃ q, 1 < q ∧ q * q ∣ n
  · obtain ⟨q, hq, hd⟩ := hsq
    obtain ⟨u, hu⟩ := exists_not_fermat_of_sq (by omega) hq hd
    apply hu
    have h1 : u ∈ euler n hn := htop ▸ Subgroup.mem_top u
    rw [mem_euler] at h1
    rw [mem_fermat]
    ext
    rw [Units.val_pow_eq_pow_val, show n - 1 = (n - 1) / 2 * 2 by omega, pow_mul, h1, sq, ← Int.cast_mul, jac_sq hn]
    simp
  · push Not at hsq
    have hp := Nat.minFac_prime (show n ≠ 1 by omega)
    obtain ⟨m, hm⟩ := Nat.minFac_dvd n
    have hpd := Nat.minFac_dvd n
    have hmd : m ∣ n := Dvd.intro_left _ hm.symm
    set p := n.minFac with hpdef
    have hodd' : ∀ d, d ∣ n → d % 2 = 1 := by
      intro d hd
      by_contra h
      obtain ⟨c, hc⟩ := (Nat.dvd_of_mod_eq_zero (show d % 2 = 0 by omega)).trans hd
      omega
    have hpm : ¬ p ∣ m := by
      rintro ⟨z, hz⟩
      exact hsq p hp.one_lt ⟨z, by rw [hz] at hm; rw [hm]; ring⟩
    have hcop : p.Coprime m := (Nat.Prime.coprime_iff_not_dvd hp).2 hpm
    have hm1 : m ≠ 1 := by rintro rfl; rw [mul_one] at hm; exact hc (hm ▸ hp)
    have hm3 : 2 < m := by have := hodd' m hmd; omega
    have : Fact p.Prime := ⟨hp⟩
    have hp2 : p ≠ 2 := by have := hodd' p hpd; omega
    obtain ⟨a, ha⟩ := FiniteField.exists_nonsquare (F := ZMod p) (by rw [ZMod.ringChar_zmod_n]; exact hp2)
    have ha0 : a ≠ 0 := by rintro rfl; exact ha ⟨0, by simp⟩
    obtain ⟨u, hu1, hu2⟩ := unit_of hm hcop hpd hmd (Units.mk0 a ha0) 1
    have h1 : u ∈ euler n hn := htop ▸ Subgroup.mem_top u
    rw [mem_euler] at h1
    have : NeZero n := ⟨by omega⟩
    have hup : (((u : ZMod n).val : ℤ) : ZMod p) = a := by
      have := congrArg Units.val hu1
      rw [ZMod.unitsMap_val] at this
      rw [Int.cast_natCast, ZMod.natCast_val, this]; rfl
    have hum : (((u : ZMod n).val : ℤ) : ZMod m) = 1 := by
      have := congrArg Units.val hu2
      rw [ZMod.unitsMap_val] at this
      rw [Int.cast_natCast, ZMod.natCast_val, this]; rfl
    have : NeZero p := ⟨hp.ne_zero⟩
    have : NeZero m := ⟨by omega⟩
    have hj : jac u = -1 := by
      have hgen : ∀ b : ℤ, jacobiSym b n = jacobiSym b p * jacobiSym b m := fun b => by
        conv_lhs => rw [hm]
        rw [jacobiSym.mul_right]
      unfold jac
      rw [hgen, ← jacobiSym.legendreSym.to_jacobiSym]
      have e1 : legendreSym p ((u : ZMod n).val : ℤ) = -1 := by
        rw [legendreSym.eq_neg_one_iff, hup]; exact ha
      have e2 : jacobiSym ((u : ZMod n).val : ℤ) m = 1 := by
        have h3 : ((u : ZMod n).val : ℤ) % m = 1 % m :=
          (ZMod.intCast_eq_intCast_iff _ _ _).1 (by rw [hum]; simp)
        rw [jacobiSym.mod_left, h3, ← jacobiSym.mod_left, jacobiSym.one_left]
      rw [e1, e2]; rfl
    rw [hj] at h1
    have h2 : u ^ ((n - 1) / 2) = -1 := by ext; rw [Units.val_pow_eq_pow_val, h1]; simp
    have h3 := congrArg (ZMod.unitsMap hmd) h2
    rw [map_pow, hu2, one_pow, unitsMap_neg_one] at h3
    exact neg_one_ne hm3 h3.symm

theorem two_card_euler {n : ℕ} (hodd : n % 2 = 1) (hn : 1 < n) (hc : ¬ n.Prime) :
    2 * Nat.card (euler n hn) ≤ n.totient := by
  have : NeZero n := ⟨by omega⟩
  have := card_lt_half le_top (euler_ne_top hodd hn hc)
  rwa [Subgroup.card_top, Nat.card_eq_fintype_card (α := (ZMod n)ˣ), ZMod.card_units_eq_totient] at this

/-- Counting residues through units. -/
theorem card_le_of_units {n : ℕ} (hn : 1 < n) (H : Subgroup (ZMod n)ˣ) (s : Finset ℕ) (hs : ∀ a ∈ s, a < n)
    (h : ∀ a ∈ s, ∃ u ∈ H, (u : ZMod n) = a) : s.card ≤ Nat.card H := by
  classical
  have : NeZero n := ⟨by omega⟩
  choose! f hf1 hf2 using h
  have h1 : (s.image f).card = s.card := by
    refine Finset.card_image_of_injOn fun a ha b hb hab => ?_
    have h2 : (a : ZMod n) = b := by rw [← hf2 a ha, ← hf2 b hb]; exact congrArg Units.val hab
    rw [ZMod.natCast_eq_natCast_iff] at h2
    exact Nat.ModEq.eq_of_lt_of_lt h2 (hs a ha) (hs b hb)
  rw [← h1, ← SetLike.coe_sort_coe, Nat.card_coe_set_eq, ← Set.ncard_coe_finset]
  refine Set.ncard_le_ncard ?_ (Set.toFinite _)
  intro u hu
  obtain ⟨a, ha, rfl⟩ := Finset.mem_image.1 (Finset.mem_coe.1 hu)
  exact hf1 a ha

end Rosemary.Liars
