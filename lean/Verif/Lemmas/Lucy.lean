import Verif.Model.PrimeCounting
import Verif.Lemmas.Sieves
import Mathlib.NumberTheory.PrimeCounting
import Mathlib.Algebra.BigOperators.Intervals

/-!
# The dynamic program of `prime_count` and `prime_sum`
-/

namespace Rosemary.PrimeCounting

open Rosemary.Sieves Finset

variable {f : Nat → Int}

/-- Sum of `f` over the primes up to `v`. -/
def primeSumTo (f : Nat → Int) (v : Nat) : Int := ∑ m ∈ (Icc 2 v).filter Nat.Prime, f m

/-- Sum of `f` over the numbers `2 ≤ m ≤ v` with no prime factor below `p`. -/
def rough (f : Nat → Int) (v p : Nat) : Int := ∑ m ∈ (Icc 2 v).filter (fun m => p ≤ m.minFac), f m

/-- Sum of `f` over the numbers left when the primes below `p` have been sieved. -/
def sieved (f : Nat → Int) (v p : Nat) : Int :=
  ∑ m ∈ (Icc 2 v).filter (fun m => m.Prime ∨ p ≤ m.minFac), f m

theorem sieved_eq (f : Nat → Int) (v p : Nat) :
    sieved f v p = primeSumTo f (min v (p - 1)) + rough f v p := by
  unfold sieved primeSumTo rough
  rw [← Finset.sum_union]
  · apply sum_congr _ (fun _ _ => rfl)
    ext m
    simp only [mem_filter, mem_union, mem_Icc]
    constructor
    · rintro ⟨h1, h2⟩
      by_cases h3 : p ≤ m.minFac
      · exact Or.inr ⟨h1, h3⟩
      · have hp : m.Prime := h2.resolve_right h3
        rw [hp.minFac_eq] at h3
        exact Or.inl ⟨by omega, hp⟩
    · rintro (⟨h1, h2⟩ | ⟨h1, h2⟩)
      · exact ⟨by omega, Or.inl h2⟩
      · exact ⟨h1, Or.inr h2⟩
  · rw [Finset.disjoint_left]
    intro m hm hm2
    simp only [mem_filter, mem_Icc] at hm hm2
    have := Nat.minFac_le (n := m) (by omega)
    omega

theorem rough_step (h1 : f 1 = 1) {v p : Nat} (hp : p.Prime) (hf : ∀ k, f (p * k) = f p * f k)
    (hpv : p ≤ v) : rough f v p = rough f v (p + 1) + f p * (1 + rough f (v / p) p) := by
  unfold rough
  have e1 : (Icc 2 v).filter (fun m => p ≤ m.minFac) =
      (Icc 2 v).filter (fun m => p + 1 ≤ m.minFac) ∪
      (insert 1 ((Icc 2 (v / p)).filter (fun m => p ≤ m.minFac))).image (fun k => p * k) := by
    ext m
    simp only [mem_filter, mem_union, mem_Icc, mem_image, mem_insert]
    constructor
    · rintro ⟨h2, h3⟩
      rcases Nat.lt_or_ge p m.minFac with h4 | h4
      · exact Or.inl ⟨h2, h4⟩
      · right
        have h5 : m.minFac = p := by omega
        obtain ⟨k, hk⟩ := (h5 ▸ Nat.minFac_dvd m : p ∣ m)
        refine ⟨k, ?_, hk.symm⟩
        have hk0 : 0 < k := by
          rcases Nat.eq_zero_or_pos k with h | h
          · subst h; omega
          · exact h
        by_cases hk1 : k = 1
        · exact Or.inl hk1
        · right
          refine ⟨⟨by omega, ?_⟩, ?_⟩
          · rw [Nat.le_div_iff_mul_le hp.pos, mul_comm]; omega
          · rw [← h5]
            apply Nat.minFac_le_of_dvd
            · exact (Nat.minFac_prime hk1).two_le
            · exact (Nat.minFac_dvd k).trans (hk ▸ dvd_mul_left k p)
    · rintro (⟨h2, h3⟩ | ⟨k, h2, rfl⟩)
      · exact ⟨h2, by omega⟩
      · rcases h2 with rfl | ⟨h2, h3⟩
        · rw [mul_one]
          exact ⟨⟨hp.two_le, hpv⟩, by rw [hp.minFac_eq]⟩
        · have h4 := h2.2
          rw [Nat.le_div_iff_mul_le hp.pos, mul_comm] at h4
          have h5 : 2 * 1 ≤ p * k := Nat.mul_le_mul hp.two_le (by omega)
          refine ⟨⟨by omega, h4⟩, ?_⟩
          have h6 : p * k ≠ 1 := by omega
          have h7 := Nat.minFac_prime h6
          rcases (Nat.Prime.dvd_mul h7).1 (Nat.minFac_dvd (p * k)) with h8 | h8
          · rw [(Nat.prime_dvd_prime_iff_eq h7 hp).1 h8]
          · exact h3.trans (Nat.minFac_le_of_dvd h7.two_le h8)
  rw [e1, sum_union]
  · congr 1
    rw [sum_image (by intro a _ b _ h; exact Nat.eq_of_mul_eq_mul_left hp.pos h), sum_insert (by simp)]
    rw [sum_congr rfl (fun k _ => hf k), ← mul_sum, hf, h1]
    ring
  · rw [Finset.disjoint_left]
    intro m hm hm2
    simp only [mem_filter, mem_Icc, mem_image] at hm hm2
    obtain ⟨k, -, rfl⟩ := hm2
    have := Nat.minFac_le_of_dvd hp.two_le (dvd_mul_right p k)
    omega

theorem rough_small {v p : Nat} (h : v < p) : rough f v p = 0 := by
  unfold rough
  rw [Finset.sum_eq_zero]
  intro m hm
  simp only [mem_filter, mem_Icc] at hm
  have := Nat.minFac_le (n := m) (by omega)
  omega

theorem primeSumTo_succ (v : Nat) (hv : 1 ≤ v) :
    primeSumTo f (v + 1) = primeSumTo f v + if (v + 1).Prime then f (v + 1) else 0 := by
  unfold primeSumTo
  have : Icc 2 (v + 1) = insert (v + 1) (Icc 2 v) := by
    ext m; simp only [mem_insert, mem_Icc]; omega
  rw [this, filter_insert]
  split
  · rw [sum_insert (by simp), add_comm]
  · rw [add_zero]

/-- One round of the sieve, for the arguments that change. -/
theorem sieved_step (h1 : f 1 = 1) {v p : Nat} (hp : p.Prime) (hf : ∀ k, f (p * k) = f p * f k)
    (hpv : p * p ≤ v) :
    sieved f v (p + 1) = sieved f v p - f p * (sieved f (v / p) p - sieved f (p - 1) p) := by
  have hle : p ≤ v / p := by rwa [Nat.le_div_iff_mul_le hp.pos]
  have hpv2 : p ≤ v := by nlinarith [hp.two_le]
  rw [sieved_eq f v (p + 1), sieved_eq f v p, sieved_eq f (v / p) p, sieved_eq f (p - 1) p,
    rough_small (by have := hp.pos; omega : p - 1 < p), rough_step h1 hp hf hpv2]
  have hp2 := hp.two_le
  rw [Nat.min_eq_right (by omega : p + 1 - 1 ≤ v), Nat.min_eq_right (by omega : p - 1 ≤ v),
    Nat.min_eq_right (by omega : p - 1 ≤ v / p), Nat.min_eq_right (le_refl (p - 1))]
  have h3 := primeSumTo_succ (f := f) (p - 1) (by omega)
  rw [Nat.sub_add_cancel hp.one_le, if_pos hp] at h3
  rw [Nat.add_sub_cancel, h3]
  ring

/-- One round of the sieve, for the other arguments. -/
theorem sieved_same {v p : Nat} (h : p.Prime → v < p * p) : sieved f v (p + 1) = sieved f v p := by
  unfold sieved
  apply sum_congr _ (fun _ _ => rfl)
  ext m
  simp only [mem_filter, mem_Icc]
  constructor
  · rintro ⟨h1, h2⟩; exact ⟨h1, h2.imp_right (by omega)⟩
  · rintro ⟨h1, h2 | h2⟩
    · exact ⟨h1, Or.inl h2⟩
    · refine ⟨h1, ?_⟩
      by_contra hc
      rw [not_or] at hc
      have h3 : m.minFac = p := by omega
      have h4 : p.Prime := h3 ▸ Nat.minFac_prime (by omega)
      have h5 := Nat.minFac_sq_le_self (by omega) hc.1
      rw [h3, pow_two] at h5
      have := h h4
      omega

theorem sieved_done {v p : Nat} (h : v < p * p) : sieved f v p = primeSumTo f v := by
  unfold sieved primeSumTo
  apply sum_congr _ (fun _ _ => rfl)
  ext m
  simp only [mem_filter, mem_Icc]
  constructor
  · rintro ⟨h1, h2 | h2⟩
    · exact ⟨h1, h2⟩
    · refine ⟨h1, ?_⟩
      by_contra hc
      have h5 := Nat.minFac_sq_le_self (by omega) hc
      rw [pow_two] at h5
      have := Nat.mul_le_mul h2 h2
      omega
  · rintro ⟨h1, h2⟩; exact ⟨h1, Or.inl h2⟩

/-! ## The list of floors -/

theorem mem_downFrom {a v : Nat} : v ∈ downFrom a ↔ 0 < v ∧ v ≤ a := by
  induction a with
  | zero => simp [downFrom]; omega
  | succ a ih => simp only [downFrom, List.mem_cons, ih]; omega

theorem downFrom_sorted (a : Nat) : (downFrom a).Pairwise (· > ·) := by
  induction a with
  | zero => simp [downFrom]
  | succ a ih =>
    rw [downFrom, List.pairwise_cons]
    exact ⟨fun v hv => by rw [mem_downFrom] at hv; omega, ih⟩

/-- What is used of the list `V`. -/
structure Floors (n r : Nat) (V : List Nat) : Prop where
  sorted : V.Pairwise (· > ·)
  mem : ∀ v, v ∈ V ↔ (0 < v ∧ v ≤ n / r) ∨ ∃ i, 0 < i ∧ i ≤ r ∧ v = n / i

theorem floors_spec {n r : Nat} (hr : 0 < r) (h1 : r * r ≤ n) :
    ∃ V, floors n r = .ok V ∧ Floors n r V := by
  unfold floors
  have hlast : ((pyRange 1 (r + 1)).map (fun i => n / i)).getLast? = some (n / r) := by
    unfold pyRange
    rw [List.getLast?_map, List.getLast?_range']
    have : r + 1 - 1 ≠ 0 := by omega
    simp [Nat.ne_of_gt hr]
  dsimp only
  rw [hlast]
  dsimp only
  refine ⟨_, rfl, ?_, ?_⟩
  · rw [List.pairwise_append]
    refine ⟨?_, downFrom_sorted _, ?_⟩
    · rw [List.pairwise_map]
      refine List.Pairwise.imp_of_mem ?_ (pyRange_sorted 1 (r + 1))
      intro i j hi hj hij
      rw [mem_pyRange] at hi hj
      have hq : j ≤ n / j := by
        rw [Nat.le_div_iff_mul_le (by omega)]
        exact (Nat.mul_le_mul (by omega) (by omega)).trans h1
      have h3 := Nat.div_mul_le_self n j
      have h4 : n / j + 1 ≤ n / i := by
        rw [Nat.le_div_iff_mul_le (by omega)]
        have h5 : (n / j) * (i + 1) ≤ (n / j) * j := Nat.mul_le_mul_left _ (by omega)
        nlinarith
      exact h4
    · intro a ha b hb
      rw [List.mem_map] at ha
      obtain ⟨i, hi, rfl⟩ := ha
      rw [mem_pyRange] at hi
      rw [mem_downFrom] at hb
      have : n / r ≤ n / i := Nat.div_le_div_left (by omega) (by omega)
      omega
  · intro v
    rw [List.mem_append, List.mem_map, mem_downFrom]
    constructor
    · rintro (⟨i, hi, rfl⟩ | h)
      · rw [mem_pyRange] at hi
        exact Or.inr ⟨i, by omega, by omega, rfl⟩
      · exact Or.inl ⟨h.1, by omega⟩
    · rintro (h | ⟨i, hi, hir, rfl⟩)
      · by_cases he : v = n / r
        · left; exact ⟨r, by rw [mem_pyRange]; omega, he.symm⟩
        · right; omega
      · left; exact ⟨i, by rw [mem_pyRange]; omega, rfl⟩

theorem Floors.closed {n r : Nat} {V : List Nat} (h : Floors n r V) (hr : 0 < r) {v p : Nat}
    (hv : v ∈ V) (hp : 0 < p) (hpv : p ≤ v) : v / p ∈ V := by
  rw [h.mem] at hv ⊢
  have h0 : 0 < v / p := Nat.div_pos hpv hp
  rcases hv with h1 | ⟨i, hi, hir, rfl⟩
  · exact Or.inl ⟨h0, (Nat.div_le_self _ _).trans h1.2⟩
  · rw [Nat.div_div_eq_div_mul] at h0 ⊢
    by_cases hip : i * p ≤ r
    · exact Or.inr ⟨i * p, Nat.mul_pos hi hp, hip, rfl⟩
    · exact Or.inl ⟨h0, Nat.div_le_div_left (by omega) hr⟩

theorem Floors.all {n r : Nat} {V : List Nat} (h : Floors n r V) (hr : 0 < r) {i : Nat}
    (hi : 0 < i) (hin : i ≤ n) : n / i ∈ V := by
  rw [h.mem]
  by_cases hir : i ≤ r
  · exact Or.inr ⟨i, hi, hir, rfl⟩
  · exact Or.inl ⟨Nat.div_pos hin hi, Nat.div_le_div_left (by omega) hr⟩

theorem Floors.pos {n r : Nat} {V : List Nat} (h : Floors n r V) (hrn : r ≤ n) {v : Nat}
    (hv : v ∈ V) : 0 < v ∧ v ≤ n := by
  rw [h.mem] at hv
  rcases hv with h1 | ⟨i, hi, hir, rfl⟩
  · exact ⟨h1.1, h1.2.trans (Nat.div_le_self _ _)⟩
  · exact ⟨Nat.div_pos (by omega) hi, Nat.div_le_self _ _⟩

theorem Floors.small {n r : Nat} {V : List Nat} (h : Floors n r V) (hr : 0 < r) (h1 : r * r ≤ n)
    {v : Nat} (h0 : 0 < v) (hv : v ≤ r) : v ∈ V := by
  rw [h.mem]
  refine Or.inl ⟨h0, ?_⟩
  rw [Nat.le_div_iff_mul_le hr]
  exact (Nat.mul_le_mul_right _ hv).trans h1

/-! ## The inner loops -/

/-- The dictionary `S` has the keys `V` and holds `g v` at `v`. -/
def IsDict (V : List Nat) (S : Dict) (g : Nat → Int) : Prop :=
  ∀ v, S v = if v ∈ V then some (g v) else none

theorem IsDict.congr {V : List Nat} {S : Dict} {g g' : Nat → Int} (h : IsDict V S g)
    (hg : ∀ v ∈ V, g v = g' v) : IsDict V S g' := by
  intro v
  rw [h v]
  split
  · rw [hg v ‹_›]
  · rfl

theorem IsDict.put {V : List Nat} {S : Dict} {g : Nat → Int} (h : IsDict V S g) {k : Nat}
    (hk : k ∈ V) (x : Int) : IsDict V (S.put k x) (fun v => if v = k then x else g v) := by
  intro v
  unfold Dict.put
  by_cases hv : v = k
  · subst hv; simp [hk]
  · simp only [if_neg hv]; exact h v

/-- The new value at `v`. -/
def upd (p : Nat) (w : Int) (g : Nat → Int) (v : Nat) : Int :=
  if p * p ≤ v then g v - w * (g (v / p) - g (p - 1)) else g v

theorem sumInner_spec {n r p : Nat} {V : List Nat} (hV : Floors n r V) (hr : 0 < r)
    (hp : 2 ≤ p) (g : Nat → Int) (pre vs : List Nat) (hpre : V = pre ++ vs) (S : Dict)
    (hS : IsDict V S (fun v => if v ∈ vs then g v else upd p p g v)) :
    ∃ S', sumInner p (g (p - 1)) vs S = .ok S' ∧ IsDict V S' (upd p p g) := by
  induction vs generalizing pre S with
  | nil => exact ⟨S, rfl, hS.congr (fun v _ => by simp)⟩
  | cons v vs ih =>
    unfold sumInner
    have hsorted := hV.sorted
    rw [hpre, List.pairwise_append, List.pairwise_cons] at hsorted
    obtain ⟨hs1, ⟨hs2, hs3⟩, hs4⟩ := hsorted
    by_cases hlt : v < p * p
    · rw [if_pos hlt]
      refine ⟨S, rfl, hS.congr ?_⟩
      intro u hu
      split
      · rename_i hmem
        unfold upd
        rw [if_neg]
        rcases List.mem_cons.1 hmem with rfl | h
        · omega
        · have := hs2 u h; omega
      · rfl
    · rw [if_neg hlt]
      have hpp : p * 1 < p * p := Nat.mul_lt_mul_of_pos_left (by omega) (by omega)
      have hvV : v ∈ V := by rw [hpre]; simp
      have hdV : v / p ∈ V := hV.closed hr hvV (by omega) (by omega)
      have hdlt : v / p < v := Nat.div_lt_self (by omega) (by omega)
      have hdvs : v / p ∈ v :: vs := by
        rw [hpre, List.mem_append] at hdV
        rcases hdV with h | h
        · have := hs4 _ h v (by simp); omega
        · exact h
      rw [hS v, hS (v / p), if_pos hvV, if_pos hdV]
      dsimp only
      rw [if_pos (List.mem_cons_self), if_pos hdvs]
      apply ih (pre ++ [v]) (by rw [hpre]; simp)
      refine (hS.put hvV _).congr ?_
      intro u hu
      by_cases huv : u = v
      · subst huv
        rw [if_pos rfl, if_neg (fun h => by have := hs2 u h; omega)]
        unfold upd
        rw [if_pos (by omega)]
      · rw [if_neg huv]
        simp [huv]

theorem countInner_spec {n r p : Nat} {V : List Nat} (hV : Floors n r V) (hr : 0 < r)
    (hp : 2 ≤ p) (hpV : p - 1 ∈ V) (g : Nat → Int) (pre vs : List Nat) (hpre : V = pre ++ vs) (S : Dict)
    (hS : IsDict V S (fun v => if v ∈ vs then g v else upd p 1 g v)) :
    ∃ S', countInner p vs S = .ok S' ∧ IsDict V S' (upd p 1 g) := by
  induction vs generalizing pre S with
  | nil => exact ⟨S, rfl, hS.congr (fun v _ => by simp)⟩
  | cons v vs ih =>
    unfold countInner
    have hsorted := hV.sorted
    rw [hpre, List.pairwise_append, List.pairwise_cons] at hsorted
    obtain ⟨hs1, ⟨hs2, hs3⟩, hs4⟩ := hsorted
    by_cases hlt : v < p * p
    · rw [if_pos hlt]
      refine ⟨S, rfl, hS.congr ?_⟩
      intro u hu
      split
      · rename_i hmem
        unfold upd
        rw [if_neg]
        rcases List.mem_cons.1 hmem with rfl | h
        · omega
        · have := hs2 u h; omega
      · rfl
    · rw [if_neg hlt]
      have hpp : p * 1 < p * p := Nat.mul_lt_mul_of_pos_left (by omega) (by omega)
      have hvV : v ∈ V := by rw [hpre]; simp
      have hdV : v / p ∈ V := hV.closed hr hvV (by omega) (by omega)
      have hdlt : v / p < v := Nat.div_lt_self (by omega) (by omega)
      have hrem : ∀ u ∈ V, u < v → u ∈ v :: vs := by
        intro u hu hlt
        rw [hpre, List.mem_append] at hu
        rcases hu with h | h
        · have := hs4 _ h v (by simp); omega
        · exact h
      rw [hS v, hS (v / p), hS (p - 1), if_pos hvV, if_pos hdV, if_pos hpV]
      dsimp only
      rw [if_pos (List.mem_cons_self), if_pos (hrem _ hdV hdlt), if_pos (hrem _ hpV (by omega))]
      apply ih (pre ++ [v]) (by rw [hpre]; simp)
      refine (hS.put hvV _).congr ?_
      intro u hu
      by_cases huv : u = v
      · subst huv
        rw [if_pos rfl, if_neg (fun h => by have := hs2 u h; omega)]
        unfold upd
        rw [if_pos (by omega)]
        ring
      · rw [if_neg huv]
        simp [huv]

/-! ## The outer loops -/

/-- The values before the round `p`; `c` is the value at `1`. -/
def state (f : Nat → Int) (c : Int) (p v : Nat) : Int := if 2 ≤ v then sieved f v p else c

theorem state_upd {c : Int} (h1 : f 1 = 1) {p : Nat} (hp : p.Prime)
    (hc : p = 2 → c = 0) (hf : ∀ k, f (p * k) = f p * f k) (v : Nat) :
    upd p (f p) (state f c p) v = state f c (p + 1) v := by
  unfold upd
  have hp2 := hp.two_le
  by_cases hv : p * p ≤ v
  · have hle : p ≤ v / p := by rwa [Nat.le_div_iff_mul_le hp.pos]
    have hpv2 : p ≤ v := by nlinarith
    have hpm : state f c p (p - 1) = sieved f (p - 1) p := by
      unfold state
      split
      · rfl
      · rw [hc (by omega), sieved_eq, rough_small (by omega)]
        have : min (p - 1) (p - 1) = 1 := by omega
        rw [this]; rfl
    rw [if_pos hv, hpm]
    unfold state
    rw [if_pos (by omega), if_pos (by omega), if_pos (by omega), sieved_step h1 hp hf hv]
  · rw [if_neg hv]
    unfold state
    split
    · rw [sieved_same (fun _ => by omega)]
    · rfl

theorem state_notPrime {c : Int} {p : Nat} (hp : ¬ p.Prime) (v : Nat) :
    state f c p v = state f c (p + 1) v := by
  unfold state
  split
  · rw [sieved_same (fun h => absurd h hp)]
  · rfl

/-- The comparison `S[p] > S[p-1]` is a primality test. -/
theorem state_lt {c : Int} {p : Nat} (hp : 2 ≤ p) (hc : p = 2 → c = 0) (hpos : 0 < f p) :
    state f c p p > state f c p (p - 1) ↔ p.Prime := by
  have h1 : state f c p p = primeSumTo f p := by
    unfold state
    rw [if_pos hp, sieved_done (by nlinarith)]
  have h2 : state f c p (p - 1) = primeSumTo f (p - 1) := by
    unfold state
    split
    · rw [sieved_done]
      have : p * 1 ≤ p * p := Nat.mul_le_mul_left _ (by omega)
      omega
    · rw [hc (by omega), show p - 1 = 1 by omega]; rfl
  rw [h1, h2]
  have h3 := primeSumTo_succ (f := f) (p - 1) (by omega)
  rw [Nat.sub_add_cancel (by omega)] at h3
  rw [h3]
  split <;> simp_all

theorem sumLoop_spec {n r : Nat} {V : List Nat} (hV : Floors n r V) (hr : 0 < r) (h1 : r * r ≤ n)
    (k p : Nat) (hp : 2 ≤ p) (hkp : p + k = r + 1) (S : Dict)
    (hS : IsDict V S (state (fun m => (m : Int)) 0 p)) :
    ∃ S', sumLoop V (List.range' p k) S = .ok S' ∧
      IsDict V S' (state (fun m => (m : Int)) 0 (r + 1)) := by
  induction k generalizing p S with
  | zero => exact ⟨S, rfl, by rw [← hkp]; exact hS⟩
  | succ k ih =>
    rw [List.range'_succ]
    unfold sumLoop
    rw [hS p, hS (p - 1), if_pos (hV.small hr h1 (by omega) (by omega)),
      if_pos (hV.small hr h1 (by omega) (by omega))]
    dsimp only
    by_cases hpr : p.Prime
    · rw [if_pos ((state_lt hp (fun _ => rfl) (by omega)).2 hpr)]
      obtain ⟨S1, hS1, hd1⟩ := sumInner_spec hV hr hp (state (fun m => (m : Int)) 0 p) [] V rfl S
        (hS.congr (fun v hv => by rw [if_pos hv]))
      rw [hS1]
      dsimp only
      apply ih (p + 1) (by omega) (by omega)
      refine hd1.congr (fun v _ => ?_)
      exact state_upd (f := fun m => (m : Int)) (by simp) hpr (fun _ => rfl) (fun k => by push_cast; rfl) v
    · rw [if_neg (fun h => hpr ((state_lt hp (fun _ => rfl) (by omega)).1 h))]
      apply ih (p + 1) (by omega) (by omega)
      exact hS.congr (fun v _ => state_notPrime hpr v)

theorem countLoop_spec {n r : Nat} {V : List Nat} (hV : Floors n r V) (hr : 0 < r) (h1 : r * r ≤ n)
    (c : Int) (k p : Nat) (hp : 3 ≤ p) (hkp : p + k = r + 1) (S : Dict)
    (hS : IsDict V S (state (fun _ => 1) c p)) :
    ∃ S', countLoop V (List.range' p k) S = .ok S' ∧
      IsDict V S' (state (fun _ => 1) c (r + 1)) := by
  induction k generalizing p S with
  | zero => exact ⟨S, rfl, by rw [← hkp]; exact hS⟩
  | succ k ih =>
    rw [List.range'_succ]
    unfold countLoop
    have hpV := hV.small hr h1 (by omega : 0 < p - 1) (by omega)
    rw [hS p, hS (p - 1), if_pos (hV.small hr h1 (by omega) (by omega)), if_pos hpV]
    dsimp only
    by_cases hpr : p.Prime
    · rw [if_pos ((state_lt (by omega) (fun h => by omega) (by omega)).2 hpr)]
      obtain ⟨S1, hS1, hd1⟩ := countInner_spec hV hr (by omega) hpV (state (fun _ => 1) c p) [] V rfl S
        (hS.congr (fun v hv => by rw [if_pos hv]))
      rw [hS1]
      dsimp only
      apply ih (p + 1) (by omega) (by omega)
      refine hd1.congr (fun v _ => ?_)
      exact state_upd (f := fun _ => (1 : Int)) rfl hpr (fun h => by omega) (fun k => rfl) v
    · rw [if_neg (fun h => hpr ((state_lt (by omega) (fun h => by omega) (by omega)).1 h))]
      apply ih (p + 1) (by omega) (by omega)
      exact hS.congr (fun v _ => state_notPrime hpr v)

/-! ## Initial values -/

theorem sieved_two (f : Nat → Int) (v : Nat) : sieved f v 2 = ∑ m ∈ Icc 2 v, f m := by
  unfold sieved
  rw [filter_true_of_mem]
  intro m hm
  rw [mem_Icc] at hm
  exact Or.inr (Nat.minFac_prime (by omega)).two_le

theorem sum_init (v : Nat) (hv : 0 < v) :
    ((v : Int) * (v + 1)).fdiv 2 - 1 = state (fun m => (m : Int)) 0 2 v := by
  have key : ∀ v : Nat, 0 < v → (v : Int) * (v + 1) = 2 * (∑ m ∈ Icc 2 v, (m : Int) + 1) := by
    intro v hv
    induction v with
    | zero => omega
    | succ v ih =>
      rcases Nat.eq_zero_or_pos v with rfl | h
      · simp
      · rw [Finset.sum_Icc_succ_top (by omega)]
        have := ih h
        push_cast at this ⊢
        linarith
  rw [key v hv, Int.fdiv_eq_ediv_of_nonneg _ (by omega), Int.mul_ediv_cancel_left _ (by omega)]
  unfold state
  split
  · rw [sieved_two]; ring
  · have : v = 1 := by omega
    subst this; simp

theorem count_init (v : Nat) (hv : 0 < v) :
    ((v : Int) + 1).fdiv 2 = state (fun _ => 1) 1 3 v := by
  unfold state
  split
  · rename_i h2
    have hr : ∀ v, 2 ≤ v → sieved (fun _ => 1) v 3 = ((v + 1) / 2 : Nat) := by
      intro v h2
      unfold sieved
      rw [Finset.sum_const, nsmul_eq_mul, mul_one]
      congr 1
      induction v with
      | zero => omega
      | succ v ih =>
        rcases Nat.lt_or_ge v 2 with h | h
        · have : v = 1 := by omega
          subst this; decide +kernel
        · have e : Icc 2 (v + 1) = insert (v + 1) (Icc 2 v) := by
            ext m; simp only [mem_insert, mem_Icc]; omega
          rw [e, filter_insert]
          by_cases ho : (v + 1) % 2 = 0
          · rw [if_neg, ih h]
            · omega
            · rintro (h3 | h3)
              · have := h3.eq_two_or_odd; omega
              · have := Nat.minFac_le_of_dvd (le_refl 2) (Nat.dvd_of_mod_eq_zero ho); omega
          · rw [if_pos, card_insert_of_notMem (by simp), ih h]
            · omega
            · right
              have h4 := (Nat.minFac_prime (by omega : v + 1 ≠ 1)).two_le
              have h5 : (v + 1).minFac ≠ 2 := by
                intro h5
                have := Nat.minFac_dvd (v + 1)
                rw [h5] at this
                omega
              omega
    rw [hr v h2, Int.fdiv_eq_ediv_of_nonneg _ (by omega)]
    norm_cast
  · have : v = 1 := by omega
    subst this; rfl

theorem initDict_isDict (f : Nat → Int) (V : List Nat) : IsDict V (initDict f V) f := fun _ => rfl

end Rosemary.PrimeCounting
