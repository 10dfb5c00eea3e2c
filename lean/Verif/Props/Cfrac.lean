import Verif.Model.Cfrac
import Verif.Lemmas.SqrtPell
import Verif.Props.Factorization
import Verif.Props.Sieves
import Mathlib.Data.List.MinMax

/-!
# Property C120: the continued fraction method
-/

namespace Rosemary.Props

open Rosemary Rosemary.Core Rosemary.Primality Rosemary.Factorization Rosemary.Sieves Rosemary.Spec

/-! ### The multiplier -/

private theorem jacobiNonneg_eq (a : Int) (p : Nat) (hp : Odd p) :
    jacobiNonneg a p = decide (0 ≤ jacobiSym a p) := by
  unfold jacobiNonneg
  rw [(C12_jacobi_symbol a p).1 hp]

private def goodMul (n : Int) (k : Nat) : Prop := jacobiNonneg (k * n) 3 = true ∧ jacobiNonneg (k * n) 5 = true

private instance (n : Int) (k : Nat) : Decidable (goodMul n k) := by unfold goodMul; infer_instance

private theorem choices_spec (n : Int) (ks : List Nat) (acc : Dict Nat (List Nat))
    (hacc : ∀ c l, acc.get? c = some l → l ≠ []) :
    (∀ c l, (multiplierChoices n ks acc).get? c = some l → l ≠ []) ∧
    ∀ c k, (∃ l, (multiplierChoices n ks acc).get? c = some l ∧ k ∈ l) ↔
      (∃ l, acc.get? c = some l ∧ k ∈ l) ∨ (k ∈ ks ∧ goodMul n k ∧ multiplierCount n k = c) := by
  induction ks generalizing acc with
  | nil => exact ⟨hacc, by simp [multiplierChoices]⟩
  | cons a ks ih =>
    rw [multiplierChoices]
    by_cases hg : goodMul n a
    · have hg' : jacobiNonneg (a * n) 3 = true ∧ jacobiNonneg (a * n) 5 = true := hg
      rw [if_pos hg']
      dsimp only
      have key : ∀ l0 : List Nat, (∀ c l, (acc.set (multiplierCount n a) (l0 ++ [a])).get? c = some l → l ≠ []) := by
        intro l0 c l h
        rw [Dict.get?_set] at h
        split at h
        · injection h with h; subst h; simp
        · exact hacc c l h
      have key2 : ∀ l0 : List Nat, (∀ k, k ∈ l0 ↔ ∃ l, acc.get? (multiplierCount n a) = some l ∧ k ∈ l) →
          ∀ c k, (∃ l, (acc.set (multiplierCount n a) (l0 ++ [a])).get? c = some l ∧ k ∈ l) ↔
            (∃ l, acc.get? c = some l ∧ k ∈ l) ∨ (k = a ∧ multiplierCount n a = c) := by
        intro l0 hl0 c k
        rw [Dict.get?_set]
        by_cases hc : multiplierCount n a = c
        · subst hc
          rw [if_pos rfl]
          simp only [Option.some.injEq, exists_eq_left', List.mem_append, List.mem_singleton, hl0,
            and_true]
        · rw [if_neg hc]; simp [hc]
      cases hget : acc.get? (multiplierCount n a) with
      | none =>
        dsimp only
        obtain ⟨i1, i2⟩ := ih _ (key [])
        refine ⟨i1, fun c k => ?_⟩
        rw [List.nil_append] at i2
        rw [i2 c k]
        have := key2 [] (by simp [hget]) c k
        rw [List.nil_append] at this
        rw [this, List.mem_cons]
        constructor
        · rintro ((h | ⟨rfl, h⟩) | ⟨h1, h2⟩)
          · exact Or.inl h
          · exact Or.inr ⟨Or.inl rfl, hg, h⟩
          · exact Or.inr ⟨Or.inr h1, h2⟩
        · rintro (h | ⟨rfl | h1, h2, h3⟩)
          · exact Or.inl (Or.inl h)
          · exact Or.inl (Or.inr ⟨rfl, h3⟩)
          · exact Or.inr ⟨h1, h2, h3⟩
      | some l0 =>
        dsimp only
        obtain ⟨i1, i2⟩ := ih _ (key l0)
        refine ⟨i1, fun c k => ?_⟩
        rw [i2 c k]
        rw [key2 l0 (by simp [hget]) c k, List.mem_cons]
        constructor
        · rintro ((h | ⟨rfl, h⟩) | ⟨h1, h2⟩)
          · exact Or.inl h
          · exact Or.inr ⟨Or.inl rfl, hg, h⟩
          · exact Or.inr ⟨Or.inr h1, h2⟩
        · rintro (h | ⟨rfl | h1, h2, h3⟩)
          · exact Or.inl (Or.inl h)
          · exact Or.inl (Or.inr ⟨rfl, h3⟩)
          · exact Or.inr ⟨h1, h2, h3⟩
    · have hg' : ¬ (jacobiNonneg (a * n) 3 = true ∧ jacobiNonneg (a * n) 5 = true) := hg
      rw [if_neg hg']
      obtain ⟨i1, i2⟩ := ih acc hacc
      refine ⟨i1, fun c k => ?_⟩
      rw [i2 c k, List.mem_cons]
      constructor
      · rintro (h | ⟨h1, h2⟩)
        · exact Or.inl h
        · exact Or.inr ⟨Or.inr h1, h2⟩
      · rintro (h | ⟨rfl | h1, h2, h3⟩)
        · exact Or.inl h
        · exact absurd h2 hg
        · exact Or.inr ⟨h1, h2, h3⟩

/-- How many of the odd primes up to 31 the multiplier `k` lets into the factor base. -/
def admitted (n : Int) (k : Nat) : Nat :=
  ((Finset.range 32).filter (fun p => p.Prime ∧ p ≠ 2 ∧ 0 ≤ jacobiSym (k * n) p)).card

private theorem count_eq (n : Int) (k : Nat) : multiplierCount n k = admitted n k := by
  unfold multiplierCount admitted
  have h1 : multiplierPrimes.filter (jacobiNonneg (k * n)) =
      multiplierPrimes.filter (fun p => decide (0 ≤ jacobiSym (k * n) p)) := by
    apply List.filter_congr
    intro p hp
    apply jacobiNonneg_eq
    revert p hp
    decide
  rw [h1]
  have h2 : (Finset.range 32).filter (fun p => p.Prime ∧ p ≠ 2 ∧ 0 ≤ jacobiSym (k * n) p) =
      (multiplierPrimes.filter (fun p => decide (0 ≤ jacobiSym (k * n) p))).toFinset := by
    have h3 : ∀ p, p ∈ multiplierPrimes ↔ p < 32 ∧ p.Prime ∧ p ≠ 2 := by
      intro p
      constructor
      · intro h
        revert p h
        decide
      · rintro ⟨h, h', h''⟩
        revert h' h''
        interval_cases p <;> decide
    ext p
    simp only [Finset.mem_filter, Finset.mem_range, List.mem_toFinset, List.mem_filter, h3, decide_eq_true_eq]
    tauto
  rw [h2, List.toFinset_card_of_nodup]
  exact List.Nodup.filter _ (by decide)

private theorem goodMul_iff (n : Int) (k : Nat) :
    goodMul n k ↔ 0 ≤ jacobiSym (k * n) 3 ∧ 0 ≤ jacobiSym (k * n) 5 := by
  unfold goodMul
  rw [jacobiNonneg_eq _ _ (by decide), jacobiNonneg_eq _ _ (by decide)]
  simp

/-- C120: `_cfrac_multiplier(n)` is the smallest of the `k < 1000` that admit 3 and 5 and the largest
number of the odd primes up to 31 to the factor base. -/
theorem C120_multiplier (n : Int) :
    ∃ k, cfracMultiplier n = .ok k ∧ 1 ≤ k ∧ k < 1000 ∧
      0 ≤ jacobiSym (k * n) 3 ∧ 0 ≤ jacobiSym (k * n) 5 ∧
      ∀ k' : Nat, 1 ≤ k' → k' < 1000 → 0 ≤ jacobiSym (k' * n) 3 → 0 ≤ jacobiSym (k' * n) 5 →
        admitted n k' < admitted n k ∨ admitted n k' = admitted n k ∧ k ≤ k' := by
  obtain ⟨h1, h2⟩ := choices_spec n (List.range' 1 999) [] (by simp [Dict.get?])
  have h2' : ∀ c k, (∃ l, (multiplierChoices n (List.range' 1 999) []).get? c = some l ∧ k ∈ l) ↔
      k ∈ List.range' 1 999 ∧ goodMul n k ∧ multiplierCount n k = c := by
    intro c k; rw [h2 c k]; simp [Dict.get?]
  clear h2
  have h15 : goodMul n 15 := by
    rw [goodMul_iff]
    have e3 : jacobiSym ((15 : Nat) * n) 3 = 0 := by
      rw [jacobiSym.mod_left, show (((15 : Nat) : Int) * n) % ((3 : Nat) : Int) = 0 by omega]
      exact jacobiSym.zero_left (by norm_num)
    have e5 : jacobiSym ((15 : Nat) * n) 5 = 0 := by
      rw [jacobiSym.mod_left, show (((15 : Nat) : Int) * n) % ((5 : Nat) : Int) = 0 by omega]
      exact jacobiSym.zero_left (by norm_num)
    rw [e3, e5]
    exact ⟨le_refl _, le_refl _⟩
  unfold cfracMultiplier
  dsimp only
  generalize multiplierChoices n (List.range' 1 999) [] = D at *
  have hkeys : ∀ k, k ∈ List.range' 1 999 → goodMul n k → multiplierCount n k ∈ Dict.keys D := by
    intro k hk hg
    rw [← Dict.get?_isSome]
    obtain ⟨l, hl, -⟩ := (h2' _ k).2 ⟨hk, hg, rfl⟩
    exact ⟨l, hl⟩
  cases hmax : (Dict.keys D).max? with
  | none =>
    rw [List.max?_eq_none_iff] at hmax
    have := hkeys 15 (by decide) h15
    rw [hmax] at this
    simp at this
  | some c =>
    dsimp only
    rw [List.max?_eq_some_iff] at hmax
    obtain ⟨l, hl⟩ := Dict.get?_isSome.2 hmax.1
    rw [hl]
    dsimp only
    cases hmin : l.min? with
    | none =>
      rw [List.min?_eq_none_iff] at hmin
      exact absurd hmin (h1 c l hl)
    | some k =>
      rw [List.min?_eq_some_iff] at hmin
      obtain ⟨hk1, hk2, hk3⟩ := (h2' c k).1 ⟨l, hl, hmin.1⟩
      rw [goodMul_iff] at hk2
      rw [List.mem_range'_1] at hk1
      refine ⟨k, rfl, by omega, by omega, hk2.1, hk2.2, ?_⟩
      intro k' a1 a2 a3 a4
      have hg' : goodMul n k' := (goodMul_iff n k').2 ⟨a3, a4⟩
      have hr' : k' ∈ List.range' 1 999 := by rw [List.mem_range'_1]; omega
      have hle := hmax.2 _ (hkeys k' hr' hg')
      rw [← count_eq, ← count_eq, hk3]
      rcases lt_or_eq_of_le hle with h | h
      · exact Or.inl h
      · right
        refine ⟨h, ?_⟩
        obtain ⟨l', hl', hm⟩ := (h2' c k').2 ⟨hr', hg', h⟩
        rw [hl] at hl'
        injection hl' with hl'
        subst hl'
        exact hmin.2 _ hm

/-- A square needs no multiplier. -/
private theorem multiplier_square (m : Int) : cfracMultiplier (m ^ 2) = .ok 1 := by
  obtain ⟨k, hk, k1, -, -, -, hbest⟩ := C120_multiplier (m ^ 2)
  have hj : ∀ p : Nat, 0 ≤ jacobiSym ((1 : Nat) * m ^ 2) p := by
    intro p
    rw [Nat.cast_one, one_mul, jacobiSym.pow_left]
    positivity
  have hmax : admitted (m ^ 2) k ≤ admitted (m ^ 2) 1 := by
    apply Finset.card_le_card
    intro p
    simp only [Finset.mem_filter]
    rintro ⟨h1, h2, h3, -⟩
    exact ⟨h1, h2, h3, hj p⟩
  rcases hbest 1 (le_refl _) (by norm_num) (hj 3) (hj 5) with h | ⟨-, h⟩
  · omega
  · rw [hk]; congr 1; omega

/-! ### Soundness -/

private theorem rows_sound {n : Int} {base : List Nat} {M : List (List Nat)} {as : List Int}
    {K : List (List Nat)} {d : Int} (h : cfracRows n base M as K = some d) : 1 < d ∧ d < n ∧ d ∣ n := by
  induction K with
  | nil => simp [cfracRows] at h
  | cons v K ih =>
    rw [cfracRows] at h
    split_ifs at h with h1 h2
    · injection h with h
      subst h
      exact ⟨h1.1, h1.2, (C01_gcd _ n).2.1 _ (by simp)⟩
    · injection h with h
      subst h
      exact ⟨h2.1, h2.2, (C01_gcd _ n).2.1 _ (by simp)⟩
    · exact ih h

private theorem main_sound {n kn : Int} {ps : List Nat} {d : Int}
    (h : cfracMain n kn ps = some (.ok (some d))) : 1 < d ∧ d < n ∧ d ∣ n := by
  unfold cfracMain at h
  dsimp only at h
  split at h
  · simp at h
  split_ifs at h
  · simp at h
  split at h
  · simp at h
  · simp at h
  split at h
  · simp at h
  · injection h with h
    injection h with h
    exact rows_sound h

/-- C120: whatever the bound and the multiplier, a number returned by `cfrac(n)` is a divisor of `n`
greater than 1; it is a proper divisor if `n` is composite. -/
theorem C120_cfrac_sound (T : List Nat) (hT : IsPrimeTable T) (B n : Int) (hn : 1 < n) (k : Option Int)
    (d : Int) (h : cfrac T (.ok B) n k = some (.ok (some d))) :
    1 < d ∧ d ∣ n ∧ (¬ n.natAbs.Prime → d < n) := by
  unfold cfrac at h
  dsimp only at h
  rw [C18_primes T hT] at h
  dsimp only at h
  split at h
  · simp at h
  split at h
  · rename_i p hp
    injection h with h
    injection h with h
    injection h with h
    subst h
    have hm := List.mem_of_find?_eq_some hp
    have hpp := (mem_primesUpTo.1 hm).1
    have hd : (p : Int) ∣ n := by
      have := List.find?_some hp
      exact Int.dvd_of_fmod_eq_zero (of_decide_eq_true this)
    refine ⟨by exact_mod_cast hpp.one_lt, hd, fun hnp => ?_⟩
    refine lt_of_le_of_ne (Int.le_of_dvd (by omega) hd) ?_
    rintro rfl
    exact hnp (by simpa using hpp)
  · obtain ⟨h1, h2, h3⟩ := main_sound h
    exact ⟨h1, h3, fun _ => h2⟩

/-! ### The congruence -/

private def pw (fb : List Int) (es : List Nat) : Int := ((fb.zip es).map (fun pe => pe.1 ^ pe.2)).prod

private theorem pw_add (fb : List Int) (e f : List Nat) (h : e.length = f.length) :
    pw fb (List.zipWith (· + ·) e f) = pw fb e * pw fb f := by
  induction fb generalizing e f with
  | nil => simp [pw]
  | cons b fb ih =>
    match e, f, h with
    | [], [], _ => simp [pw]
    | x :: e, y :: f, h =>
      have := ih e f (by simpa using h)
      simp only [pw, List.zipWith_cons_cons, List.zip_cons_cons, List.map_cons, List.prod_cons] at this ⊢
      rw [this, pow_add]; ring

private theorem pw_half (fb : List Int) (e : List Nat) (h : ∀ x ∈ e, 2 ∣ x) :
    ((fb.zip e).map (fun pe => pe.1 ^ (pe.2 / 2))).prod ^ 2 = pw fb e := by
  induction fb generalizing e with
  | nil => simp [pw]
  | cons b fb ih =>
    match e, h with
    | [], _ => simp [pw]
    | x :: e, h =>
      have := ih e (fun y hy => h y (List.mem_cons_of_mem _ hy))
      simp only [pw, List.zip_cons_cons, List.map_cons, List.prod_cons] at this ⊢
      rw [mul_pow, this, ← pow_mul, Nat.div_mul_cancel (h x (by simp))]

private theorem exps_length (v : List Nat) (M : List (List Nat)) (es : List Nat)
    (h : ∀ r ∈ M, r.length = es.length) : (cfracExps v M es).length = es.length := by
  induction v generalizing M es with
  | nil => cases M <;> rfl
  | cons a v ih =>
    match M, h with
    | [], _ => rfl
    | r :: M, h =>
      rw [cfracExps]
      have hr := h r (by simp)
      split_ifs
      · have : (List.zipWith (· + ·) es r).length = es.length := by simp [hr]
        rw [ih _ _ (fun s hs => by rw [this]; exact h s (List.mem_cons_of_mem _ hs)), this]
      · exact ih _ _ (fun s hs => h s (List.mem_cons_of_mem _ hs))

private theorem getD_zipWith_add (e r : List Nat) (h : e.length = r.length) (c : Nat) :
    (List.zipWith (· + ·) e r).getD c 0 = e.getD c 0 + r.getD c 0 := by
  induction e generalizing r c with
  | nil => match r, h with | [], _ => simp
  | cons x e ih =>
    match r, h with
    | y :: r, h =>
      cases c with
      | zero => simp
      | succ c => simpa using ih r (by simpa using h) c

private theorem exps_getD (v : List Nat) (M : List (List Nat)) (es : List Nat)
    (hv : ∀ x ∈ v, x = 0 ∨ x = 1) (h : ∀ r ∈ M, r.length = es.length) (c : Nat) :
    (cfracExps v M es).getD c 0 = es.getD c 0 + ((v.zip M).map (fun vr => vr.1 * vr.2.getD c 0)).sum := by
  induction v generalizing M es with
  | nil => cases M <;> simp [cfracExps]
  | cons a v ih =>
    match M, h with
    | [], _ => simp [cfracExps]
    | r :: M, h =>
      rw [cfracExps]
      have hr := h r (by simp)
      have hv' : ∀ x ∈ v, x = 0 ∨ x = 1 := fun x hx => hv x (List.mem_cons_of_mem _ hx)
      rw [List.zip_cons_cons, List.map_cons, List.sum_cons]
      rcases hv a (by simp) with rfl | rfl
      · rw [if_neg (by simp), ih _ _ hv' (fun s hs => h s (List.mem_cons_of_mem _ hs))]
        simp
      · have : (List.zipWith (· + ·) es r).length = es.length := by simp [hr]
        rw [if_pos (by simp), ih _ _ hv' (fun s hs => by rw [this]; exact h s (List.mem_cons_of_mem _ hs)),
          getD_zipWith_add _ _ hr.symm]
        simp only [one_mul]
        omega

/-- The relations that the collecting loop finds. -/
private def Rel (n : Int) (base : List Nat) (r : List Nat) (a : Int) : Prop :=
  r.length = base.length + 1 ∧ a ^ 2 ≡ pw ((-1 : Int) :: List.map (fun p : Nat => (p : Int)) base) r [ZMOD n]

private theorem y_exps (n : Int) (base : List Nat) (M : List (List Nat)) (as : List Int)
    (h : List.Forall₂ (Rel n base) M as) (v : List Nat) (es : List Nat)
    (he : es.length = base.length + 1) (y : Int)
    (hy : y ^ 2 ≡ pw ((-1 : Int) :: List.map (fun p : Nat => (p : Int)) base) es [ZMOD n]) :
    (cfracY n v as y) ^ 2 ≡
      pw ((-1 : Int) :: List.map (fun p : Nat => (p : Int)) base) (cfracExps v M es) [ZMOD n] := by
  induction h generalizing v es y with
  | nil => cases v <;> exact hy
  | @cons r a M as hra _ ih =>
    cases v with
    | nil => exact hy
    | cons b v =>
      rw [cfracY, cfracExps]
      by_cases hb : b ≠ 0
      · rw [if_pos hb, if_pos hb]
        apply ih
        · simp [he, hra.1]
        · rw [pw_add _ _ _ (by rw [he, hra.1])]
          have h1 : (a * y).fmod n ≡ a * y [ZMOD n] := by
            rw [Int.modEq_iff_dvd]
            exact ⟨(a * y).fdiv n, by have := Int.fmod_add_mul_fdiv (a * y) n; linarith⟩
          calc ((a * y).fmod n) ^ 2 ≡ (a * y) ^ 2 [ZMOD n] := h1.pow 2
            _ = y ^ 2 * a ^ 2 := by ring
            _ ≡ _ [ZMOD n] := hy.mul hra.2
      · rw [if_neg hb, if_neg hb]
        exact ih _ _ he _ hy

private theorem pair_congruence (n : Int) (base : List Nat) (M : List (List Nat)) (as : List Int)
    (h : List.Forall₂ (Rel n base) M as) (v : List Nat) (hv : ∀ x ∈ v, x = 0 ∨ x = 1)
    (hev : ∀ c < base.length + 1, 2 ∣ ((v.zip M).map (fun vr => vr.1 * vr.2.getD c 0)).sum) :
    (cfracPair n base M as v).1 ^ 2 ≡ (cfracPair n base M as v).2 ^ 2 [ZMOD n] := by
  have hlen : ∀ r ∈ M, r.length = (List.replicate (base.length + 1) 0).length := by
    intro r hr
    rw [List.length_replicate]
    obtain ⟨i, hi, rfl⟩ := List.getElem_of_mem hr
    exact (h.get hi (by rw [← h.length_eq]; exact hi)).1
  have h0 : ∀ (fb : List Int) (m : Nat), pw fb (List.replicate m 0) = 1 := by
    intro fb
    induction fb with
    | nil => simp [pw]
    | cons b fb ih =>
      intro m
      cases m with
      | zero => simp [pw]
      | succ m =>
        have := ih m
        simp only [pw, List.replicate_succ, List.zip_cons_cons, List.map_cons, List.prod_cons] at this ⊢
        rw [this]; simp
  have hy := y_exps n base M as h v (List.replicate (base.length + 1) 0) (by simp) 1
    (by rw [h0]; rfl)
  have hx : (cfracPair n base M as v).1 ^ 2 =
      pw ((-1 : Int) :: List.map (fun p : Nat => (p : Int)) base)
        (cfracExps v M (List.replicate (base.length + 1) 0)) := by
    apply pw_half
    intro x hx
    obtain ⟨c, hc, rfl⟩ := List.getElem_of_mem hx
    have hl := exps_length v M _ hlen
    rw [List.length_replicate] at hl
    have := exps_getD v M _ hv hlen c
    rw [List.getD_eq_getElem _ _ hc] at this
    rw [this]
    have : (List.replicate (base.length + 1) 0).getD c 0 = 0 := by
      rw [List.getD_eq_getElem _ _ (by rw [List.length_replicate]; omega), List.getElem_replicate]
    rw [this, zero_add]
    exact hev c (by omega)
  rw [hx]
  exact hy.symm

/-! ### The collecting loop -/

private theorem gcd_nonneg' (a b : Int) : 0 ≤ Core.gcd a b := (C01_gcd a b).1

private theorem prod_base (base : List Nat) :
    (base.map (fun p : Nat => (p : Int))).foldl (· * ·) (1 * -1) = -((base.prod : Nat) : Int) := by
  have : ∀ (l : List Nat) (a : Int), (l.map (fun p : Nat => (p : Int))).foldl (· * ·) a = a * ((l.prod : Nat) : Int) := by
    intro l
    induction l with
    | nil => intro a; simp
    | cons b l ih => intro a; rw [List.map_cons, List.foldl_cons, ih, List.prod_cons]; push_cast; ring
  rw [this]; ring

private theorem smooth_of_accept (base : List Nat) (hb : ∀ p ∈ base, p.Prime) (e : Nat) (q : Int)
    (h : Core.gcd q (((-((base.prod : Nat) : Int)) ^ e).fmod q) = q) :
    ∀ r : Nat, r.Prime → (r : Int) ∣ q → r ∈ base := by
  intro r hr hd
  have h1 : q ∣ ((-((base.prod : Nat) : Int)) ^ e).fmod q := by
    have := (C01_gcd q (((-((base.prod : Nat) : Int)) ^ e).fmod q)).2.1 _ (List.mem_cons_of_mem _ (List.mem_singleton.2 rfl))
    rwa [h] at this
  have h2 : (r : Int) ∣ (-((base.prod : Nat) : Int)) ^ e := by
    refine hd.trans ?_
    have := Int.fmod_add_mul_fdiv ((-((base.prod : Nat) : Int)) ^ e) q
    rw [← this]
    exact dvd_add h1 (dvd_mul_right _ _)
  have h3 := (Nat.prime_iff_prime_int.1 hr).dvd_of_dvd_pow h2
  rw [dvd_neg, Int.natCast_dvd_natCast, Prime.dvd_prod_iff hr.prime] at h3
  obtain ⟨p, hp, hrp⟩ := h3
  rw [(Nat.prime_dvd_prime_iff_eq hr (hb p hp)).1 hrp]
  exact hp

private theorem rel_of_smooth (kn g n : Int) (hdvd : n ∣ kn) (base : List Nat) (hb : ∀ p ∈ base, p.Prime)
    (hne : base ≠ []) (i : Nat) (hq : (aqPair kn g i).2.2 ≠ 0) (v : List Nat)
    (h : smoothFactor (if i % 2 = 1 then (aqPair kn g i).2.2 * -1 else (aqPair kn g i).2.2) true base = .ok v) :
    Rel n base v (aqPair kn g i).2.1 := by
  have hne0 : (if i % 2 = 1 then (aqPair kn g i).2.2 * -1 else (aqPair kn g i).2.2) ≠ 0 := by
    split_ifs <;> omega
  obtain ⟨h1, h2⟩ := (C36_smooth_factor_signed _ base hb hne hne0).2 v h
  refine ⟨h1, ?_⟩
  have : pw ((-1 : Int) :: List.map (fun p : Nat => (p : Int)) base) v = (-1) ^ i * (aqPair kn g i).2.2 := by
    unfold pw
    rw [h2]
    split_ifs with hi
    · rw [Odd.neg_one_pow (Nat.odd_iff.2 hi)]; ring
    · rw [Even.neg_one_pow (Nat.even_iff.2 (by omega))]; ring
  rw [this]
  exact (C37_aq_pairs kn g i).2.of_dvd hdvd

private theorem collect_rel (kn g n : Int) (hdvd : n ∣ kn) (base : List Nat) (hb : ∀ p ∈ base, p.Prime)
    (hne : base ≠ []) (prod : Int) (e : Nat) (i : Nat) (M : List (List Nat)) (as : List Int)
    (r : Except PyErr (List (List Nat) × List Int))
    (hr : cfracCollect kn g prod e base i M as = some r)
    (h : List.Forall₂ (Rel n base) M as) (M' : List (List Nat)) (as' : List Int) (he : r = .ok (M', as')) :
    List.Forall₂ (Rel n base) M' as' ∧ base.length + 1 < M'.length := by
  revert h M' as' he
  refine cfracCollect.partial_correctness kn g prod e base
    (motive := fun i M as r => List.Forall₂ (Rel n base) M as → ∀ M' as', r = .ok (M', as') →
      List.Forall₂ (Rel n base) M' as' ∧ base.length + 1 < M'.length) ?_ i M as r hr
  intro rec ih i M as r hrec h M' as' he
  by_cases hlt : M.length ≤ base.length + 1
  swap
  · rw [if_neg hlt] at hrec
    injection hrec with hrec
    subst hrec
    injection he with he
    injection he with h1 h2
    subst h1; subst h2
    exact ⟨h, by omega⟩
  rw [if_pos hlt] at hrec
  dsimp only at hrec
  by_cases hq : (aqPair kn g i).2.2 = 0
  · rw [if_pos hq] at hrec
    injection hrec with hrec
    subst hrec
    cases he
  rw [if_neg hq] at hrec
  by_cases hgc : Core.gcd (aqPair kn g i).2.2 ((prod ^ e).fmod (aqPair kn g i).2.2) ≠ (aqPair kn g i).2.2
  · rw [if_pos hgc] at hrec
    exact ih _ _ _ _ hrec h M' as' he
  · rw [if_neg hgc] at hrec
    split at hrec
    · injection hrec with hrec
      subst hrec
      cases he
    · rename_i v hv
      refine ih _ _ _ _ hrec ?_ M' as' he
      refine List.rel_append h (List.Forall₂.cons ?_ List.Forall₂.nil)
      exact rel_of_smooth kn g n hdvd base hb hne i hq v hv

/-- The states of the generator are those of the continued fraction. -/
private theorem aqState_state (n g : Int) (hg : 1 ≤ g) (h1 : g * g < n) (h2 : n < (g + 1) * (g + 1)) (i : Nat) :
    ((aqState n g i).P0, (aqState n g i).Q1) = ContinuedFractions.state n g i := by
  induction i with
  | zero => rw [ContinuedFractions.state_period_zero]; rfl
  | succ i ih =>
    rw [ContinuedFractions.state_succ, ← ih]
    obtain ⟨a, -⟩ := C37_aq_bounds n g hg h1 h2 i
    obtain ⟨-, hQ, -⟩ := aq_invariant n g (i + 1)
    simp only [aqPair] at a
    simp only [aqState, aqStep] at hQ ⊢
    generalize aqState n g i = s at *
    obtain ⟨A0, A1, Q0, Q1, P0, r0⟩ := s
    simp only at *
    rw [ContinuedFractions.step]
    dsimp only
    have e : (g + P0).fdiv Q1 = (P0 + g) / Q1 := by
      rw [add_comm, Int.fdiv_eq_ediv_of_nonneg _ (le_of_lt a)]
    rw [e] at hQ ⊢
    have e1 : g - (g + P0 - (P0 + g) / Q1 * Q1) = (P0 + g) / Q1 * Q1 - P0 := by ring
    rw [e1] at hQ ⊢
    refine Prod.ext rfl ?_
    dsimp only
    rw [← pow_two, ← hQ, Int.mul_ediv_cancel_left _ (ne_of_gt a)]

/-- `Q = 1` recurs. -/
private theorem exists_one (n g : Int) (hg : 1 ≤ g) (h1 : g * g < n) (h2 : n < (g + 1) * (g + 1)) (i : Nat) :
    ∃ j, i ≤ j ∧ (aqPair n g j).2.2 = 1 := by
  have hL := ContinuedFractions.periodic h1 h2 hg
  refine ⟨Function.minimalPeriod (ContinuedFractions.step n g) (g, 1) * (i + 1), by nlinarith, ?_⟩
  have := (ContinuedFractions.state_one_iff h1 h2 hg
    (n := Function.minimalPeriod (ContinuedFractions.step n g) (g, 1) * (i + 1)) (by positivity)).2
    (dvd_mul_right _ _)
  rw [← aqState_state n g hg h1 h2] at this
  exact this

private theorem collect_total (kn g : Int) (hg : 1 ≤ g) (h1 : g * g < kn) (h2 : kn < (g + 1) * (g + 1))
    (base : List Nat) (hb : ∀ p ∈ base, p.Prime) (hne : base ≠ []) (e : Nat) (m : Nat) :
    ∀ (i : Nat) (M : List (List Nat)) (as : List Int), base.length + 2 ≤ M.length + m →
    ∃ r, cfracCollect kn g (-((base.prod : Nat) : Int)) e base i M as = some (.ok r) := by
  induction m with
  | zero =>
    intro i M as hm
    rw [cfracCollect, if_neg (by omega)]
    exact ⟨_, rfl⟩
  | succ m ih =>
    intro i M as hm
    obtain ⟨j, hj, hj1⟩ := exists_one kn g hg h1 h2 i
    obtain ⟨t, rfl⟩ := Nat.exists_eq_add_of_le hj
    clear hj
    induction t generalizing i with
    | zero =>
      rw [Nat.add_zero] at hj1
      rw [cfracCollect]
      by_cases hlt : M.length ≤ base.length + 1
      swap
      · rw [if_neg hlt]; exact ⟨_, rfl⟩
      have hgc : Core.gcd (1 : Int) (((-((base.prod : Nat) : Int)) ^ e).fmod 1) = 1 := by
        have hd := (C01_gcd 1 (((-((base.prod : Nat) : Int)) ^ e).fmod 1)).2.1 1 (by simp)
        exact Int.eq_one_of_dvd_one (gcd_nonneg' _ _) hd
      have hs : ∀ q : Int, q = 1 ∨ q = -1 → ∃ v, smoothFactor q true base = .ok v := by
        intro q hq
        refine (C36_smooth_factor_signed q base hb hne (by omega)).1.2 ?_
        intro r hr hd
        have : (r : Int) ∣ 1 := by rcases hq with rfl | rfl <;> simpa using hd
        have := Int.natCast_dvd_natCast.1 (by simpa using this : ((r : Nat) : Int) ∣ ((1 : Nat) : Int))
        exact absurd (Nat.dvd_one.1 this) hr.ne_one
      obtain ⟨v, hv⟩ := hs (if i % 2 = 1 then 1 * -1 else 1) (by split_ifs <;> simp)
      rw [if_pos hlt]
      dsimp only
      rw [hj1, if_neg (by norm_num), if_neg (by rw [hgc]; simp), hv]
      exact ih _ _ _ (by rw [List.length_append, List.length_singleton]; omega)
    | succ t iht =>
      rw [cfracCollect]
      by_cases hlt : M.length ≤ base.length + 1
      swap
      · rw [if_neg hlt]; exact ⟨_, rfl⟩
      rw [if_pos hlt]
      dsimp only
      have hpos := (C37_aq_bounds kn g hg h1 h2 i).1
      rw [if_neg (ne_of_gt hpos)]
      by_cases hgc : Core.gcd (aqPair kn g i).2.2 (((-((base.prod : Nat) : Int)) ^ e).fmod (aqPair kn g i).2.2) ≠ (aqPair kn g i).2.2
      · rw [if_pos hgc]
        exact iht (i + 1) (by rw [show i + 1 + t = i + (t + 1) by omega]; exact hj1)
      · rw [if_neg hgc]
        rw [not_not] at hgc
        have hsm := smooth_of_accept base hb e _ hgc
        have hne0 : (if i % 2 = 1 then (aqPair kn g i).2.2 * -1 else (aqPair kn g i).2.2) ≠ 0 := by
          split_ifs <;> omega
        obtain ⟨v, hv⟩ := (C36_smooth_factor_signed _ base hb hne hne0).1.2 (by
          intro r hr hd
          refine hsm r hr ?_
          split_ifs at hd
          · simpa using hd
          · exact hd)
        rw [hv]
        exact ih _ _ _ (by rw [List.length_append, List.length_singleton]; omega)

private theorem base_facts (kn : Int) (B : Nat) (hB : 2 ≤ B) :
    (∀ p ∈ cfracBase kn (primesUpTo B), p.Prime) ∧ cfracBase kn (primesUpTo B) ≠ [] := by
  constructor
  · intro p hp
    exact (mem_primesUpTo.1 (List.mem_filter.1 hp).1).1
  · intro h
    have : 2 ∈ cfracBase kn (primesUpTo B) :=
      List.mem_filter.2 ⟨mem_primesUpTo.2 ⟨Nat.prime_two, hB⟩, by simp⟩
    rw [h] at this
    simp at this

/-- C120: the relations behind the result.  If the collecting loop of `cfrac` ends, the elimination
succeeds and leads to at least one pair `(x, y)`, and every pair satisfies `x² = y² (mod n)`. -/
theorem C120_cfrac_congruence (n k g prod : Int) (e B : Nat) (hB : 2 ≤ B) (M : List (List Nat)) (as : List Int)
    (h : cfracCollect (k * n) g prod e (cfracBase (k * n) (primesUpTo B)) 1 [] [] = some (.ok (M, as))) :
    ∃ K, z2Elimination M = .ok K ∧ K ≠ [] ∧ ∀ v ∈ K,
      (cfracPair n (cfracBase (k * n) (primesUpTo B)) M as v).1 ^ 2 ≡
        (cfracPair n (cfracBase (k * n) (primesUpTo B)) M as v).2 ^ 2 [ZMOD n] := by
  obtain ⟨hb, hne⟩ := base_facts (k * n) B hB
  obtain ⟨h1, h2⟩ := collect_rel (k * n) g n (dvd_mul_left _ _) _ hb hne prod e 1 [] [] _ h
    List.Forall₂.nil M as rfl
  have hrect : ∀ r ∈ M, r.length = (cfracBase (k * n) (primesUpTo B)).length + 1 := by
    intro r hr
    obtain ⟨i, hi, rfl⟩ := List.getElem_of_mem hr
    exact (h1.get hi (by rw [← h1.length_eq]; exact hi)).1
  obtain ⟨K, hK, hlen, hker⟩ := C36_z2_elimination M _ (by rintro rfl; simp at h2) (by omega) hrect
  refine ⟨K, hK, ?_, ?_⟩
  · rintro rfl
    simp at hlen
    omega
  · intro v hv
    obtain ⟨-, h01, -, hev⟩ := hker v hv
    exact pair_congruence n _ M as h1 v h01 hev

/-- C120: for a positive multiplier with `kn` not a square, and a bound `B >= 2`, the call ends without
an exception, provided `integer_sqrt` is exact at `kn` (C09).  What is missing: the result may be `None`,
and for a square `kn` the call raises, see below. -/
theorem C120_cfrac_returns_partial (T : List Nat) (hT : IsPrimeTable T) (B n k : Int) (hB : 2 ≤ B)
    (hn : 1 < n) (hk : 1 ≤ k) (hsq : ¬ IsSquare (k * n))
    (hr : k * n < 4503599761588224 ∨ 2 ^ 60 < k * n) :
    (∃ o, cfrac T (.ok B) n (some k) = some (.ok o)) ∧
    (cfracMultiplier n = .ok k.toNat → ∃ o, cfrac T (.ok B) n none = some (.ok o)) := by
  have hkn : 1 < k * n := by nlinarith
  obtain ⟨g, hg, hg1, hg2⟩ := C09_integer_sqrt_partial (k * n) (by omega) hr
  have key : ∃ o, cfracMain n (k * n) (primesUpTo B.toNat) = some (.ok o) := by
    have hg3 : (g : Int) * g ≠ k * n := fun h => hsq ⟨g, h.symm⟩
    have hg4 : (1 : Int) ≤ g := by
      by_contra hc
      have : (g : Int) = 0 := by omega
      rw [this] at hg2
      omega
    have hlt : (g : Int) * g < k * n := lt_of_le_of_ne (by rw [← pow_two]; exact hg1) hg3
    have hlt2 : k * n < ((g : Int) + 1) * (g + 1) := by rw [← pow_two]; exact hg2
    obtain ⟨hb, hne⟩ := base_facts (k * n) B.toNat (by omega)
    unfold cfracMain
    dsimp only
    rw [hg]
    dsimp only
    rw [if_neg (by omega), prod_base]
    obtain ⟨⟨M, as⟩, hM⟩ := collect_total (k * n) g hg4 hlt hlt2 _ hb hne (cfracExponent n.toNat 1 (le_refl 1))
      _ 1 [] [] (Nat.le_add_left _ _)
    rw [hM]
    dsimp only
    obtain ⟨K, hK, -, -⟩ := C120_cfrac_congruence n k g _ _ B.toNat (by omega) M as hM
    rw [hK]
    exact ⟨_, rfl⟩
  have all : ∀ ko, cfracChoose n ko = Except.ok k →
      ∃ o, cfrac T (.ok B) n ko = some (.ok o) := by
    intro ko hko
    unfold cfrac
    dsimp only
    rw [C18_primes T hT]
    dsimp only
    rw [hko]
    dsimp only
    split
    · exact ⟨_, rfl⟩
    · exact key
  refine ⟨all (some k) rfl, fun hm => all none ?_⟩
  rw [cfracChoose, hm]
  dsimp only
  congr 1
  omega

/-- C120 is false if `kn` is a square: without a prime factor up to the bound the call raises
`ZeroDivisionError`.  This happens for every square `n`, and for `n = 319 = 11 * 29`, whose multiplier
is 319. -/
theorem C120_cfrac_square_violation (T : List Nat) (hT : IsPrimeTable T) (B n k s : Int) (hn : 1 < n)
    (hk : 1 ≤ k) (hs : k * n = s ^ 2) (hB : ∀ p : Nat, p.Prime → (p : Int) ∣ n → B < p) :
    cfrac T (.ok B) n (some k) = some (.error .zeroDivisionError) ∧
    (k = 1 → cfrac T (.ok B) n none = some (.error .zeroDivisionError)) ∧
    (cfracMultiplier n = .ok k.toNat → cfrac T (.ok B) n none = some (.error .zeroDivisionError)) := by
  have hkn : 1 < k * n := by nlinarith
  obtain ⟨g, hg, -, -, hg3⟩ := C09_integer_sqrt_bounds (k * n) (by omega)
  have hgs : (g : Int) ^ 2 = k * n := by
    rw [hg3 s.natAbs (by rw [hs, Int.natCast_natAbs, sq_abs]), hs, Int.natCast_natAbs, sq_abs]
  have key : cfracMain n (k * n) (primesUpTo B.toNat) = some (.error .zeroDivisionError) := by
    unfold cfracMain
    dsimp only
    rw [hg]
    dsimp only
    rw [if_neg (by omega), cfracCollect, if_pos (by simp)]
    dsimp only
    have : (aqPair (k * n) g 1).2.2 = 0 := by
      simp only [aqPair, aqState, aqStep, aqInit]
      rw [← hgs, add_zero, Int.fdiv_one]
      ring
    rw [if_pos this]
  have htrial : cfracTrial n (primesUpTo B.toNat) = none := by
    unfold cfracTrial
    rw [List.find?_eq_none]
    intro p hp hd
    obtain ⟨h1, h2⟩ := mem_primesUpTo.1 hp
    have := hB p h1 (Int.dvd_of_fmod_eq_zero (of_decide_eq_true hd))
    have := h1.two_le
    omega
  have all : ∀ ko, cfracChoose n ko = Except.ok k →
      cfrac T (.ok B) n ko = some (.error .zeroDivisionError) := by
    intro ko hko
    unfold cfrac
    dsimp only
    rw [C18_primes T hT]
    dsimp only
    rw [hko]
    dsimp only
    rw [htrial]
    exact key
  refine ⟨all (some k) rfl, fun h1 => all none ?_, fun hm => all none ?_⟩
  · subst h1
    rw [one_mul] at hs
    rw [cfracChoose, hs, multiplier_square]
    rfl
  · rw [cfracChoose, hm]
    dsimp only
    congr 1
    omega

/-- The collecting loop with a limit on the number of passes. -/
private def collectFuel (kn g prod : Int) (e : Nat) (base : List Nat) :
    Nat → Nat → List (List Nat) → List Int → Option (Except PyErr (List (List Nat) × List Int))
  | 0, _, _, _ => none
  | f + 1, i, M, as =>
  if M.length ≤ base.length + 1 then
    let q := (aqPair kn g i).2.2
    if q = 0 then some (.error .zeroDivisionError)
    else if Core.gcd q ((prod ^ e).fmod q) ≠ q then collectFuel kn g prod e base f (i + 1) M as
    else
      let q := if i % 2 = 1 then q * -1 else q
      match smoothFactor q true base with
      | .error er => some (.error er)
      | .ok v => collectFuel kn g prod e base f (i + 1) (M ++ [v]) (as ++ [(aqPair kn g i).2.1])
  else some (.ok (M, as))

private theorem collect_of_fuel {kn g prod : Int} {e : Nat} {base : List Nat} {f i : Nat} {M : List (List Nat)}
    {as : List Int} {r} (h : collectFuel kn g prod e base f i M as = some r) :
    cfracCollect kn g prod e base i M as = some r := by
  induction f generalizing i M as with
  | zero => cases h
  | succ f ih =>
    rw [collectFuel] at h
    rw [cfracCollect]
    by_cases hlt : M.length ≤ base.length + 1
    swap
    · rw [if_neg hlt] at h ⊢; exact h
    rw [if_pos hlt] at h ⊢
    dsimp only at h ⊢
    by_cases hq : (aqPair kn g i).2.2 = 0
    · rw [if_pos hq] at h ⊢; exact h
    rw [if_neg hq] at h ⊢
    by_cases hgc : Core.gcd (aqPair kn g i).2.2 ((prod ^ e).fmod (aqPair kn g i).2.2) ≠ (aqPair kn g i).2.2
    · rw [if_pos hgc] at h ⊢; exact ih h
    rw [if_neg hgc] at h ⊢
    split at h
    · rename_i hv; rw [hv]; exact h
    · rename_i hv; rw [hv]; exact ih h

private theorem main_of_fuel (n kn : Int) (ps base : List Nat) (prod : Int) (e g f : Nat) (M K : List (List Nat)) (as : List Int)
    (o : Option Int) (hbase : cfracBase kn ps = base)
    (hprod : (base.map (fun p : Nat => (p : Int))).foldl (· * ·) (1 * -1) = prod)
    (he : cfracExponent n.toNat 1 (le_refl 1) = e) (hg : integerSqrt kn = .ok g) (h0 : kn ≠ 0)
    (hc : collectFuel kn g prod e base f 1 [] [] = some (.ok (M, as))) (hK : z2Elimination M = .ok K)
    (ho : cfracRows n base M as K = o) : cfracMain n kn ps = some (.ok o) := by
  unfold cfracMain
  dsimp only
  rw [hbase, hprod, he, hg]
  dsimp only
  rw [if_neg h0, collect_of_fuel hc]
  dsimp only
  rw [hK]
  dsimp only
  rw [ho]

private theorem cfrac_of_main (T : List Nat) (hT : IsPrimeTable T) (B n : Int) (k : Nat) (ps : List Nat)
    (o : Option Int) (hk : cfracMultiplier n = .ok k) (hps : primesUpTo B.toNat = ps)
    (ht : cfracTrial n ps = none) (hm : cfracMain n (k * n) ps = some (.ok o)) :
    cfrac T (.ok B) n none = some (.ok o) := by
  unfold cfrac
  dsimp only
  rw [C18_primes T hT, hps, cfracChoose, hk]
  dsimp only
  rw [ht]
  exact hm

/-- C120: a composite number need not be factored: `cfrac(187)` is `None`, although 187 = 11 * 17.  (The
smoothness bound of 187 is 5: `exp(0.5 * sqrt(log(187) * log(log(187)))) = 4.35...`.) -/
theorem C120_cfrac_none_violation (T : List Nat) (hT : IsPrimeTable T) :
    cfrac T (.ok 5) 187 none = some (.ok none) ∧ 187 = 11 * 17 :=
  ⟨cfrac_of_main T hT 5 187 138 [2, 3, 5] none (by decide +kernel) (by decide +kernel) (by decide +kernel)
    (main_of_fuel 187 (138 * 187) [2, 3, 5] [2, 3, 5] (-30) 8 160 100
      [[0, 0, 0, 2], [1, 1, 1, 1], [1, 1, 1, 1], [0, 0, 0, 2], [0, 0, 0, 0]] _
      [2249, 11358, 14724, 8597, 11593] none (by decide +kernel) (by decide +kernel) (by decide +kernel)
      (by decide +kernel) (by decide +kernel) (by decide +kernel) rfl (by decide +kernel)), rfl⟩

/-- The example of the documentation: `cfrac(12007001)` is 4001; the bound is 30, the multiplier 41. -/
example (T : List Nat) (hT : IsPrimeTable T) : cfrac T (.ok 30) 12007001 none = some (.ok (some 4001)) :=
  cfrac_of_main T hT 30 12007001 41 [2, 3, 5, 7, 11, 13, 17, 19, 23, 29] (some 4001) (by decide +kernel)
    (by decide +kernel) (by decide +kernel)
    (main_of_fuel 12007001 (41 * 12007001) [2, 3, 5, 7, 11, 13, 17, 19, 23, 29]
      [2, 3, 5, 7, 11, 13, 17, 19, 23, 29] (-6469693230) 32 22187 1000
      [[0, 3, 1, 0, 0, 0, 0, 0, 0, 1, 1], [0, 6, 2, 2, 0, 0, 0, 0, 0, 0, 0],
       [1, 0, 0, 1, 0, 0, 0, 0, 2, 0, 0], [0, 4, 0, 1, 0, 0, 1, 0, 0, 0, 1],
       [0, 4, 2, 0, 0, 1, 0, 1, 0, 0, 0], [1, 3, 0, 0, 1, 1, 0, 0, 0, 1, 0],
       [1, 0, 1, 0, 0, 1, 1, 0, 1, 0, 0], [1, 0, 1, 1, 1, 0, 0, 0, 0, 1, 0],
       [1, 3, 2, 0, 0, 0, 2, 0, 0, 0, 0], [0, 3, 6, 1, 0, 0, 0, 0, 0, 0, 0],
       [1, 0, 1, 1, 1, 1, 1, 0, 0, 0, 0], [1, 3, 0, 2, 1, 0, 1, 0, 0, 0, 0]] _
      [244063, 14887841, 407845787, 47882593, 188942787, 207834955, 114005181, 313918220, 397646615,
       66475388, 107108127, 308407000] (some 4001) (by decide +kernel) (by decide +kernel)
      (by decide +kernel) (by decide +kernel) (by decide +kernel) (by decide +kernel) rfl
      (by decide +kernel))

/-- `_cfrac_multiplier(5**77 - 1)` and the multiplier of 319. -/
example : cfracMultiplier (5 ^ 77 - 1) = .ok 781 ∧ cfracMultiplier 319 = .ok 319 := by decide +kernel

/-- `cfrac(169)` raises; its bound is 5. -/
example (T : List Nat) (hT : IsPrimeTable T) : cfrac T (.ok 5) 169 none = some (.error .zeroDivisionError) :=
  (C120_cfrac_square_violation T hT 5 169 1 13 (by norm_num) (le_refl _) (by norm_num) (by
    intro p hp hd
    have : p ∣ 13 ^ 2 := by exact_mod_cast hd
    rw [(Nat.prime_dvd_prime_iff_eq hp (by norm_num)).1 (hp.dvd_of_dvd_pow this)]
    norm_num)).2.1 rfl

end Rosemary.Props
