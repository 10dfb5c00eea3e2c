import Verif.Model.CliqueCosts
import Verif.Lemmas.Cliques
import Mathlib.Analysis.SpecialFunctions.Pow.Real

/-!
# Lemmas about the work of `tomita`
-/

namespace Rosemary.CliqueCosts

open Rosemary.Graph Rosemary.Cliques

/-! ## The cube root of 3 and the recurrences -/

/-- The cube root of 3. -/
noncomputable def cr3 : ℝ := (3 : ℝ) ^ ((1 : ℝ) / 3)

theorem cr3_pos : 0 < cr3 := Real.rpow_pos_of_pos (by norm_num) _

theorem cr3_cube : cr3 ^ 3 = 3 := by
  unfold cr3
  rw [← Real.rpow_natCast, ← Real.rpow_mul (by norm_num)]
  norm_num

theorem cr3_pow (n : ℕ) : cr3 ^ n = (3 : ℝ) ^ ((n : ℝ) / 3) := by
  unfold cr3
  rw [← Real.rpow_natCast, ← Real.rpow_mul (by norm_num)]
  congr 1
  ring

theorem cr3_lower : 1.442 < cr3 := by
  refine lt_of_pow_lt_pow_left₀ 3 cr3_pos.le ?_
  rw [cr3_cube]; norm_num

theorem cr3_upper : cr3 < 1.4423 := by
  refine lt_of_pow_lt_pow_left₀ 3 (by norm_num) ?_
  rw [cr3_cube]; norm_num

/-- A bound `B` for a quantity that is at most `a s` in one pass. -/
structure Bounds (a B : ℕ → ℝ) : Prop where
  mono : ∀ s, B s ≤ B (s + 1)
  zero : a 0 ≤ B 0
  step : ∀ s k, a (s + k) + k * B s ≤ B (s + k)

theorem Bounds.mono' {a B : ℕ → ℝ} (h : Bounds a B) {s t : ℕ} (hst : s ≤ t) : B s ≤ B t := monotone_nat_of_le_succ h.mono hst

theorem le_pow_cr3 (k : ℕ) (hk : 4 ≤ k) : (k : ℝ) ≤ 0.925 * cr3 ^ k := by
  induction k, hk using Nat.le_induction with
  | base =>
    rw [pow_succ, cr3_cube]
    have := cr3_lower
    push_cast
    linarith
  | succ k hk ih =>
    rw [pow_succ]
    have h := cr3_lower
    have hk' : (4 : ℝ) ≤ k := by exact_mod_cast hk
    have h1 : 0.925 * cr3 ^ k * 1.442 ≤ 0.925 * cr3 ^ k * cr3 :=
      mul_le_mul_of_nonneg_left h.le (by have := pow_pos cr3_pos k; positivity)
    push_cast
    nlinarith

/-- `k ≤ 3^(k/3)`, with room except for 3. -/
theorem le_pow_cr3' (k : ℕ) (h0 : k ≠ 0) (h3 : k ≠ 3) : (k : ℝ) ≤ 0.962 * cr3 ^ k := by
  have h := cr3_lower
  have hpos := pow_pos cr3_pos k
  obtain h1 | h1 | h1 : k = 1 ∨ k = 2 ∨ 4 ≤ k := by omega
  · subst h1; norm_num; linarith
  · subst h1
    have : cr3 ^ 2 * cr3 = 3 := by rw [← pow_succ]; exact cr3_cube
    have h2 := cr3_upper
    have h3 : 3 / 1.4423 ≤ cr3 ^ 2 := by
      rw [div_le_iff₀ (by norm_num), ← this]
      exact mul_le_mul_of_nonneg_left h2.le (by positivity)
    push_cast
    have : (2 : ℝ) ≤ 0.962 * (3 / 1.4423) := by norm_num
    linarith
  · have := le_pow_cr3 k h1
    linarith

/-- The number of cliques. -/
theorem bounds_count : Bounds (fun s => if s = 0 then 1 else 0) (fun s => cr3 ^ s) where
  mono s := by
    rw [pow_succ]
    have := cr3_lower
    have := pow_pos cr3_pos s
    nlinarith
  zero := by simp
  step s k := by
    have hs := pow_pos cr3_pos s
    rw [pow_add]
    by_cases hk : k = 0
    · subst hk
      simp only [Nat.cast_zero, zero_mul, add_zero, pow_zero, mul_one]
      by_cases h : s = 0
      · subst h; simp
      · simp [h, hs.le]
    · rw [if_neg (by omega), zero_add, mul_comm]
      refine mul_le_mul_of_nonneg_left ?_ hs.le
      by_cases h3 : k = 3
      · subst h3; rw [cr3_cube]; norm_num
      · have := le_pow_cr3' k hk h3
        have := pow_pos cr3_pos k
        linarith

/-- The number of passes. -/
theorem bounds_passes : Bounds (fun _ => 1) (fun s => 5 / 2 * cr3 ^ s - 1) where
  mono s := by
    have := bounds_count.mono s
    linarith
  zero := by norm_num
  step s k := by
    have hs : 1 ≤ cr3 ^ s := by simpa using bounds_count.mono' (Nat.zero_le s)
    rw [pow_add]
    by_cases hk : k = 0
    · subst hk; simp; linarith
    by_cases h1 : k = 1
    · subst h1
      have := cr3_lower
      simp only [Nat.cast_one, one_mul, pow_one]
      nlinarith
    · have h2 : (k : ℝ) ≤ cr3 ^ k := by
        by_cases h3 : k = 3
        · subst h3; rw [cr3_cube]; norm_num
        · have := le_pow_cr3' k hk h3
          have := pow_pos cr3_pos k
          linarith
      have h3 : (2 : ℝ) ≤ k := by exact_mod_cast (by omega : 2 ≤ k)
      have h4 := mul_le_mul_of_nonneg_right h2 (by linarith : 0 ≤ cr3 ^ s)
      nlinarith

theorem quad_le (s : ℕ) : 4.5 * (s : ℝ) ^ 2 + 19.5 * s + 51 ≤ 53 * cr3 ^ s := by
  have h := cr3_lower
  induction s with
  | zero => norm_num
  | succ s ih =>
    rw [pow_succ cr3 s]
    have h1 : 53 * cr3 ^ s * 1.442 ≤ 53 * cr3 ^ s * cr3 :=
      mul_le_mul_of_nonneg_left h.le (by have := pow_pos cr3_pos s; positivity)
    by_cases h2 : 2 ≤ s
    · have h2' : (2 : ℝ) ≤ s := by exact_mod_cast h2
      push_cast
      nlinarith
    · obtain rfl | rfl : s = 0 ∨ s = 1 := by omega
      · norm_num; linarith
      · norm_num
        nlinarith

/-- The elements handled by the set operations. -/
theorem bounds_sets : Bounds (fun s => 3 * (s : ℝ) ^ 2 + 4 * s + 1)
    (fun s => 1400 * cr3 ^ s - (1.5 * (s : ℝ) ^ 2 + 15.5 * s + 50)) where
  mono s := by
    have h := cr3_lower
    have hq := quad_le s
    have hs := pow_pos cr3_pos s
    rw [pow_succ cr3 s]
    push_cast
    have h1 : cr3 ^ s * 1.442 ≤ cr3 ^ s * cr3 := mul_le_mul_of_nonneg_left h.le hs.le
    nlinarith
  zero := by norm_num
  step s k := by
    have hq := quad_le (s + k)
    have hs := pow_pos cr3_pos s
    have hk0 : (0 : ℝ) ≤ k := by positivity
    have hs0 : (0 : ℝ) ≤ s := by positivity
    by_cases h3 : k = 3
    · subst h3
      rw [pow_add, cr3_cube]
      push_cast
      nlinarith
    · have h1 : (k : ℝ) ≤ 0.962 * cr3 ^ k := by
        by_cases hk : k = 0
        · subst hk; norm_num
        · exact le_pow_cr3' k hk h3
      have h2 := mul_le_mul_of_nonneg_right h1 hs.le
      rw [pow_add] at hq ⊢
      have h4 : 0 ≤ (k : ℝ) * (1.5 * (s : ℝ) ^ 2 + 15.5 * s + 50) := by positivity
      push_cast at hq ⊢
      nlinarith

/-! ## The loop -/

variable {V W : Type} [DecidableEq V]

theorem Cost.plus_assoc (a b c : Cost) : (a.plus b).plus c = a.plus (b.plus c) := by
  simp [Cost.plus, Nat.add_assoc]

theorem pivotLoop_max (g : Graph V W) (C : Finset V) (vs : List V) : ∀ b,
    ∀ v ∈ b :: vs, (nb g v ∩ C).card ≤ (nb g (pivotLoop g C vs b (nb g b ∩ C).card) ∩ C).card := by
  induction vs with
  | nil => intro b v hv; rw [List.mem_singleton.1 hv]; simp [pivotLoop]
  | cons w vs ih =>
    intro b v hv
    rw [pivotLoop]
    by_cases h : (nb g b ∩ C).card < (nb g w ∩ C).card
    · rw [if_pos h]
      rcases List.mem_cons.1 hv with rfl | hv
      · exact h.le.trans (ih w w List.mem_cons_self)
      · exact ih w v hv
    · rw [if_neg h]
      rcases List.mem_cons.1 hv with rfl | hv
      · exact ih _ _ List.mem_cons_self
      · rcases List.mem_cons.1 hv with rfl | hv
        · exact (not_lt.1 h).trans (ih b b List.mem_cons_self)
        · exact ih b v (List.mem_cons_of_mem _ hv)

theorem children_length (g : Graph V W) (S : Finset V) (used : List V) (qs : List V) : ∀ C,
    (children g S used C qs).length = qs.length := by
  induction qs with
  | nil => intro C; rfl
  | cons q qs ih => intro C; simp [children, ih]

theorem children_mem (g : Graph V W) (S : Finset V) (used : List V) (qs : List V) : ∀ C, ∀ e ∈ children g S used C qs,
    ∃ q ∈ qs, e.1 = S ∩ nb g q ∧ e.2.1 ⊆ C ∩ nb g q ∧ e.2.2 = used ++ [q] := by
  induction qs with
  | nil => intro C e he; simp [children] at he
  | cons q qs ih =>
    intro C e he
    rw [children] at he
    rcases List.mem_cons.1 he with rfl | he
    · exact ⟨q, List.mem_cons_self, rfl, fun _ h => h, rfl⟩
    · obtain ⟨q', h1, h2, h3, h4⟩ := ih _ e he
      exact ⟨q', List.mem_cons_of_mem _ h1, h2, h3.trans (Finset.inter_subset_inter_right (Finset.erase_subset _ _)), h4⟩

/-- What an entry of the stack costs. -/
theorem tomitaC_entry {ord : Finset V → List V} (hord : ∀ S, (ord S).Nodup ∧ ∀ x, x ∈ ord S ↔ x ∈ S)
    (g : Graph V W) (N n : ℕ) : ∀ e : Finset V × Finset V × List V, e.1.card = n → e.2.1 ⊆ e.1 → e.2.2.length + n ≤ N →
    ∃ (out : List (List V)) (c : Cost), (∀ stack, tomitaLoop ord g (e :: stack) = (tomitaLoop ord g stack).map (out ++ ·)) ∧
      (∀ stack, tomitaLoopC ord g (e :: stack) = (tomitaLoopC ord g stack).map (fun r => (out ++ r.1, c.plus r.2))) ∧
      (∀ l ∈ out, l.length ≤ N) ∧
      (out.length : ℝ) ≤ cr3 ^ n ∧ (c.passes : ℝ) ≤ 5 / 2 * cr3 ^ n - 1 ∧
      (c.sets : ℝ) ≤ 1400 * cr3 ^ n - (1.5 * (n : ℝ) ^ 2 + 15.5 * n + 50) ∧ c.copies + N ≤ N * c.passes := by
  induction n using Nat.strong_induction_on with
  | _ n ih =>
    rintro ⟨S, C, used⟩ hn hCS hN
    dsimp only at hn hCS hN
    cases ho : ord S with
    | nil =>
      have hSe : S = ∅ := by
        rw [Finset.eq_empty_iff_forall_notMem]
        intro v hv
        have := ((hord S).2 v).2 hv
        rw [ho] at this; simp at this
      have hn0 : n = 0 := by rw [← hn, hSe]; rfl
      subst hn0
      refine ⟨[used], ⟨1, 1, 0⟩, ?_, ?_, ?_, by simp, by norm_num, by norm_num, by simp⟩
      · intro stack
        rw [tomitaLoop.eq_def]
        dsimp only
        rw [ho]
        cases tomitaLoop ord g stack <;> rfl
      · intro stack
        rw [tomitaLoopC.eq_def]
        dsimp only
        rw [ho]
        cases tomitaLoopC ord g stack <;> rfl
      · simpa using hN
    | cons v vs =>
      obtain ⟨u, hu⟩ : ∃ u, pivotLoop g C vs v (nb g v ∩ C).card = u := ⟨_, rfl⟩
      have hmax : ∀ q ∈ S, (nb g q ∩ C).card ≤ (nb g u ∩ C).card := by
        intro q hq
        rw [← hu]
        refine pivotLoop_max g C vs v q ?_
        rw [← ho]; exact ((hord S).2 q).2 hq
      have hn1 : n ≠ 0 := by
        rw [← hn]
        have hv : v ∈ S := by rw [← (hord S).2, ho]; exact List.mem_cons_self
        exact (Finset.card_pos.2 ⟨v, hv⟩).ne'
      obtain ⟨k, hk⟩ : ∃ k, (C \ nb g u).card = k := ⟨_, rfl⟩
      have hqs : (ord (C \ nb g u)).length = k := by
        rw [← hk, ← List.toFinset_card_of_nodup (hord _).1]
        congr 1
        ext x; rw [List.mem_toFinset, (hord _).2]
      have hkC : (nb g u ∩ C).card + k = C.card := by
        rw [← hk, Finset.inter_comm, add_comm]; exact Finset.card_sdiff_add_card_inter _ _
      have hCc : C.card ≤ n := hn ▸ Finset.card_le_card hCS
      -- a child is smaller by k
      have hsmall : ∀ q ∈ C \ nb g u, (S ∩ nb g q).card + k ≤ n := by
        intro q hq
        have hqS := hCS (Finset.mem_sdiff.1 hq).1
        have h1 : (S ∩ nb g q).card ≤ (nb g q ∩ C).card + (S \ C).card := by
          refine (Finset.card_le_card (t := (nb g q ∩ C) ∪ (S \ C)) ?_).trans (Finset.card_union_le _ _)
          intro x hx
          rw [Finset.mem_inter] at hx
          by_cases hxC : x ∈ C
          · exact Finset.mem_union_left _ (Finset.mem_inter.2 ⟨hx.2, hxC⟩)
          · exact Finset.mem_union_right _ (Finset.mem_sdiff.2 ⟨hx.1, hxC⟩)
        have h2 : (S \ C).card + C.card = S.card := Finset.card_sdiff_add_card_eq_card hCS
        have h3 := hmax q hqS
        omega
      obtain ⟨t, rfl⟩ : ∃ t, n = t + k := ⟨n - k, by omega⟩
      have hch : ∀ e ∈ children g S used C (ord (C \ nb g u)),
          e.1.card ≤ t ∧ e.1.card < t + k ∧ e.2.1 ⊆ e.1 ∧ e.2.2.length + e.1.card ≤ N := by
        intro e he
        obtain ⟨q, h1, h2, h3, h4⟩ := children_mem g S used _ C e he
        have hq := ((hord _).2 q).1 h1
        have hkpos : 0 < k := hk ▸ Finset.card_pos.2 ⟨q, hq⟩
        have := hsmall q hq
        rw [h2, h4, List.length_append, List.length_singleton]
        refine ⟨by omega, by omega, ?_, by omega⟩
        exact h3.trans (Finset.inter_subset_inter_right hCS)
      have key : ∀ ch : List (Finset V × Finset V × List V),
          (∀ e ∈ ch, e.1.card ≤ t ∧ e.1.card < t + k ∧ e.2.1 ⊆ e.1 ∧ e.2.2.length + e.1.card ≤ N) →
          ∃ (out : List (List V)) (c : Cost), (∀ stack, tomitaLoop ord g (ch ++ stack) = (tomitaLoop ord g stack).map (out ++ ·)) ∧
            (∀ stack, tomitaLoopC ord g (ch ++ stack) = (tomitaLoopC ord g stack).map (fun r => (out ++ r.1, c.plus r.2))) ∧
            (∀ l ∈ out, l.length ≤ N) ∧
            (out.length : ℝ) ≤ ch.length * cr3 ^ t ∧ (c.passes : ℝ) ≤ ch.length * (5 / 2 * cr3 ^ t - 1) ∧
            (c.sets : ℝ) ≤ ch.length * (1400 * cr3 ^ t - (1.5 * (t : ℝ) ^ 2 + 15.5 * t + 50)) ∧
            c.copies + ch.length * N ≤ N * c.passes := by
        intro ch
        induction ch with
        | nil =>
          intro _
          refine ⟨[], ⟨0, 0, 0⟩, ?_, ?_, by simp, by simp, by simp, by simp, by simp⟩
          · intro stack; simp
          · intro stack
            rw [List.nil_append]
            cases tomitaLoopC ord g stack with
            | none => rfl
            | some r => obtain ⟨r1, c⟩ := r; simp [Cost.plus]
        | cons e ch ihc =>
          intro h1
          obtain ⟨e1, e2, e3, e4⟩ := h1 e List.mem_cons_self
          obtain ⟨o1, c1, a1, a2, a3, a4, a5, a6, a7⟩ := ih _ e2 e rfl e3 e4
          obtain ⟨o2, c2, b1, b2, b3, b4, b5, b6, b7⟩ := ihc (fun f hf => h1 f (List.mem_cons_of_mem _ hf))
          have m1 := bounds_count.mono' e1
          have m2 := bounds_passes.mono' e1
          have m3 := bounds_sets.mono' e1
          refine ⟨o1 ++ o2, c1.plus c2, ?_, ?_, ?_, ?_, ?_, ?_, ?_⟩
          · intro stack
            rw [List.cons_append, a1, b1]
            cases tomitaLoop ord g stack <;> simp
          · intro stack
            rw [List.cons_append, a2, b2]
            cases tomitaLoopC ord g stack <;> simp [Cost.plus_assoc]
          · intro l hl
            rcases List.mem_append.1 hl with hl | hl
            · exact a3 l hl
            · exact b3 l hl
          · rw [List.length_append, List.length_cons]; push_cast; linarith
          · rw [List.length_cons]; simp only [Cost.plus]; push_cast; linarith
          · rw [List.length_cons]; simp only [Cost.plus]; push_cast; linarith
          · rw [List.length_cons]; simp only [Cost.plus]
            rw [Nat.mul_add, Nat.succ_mul]
            omega
      obtain ⟨out, c, d1, d2, d3, d4, d5, d6, d7⟩ := key (children g S used C (ord (C \ nb g u))).reverse (by
        intro e he; exact hch e (List.mem_reverse.1 he))
      rw [List.length_reverse, children_length, hqs] at d4 d5 d6 d7
      have s1 := bounds_count.step t k
      have s2 := bounds_passes.step t k
      have s3 := bounds_sets.step t k
      rw [if_neg hn1] at s1
      refine ⟨out, Cost.plus ⟨1, passSets S C k, k * (used.length + 1)⟩ c, ?_, ?_, d3, by linarith, ?_, ?_, ?_⟩
      · intro stack
        rw [tomitaLoop.eq_def]
        dsimp only
        rw [ho]
        dsimp only
        rw [hu]
        exact d1 stack
      · intro stack
        rw [tomitaLoopC.eq_def]
        dsimp only
        rw [ho]
        dsimp only
        rw [hu, hqs, d2]
        cases tomitaLoopC ord g stack with
        | none => rfl
        | some r => simp [Cost.plus_assoc]
      · simp only [Cost.plus]; push_cast; linarith
      · have hps : passSets S C k ≤ 3 * (t + k) ^ 2 + 4 * (t + k) + 1 := by
          unfold passSets
          rw [hn]
          have h1 : (t + k) * (1 + C.card) ≤ (t + k) * (1 + (t + k)) := Nat.mul_le_mul_left _ (by omega)
          have h2 : k * (2 + (t + k) + C.card) ≤ (t + k) * (2 + (t + k) + (t + k)) := Nat.mul_le_mul (by omega) (by omega)
          nlinarith
        have hps' : (passSets S C k : ℝ) ≤ 3 * ((t + k : ℕ) : ℝ) ^ 2 + 4 * ((t + k : ℕ) : ℝ) + 1 := by exact_mod_cast hps
        simp only [Cost.plus]
        push_cast at hps' s3 ⊢
        linarith
      · simp only [Cost.plus]
        have h1 : k * (used.length + 1) ≤ k * N := Nat.mul_le_mul_left _ (by omega)
        have h2 := Nat.mul_add N 1 c.passes
        omega

end Rosemary.CliqueCosts
