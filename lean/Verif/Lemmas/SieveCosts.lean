import Verif.Model.SieveCosts
import Verif.Lemmas.Sieves
import Verif.Lemmas.PrimeReciprocals

/-!
# Lemmas about the work of the sieves
-/

namespace Rosemary.SieveCosts

open Rosemary.Core Rosemary.Sieves Rosemary.Spec Finset

/-! ## The counted functions compute the same -/

theorem era1LoopC_fst (m : Nat) (is : List Nat) (block : List Bool) :
    (era1LoopC m is block).1 = era1Loop m is block := by
  induction is generalizing block with
  | nil => rfl
  | cons i is ih =>
    unfold era1LoopC era1Loop
    dsimp only
    rcases block[i]? with _ | _ | _
    · rfl
    · exact ih _
    · dsimp only
      generalize sliceZero block _ _ _ = r
      rcases r with e | b
      · rfl
      · exact ih _

theorem era2LoopC_fst (m : Nat) (is : List Nat) (block : List Bool) :
    (era2LoopC m is block).1 = era2Loop m is block := by
  induction is generalizing block with
  | nil => rfl
  | cons i is ih =>
    unfold era2LoopC era2Loop
    dsimp only
    rcases block[i]? with _ | _ | _
    · rfl
    · exact ih _
    · dsimp only
      generalize sliceZero block _ _ _ = r
      rcases r with e | b
      · rfl
      · dsimp only
        generalize sliceZero b _ _ _ = r
        rcases r with e | b
        · rfl
        · exact ih _

theorem luoLoopC_fst (m : Nat) (is : List Nat) (a k t : Nat) (block : List Bool) :
    (luoLoopC m is a k t block).1 = luoLoop m is a k t block := by
  induction is generalizing a k t block with
  | nil => rfl
  | cons i is ih =>
    unfold luoLoopC luoLoop
    dsimp only
    rcases block[i]? with _ | _ | _
    · rfl
    · exact ih _ _ _ _
    · dsimp only
      generalize sliceZero block _ _ _ = r
      rcases r with e | b
      · rfl
      · dsimp only
        generalize sliceZero b _ _ _ = r
        rcases r with e | b
        · rfl
        · exact ih _ _ _ _

theorem pritchardInnerC_fst (n f : Nat) (ps : List Nat) (block : List Bool) :
    (pritchardInnerC n f ps block).1 = pritchardInner n f ps block := by
  induction ps generalizing block with
  | nil => rfl
  | cons p ps ih =>
    unfold pritchardInnerC pritchardInner
    dsimp only
    split
    · rfl
    · split
      · split
        · rfl
        · exact ih _
      · rfl

theorem pritchardLoopC_fst (n : Nat) (ps fs : List Nat) (block : List Bool) :
    (pritchardLoopC n ps fs block).1 = pritchardLoop n ps fs block := by
  induction fs generalizing block with
  | nil => rfl
  | cons f fs ih =>
    unfold pritchardLoopC pritchardLoop
    have := pritchardInnerC_fst n f ps block
    split <;> rename_i h <;> rw [h] at this <;> rw [← this]
    exact ih _

/-! ## Sizes of the slices -/

theorem slice_le {m a k : Nat} (hk : 0 < k) (L : Nat) (h : m + k ≤ L + a + 1) :
    (ceilCount m a k).toNat ≤ L / k := by
  rcases Nat.lt_or_ge a m with h1 | h1
  · rw [(ceilCount_pos hk h1).1]
    exact Nat.div_le_div_right (by omega)
  · rw [ceilCount_nonpos hk h1]; exact Nat.zero_le _

/-- What the primes among `w i, …, w s` may write: at most `L / p` each, and nothing above `M`. -/
def budget (w : Nat → Nat) (L M i s : Nat) : Nat :=
  ∑ j ∈ Ico i s, if (w j).Prime ∧ w j ≤ M then L / w j else 0

theorem budget_succ {w : Nat → Nat} {L M i s : Nat} (h : i < s) :
    budget w L M i s = (if (w i).Prime ∧ w i ≤ M then L / w i else 0) + budget w L M (i + 1) s := by
  unfold budget
  rw [sum_eq_sum_Ico_succ_bot h]

theorem budget_le {w : Nat → Nat} (hw : StrictMono w) (L M i s : Nat) (h4 : ∀ j, i ≤ j → 4 < w j) :
    budget w L M i s ≤ 2 * L * Nat.log 2 (Nat.log 2 M) := by
  unfold budget
  rw [← sum_filter]
  refine le_trans ?_ (sum_div_primes_le L M)
  rw [← sum_image (g := w) (f := fun p => L / p) (s := (Ico i s).filter fun j => (w j).Prime ∧ w j ≤ M)
    (fun a _ b _ h => hw.injective h)]
  refine sum_le_sum_of_subset ?_
  intro p hp
  obtain ⟨j, hj, rfl⟩ := mem_image.1 hp
  obtain ⟨h1, h2, h3⟩ := mem_filter.1 hj
  exact mem_filter.2 ⟨mem_Ioc.2 ⟨h4 j (mem_Ico.1 h1).1, h3⟩, h2⟩

/-! ## eratosthenes1 -/

theorem era1LoopC_cost {m : Nat} (s : Nat) (hs : s < m) (i : Nat) (hi : 0 < i) (his : i ≤ s + 1)
    (block : List Bool) (h : Inv (fun i => 2 * i + 1) m (2 * i + 1) block) :
    (era1LoopC m (pyRange i (s + 1)) block).2 ≤ budget (fun i => 2 * i + 1) m (2 * m - 2) i (s + 1) := by
  induction hd : s + 1 - i generalizing i block with
  | zero =>
    have : i = s + 1 := by omega
    subst this
    simp [pyRange_self, era1LoopC]
  | succ d ih =>
    have hlt : i < s + 1 := by omega
    have him : i < m := by omega
    rw [pyRange_cons hlt, budget_succ hlt]
    rcases get_bool h.len him with ht | hf
    · have hp := (Inv.prime oddMap (i := i) h hi him).1 ht
      simp only [era1LoopC, ht]
      rw [sliceZero_ceil h.len (by omega)]
      dsimp only
      refine Nat.add_le_add ?_ (ih (i + 1) (by omega) (by omega) _ ?_ (by omega))
      · have hsq : (2 * i + 1) * (2 * i + 1) / 2 = 2 * (i * i) + 2 * i := by
          rw [show (2 * i + 1) * (2 * i + 1) = 2 * (2 * (i * i) + 2 * i) + 1 by ring]; omega
        rw [hsq]
        rcases Nat.lt_or_ge (2 * (i * i) + 2 * i) m with h1 | h1
        · have h2 : 1 ≤ i * i := Nat.mul_pos hi hi
          rw [if_pos ⟨hp, by omega⟩]
          exact slice_le (by omega) m (by nlinarith)
        · rw [ceilCount_nonpos (by omega) h1]; omega
      · refine Inv.step oddMap (i := i) h hi him ht (by rw [length_cleared, h.len]) ?_
        intro j h0 hj
        rw [cleared_get]
        have := hit_odd (k := 2 * i + 1) (j := j) (by omega)
        rw [← this]
        rcases get_bool h.len hj with hb | hb <;> simp [hb]
    · simp only [era1LoopC, hf]
      exact (ih (i + 1) (by omega) (by omega) _ (Inv.skip oddMap (i := i) h hi him hf) (by omega)).trans (by omega)

/-! ## The wheel -/

theorem wheel_cost {m i e a b : Nat} (hi : 0 < i) (hp : (wheel i).Prime)
    (ha : 3 * a + 1 = wheel i * wheel i) (hb : 3 * b + 2 = wheel i * (wheel i + e)) :
    (ceilCount m a (2 * wheel i : Nat)).toNat + (ceilCount m b (2 * wheel i : Nat)).toNat ≤
      if (wheel i).Prime ∧ wheel i ≤ 3 * m - 5 then (m + 1) / wheel i else 0 := by
  have h5 : 5 ≤ wheel i := by rw [wheel_eq]; omega
  generalize wheel i = k at *
  have hab : a ≤ b := by
    have : k * k ≤ k * (k + e) := Nat.mul_le_mul_left _ (by omega)
    omega
  have hlow : 2 * k ≤ a + 2 := by nlinarith
  rcases Nat.lt_or_ge a m with h1 | h1
  · have hk : k ≤ 3 * m - 5 := by
      have h2 : 5 * k ≤ k * k := Nat.mul_le_mul_right _ h5
      omega
    rw [if_pos ⟨hp, hk⟩]
    have c1 := slice_le (m := m) (a := a) (k := 2 * k) (by omega) (m + 1) (by omega)
    have c2 := slice_le (m := m) (a := b) (k := 2 * k) (by omega) (m + 1) (by omega)
    have c3 : 2 * ((m + 1) / (2 * k)) ≤ (m + 1) / k := by
      rw [mul_comm 2 k, ← Nat.div_div_eq_div_mul]
      omega
    omega
  · rw [ceilCount_nonpos (by omega) h1, ceilCount_nonpos (by omega) (h1.trans hab)]
    omega

theorem era2LoopC_cost {m : Nat} (s : Nat) (hs : s < m) (i : Nat) (hi : 0 < i) (his : i ≤ s + 1)
    (block : List Bool) (h : Inv wheel m (wheel i) block) :
    (era2LoopC m (pyRange i (s + 1)) block).2 ≤ budget wheel (m + 1) (3 * m - 5) i (s + 1) := by
  induction hd : s + 1 - i generalizing i block with
  | zero =>
    have : i = s + 1 := by omega
    subst this
    simp [pyRange_self, era2LoopC]
  | succ d ih =>
    have hlt : i < s + 1 := by omega
    have him : i < m := by omega
    rw [pyRange_cons hlt, budget_succ hlt]
    rcases get_bool h.len him with ht | hf
    · have hp := (Inv.prime wheelMap (i := i) h hi him).1 ht
      have hpos : 0 < wheel i := by rw [wheel_eq]; omega
      simp only [era2LoopC, ht]
      rw [sliceZero_ceil h.len (by omega)]
      dsimp only
      rw [sliceZero_ceil (by rw [length_cleared, h.len]) (by omega)]
      have hkk : (wheel i * wheel i) % 6 = 1 := by
        rcases wheel_cases i with ⟨h, _⟩ | ⟨h, _⟩ <;> rw [Nat.mul_mod, h]
      have ha : 3 * (wheel i * wheel i / 3) + 1 = wheel i * wheel i := by omega
      have hb : 3 * ((wheel i * wheel i + 4 * wheel i - 2 * wheel i * (i &&& 1)) / 3) + 2 =
          wheel i * (wheel i + if i % 2 = 0 then 4 else 2) := by
        rw [Nat.and_one_is_mod]
        rcases wheel_cases i with ⟨h1, h2⟩ | ⟨h1, h2⟩
        · have hke : (wheel i * (wheel i + 4)) % 6 = 5 := by rw [Nat.mul_mod, Nat.add_mod, h1]
          have e1 : wheel i * (wheel i + 4) = wheel i * wheel i + 4 * wheel i := by ring
          simp only [h2, if_true, mul_zero, Nat.sub_zero]
          omega
        · have hke : (wheel i * (wheel i + 2)) % 6 = 5 := by rw [Nat.mul_mod, Nat.add_mod, h1]
          have e1 : wheel i * (wheel i + 2) = wheel i * wheel i + 2 * wheel i := by ring
          simp only [h2, mul_one]
          simp only [if_neg (by omega : ¬ (1 = 0))]
          omega
      refine Nat.add_le_add (wheel_cost hi hp ha hb) (ih (i + 1) (by omega) (by omega) _ ?_ (by omega))
      refine wheel_step h hi him ht ?_ ha hb
      rcases wheel_cases i with ⟨h1, h2⟩ | ⟨h1, h2⟩
      · left; simp [h1, h2]
      · right; simp [h1, h2]
    · simp only [era2LoopC, hf]
      exact (ih (i + 1) (by omega) (by omega) _ (Inv.skip wheelMap h hi him hf) (by omega)).trans (by omega)

theorem luoLoopC_cost {m : Nat} (s : Nat) (hs : s < m) (i : Nat) (hi : 0 < i) (his : i ≤ s + 1)
    (a k t : Nat) (hst : LuoState i a k t) (block : List Bool) (h : Inv wheel m (wheel i) block) :
    (luoLoopC m (pyRange i (s + 1)) a k t block).2 ≤ budget wheel (m + 1) (3 * m - 5) i (s + 1) := by
  induction hd : s + 1 - i generalizing i block a k t with
  | zero =>
    have : i = s + 1 := by omega
    subst this
    simp [pyRange_self, luoLoopC]
  | succ d ih =>
    have hlt : i < s + 1 := by omega
    have him : i < m := by omega
    have hst' := luoState_succ hi hst
    obtain ⟨hk, ha, ht'⟩ := hst'
    rw [Nat.add_sub_cancel] at ha ht'
    rw [pyRange_cons hlt, budget_succ hlt]
    rcases get_bool h.len him with ht | hf
    · have hp := (Inv.prime wheelMap (i := i) h hi him).1 ht
      have hpos : 0 < wheel i := by rw [wheel_eq]; omega
      simp only [luoLoopC, ht]
      rw [sliceZero_ceil h.len (by omega)]
      dsimp only
      rw [sliceZero_ceil (by rw [length_cleared, h.len]) (by omega)]
      have hb : 3 * (a + 4 * (3 - k) * i + 2 * i * (3 - (3 - k)) + 1) + 2 =
          wheel i * (wheel i + if i % 2 = 0 then 4 else 2) := by
        rcases hst.1 with ⟨ho, rfl⟩ | ⟨he, rfl⟩
        · have e1 : wheel i = 3 * i + 2 := by rw [wheel_eq]; omega
          simp only [ho, if_neg (by omega : ¬ (1 = 0))]
          rw [e1] at ha ⊢
          norm_num at ha ⊢
          nlinarith
        · have e1 : wheel i = 3 * i + 1 := by rw [wheel_eq]; omega
          simp only [he, if_true]
          rw [e1] at ha ⊢
          norm_num at ha ⊢
          nlinarith
      refine Nat.add_le_add ?_ (ih (i + 1) (by omega) (by omega) _ _ _ ⟨hk, ha, ht'⟩ _ ?_ (by omega))
      · rw [ht']
        exact wheel_cost hi hp ha hb
      · rw [ht']
        refine wheel_step h hi him ht ?_ ha hb
        rcases wheel_cases i with ⟨h1, h2⟩ | ⟨h1, h2⟩
        · left; simp [h1, h2]
        · right; simp [h1, h2]
    · simp only [luoLoopC, hf]
      exact (ih (i + 1) (by omega) (by omega) _ _ _ ⟨hk, ha, ht'⟩ _
        (Inv.skip wheelMap h hi him hf) (by omega)).trans (by omega)

/-! ## pritchard -/

theorem pritchardInnerC_writes {n f : Nat} (hf : 2 ≤ f) (ps : List Nat) (hps : ∀ p ∈ ps, p.Prime)
    (hs : ps.Pairwise (· < ·)) (block : List Bool) (hl : block.length = n + 1) :
    (pritchardInnerC n f ps block).2.1.Pairwise (· < ·) ∧
    (∀ j, j ∈ (pritchardInnerC n f ps block).2.1 ↔ j ≤ n ∧ ∃ p ∈ ps, p * f = j ∧ ∀ q ∈ ps, q < p → ¬ q ∣ f) ∧
    (pritchardInnerC n f ps block).2.2 ≤ (pritchardInnerC n f ps block).2.1.length + 1 := by
  induction ps generalizing block with
  | nil => simp [pritchardInnerC]
  | cons p ps ih =>
    have hp := hps p (by simp)
    rw [List.pairwise_cons] at hs
    unfold pritchardInnerC
    by_cases h1 : p * f > n
    · rw [if_pos h1]
      refine ⟨by simp, fun j => ⟨fun h => by simp at h, ?_⟩, by simp⟩
      rintro ⟨hj, q, hq, rfl, -⟩
      exfalso
      rcases List.mem_cons.1 hq with rfl | hq
      · omega
      · have := Nat.mul_lt_mul_of_pos_right (hs.1 q hq) (by omega : 0 < f)
        omega
    rw [if_neg h1, if_pos (by omega)]
    dsimp only
    by_cases h2 : f % p = 0
    · rw [if_pos h2]
      refine ⟨by simp, fun j => ?_, by simp⟩
      rw [List.mem_singleton]
      constructor
      · rintro rfl
        refine ⟨by omega, p, by simp, rfl, ?_⟩
        intro q hq hlt
        rcases List.mem_cons.1 hq with rfl | hq
        · omega
        · have := hs.1 q hq; omega
      · rintro ⟨-, q, hq, rfl, hall⟩
        rcases List.mem_cons.1 hq with rfl | hq
        · rfl
        · exact absurd (Nat.dvd_of_mod_eq_zero h2) (hall p (by simp) (hs.1 q hq))
    · rw [if_neg h2]
      obtain ⟨i1, i2, i3⟩ := ih (fun q hq => hps q (by simp [hq])) hs.2 (block.set (p * f) false)
        (by simp [hl])
      refine ⟨List.pairwise_cons.2 ⟨?_, i1⟩, fun j => ?_, by simp only [List.length_cons]; omega⟩
      · intro j hj
        obtain ⟨-, q, hq, rfl, -⟩ := (i2 j).1 hj
        exact Nat.mul_lt_mul_of_pos_right (hs.1 q hq) (by omega)
      · rw [List.mem_cons, i2]
        constructor
        · rintro (rfl | ⟨hj, q, hq, he, hall⟩)
          · refine ⟨by omega, p, by simp, rfl, ?_⟩
            intro q hq hlt
            rcases List.mem_cons.1 hq with rfl | hq
            · omega
            · have := hs.1 q hq; omega
          · refine ⟨hj, q, by simp [hq], he, ?_⟩
            intro r hr hlt
            rcases List.mem_cons.1 hr with rfl | hr
            · exact fun hd => h2 (Nat.mod_eq_zero_of_dvd hd)
            · exact hall r hr hlt
        · rintro ⟨hj, q, hq, he, hall⟩
          rcases List.mem_cons.1 hq with rfl | hq
          · left; exact he.symm
          · right; exact ⟨hj, q, hq, he, fun r hr hlt => hall r (by simp [hr]) hlt⟩

/-- The factorization `j = p * f` with `p` the least prime in the list dividing `j` is unique. -/
theorem least_unique {ps : List Nat} (hps : ∀ p ∈ ps, p.Prime)
    {p f q g : Nat} (hp : p ∈ ps) (hq : q ∈ ps) (h : p * f = q * g)
    (hf : ∀ r ∈ ps, r < p → ¬ r ∣ f) (hg : ∀ r ∈ ps, r < q → ¬ r ∣ g) : f = g := by
  have key : ∀ {p f q g : Nat}, p ∈ ps → q ∈ ps → p * f = q * g → (∀ r ∈ ps, r < p → ¬ r ∣ f) → ¬ q < p := by
    intro p f q g hp hq h hf hlt
    have hd : q ∣ p * f := h ▸ Dvd.intro _ rfl
    rcases ((hps q hq).dvd_mul).1 hd with h1 | h1
    · have := (Nat.prime_dvd_prime_iff_eq (hps q hq) (hps p hp)).1 h1
      omega
    · exact hf q hq hlt h1
  have h1 := key hp hq h hf
  have h2 := key hq hp h.symm hg
  have : p = q := by omega
  subst this
  exact Nat.eq_of_mul_eq_mul_left (hps p hp).pos h

theorem pritchardLoopC_writes {n : Nat} (ps : List Nat) (hps : ∀ p ∈ ps, p.Prime)
    (hs : ps.Pairwise (· < ·)) (fs : List Nat) (hfs : ∀ f ∈ fs, 2 ≤ f) (hnd : fs.Nodup) (block : List Bool)
    (hl : block.length = n + 1) :
    (pritchardLoopC n ps fs block).2.1.Nodup ∧
    (∀ j, j ∈ (pritchardLoopC n ps fs block).2.1 ↔
      j ≤ n ∧ ∃ f ∈ fs, ∃ p ∈ ps, p * f = j ∧ ∀ q ∈ ps, q < p → ¬ q ∣ f) ∧
    (pritchardLoopC n ps fs block).2.2 ≤ (pritchardLoopC n ps fs block).2.1.length + fs.length := by
  induction fs generalizing block with
  | nil => simp [pritchardLoopC]
  | cons f fs ih =>
    obtain ⟨j1, j2, j3⟩ := pritchardInnerC_writes (hfs f (by simp)) ps hps hs block hl
    have hfst := pritchardInnerC_fst n f ps block
    have hlen : ∃ b, (pritchardInnerC n f ps block).1 = .ok b ∧ b.length = n + 1 := by
      rw [hfst]
      clear j1 j2 j3 hfst ih
      have h2 := hfs f (by simp)
      induction ps generalizing block with
      | nil => exact ⟨block, rfl, hl⟩
      | cons p ps ihp =>
        unfold pritchardInner
        split
        · exact ⟨block, rfl, hl⟩
        · rw [if_pos (by omega)]
          dsimp only
          split
          · exact ⟨_, rfl, by simp [hl]⟩
          · exact ihp (fun q hq => hps q (by simp [hq])) (List.pairwise_cons.1 hs).2 _ (by simp [hl])
    obtain ⟨b, hb, hbl⟩ := hlen
    rw [List.nodup_cons] at hnd
    obtain ⟨i1, i2, i3⟩ := ih (fun g hg => hfs g (by simp [hg])) hnd.2 b hbl
    unfold pritchardLoopC
    split
    · rename_i e w c h; rw [h] at hb; simp at hb
    · rename_i b' w c h
      rw [h] at hb j1 j2 j3
      simp only [Except.ok.injEq] at hb
      subst hb
      dsimp only at j1 j2 j3 ⊢
      refine ⟨?_, fun j => ?_, ?_⟩
      · rw [List.nodup_append]
        refine ⟨j1.imp fun h => Nat.ne_of_lt h, i1, ?_⟩
        intro x hx y hy hxy
        subst hxy
        obtain ⟨-, p, hp, e1, hall⟩ := (j2 x).1 hx
        obtain ⟨-, g, hg, q, hq, e2, hall2⟩ := (i2 x).1 hy
        have := least_unique hps hp hq (e1.trans e2.symm) hall hall2
        subst this
        exact hnd.1 hg
      · rw [List.mem_append, j2, i2]
        constructor
        · rintro (⟨h1, h2⟩ | ⟨h1, g, hg, h2⟩)
          · exact ⟨h1, f, by simp, h2⟩
          · exact ⟨h1, g, by simp [hg], h2⟩
        · rintro ⟨h1, g, hg, h2⟩
          rcases List.mem_cons.1 hg with rfl | hg
          · exact .inl ⟨h1, h2⟩
          · exact .inr ⟨h1, g, hg, h2⟩
      · rw [List.length_append, List.length_cons]; omega

end Rosemary.SieveCosts
