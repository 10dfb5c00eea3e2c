import Verif.Lemmas.Partitions

/-!
# `algorithm_h` of `integer_partitions`
-/

namespace Rosemary.Partitions

open Rosemary.Gen Rosemary.Lex Rosemary.Generation

/-- `[c_{k-1}, ..., c_0]`. -/
def rl (c : List Int) : Nat → List Int
  | 0 => []
  | k + 1 => gi c k :: rl c k

/-- `c_0 + ... + c_{k-1}`. -/
def ps (c : List Int) : Nat → Int
  | 0 => 0
  | k + 1 => ps c k + gi c k

theorem gi_eq {c : List Int} {i : Nat} (h : i < c.length) : gi c i = c[i] := by
  rw [gi, List.getD_eq_getElem?_getD, List.getElem?_eq_getElem h]; rfl

theorem rl_eq {c : List Int} (k : Nat) (h : k ≤ c.length) : rl c k = (c.take k).reverse := by
  induction k with
  | zero => simp [rl]
  | succ k ih =>
    rw [rl, ih (by omega), List.take_succ_eq_append_getElem (by omega), List.reverse_append, gi_eq (by omega)]
    rfl

theorem rl_reverse (c : List Int) : rl c c.length = c.reverse := by rw [rl_eq _ le_rfl, List.take_length]

theorem ps_eq {c : List Int} (k : Nat) (h : k ≤ c.length) : ps c k = (c.take k).sum := by
  induction k with
  | zero => simp [ps]
  | succ k ih =>
    rw [ps, ih (by omega), List.take_succ_eq_append_getElem (by omega), List.sum_append, gi_eq (by omega)]
    simp

theorem ps_sum (c : List Int) : ps c c.length = c.sum := by rw [ps_eq _ le_rfl, List.take_length]

/-- Nonincreasing, in terms of entries. -/
theorem noninc_iff {c : List Int} :
    c.Pairwise (· ≥ ·) ↔ ∀ i k, i ≤ k → k < c.length → gi c k ≤ gi c i := by
  rw [List.pairwise_iff_getElem]
  constructor
  · intro h i k hik hk
    rcases Nat.eq_or_lt_of_le hik with rfl | hik
    · exact le_rfl
    · rw [gi_eq (show i < c.length by omega), gi_eq hk]
      exact h i k (by omega) hk hik
  · intro h i k hi hk hik
    have := h i k (by omega) hk
    rwa [gi_eq hi, gi_eq hk] at this

theorem lemA {p t : List Int} (k : Nat) (hk : k ≤ t.length)
    (hp : ∀ i, 1 ≤ i → i < k → gi p 0 - 1 ≤ gi p i) (hpn : ∀ i, i < k → gi p i ≤ gi p 0)
    (ht : t.Pairwise (· ≥ ·)) (hs : ps t k = ps p k) : rl t k ≤ rl p k := by
  induction k with
  | zero => exact le_rfl
  | succ k ih =>
    rw [rl, rl]
    rw [ps, ps] at hs
    by_cases h0 : k = 0
    · subst h0
      simp only [ps, zero_add] at hs
      exact cons_le_cons.2 (Or.inr ⟨hs, le_rfl⟩)
    · rcases lt_trichotomy (gi t k) (gi p k) with h | h | h
      · exact cons_le_cons.2 (Or.inl h)
      · exact cons_le_cons.2 (Or.inr ⟨h, ih (by omega) (fun i a b => hp i a (by omega))
          (fun i a => hpn i (by omega)) (by linarith)⟩)
      · exfalso
        have hge : ∀ j, j ≤ k → ps p j ≤ ps t j := by
          intro j hj
          induction j with
          | zero => exact le_rfl
          | succ j ihj =>
            have h1 := ihj (by omega)
            have h2 := noninc_iff.1 ht j k (by omega) (by omega)
            have h3 := hpn j (by omega)
            have h4 := hp k (by omega) (by omega)
            rw [ps, ps]; omega
        have := hge k le_rfl
        omega

theorem lemC {c t : List Int} {r : Int} (k : Nat) (hc : ∀ i, 1 ≤ i → i < k → gi c i = r)
    (ht : ∀ i, i < k → r ≤ gi t i) (hs : ps c k = ps t k) : rl c k ≤ rl t k := by
  induction k with
  | zero => exact le_rfl
  | succ k ih =>
    rw [rl, rl]
    rw [ps, ps] at hs
    by_cases h0 : k = 0
    · subst h0
      simp only [ps, zero_add] at hs
      exact cons_le_cons.2 (Or.inr ⟨hs, le_rfl⟩)
    · have h1 := hc k (by omega) (by omega)
      have h2 := ht k (by omega)
      rcases lt_or_eq_of_le (show gi c k ≤ gi t k by omega) with h | h
      · exact cons_le_cons.2 (Or.inl h)
      · exact cons_le_cons.2 (Or.inr ⟨h, ih (fun i a b => hc i a (by omega)) (fun i a => ht i (by omega))
          (by linarith)⟩)

/-- The description of a step: `j` is the position that is increased. -/
structure IsStep (p p' : List Int) (j : Nat) : Prop where
  hj : 1 ≤ j
  hjl : j < p.length
  len : p'.length = p.length
  scan : ∀ i, 1 ≤ i → i < j → gi p 0 - 1 ≤ gi p i
  here : gi p j < gi p 0 - 1
  tail : ∀ i, j < i → gi p' i = gi p i
  fill : ∀ i, 1 ≤ i → i ≤ j → gi p' i = gi p j + 1
  zero : gi p' 0 = ps p j - 1 - ((j : Int) - 1) * (gi p j + 1)

theorem IsStep.ps_fill {p p' : List Int} {j : Nat} (h : IsStep p p' j) (k : Nat) (hk : k ≤ j) :
    ps p' (k + 1) = gi p' 0 + k * (gi p j + 1) := by
  induction k with
  | zero => simp [ps]
  | succ k ih =>
    rw [ps, ih (by omega), h.fill (k + 1) (by omega) hk]
    push_cast; ring

theorem IsStep.ps_eq {p p' : List Int} {j : Nat} (h : IsStep p p' j) (k : Nat) (hk : j < k) :
    ps p' k = ps p k := by
  induction k with
  | zero => omega
  | succ k ih =>
    rcases Nat.lt_succ_iff_lt_or_eq.1 hk with h1 | rfl
    · rw [ps, ps, ih h1, h.tail k h1]
    · rw [h.ps_fill j le_rfl, h.zero, ps]; ring

theorem IsStep.lt {p p' : List Int} {j : Nat} (h : IsStep p p' j) (k : Nat) (hk : j < k) : rl p k < rl p' k := by
  induction k with
  | zero => omega
  | succ k ih =>
    rw [rl, rl]
    rcases Nat.lt_succ_iff_lt_or_eq.1 hk with h1 | rfl
    · exact cons_lt_cons.2 (Or.inr ⟨(h.tail k h1).symm, ih h1⟩)
    · exact cons_lt_cons.2 (Or.inl (by rw [h.fill j h.hj le_rfl]; omega))

theorem IsStep.succ {p p' t : List Int} {j : Nat} (h : IsStep p p' j) (hp : p.Pairwise (· ≥ ·))
    (ht : t.Pairwise (· ≥ ·)) (htl : t.length = p.length) (k : Nat) (hk : j < k) (hkl : k ≤ p.length)
    (hs : ps t k = ps p k) (hlt : rl p k < rl t k) : rl p' k ≤ rl t k := by
  induction k with
  | zero => omega
  | succ k ih =>
    rw [rl, rl] at *
    rw [ps, ps] at hs
    rcases Nat.lt_succ_iff_lt_or_eq.1 hk with h1 | rfl
    · rw [h.tail k h1]
      rcases cons_lt_cons.1 hlt with h2 | ⟨h2, h3⟩
      · exact cons_le_cons.2 (Or.inl h2)
      · exact cons_le_cons.2 (Or.inr ⟨h2, ih h1 (by omega) (by linarith) h3⟩)
    · rw [h.fill j h.hj le_rfl]
      rcases cons_lt_cons.1 hlt with h2 | ⟨h2, h3⟩
      · rcases lt_or_eq_of_le (show gi p j + 1 ≤ gi t j by omega) with h4 | h4
        · exact cons_le_cons.2 (Or.inl h4)
        · refine cons_le_cons.2 (Or.inr ⟨h4, lemC j (fun i a b => h.fill i a (by omega)) (fun i a => ?_) ?_⟩)
          · rw [h4]; exact noninc_iff.1 ht i j (by omega) (by omega)
          · have h5 := h.ps_eq (j + 1) (by omega)
            rw [ps, ps, h.fill j h.hj le_rfl] at h5
            omega
      · exfalso
        refine absurd (lemA j (by omega) h.scan (fun i a => noninc_iff.1 hp 0 i (by omega) (by omega)) ht ?_)
          (not_le.2 h3)
        linarith

theorem IsStep.isPart {p p' : List Int} {j : Nat} {n : Int} (h : IsStep p p' j) (hp : IsPart n p) :
    IsPart n p' := by
  obtain ⟨h1, h2, h3⟩ := hp
  have hni := noninc_iff.1 h1
  have hpos : ∀ i, i < p.length → 1 ≤ gi p i := fun i hi => by
    rw [gi_eq hi]; exact h2 _ (List.getElem_mem _)
  have hpsj : ∀ k, 1 ≤ k → k ≤ j → gi p 0 + ((k : Int) - 1) * (gi p 0 - 1) ≤ ps p k := by
    intro k hk1 hk
    induction k with
    | zero => omega
    | succ k ih =>
      by_cases h0 : k = 0
      · subst h0; simp [ps]
      · have i1 := ih (by omega) (by omega)
        have i2 := h.scan k (by omega) (by omega)
        rw [ps]
        push_cast at *
        linarith
  have hz : gi p j + 1 ≤ gi p' 0 := by
    have e1 := hpsj j h.hj le_rfl
    have e2 := h.here
    rw [h.zero]
    have e3 : ((j : Int) - 1) * (gi p j + 1) ≤ ((j : Int) - 1) * (gi p 0 - 1) := by
      apply mul_le_mul_of_nonneg_left (by omega)
      have := h.hj
      omega
    omega
  have hval : ∀ i, i < p.length → gi p' i = if i = 0 then gi p' 0 else if i ≤ j then gi p j + 1 else gi p i := by
    intro i hi
    by_cases a : i = 0
    · rw [if_pos a, a]
    · rw [if_neg a]
      by_cases b : i ≤ j
      · rw [if_pos b]; exact h.fill i (by omega) b
      · rw [if_neg b]; exact h.tail i (by omega)
  refine ⟨?_, ?_, ?_⟩
  · rw [noninc_iff]
    intro i k hik hk
    rw [h.len] at hk
    rw [hval i (by omega), hval k hk]
    have a1 : j < k → gi p k ≤ gi p j := fun hjk => hni j k (by omega) hk
    split_ifs <;> first | omega | exact hni i k hik hk
  · intro x hx
    obtain ⟨i, hi, rfl⟩ := List.mem_iff_getElem.1 hx
    rw [← gi_eq hi]
    rw [h.len] at hi
    rw [hval i hi]
    have := hpos j h.hjl
    have := hpos i hi
    split_ifs <;> omega
  · rw [← ps_sum, h.len, h.ps_eq _ h.hjl, ps_sum, h3]

theorem hScan_spec (p : List Int) (a : Int) (j : Nat) (s : Int) (hj : j ≤ p.length) (hs : s = ps p j - 1) :
    ∃ j', hScan p a j s = (j', ps p j' - 1) ∧ j ≤ j' ∧ j' ≤ p.length ∧
      (∀ i, j ≤ i → i < j' → a - 1 ≤ gi p i) ∧ (j' < p.length → gi p j' < a - 1) := by
  fun_induction hScan p a j s with
  | case1 j s h1 h2 ih =>
    obtain ⟨j', e1, e2, e3, e4, e5⟩ := ih (by omega) (by rw [hs, ps, gi]; ring)
    refine ⟨j', e1, by omega, e3, fun i a b => ?_, e5⟩
    by_cases c : i = j
    · rw [c]; exact h2
    · exact e4 i (by omega) b
  | case2 j s h1 h2 =>
    exact ⟨j, by rw [hs], le_rfl, hj, fun i a b => by omega, fun _ => not_le.1 h2⟩
  | case3 j s h1 =>
    exact ⟨j, by rw [hs], le_rfl, hj, fun i a b => by omega, fun h => by omega⟩

theorem hFill_spec (r : Int) (j : Nat) (p : List Int) (s : Int) (hj : j < p.length) :
    ∃ p', hFill r j p s = (p', s - j * r) ∧ p'.length = p.length ∧
      ∀ i, gi p' i = if 1 ≤ i ∧ i ≤ j then r else gi p i := by
  induction j generalizing p s with
  | zero => exact ⟨p, by simp [hFill], rfl, fun i => by rw [if_neg (by omega)]⟩
  | succ j ih =>
    obtain ⟨p', e1, e2, e3⟩ := ih (p.set (j + 1) r) (s - r) (by simp; omega)
    refine ⟨p', by rw [hFill, e1]; congr 1; push_cast; ring, by simpa using e2, fun i => ?_⟩
    rw [e3, gi_set hj]
    by_cases c : i = j + 1
    · rw [if_neg (by omega), if_pos c, if_pos (by omega)]
    · by_cases d : 1 ≤ i ∧ i ≤ j
      · rw [if_pos d, if_pos (by omega)]
      · rw [if_neg d, if_neg c, if_neg (by omega)]

theorem hStep_spec {p : List Int} (hl : 2 ≤ p.length) (_hp : p.Pairwise (· ≥ ·)) :
    (∃ p' j, hStep p = .next p' ∧ IsStep p p' j) ∨
    (hStep p = .stop ∧ ∀ i, 1 ≤ i → i < p.length → gi p 0 - 1 ≤ gi p i) := by
  rw [hStep, gi_some (show 0 < p.length by omega), gi_some (show 1 < p.length by omega)]
  dsimp only
  by_cases h1 : gi p 1 < gi p 0 - 1
  · left
    rw [if_pos h1]
    have hv : ∀ i, gi ((p.set 0 (gi p 0 - 1)).set 1 (gi p 1 + 1)) i
        = if i = 1 then gi p 1 + 1 else if i = 0 then gi p 0 - 1 else gi p i := by
      intro i
      rw [gi_set (by simp; omega), gi_set (by omega)]
    refine ⟨_, 1, rfl, ⟨le_rfl, by omega, by simp, fun i a b => by omega, h1, fun i a => ?_, fun i a b => ?_, ?_⟩⟩
    · rw [hv, if_neg (by omega), if_neg (by omega)]
    · rw [hv, if_pos (by omega)]
    · rw [hv, if_neg (by omega), if_pos rfl]; simp [ps]
  · rw [if_neg h1]
    obtain ⟨j, e1, e2, e3, e4, e5⟩ := hScan_spec p (gi p 0) 2 (gi p 0 + gi p 1 - 1) hl (by simp [ps])
    have hsc : ∀ i, 1 ≤ i → i < j → gi p 0 - 1 ≤ gi p i := by
      intro i a b
      by_cases c : i = 1
      · rw [c]; omega
      · exact e4 i (by omega) b
    rw [e1]
    dsimp only
    by_cases h2 : j ≥ p.length
    · right
      rw [if_pos h2]
      exact ⟨rfl, fun i a b => hsc i a (by omega)⟩
    · left
      rw [if_neg h2]
      obtain ⟨p', f1, f2, f3⟩ := hFill_spec (p.getD j 0 + 1) (j - 1) (p.set j (p.getD j 0 + 1)) (ps p j - 1)
        (by simp; omega)
      rw [f1]
      dsimp only
      rw [List.length_set] at f2
      have hv : ∀ i, gi (p'.set 0 (ps p j - 1 - ((j - 1 : Nat) : Int) * (p.getD j 0 + 1))) i
          = if i = 0 then ps p j - 1 - ((j : Int) - 1) * (gi p j + 1) else if i ≤ j then gi p j + 1 else gi p i := by
        intro i
        rw [gi_set (by omega), f3, gi_set (by omega), show p.getD j 0 = gi p j from rfl]
        by_cases c : i = 0
        · rw [if_pos c, if_pos c, Nat.cast_sub (by omega)]; simp
        · rw [if_neg c, if_neg c]
          by_cases d : i ≤ j
          · rw [if_pos d]
            split_ifs <;> first | rfl | omega
          · rw [if_neg d, if_neg (by omega), if_neg (by omega)]
      refine ⟨_, j, rfl, ⟨by omega, by omega, by simp [f2], hsc, e5 (by omega), fun i a => ?_, fun i a b => ?_, ?_⟩⟩
      · rw [hv, if_neg (by omega), if_neg (by omega)]
      · rw [hv, if_neg (by omega), if_pos b]
      · rw [hv, if_pos rfl]

theorem run_h {n : Int} {m : Nat} (hm : 2 ≤ m) {p : List Int} (hp : IsPart n p ∧ p.length = m) :
    ∃ L, run hStep id p = some (L, none) ∧ L.Pairwise (fun a b => a.reverse < b.reverse) ∧
      ∀ t, t ∈ L ↔ IsPart n t ∧ t.length = m ∧ p.reverse ≤ t.reverse := by
  obtain ⟨L, h1, h2, h3⟩ := run_enum_rel (step := hStep) (out := id)
    (fun a b : List Int => a.reverse < b.reverse) (fun a b c h1 h2 => lt_trans h1 h2) (fun a => lt_irrefl a.reverse)
    {t | IsPart n t ∧ t.length = m} ((finite_isPart n).subset (fun t h => h.1)) (fun p => IsPart n p ∧ p.length = m)
    (fun s h => h)
    (fun s s' hs hst => by
      rcases hStep_spec (by omega) hs.1.1 with ⟨p', j, e, g⟩ | ⟨e, -⟩
      · rw [e] at hst
        simp only [Step.next.injEq] at hst
        subst hst
        refine ⟨⟨g.isPart hs.1, by rw [g.len, hs.2]⟩, ?_, fun t ht hlt => ?_⟩
        · have := g.lt s.length g.hjl
          rw [rl_reverse, ← g.len, rl_reverse] at this
          exact this
        · have hlen : t.length = s.length := by rw [ht.2, hs.2]
          have := g.succ hs.1.1 ht.1.1 hlen s.length g.hjl le_rfl
            (by rw [ps_sum, ← hlen, ps_sum, hs.1.2.2, ht.1.2.2])
            (by rw [rl_reverse, ← hlen, rl_reverse]; exact hlt)
          have e1 : rl p' s.length = p'.reverse := by rw [← g.len, rl_reverse]
          have e2 : rl t s.length = t.reverse := by rw [← hlen, rl_reverse]
          rw [e1, e2] at this
          rcases lt_or_eq_of_le this with h | h
          · exact Or.inr h
          · exact Or.inl (List.reverse_injective h.symm)
      · rw [e] at hst; simp at hst)
    (fun s hs hst t ht hlt => by
      rcases hStep_spec (by omega) hs.1.1 with ⟨s'', j, e, -⟩ | ⟨e, g⟩
      · rw [e] at hst; simp at hst
      · have hlen : t.length = s.length := by rw [ht.2, hs.2]
        have := lemA (p := s) (t := t) t.length le_rfl (fun i a b => g i a (by omega))
          (fun i a => noninc_iff.1 hs.1.1 0 i (by omega) (by omega)) ht.1.1
          (by rw [ps_sum, hlen, ps_sum, hs.1.2.2, ht.1.2.2])
        rw [rl_reverse, hlen, rl_reverse] at this
        exact absurd hlt (not_lt.2 this))
    (fun s e hs hst => by
      rcases hStep_spec (by omega) hs.1.1 with ⟨s'', j, e, -⟩ | ⟨e, g⟩
      · rw [e] at hst; simp at hst
      · rw [e] at hst; simp at hst) p hp
  refine ⟨L, h1, h2, fun t => ?_⟩
  rw [h3 t, le_iff_eq_or_lt, List.reverse_inj]
  simp only [Set.mem_setOf_eq, id]
  rw [and_assoc, eq_comm (a := p)]

theorem gi_hInit {n m i : Nat} (hm : 1 ≤ m) (hi : i < m) :
    gi (hInit n m) i = if i = 0 then (n : Int) - m + 1 else 1 := by
  rw [hInit, gi_set (by simp; omega)]
  by_cases h : i = 0
  · rw [if_pos h, if_pos h]
  · rw [if_neg h, if_neg h]; simp [gi, List.getElem?_replicate, hi]

theorem isPart_hInit {n m : Nat} (hm : 1 ≤ m) (hmn : m ≤ n) : IsPart n (hInit n m) ∧ (hInit n m).length = m := by
  have hl : (hInit n m).length = m := by simp [hInit]
  refine ⟨⟨?_, ?_, ?_⟩, hl⟩
  · rw [noninc_iff]
    intro i k hik hk
    rw [gi_hInit hm (by omega), gi_hInit hm (by omega)]
    split_ifs <;> omega
  · intro x hx
    obtain ⟨i, hi, rfl⟩ := List.mem_iff_getElem.1 hx
    rw [← gi_eq hi, gi_hInit hm (by omega)]
    split_ifs <;> omega
  · obtain ⟨k, rfl⟩ : ∃ k, m = k + 1 := ⟨m - 1, by omega⟩
    rw [hInit, List.replicate_succ, List.set_cons_zero, List.sum_cons, List.sum_replicate]
    simp
    ring

theorem hInit_min {n m : Nat} (hm : 1 ≤ m) {t : List Int} (ht : IsPart n t) (hl : t.length = m) (hmn : m ≤ n) :
    (hInit n m).reverse ≤ t.reverse := by
  have hi := isPart_hInit hm hmn
  have := lemC (c := hInit n m) (t := t) (r := 1) m (fun i a b => by rw [gi_hInit hm b, if_neg (by omega)])
    (fun i a => by rw [gi_eq (by omega)]; exact ht.2.1 _ (List.getElem_mem _))
    (by
      have e1 := ps_sum (hInit n m)
      have e2 := ps_sum t
      rw [hi.2] at e1
      rw [hl] at e2
      rw [e1, e2, hi.1.2.2, ht.2.2])
  have e1 := rl_reverse (hInit n m)
  have e2 := rl_reverse t
  rw [hi.2] at e1
  rw [hl] at e2
  rwa [e1, e2] at this

end Rosemary.Partitions
