import Verif.Model.Generation
import Verif.Lemmas.Gen
import Verif.Lemmas.Lex
import Mathlib.Tactic.Linarith
import Mathlib.Data.Int.Interval
import Mathlib.Order.Interval.Finset.Basic
import Mathlib.Data.Finite.Prod

/-!
# The steps of `combinations` and `n_tuples`
-/

namespace Rosemary.Generation

open Rosemary.Gen Rosemary.Lex

/-- Entry `i` of a list of integers. -/
def gi (c : List Int) (i : Nat) : Int := c.getD i 0

theorem gi_some {c : List Int} {i : Nat} (h : i < c.length) : c[i]? = some (gi c i) := by
  rw [gi, List.getD_eq_getElem?_getD, List.getElem?_eq_getElem h]; rfl

theorem gi_set {c : List Int} {i k : Nat} {x : Int} (hi : i < c.length) :
    gi (c.set i x) k = if k = i then x else gi c k := by
  simp only [gi, List.getD_eq_getElem?_getD, List.getElem?_set]
  by_cases h : i = k
  · subst h; simp [hi]
  · rw [if_neg h, if_neg (fun e => h e.symm)]

theorem gi_modify {c : List Int} {i k : Nat} {f : Int → Int} (hi : i < c.length) :
    gi (c.modify i f) k = if k = i then f (gi c k) else gi c k := by
  simp only [gi, List.getD_eq_getElem?_getD, List.getElem?_modify]
  by_cases h : i = k
  · subst h; simp [hi]
  · rw [if_neg (fun e => h e.symm)]; simp [h]

/-- Lists with entries in given ranges are finitely many. -/
theorem finite_forall₂ (M : List Int) :
    {t : List Int | List.Forall₂ (fun a m => 0 ≤ a ∧ a < m) t M}.Finite := by
  induction M with
  | nil => simp
  | cons m M ih =>
    apply Set.Finite.subset ((Set.finite_Ico (0 : Int) m).image2 (fun a t => a :: t) ih)
    intro t ht
    rcases t with _ | ⟨a, t⟩
    · simp at ht
    · simp only [Set.mem_setOf_eq, List.forall₂_cons] at ht
      exact ⟨a, ⟨ht.1.1, ht.1.2⟩, t, ht.2, rfl⟩

/-- `[c_k, ..., c_1]`. -/
def dl (c : List Int) : Nat → List Int
  | 0 => []
  | k + 1 => gi c (k + 1) :: dl c k

theorem length_dl (c : List Int) (k : Nat) : (dl c k).length = k := by
  induction k with
  | zero => rfl
  | succ k ih => simp [dl, ih]

theorem mem_dl {c : List Int} {k : Nat} {x : Int} : x ∈ dl c k ↔ ∃ i, 1 ≤ i ∧ i ≤ k ∧ x = gi c i := by
  induction k with
  | zero => simp [dl]
  | succ k ih =>
    rw [dl, List.mem_cons, ih]
    constructor
    · rintro (rfl | ⟨i, h1, h2, rfl⟩)
      · exact ⟨k + 1, by omega, le_rfl, rfl⟩
      · exact ⟨i, h1, by omega, rfl⟩
    · rintro ⟨i, h1, h2, rfl⟩
      by_cases h : i = k + 1
      · exact Or.inl (by rw [h])
      · exact Or.inr ⟨i, h1, by omega, rfl⟩

theorem combOut_eq {c : List Int} {t : Nat} (h : t < c.length) : combOut t c = dl c t := by
  rw [combOut]
  induction t with
  | zero => simp [dl]
  | succ t ih =>
    rw [dl, ← ih (by omega), List.take_succ_eq_append_getElem (by simp; omega), List.reverse_append]
    simp only [List.reverse_singleton, List.singleton_append, List.getElem_drop, List.cons.injEq, and_true]
    rw [gi, List.getD_eq_getElem?_getD, List.getElem?_eq_getElem (by omega)]
    simp [Nat.add_comm]

theorem combLoop_spec (c : List Int) (t : Nat) (hlen : c.length = t + 3) (hlast : gi c (t + 1) + 1 ≠ gi c (t + 2))
    (fuel j : Nat) (hj : j ≤ t + 1) (hf : t + 2 ≤ fuel + j) :
    ∃ c' j', combLoop fuel c j = .ok (c', j') ∧ j ≤ j' ∧ j' ≤ t + 1 ∧ c'.length = c.length ∧
      (∀ i, gi c' i = if j ≤ i ∧ i < j' then (i : Int) - 1 else gi c i) ∧
      (∀ i, j ≤ i → i < j' → gi c i + 1 = gi c (i + 1)) ∧ gi c j' + 1 ≠ gi c (j' + 1) := by
  induction fuel generalizing c j with
  | zero => omega
  | succ fuel ih =>
    rw [combLoop, gi_some (show j < c.length by omega), gi_some (show j + 1 < c.length by omega)]
    dsimp only
    by_cases h : gi c j + 1 = gi c (j + 1)
    · rw [if_pos h]
      have hjt : j ≠ t + 1 := by rintro rfl; exact hlast h
      have hs : ∀ i, gi (c.set j ((j : Int) - 1)) i = if i = j then (j : Int) - 1 else gi c i :=
        fun i => gi_set (by omega)
      obtain ⟨c', j', e, g1, g2, g3, g4, g5, g6⟩ := ih (c.set j ((j : Int) - 1)) (by simpa using hlen) (by
        rw [hs, hs, if_neg (by omega), if_neg (by omega)]; exact hlast) (j + 1) (by omega) (by omega)
      refine ⟨c', j', e, by omega, g2, by simpa using g3, fun i => ?_, fun i a b => ?_, ?_⟩
      · rw [g4, hs]
        by_cases c1 : i = j
        · rw [if_neg (by omega), if_pos c1, if_pos (by omega), c1]
        · by_cases c2 : j ≤ i ∧ i < j'
          · rw [if_pos (by omega), if_pos c2]
          · rw [if_neg (by omega), if_neg c2, if_neg c1]
      · by_cases c1 : i = j
        · rw [c1]; exact h
        · have := g5 i (by omega) b
          rwa [hs, hs, if_neg c1, if_neg (by omega)] at this
      · rwa [hs, hs, if_neg (by omega), if_neg (by omega)] at g6
    · rw [if_neg h]
      refine ⟨c, j, rfl, le_rfl, hj, rfl, fun i => ?_, fun i a b => by omega, h⟩
      rw [if_neg (by omega)]

/-- The invariant of `combinations`. -/
def CombGood (n : Int) (t : Nat) (c : List Int) : Prop :=
  c.length = t + 3 ∧ gi c (t + 1) = n ∧ gi c (t + 2) = 0 ∧ 0 ≤ gi c 1 ∧
    ∀ i, 1 ≤ i → i ≤ t → gi c i < gi c (i + 1)

/-- The lists `combinations(n, t)` should yield. -/
def CombSet (n : Int) (t : Nat) : Set (List Int) :=
  {d | d.length = t ∧ d.Pairwise (· > ·) ∧ ∀ x ∈ d, 0 ≤ x ∧ x < n}

theorem finite_combSet (n : Int) (t : Nat) : (CombSet n t).Finite := by
  apply (finite_forall₂ (List.replicate t n)).subset
  rintro d ⟨h1, -, h3⟩
  simp only [Set.mem_setOf_eq]
  induction d generalizing t with
  | nil => subst h1; simp
  | cons a d ih =>
    subst h1
    rw [List.length_cons, List.replicate_succ, List.forall₂_cons]
    exact ⟨h3 a List.mem_cons_self, ih _ rfl (fun x hx => h3 x (List.mem_cons_of_mem _ hx))⟩

theorem lt_of_steps {c : List Int} {b : Nat} (h : ∀ i, 1 ≤ i → i ≤ b → gi c i < gi c (i + 1)) :
    ∀ i k, 1 ≤ i → i < k → k ≤ b + 1 → gi c i < gi c k := by
  intro i k hi hik hk
  induction k with
  | zero => omega
  | succ k ih =>
    rcases Nat.lt_succ_iff_lt_or_eq.1 hik with h1 | rfl
    · exact (ih h1 (by omega)).trans (h k (by omega) (by omega))
    · exact h i hi (by omega)

theorem dl_mem_combSet {n : Int} {t : Nat} {c : List Int} (h : CombGood n t c) : dl c t ∈ CombSet n t := by
  obtain ⟨h1, h2, h3, h4, h5⟩ := h
  have hlt := lt_of_steps h5
  refine ⟨length_dl c t, ?_, ?_⟩
  · have : ∀ k, k ≤ t → (dl c k).Pairwise (· > ·) := by
      intro k
      induction k with
      | zero => intro _; simp [dl]
      | succ k ih =>
        intro hk
        rw [dl, List.pairwise_cons]
        refine ⟨?_, ih (by omega)⟩
        intro x hx
        obtain ⟨i, i1, i2, rfl⟩ := mem_dl.1 hx
        exact hlt i (k + 1) i1 (by omega) (by omega)
    exact this t le_rfl
  · intro x hx
    obtain ⟨i, i1, i2, rfl⟩ := mem_dl.1 hx
    constructor
    · by_cases e : i = 1
      · rw [e]; exact h4
      · exact h4.trans (hlt 1 i le_rfl (by omega) (by omega)).le
    · rw [← h2]; exact hlt i (t + 1) i1 (by omega) le_rfl

theorem length_le_of_desc {d : List Int} (hd : d.Pairwise (· > ·)) {x : Int} (h : ∀ y ∈ d, 0 ≤ y ∧ y < x) (hx : 0 ≤ x) :
    (d.length : Int) ≤ x := by
  induction d generalizing x with
  | nil => simpa using hx
  | cons a d ih =>
    have ha := h a List.mem_cons_self
    have := ih (List.pairwise_cons.1 hd).2 (x := a) (fun y hy =>
      ⟨(h y (List.mem_cons_of_mem _ hy)).1, (List.pairwise_cons.1 hd).1 y hy⟩) ha.1
    rw [List.length_cons]
    push_cast
    omega

/-- `[k-1, ..., 0]` is the smallest decreasing list of length `k`. -/
theorem dl_min {c : List Int} (k : Nat) (hc : ∀ i, 1 ≤ i → i ≤ k → gi c i = (i : Int) - 1) {d : List Int}
    (hl : d.length = k) (hd : d.Pairwise (· > ·)) (h0 : ∀ x ∈ d, 0 ≤ x) : dl c k ≤ d := by
  induction k generalizing d with
  | zero => exact nil_le _
  | succ k ih =>
    cases d with
    | nil => simp at hl
    | cons a d =>
      rw [dl]
      have hp := List.pairwise_cons.1 hd
      have h1 := length_le_of_desc (x := a) hp.2 (fun y hy => ⟨h0 y (List.mem_cons_of_mem _ hy), hp.1 y hy⟩)
        (h0 a List.mem_cons_self)
      have hl' : d.length = k := by simpa using hl
      rw [hl'] at h1
      have h2 := hc (k + 1) (by omega) le_rfl
      push_cast at h2
      rcases lt_or_eq_of_le (show gi c (k + 1) ≤ a by omega) with h | h
      · exact cons_le_cons.2 (Or.inl h)
      · exact cons_le_cons.2 (Or.inr ⟨h, ih (fun i a b => hc i a (by omega)) hl' hp.2
          (fun y hy => h0 y (List.mem_cons_of_mem _ hy))⟩)

/-- A run of consecutive entries is the largest decreasing list below the next entry. -/
theorem dl_max {c : List Int} (k : Nat) (hc : ∀ i, 1 ≤ i → i ≤ k → gi c i + 1 = gi c (i + 1)) {d : List Int}
    (hl : d.length = k) (hd : d.Pairwise (· > ·)) (h0 : ∀ x ∈ d, x < gi c (k + 1)) : d ≤ dl c k := by
  induction k generalizing d with
  | zero => rw [List.length_eq_zero_iff.1 hl]; exact nil_le _
  | succ k ih =>
    cases d with
    | nil => simp at hl
    | cons a d =>
      rw [dl]
      have hp := List.pairwise_cons.1 hd
      have h1 := h0 a List.mem_cons_self
      have h2 := hc (k + 1) (by omega) le_rfl
      rcases lt_or_eq_of_le (show a ≤ gi c (k + 1) by omega) with h | h
      · exact cons_le_cons.2 (Or.inl h)
      · exact cons_le_cons.2 (Or.inr ⟨h, ih (fun i a b => hc i a (by omega)) (by simpa using hl) hp.2
          (fun y hy => h ▸ hp.1 y hy)⟩)

theorem dl_succ {c c' : List Int} {j : Nat} (hj : 1 ≤ j)
    (hrun : ∀ i, 1 ≤ i → i < j → gi c i + 1 = gi c (i + 1))
    (hc' : ∀ i, 1 ≤ i → gi c' i = if i < j then (i : Int) - 1 else if i = j then gi c j + 1 else gi c i)
    (k : Nat) (hk : j ≤ k) {d : List Int} (hl : d.length = k) (hd : d.Pairwise (· > ·))
    (h0 : ∀ x ∈ d, 0 ≤ x) (hlt : dl c k < d) : dl c' k ≤ d := by
  induction k generalizing d with
  | zero => omega
  | succ k ih =>
    cases d with
    | nil => simp at hl
    | cons a d =>
      rw [dl] at hlt ⊢
      have hp := List.pairwise_cons.1 hd
      have hl' : d.length = k := by simpa using hl
      rcases Nat.eq_or_lt_of_le hk with e | e
      · rw [hc' (k + 1) (by omega), if_neg (by omega), if_pos e.symm]
        rcases cons_lt_cons.1 hlt with h | ⟨h, h'⟩
        · rw [← e] at h
          rcases lt_or_eq_of_le (show gi c j + 1 ≤ a by omega) with h | h
          · exact cons_le_cons.2 (Or.inl h)
          · refine cons_le_cons.2 (Or.inr ⟨h, dl_min k (fun i a b => ?_) hl' hp.2
              (fun y hy => h0 y (List.mem_cons_of_mem _ hy))⟩)
            rw [hc' i a, if_pos (by omega)]
        · exact absurd (dl_max (c := c) k (fun i a b => hrun i a (by omega)) hl' hp.2
            (fun y hy => h ▸ hp.1 y hy)) (not_le.2 h')
      · rw [hc' (k + 1) (by omega), if_neg (by omega), if_neg (by omega)]
        rcases cons_lt_cons.1 hlt with h | ⟨h, h'⟩
        · exact cons_le_cons.2 (Or.inl h)
        · exact cons_le_cons.2 (Or.inr ⟨h, ih (by omega) hl' hp.2
            (fun y hy => h0 y (List.mem_cons_of_mem _ hy)) h'⟩)

theorem dl_lt {c c' : List Int} {j : Nat} (hj : 1 ≤ j)
    (hc' : ∀ i, j ≤ i → gi c' i = if i = j then gi c j + 1 else gi c i) (k : Nat) (hk : j ≤ k) :
    dl c k < dl c' k := by
  induction k with
  | zero => omega
  | succ k ih =>
    rw [dl, dl, hc' (k + 1) hk]
    rcases Nat.eq_or_lt_of_le hk with e | e
    · rw [if_pos e.symm, ← e]
      exact cons_lt_cons.2 (Or.inl (by omega))
    · rw [if_neg (by omega)]
      exact cons_lt_cons.2 (Or.inr ⟨rfl, ih (by omega)⟩)

theorem combStep_spec {n : Int} (hn : 0 ≤ n) {t : Nat} {c : List Int} (h : CombGood n t c) :
    (∃ c', combStep t c = .next c' ∧ CombGood n t c' ∧ dl c t < dl c' t ∧
      ∀ d ∈ CombSet n t, dl c t < d → dl c' t ≤ d) ∨
    (combStep t c = .stop ∧ ∀ d ∈ CombSet n t, d ≤ dl c t) := by
  obtain ⟨h1, h2, h3, h4, h5⟩ := h
  obtain ⟨c1, j, e, g1, g2, g3, g4, g5, g6⟩ := combLoop_spec c t h1 (by rw [h2, h3]; omega) c.length 1
    (by omega) (by omega)
  rw [combStep, e]
  dsimp only
  by_cases hj : j > t
  · right
    rw [if_pos hj]
    refine ⟨rfl, fun d hd => dl_max t (fun i a b => g5 i a (by omega)) hd.1 hd.2.1 (fun x hx => ?_)⟩
    rw [h2]; exact (hd.2.2 x hx).2
  · left
    rw [if_neg hj]
    have hc' : ∀ i, 1 ≤ i → gi (c1.modify j (· + 1)) i
        = if i < j then (i : Int) - 1 else if i = j then gi c j + 1 else gi c i := by
      intro i hi
      rw [gi_modify (by omega), g4]
      by_cases c1 : i = j
      · rw [if_pos c1, if_neg (by omega), if_neg (by omega), if_pos c1, c1]
      · rw [if_neg c1]
        by_cases c2 : i < j
        · rw [if_pos (by omega), if_pos c2]
        · rw [if_neg (by omega), if_neg c2, if_neg c1]
    refine ⟨_, rfl, ⟨by simp [g3, h1], ?_, ?_, ?_, ?_⟩, ?_, ?_⟩
    · rw [hc' _ (by omega), if_neg (by omega), if_neg (by omega), h2]
    · rw [hc' _ (by omega), if_neg (by omega), if_neg (by omega), h3]
    · rw [hc' _ le_rfl]
      by_cases a : 1 < j
      · rw [if_pos a]; simp
      · rw [if_neg a, if_pos (by omega), show j = 1 by omega]; omega
    · intro i i1 i2
      have hst := h5 i i1 i2
      rw [hc' i i1, hc' (i + 1) (by omega)]
      by_cases a : i < j
      · rw [if_pos a]
        by_cases b : i + 1 < j
        · rw [if_pos b]; push_cast; omega
        · rw [if_neg b, if_pos (by omega)]
          have hb : (i : Int) ≤ gi c j := by
            have hge : ∀ k, 1 ≤ k → k ≤ j → (k : Int) - 1 ≤ gi c k := by
              intro k k1 k2
              induction k with
              | zero => omega
              | succ k ihk =>
                by_cases z : k = 0
                · subst z; simpa using h4
                · have := ihk (by omega) (by omega)
                  have := h5 k (by omega) (by omega)
                  push_cast; omega
            have := hge j g1 le_rfl
            omega
          omega
      · rw [if_neg a]
        by_cases b : i = j
        · rw [if_pos b, if_neg (by omega), if_neg (by omega), b]
          have : gi c j < gi c (j + 1) := b ▸ hst
          omega
        · rw [if_neg b, if_neg (by omega), if_neg (by omega)]
          exact hst
    · refine dl_lt g1 (fun i hi => ?_) t (by omega)
      rw [hc' i (by omega), if_neg (by omega)]
    · intro d hd hlt
      exact dl_succ g1 (fun i a b => g5 i a b) hc' t (by omega) hd.1 hd.2.1 (fun x hx => (hd.2.2 x hx).1) hlt

theorem run_comb {n : Int} (hn : 0 ≤ n) {t : Nat} {c : List Int} (hc : CombGood n t c) :
    ∃ L, run (combStep t) (combOut t) c = some (L, none) ∧ L.Pairwise (· < ·) ∧
      ∀ d, d ∈ L ↔ d ∈ CombSet n t ∧ dl c t ≤ d := by
  have hout : ∀ c, CombGood n t c → combOut t c = dl c t := fun c h => combOut_eq (by have := h.1; omega)
  obtain ⟨L, h1, h2, h3⟩ := run_enum (step := combStep t) (out := combOut t) (CombSet n t)
    (finite_combSet n t) (CombGood n t) (fun s h => by rw [hout s h]; exact dl_mem_combSet h)
    (fun s s' hs hst => by
      rcases combStep_spec hn hs with ⟨s'', e, g1, g2, g3⟩ | ⟨e, -⟩
      · rw [e] at hst
        simp only [Step.next.injEq] at hst
        subst hst
        rw [hout _ hs, hout _ g1]
        refine ⟨g1, g2, fun d hd hlt => ?_⟩
        rcases lt_or_eq_of_le (g3 d hd hlt) with h | h
        · exact Or.inr h
        · exact Or.inl h.symm
      · rw [e] at hst; simp at hst)
    (fun s hs hst d hd hlt => by
      rcases combStep_spec hn hs with ⟨s'', e, -⟩ | ⟨e, g⟩
      · rw [e] at hst; simp at hst
      · rw [hout _ hs] at hlt
        exact absurd hlt (not_lt.2 (g d hd)))
    (fun s e hs hst => by
      rcases combStep_spec hn hs with ⟨s'', e, -⟩ | ⟨e, g⟩
      · rw [e] at hst; simp at hst
      · rw [e] at hst; simp at hst) c hc
  refine ⟨L, h1, h2, fun d => ?_⟩
  rw [h3 d, hout _ hc, le_iff_eq_or_lt, eq_comm]

theorem gi_combInit (n : Int) (t i : Nat) : gi (combInit n t) i =
    if i = 0 then 0 else if i ≤ t then (i : Int) - 1 else if i = t + 1 then n else 0 := by
  rw [gi, combInit]
  rcases i with _ | i
  · simp
  · rw [List.getD_cons_succ, if_neg (by omega)]
    by_cases h : i + 1 ≤ t
    · rw [if_pos h, List.getD_eq_getElem?_getD, List.getElem?_append_left (by simp; omega)]
      simp [List.getElem?_range (show i < t by omega)]
    · rw [if_neg h, List.getD_eq_getElem?_getD, List.getElem?_append_right (by simp; omega)]
      simp only [List.length_map, List.length_range]
      by_cases h2 : i + 1 = t + 1
      · rw [if_pos h2, show i - t = 0 by omega]; rfl
      · rw [if_neg h2]
        obtain ⟨k, hk⟩ : ∃ k, i - t = k + 1 := ⟨i - t - 1, by omega⟩
        rw [hk]
        rcases k with _ | k <;> simp

theorem combGood_init {n : Int} {t : Nat} (h : (t : Int) ≤ n) : CombGood n t (combInit n t) := by
  refine ⟨by simp [combInit], ?_, ?_, ?_, ?_⟩
  · rw [gi_combInit, if_neg (by omega), if_neg (by omega), if_pos rfl]
  · rw [gi_combInit, if_neg (by omega), if_neg (by omega), if_neg (by omega)]
  · rw [gi_combInit, if_neg (by omega)]
    split_ifs <;> omega
  · intro i i1 i2
    rw [gi_combInit, gi_combInit, if_neg (show i ≠ 0 by omega), if_pos i2, if_neg (show i + 1 ≠ 0 by omega)]
    by_cases e : i + 1 ≤ t
    · rw [if_pos e]; push_cast; omega
    · rw [if_neg e, if_pos (by omega)]; omega

/-- A generator whose step always goes on never stops. -/
theorem run_none {σ β : Type} {step : σ → Step σ} {out : σ → β} (Inv : σ → Prop)
    (h : ∀ s, Inv s → ∃ s', step s = .next s' ∧ Inv s') {s : σ} (hs : Inv s) : run step out s = none := by
  have key := run.partial_correctness step out (motive := fun s _ => ¬ Inv s) (by
    intro run' ih s r hr hinv
    obtain ⟨s', e, hi⟩ := h s hinv
    rw [e] at hr
    dsimp only at hr
    cases hr' : run' s' with
    | none => rw [hr'] at hr; simp at hr
    | some r' => exact ih s' r' hr' hi)
  cases hr : run step out s with
  | none => rfl
  | some r => exact absurd hs (key s r hr)

/-- With more elements to choose than there are, `combinations` never stops. -/
theorem run_comb_none {n : Int} {t : Nat} (hn : 0 ≤ n) (h : n < t) :
    run (combStep t) (combOut t) (combInit n t) = none := by
  apply run_none (fun c => c.length = t + 3 ∧ gi c (t + 1) = n ∧ gi c (t + 2) = 0 ∧ n ≤ gi c t)
  · rintro c ⟨h1, h2, h3, h4⟩
    obtain ⟨c1, j, e, g1, g2, g3, g4, g5, g6⟩ := combLoop_spec c t h1 (by rw [h2, h3]; omega) c.length 1
      (by omega) (by omega)
    have hj : j ≤ t := by
      by_contra hc
      have := g5 t (by omega) (by omega)
      rw [h2] at this
      omega
    refine ⟨_, by rw [combStep, e]; dsimp only; rw [if_neg (by omega)], by simp [g3, h1], ?_, ?_, ?_⟩
    · rw [gi_modify (by omega), if_neg (by omega), g4, if_neg (by omega), h2]
    · rw [gi_modify (by omega), if_neg (by omega), g4, if_neg (by omega), h3]
    · rw [gi_modify (by omega), g4, if_neg (show ¬ (1 ≤ t ∧ t < j) by omega)]
      split_ifs <;> omega
  · refine ⟨by simp [combInit], ?_, ?_, ?_⟩
    · rw [gi_combInit, if_neg (by omega), if_neg (by omega), if_pos rfl]
    · rw [gi_combInit, if_neg (by omega), if_neg (by omega), if_neg (by omega)]
    · rw [gi_combInit, if_neg (by omega), if_pos le_rfl]; omega

end Rosemary.Generation
