import Verif.Model.Partitions
import Verif.Lemmas.Combinations
import Mathlib.Algebra.BigOperators.Group.List.Basic
import Mathlib.Algebra.Order.BigOperators.Group.List
import Mathlib.Tactic.Ring

/-!
# The steps of `integer_partitions`
-/

namespace Rosemary.Partitions

open Rosemary.Gen Rosemary.Lex Rosemary.Generation

/-- A partition of `n` written with nonincreasing parts. -/
def IsPart (n : Int) (t : List Int) : Prop := t.Pairwise (· ≥ ·) ∧ (∀ x ∈ t, 1 ≤ x) ∧ t.sum = n

theorem length_le_sum {t : List Int} (h : ∀ x ∈ t, 1 ≤ x) : (t.length : Int) ≤ t.sum := by
  induction t with
  | nil => simp
  | cons a t ih =>
    have h1 := ih (fun x hx => h x (List.mem_cons_of_mem _ hx))
    have h2 := h a List.mem_cons_self
    simp only [List.length_cons, List.sum_cons]
    push_cast
    omega

theorem le_sum_of_mem {t : List Int} (h : ∀ x ∈ t, 1 ≤ x) {x : Int} (hx : x ∈ t) : x ≤ t.sum := by
  induction t with
  | nil => simp at hx
  | cons a t ih =>
    have h1 := length_le_sum (fun x hx => h x (List.mem_cons_of_mem a hx))
    have h2 := h a List.mem_cons_self
    rw [List.sum_cons]
    rcases List.mem_cons.1 hx with rfl | hx
    · omega
    · have := ih (fun x hx => h x (List.mem_cons_of_mem _ hx)) hx
      omega

theorem finite_isPart (n : Int) : {t | IsPart n t}.Finite := by
  have : {t | IsPart n t} ⊆ ⋃ l ∈ Finset.range (n.toNat + 1),
      {t : List Int | List.Forall₂ (fun a m => 0 ≤ a ∧ a < m) t (List.replicate l (n + 1))} := by
    rintro t ⟨-, h2, h3⟩
    simp only [Set.mem_iUnion, Finset.mem_range, Set.mem_setOf_eq]
    have hl := length_le_sum h2
    refine ⟨t.length, by omega, ?_⟩
    have hx : ∀ x ∈ t, 0 ≤ x ∧ x < n + 1 := fun x hx => by
      have := le_sum_of_mem h2 hx
      have := h2 x hx
      omega
    clear h2 h3 hl
    induction t with
    | nil => simp
    | cons a t ih =>
      rw [List.length_cons, List.replicate_succ, List.forall₂_cons]
      exact ⟨hx a List.mem_cons_self, ih (fun x h => hx x (List.mem_cons_of_mem _ h))⟩
  exact (Set.Finite.biUnion (Finset.finite_toSet _) (fun l _ => finite_forall₂ _)).subset this

/-! ### Algorithm P -/

theorem greedy_max (q : Nat) {r m : Int} (hm : 1 ≤ m) {t : List Int}
    (h1 : ∀ x ∈ t, 1 ≤ x) (hr : ∀ x ∈ t, x ≤ r) (hs : t.sum = q * r + m) :
    t ≤ List.replicate q r ++ [m] := by
  induction q generalizing t with
  | zero =>
    cases t with
    | nil => exact nil_le _
    | cons c t =>
      simp only [List.sum_cons] at hs
      have hl := length_le_sum (fun x hx => h1 x (List.mem_cons_of_mem c hx))
      rw [List.replicate_zero, List.nil_append]
      rcases lt_or_eq_of_le (show c ≤ m by simp at hs; omega) with h | h
      · exact cons_le_cons.2 (Or.inl h)
      · have : t = [] := List.length_eq_zero_iff.1 (by simp at hs; omega)
        rw [this, h]
  | succ q ih =>
    cases t with
    | nil => exact nil_le _
    | cons c t =>
      rw [List.replicate_succ, List.cons_append]
      rcases lt_or_eq_of_le (hr c List.mem_cons_self) with h | h
      · exact cons_le_cons.2 (Or.inl h)
      · refine cons_le_cons.2 (Or.inr ⟨h, ih (fun x hx => h1 x (List.mem_cons_of_mem _ hx))
          (fun x hx => hr x (List.mem_cons_of_mem _ hx)) ?_⟩)
        rw [List.sum_cons, h] at hs
        push_cast at hs
        linarith

theorem ones_min (k : Nat) {t : List Int} (h1 : ∀ x ∈ t, 1 ≤ x) (hs : t.sum = k) :
    List.replicate k 1 ≤ t := by
  induction k generalizing t with
  | zero => exact nil_le _
  | succ k ih =>
    cases t with
    | nil => simp at hs; omega
    | cons c t =>
      rw [List.replicate_succ]
      rcases lt_or_eq_of_le (h1 c List.mem_cons_self) with h | h
      · exact cons_le_cons.2 (Or.inl h)
      · refine cons_le_cons.2 (Or.inr ⟨h, ih (fun x hx => h1 x (List.mem_cons_of_mem _ hx)) ?_⟩)
        rw [List.sum_cons, ← h] at hs
        push_cast at hs
        linarith

theorem pFill_spec (r : Int) (hr : 1 ≤ r) (p : List Int) (last : Nat) (n : Int) (hn : 1 ≤ n)
    (hb : (last : Int) + n ≤ p.length) :
    ∃ p' m, ∃ q : Nat, pFill r p last n = .ok (p', last + q, m) ∧
      p'.take (last + q) = p.take last ++ List.replicate q r ∧ p'.length = p.length ∧
      1 ≤ m ∧ m ≤ r ∧ n = q * r + m ∧ last + q < p.length := by
  fun_induction pFill r p last n with
  | case1 p last n h1 h2 ih =>
    obtain ⟨p', m, q, e1, e2, e3, e4, e5, e6, e7⟩ := ih (by omega) (by simp; omega)
    refine ⟨p', m, q + 1, by rw [e1, show last + 1 + q = last + (q + 1) by omega], ?_, by simpa using e3,
      e4, e5, by push_cast; linarith, by simp at e7; omega⟩
    rw [show last + (q + 1) = last + 1 + q by omega, e2, List.take_succ_eq_append_getElem (by simp; omega),
      List.getElem_set_self, List.take_set_of_le (le_refl _), List.replicate_succ]
    simp
  | case2 p last n h1 h2 => omega
  | case3 p last n h1 =>
    exact ⟨p, n, 0, rfl, by simp, rfl, hn, by omega, by simp, by simp; omega⟩

/-- The invariant of `algorithm_p`: parts above 1, then ones. -/
def PGood (n : Nat) (s : PState) : Prop :=
  ∃ (u : List Int) (k : Nat), pOut s = u ++ List.replicate k 1 ∧ (∀ x ∈ u, 2 ≤ x) ∧
    u.Pairwise (· ≥ ·) ∧ u.sum + k = n ∧ s.idx = (u.length : Int) - 1 ∧ s.last + 1 = u.length + k ∧
    s.part.length = n

theorem isPart_of_good {n : Nat} {s : PState} (h : PGood n s) : IsPart n (pOut s) := by
  obtain ⟨u, k, h1, h2, h3, h4, -, -, -⟩ := h
  rw [h1]
  refine ⟨?_, ?_, ?_⟩
  · rw [List.pairwise_append]
    refine ⟨h3, ?_, ?_⟩
    · exact List.pairwise_replicate.2 (Or.inr le_rfl)
    · intro a ha b hb
      rw [List.eq_of_mem_replicate hb]
      exact (by norm_num : (1 : Int) ≤ 2).trans (h2 a ha)
  · intro x hx
    rcases List.mem_append.1 hx with hx | hx
    · exact (by norm_num : (1 : Int) ≤ 2).trans (h2 x hx)
    · rw [List.eq_of_mem_replicate hx]
  · rw [List.sum_append, List.sum_replicate]
    simpa using h4

theorem getElem?_of_take {l : List Int} {i k : Nat} (h : i < k) : (l.take k)[i]? = l[i]? := by
  rw [List.getElem?_take, if_pos h]

/-- The step in terms of the list that is yielded. -/
theorem pStep_out {n : Nat} {s : PState} (h : PGood n s) {w : List Int} {x : Int} {k : Nat}
    (hout : pOut s = (w ++ [x]) ++ List.replicate k 1) (h2 : ∀ y ∈ w ++ [x], 2 ≤ y)
    (hpw : (w ++ [x]).Pairwise (· ≥ ·))
    (hsum : (w ++ [x]).sum + k = n) (hidx : s.idx = ((w ++ [x]).length : Int) - 1)
    (hlast : s.last + 1 = (w ++ [x]).length + k) (hlen : s.part.length = n) :
    ∃ s' m, ∃ q : Nat, pStep s = .next s' ∧ pOut s' = w ++ (x - 1) :: (List.replicate q (x - 1) ++ [m]) ∧
      1 ≤ m ∧ m ≤ x - 1 ∧ (k : Int) + 1 = q * (x - 1) + m ∧ PGood n s' := by
  have hxge : 2 ≤ x := h2 x (by simp)
  have hwx : ∀ y ∈ w, x ≤ y := fun y hy => (List.pairwise_append.1 hpw).2.2 y hy x (by simp)
  have hwl : (w.length : Int) ≤ w.sum := length_le_sum (fun y hy => by have := hwx y hy; omega)
  rw [List.sum_append, List.sum_singleton] at hsum
  rw [List.length_append, List.length_singleton] at hidx hlast
  have hidx' : s.idx = w.length := by push_cast at hidx; omega
  have hget : s.part[w.length]? = some x := by
    have : (pOut s)[w.length]? = some x := by
      rw [hout, List.append_assoc, List.getElem?_append_right le_rfl]
      simp
    rwa [pOut, getElem?_of_take (by omega)] at this
  have htake : s.part.take w.length = w := by
    have h1 : (pOut s).take w.length = w := by
      rw [hout, List.append_assoc, List.take_left']
      rfl
    rw [pOut, List.take_take, Nat.min_eq_left (by omega)] at h1
    exact h1
  have htoNat : s.idx.toNat = w.length := by omega
  rw [pStep, if_neg (by omega), htoNat]
  dsimp only
  rw [hget]
  dsimp only
  by_cases hx2 : x = 2
  · rw [if_pos hx2]
    have hb : s.last + 1 < s.part.length := by omega
    rw [if_pos (by simpa using hb)]
    have hmid : (s.part.set w.length 1).take (s.last + 1) = w ++ List.replicate (k + 1) 1 := by
      have e : s.part.take (s.last + 1) = w ++ x :: List.replicate k 1 := by
        have := hout; rw [pOut] at this; rw [this]; simp
      rw [List.take_set, e, List.set_append_right _ _ le_rfl, Nat.sub_self, List.set_cons_zero]
      rfl
    have hnew : pOut ⟨(s.part.set w.length 1).set (s.last + 1) 1, s.last + 1, s.idx - 1⟩
        = w ++ List.replicate (k + 2) 1 := by
      rw [pOut]
      dsimp only
      rw [List.take_succ_eq_append_getElem (by simpa using hb), List.getElem_set_self,
        List.take_set_of_le (le_refl _), hmid, List.append_assoc, List.replicate_succ' (n := k + 1)]
    refine ⟨_, 1, k, rfl, ?_, le_rfl, by omega, by rw [hx2]; ring, ?_⟩
    · rw [hnew, hx2]
      have : List.replicate (k + 2) (1 : Int) = 1 :: (List.replicate k 1 ++ [1]) := by
        rw [← List.replicate_succ', ← List.replicate_succ]
      rw [this]
      norm_num
    · refine ⟨w, k + 2, hnew, fun y hy => by have := hwx y hy; omega, (List.pairwise_append.1 hpw).1, ?_, ?_, ?_, ?_⟩
      · push_cast; omega
      · dsimp only; omega
      · dsimp only; omega
      · simpa using hlen
  · rw [if_neg hx2]
    have hlk : (s.last : Int) - w.length + 1 = k + 1 := by omega
    have hwb : w.length < s.part.length := by omega
    obtain ⟨p', m, q, e1, e2, e3, e4, e5, e6, e7⟩ := pFill_spec (x - 1) (by omega) (s.part.set w.length (x - 1))
      (w.length + 1) ((s.last : Int) - w.length + 1) (by omega) (by simp; omega)
    rw [e1]
    dsimp only
    have e7' : w.length + 1 + q < p'.length := by rw [e3]; exact e7
    rw [if_pos e7']
    have ht1 : (s.part.set w.length (x - 1)).take (w.length + 1) = w ++ [x - 1] := by
      rw [List.take_succ_eq_append_getElem (by simpa using hwb), List.getElem_set_self,
        List.take_set_of_le (le_refl _), htake]
    have hnew : ∀ i, pOut ⟨p'.set (w.length + 1 + q) m, w.length + 1 + q, i⟩
        = w ++ (x - 1) :: (List.replicate q (x - 1) ++ [m]) := by
      intro i
      rw [pOut]
      dsimp only
      rw [List.take_succ_eq_append_getElem (by simpa using e7'), List.getElem_set_self,
        List.take_set_of_le (le_refl _), e2, ht1]
      simp
    have hsumq : (k : Int) + 1 = q * (x - 1) + m := by rw [← hlk]; exact e6
    refine ⟨_, m, q, rfl, hnew _, e4, e5, hsumq, ?_⟩
    have hpw1 : (w ++ (x - 1) :: List.replicate q (x - 1)).Pairwise (· ≥ ·) := by
      rw [← List.replicate_succ, List.pairwise_append]
      refine ⟨(List.pairwise_append.1 hpw).1, List.pairwise_replicate.2 (Or.inr le_rfl), ?_⟩
      intro a ha b hb
      rw [List.eq_of_mem_replicate hb]
      have := hwx a ha
      show x - 1 ≤ a
      omega
    have hall : ∀ y ∈ w ++ (x - 1) :: List.replicate q (x - 1), x - 1 ≤ y := by
      intro y hy
      rw [← List.replicate_succ] at hy
      rcases List.mem_append.1 hy with hy | hy
      · have := hwx y hy; omega
      · rw [List.eq_of_mem_replicate hy]
    have hs1 : (w ++ (x - 1) :: List.replicate q (x - 1)).sum = w.sum + (x - 1) + q * (x - 1) := by
      rw [List.sum_append, List.sum_cons, List.sum_replicate]; simp; ring
    by_cases hm : m = 1
    · rw [if_pos hm]
      refine ⟨w ++ (x - 1) :: List.replicate q (x - 1), 1, ?_, fun y hy => by have := hall y hy; omega, hpw1,
        ?_, ?_, ?_, by simp [e3, hlen]⟩
      · rw [hnew, hm]; simp
      · rw [hs1]; push_cast; linarith
      · simp; omega
      · simp; omega
    · rw [if_neg hm]
      refine ⟨w ++ (x - 1) :: List.replicate q (x - 1) ++ [m], 0, ?_, ?_, ?_, ?_, ?_, ?_, by simp [e3, hlen]⟩
      · rw [hnew]; simp
      · intro y hy
        rcases List.mem_append.1 hy with hy | hy
        · have := hall y hy; omega
        · rw [List.mem_singleton.1 hy]; omega
      · rw [List.pairwise_append]
        refine ⟨hpw1, by simp, ?_⟩
        intro a ha b hb
        rw [List.mem_singleton.1 hb]
        exact e5.trans (hall a ha)
      · rw [List.sum_append, hs1]; simp; linarith
      · simp; omega
      · simp; omega

/-- What precedes `w ++ [x] ++ 1...1` in the order. -/
theorem p_succ (w : List Int) {x m : Int} {k q : Nat} (hm : 1 ≤ m) (hk : (k : Int) + 1 = q * (x - 1) + m)
    {t : List Int} (h1 : ∀ y ∈ t, 1 ≤ y) (hpw : t.Pairwise (· ≥ ·)) (hs : t.sum = w.sum + x + k)
    (hlt : t < (w ++ [x]) ++ List.replicate k 1) :
    t ≤ w ++ (x - 1) :: (List.replicate q (x - 1) ++ [m]) := by
  induction w generalizing t with
  | nil =>
    cases t with
    | nil => exact nil_le _
    | cons c t =>
      rw [List.nil_append, List.singleton_append] at hlt
      rw [List.nil_append]
      simp only [List.sum_cons, List.sum_nil] at hs
      rcases cons_lt_cons.1 hlt with h | ⟨rfl, h⟩
      · rcases lt_or_eq_of_le (show c ≤ x - 1 by omega) with h | h
        · exact cons_le_cons.2 (Or.inl h)
        · refine cons_le_cons.2 (Or.inr ⟨h, greedy_max q hm (fun y hy => h1 y (List.mem_cons_of_mem _ hy))
            (fun y hy => h ▸ (List.pairwise_cons.1 hpw).1 y hy) ?_⟩)
          linarith
      · exact absurd (ones_min k (fun y hy => h1 y (List.mem_cons_of_mem _ hy)) (by linarith)) (not_le.2 h)
  | cons a w ih =>
    cases t with
    | nil => exact nil_le _
    | cons c t =>
      simp only [List.cons_append] at hlt ⊢
      simp only [List.sum_cons] at hs
      rcases cons_lt_cons.1 hlt with h | ⟨rfl, h⟩
      · exact cons_le_cons.2 (Or.inl h)
      · exact cons_le_cons.2 (Or.inr ⟨rfl, ih (fun y hy => h1 y (List.mem_cons_of_mem _ hy))
          (List.pairwise_cons.1 hpw).2 (by linarith) h⟩)

theorem pStep_spec {n : Nat} {s : PState} (h : PGood n s) :
    (∃ s', pStep s = .next s' ∧ PGood n s' ∧ pOut s > pOut s' ∧
      ∀ t, IsPart n t → pOut s > t → pOut s' ≥ t) ∨
    (pStep s = .stop ∧ ∀ t, IsPart n t → pOut s ≤ t) := by
  have hh := h
  obtain ⟨u, k, h1, h2, h3, h4, h5, h6, h7⟩ := h
  rcases List.eq_nil_or_concat u with rfl | ⟨w, x, rfl⟩
  · right
    refine ⟨by rw [pStep, if_pos (by simp at h5; omega)], fun t ht => ?_⟩
    rw [h1, List.nil_append]
    refine ones_min k ht.2.1 ?_
    rw [ht.2.2]; simp at h4; omega
  · left
    rw [List.concat_eq_append] at *
    obtain ⟨s', m, q, e1, e2, e3, e4, e5, e6⟩ := pStep_out hh h1 h2 h3 h4 h5 h6 h7
    refine ⟨s', e1, e6, ?_, fun t ht hlt => ?_⟩
    · rw [h1, e2, List.append_assoc]
      show _ < _
      rw [append_lt_append_left]
      exact cons_lt_cons.2 (Or.inl (by omega))
    · rw [e2]
      refine p_succ w e3 e5 ht.2.1 ht.1 ?_ (by rw [← h1]; exact hlt)
      rw [ht.2.2]
      rw [List.sum_append, List.sum_singleton] at h4
      omega

theorem run_p {n : Nat} {s : PState} (hs : PGood n s) :
    ∃ L, run pStep pOut s = some (L, none) ∧ L.Pairwise (· > ·) ∧
      ∀ t, t ∈ L ↔ IsPart n t ∧ t ≤ pOut s := by
  obtain ⟨L, h1, h2, h3⟩ := run_enum_rel (step := pStep) (out := pOut) (· > ·)
    (fun a b c h1 h2 => h2.trans h1) (fun a => lt_irrefl a) {t | IsPart n t} (finite_isPart n) (PGood n)
    (fun s h => isPart_of_good h)
    (fun s s' hs hst => by
      rcases pStep_spec hs with ⟨s'', e, g1, g2, g3⟩ | ⟨e, -⟩
      · rw [e] at hst
        simp only [Step.next.injEq] at hst
        subst hst
        refine ⟨g1, g2, fun d hd hlt => ?_⟩
        rcases lt_or_eq_of_le (g3 d hd hlt) with h | h
        · exact Or.inr h
        · exact Or.inl h
      · rw [e] at hst; simp at hst)
    (fun s hs hst d hd hlt => by
      rcases pStep_spec hs with ⟨s'', e, -⟩ | ⟨e, g⟩
      · rw [e] at hst; simp at hst
      · exact absurd hlt (not_lt.2 (g d hd)))
    (fun s e hs hst => by
      rcases pStep_spec hs with ⟨s'', e, -⟩ | ⟨e, g⟩
      · rw [e] at hst; simp at hst
      · rw [e] at hst; simp at hst) s hs
  refine ⟨L, h1, h2, fun d => ?_⟩
  rw [h3 d, le_iff_eq_or_lt]
  rfl

theorem pGood_init {n : Nat} (hn : 1 ≤ n) : PGood n (pInit n) := by
  have hout : pOut (pInit n) = [(n : Int)] := by
    obtain ⟨k, rfl⟩ : ∃ k, n = k + 1 := ⟨n - 1, by omega⟩
    simp [pOut, pInit, List.replicate_succ]
  by_cases h : n = 1
  · subst h
    exact ⟨[], 1, by rw [hout]; rfl, by simp, by simp, by simp, by simp [pInit], by simp [pInit], by simp [pInit]⟩
  · refine ⟨[(n : Int)], 0, by rw [hout]; rfl, ?_, by simp, by simp, by simp [pInit, h], by simp [pInit], by simp [pInit]⟩
    intro x hx
    rw [List.mem_singleton.1 hx]
    omega

end Rosemary.Partitions
