import Verif.Lemmas.BitSieve

/-!
# C45: the bit sieves count unmarked positions.  C76: memoisation is transparent
-/

namespace Rosemary.BitSieve

open Finset Rosemary.Sieves

/-- The calls `mark_multiples(p)` for `p` in `ps`, in this order. -/
def markAll (s : Sieve) : List Nat → Option (Except PyErr Sieve)
  | [] => some (.ok s)
  | p :: ps =>
    match markMultiples s p with
    | none => none
    | some (.error e) => some (.error e)
    | some (.ok s) => markAll s ps

/-- The same for the array version. -/
def markAllArray (s : SieveArray) : List Nat → Except PyErr SieveArray
  | [] => .ok s
  | p :: ps =>
    match markMultiplesArray s p with
    | .error e => .error e
    | .ok s => markAllArray s ps

/-- `U` without the multiples of the members of `ps`. -/
def unhit (U : Nat → Bool) (ps : List Nat) : Nat → Bool :=
  fun k => U k && decide (∀ p ∈ ps, ¬ p ∣ k)

theorem TInv.congr {U V : Nat → Bool} {n : Nat} {A : Table} (h : TInv U n A)
    (e : ∀ k, 1 ≤ k → k ≤ n → U k = V k) : TInv V n A := by
  intro i j
  rw [h i j]
  by_cases hj : 1 ≤ j ∧ j ≤ n / 2 ^ i
  · rw [if_pos hj, if_pos hj]
    congr 1
    unfold bc cnt
    apply sum_congr rfl
    intro k hk
    rw [mem_Ioc] at hk
    rw [e k (by omega) (by
      have := hj.2
      rw [Nat.le_div_iff_mul_le (Nat.two_pow_pos i)] at this
      omega)]
  · rw [if_neg hj, if_neg hj]

theorem AInv.congr {U V : Nat → Bool} {n : Nat} {A : List (List Int)} (h : AInv U n A)
    (e : ∀ k, 1 ≤ k → k ≤ n → U k = V k) : AInv V n A := by
  obtain ⟨L, rfl, h1, h2, h3⟩ := h
  refine ⟨L, ?_, h1, h2, h3⟩
  apply List.map_congr_left
  intro i _
  unfold rowOf
  apply List.map_congr_left
  intro j hj
  rw [List.mem_range] at hj
  by_cases h0 : j = 0
  · rw [if_pos h0, if_pos h0]
  · rw [if_neg h0, if_neg h0]
    unfold bc cnt
    apply sum_congr rfl
    intro k hk
    rw [mem_Ioc] at hk
    have hjn : j ≤ n / 2 ^ i := by omega
    rw [Nat.le_div_iff_mul_le (Nat.two_pow_pos i)] at hjn
    rw [e k (by omega) (by omega)]

theorem step_eq (U : Nat → Bool) (p n : Nat) (ps : List Nat) (hp : 1 ≤ p) (k : Nat) (h1 : 1 ≤ k)
    (h2 : k ≤ n) :
    unhit (fun k => U k && decide (k ∉ multiples p n)) ps k = unhit U (p :: ps) k := by
  unfold unhit
  have hm := mem_multiples (n := n) (k := k) hp
  by_cases hd : p ∣ k
  · have : k ∈ multiples p n := hm.2 ⟨h1, h2, hd⟩
    simp [this, hd]
  · have : k ∉ multiples p n := fun h => hd (hm.1 h).2.2
    simp [this, hd]

theorem markAll_spec {n : Nat} (ps : List Nat) (hps : ∀ p ∈ ps, 1 ≤ p) (U : Nat → Bool) (s : Sieve)
    (hn : s.n = n) (hT : TInv U n s.A) (hP : PInv n s.parent) :
    ∃ s', markAll s ps = some (.ok s') ∧ s'.n = n ∧ TInv (unhit U ps) n s'.A := by
  induction ps generalizing U s with
  | nil =>
    refine ⟨s, rfl, hn, hT.congr ?_⟩
    intro k _ _; simp [unhit]
  | cons p ps ih =>
    have hp := hps p (by simp)
    subst hn
    obtain ⟨A', h1, h2⟩ := markLoop_spec hP (multiples p s.n)
      (fun i hi => ⟨((mem_multiples hp).1 hi).1, ((mem_multiples hp).1 hi).2.1⟩) U s.A hT
    unfold markAll markMultiples
    rw [if_neg (by omega), h1]
    dsimp only
    obtain ⟨s', h3, h4, h5⟩ := ih (fun q hq => hps q (by simp [hq])) _ { s with A := A' } rfl h2 hP
    exact ⟨s', h3, h4, h5.congr (fun k hk1 hk2 => step_eq U p s.n ps hp k hk1 hk2)⟩

theorem markAllArray_spec {n : Nat} (ps : List Nat) (hps : ∀ p ∈ ps, 1 ≤ p) (U : Nat → Bool)
    (s : SieveArray) (hn : s.n = n) (hT : AInv U n s.A) :
    ∃ s', markAllArray s ps = .ok s' ∧ s'.n = n ∧ AInv (unhit U ps) n s'.A := by
  induction ps generalizing U s with
  | nil =>
    refine ⟨s, rfl, hn, hT.congr ?_⟩
    intro k _ _; simp [unhit]
  | cons p ps ih =>
    have hp := hps p (by simp)
    subst hn
    obtain ⟨A', h1, h2⟩ := markArrayLoop_spec (n := s.n) (multiples p s.n)
      (fun i hi => ⟨((mem_multiples hp).1 hi).1, ((mem_multiples hp).1 hi).2.1⟩) U s.A hT
    unfold markAllArray markMultiplesArray
    rw [if_neg (by omega), h1]
    dsimp only
    obtain ⟨s', h3, h4, h5⟩ := ih (fun q hq => hps q (by simp [hq])) _ { s with A := A' } rfl h2
    exact ⟨s', h3, h4, h5.congr (fun k hk1 hk2 => step_eq U p s.n ps hp k hk1 hk2)⟩

theorem cnt_card (ps : List Nat) (m : Nat) : cnt (unhit (fun _ => true) ps) 0 m =
    (((Icc 1 m).filter (fun k : Nat => ∀ p ∈ ps, ¬ p ∣ k)).card : Int) := by
  unfold cnt
  rw [card_filter]
  push_cast
  apply sum_congr
  · ext k; simp only [mem_Ioc, mem_Icc]; omega
  · intro k _
    simp [unhit]

theorem entries_spec {A : Table} (f : Nat → Int) (is : List Nat) (h : ∀ i ∈ is, A (0, i) = some (f i)) :
    entries A is = .ok (is.map f) := by
  induction is with
  | nil => rfl
  | cons i is ih =>
    unfold entries
    rw [h i (by simp), ih (fun j hj => h j (by simp [hj]))]
    rfl

end Rosemary.BitSieve

namespace Rosemary.Props

open Finset Rosemary.BitSieve Rosemary.Sieves

/-- C45 for `BITSieve`: after any sequence of `mark_multiples` calls `partial_sum(m)` is the number of
positions `1..m` that no argument divides; beyond the size it raises `KeyError`; `entries()` is the
list of flags. -/
theorem C45_bit_sieve (n : Nat) (ps : List Nat) (hps : ∀ p ∈ ps, 1 ≤ p) :
    ∃ s s', init n = .ok s ∧ markAll s ps = some (.ok s') ∧
      (∀ m, m ≤ n → partialSum s' m =
        .ok (((Icc 1 m).filter (fun k : Nat => ∀ p ∈ ps, ¬ p ∣ k)).card : Int)) ∧
      (∀ m, n < m → partialSum s' m = .error .keyError) ∧
      entries s'.A (pyRange 1 (s'.n + 1)) =
        .ok ((List.range n).map (fun k => if ∀ p ∈ ps, ¬ p ∣ k + 1 then 1 else 0)) := by
  obtain ⟨s, h1, h2, h3, h4⟩ := init_spec n
  obtain ⟨s', h5, h6, h7⟩ := markAll_spec ps hps (fun _ => true) s h2 h3 h4
  refine ⟨s, s', h1, h5, ?_, ?_, ?_⟩
  · intro m hm
    unfold partialSum
    rw [sumLoop_spec h7 m 0 0 (by simpa using hm)]
    simp only [pow_zero, mul_one, zero_add, cnt_card]
  · intro m hm
    unfold partialSum
    exact sumLoop_error h7 m 0 0 (by simpa using hm)
  · rw [entries_spec (fun k => if ∀ p ∈ ps, ¬ p ∣ k then (1 : Int) else 0), h6]
    · congr 1
      unfold pyRange
      rw [Nat.add_sub_cancel, List.range'_eq_map_range, List.map_map]
      apply List.map_congr_left
      intro k _
      simp [Nat.add_comm]
    · intro i hi
      rw [h6] at hi
      unfold pyRange at hi
      rw [List.mem_range'_1] at hi
      rw [h7 0 i, if_pos ⟨hi.1, by simp; omega⟩, bc_zero _ _ hi.1]
      simp [unhit]

/-- C45 for `BITSieveArray`; its `entries()` has an extra leading 0. -/
theorem C45_bit_sieve_array (n : Nat) (ps : List Nat) (hps : ∀ p ∈ ps, 1 ≤ p) :
    ∃ s s', initArray n = .ok s ∧ markAllArray s ps = .ok s' ∧
      (∀ m, m ≤ n → partialSumArray s' m =
        .ok (((Icc 1 m).filter (fun k : Nat => ∀ p ∈ ps, ¬ p ∣ k)).card : Int)) ∧
      (∀ m, n < m → partialSumArray s' m = .error .indexError) ∧
      s'.A.head? = some (0 :: (List.range n).map (fun k => if ∀ p ∈ ps, ¬ p ∣ k + 1 then 1 else 0)) := by
  obtain ⟨s, h1, h2, h3⟩ := initArray_spec n
  obtain ⟨s', h5, h6, h7⟩ := markAllArray_spec ps hps (fun _ => true) s h2 h3
  refine ⟨s, s', h1, h5, ?_, ?_, ?_⟩
  · intro m hm
    unfold partialSumArray
    rw [sumArrayLoop_spec h7 m 0 0 (by simpa using hm)]
    simp only [pow_zero, mul_one, zero_add, cnt_card]
  · intro m hm
    unfold partialSumArray
    exact sumArrayLoop_error h7 m 0 0 (by simpa using hm)
  · obtain ⟨L, hA, hL, -⟩ := h7
    obtain ⟨L, rfl⟩ : ∃ L', L = L' + 1 := ⟨L - 1, by omega⟩
    rw [hA, List.range'_succ, List.map_cons, List.head?_cons]
    congr 1
    unfold rowOf
    rw [pow_zero, Nat.div_one, List.range_succ_eq_map, List.map_cons, if_pos rfl, List.map_map]
    congr 1
    apply List.map_congr_left
    intro k _
    simp only [Function.comp_apply]
    rw [if_neg (by omega), bc_zero _ _ (by omega)]
    simp [unhit]

/-- C45: a zero step is rejected by both. -/
theorem C45_bit_sieve_zero (s : Sieve) (t : SieveArray) :
    markMultiples s 0 = some (.error .valueError) ∧ markMultiplesArray t 0 = .error .valueError :=
  ⟨rfl, rfl⟩

example : (match initArray 30 with
    | .ok s => (match markAllArray s [2, 3, 5] with
      | .ok s => ((List.range 32).map (partialSumArray s)).drop 28 | .error _ => [])
    | .error _ => []) = [.ok 7, .ok 8, .ok 8, .error .indexError] := by decide +kernel

end Rosemary.Props

namespace Rosemary.Utilities

/-- Every cached pair is an argument with the value of `func` there. -/
def CacheOk {α β : Type} (func : α → Except PyErr β) (cache : List (α × β)) : Prop :=
  ∀ p ∈ cache, func p.1 = .ok p.2

theorem cachedCall_spec {α β : Type} [DecidableEq α] (func : α → Except PyErr β) (cache : List (α × β))
    (h : CacheOk func cache) (x : α) :
    (cachedCall func cache x).1 = func x ∧ CacheOk func (cachedCall func cache x).2 := by
  unfold cachedCall
  cases hl : cache.lookup x with
  | some v =>
    refine ⟨?_, h⟩
    obtain ⟨l1, l2, e, -⟩ := List.lookup_eq_some_iff.1 hl
    exact (h (x, v) (by rw [e]; simp)).symm
  | none =>
    dsimp only
    cases hf : func x with
    | error e => exact ⟨rfl, h⟩
    | ok v =>
      refine ⟨rfl, ?_⟩
      intro p hp
      rcases List.mem_cons.1 hp with rfl | hp
      · exact hf
      · exact h p hp

end Rosemary.Utilities

namespace Rosemary.Props

open Rosemary.Utilities

/-- C76: the wrapped function returns the values (and raises the errors) of the function it wraps, under
every call history. -/
theorem C76_cached_function {α β : Type} [DecidableEq α] (func : α → Except PyErr β) (xs : List α) :
    cachedCalls func [] xs = xs.map func := by
  have : ∀ cache, CacheOk func cache → cachedCalls func cache xs = xs.map func := by
    induction xs with
    | nil => intro _ _; rfl
    | cons x xs ih =>
      intro cache hc
      obtain ⟨h1, h2⟩ := cachedCall_spec func cache hc x
      show (cachedCall func cache x).1 :: cachedCalls func (cachedCall func cache x).2 xs = _
      rw [h1, ih _ h2]
      rfl
  exact this [] (by intro p hp; simp at hp)

example : cachedCalls (fun n : Nat => if n = 0 then .error PyErr.zeroDivisionError else .ok (10 / n)) []
    [5, 0, 5, 2, 0] = [.ok 2, .error .zeroDivisionError, .ok 2, .ok 5, .error .zeroDivisionError] := by
  decide +kernel

end Rosemary.Props
