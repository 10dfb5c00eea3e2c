import Verif.Model.LatinSquares
import Verif.Props.ExactCover
import Mathlib.Algebra.BigOperators.Group.Finset.Basic
import Mathlib.Algebra.BigOperators.Group.List.Basic
import Mathlib.Data.Fintype.Card
import Mathlib.SetTheory.Cardinal.Finite
import Mathlib.Tactic.Ring

/-!
# Latin squares by exact cover (C113)
-/

namespace Rosemary.Props

open Rosemary.ExactCover
open BigOperators

/-- A Latin square: `f j i` is the symbol in row `j` and column `i`; no symbol is repeated in a row or a column. -/
def IsLatin {n : ℕ} (f : Fin n → Fin n → Fin n) : Prop :=
  (∀ j, Function.Injective (f j)) ∧ ∀ i, Function.Injective (fun j => f j i)

/-- The choices: symbol, column, row. -/
def placements (n : ℕ) : List (ℕ × ℕ × ℕ) :=
  (List.range n).flatMap (fun p => (List.range n).flatMap (fun i => (List.range n).map (fun j => (p, i, j))))

theorem mem_placements {n p i j : ℕ} : (p, i, j) ∈ placements n ↔ p < n ∧ i < n ∧ j < n := by
  simp only [placements, List.mem_flatMap, List.mem_range, List.mem_map, Prod.mk.injEq]
  constructor
  · rintro ⟨p', hp, i', hi, j', hj, rfl, rfl, rfl⟩
    exact ⟨hp, hi, hj⟩
  · rintro ⟨hp, hi, hj⟩
    exact ⟨p, hp, i, hi, j, hj, rfl, rfl, rfl⟩

theorem nodup_placements (n : ℕ) : (placements n).Nodup := by
  rw [placements, List.nodup_flatMap]
  refine ⟨fun r _ => ?_, ?_⟩
  · rw [List.nodup_flatMap]
    refine ⟨fun c _ => ?_, ?_⟩
    · refine List.Nodup.map (fun a b h => ?_) List.nodup_range
      simpa using h
    · refine List.Pairwise.imp ?_ (List.nodup_range (n := n))
      intro c c' hne
      rw [Function.onFun, List.disjoint_left]
      simp only [List.mem_map, not_exists, not_and]
      rintro t ⟨d, _, rfl⟩ d' _ h
      simp only [Prod.mk.injEq] at h
      exact hne h.2.1.symm
  · refine List.Pairwise.imp ?_ (List.nodup_range (n := n))
    intro r r' hne
    rw [Function.onFun, List.disjoint_left]
    simp only [List.mem_flatMap, List.mem_map, not_exists, not_and]
    rintro t ⟨c, _, d, _, rfl⟩ c' _ d' _ h
    simp only [Prod.mk.injEq] at h
    exact hne h.1.symm

theorem latinSquareInts_eq (n : ℕ) : latinSquareInts n = (placements n).map (fun t => latinInt n t.1 t.2.1 t.2.2) := by
  rw [latinSquareInts, placements, List.map_flatMap]
  refine List.flatMap_congr fun p _ => ?_
  rw [List.map_flatMap]
  refine List.flatMap_congr fun i _ => ?_
  rw [List.map_map]
  rfl

/-! ## The bits of an integer -/

theorem flatten_getD {n : ℕ} (L : List (List ℕ)) (hL : ∀ l ∈ L, l.length = n) (q s : ℕ) (hs : s < n) :
    L.flatten.getD (q * n + s) 0 = (L.getD q []).getD s 0 := by
  induction L generalizing q with
  | nil => simp
  | cons l L ih =>
    have hl := hL l List.mem_cons_self
    rw [List.flatten_cons]
    cases q with
    | zero =>
      rw [Nat.zero_mul, Nat.zero_add, List.getD_append _ _ _ _ (by omega)]
      rfl
    | succ q =>
      rw [List.getD_append_right _ _ _ _ (by rw [hl, Nat.succ_mul]; omega), hl, Nat.succ_mul,
        show q * n + n + s - n = q * n + s by omega, ih (fun l h => hL l (List.mem_cons_of_mem _ h))]
      rfl

theorem latinBlock_length (n i j : ℕ) : (latinBlock n i j).length = n ∧ ∀ l ∈ latinBlock n i j, l.length = n := by
  constructor
  · rw [latinBlock, List.length_set, List.length_replicate]
  · intro l hl
    rw [latinBlock] at hl
    rcases List.mem_or_eq_of_mem_set hl with h | h
    · rw [List.eq_of_mem_replicate h, List.length_replicate]
    · rw [h, List.length_set, List.length_replicate]

theorem latinBlock_getD {n i j q s : ℕ} (hi : i < n) (hj : j < n) (hq : q < n) (hs : s < n) :
    ((latinBlock n i j).getD q []).getD s 0 = if q = j ∧ s = i then 1 else 0 := by
  rw [latinBlock, List.getD_eq_getElem?_getD (l := List.set _ _ _), List.getElem?_set, List.length_replicate]
  by_cases h : j = q
  · subst h
    rw [if_pos rfl, if_pos hj, Option.getD_some, List.getD_eq_getElem?_getD, List.getElem?_set, List.length_replicate]
    by_cases h' : i = s
    · subst h'
      rw [if_pos rfl, if_pos hi, if_pos ⟨rfl, rfl⟩]
      rfl
    · rw [if_neg h', if_neg (by omega), List.getElem?_replicate, if_pos hs]
      rfl
  · rw [if_neg h, if_neg (by omega), List.getElem?_replicate, if_pos hq, Option.getD_some, List.getD_eq_getElem?_getD,
      List.getElem?_replicate, if_pos hs]
    rfl

theorem pair_lt {n a b : ℕ} (ha : a < n) (hb : b < n) : a * n + b < n * n := by
  calc a * n + b < a * n + n := by omega
    _ = (a + 1) * n := by ring
    _ ≤ n * n := Nat.mul_le_mul_right n ha

theorem pair_inj {n a b a' b' : ℕ} (hb : b < n) (hb' : b' < n) (h : a * n + b = a' * n + b') : a = a' ∧ b = b' := by
  have h1 : (a * n + b) / n = a := by
    rw [Nat.add_comm, Nat.add_mul_div_right _ _ (by omega), Nat.div_eq_of_lt hb, Nat.zero_add]
  have h2 : (a' * n + b') / n = a' := by
    rw [Nat.add_comm, Nat.add_mul_div_right _ _ (by omega), Nat.div_eq_of_lt hb', Nat.zero_add]
  have h3 : a = a' := by rw [← h1, ← h2, h]
  subst h3
  exact ⟨rfl, by omega⟩

theorem pair_ex {n x : ℕ} (h : x < n * n) : ∃ a < n, ∃ b < n, x = a * n + b := by
  have hn : 0 < n := by
    rcases Nat.eq_zero_or_pos n with rfl | h'
    · omega
    · exact h'
  exact ⟨x / n, (Nat.div_lt_iff_lt_mul hn).2 h, x % n, Nat.mod_lt _ hn, (Nat.div_add_mod' x n).symm⟩

theorem latinInt_eq {n p i j : ℕ} (hp : p < n) (hi : i < n) (hj : j < n) :
    latinInt n p i j = ((2 ^ (2 * n * n - (i * n + p) - 1) + 2 ^ (2 * n * n - (n * n + (j * n + p)) - 1)) <<< (n * n)) |||
      (1 <<< (n * n - j * n - i - 1)) := by
  have hu := pair_lt hi hp
  have hv := pair_lt hj hp
  have ht : ∀ k < 2 * n * n, ((latinBlock n p i ++ latinBlock n p j).flatten.getD k 0 ≠ 0 ↔
      k = i * n + p ∨ k = n * n + (j * n + p)) := by
    intro k hk
    have hn : 0 < n := by omega
    obtain ⟨q, s, hs, rfl⟩ : ∃ q s, s < n ∧ k = q * n + s := ⟨k / n, k % n, Nat.mod_lt _ hn, (Nat.div_add_mod' k n).symm⟩
    rw [flatten_getD _ (fun l hl => (List.mem_append.1 hl).elim ((latinBlock_length n p i).2 l)
      ((latinBlock_length n p j).2 l)) q s hs]
    by_cases hq : q < n
    · rw [List.getD_append _ _ _ _ (by rw [(latinBlock_length n p i).1]; exact hq), latinBlock_getD hp hi hq hs]
      have := pair_lt hq hs
      constructor
      · intro h
        left
        by_contra hne
        exact h (if_neg (by rintro ⟨rfl, rfl⟩; exact hne rfl))
      · rintro (h | h)
        · obtain ⟨rfl, rfl⟩ := pair_inj hs hp h
          rw [if_pos ⟨rfl, rfl⟩]
          exact one_ne_zero
        · omega
    · have hq2 : q < 2 * n := by
        by_contra h
        have : 2 * n * n ≤ q * n := Nat.mul_le_mul_right n (by omega)
        omega
      rw [List.getD_append_right _ _ _ _ (by rw [(latinBlock_length n p i).1]; omega), (latinBlock_length n p i).1,
        latinBlock_getD hp hj (by omega) hs]
      have he : q * n + s = n * n + ((q - n) * n + s) := by
        rw [← Nat.add_assoc, ← Nat.add_mul, Nat.add_sub_cancel' (by omega)]
      rw [he]
      constructor
      · intro h
        right
        by_contra hne
        exact h (if_neg (by rintro ⟨h1, rfl⟩; exact hne (by rw [h1])))
      · rintro (h | h)
        · omega
        · obtain ⟨h1, rfl⟩ := pair_inj hs hp (Nat.add_left_cancel h)
          rw [if_pos ⟨h1, rfl⟩]
          exact one_ne_zero
  have h2 : 2 * n * n = n * n + n * n := by ring
  have hsum : (((List.range (2 * n * n)).filter (fun k => (latinBlock n p i ++ latinBlock n p j).flatten.getD k 0 ≠ 0)).map
      (fun k => 2 ^ (2 * n * n - k - 1))).sum =
      2 ^ (2 * n * n - (i * n + p) - 1) + 2 ^ (2 * n * n - (n * n + (j * n + p)) - 1) := by
    have hnd : ((List.range (2 * n * n)).filter
        (fun k => (latinBlock n p i ++ latinBlock n p j).flatten.getD k 0 ≠ 0)).Nodup := List.nodup_range.filter _
    rw [← List.sum_toFinset _ hnd]
    have : ((List.range (2 * n * n)).filter
        (fun k => (latinBlock n p i ++ latinBlock n p j).flatten.getD k 0 ≠ 0)).toFinset =
        {i * n + p, n * n + (j * n + p)} := by
      ext k
      rw [List.mem_toFinset, List.mem_filter, List.mem_range, decide_eq_true_eq, Finset.mem_insert, Finset.mem_singleton]
      constructor
      · rintro ⟨h1, h2⟩
        exact (ht k h1).1 h2
      · intro h
        have hk : k < 2 * n * n := by omega
        exact ⟨hk, (ht k hk).2 h⟩
    rw [this, Finset.sum_pair (by omega)]
  rw [latinInt, hsum]

theorem testBit_two {u v k : ℕ} (h : u ≠ v) : (2 ^ u + 2 ^ v).testBit k = true ↔ k = u ∨ k = v := by
  wlog huv : u < v generalizing u v
  · rw [Nat.add_comm, this h.symm (by omega), or_comm]
  have := Nat.two_pow_add_eq_or_of_lt (Nat.pow_lt_pow_right (a := 2) (by norm_num) huv) 1
  rw [Nat.mul_one] at this
  rw [Nat.add_comm, this, Nat.testBit_or, Nat.testBit_two_pow, Nat.testBit_two_pow, Bool.or_eq_true, decide_eq_true_eq,
    decide_eq_true_eq, or_comm, eq_comm (b := k), eq_comm (b := k)]

/-- The positions of the bits of a choice. -/
def latinBits (n : ℕ) (t : ℕ × ℕ × ℕ) : Finset ℕ :=
  {3 * (n * n) - 1 - (t.2.1 * n + t.1), 2 * (n * n) - 1 - (t.2.2 * n + t.1), n * n - 1 - (t.2.2 * n + t.2.1)}

theorem mem_latinBits {n x : ℕ} {t : ℕ × ℕ × ℕ} : x ∈ latinBits n t ↔ x = 3 * (n * n) - 1 - (t.2.1 * n + t.1) ∨
    x = 2 * (n * n) - 1 - (t.2.2 * n + t.1) ∨ x = n * n - 1 - (t.2.2 * n + t.2.1) := by
  rw [latinBits, Finset.mem_insert, Finset.mem_insert, Finset.mem_singleton]

theorem testBit_latinInt {n p i j k : ℕ} (hp : p < n) (hi : i < n) (hj : j < n) :
    (latinInt n p i j).testBit k = true ↔ k ∈ latinBits n (p, i, j) := by
  have h1 := pair_lt hi hp
  have h2 := pair_lt hj hp
  have h3 := pair_lt hj hi
  have h4 : 2 * n * n = 2 * (n * n) := by ring
  rw [latinInt_eq hp hi hj, Nat.testBit_or, Nat.one_shiftLeft, Nat.testBit_two_pow, Nat.testBit_shiftLeft, Bool.or_eq_true,
    Bool.and_eq_true, decide_eq_true_eq, decide_eq_true_eq, testBit_two (by omega), mem_latinBits, h4]
  dsimp only
  omega

theorem bits_latinInt {n p i j : ℕ} (hp : p < n) (hi : i < n) (hj : j < n) :
    bits (3 * (n * n)) (latinInt n p i j) = latinBits n (p, i, j) := by
  have h1 := pair_lt hi hp
  have h2 := pair_lt hj hp
  have h3 := pair_lt hj hi
  ext k
  rw [mem_bits, testBit_latinInt hp hi hj, and_iff_right_iff_imp, mem_latinBits]
  dsimp only
  omega

theorem latin_numBits (n : ℕ) : (Binary.init (latinSquareInts n)).numBits = 3 * (n * n) := by
  apply numBits_eq
  · intro v hv
    rw [latinSquareInts_eq] at hv
    obtain ⟨⟨p, i, j⟩, ht, rfl⟩ := List.mem_map.1 hv
    obtain ⟨hp, hi, hj⟩ := mem_placements.1 ht
    refine Nat.lt_pow_two_of_testBit _ fun k hk => ?_
    rw [← Bool.not_eq_true, testBit_latinInt hp hi hj, mem_latinBits]
    have h1 := pair_lt hi hp
    have h2 := pair_lt hj hp
    have h3 := pair_lt hj hi
    dsimp only
    omega
  · rcases Nat.eq_zero_or_pos n with rfl | hn
    · exact Or.inl rfl
    · right
      refine ⟨latinInt n 0 0 0, ?_, ?_⟩
      · rw [latinSquareInts_eq]
        exact List.mem_map.2 ⟨(0, 0, 0), mem_placements.2 ⟨hn, hn, hn⟩, rfl⟩
      · rw [testBit_latinInt hn hn hn, mem_latinBits]
        left
        dsimp only
        omega

/-! ## Covers and squares -/

/-- The choices of a set of positions. -/
def Taken (n : ℕ) (S : Finset ℕ) (t : ℕ × ℕ × ℕ) : Prop := ∃ k ∈ S, (placements n)[k]? = some t

/-- The bits at a position of the list. -/
theorem bits_at {n k : ℕ} {t : ℕ × ℕ × ℕ} (h : (placements n)[k]? = some t) :
    bits (3 * (n * n)) ((latinSquareInts n).getD k 0) = latinBits n t := by
  obtain ⟨p, i, j⟩ := t
  obtain ⟨hp, hi, hj⟩ := mem_placements.1 (List.mem_of_getElem? h)
  rw [latinSquareInts_eq, List.getD_eq_getElem?_getD, List.getElem?_map, h]
  exact bits_latinInt hp hi hj

/-- `IsCover` in terms of the choices. -/
theorem latin_cover (n : ℕ) (S : Finset ℕ) : IsCover (latinSquareInts n).length
      (fun k => bits (3 * (n * n)) ((latinSquareInts n).getD k 0)) (Finset.range (3 * (n * n))) S ↔
    (∀ k ∈ S, k < (placements n).length) ∧ ∀ x < 3 * (n * n), ∃! t, Taken n S t ∧ x ∈ latinBits n t := by
  have hlen : (latinSquareInts n).length = (placements n).length := by rw [latinSquareInts_eq, List.length_map]
  have hu : (∀ k ∈ S, k < (placements n).length) → ∀ x, ((∃! k, k ∈ S ∧ x ∈ bits (3 * (n * n))
      ((latinSquareInts n).getD k 0)) ↔ ∃! t, Taken n S t ∧ x ∈ latinBits n t) := by
    intro hS x
    constructor
    · rintro ⟨k, ⟨hk, hx⟩, hun⟩
      have hkt := List.getElem?_eq_getElem (hS k hk)
      rw [bits_at hkt] at hx
      refine ⟨_, ⟨⟨k, hk, hkt⟩, hx⟩, ?_⟩
      rintro t ⟨⟨k', hk', ht'⟩, hx'⟩
      have := hun k' ⟨hk', by rw [bits_at ht']; exact hx'⟩
      subst this
      rw [hkt] at ht'
      exact (Option.some.inj ht').symm
    · rintro ⟨t, ⟨⟨k, hk, hkt⟩, hx⟩, hun⟩
      refine ⟨k, ⟨hk, by rw [bits_at hkt]; exact hx⟩, ?_⟩
      rintro k' ⟨hk', hx'⟩
      have hkt' := List.getElem?_eq_getElem (hS k' hk')
      rw [bits_at hkt'] at hx'
      have := hun _ ⟨⟨k', hk', hkt'⟩, hx'⟩
      obtain ⟨hil, hie⟩ := List.getElem?_eq_some_iff.1 hkt
      exact (List.Nodup.getElem_inj_iff (nodup_placements n)).1 (this.trans hie.symm)
  constructor
  · rintro ⟨h1, h2⟩
    have hS : ∀ k ∈ S, k < (placements n).length := fun k hk => hlen ▸ (h1 k hk).1
    exact ⟨hS, fun x hx => (hu hS x).1 (h2 x (Finset.mem_range.2 hx))⟩
  · rintro ⟨hS, h⟩
    refine ⟨fun k hk => ⟨hlen ▸ hS k hk, ?_, fun x hx => Finset.mem_range.2 (mem_bits.1 hx).1⟩,
      fun x hx => (hu hS x).2 (h x (Finset.mem_range.1 hx))⟩
    dsimp only
    rw [bits_at (List.getElem?_eq_getElem (hS k hk))]
    exact ⟨_, mem_latinBits.2 (Or.inl rfl)⟩

theorem mem_first {n p i p' i' j' : ℕ} (hp : p < n) (hi : i < n) (hp' : p' < n) (hi' : i' < n) (hj' : j' < n) :
    3 * (n * n) - 1 - (i * n + p) ∈ latinBits n (p', i', j') ↔ p' = p ∧ i' = i := by
  have h0 := pair_lt hi hp
  have h1 := pair_lt hi' hp'
  have h2 := pair_lt hj' hp'
  have h3 := pair_lt hj' hi'
  rw [mem_latinBits]
  dsimp only
  constructor
  · intro h
    have := pair_inj hp hp' (show i * n + p = i' * n + p' by omega)
    omega
  · rintro ⟨rfl, rfl⟩
    exact Or.inl rfl

theorem mem_second {n p j p' i' j' : ℕ} (hp : p < n) (hj : j < n) (hp' : p' < n) (hi' : i' < n) (hj' : j' < n) :
    2 * (n * n) - 1 - (j * n + p) ∈ latinBits n (p', i', j') ↔ p' = p ∧ j' = j := by
  have h0 := pair_lt hj hp
  have h1 := pair_lt hi' hp'
  have h2 := pair_lt hj' hp'
  have h3 := pair_lt hj' hi'
  rw [mem_latinBits]
  dsimp only
  constructor
  · intro h
    have := pair_inj hp hp' (show j * n + p = j' * n + p' by omega)
    omega
  · rintro ⟨rfl, rfl⟩
    exact Or.inr (Or.inl rfl)

theorem mem_third {n i j p' i' j' : ℕ} (hi : i < n) (hj : j < n) (hp' : p' < n) (hi' : i' < n) (hj' : j' < n) :
    n * n - 1 - (j * n + i) ∈ latinBits n (p', i', j') ↔ i' = i ∧ j' = j := by
  have h0 := pair_lt hj hi
  have h1 := pair_lt hi' hp'
  have h2 := pair_lt hj' hp'
  have h3 := pair_lt hj' hi'
  rw [mem_latinBits]
  dsimp only
  constructor
  · intro h
    have := pair_inj hi hi' (show j * n + i = j' * n + i' by omega)
    omega
  · rintro ⟨rfl, rfl⟩
    exact Or.inr (Or.inr rfl)

/-- The positions of the choices of a square. -/
noncomputable def positions {n : ℕ} (f : Fin n → Fin n → Fin n) : Finset ℕ := by
  classical
  exact (Finset.range (placements n).length).filter
    (fun k => ∃ j i : Fin n, (placements n)[k]? = some ((f j i).val, i.val, j.val))

theorem taken_positions {n : ℕ} (f : Fin n → Fin n → Fin n) (t : ℕ × ℕ × ℕ) :
    Taken n (positions f) t ↔ ∃ j i : Fin n, t = ((f j i).val, i.val, j.val) := by
  constructor
  · rintro ⟨k, hk, ht⟩
    obtain ⟨-, j, i, h⟩ := Finset.mem_filter.1 hk
    exact ⟨j, i, Option.some.inj (ht.symm.trans h)⟩
  · rintro ⟨j, i, rfl⟩
    obtain ⟨k, hk, he⟩ := List.getElem_of_mem (mem_placements.2 ⟨(f j i).2, i.2, j.2⟩)
    have he' := List.getElem?_eq_some_iff.2 ⟨hk, he⟩
    exact ⟨k, Finset.mem_filter.2 ⟨Finset.mem_range.2 hk, j, i, he'⟩, he'⟩

theorem positions_cover {n : ℕ} {f : Fin n → Fin n → Fin n} (hf : IsLatin f) :
    (∀ k ∈ positions f, k < (placements n).length) ∧
    ∀ x < 3 * (n * n), ∃! t, Taken n (positions f) t ∧ x ∈ latinBits n t := by
  refine ⟨fun k hk => Finset.mem_range.1 (Finset.mem_filter.1 hk).1, fun x hx => ?_⟩
  simp only [taken_positions]
  by_cases h1 : x < n * n
  · obtain ⟨j, hj, i, hi, he⟩ := pair_ex (show n * n - 1 - x < n * n by omega)
    have hx' : x = n * n - 1 - (j * n + i) := by omega
    subst hx'
    refine ⟨((f ⟨j, hj⟩ ⟨i, hi⟩).val, i, j), ⟨⟨⟨j, hj⟩, ⟨i, hi⟩, rfl⟩, ?_⟩, ?_⟩
    · rw [mem_third hi hj (Fin.is_lt _) hi hj]
      exact ⟨rfl, rfl⟩
    · rintro t ⟨⟨j', i', rfl⟩, h⟩
      obtain ⟨h2, h3⟩ := (mem_third hi hj (Fin.is_lt _) i'.2 j'.2).1 h
      subst h2 h3
      rfl
  · by_cases h2 : x < 2 * (n * n)
    · obtain ⟨j, hj, p, hp, he⟩ := pair_ex (show 2 * (n * n) - 1 - x < n * n by omega)
      have hx' : x = 2 * (n * n) - 1 - (j * n + p) := by omega
      subst hx'
      obtain ⟨i, hi⟩ := Finite.surjective_of_injective (hf.1 ⟨j, hj⟩) ⟨p, hp⟩
      refine ⟨((f ⟨j, hj⟩ i).val, i.val, j), ⟨⟨⟨j, hj⟩, i, rfl⟩, ?_⟩, ?_⟩
      · rw [mem_second hp hj (Fin.is_lt _) i.2 hj, hi]
        exact ⟨rfl, rfl⟩
      · rintro t ⟨⟨j', i', rfl⟩, h⟩
        obtain ⟨h3, h4⟩ := (mem_second hp hj (Fin.is_lt _) i'.2 j'.2).1 h
        subst h4
        have : i' = i := hf.1 j' (by rw [hi]; exact Fin.ext h3)
        subst this
        rfl
    · obtain ⟨i, hi, p, hp, he⟩ := pair_ex (show 3 * (n * n) - 1 - x < n * n by omega)
      have hx' : x = 3 * (n * n) - 1 - (i * n + p) := by omega
      subst hx'
      obtain ⟨j, hj⟩ := Finite.surjective_of_injective (hf.2 ⟨i, hi⟩) ⟨p, hp⟩
      dsimp only at hj
      refine ⟨((f j ⟨i, hi⟩).val, i, j.val), ⟨⟨j, ⟨i, hi⟩, rfl⟩, ?_⟩, ?_⟩
      · rw [mem_first hp hi (Fin.is_lt _) hi j.2, hj]
        exact ⟨rfl, rfl⟩
      · rintro t ⟨⟨j', i', rfl⟩, h⟩
        obtain ⟨h3, h4⟩ := (mem_first hp hi (Fin.is_lt _) i'.2 j'.2).1 h
        subst h4
        have : j' = j := hf.2 i' (by dsimp only; rw [hj]; exact Fin.ext h3)
        subst this
        rfl

theorem square_of_cover {n : ℕ} {S : Finset ℕ} (h1 : ∀ k ∈ S, k < (placements n).length)
    (h2 : ∀ x < 3 * (n * n), ∃! t, Taken n S t ∧ x ∈ latinBits n t) :
    ∃ f : Fin n → Fin n → Fin n, IsLatin f ∧ positions f = S := by
  have hin : ∀ p i j, Taken n S (p, i, j) → p < n ∧ i < n ∧ j < n := by
    rintro p i j ⟨k, -, hk⟩
    exact mem_placements.1 (List.mem_of_getElem? hk)
  have hex : ∀ j i : Fin n, ∃ p : Fin n, Taken n S (p.val, i.val, j.val) := by
    intro j i
    have hlt := pair_lt j.2 i.2
    obtain ⟨⟨p, i', j'⟩, ⟨ht, hx⟩, -⟩ := h2 (n * n - 1 - (j.val * n + i.val)) (by omega)
    obtain ⟨hp, hi, hj⟩ := hin p i' j' ht
    obtain ⟨rfl, rfl⟩ := (mem_third i.2 j.2 hp hi hj).1 hx
    exact ⟨⟨p, hp⟩, ht⟩
  choose f hf using hex
  have hone : ∀ p i j, (h : Taken n S (p, i, j)) → f ⟨j, (hin p i j h).2.2⟩ ⟨i, (hin p i j h).2.1⟩ = ⟨p, (hin p i j h).1⟩ := by
    intro p i j h
    obtain ⟨hp, hi, hj⟩ := hin p i j h
    have hlt := pair_lt hj hi
    have := (h2 (n * n - 1 - (j * n + i)) (by omega)).unique
      ⟨hf ⟨j, hj⟩ ⟨i, hi⟩, (mem_third hi hj (Fin.is_lt _) hi hj).2 ⟨rfl, rfl⟩⟩
      ⟨h, (mem_third hi hj hp hi hj).2 ⟨rfl, rfl⟩⟩
    simp only [Prod.mk.injEq] at this
    exact Fin.ext this.1
  refine ⟨f, ⟨fun j i i' he => ?_, fun i j j' he => ?_⟩, ?_⟩
  · have hlt := pair_lt j.2 (f j i).2
    have := (h2 (2 * (n * n) - 1 - (j.val * n + (f j i).val)) (by omega)).unique
      ⟨hf j i, (mem_second (f j i).2 j.2 (Fin.is_lt _) i.2 j.2).2 ⟨rfl, rfl⟩⟩
      ⟨hf j i', (mem_second (f j i).2 j.2 (Fin.is_lt _) i'.2 j.2).2 ⟨by rw [he], rfl⟩⟩
    simp only [Prod.mk.injEq] at this
    exact Fin.ext this.2.1
  · dsimp only at he
    have hlt := pair_lt i.2 (f j i).2
    have := (h2 (3 * (n * n) - 1 - (i.val * n + (f j i).val)) (by omega)).unique
      ⟨hf j i, (mem_first (f j i).2 i.2 (Fin.is_lt _) i.2 j.2).2 ⟨rfl, rfl⟩⟩
      ⟨hf j' i, (mem_first (f j i).2 i.2 (Fin.is_lt _) i.2 j'.2).2 ⟨by rw [he], rfl⟩⟩
    simp only [Prod.mk.injEq] at this
    exact Fin.ext this.2.2
  · ext k
    constructor
    · intro hk
      obtain ⟨-, j, i, h⟩ := Finset.mem_filter.1 hk
      obtain ⟨k', hk', h'⟩ := hf j i
      obtain ⟨e1, e2⟩ := List.getElem?_eq_some_iff.1 h
      obtain ⟨e3, e4⟩ := List.getElem?_eq_some_iff.1 h'
      rw [(List.Nodup.getElem_inj_iff (nodup_placements n)).1 (e2.trans e4.symm)]
      exact hk'
    · intro hk
      have hkt := List.getElem?_eq_getElem (h1 k hk)
      rcases hc : (placements n)[k]'(h1 k hk) with ⟨p, i, j⟩
      rw [hc] at hkt
      have ht : Taken n S (p, i, j) := ⟨k, hk, hkt⟩
      refine Finset.mem_filter.2 ⟨Finset.mem_range.2 (h1 k hk), ⟨j, (hin p i j ht).2.2⟩, ⟨i, (hin p i j ht).2.1⟩, ?_⟩
      rw [hkt, hone p i j ht]

/-- C113: `ExactCoverBinary(latin_square_ints(n)).number_of_solutions()` is the number of Latin squares of order `n`. -/
theorem C113_latin_squares (n : ℕ) : (Binary.init (latinSquareInts n)).numberOfSolutions =
    .ok (Nat.card {f : Fin n → Fin n → Fin n // IsLatin f}) := by
  rw [C61_number_of_solutions, latin_numBits]
  congr 1
  symm
  refine Nat.card_eq_of_bijective (fun f => ⟨positions f.1, (latin_cover n _).2 (positions_cover f.2)⟩) ⟨?_, ?_⟩
  · rintro ⟨f, hf⟩ ⟨g, hg⟩ h
    have h' : positions f = positions g := congrArg Subtype.val h
    refine Subtype.ext (funext fun j => funext fun i => ?_)
    have := (taken_positions f _).2 ⟨j, i, rfl⟩
    rw [h', taken_positions] at this
    obtain ⟨j', i', h⟩ := this
    simp only [Prod.mk.injEq] at h
    obtain ⟨h1, h2, h3⟩ := h
    have := Fin.ext h2
    subst this
    have := Fin.ext h3
    subst this
    exact Fin.ext h1
  · rintro ⟨S, hS⟩
    obtain ⟨h1, h2⟩ := (latin_cover n S).1 hS
    obtain ⟨f, hf, hp⟩ := square_of_cover h1 h2
    exact ⟨⟨f, hf⟩, Subtype.ext hp⟩

example : latinSquareInts 2 = [2184, 2082, 644, 545, 1096, 1042, 324, 273] := by decide +kernel

/-- There are twelve Latin squares of order 3. -/
example : (Binary.init (latinSquareInts 3)).numberOfSolutions = .ok 12 := by decide +kernel

end Rosemary.Props
