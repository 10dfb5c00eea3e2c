import Verif.Spec.NumberTheory
import Mathlib.Data.Nat.Factorization.Basic
import Mathlib.Tactic.Ring
import Mathlib.Tactic.Positivity

/-! Facts about lists of (prime, exponent) pairs. -/

namespace Rosemary

theorem DistinctPrimes.tail {a : Nat × Nat} {l : List (Nat × Nat)} (h : DistinctPrimes (a :: l)) :
    DistinctPrimes l :=
  ⟨fun pe hpe => h.prime pe (List.mem_cons_of_mem _ hpe), (List.nodup_cons.1 h.nodup).2⟩

@[simp] theorem facProd_nil : facProd [] = 1 := rfl

@[simp] theorem facProd_cons (a : Nat × Nat) (l : List (Nat × Nat)) :
    facProd (a :: l) = a.1 ^ a.2 * facProd l := rfl

theorem facProd_pos {l : List (Nat × Nat)} (h : ∀ pe ∈ l, pe.1.Prime) : 0 < facProd l := by
  induction l with
  | nil => simp
  | cons a l ih =>
    have h1 := (h a List.mem_cons_self).pos
    have h2 := ih fun pe hpe => h pe (List.mem_cons_of_mem _ hpe)
    rw [facProd_cons]; positivity

theorem facProd_factorization_notMem {l : List (Nat × Nat)} (h : ∀ pe ∈ l, pe.1.Prime) (q : Nat)
    (hq : q ∉ l.map Prod.fst) : (facProd l).factorization q = 0 := by
  induction l with
  | nil => simp
  | cons a l ih =>
    have ha := h a List.mem_cons_self
    have hl : ∀ pe ∈ l, pe.1.Prime := fun pe hpe => h pe (List.mem_cons_of_mem _ hpe)
    rw [List.map_cons, List.mem_cons, not_or] at hq
    rw [facProd_cons, Nat.factorization_mul (pow_ne_zero _ ha.ne_zero) (facProd_pos hl).ne',
      Finsupp.add_apply, ih hl hq.2, ha.factorization_pow, Finsupp.single_apply, if_neg (Ne.symm hq.1)]

theorem facProd_factorization_mem {l : List (Nat × Nat)} (h : DistinctPrimes l) {pe : Nat × Nat}
    (hpe : pe ∈ l) : (facProd l).factorization pe.1 = pe.2 := by
  induction l with
  | nil => simp at hpe
  | cons a l ih =>
    have ha := h.prime a List.mem_cons_self
    have hl := h.tail
    have hn := (List.nodup_cons.1 (by simpa using h.nodup : (a.1 :: l.map Prod.fst).Nodup)).1
    rw [facProd_cons, Nat.factorization_mul (pow_ne_zero _ ha.ne_zero) (facProd_pos hl.prime).ne',
      Finsupp.add_apply, ha.factorization_pow, Finsupp.single_apply]
    rcases List.mem_cons.1 hpe with rfl | hm
    · rw [if_pos rfl, facProd_factorization_notMem hl.prime _ hn]; rfl
    · have : a.1 ≠ pe.1 := by
        intro e; apply hn; rw [e]; exact List.mem_map_of_mem hm
      rw [if_neg this, ih hl hm, zero_add]

end Rosemary
