import Verif.Model.NtMisc
import Mathlib.NumberTheory.ArithmeticFunction.Misc
import Mathlib.Algebra.BigOperators.Group.List.Basic

/-!
# Lemmas about `maximize_divisors`
-/

namespace Rosemary.NtMisc

/-! ## The search as a list of candidates -/

/-- `prod p_i ^ e_i` over two lists, as far as both go. -/
def powProd : List Nat → List Nat → Nat
  | p :: ps, e :: es => p ^ e * powProd ps es
  | _, _ => 1

/-- `prod (e_i + 1)`. -/
def tauProd (es : List Nat) : Nat := (es.map (· + 1)).prod

/-- Exponents that do not increase, start at most at `m` and are at least one. -/
def Descending : Nat → List Nat → Prop
  | _, [] => True
  | m, e :: es => 1 ≤ e ∧ e ≤ m ∧ Descending e es

/-- `st'` results from `st` by `record`ing candidates, each good, and all of those wanted. -/
structure Searched (good : Nat → Nat → Prop) (want : Nat → Nat → Prop) (st st' : Nat × Nat) : Prop where
  mono : st.1 ≤ st'.1
  good : st' = st ∨ good st'.1 st'.2
  want : ∀ t n, want t n → t ≤ st'.1

theorem Searched.refl {g : Nat → Nat → Prop} {w : Nat → Nat → Prop} (h : ∀ t n, ¬ w t n) (st : Nat × Nat) :
    Searched g w st st := ⟨le_refl _, Or.inl rfl, fun t n hw => absurd hw (h t n)⟩

theorem Searched.trans {g g1 g2 : Nat → Nat → Prop} {w w1 w2 : Nat → Nat → Prop} {a b c : Nat × Nat}
    (h1 : Searched g1 w1 a b) (h2 : Searched g2 w2 b c) (hg1 : ∀ t n, g1 t n → g t n) (hg2 : ∀ t n, g2 t n → g t n)
    (hw : ∀ t n, w t n → w1 t n ∨ w2 t n) : Searched g w a c := by
  refine ⟨h1.mono.trans h2.mono, ?_, ?_⟩
  · rcases h2.good with h | h
    · rw [h]
      rcases h1.good with h' | h'
      · exact Or.inl h'
      · exact Or.inr (hg1 _ _ h')
    · exact Or.inr (hg2 _ _ h)
  · intro t n ht
    rcases hw t n ht with h | h
    · exact (h1.want t n h).trans h2.mono
    · exact h2.want t n h

theorem record_searched (tau total : Nat) (st : Nat × Nat) :
    Searched (fun t n => t = tau ∧ n = total) (fun t n => t = tau ∧ n = total) st (record st tau total) := by
  unfold record
  by_cases h : tau > st.1
  · rw [if_pos h]
    exact ⟨le_of_lt h, Or.inr ⟨rfl, rfl⟩, fun t n ht => by rw [ht.1]⟩
  · rw [if_neg h]
    exact ⟨le_refl _, Or.inl rfl, fun t n ht => by rw [ht.1]; omega⟩

/-- The candidates below a node: exponents `es` for the primes `ps`. -/
def Cand (B : Int) (ps : List Nat) (lastE total tau : Nat) (t n : Nat) : Prop :=
  ∃ es, es.length ≤ ps.length ∧ Descending lastE es ∧ ((total * powProd ps es : Nat) : Int) ≤ B ∧
    t = tau * tauProd es ∧ n = total * powProd ps es

theorem powProd_pos (ps es : List Nat) (h : ∀ p ∈ ps, 0 < p) : 0 < powProd ps es := by
  induction ps generalizing es with
  | nil => cases es <;> simp [powProd]
  | cons p ps ih =>
    cases es with
    | nil => simp [powProd]
    | cons e es =>
      rw [powProd]
      exact Nat.mul_pos (Nat.pow_pos (h p (by simp))) (ih es (fun q hq => h q (List.mem_cons_of_mem _ hq)))

theorem backtrack_searched (B : Int) (ps : List Nat) (hps : ∀ p ∈ ps, 2 ≤ p) (lastE total tau : Nat) (ht : 0 < total)
    (hB : (total : Int) ≤ B) (st : Nat × Nat) :
    Searched (Cand B ps lastE total tau) (Cand B ps lastE total tau) st (backtrack B ps lastE total tau st) := by
  have hself : ∀ ps : List Nat, ∀ lastE total tau t n : Nat, (total : Int) ≤ B → (t = tau ∧ n = total) → Cand B ps lastE total tau t n := by
    rintro ps lastE total tau t n hB ⟨rfl, rfl⟩
    exact ⟨[], by simp, trivial, by cases ps <;> simpa [powProd] using hB, by simp [tauProd], by cases ps <;> simp [powProd]⟩
  induction ps generalizing lastE total tau st with
  | nil =>
    rw [backtrack]
    have h := record_searched tau total st
    refine h.trans (w2 := fun _ _ => False) (g2 := fun _ _ => False) (Searched.refl (by simp) _) (fun t n hh => hself _ _ _ _ _ _ hB hh) (by simp) ?_
    rintro t n ⟨es, h1, -, -, h4, h5⟩
    have : es = [] := List.length_eq_zero_iff.1 (by simpa using h1)
    subst this
    left
    exact ⟨by simpa [tauProd] using h4, by simpa [powProd] using h5⟩
  | cons p ps ih =>
    have hp2 := hps p (by simp)
    have hps' : ∀ q ∈ ps, 2 ≤ q := fun q hq => hps q (List.mem_cons_of_mem _ hq)
    rw [backtrack]
    have hloop : ∀ (fuel k : Nat) (st : Nat × Nat), 1 ≤ k →
        Searched (fun t n => ∃ e, k ≤ e ∧ e < k + fuel ∧ ((total * p ^ e : Nat) : Int) ≤ B ∧ Cand B ps e (total * p ^ e) (tau * (e + 1)) t n)
          (fun t n => ∃ e, k ≤ e ∧ e < k + fuel ∧ ((total * p ^ e : Nat) : Int) ≤ B ∧ Cand B ps e (total * p ^ e) (tau * (e + 1)) t n)
          st (backtrackLoop B total tau p (fun k t u s => backtrack B ps k t u s) fuel k (p ^ k) st) := by
      intro fuel
      induction fuel with
      | zero =>
        intro k st _
        rw [backtrackLoop]
        refine Searched.refl ?_ _
        rintro t n ⟨e, h1, h2, -⟩
        omega
      | succ fuel ihf =>
        intro k st hk
        rw [backtrackLoop]
        by_cases hb : ((total * p ^ k : Nat) : Int) ≤ B
        · rw [if_pos hb, ← pow_succ]
          have h1 := ih hps' k (total * p ^ k) (tau * (k + 1)) (by positivity) hb st
          have h2 := ihf (k + 1) (backtrack B ps k (total * p ^ k) (tau * (k + 1)) st) (by omega)
          refine h1.trans h2 ?_ ?_ ?_
          · intro t n h; exact ⟨k, le_refl _, by omega, hb, h⟩
          · rintro t n ⟨e, k1, k2, k3⟩; exact ⟨e, by omega, by omega, k3⟩
          · rintro t n ⟨e, k1, k2, k3, k4⟩
            by_cases he : e = k
            · subst he; exact Or.inl k4
            · exact Or.inr ⟨e, by omega, by omega, k3, k4⟩
        · rw [if_neg hb]
          refine Searched.refl ?_ _
          rintro t n ⟨e, h1, h2, h3, -⟩
          apply hb
          have : total * p ^ k ≤ total * p ^ e := Nat.mul_le_mul_left _ (Nat.pow_le_pow_right (by omega) h1)
          omega
    have h2 := hloop lastE 1 (record st tau total) (le_refl _)
    rw [pow_one] at h2
    refine (record_searched tau total st).trans h2 (fun t n hh => hself _ _ _ _ _ _ hB hh) ?_ ?_
    · rintro t n ⟨e, k1, k2, k3, es, m1, m2, m3, m4, m5⟩
      refine ⟨e :: es, by simpa using m1, ⟨k1, by omega, m2⟩, ?_, ?_, ?_⟩
      · rw [powProd, ← mul_assoc]; exact m3
      · rw [m4]; simp [tauProd, mul_assoc]
      · rw [m5, powProd, mul_assoc]
    · rintro t n ⟨es, m1, m2, m3, m4, m5⟩
      cases es with
      | nil =>
        left
        exact ⟨by simpa [tauProd] using m4, by simpa [powProd] using m5⟩
      | cons e es =>
        right
        obtain ⟨k1, k2, k3⟩ := m2
        rw [powProd, ← mul_assoc] at m3
        refine ⟨e, k1, by omega, ?_, es, by simpa using m1, k3, m3, ?_, ?_⟩
        · have := powProd_pos ps es (fun q hq => by have := hps' q hq; omega)
          have : total * p ^ e * 1 ≤ total * p ^ e * powProd ps es := Nat.mul_le_mul_left _ this
          omega
        · rw [m4]; simp [tauProd, mul_assoc]
        · rw [m5, powProd, mul_assoc]

theorem topLoop_searched (B : Int) (ps : List Nat) (hps : ∀ p ∈ ps, 2 ≤ p) (k : Nat) (hk : 1 ≤ k) (st : Nat × Nat) :
    Searched (fun t n => ∃ e, k ≤ e ∧ Cand B ps e (2 ^ e) (e + 1) t n)
      (fun t n => ∃ e, k ≤ e ∧ Cand B ps e (2 ^ e) (e + 1) t n) st (topLoop B ps k st) := by
  fun_induction topLoop B ps k st with
  | case1 k st hb ih =>
    refine (backtrack_searched B ps hps k (2 ^ k) (k + 1) (by positivity) hb st).trans (ih (by omega)) ?_ ?_ ?_
    · intro t n h; exact ⟨k, le_refl _, h⟩
    · rintro t n ⟨e, h1, h2⟩; exact ⟨e, by omega, h2⟩
    · rintro t n ⟨e, h1, h2⟩
      by_cases he : e = k
      · subst he; exact Or.inl h2
      · exact Or.inr ⟨e, by omega, h2⟩
  | case2 k st hb =>
    refine Searched.refl ?_ _
    rintro t n ⟨e, h1, es, -, -, h2, -⟩
    apply hb
    have hpos := powProd_pos ps es (fun q hq => by have := hps q hq; omega)
    have : 2 ^ k ≤ 2 ^ e := Nat.pow_le_pow_right (by omega) h1
    have : 2 ^ e * 1 ≤ 2 ^ e * powProd ps es := Nat.mul_le_mul_left _ hpos
    omega

end Rosemary.NtMisc
