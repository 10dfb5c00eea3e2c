import Verif.Model.Factorization
import Verif.Lemmas.Primality
import Mathlib.Tactic.NormNum.Prime

/-! Helper lemmas for `factor`. -/

namespace Rosemary.Factorization

open Rosemary.Core Rosemary.Primality

/-- The integer represented by a list of pairs. -/
def prodI (l : List (Int × Nat)) : Int := (l.map (fun pe => pe.1 ^ pe.2)).prod

theorem prodI_bump (p : Int) (k : Nat) (l : List (Int × Nat)) :
    prodI (bump p k l) = p ^ k * prodI l := by
  induction l with
  | nil => simp [bump, prodI]
  | cons a l ih =>
    obtain ⟨q, e⟩ := a
    simp only [bump]
    split
    · rename_i h; subst h
      simp only [prodI, List.map_cons, List.prod_cons, pow_add]; ring
    · simp only [prodI, List.map_cons, List.prod_cons] at ih ⊢
      rw [ih]; ring

theorem bump_keys (p : Int) (k : Nat) (l : List (Int × Nat)) (x : Int) :
    x ∈ (bump p k l).map Prod.fst ↔ x = p ∨ x ∈ l.map Prod.fst := by
  induction l with
  | nil => simp [bump]
  | cons a l ih =>
    obtain ⟨q, e⟩ := a
    simp only [bump]
    split
    · rename_i h; subst h; simp
    · simp only [List.map_cons, List.mem_cons] at ih ⊢
      rw [ih]; tauto

theorem bump_nodup (p : Int) (k : Nat) (l : List (Int × Nat)) (h : (l.map Prod.fst).Nodup) :
    ((bump p k l).map Prod.fst).Nodup := by
  induction l with
  | nil => simp [bump]
  | cons a l ih =>
    obtain ⟨q, e⟩ := a
    simp only [List.map_cons, List.nodup_cons] at h
    simp only [bump]
    split
    · simpa using h
    · rename_i hne
      simp only [List.map_cons, List.nodup_cons, bump_keys]
      exact ⟨by push Not; exact ⟨hne, h.1⟩, ih h.2⟩

theorem bump_pos (p : Int) (k : Nat) (hk : 1 ≤ k) (l : List (Int × Nat)) (h : ∀ pe ∈ l, 1 ≤ pe.2) :
    ∀ pe ∈ bump p k l, 1 ≤ pe.2 := by
  induction l with
  | nil => simpa [bump] using hk
  | cons a l ih =>
    obtain ⟨q, e⟩ := a
    simp only [List.mem_cons, forall_eq_or_imp] at h
    simp only [bump]
    split
    · simp only [List.mem_cons, forall_eq_or_imp]; exact ⟨by omega, h.2⟩
    · simp only [List.mem_cons, forall_eq_or_imp]; exact ⟨h.1, ih h.2⟩

/-- The `-1` entry keeps its exponent. -/
theorem bump_other (p : Int) (k : Nat) (l : List (Int × Nat)) (x : Int × Nat) (hx : x.1 ≠ p) :
    x ∈ bump p k l ↔ x ∈ l := by
  induction l with
  | nil => simp only [bump, List.mem_singleton, List.not_mem_nil, iff_false]; rintro rfl; exact hx rfl
  | cons a l ih =>
    obtain ⟨q, e⟩ := a
    simp only [bump]
    split
    · rename_i h; subst h
      simp only [List.mem_cons]
      constructor
      · rintro (rfl | h)
        · exact absurd rfl hx
        · exact Or.inr h
      · rintro (rfl | h)
        · exact absurd rfl hx
        · exact Or.inr h
    · simp only [List.mem_cons, ih]

/-- Invariant of the dictionary: distinct keys, positive exponents, keys satisfying `Q` or the
sign entry. -/
structure FacInv (Q : Nat → Prop) (sgn : Bool) (l : List (Int × Nat)) : Prop where
  nodup : (l.map Prod.fst).Nodup
  pos : ∀ pe ∈ l, 1 ≤ pe.2
  keys : ∀ pe ∈ l, (pe = (-1, 1) ∧ sgn = true) ∨ ∃ p : Nat, Q p ∧ pe.1 = p
  sign : sgn = true → ((-1, 1) : Int × Nat) ∈ l

theorem FacInv.bump {Q : Nat → Prop} {sgn : Bool} {l : List (Int × Nat)} (h : FacInv Q sgn l) (p : Nat)
    (hp : Q p) : FacInv Q sgn (bump p 1 l) := by
  refine ⟨bump_nodup _ _ _ h.nodup, bump_pos _ _ le_rfl _ h.pos, ?_, ?_⟩
  · intro pe hpe
    by_cases hx : pe.1 = (p : Int)
    · exact Or.inr ⟨p, hp, hx⟩
    · exact h.keys pe ((bump_other _ _ _ _ hx).1 hpe)
  · intro hs
    refine (bump_other _ _ _ _ ?_).2 (h.sign hs)
    simp only; omega

theorem stripInto_spec {Q : Nat → Prop} {sgn : Bool} (p n : Nat) (l : List (Int × Nat)) (hp : Q p)
    (hp2 : 2 ≤ p) (hn : 0 < n) (h : FacInv Q sgn l) :
    FacInv Q sgn (stripInto p n l).2 ∧ 0 < (stripInto p n l).1 ∧
    prodI (stripInto p n l).2 * (stripInto p n l).1 = prodI l * n ∧
    (stripInto p n l).1 ∣ n ∧ ¬ p ∣ (stripInto p n l).1 := by
  fun_induction stripInto p n l with
  | case1 n l hc ih =>
    have hd := Nat.dvd_of_mod_eq_zero hc.2.2
    obtain ⟨h1, h2, h3, h4, h5⟩ := ih (Nat.div_pos (Nat.le_of_dvd hn hd) (by omega)) (h.bump p hp)
    refine ⟨h1, h2, ?_, h4.trans (Nat.div_dvd_of_dvd hd), h5⟩
    rw [h3, prodI_bump]
    have : (n : Int) = p * (n / p : Nat) := by exact_mod_cast (Nat.mul_div_cancel' hd).symm
    rw [this]
    simp only [pow_one]
    ring
  | case2 n l hc =>
    refine ⟨h, hn, rfl, dvd_rfl, fun hd => hc ⟨hp2, hn, Nat.mod_eq_zero_of_dvd hd⟩⟩

theorem smallFactors_spec {sgn : Bool} (T : List Nat) (d l N : Nat) (fac : List (Int × Nat))
    (hs : T.Pairwise (· < ·)) (hT : ∀ p, p ∈ T ↔ p.Prime ∧ p ≤ l ∧ d < p)
    (hN : 0 < N) (hno : ∀ q, q.Prime → q ≤ d → ¬ q ∣ N) (hf : FacInv Nat.Prime sgn fac) :
    FacInv Nat.Prime sgn (smallFactors T N fac).2 ∧ 0 < (smallFactors T N fac).1 ∧
    prodI (smallFactors T N fac).2 * (smallFactors T N fac).1 = prodI fac * N ∧
    (smallFactors T N fac).1 ≤ N ∧
    ∀ q, q.Prime → q ≤ l → ¬ q ∣ (smallFactors T N fac).1 := by
  induction T generalizing d N fac with
  | nil =>
    refine ⟨hf, hN, rfl, le_rfl, fun q hq hle => ?_⟩
    refine hno q hq ?_
    by_contra hc
    have := (hT q).2 ⟨hq, hle, by omega⟩
    simp at this
  | cons p T ih =>
    have hp := (hT p).1 List.mem_cons_self
    rw [List.pairwise_cons] at hs
    have hbelow : ∀ q, q.Prime → q < p → ¬ q ∣ N := by
      intro q hq hlt
      apply hno q hq
      by_contra hc
      have hm : q ∈ p :: T := (hT q).2 ⟨hq, by omega, by omega⟩
      rcases List.mem_cons.1 hm with e | hm
      · omega
      · have := hs.1 q hm; omega
    simp only [smallFactors]
    split
    · rename_i h; subst h
      refine ⟨hf, hN, rfl, le_rfl, fun q hq hle hd => ?_⟩
      exact hq.one_lt.ne' (Nat.dvd_one.1 hd)
    · split
      · rename_i h1 h2
        have hprime : N.Prime := by
          by_contra hc
          have hm := Nat.minFac_sq_le_self hN hc
          have h3 : ¬ N.minFac < p := fun hlt =>
            hbelow _ (Nat.minFac_prime h1) hlt (Nat.minFac_dvd N)
          nlinarith
        refine ⟨hf.bump N hprime, by omega, ?_, by omega, fun q hq hle hd => ?_⟩
        · rw [prodI_bump]; push_cast; ring
        · exact hq.one_lt.ne' (Nat.dvd_one.1 hd)
      · rename_i h1 h2
        obtain ⟨a1, a2, a3, a4, a5⟩ := stripInto_spec p N fac hp.1 hp.1.two_le hN hf
        have := ih p (stripInto p N fac).1 (stripInto p N fac).2 hs.2 ?_ a2 ?_ a1
        · obtain ⟨b1, b2, b3, b4, b5⟩ := this
          exact ⟨b1, b2, b3.trans a3, b4.trans (Nat.le_of_dvd hN a4), b5⟩
        · intro q
          constructor
          · intro hq
            have h1 := (hT q).1 (List.mem_cons_of_mem _ hq)
            exact ⟨h1.1, h1.2.1, hs.1 q hq⟩
          · rintro ⟨h1, h2, h3⟩
            have hm : q ∈ p :: T := (hT q).2 ⟨h1, h2, by omega⟩
            rcases List.mem_cons.1 hm with e | hm
            · omega
            · exact hm
        · intro q hq hle hd
          rcases Nat.lt_or_eq_of_le hle with h | rfl
          · exact hbelow q hq h (hd.trans a4)
          · exact a5 hd

/-- What an oracle for the splitting routine must satisfy (proved for `pollard_rho_brent`):
whatever is returned is a divisor greater than 1. -/
def GoodSplitter (fct : Nat → Nat → Option Nat) : Prop :=
  ∀ i m d, 1 < m → fct i m = some d → 1 < d ∧ d ∣ m

/-- A number accepted by `factor` as prime without being reached by trial division. -/
def Accepted (l : Nat) (p : Nat) : Prop :=
  p.Prime ∨ (isProbablePrime p = true ∧ ∀ q, q.Prime → q ∣ p → l < q)

theorem splitLoop_spec (fct : Nat → Nat → Option Nat) (hfct : GoodSplitter fct) (i d : Nat)
    (r : Nat × Nat) (hd : 1 < d) (h : splitLoop fct i d = some r) :
    1 < r.1 ∧ r.1 ∣ d ∧ isProbablePrime r.1 = true := by
  refine splitLoop.partial_correctness fct
    (fun i d r => 1 < d → 1 < r.1 ∧ r.1 ∣ d ∧ isProbablePrime r.1 = true) ?_ i d r h hd
  intro f ih i d r h hd
  split at h
  · rename_i hp
    cases h; exact ⟨hd, dvd_rfl, hp⟩
  · cases hf : fct i d with
    | none => rw [hf] at h; simp at h
    | some d' =>
      rw [hf] at h
      obtain ⟨h1, h2⟩ := hfct i d d' hd hf
      obtain ⟨h3, h4, h5⟩ := ih _ _ _ h h1
      exact ⟨h3, h4.trans h2, h5⟩

theorem bigFactors_spec (fct : Nat → Nat → Option Nat) (hfct : GoodSplitter fct) (l : Nat) {sgn : Bool}
    (i n : Nat) (fac r : List (Int × Nat)) (h : bigFactors fct i n fac = some r) (hn : 0 < n)
    (hno : ∀ q, q.Prime → q ∣ n → l < q) (hf : FacInv (Accepted l) sgn fac) :
    FacInv (Accepted l) sgn r ∧ prodI r = prodI fac * n := by
  refine bigFactors.partial_correctness fct
    (fun i n fac r => 0 < n → (∀ q, q.Prime → q ∣ n → l < q) → FacInv (Accepted l) sgn fac →
      FacInv (Accepted l) sgn r ∧ prodI r = prodI fac * n) ?_ i n fac r h hn hno hf
  intro f ih i n fac r h hn hno hf
  split at h
  · rename_i h1
    split at h
    · rename_i hp
      obtain ⟨b1, b2⟩ := ih _ _ _ _ h (by omega) (fun q hq hd => absurd (Nat.dvd_one.1 hd) hq.ne_one)
        (hf.bump n (Or.inr ⟨hp, hno⟩))
      refine ⟨b1, ?_⟩
      rw [b2, prodI_bump]; push_cast; ring
    · cases hf' : fct i n with
      | none => rw [hf'] at h; simp at h
      | some d =>
        rw [hf'] at h
        obtain ⟨h2, h3⟩ := hfct i n d h1 hf'
        cases hs : splitLoop fct (i + 1) d with
        | none => 
          simp only [Option.bind_eq_bind, Option.bind_some, hs, Option.bind_none] at h
          cases h
        | some di =>
          simp only [Option.bind_eq_bind, Option.bind_some, hs] at h
          obtain ⟨h4, h5, h6⟩ := splitLoop_spec fct hfct _ _ _ h2 hs
          have hdn : di.1 ∣ n := h5.trans h3
          have hacc : Accepted l di.1 := Or.inr ⟨h6, fun q hq hd => hno q hq (hd.trans hdn)⟩
          obtain ⟨a1, a2, a3, a4, a5⟩ := stripInto_spec di.1 n fac hacc (by omega) hn hf
          obtain ⟨b1, b2⟩ := ih _ _ _ _ h a2 (fun q hq hd => hno q hq (hd.trans a4)) a1
          exact ⟨b1, b2.trans a3⟩
  · rename_i h1
    cases h
    have : n = 1 := by omega
    subst this
    exact ⟨hf, by simp⟩

theorem pairLe_trans (a b c : Int × Nat) : pairLe a b → pairLe b c → pairLe a c := by
  simp only [pairLe, Bool.or_eq_true, decide_eq_true_eq, Bool.and_eq_true, beq_iff_eq]
  omega

theorem pairLe_total (a b : Int × Nat) : (pairLe a b || pairLe b a) = true := by
  simp only [pairLe, Bool.or_eq_true, decide_eq_true_eq, Bool.and_eq_true, beq_iff_eq]
  omega

theorem sorted_keys (l : List (Int × Nat)) (h : (l.map Prod.fst).Nodup) :
    ((pySort l pairLe).map Prod.fst).Pairwise (· < ·) := by
  have h1 := pairwise_pySort pairLe_trans pairLe_total l
  have h2 : ((pySort l pairLe).map Prod.fst).Nodup :=
    ((pySort_perm l pairLe).map _).nodup_iff.2 h
  rw [List.pairwise_map]
  rw [List.Nodup, List.pairwise_map] at h2
  refine (h1.and h2).imp ?_
  intro a b ⟨h3, h4⟩
  simp only [pairLe, Bool.or_eq_true, decide_eq_true_eq, Bool.and_eq_true, beq_iff_eq] at h3
  omega

theorem smallFactors_none (T : List Nat) (n : Nat) (fac : List (Int × Nat)) (hn : 1 < n)
    (h : ∀ p ∈ T, ¬ p ∣ n ∧ p * p ≤ n) : smallFactors T n fac = (n, fac) := by
  induction T with
  | nil => rfl
  | cons p T ih =>
    have hp := h p List.mem_cons_self
    simp only [smallFactors]
    rw [if_neg (by omega), if_neg (by omega)]
    have : stripInto p n fac = (n, fac) := by
      rw [stripInto, dif_neg]
      rintro ⟨_, _, h3⟩
      exact hp.1 (Nat.dvd_of_mod_eq_zero h3)
    rw [this]
    exact ih fun q hq => h q (List.mem_cons_of_mem _ hq)

/-- Modular exponentiation for evaluating `isProbablePrime` on a large literal. -/
def mrFast (n a : Nat) : Bool :=
  let ts := strip2 (n - 1) 0
  let b := powerModLoop n (a % n) 1 ts.1
  if b = 1 ∨ b = n - 1 then true else mrLoop n b (ts.2 - 1)

theorem mrFast_eq (n a : Nat) (hn : 2 ≤ n) : mrFast n a = millerRabin n a := by
  have h : powerModLoop n (a % n) 1 (strip2 (n - 1) 0).1 = a ^ (strip2 (n - 1) 0).1 % n := by
    have h1 := powerModLoop_modEq n (a % n) 1 (strip2 (n - 1) 0).1
    have h2 := powerModLoop_lt n (a % n) 1 (strip2 (n - 1) 0).1 (by omega) (by omega)
    rw [one_mul] at h1
    have h3 : powerModLoop n (a % n) 1 (strip2 (n - 1) 0).1 % n = (a % n) ^ (strip2 (n - 1) 0).1 % n := h1
    rw [Nat.mod_eq_of_lt h2, ← Nat.pow_mod] at h3
    exact h3
  simp only [mrFast, millerRabin, h]

theorem pseudoprime_accepted : isProbablePrime 341550071728321 = true := by
  unfold isProbablePrime
  have h : (List.range' 2 (min (341550071728321 - 1) 20 - 2)).all
      (fun a => mrFast 341550071728321 a) = true := by decide +kernel
  rw [List.all_eq_true] at h ⊢
  intro a ha
  rw [← mrFast_eq _ _ (by norm_num)]
  exact h a ha

end Rosemary.Factorization
