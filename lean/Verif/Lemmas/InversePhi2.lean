import Verif.Lemmas.InversePhi

/-!
# Lemmas about `inverse_phi`
-/

namespace Rosemary.InverseFunctions

open Rosemary.Factorization Rosemary.Primality Rosemary.Props

theorem cacheGet_add (c : Dict Nat (List Nat)) (k v d : Nat) :
    cacheGet (cacheAdd c k v) d = cacheGet c d ++ (if k = d then [v] else []) := by
  unfold cacheAdd
  rw [cacheGet, Dict.get?_set]
  by_cases h : k = d
  · rw [if_pos h, if_pos h, h]; rfl
  · rw [if_neg h, if_neg h, List.append_nil]; rfl

theorem mem_keys_of_mem_cacheGet {c : Dict Nat (List Nat)} {d k : Nat} (h : k ∈ cacheGet c d) : d ∈ Dict.keys c := by
  by_contra hc
  rw [cacheGet, Dict.get?_eq_none.2 hc] at h
  cases h

theorem innerLoop_spec (n p a pk b : Nat) (hpk : p ∣ pk) (M : Nat) (rem : List Nat)
    (hM : rem.length + rem.countP (fun x => decide (x % p ≠ 0)) ≤ M) (c : Dict Nat (List Nat)) (hc : Dict.WF c) :
    ∃ c', innerLoop n p a pk b rem c = some c' ∧ Dict.WF c' ∧
      ∀ d, cacheGet c' d = cacheGet c d ++
        (if a * b = d ∧ n % (a * b) = 0 then (rem.filter (fun x => decide (x % p ≠ 0))).map (· * pk) else []) := by
  induction M generalizing rem c with
  | zero =>
    have : rem = [] := by
      cases rem with
      | nil => rfl
      | cons => simp at hM
    subst this
    refine ⟨c, by rw [innerLoop.eq_def], hc, fun d => by simp⟩
  | succ M ih =>
    cases rem with
    | nil => exact ⟨c, by rw [innerLoop.eq_def], hc, fun d => by simp⟩
    | cons x rest =>
      rw [innerLoop.eq_def]
      dsimp only
      rw [List.length_cons, List.countP_cons] at hM
      by_cases hx : x % p ≠ 0
      · have hx' : decide (x % p ≠ 0) = true := decide_eq_true hx
        rw [if_pos hx'] at hM
        by_cases hn : n % (a * b) = 0
        · rw [if_pos ⟨hx, hn⟩]
          have hxp : (x * pk) % p = 0 := Nat.mod_eq_zero_of_dvd (dvd_mul_of_dvd_right hpk _)
          obtain ⟨c', h1, h2, h3⟩ := ih (if a * b = b then rest ++ [x * pk] else rest) (by
            split_ifs
            · rw [List.length_append, List.countP_append]
              simp [hxp]
              simp at hM
              omega
            · omega) (cacheAdd c (a * b) (x * pk)) (hc.set _ _)
          refine ⟨c', h1, h2, fun d => ?_⟩
          have hf : (if a * b = b then rest ++ [x * pk] else rest).filter (fun x => decide (x % p ≠ 0)) =
              rest.filter (fun x => decide (x % p ≠ 0)) := by
            split_ifs
            · rw [List.filter_append]; simp [hxp]
            · rfl
          rw [h3, cacheGet_add, hf, List.filter_cons, if_pos hx']
          by_cases hd : a * b = d
          · rw [if_pos hd, if_pos ⟨hd, hn⟩, if_pos ⟨hd, hn⟩]
            simp
          · rw [if_neg hd, if_neg (fun h => hd h.1), if_neg (fun h => hd h.1)]
            simp
        · rw [if_neg (fun h => hn h.2)]
          obtain ⟨c', h1, h2, h3⟩ := ih rest (by omega) c hc
          refine ⟨c', h1, h2, fun d => ?_⟩
          rw [h3, if_neg (fun h => hn h.2), if_neg (fun h => hn h.2)]
      · rw [if_neg (fun h => hx h.1)]
        obtain ⟨c', h1, h2, h3⟩ := ih rest (by omega) c hc
        refine ⟨c', h1, h2, fun d => ?_⟩
        have hx' : ¬ decide (x % p ≠ 0) = true := by simpa using hx
        rw [h3, List.filter_cons, if_neg hx']

/-- The entries of the cache are the `k > 1` with property `P` under the key `phi(k)`, for the keys
that divide `n`, each once. -/
structure CInv (n : Nat) (P : Nat → Prop) (c : Dict Nat (List Nat)) : Prop where
  wf : Dict.WF c
  nodup : ∀ d, (cacheGet c d).Nodup
  mem : ∀ d k, k ∈ cacheGet c d ↔ 1 < k ∧ k.totient = d ∧ d ∣ n ∧ P k

theorem CInv.congr {n : Nat} {P Q : Nat → Prop} {c : Dict Nat (List Nat)} (h : CInv n P c)
    (hPQ : ∀ k, 1 < k → k.totient ∣ n → (P k ↔ Q k)) : CInv n Q c := by
  refine ⟨h.wf, h.nodup, fun d k => ?_⟩
  rw [h.mem]
  constructor
  · rintro ⟨h1, h2, h3, h4⟩
    exact ⟨h1, h2, h3, (hPQ k h1 (h2 ▸ h3)).1 h4⟩
  · rintro ⟨h1, h2, h3, h4⟩
    exact ⟨h1, h2, h3, (hPQ k h1 (h2 ▸ h3)).2 h4⟩

/-- The numbers with all their prime factors in `S`. -/
def Smooth (S : List Nat) (k : Nat) : Prop := ∀ q, q.Prime → q ∣ k → q ∈ S

/-- What the cache contains in the middle of the loop over the keys `K`, for the power `p ^ (i + 1)`. -/
def Mid (S : List Nat) (p i : Nat) (K : List Nat) (k : Nat) : Prop :=
  (Smooth (p :: S) k ∧ ¬ p ^ (i + 1) ∣ k) ∨
    ∃ x, k = x * p ^ (i + 1) ∧ ¬ p ∣ x ∧ Smooth S x ∧ (x = 1 ∨ x.totient ∈ K)

theorem totient_mul_pow {p i x : Nat} (hp : p.Prime) (hx : ¬ p ∣ x) :
    (x * p ^ (i + 1)).totient = (p - 1) * p ^ i * x.totient := by
  rw [Nat.totient_mul ((Nat.Coprime.pow_left _ ((Nat.Prime.coprime_iff_not_dvd hp).2 hx)).symm),
    Nat.totient_prime_pow_succ hp]
  ring

theorem smooth_of_mid {S : List Nat} {p i : Nat} {K : List Nat} {x : Nat} (h : Mid S p i K x) (hx : ¬ p ∣ x) :
    Smooth S x := by
  intro q hq hd
  rcases h with ⟨h, -⟩ | ⟨y, h, -⟩
  · rcases List.mem_cons.1 (h q hq hd) with rfl | h
    · exact absurd hd hx
    · exact h
  · exact absurd (h ▸ dvd_mul_of_dvd_right (dvd_pow_self p (by omega)) _) hx

theorem keysLoop_spec {n p i size : Nat} (hn : 0 < n) (hp : p.Prime) {S : List Nat} (hpS : p ∉ S) (ks K : List Nat)
    (c : Dict Nat (List Nat)) (h : CInv n (Mid S p i K) c) (hnd : ks.Nodup) (hdis : ∀ b ∈ ks, b ∉ K) :
    ∃ r, keysLoop n p ((p - 1) * p ^ i) (p ^ (i + 1)) size ks c = some r ∧
      (r = .error .runtimeError ∨ ∃ c', r = .ok c' ∧ CInv n (Mid S p i (ks ++ K)) c') := by
  induction ks generalizing K c with
  | nil =>
    rw [keysLoop]
    split_ifs
    · exact ⟨_, rfl, Or.inl rfl⟩
    · exact ⟨_, rfl, Or.inr ⟨c, rfl, h⟩⟩
  | cons b bs ih =>
    rw [keysLoop]
    by_cases hs : c.length ≠ size
    · rw [if_pos hs]; exact ⟨_, rfl, Or.inl rfl⟩
    rw [if_neg hs]
    have hnd' := (List.nodup_cons.1 hnd).2
    have hdis' : ∀ b' ∈ bs, b' ∉ b :: K := by
      intro b' hb' hm
      rcases List.mem_cons.1 hm with rfl | hm
      · exact (List.nodup_cons.1 hnd).1 hb'
      · exact hdis b' (List.mem_cons_of_mem _ hb') hm
    have hmid : ∀ k, Mid S p i (bs ++ b :: K) k ↔ Mid S p i (b :: bs ++ K) k := by
      intro k
      unfold Mid
      simp only [List.mem_append, List.mem_cons]
      constructor
      · rintro (h | ⟨x, h1, h2, h3, h4⟩)
        · exact Or.inl h
        · exact Or.inr ⟨x, h1, h2, h3, by tauto⟩
      · rintro (h | ⟨x, h1, h2, h3, h4⟩)
        · exact Or.inl h
        · exact Or.inr ⟨x, h1, h2, h3, by tauto⟩
    have hfin : ∀ c1, CInv n (Mid S p i (b :: K)) c1 →
        ∃ r, keysLoop n p ((p - 1) * p ^ i) (p ^ (i + 1)) size bs c1 = some r ∧
          (r = .error .runtimeError ∨ ∃ c', r = .ok c' ∧ CInv n (Mid S p i (b :: bs ++ K)) c') := by
      intro c1 hc1
      obtain ⟨r, h1, h2⟩ := ih (b :: K) c1 hc1 hnd' hdis'
      refine ⟨r, h1, ?_⟩
      rcases h2 with h2 | ⟨c', h2, h3⟩
      · exact Or.inl h2
      · exact Or.inr ⟨c', h2, h3.congr (fun k _ _ => hmid k)⟩
    -- the new members when `b` is processed
    have hnew : ∀ k, Mid S p i (b :: K) k ↔ Mid S p i K k ∨
        ∃ x, k = x * p ^ (i + 1) ∧ ¬ p ∣ x ∧ Smooth S x ∧ x.totient = b := by
      intro k
      unfold Mid
      simp only [List.mem_cons]
      constructor
      · rintro (h | ⟨x, h1, h2, h3, h4 | h4 | h4⟩)
        · exact Or.inl (Or.inl h)
        · exact Or.inl (Or.inr ⟨x, h1, h2, h3, Or.inl h4⟩)
        · exact Or.inr ⟨x, h1, h2, h3, h4⟩
        · exact Or.inl (Or.inr ⟨x, h1, h2, h3, Or.inr h4⟩)
      · rintro ((h | ⟨x, h1, h2, h3, h4⟩) | ⟨x, h1, h2, h3, h4⟩)
        · exact Or.inl h
        · exact Or.inr ⟨x, h1, h2, h3, by tauto⟩
        · exact Or.inr ⟨x, h1, h2, h3, Or.inr (Or.inl h4)⟩
    by_cases hab : (p - 1) * p ^ i * b > n
    · rw [if_pos hab]
      refine hfin c (h.congr ?_)
      intro k _ hk
      rw [hnew]
      refine ⟨Or.inl, fun hh => ?_⟩
      rcases hh with hh | ⟨x, h1, h2, h3, h4⟩
      · exact hh
      · rw [h1, totient_mul_pow hp h2, h4] at hk
        exact absurd (Nat.le_of_dvd hn hk) (by omega)
    · rw [if_neg hab]
      obtain ⟨c', h1, h2, h3⟩ := innerLoop_spec n p ((p - 1) * p ^ i) (p ^ (i + 1)) b (dvd_pow_self p (by omega)) _
        (cacheGet c b) (le_refl _) c h.wf
      rw [h1]
      refine hfin c' ?_
      have hb : b ∉ K := hdis b (by simp)
      have hp1 : 1 < p ^ (i + 1) := Nat.one_lt_pow (by omega) hp.one_lt
      refine ⟨h2, fun d => ?_, fun d k => ?_⟩
      · rw [h3]
        by_cases hd : (p - 1) * p ^ i * b = d ∧ n % ((p - 1) * p ^ i * b) = 0
        · rw [if_pos hd, List.nodup_append]
          refine ⟨h.nodup d, (((h.nodup b).filter _).map (fun x y hxy => Nat.eq_of_mul_eq_mul_right (by omega) hxy)), ?_⟩
          rintro k hk _ hk' rfl
          obtain ⟨x, hx, hxk⟩ := List.mem_map.1 hk'
          obtain ⟨hx1, hx2⟩ := List.mem_filter.1 hx
          have hpx : ¬ p ∣ x := by
            intro hd
            rw [decide_eq_true_eq] at hx2
            exact hx2 (Nat.mod_eq_zero_of_dvd hd)
          obtain ⟨l1, l2, -, -⟩ := (h.mem b x).1 hx1
          obtain ⟨-, -, -, m4⟩ := (h.mem d k).1 hk
          rcases m4 with ⟨-, m⟩ | ⟨y, m1, m2, -, m4⟩
          · exact m (hxk ▸ dvd_mul_left _ _)
          · have : x = y := Nat.eq_of_mul_eq_mul_right (by omega) (hxk.trans m1)
            subst this
            rcases m4 with m4 | m4
            · omega
            · rw [l2] at m4; exact hb m4
        · rw [if_neg hd, List.append_nil]; exact h.nodup d
      · rw [h3, List.mem_append, h.mem]
        constructor
        · rintro (⟨k1, k2, k3, k4⟩ | hk)
          · exact ⟨k1, k2, k3, (hnew k).2 (Or.inl k4)⟩
          · by_cases hd : (p - 1) * p ^ i * b = d ∧ n % ((p - 1) * p ^ i * b) = 0
            · rw [if_pos hd] at hk
              obtain ⟨x, hx, hxk⟩ := List.mem_map.1 hk
              obtain ⟨hx1, hx2⟩ := List.mem_filter.1 hx
              have hpx : ¬ p ∣ x := by
                intro hd
                rw [decide_eq_true_eq] at hx2
                exact hx2 (Nat.mod_eq_zero_of_dvd hd)
              obtain ⟨l1, l2, l3, l4⟩ := (h.mem b x).1 hx1
              refine ⟨?_, ?_, ?_, (hnew k).2 (Or.inr ⟨x, hxk.symm, hpx, smooth_of_mid l4 hpx, l2⟩)⟩
              · rw [← hxk]; nlinarith
              · rw [← hxk, totient_mul_pow hp hpx, l2, hd.1]
              · rw [← hd.1]; exact Nat.dvd_of_mod_eq_zero hd.2
            · rw [if_neg hd] at hk; cases hk
        · rintro ⟨k1, k2, k3, k4⟩
          by_cases hK : Mid S p i K k
          · exact Or.inl ⟨k1, k2, k3, hK⟩
          · right
            rcases (hnew k).1 k4 with h4 | ⟨x, m1, m2, m3, m4⟩
            · exact absurd h4 hK
            have hphi : k.totient = (p - 1) * p ^ i * b := by rw [m1, totient_mul_pow hp m2, m4]
            rw [if_pos ⟨hphi.symm.trans k2, Nat.mod_eq_zero_of_dvd (by rw [← hphi, k2]; exact k3)⟩]
            refine List.mem_map.2 ⟨x, List.mem_filter.2 ⟨?_, ?_⟩, m1.symm⟩
            · rw [h.mem]
              have hx1 : x ≠ 1 := by
                rintro rfl
                exact hK (Or.inr ⟨1, m1, m2, m3, Or.inl rfl⟩)
              have hx0 : x ≠ 0 := by
                rintro rfl; exact m2 (dvd_zero _)
              refine ⟨by omega, m4, ?_, Or.inl ⟨fun q hq hd => List.mem_cons_of_mem _ (m3 q hq hd), ?_⟩⟩
              · rw [← k2, hphi] at k3
                exact dvd_trans (Dvd.intro_left _ rfl) k3
              · intro hd
                exact m2 (dvd_trans (dvd_pow_self p (by omega)) hd)
            · rw [decide_eq_true_eq]
              intro hd
              exact m2 (Nat.dvd_of_mod_eq_zero hd)

theorem powLoop_spec {n p : Nat} (hn : 0 < n) (hp : p.Prime) {S : List Nat} (hpS : p ∉ S) (M i : Nat)
    (hM : n + 1 - (p - 1) * p ^ i ≤ M) (c : Dict Nat (List Nat))
    (h : CInv n (fun k => Smooth (p :: S) k ∧ ¬ p ^ (i + 1) ∣ k) c) :
    ∃ r, powLoop n p ((p - 1) * p ^ i) (p ^ (i + 1)) c = some r ∧
      (r = .error .runtimeError ∨ ∃ c', r = .ok c' ∧ CInv n (Smooth (p :: S)) c') := by
  have hp2 := hp.two_le
  have hpi : 0 < p ^ i := by positivity
  have hdone : ∀ i, n < (p - 1) * p ^ i → CInv n (fun k => Smooth (p :: S) k ∧ ¬ p ^ (i + 1) ∣ k) c →
      CInv n (Smooth (p :: S)) c := by
    intro i hlt h
    refine h.congr (fun k hk hd => ⟨fun hh => hh.1, fun hh => ⟨hh, fun hpk => ?_⟩⟩)
    have := dvd_trans (Nat.totient_dvd_of_dvd hpk) hd
    rw [Nat.totient_prime_pow_succ hp] at this
    have := Nat.le_of_dvd hn this
    rw [mul_comm] at this
    omega
  induction M generalizing i c with
  | zero =>
    rw [powLoop.eq_def, if_neg (by omega)]
    exact ⟨_, rfl, Or.inr ⟨c, rfl, hdone i (by omega) h⟩⟩
  | succ M ih =>
    rw [powLoop.eq_def]
    by_cases ha : (p - 1) * p ^ i ≤ n
    · rw [if_pos ha]
      have hone : (1 * p ^ (i + 1)).totient = (p - 1) * p ^ i * (1 : Nat).totient :=
        totient_mul_pow hp (fun hd => hp.one_lt.ne' (Nat.dvd_one.1 hd))
      rw [one_mul, Nat.totient_one, mul_one] at hone
      have hp1 : 1 < p ^ (i + 1) := Nat.one_lt_pow (by omega) hp.one_lt
      have hmid0 : ∀ k, Mid S p i [] k ↔ (Smooth (p :: S) k ∧ ¬ p ^ (i + 1) ∣ k) ∨ k = p ^ (i + 1) := by
        intro k
        unfold Mid
        constructor
        · rintro (h | ⟨x, h1, -, -, h4 | h4⟩)
          · exact Or.inl h
          · rw [h4, one_mul] at h1; exact Or.inr h1
          · cases h4
        · rintro (h | h)
          · exact Or.inl h
          · refine Or.inr ⟨1, by rw [one_mul]; exact h, fun hd => hp.one_lt.ne' (Nat.dvd_one.1 hd), ?_, Or.inl rfl⟩
            intro q hq hd
            exact absurd (Nat.dvd_one.1 hd) hq.one_lt.ne'
      have hc0 : CInv n (Mid S p i []) (if n % ((p - 1) * p ^ i) = 0 then cacheAdd c ((p - 1) * p ^ i) (p ^ (i + 1)) else c) := by
        by_cases hd : n % ((p - 1) * p ^ i) = 0
        · rw [if_pos hd]
          refine ⟨h.wf.set _ _, fun d => ?_, fun d k => ?_⟩
          · rw [cacheGet_add]
            by_cases he : (p - 1) * p ^ i = d
            · rw [if_pos he, List.nodup_append]
              refine ⟨h.nodup d, by simp, ?_⟩
              rintro k hk _ hk' rfl
              rw [List.mem_singleton.1 hk', h.mem] at hk
              exact hk.2.2.2.2 (dvd_refl _)
            · rw [if_neg he, List.append_nil]; exact h.nodup d
          · rw [cacheGet_add, List.mem_append, h.mem, hmid0]
            constructor
            · rintro (⟨k1, k2, k3, k4⟩ | hk)
              · exact ⟨k1, k2, k3, Or.inl k4⟩
              · by_cases he : (p - 1) * p ^ i = d
                · rw [if_pos he] at hk
                  have hk := List.mem_singleton.1 hk
                  refine ⟨by omega, by rw [hk, hone, he], by rw [← he]; exact Nat.dvd_of_mod_eq_zero hd, Or.inr hk⟩
                · rw [if_neg he] at hk; cases hk
            · rintro ⟨k1, k2, k3, k4 | k4⟩
              · exact Or.inl ⟨k1, k2, k3, k4⟩
              · right
                rw [if_pos (by rw [← k2, k4, hone]), k4]
                simp
        · rw [if_neg hd]
          refine h.congr (fun k hk hdv => ?_)
          rw [hmid0]
          refine ⟨Or.inl, fun hh => ?_⟩
          rcases hh with hh | hh
          · exact hh
          · rw [hh, hone] at hdv
            exact absurd (Nat.mod_eq_zero_of_dvd hdv) hd
      generalize (if n % ((p - 1) * p ^ i) = 0 then cacheAdd c ((p - 1) * p ^ i) (p ^ (i + 1)) else c) = c0 at hc0
      obtain ⟨r, h1, h2⟩ := keysLoop_spec (size := c0.length) hn hp hpS (Dict.keys c0) [] c0 hc0 hc0.wf (by simp)
      dsimp only
      rw [h1]
      rcases h2 with rfl | ⟨c', rfl, hc'⟩
      · exact ⟨_, rfl, Or.inl rfl⟩
      · have hnext : CInv n (fun k => Smooth (p :: S) k ∧ ¬ p ^ (i + 1 + 1) ∣ k) c' := by
          refine hc'.congr (fun k hk hdv => ?_)
          constructor
          · rintro (⟨m1, m2⟩ | ⟨x, m1, m2, m3, m4⟩)
            · exact ⟨m1, fun hd => m2 (dvd_trans (pow_dvd_pow p (by omega)) hd)⟩
            · refine ⟨?_, ?_⟩
              · intro q hq hd
                rw [m1] at hd
                rcases (Nat.Prime.dvd_mul hq).1 hd with hd | hd
                · exact List.mem_cons_of_mem _ (m3 q hq hd)
                · rw [(Nat.prime_dvd_prime_iff_eq hq hp).1 (hq.dvd_of_dvd_pow hd)]; simp
              · intro hd
                rw [m1, pow_succ p (i + 1), mul_comm x] at hd
                exact m2 (Nat.dvd_of_mul_dvd_mul_left (k := p ^ (i + 1)) (by positivity) hd)
          · rintro ⟨m1, m2⟩
            by_cases hd : p ^ (i + 1) ∣ k
            · right
              obtain ⟨x, hx⟩ := hd
              have hpx : ¬ p ∣ x := by
                rintro ⟨y, rfl⟩
                exact m2 ⟨y, by rw [hx, pow_succ p (i + 1)]; ring⟩
              have hxS : Smooth S x := by
                intro q hq hdq
                rcases List.mem_cons.1 (m1 q hq (by rw [hx]; exact dvd_mul_of_dvd_right hdq _)) with rfl | hm
                · exact absurd hdq hpx
                · exact hm
              have hkx : k = x * p ^ (i + 1) := by rw [hx, mul_comm]
              refine ⟨x, hkx, hpx, hxS, ?_⟩
              by_cases hx1 : x = 1
              · exact Or.inl hx1
              · right
                rw [List.append_nil]
                have hx0 : x ≠ 0 := by
                  rintro rfl; exact hpx (dvd_zero _)
                have hmem : x ∈ cacheGet c0 x.totient := by
                  rw [hc0.mem]
                  refine ⟨by omega, rfl, dvd_trans (Nat.totient_dvd_of_dvd ?_) hdv, Or.inl ⟨?_, ?_⟩⟩
                  · rw [hkx]; exact Dvd.intro _ rfl
                  · exact fun q hq hdq => List.mem_cons_of_mem _ (hxS q hq hdq)
                  · exact fun hd => hpx (dvd_trans (dvd_pow_self p (by omega)) hd)
                exact mem_keys_of_mem_cacheGet hmem
            · exact Or.inl ⟨m1, hd⟩
        have hlt : (p - 1) * p ^ i < (p - 1) * p ^ (i + 1) := by
          rw [pow_succ]
          have : p ^ i < p ^ i * p := by nlinarith
          exact Nat.mul_lt_mul_of_pos_left this (by omega)
        have := ih (i + 1) (by omega) c' hnext (by positivity) (fun i hi hh => by
          refine hh.congr (fun k hk hd => ⟨fun hh => hh.1, fun hh => ⟨hh, fun hpk => ?_⟩⟩)
          have := dvd_trans (Nat.totient_dvd_of_dvd hpk) hd
          rw [Nat.totient_prime_pow_succ hp] at this
          have := Nat.le_of_dvd hn this
          rw [mul_comm] at this
          omega)
        rw [pow_succ p i, ← mul_assoc, pow_succ p (i + 1)] at this
        exact this
    · rw [if_neg ha]
      exact ⟨_, rfl, Or.inr ⟨c, rfl, hdone i (by omega) h⟩⟩

theorem phiLoop_spec {n : Nat} (hn : 0 < n) (ps S : List Nat) (c : Dict Nat (List Nat)) (h : CInv n (Smooth S) c)
    (hp : ∀ p ∈ ps, p.Prime) (hnd : ps.Nodup) (hdis : ∀ p ∈ ps, p ∉ S) :
    ∃ r, phiLoop n ps c = some r ∧
      (r = .error .runtimeError ∨ ∃ c', r = .ok c' ∧ CInv n (Smooth (ps ++ S)) c') := by
  induction ps generalizing S c with
  | nil => exact ⟨_, rfl, Or.inr ⟨c, rfl, h⟩⟩
  | cons p ps ih =>
    have hpp := hp p (by simp)
    have hpS := hdis p (by simp)
    have h0 : CInv n (fun k => Smooth (p :: S) k ∧ ¬ p ^ (0 + 1) ∣ k) c := by
      refine h.congr (fun k _ _ => ?_)
      rw [zero_add, pow_one]
      constructor
      · intro hs
        exact ⟨fun q hq hd => List.mem_cons_of_mem _ (hs q hq hd), fun hd => hpS (hs p hpp hd)⟩
      · rintro ⟨h1, h2⟩ q hq hd
        rcases List.mem_cons.1 (h1 q hq hd) with rfl | hm
        · exact absurd hd h2
        · exact hm
    obtain ⟨r, h1, h2⟩ := powLoop_spec hn hpp hpS _ 0 (le_refl _) c h0
    rw [pow_zero, mul_one, zero_add, pow_one] at h1
    rw [phiLoop, h1]
    rcases h2 with rfl | ⟨c', rfl, hc'⟩
    · exact ⟨_, rfl, Or.inl rfl⟩
    · obtain ⟨r, g1, g2⟩ := ih (p :: S) c' hc' (fun q hq => hp q (List.mem_cons_of_mem _ hq))
        (List.nodup_cons.1 hnd).2 (by
          intro q hq hm
          rcases List.mem_cons.1 hm with rfl | hm
          · exact (List.nodup_cons.1 hnd).1 hq
          · exact hdis q (List.mem_cons_of_mem _ hq) hm)
      refine ⟨r, g1, ?_⟩
      rcases g2 with g2 | ⟨c'', g2, g3⟩
      · exact Or.inl g2
      · refine Or.inr ⟨c'', g2, g3.congr (fun k _ _ => ?_)⟩
        unfold Smooth
        simp only [List.mem_append, List.mem_cons, List.cons_append]
        constructor <;> intro hh q hq hd <;> have := hh q hq hd <;> tauto

end Rosemary.InverseFunctions
