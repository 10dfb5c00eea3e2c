import Verif.Lemmas.HamiltonianPaths

/-!
# The counts of Hamiltonian paths by bit masks
-/

namespace Rosemary.HamiltonianPaths

open Rosemary.Graph Rosemary.Spec Rosemary.Cliques
open Rosemary.Traversal (E)

variable {V W : Type} [DecidableEq V]

theorem testBit_sub_two_pow (b : ℕ) : ∀ (r : ℕ), r.testBit b = true → ∀ k, (r - 2 ^ b).testBit k = (r.testBit k && decide (k ≠ b)) := by
  induction b with
  | zero =>
    intro r hr k
    rw [Nat.testBit_zero, decide_eq_true_eq] at hr
    cases k with
    | zero =>
      rw [Nat.testBit_zero]
      simp only [pow_zero, ne_eq, not_true_eq_false, decide_false, Bool.and_false, decide_eq_false_iff_not]
      omega
    | succ k =>
      rw [Nat.testBit_succ, Nat.testBit_succ]
      have : (r - 2 ^ 0) / 2 = r / 2 := by omega
      rw [this]; simp
  | succ b ih =>
    intro r hr k
    have hge := Nat.ge_two_pow_of_testBit hr
    rw [Nat.testBit_succ] at hr
    have h2 : 2 ^ (b + 1) = 2 * 2 ^ b := by rw [pow_succ]; ring
    cases k with
    | zero =>
      rw [Nat.testBit_zero, Nat.testBit_zero]
      have : (r - 2 ^ (b + 1)) % 2 = r % 2 := by omega
      rw [this]; simp
    | succ k =>
      rw [Nat.testBit_succ, Nat.testBit_succ]
      have : (r - 2 ^ (b + 1)) / 2 = r / 2 - 2 ^ b := by omega
      rw [this, ih _ hr]
      simp

/-- Subtracting the bit of a member removes it. -/
theorem dec_sub {vs : List V} (h : vs.Nodup) {r b : ℕ} (hb : b < vs.length) (hr : r.testBit b = true) :
    dec vs (r - 2 ^ b) = (dec vs r).erase vs[b] := by
  ext v
  rw [mem_dec, testBit_sub_two_pow b r hr, Finset.mem_erase, mem_dec, Bool.and_eq_true, decide_eq_true_eq]
  constructor
  · rintro ⟨h1, h2, h3⟩
    refine ⟨?_, h1, h2⟩
    rintro rfl
    exact h3 (h.idxOf_getElem b hb)
  · rintro ⟨h1, h2, h3⟩
    exact ⟨h2, h3, fun he => h1 ((idx_eq h hb h2).1 he)⟩

theorem sub_lowBit (m : ℕ) : m - lowBit m = m &&& (m - 1) := by
  have : m &&& (m - 1) ≤ m := Nat.and_le_left
  rw [lowBit]; omega

theorem bit_mem {vs : List V} (h : vs.Nodup) {r b : ℕ} (hb : b < vs.length) :
    vs[b] ∈ dec vs r ↔ r.testBit b = true := by
  rw [mem_dec, h.idxOf_getElem b hb]
  simp

/-- The key of a position and a mask. -/
def key (n b r : ℕ) : ℕ := (2 ^ b <<< n) + r

theorem key_mod {n b r : ℕ} (hr : r < 2 ^ n) : key n b r % 2 ^ n = r := by
  rw [key, Nat.shiftLeft_eq, Nat.add_comm, Nat.add_mul_mod_self_right, Nat.mod_eq_of_lt hr]

theorem key_shift {n b r : ℕ} (hr : r < 2 ^ n) : key n b r >>> n = 2 ^ b := by
  rw [key, Nat.shiftLeft_eq, Nat.shiftRight_eq_div_pow, Nat.add_comm, Nat.add_mul_div_right _ _ (by positivity),
    Nat.div_eq_of_lt hr, Nat.zero_add]

theorem key_inj {n b r b' r' : ℕ} (hr : r < 2 ^ n) (hr' : r' < 2 ^ n) (h : key n b r = key n b' r') : b = b' ∧ r = r' := by
  have h1 := key_shift (b := b) hr
  rw [h, key_shift hr'] at h1
  have h2 := key_mod (b := b) hr
  rw [h, key_mod hr'] at h2
  exact ⟨(Nat.pow_right_injective (le_refl 2) h1).symm, h2.symm⟩

/-- The entries of the cache are right. -/
def CacheOk (g : Graph V W) (vs : List V) (cache : Dict ℕ ℕ) : Prop :=
  ∀ b r t (hb : b < vs.length), r < 2 ^ vs.length → Dict.get? cache (key vs.length b r) = some t →
    t = cnt g vs[b] (dec vs r)

/-- What the recursive calls do. -/
def ExtOk (g : Graph V W) (vs : List V) (K : ℕ) (ext : ℕ → Dict ℕ ℕ → ℕ × Dict ℕ ℕ) : Prop :=
  ∀ b r cache (hb : b < vs.length), r < 2 ^ vs.length → (dec vs r).card ≤ K → CacheOk g vs cache →
    (ext (key vs.length b r) cache).1 = cnt g vs[b] (dec vs r) ∧ CacheOk g vs (ext (key vs.length b r) cache).2

theorem candLoop_spec {g : Graph V W} {vs : List V} (h : vs.Nodup) {K : ℕ} {ext : ℕ → Dict ℕ ℕ → ℕ × Dict ℕ ℕ}
    (hext : ExtOk g vs K ext) {r : ℕ} (hr : r < 2 ^ vs.length) (hK : (dec vs r).card ≤ K + 1) (k : ℕ) :
    ∀ (c total : ℕ) (cache : Dict ℕ ℕ), c < 2 ^ vs.length → (dec vs c).card ≤ k → dec vs c ⊆ dec vs r →
    CacheOk g vs cache →
    (candLoop ext vs.length r k c total cache).1 = total + ∑ v ∈ dec vs c, cnt g v ((dec vs r).erase v) ∧
      CacheOk g vs (candLoop ext vs.length r k c total cache).2 := by
  induction k with
  | zero =>
    intro c total cache hc hk _ hok
    have : dec vs c = ∅ := Finset.card_eq_zero.1 (by omega)
    rw [candLoop, this]
    exact ⟨by simp, hok⟩
  | succ k ih =>
    intro c total cache hc hk hs hok
    rw [candLoop]
    by_cases h0 : c = 0
    · rw [if_pos h0, (eq_zero_iff h hc).1 h0]
      exact ⟨by simp, hok⟩
    · rw [if_neg h0]
      obtain ⟨b, hb, b1, b2, b3, -, -, -, b4, b5⟩ := low_spec h hc h0
      have hrb : r.testBit b = true := (bit_mem h hb).1 (hs b3)
      dsimp only
      rw [sub_lowBit, b1]
      have hd := dec_sub h hb hrb
      have hcard : (dec vs (r - 2 ^ b)).card ≤ K := by
        rw [hd, Finset.card_erase_of_mem (hs b3)]; omega
      obtain ⟨e1, e2⟩ := hext b (r - 2 ^ b) cache hb (by omega) hcard hok
      change (candLoop ext vs.length r k (c &&& (c - 1)) (total + (ext (key vs.length b (r - 2 ^ b)) cache).1)
        (ext (key vs.length b (r - 2 ^ b)) cache).2).1 = _ ∧ _
      obtain ⟨i1, i2⟩ := ih (c &&& (c - 1)) (total + (ext (key vs.length b (r - 2 ^ b)) cache).1)
        (ext (key vs.length b (r - 2 ^ b)) cache).2 b5 (by
          rw [b4, Finset.card_erase_of_mem b3]; omega) (by
          rw [b4]; exact (Finset.erase_subset _ _).trans hs) e2
      refine ⟨?_, i2⟩
      rw [i1, e1, b4, hd, ← Finset.add_sum_erase (dec vs c) _ b3]
      omega

theorem extend_step {ord : Finset V → List V} (hord : ∀ S, (ord S).Nodup ∧ ∀ x, x ∈ ord S ↔ x ∈ S) {g : Graph V W}
    {vs : List V} (h : vs.Nodup) (hvs : ∀ u v, E g u v → v ∈ vs) {K : ℕ} {ext : ℕ → Dict ℕ ℕ → ℕ × Dict ℕ ℕ}
    (hext : ExtOk g vs K ext) {b r : ℕ} (hb : b < vs.length) (hr : r < 2 ^ vs.length) (hK : (dec vs r).card ≤ K + 1)
    (h0 : r ≠ 0) {cache : Dict ℕ ℕ} (hok : CacheOk g vs cache) :
    (candLoop ext vs.length r vs.length (r &&& neighborMask ord g vs (2 ^ b)) 0 cache).1 = cnt g vs[b] (dec vs r) ∧
      CacheOk g vs (Dict.set (candLoop ext vs.length r vs.length (r &&& neighborMask ord g vs (2 ^ b)) 0 cache).2
        (key vs.length b r) (candLoop ext vs.length r vs.length (r &&& neighborMask ord g vs (2 ^ b)) 0 cache).1) := by
  have hdec : dec vs (r &&& neighborMask ord g vs (2 ^ b)) = dec vs r ∩ nb g vs[b] := by
    rw [dec_and (m := r), dec_neighborMask hord h hvs hb]
  obtain ⟨c1, c2⟩ := candLoop_spec h hext hr hK vs.length (r &&& neighborMask ord g vs (2 ^ b)) 0 cache
    (lt_of_le_of_lt Nat.and_le_left hr) (card_dec_le _) (by rw [hdec]; exact Finset.inter_subset_left) hok
  have hval : (candLoop ext vs.length r vs.length (r &&& neighborMask ord g vs (2 ^ b)) 0 cache).1 =
      cnt g vs[b] (dec vs r) := by
    rw [c1, hdec, cnt_step g vs[b] (fun hc => h0 ((eq_zero_iff h hr).2 hc)), Finset.inter_comm, Nat.zero_add]
  refine ⟨hval, ?_⟩
  intro b' r' t hb' hr' hget
  rw [Dict.get?_set] at hget
  split at hget
  · rename_i he
    obtain ⟨rfl, rfl⟩ := key_inj hr hr' (by simpa using he)
    simp only [Option.some.injEq] at hget
    rw [← hget, hval]
  · exact c2 b' r' t hb' hr' hget

theorem extendBits_spec {ord : Finset V → List V} (hord : ∀ S, (ord S).Nodup ∧ ∀ x, x ∈ ord S ↔ x ∈ S) {g : Graph V W}
    {vs : List V} (h : vs.Nodup) (hvs : ∀ u v, E g u v → v ∈ vs) (k : ℕ) : ExtOk g vs k (extendBits ord g vs k) := by
  induction k with
  | zero =>
    intro b r cache hb hr hc hok
    have : dec vs r = ∅ := Finset.card_eq_zero.1 (by omega)
    rw [extendBits, this, cnt_empty]
    exact ⟨rfl, hok⟩
  | succ k ih =>
    intro b r cache hb hr hc hok
    rw [extendBits]
    dsimp only
    cases hget : Dict.get? cache (key vs.length b r) with
    | some t => exact ⟨hok b r t hb hr hget, hok⟩
    | none =>
      dsimp only
      rw [key_mod hr, key_shift hr]
      by_cases h0 : r = 0
      · rw [if_pos h0]
        refine ⟨?_, hok⟩
        rw [(eq_zero_iff h hr).1 h0, cnt_empty]
      · rw [if_neg h0]
        exact extend_step hord h hvs ih hb hr hc h0 hok

/-! ## The connectivity test -/

theorem pushLoop_spec {vs : List V} (h : vs.Nodup) (k : ℕ) : ∀ (m stack : ℕ), m < 2 ^ vs.length →
    (dec vs m).card ≤ k → pushLoop k m stack = stack ||| m := by
  induction k with
  | zero =>
    intro m stack hm hc
    rw [pushLoop, (eq_zero_iff h hm).2 (Finset.card_eq_zero.1 (by omega))]
    simp
  | succ k ih =>
    intro m stack hm hc
    rw [pushLoop]
    by_cases h0 : m = 0
    · rw [if_pos h0, h0]; simp
    · rw [if_neg h0]
      dsimp only
      obtain ⟨b, hb, b1, b2, b3, -, -, -, b4, b5⟩ := low_spec h hm h0
      rw [sub_lowBit, b1, ih _ _ b5 (by rw [b4, Finset.card_erase_of_mem b3]; omega)]
      apply Nat.eq_of_testBit_eq
      intro i
      have hs := testBit_sub_two_pow b m b2 i
      rw [← b1, sub_lowBit] at hs
      rw [Nat.testBit_or, Nat.testBit_or, Nat.testBit_or, hs, Nat.testBit_two_pow]
      by_cases hi : b = i
      · subst hi; simp [b2]
      · have : i ≠ b := fun h => hi h.symm
        simp [hi, this]

theorem dec_union (vs : List V) (a b : ℕ) : dec vs (a ||| b) = dec vs a ∪ dec vs b := by
  ext v
  rw [Finset.mem_union, mem_dec, mem_dec, mem_dec, Nat.testBit_or, Bool.or_eq_true]
  tauto

theorem or_lt {a b n : ℕ} (ha : a < 2 ^ n) (hb : b < 2 ^ n) : a ||| b < 2 ^ n := Nat.or_lt_two_pow ha hb

theorem dec_two_pow {vs : List V} (h : vs.Nodup) {b : ℕ} (hb : b < vs.length) : dec vs (2 ^ b) = {vs[b]} := by
  ext v
  rw [mem_dec, Finset.mem_singleton, Nat.testBit_two_pow, decide_eq_true_eq]
  constructor
  · rintro ⟨h1, h2⟩; exact (idx_eq h hb h1).1 h2.symm
  · rintro rfl; exact ⟨List.getElem_mem hb, (h.idxOf_getElem b hb).symm⟩

theorem two_pow_lt {b n : ℕ} (hb : b < n) : 2 ^ b < 2 ^ n := Nat.pow_lt_pow_right (by norm_num) hb

theorem visitLoop_spec {ord : Finset V → List V} (hord : ∀ S, (ord S).Nodup ∧ ∀ x, x ∈ ord S ↔ x ∈ S) {g : Graph V W}
    {vs : List V} (h : vs.Nodup) (hvs : ∀ u v, E g u v → v ∈ vs) {start : V} {r : ℕ} (hr : r < 2 ^ vs.length) (k : ℕ) :
    ∀ (stack visited : ℕ), stack < 2 ^ vs.length → visited < 2 ^ vs.length → dec vs stack ⊆ dec vs r →
    dec vs visited ⊆ dec vs r → Disjoint (dec vs stack) (dec vs visited) → (dec vs r \ dec vs visited).card ≤ k →
    Search (fun u => nb g u ∩ dec vs r) start (dec vs visited) (dec vs visited ∪ dec vs stack) →
    visitLoop ord g vs r k stack visited < 2 ^ vs.length ∧ dec vs (visitLoop ord g vs r k stack visited) ⊆ dec vs r ∧
    Search (fun u => nb g u ∩ dec vs r) start (dec vs (visitLoop ord g vs r k stack visited))
      (dec vs (visitLoop ord g vs r k stack visited)) := by
  induction k with
  | zero =>
    intro stack visited hst hvi hs1 hs2 hdis hc hsr
    rw [visitLoop]
    refine ⟨hvi, hs2, ?_⟩
    have h0 : dec vs r ⊆ dec vs visited := Finset.sdiff_eq_empty_iff_subset.1 (Finset.card_eq_zero.1 (by omega))
    have h1 : dec vs visited ∪ dec vs stack = dec vs visited := Finset.union_eq_left.2 (hs1.trans h0)
    rwa [h1] at hsr
  | succ k ih =>
    intro stack visited hst hvi hs1 hs2 hdis hc hsr
    rw [visitLoop]
    by_cases h0 : stack = 0
    · rw [if_pos h0]
      refine ⟨hvi, hs2, ?_⟩
      rw [(eq_zero_iff h hst).1 h0, Finset.union_empty] at hsr
      exact hsr
    · rw [if_neg h0]
      dsimp only
      obtain ⟨b, hb, b1, b2, b3, -, -, -, b4, b5⟩ := low_spec h hst h0
      rw [sub_lowBit, b1]
      have hv' : visited ||| 2 ^ b < 2 ^ vs.length := or_lt hvi (two_pow_lt hb)
      have hdv : dec vs (visited ||| 2 ^ b) = insert vs[b] (dec vs visited) := by
        rw [dec_union, dec_two_pow h hb, Finset.union_comm]; rfl
      have hul : Nat.ldiff (neighborMask ord g vs (2 ^ b) &&& r) (visited ||| 2 ^ b) < 2 ^ vs.length := by
        apply Nat.lt_pow_two_of_testBit
        intro i hi
        have hp : 2 ^ vs.length ≤ 2 ^ i := Nat.pow_le_pow_right (by norm_num) hi
        rw [Nat.testBit_ldiff, Nat.testBit_and, Nat.testBit_lt_two_pow (lt_of_lt_of_le hr hp)]
        simp
      have hdu : dec vs (Nat.ldiff (neighborMask ord g vs (2 ^ b) &&& r) (visited ||| 2 ^ b)) =
          (nb g vs[b] ∩ dec vs r) \ insert vs[b] (dec vs visited) := by
        ext v
        rw [mem_dec, Nat.testBit_ldiff, Finset.mem_sdiff, ← hdv, ← dec_neighborMask hord h hvs hb,
          ← dec_and (m := neighborMask ord g vs (2 ^ b)), mem_dec, mem_dec]
        simp only [Bool.and_eq_true, Bool.not_eq_true', not_and, Bool.not_eq_true]
        tauto
      have hbv : vs[b] ∉ dec vs visited := Finset.disjoint_left.1 hdis b3
      rw [pushLoop_spec h _ _ _ hul (card_dec_le _)]
      refine ih _ _ (or_lt b5 hul) hv' ?_ ?_ ?_ ?_ ?_
      · rw [dec_union, b4, hdu]
        refine Finset.union_subset ((Finset.erase_subset _ _).trans hs1) ?_
        exact Finset.sdiff_subset.trans Finset.inter_subset_right
      · rw [hdv]; exact Finset.insert_subset (hs1 b3) hs2
      · rw [dec_union, b4, hdu, hdv, Finset.disjoint_union_left]
        refine ⟨?_, Finset.sdiff_disjoint⟩
        rw [Finset.disjoint_left]
        intro v hv hv2
        rw [Finset.mem_erase] at hv
        rcases Finset.mem_insert.1 hv2 with h' | h'
        · exact hv.1 h'
        · exact Finset.disjoint_left.1 hdis hv.2 h'
      · rw [hdv]
        have : (dec vs r \ insert vs[b] (dec vs visited)).card < (dec vs r \ dec vs visited).card := by
          refine Finset.card_lt_card ⟨Finset.sdiff_subset_sdiff (le_refl _) (Finset.subset_insert _ _), fun hsub => ?_⟩
          have := hsub (Finset.mem_sdiff.2 ⟨hs1 b3, hbv⟩)
          simp at this
        omega
      · rw [hdv]
        refine hsr.step (u := vs[b]) (Finset.mem_union_right _ b3) ?_
        rw [dec_union, b4, hdu]
        ext v
        simp only [Finset.mem_union, Finset.mem_insert, Finset.mem_erase, Finset.mem_sdiff]
        have := b3
        by_cases hvb : v = vs[b]
        · subst hvb; simp [b3]
        · tauto

theorem visit_prune {ord : Finset V → List V} (hord : ∀ S, (ord S).Nodup ∧ ∀ x, x ∈ ord S ↔ x ∈ S) {g : Graph V W}
    (hg : Good g) {vs : List V} (h : vs.Nodup) (hvs : ∀ u v, E g u v → v ∈ vs) {r : ℕ} (hr : r < 2 ^ vs.length)
    (h0 : r ≠ 0) (hne : visitLoop ord g vs r vs.length (lowBit r) 0 ≠ r) (last : V) : cnt g last (dec vs r) = 0 := by
  obtain ⟨b, hb, b1, b2, b3, -⟩ := low_spec h hr h0
  have hz : dec vs 0 = ∅ := (eq_zero_iff h (by positivity)).1 rfl
  rw [b1] at hne
  obtain ⟨v1, v2, v3⟩ := visitLoop_spec hord h hvs (start := vs[b]) hr vs.length (2 ^ b) 0 (two_pow_lt hb) (by positivity)
    (by rw [dec_two_pow h hb]; simpa using b3) (by rw [hz]; simp) (by rw [hz]; simp) (by
      rw [hz, Finset.sdiff_empty]; exact card_dec_le _) (by
      rw [hz, dec_two_pow h hb, Finset.empty_union]; exact Search.init _ _)
  have hempty : {s | PathsFrom g last (dec vs r) s} = ∅ := by
    rw [Set.eq_empty_iff_forall_notMem]
    intro s hs
    have he := search_path hg hs b3 v2 v3
    apply hne
    apply Nat.eq_of_testBit_eq
    intro i
    by_cases hi : i < vs.length
    · have := Finset.ext_iff.1 he vs[i]
      rw [bit_mem h hi, bit_mem h hi] at this
      exact Bool.eq_iff_iff.2 this
    · have hp : 2 ^ vs.length ≤ 2 ^ i := Nat.pow_le_pow_right (by norm_num) (by omega)
      rw [Nat.testBit_lt_two_pow (lt_of_lt_of_le v1 hp), Nat.testBit_lt_two_pow (lt_of_lt_of_le hr hp)]
  rw [cnt, hempty, Set.ncard_empty]

theorem extendBitsCon_spec {ord : Finset V → List V} (hord : ∀ S, (ord S).Nodup ∧ ∀ x, x ∈ ord S ↔ x ∈ S)
    {g : Graph V W} (hg : Good g) {vs : List V} (h : vs.Nodup) (hvs : ∀ u v, E g u v → v ∈ vs) (k : ℕ) :
    ExtOk g vs k (extendBitsCon ord g vs k) := by
  induction k with
  | zero =>
    intro b r cache hb hr hc hok
    have : dec vs r = ∅ := Finset.card_eq_zero.1 (by omega)
    rw [extendBitsCon, this, cnt_empty]
    exact ⟨rfl, hok⟩
  | succ k ih =>
    intro b r cache hb hr hc hok
    rw [extendBitsCon]
    dsimp only
    cases hget : Dict.get? cache (key vs.length b r) with
    | some t => exact ⟨hok b r t hb hr hget, hok⟩
    | none =>
      dsimp only
      rw [key_mod hr, key_shift hr]
      by_cases h0 : r = 0
      · rw [if_pos h0]
        refine ⟨?_, hok⟩
        rw [(eq_zero_iff h hr).1 h0, cnt_empty]
      · rw [if_neg h0]
        by_cases hv : visitLoop ord g vs r vs.length (lowBit r) 0 ≠ r
        · rw [if_pos hv]
          exact ⟨(visit_prune hord hg h hvs hr h0 hv _).symm, hok⟩
        · rw [if_neg hv]
          exact extend_step hord h hvs ih hb hr hc h0 hok

/-! ## The sum -/

theorem sumBits_spec {g : Graph V W} {vs : List V} (h : vs.Nodup) {ext : ℕ → Dict ℕ ℕ → ℕ × Dict ℕ ℕ}
    (hext : ExtOk g vs vs.length ext) (l : List ℕ) : ∀ (total : ℕ) (cache : Dict ℕ ℕ), (∀ i ∈ l, i < vs.length) →
    CacheOk g vs cache → sumBits ext vs.length l total cache =
      total + (l.map (fun i => if hi : i < vs.length then cnt g vs[i] (vs.toFinset.erase vs[i]) else 0)).sum := by
  induction l with
  | nil => intro total cache _ _; simp [sumBits]
  | cons i l ih =>
    intro total cache hl hok
    have hi := hl i List.mem_cons_self
    rw [sumBits]
    have hk : 2 ^ (vs.length + i) + (2 ^ vs.length - 1 - 2 ^ i) = key vs.length i (2 ^ vs.length - 1 - 2 ^ i) := by
      rw [key, Nat.shiftLeft_eq, pow_add, mul_comm]
    have hbit : (2 ^ vs.length - 1).testBit i = true := by
      rw [Nat.testBit_two_pow_sub_one]; simpa using hi
    have hd : dec vs (2 ^ vs.length - 1 - 2 ^ i) = vs.toFinset.erase vs[i] := by
      rw [dec_sub h hi hbit, dec_full]
    have hlt : 2 ^ vs.length - 1 - 2 ^ i < 2 ^ vs.length := lt_of_le_of_lt (Nat.sub_le _ _) (full_lt _)
    obtain ⟨e1, e2⟩ := hext i _ cache hi hlt (card_dec_le _) hok
    rw [hk, ih _ _ (fun j hj => hl j (List.mem_cons_of_mem _ hj)) e2, e1, hd, List.map_cons, List.sum_cons, dif_pos hi]
    omega

theorem sumBits_total {g : Graph V W} {vs : List V} (h : vs.Nodup) (hmem : ∀ v, v ∈ vs ↔ Mem g v)
    {ext : ℕ → Dict ℕ ℕ → ℕ × Dict ℕ ℕ} (hext : ExtOk g vs vs.length ext) :
    sumBits ext vs.length (List.range vs.length) 0 [] = {l | IsHamiltonianPath {v | Mem g v} (E g) l}.ncard := by
  have hV : vs.toFinset = vertexSet g := by
    ext v; rw [List.mem_toFinset, hmem, Graph.mem_vertexSet]
  rw [sumBits_spec h hext _ 0 [] (by simp) (by intro b r t hb hr hget; simp [Dict.get?] at hget), total_eq, ← hV, Nat.zero_add]
  rw [List.sum_toFinset _ h]
  congr 1
  apply List.ext_getElem
  · simp
  · intro i h1 h2
    have hi : i < vs.length := by simpa using h1
    simp [hi]

end Rosemary.HamiltonianPaths
