import Verif.Lemmas.Sieves
import Mathlib.NumberTheory.Bertrand

/-!
# Lemmas about `chartres`
-/

namespace Rosemary.Sieves

open Rosemary.Spec

/-- Prime to six. -/
def Six (k : Nat) : Prop := k % 6 = 1 ∨ k % 6 = 5

theorem Six.mul {a b : Nat} (ha : Six a) (hb : Six b) : Six (a * b) := by
  unfold Six at *
  rw [Nat.mul_mod]
  rcases ha with h | h <;> rcases hb with h' | h' <;> rw [h, h'] <;> omega

theorem Six.of_prime {p : Nat} (hp : p.Prime) (h : 5 ≤ p) : Six p := by
  have h2 : p % 2 = 1 := hp.eq_two_or_odd.resolve_left (by omega)
  have h3 : p % 3 ≠ 0 := by
    intro h0
    have := (Nat.prime_dvd_prime_iff_eq Nat.prime_three hp).1 (Nat.dvd_of_mod_eq_zero h0)
    omega
  unfold Six; omega

theorem Six.of_dvd {d n : Nat} (hd : d ∣ n) (h : Six n) : Six d := by
  obtain ⟨h2, h3⟩ := dvd_coprime_six hd (by unfold Six at h; omega) (by unfold Six at h; omega)
  unfold Six; omega

/-- The gap from `c` to the next number prime to six. -/
def Gap (c d : Nat) : Prop := c % 6 = 5 ∧ d = 2 ∨ c % 6 = 1 ∧ d = 4

theorem Gap.next {c d : Nat} (h : Gap c d) : Gap (c + d) (6 - d) := by
  unfold Gap at *; omega

theorem Gap.six {c d : Nat} (h : Gap c d) : Six c := by
  unfold Gap Six at *; omega

theorem Gap.le_of_six {c d x : Nat} (h : Gap c d) (hx : Six x) (hlt : c < x) : c + d ≤ x := by
  unfold Gap Six at *; omega

/-! ## Lists of primes -/

theorem primesUpTo_append {a b : Nat} (h : a ≤ b) :
    primesUpTo b = primesUpTo a ++ (pyRange (a + 1) (b + 1)).filter (fun p => decide p.Prime) := by
  refine sorted_ext (primesUpTo_sorted b) ?_ ?_
  · rw [List.pairwise_append]
    refine ⟨primesUpTo_sorted a, List.Pairwise.filter _ (pyRange_sorted _ _), ?_⟩
    intro x hx y hy
    have := (mem_primesUpTo.1 hx).2
    simp only [List.mem_filter, mem_pyRange] at hy
    omega
  · intro x
    simp only [List.mem_append, mem_primesUpTo, List.mem_filter, mem_pyRange, decide_eq_true_eq]
    constructor
    · rintro ⟨h1, h2⟩
      by_cases h3 : x ≤ a
      · left; exact ⟨h1, h3⟩
      · right; exact ⟨by omega, h1⟩
    · rintro (⟨h1, h2⟩ | ⟨h1, h2⟩)
      · exact ⟨h1, by omega⟩
      · exact ⟨h2, by omega⟩

theorem primesUpTo_gap_prime {c d : Nat} (hc : 5 ≤ c) (hg : Gap c d) (hp : c.Prime) :
    primesUpTo (c + d - 1) = primesUpTo (c - 1) ++ [c] := by
  have hd : d = 2 ∨ d = 4 := by unfold Gap at hg; omega
  refine sorted_ext (primesUpTo_sorted _) ?_ ?_
  · rw [List.pairwise_append]
    refine ⟨primesUpTo_sorted _, by simp, ?_⟩
    intro x hx y hy
    have := (mem_primesUpTo.1 hx).2
    simp at hy; omega
  · intro x
    simp only [List.mem_append, mem_primesUpTo, List.mem_singleton]
    constructor
    · rintro ⟨h1, h2⟩
      by_cases h3 : x ≤ c - 1
      · left; exact ⟨h1, h3⟩
      · right
        by_contra hne
        have := hg.le_of_six (Six.of_prime h1 (by omega)) (by omega)
        omega
    · rintro (⟨h1, h2⟩ | rfl)
      · exact ⟨h1, by omega⟩
      · exact ⟨hp, by omega⟩

theorem primesUpTo_gap_composite {c d : Nat} (hc : 5 ≤ c) (hg : Gap c d) (hp : ¬ c.Prime) :
    primesUpTo (c + d - 1) = primesUpTo (c - 1) := by
  have hd : d = 2 ∨ d = 4 := by unfold Gap at hg; omega
  refine sorted_ext (primesUpTo_sorted _) (primesUpTo_sorted _) ?_
  intro x
  simp only [mem_primesUpTo]
  constructor
  · rintro ⟨h1, h2⟩
    refine ⟨h1, ?_⟩
    by_contra h3
    rcases Nat.lt_or_ge c x with h4 | h4
    · have := hg.le_of_six (Six.of_prime h1 (by omega)) h4
      omega
    · exact hp ((by omega : x = c) ▸ h1)
  · rintro ⟨h1, h2⟩; exact ⟨h1, by omega⟩

/-! ## The heap -/

theorem heapPush_perm (x : Nat × Nat × Nat) (H : List (Nat × Nat × Nat)) :
    (heapPush x H).Perm (x :: H) := by
  induction H with
  | nil => exact List.Perm.refl _
  | cons y ys ih =>
    unfold heapPush
    split
    · exact List.Perm.refl _
    · exact (List.Perm.cons y ih).trans (List.Perm.swap x y ys)

theorem mem_heapPush {x e : Nat × Nat × Nat} {H : List (Nat × Nat × Nat)} :
    e ∈ heapPush x H ↔ e = x ∨ e ∈ H := by
  rw [(heapPush_perm x H).mem_iff, List.mem_cons]

theorem heapPush_sorted (x : Nat × Nat × Nat) (H : List (Nat × Nat × Nat))
    (h : H.Pairwise (fun a b => a.1 ≤ b.1)) : (heapPush x H).Pairwise (fun a b => a.1 ≤ b.1) := by
  induction H with
  | nil => simp [heapPush]
  | cons y ys ih =>
    rw [List.pairwise_cons] at h
    unfold heapPush
    split
    · rename_i hle
      have hxy : x.1 ≤ y.1 := by
        simp only [entryLe, Bool.or_eq_true, decide_eq_true_eq, Bool.and_eq_true, beq_iff_eq] at hle
        omega
      refine List.pairwise_cons.2 ⟨?_, List.pairwise_cons.2 h⟩
      intro z hz
      rcases List.mem_cons.1 hz with rfl | hz
      · exact hxy
      · exact hxy.trans (h.1 z hz)
    · rename_i hle
      have hyx : y.1 ≤ x.1 := by
        simp only [entryLe, Bool.or_eq_true, decide_eq_true_eq, Bool.and_eq_true, beq_iff_eq] at hle
        omega
      refine List.pairwise_cons.2 ⟨?_, ih h.2⟩
      intro z hz
      rcases mem_heapPush.1 hz with rfl | hz
      · exact hyx
      · exact h.1 z hz

/-- A heap entry: the multiple `p * k` of the prime `p`, with the step to the next multiple that is
prime to six. -/
def Entry (P p k : Nat) (e : Nat × Nat × Nat) : Prop :=
  p.Prime ∧ 5 ≤ p ∧ p ≤ P ∧ p ≤ k ∧ Six k ∧
    e = (p * k, if k % 6 = 1 then 4 * p else 2 * p, 6 * p)

structure HeapInv (P c q : Nat) (H : List (Nat × Nat × Nat)) : Prop where
  sorted : H.Pairwise (fun a b => a.1 ≤ b.1)
  ok : ∀ e ∈ H, ∃ p k, Entry P p k e
  ge : ∀ e ∈ H, q ≤ e.1
  cover : ∀ p, p.Prime → 5 ≤ p → p ≤ P → ∃ k0 e, e ∈ H ∧ Entry P p k0 e ∧
    ∀ k, p ≤ k → k < k0 → Six k → p * k < c ∨ p * k = q

/-- `q` is a product of two numbers prime to six and above one. -/
def Comp (q : Nat) : Prop := ∃ a b, 5 ≤ a ∧ 5 ≤ b ∧ Six a ∧ Six b ∧ q = a * b

theorem Comp.not_prime {q : Nat} (h : Comp q) : ¬ q.Prime := by
  obtain ⟨a, b, h1, h2, -, -, rfl⟩ := h
  exact Nat.not_prime_mul (by omega) (by omega)

theorem Comp.six {q : Nat} (h : Comp q) : Six q := by
  obtain ⟨a, b, -, -, h3, h4, rfl⟩ := h
  exact h3.mul h4

/-- The entry after popping and pushing its successor. -/
theorem Entry.next {P p k : Nat} {u v w : Nat} (h : Entry P p k (u, v, w)) :
    ∃ k', Entry P p k' (u + v, w - v, w) ∧ k < k' ∧ (∀ l, k < l → l < k' → ¬ Six l) ∧ u = p * k ∧
      0 < v := by
  obtain ⟨h1, h2, h3, h4, h5, h6⟩ := h
  simp only [Prod.mk.injEq] at h6
  obtain ⟨rfl, rfl, rfl⟩ := h6
  rcases h5 with h5 | h5
  · refine ⟨k + 4, ⟨h1, h2, h3, by omega, by unfold Six; omega, ?_⟩, by omega, ?_, rfl, ?_⟩
    · simp only [h5, if_true, Prod.mk.injEq, and_true]
      rw [if_neg (by omega)]
      exact ⟨by ring, by omega⟩
    · intro l hl1 hl2; unfold Six; omega
    · rw [if_pos h5]; omega
  · refine ⟨k + 2, ⟨h1, h2, h3, by omega, by unfold Six; omega, ?_⟩, by omega, ?_, rfl, ?_⟩
    · rw [if_neg (by omega), if_pos (by omega)]
      simp only [Prod.mk.injEq, and_true]
      exact ⟨by ring, by omega⟩
    · intro l hl1 hl2; unfold Six; omega
    · rw [if_neg (by omega)]; omega

theorem Entry.comp {P p k : Nat} {e : Nat × Nat × Nat} (h : Entry P p k e) : Comp e.1 := by
  obtain ⟨h1, h2, h3, h4, h5, rfl⟩ := h
  exact ⟨p, k, h2, by omega, Six.of_prime h1 h2, h5, rfl⟩

theorem HeapInv.pop {P c q : Nat} {u v w : Nat} {H : List (Nat × Nat × Nat)}
    (h : HeapInv P c q ((u, v, w) :: H)) (hq : q < c) :
    HeapInv P c u (heapPush (u + v, w - v, w) H) := by
  have hs := List.pairwise_cons.1 h.sorted
  obtain ⟨p0, k0, he0⟩ := h.ok (u, v, w) (by simp)
  obtain ⟨k1, hn1, hn2, hn3, hn4, hn5⟩ := he0.next
  refine ⟨heapPush_sorted _ _ hs.2, ?_, ?_, ?_⟩
  · intro e he
    rcases mem_heapPush.1 he with rfl | he
    · exact ⟨p0, k1, hn1⟩
    · exact h.ok e (by simp [he])
  · intro e he
    rcases mem_heapPush.1 he with rfl | he
    · simp
    · exact hs.1 e he
  · intro p hp h5 hP
    obtain ⟨k2, e, he, hent, hcons⟩ := h.cover p hp h5 hP
    rcases List.mem_cons.1 he with rfl | he
    · obtain ⟨k3, hm1, hm2, hm3, hm4, -⟩ := hent.next
      refine ⟨k3, _, mem_heapPush.2 (.inl rfl), hm1, ?_⟩
      intro k hk1 hk2 hk3
      rcases Nat.lt_trichotomy k k2 with hlt | rfl | hgt
      · rcases hcons k hk1 hlt hk3 with h' | h'
        · exact .inl h'
        · left; omega
      · right; exact hm4.symm
      · exact absurd hk3 (hm3 k hgt hk2)
    · refine ⟨k2, e, mem_heapPush.2 (.inr he), hent, ?_⟩
      intro k hk1 hk2 hk3
      rcases hcons k hk1 hk2 hk3 with h' | h'
      · exact .inl h'
      · left; omega

theorem HeapInv.ne_nil {P c q : Nat} {H : List (Nat × Nat × Nat)} (h : HeapInv P c q H)
    (hP : P.Prime) (h5 : 5 ≤ P) : H ≠ [] := by
  obtain ⟨k, e, he, -⟩ := h.cover P hP h5 le_rfl
  rintro rfl
  simp at he

/-- `c` and `q` never pass the next square `P * P`. -/
theorem HeapInv.head_le {P c q : Nat} {u v w : Nat} {H : List (Nat × Nat × Nat)}
    (h : HeapInv P c q ((u, v, w) :: H)) (hP : P.Prime) (h5 : 5 ≤ P) (hc : c ≤ P * P) (hq : q < c) :
    u ≤ P * P := by
  obtain ⟨k, e, he, hent, hcons⟩ := h.cover P hP h5 le_rfl
  obtain ⟨h1, h2, h3, h4, h6, h7⟩ := hent
  rcases Nat.lt_or_eq_of_le h4 with hlt | heq
  · rcases hcons P le_rfl hlt (Six.of_prime hP h5) with h' | h' <;> omega
  · subst heq
    have hs := List.pairwise_cons.1 h.sorted
    rcases List.mem_cons.1 he with h8 | h8
    · rw [h7] at h8; simp only [Prod.mk.injEq] at h8; omega
    · have := hs.1 e h8
      rw [h7] at this
      exact this

theorem chartresPop_spec {P c : Nat} (hP : P.Prime) (h5 : 5 ≤ P) (hc : c ≤ P * P)
    (q : Nat) (H : List (Nat × Nat × Nat)) (h : HeapInv P c q H) (hq : Comp q) (hqP : q ≤ P * P) :
    ∃ q' H', chartresPop c q H = some (.ok (q', H')) ∧ HeapInv P c q' H' ∧ Comp q' ∧
      q' ≤ P * P ∧ c ≤ q' := by
  induction hm : (H.map (fun e => c - e.1)).sum using Nat.strong_induction_on generalizing q H with
  | _ μ ih =>
    rw [chartresPop.eq_def]
    by_cases hlt : q < c
    · rw [if_pos hlt]
      cases H with
      | nil => exact absurd rfl (h.ne_nil hP h5)
      | cons e H =>
        obtain ⟨u, v, w⟩ := e
        dsimp only
        have hpop := h.pop hlt
        have hle := h.head_le hP h5 hc hlt
        obtain ⟨p0, k0, he0⟩ := h.ok (u, v, w) (by simp)
        obtain ⟨k1, -, -, -, -, hv⟩ := he0.next
        by_cases huc : u < c
        · refine ih _ ?_ u _ hpop he0.comp hle rfl
          rw [((heapPush_perm _ H).map _).sum_eq, ← hm]
          simp only [List.map_cons, List.sum_cons]
          omega
        · rw [chartresPop.eq_def, if_neg huc]
          exact ⟨u, _, rfl, hpop, he0.comp, hle, by omega⟩
    · rw [if_neg hlt]
      exact ⟨q, H, rfl, h, hq, hqP, by omega⟩

theorem HeapInv.prime_below {P c q : Nat} {H : List (Nat × Nat × Nat)} (h : HeapInv P c q H)
    (hqP : q ≤ P * P) (x : Nat) (h5 : 5 ≤ x) (hx : Six x) (hcx : c ≤ x) (hxq : x < q) : x.Prime := by
  by_contra hnp
  have hm := Nat.minFac_prime (n := x) (by omega)
  have hsq := Nat.minFac_sq_le_self (by omega) hnp
  have hdv := Nat.minFac_dvd x
  have hsix := Six.of_dvd hdv hx
  obtain ⟨k, hk⟩ := hdv
  generalize x.minFac = p at *
  have hp5 : 5 ≤ p := by
    have := hm.two_le
    unfold Six at hsix; omega
  have hpP : p ≤ P := by
    by_contra hc
    have : P * P < p * p := Nat.mul_lt_mul'' (by omega) (by omega)
    rw [sq] at hsq
    omega
  have hpk : p ≤ k := by
    rw [sq, hk] at hsq
    exact Nat.le_of_mul_le_mul_left hsq (by omega)
  have hk6 : Six k := Six.of_dvd (Dvd.intro_left p hk.symm) hx
  obtain ⟨k0, e, he, hent, hcons⟩ := h.cover p hm hp5 hpP
  rcases Nat.lt_or_ge k k0 with hlt | hge
  · rcases hcons k hpk hlt hk6 with h' | h' <;> omega
  · have h1 := h.ge e he
    obtain ⟨-, -, -, -, -, rfl⟩ := hent
    dsimp only at h1
    have := Nat.mul_le_mul_left p hge
    omega

theorem chartresAdd_spec (q c d : Nat) (h5 : 5 ≤ c) (hg : Gap c d) (hq : Six q) (hcq : c ≤ q)
    (hall : ∀ x, Six x → c ≤ x → x < q → x.Prime) :
    ∃ d', chartresAdd q c d (0 :: primesUpTo (c - 1)) = some (q, d', 0 :: primesUpTo (q - 1)) ∧
      Gap q d' := by
  induction hm : q - c using Nat.strong_induction_on generalizing c d with
  | _ μ ih =>
    rw [chartresAdd]
    by_cases hlt : c < q
    · rw [if_pos hlt]
      have hp := hall c hg.six le_rfl hlt
      have hle := hg.le_of_six hq hlt
      have hd : d = 2 ∨ d = 4 := by unfold Gap at hg; omega
      have := primesUpTo_gap_prime h5 hg hp
      rw [List.cons_append, ← this]
      exact ih _ (by omega) (c + d) (6 - d) (by omega) hg.next hle
        (fun x h1 h2 h3 => hall x h1 (by omega) h3) rfl
    · rw [if_neg hlt]
      have : c = q := by omega
      subst this
      exact ⟨d, rfl, hg⟩

/-- The next sieving prime is already in the list when its predecessor's square is reached. -/
theorem next_prime_entry {P size : Nat} (hP : P.Prime) (h5 : 5 ≤ P)
    (hsize : (primesUpTo P).length = size + 2) :
    ∃ u, (0 :: primesUpTo (P * P - 1))[size + 1 + 2]? = some u ∧ u.Prime ∧ P < u ∧ u < P * P ∧
      (primesUpTo u).length = size + 1 + 2 ∧ ∀ x, x.Prime → P < x → u ≤ x := by
  have h6 : 5 * P ≤ P * P := Nat.mul_le_mul_right _ h5
  have happ := primesUpTo_append (a := P) (b := P * P - 1) (by omega)
  have hsorted := primesUpTo_sorted (P * P - 1)
  obtain ⟨r, hr, hlt, hle⟩ := Nat.exists_prime_lt_and_le_two_mul P (by omega)
  cases hL : (pyRange (P + 1) (P * P - 1 + 1)).filter (fun p => decide p.Prime) with
  | nil =>
    exfalso
    have : r ∈ (pyRange (P + 1) (P * P - 1 + 1)).filter (fun p => decide p.Prime) := by
      simp only [List.mem_filter, mem_pyRange, decide_eq_true_eq]
      exact ⟨by omega, hr⟩
    rw [hL] at this
    simp at this
  | cons u us =>
    rw [hL] at happ
    have hu : u ∈ (pyRange (P + 1) (P * P - 1 + 1)).filter (fun p => decide p.Prime) := by
      rw [hL]; simp
    simp only [List.mem_filter, mem_pyRange, decide_eq_true_eq] at hu
    have hmin : ∀ x, x.Prime → P < x → u ≤ x := by
      intro x hx hPx
      by_cases hx2 : x ≤ P * P - 1
      · have : x ∈ u :: us := by
          rw [← hL]
          simp only [List.mem_filter, mem_pyRange, decide_eq_true_eq]
          exact ⟨by omega, hx⟩
        have hs : (u :: us).Pairwise (· < ·) := by
          rw [← hL]; exact List.Pairwise.filter _ (pyRange_sorted _ _)
        rcases List.mem_cons.1 this with rfl | h
        · exact le_rfl
        · exact ((List.pairwise_cons.1 hs).1 x h).le
      · omega
    refine ⟨u, ?_, hu.2, by omega, by omega, ?_, hmin⟩
    · rw [show size + 1 + 2 = (size + 2) + 1 by ring, List.getElem?_cons_succ, happ,
        List.getElem?_append_right (by omega), hsize]
      simp
    · have h7 := primesUpTo_append (a := P) (b := u) (by omega)
      have h8 : (pyRange (P + 1) (u + 1)).filter (fun p => decide p.Prime) = [u] := by
        refine sorted_ext (List.Pairwise.filter _ (pyRange_sorted _ _)) (by simp) ?_
        intro x
        simp only [List.mem_filter, mem_pyRange, decide_eq_true_eq, List.mem_singleton]
        constructor
        · rintro ⟨h1, h2⟩
          have := hmin x h2 (by omega)
          omega
        · rintro rfl; exact ⟨by omega, hu.2⟩
      rw [h7, h8, List.length_append, hsize]
      simp

theorem HeapInv.advance {P c c' q : Nat} {H : List (Nat × Nat × Nat)} (h : HeapInv P c q H)
    (hc : c ≤ c') : HeapInv P c' q H := by
  refine ⟨h.sorted, h.ok, h.ge, ?_⟩
  intro p hp h5 hP
  obtain ⟨k0, e, he, hent, hcons⟩ := h.cover p hp h5 hP
  refine ⟨k0, e, he, hent, fun k h1 h2 h3 => ?_⟩
  rcases hcons k h1 h2 h3 with h' | h'
  · left; omega
  · right; exact h'

theorem HeapInv.push {P c q u : Nat} {H : List (Nat × Nat × Nat)} (h : HeapInv P c q H)
    (hu : u.Prime) (hPu : P < u) (h5 : 5 ≤ u) (hq : q ≤ u * u)
    (hmin : ∀ x, x.Prime → P < x → u ≤ x) (v : Nat)
    (hv : v = if u % 6 = 1 then 4 * u else 2 * u) :
    HeapInv u c q (heapPush (u * u, v, 6 * u) H) := by
  have hnew : Entry u u u (u * u, v, 6 * u) :=
    ⟨hu, h5, le_rfl, le_rfl, Six.of_prime hu h5, by rw [hv]⟩
  have hold : ∀ p k e, Entry P p k e → Entry u p k e := by
    rintro p k e ⟨h1, h2, h3, h4⟩
    exact ⟨h1, h2, by omega, h4⟩
  refine ⟨heapPush_sorted _ _ h.sorted, ?_, ?_, ?_⟩
  · intro e he
    rcases mem_heapPush.1 he with rfl | he
    · exact ⟨u, u, hnew⟩
    · obtain ⟨p, k, hpk⟩ := h.ok e he
      exact ⟨p, k, hold _ _ _ hpk⟩
  · intro e he
    rcases mem_heapPush.1 he with rfl | he
    · exact hq
    · exact h.ge e he
  · intro p hp hp5 hpu
    by_cases hpP : p ≤ P
    · obtain ⟨k0, e, he, hent, hcons⟩ := h.cover p hp hp5 hpP
      exact ⟨k0, e, mem_heapPush.2 (.inr he), hold _ _ _ hent, hcons⟩
    · have := hmin p hp (by omega)
      have : p = u := by omega
      subst this
      exact ⟨p, _, mem_heapPush.2 (.inl rfl), hnew, fun k h1 h2 _ => by omega⟩

theorem chartresLoop_spec (n : Int) (c d size q P : Nat) (H : List (Nat × Nat × Nat))
    (h5 : 5 ≤ c) (hg : Gap c d) (hP : P.Prime) (hP5 : 5 ≤ P)
    (hsize : (primesUpTo P).length = size + 2) (hcP : c ≤ P * P) (hqP : q ≤ P * P) (hq : Comp q)
    (h : HeapInv P c q H) :
    chartresLoop n (0 :: primesUpTo (c - 1)) c d size q (P * P) H =
      some (.ok (some (primesUpTo n.toNat))) := by
  induction hm : n.toNat + 5 - c using Nat.strong_induction_on
    generalizing c d size q P H with
  | _ μ ih =>
    rw [chartresLoop, if_neg (h.ne_nil hP hP5)]
    obtain ⟨q', H', hpop, hinv, hcomp, hqP', hcq⟩ := chartresPop_spec hP hP5 hcP q H h hq hqP
    rw [hpop]
    dsimp only
    by_cases hn : (c : Int) > n
    · rw [if_pos hn]
      congr 3
      refine sorted_ext ?_ (primesUpTo_sorted _) ?_
      · refine List.Pairwise.filter _ (List.pairwise_cons.2 ⟨?_, primesUpTo_sorted _⟩)
        intro x hx
        exact (mem_primesUpTo.1 hx).1.pos
      · intro x
        simp only [List.mem_filter, List.mem_cons, mem_primesUpTo, decide_eq_true_eq]
        constructor
        · rintro ⟨h1, h2, h3⟩
          exact ⟨(h1.resolve_left h2).1, by omega⟩
        · rintro ⟨h1, h2⟩
          have := h1.two_le
          exact ⟨.inr ⟨h1, by omega⟩, by omega, by omega⟩
    · rw [if_neg hn]
      obtain ⟨d', hadd, hg'⟩ := chartresAdd_spec q' c d h5 hg hcomp.six hcq
        (fun x h1 h2 h3 => hinv.prime_below hqP' x (by omega) h1 h2 h3)
      rw [hadd]
      dsimp only
      have hd' : d' = 2 ∨ d' = 4 := by unfold Gap at hg'; omega
      have hlist : primesUpTo (q' - 1) = primesUpTo (q' + d' - 1) :=
        (primesUpTo_gap_composite (by omega) hg' hcomp.not_prime).symm
      by_cases ht : q' = P * P
      · rw [if_pos ht]
        obtain ⟨u, hu1, hu2, hu3, hu4, hu5, hu6⟩ := next_prime_entry hP hP5 hsize
        rw [← ht] at hu1
        rw [hu1]
        dsimp only
        have hPu : P * P + 4 ≤ u * u := by nlinarith
        have hu7 : Six u := Six.of_prime hu2 (by omega)
        have hadv := (hinv.advance (c' := q' + d') (by omega)).push hu2 hu3 (by omega)
          (by omega) hu6 _ rfl
        have hheap : (if u % 3 = 2 then heapPush (u * u, 2 * u, 6 * u) H'
            else if u % 3 = 1 then heapPush (u * u, 4 * u, 6 * u) H' else H') =
            heapPush (u * u, if u % 6 = 1 then 4 * u else 2 * u, 6 * u) H' := by
          rcases hu7 with h6 | h6
          · rw [if_neg (by omega), if_pos (by omega), if_pos h6]
          · rw [if_pos (by omega), if_neg (by omega)]
        rw [hheap, hlist]
        exact ih _ (by omega) (q' + d') (6 - d') (size + 1) q' u _ (by omega) hg'.next hu2
          (by omega) hu5 (by omega) (by omega) hcomp hadv rfl
      · rw [if_neg ht, hlist]
        exact ih _ (by omega) (q' + d') (6 - d') size q' P H' (by omega) hg'.next hP hP5 hsize
          (hg'.le_of_six ((Six.of_prime hP hP5).mul (Six.of_prime hP hP5)) (by omega)) hqP' hcomp
          (hinv.advance (by omega)) rfl

theorem chartres_spec (n : Int) : chartres n = some (.ok (some (primesUpTo n.toNat))) := by
  have h := chartresLoop_spec n 5 2 1 25 5 [(25, 10, 30)] (by omega) (.inl ⟨by omega, rfl⟩)
    (by norm_num) (by omega) (by decide) (by omega) (by omega)
    ⟨5, 5, by omega, by omega, .inr (by omega), .inr (by omega), by omega⟩
    ⟨by simp, by
      intro e he
      simp only [List.mem_singleton] at he
      subst he
      exact ⟨5, 5, by norm_num, by omega, by omega, by omega, .inr (by omega), by simp⟩,
     by simp, by
      intro p hp h5 hP
      have : p = 5 := by omega
      subst this
      exact ⟨5, _, List.mem_singleton.2 rfl, ⟨hp, by omega, by omega, by omega, .inr (by omega),
        by simp⟩, fun k h1 h2 _ => by omega⟩⟩
  have e : primesUpTo (5 - 1) = [2, 3] := by decide
  rw [e] at h
  exact h

end Rosemary.Sieves
