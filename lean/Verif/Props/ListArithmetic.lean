import Verif.Props.Core
import Verif.Props.Factorization
import Mathlib.Data.List.Perm.Basic
import Mathlib.Data.Nat.Factorization.Basic

/-!
# C194: `gcd_list`, `lcm_list`, `chinese` and `factor_back` as functions of collections

The four functions take a list and fold over it.  What they return does not depend on the order of the list, and a list
may be worked off in groups; the gcd and the lcm depend on the set of the numbers only.
-/

namespace Rosemary.Props

open Rosemary Rosemary.Core Rosemary.Factorization

private theorem gcdOf_unique {g h : Int} {l l' : List Int} (hg : IsGcdOf g l) (hh : IsGcdOf h l')
    (hs : ∀ a, a ∈ l ↔ a ∈ l') : g = h :=
  Int.dvd_antisymm hg.1 hh.1 (hh.2.2 g fun a ha => hg.2.1 a ((hs a).2 ha))
    (hg.2.2 h fun a ha => hh.2.1 a ((hs a).1 ha))

private theorem lcmOf_unique {g h : Int} {l l' : List Int} (hg : IsLcmOf g l) (hh : IsLcmOf h l')
    (hs : ∀ a, a ∈ l ↔ a ∈ l') : g = h :=
  Int.dvd_antisymm hg.1 hh.1 (hg.2.2 h fun a ha => hh.2.1 a ((hs a).1 ha))
    (hh.2.2 g fun a ha => hg.2.1 a ((hs a).2 ha))

/-- C194, sets: two lists of at least two entries with the same members, in whatever order and with whatever
repetitions, have the same gcd and the same lcm. -/
theorem C194_sets (l l' : List Int) (h : 2 ≤ l.length) (h' : 2 ≤ l'.length) (hs : ∀ a, a ∈ l ↔ a ∈ l') :
    gcdList l = gcdList l' ∧ lcmList l = lcmList l' := by
  obtain ⟨g, hg, hg'⟩ := C01_gcd_list l h
  obtain ⟨k, hk, hk'⟩ := C01_gcd_list l' h'
  obtain ⟨m, hm, hm'⟩ := C03_lcm_list l h
  obtain ⟨n, hn, hn'⟩ := C03_lcm_list l' h'
  rw [hg, hk, hm, hn, gcdOf_unique hg' hk' hs, lcmOf_unique hm' hn' hs]
  exact ⟨rfl, rfl⟩

/-- C194, order: a rearranged list gives the same gcd and the same lcm, or the same error. -/
theorem C194_order (l l' : List Int) (h : l.Perm l') : gcdList l = gcdList l' ∧ lcmList l = lcmList l' := by
  by_cases h2 : 2 ≤ l.length
  · exact C194_sets l l' h2 (h.length_eq ▸ h2) fun a => h.mem_iff
  · match l, h2 with
    | [], _ => rw [List.nil_perm.1 h]; exact ⟨rfl, rfl⟩
    | [a], _ => rw [List.singleton_perm.1 h]; exact ⟨rfl, rfl⟩
    | _ :: _ :: _, h2 => simp at h2

/-- What a list of any positive length gives: a number with the divisibility property, up to sign. -/
private theorem gcdList_any (l : List Int) (h : l ≠ []) :
    ∃ g, gcdList l = .ok g ∧ ∀ c : Int, c ∣ g ↔ ∀ a ∈ l, c ∣ a := by
  match l, h with
  | [a], _ => exact ⟨a, rfl, fun c => by simp⟩
  | a :: b :: r, _ =>
    obtain ⟨g, hg, -, h1, h2⟩ := C01_gcd_list (a :: b :: r) (by simp)
    exact ⟨g, hg, fun c => ⟨fun hc d hd => hc.trans (h1 d hd), h2 c⟩⟩

private theorem lcmList_any (l : List Int) (h : l ≠ []) :
    ∃ g, lcmList l = .ok g ∧ ∀ c : Int, g ∣ c ↔ ∀ a ∈ l, a ∣ c := by
  match l, h with
  | [a], _ => exact ⟨a, rfl, fun c => by simp⟩
  | a :: b :: r, _ =>
    obtain ⟨g, hg, -, h1, h2⟩ := C03_lcm_list (a :: b :: r) (by simp)
    exact ⟨g, hg, fun c => ⟨fun hc d hd => (h1 d hd).trans hc, h2 c⟩⟩

private theorem two_le_append {α : Type} {l m : List α} (hl : l ≠ []) (hm : m ≠ []) : 2 ≤ (l ++ m).length := by
  have := List.length_pos_of_ne_nil hl
  have := List.length_pos_of_ne_nil hm
  rw [List.length_append]
  omega

/-- C194, groups: the gcd of a list is the gcd of the gcds of its two parts, and so for the lcm. -/
theorem C194_groups (l m : List Int) (hl : l ≠ []) (hm : m ≠ []) :
    (∃ a b, gcdList l = .ok a ∧ gcdList m = .ok b ∧ gcdList (l ++ m) = .ok (Core.gcd a b)) ∧
      ∃ a b, lcmList l = .ok a ∧ lcmList m = .ok b ∧ lcmList (l ++ m) = .ok (Core.lcm a b) := by
  constructor
  · obtain ⟨a, ha, ha'⟩ := gcdList_any l hl
    obtain ⟨b, hb, hb'⟩ := gcdList_any m hm
    obtain ⟨g, hg, h0, h1, h2⟩ := C01_gcd_list (l ++ m) (two_le_append hl hm)
    obtain ⟨k0, k1, k2⟩ := C01_gcd a b
    refine ⟨a, b, ha, hb, hg.trans (congrArg _ (Int.dvd_antisymm h0 k0 (k2 g ?_) (h2 _ ?_)))⟩
    · intro c hc
      simp only [List.mem_cons, List.not_mem_nil, or_false] at hc
      rcases hc with rfl | rfl
      · exact (ha' g).2 fun x hx => h1 x (List.mem_append_left _ hx)
      · exact (hb' g).2 fun x hx => h1 x (List.mem_append_right _ hx)
    · intro x hx
      rcases List.mem_append.1 hx with hx | hx
      · exact (ha' _).1 (k1 a (by simp)) x hx
      · exact (hb' _).1 (k1 b (by simp)) x hx
  · obtain ⟨a, ha, ha'⟩ := lcmList_any l hl
    obtain ⟨b, hb, hb'⟩ := lcmList_any m hm
    obtain ⟨g, hg, h0, h1, h2⟩ := C03_lcm_list (l ++ m) (two_le_append hl hm)
    obtain ⟨k0, k1, k2⟩ := C03_lcm a b
    refine ⟨a, b, ha, hb, hg.trans (congrArg _ (Int.dvd_antisymm h0 k0 (h2 _ ?_) (k2 g ?_)))⟩
    · intro x hx
      rcases List.mem_append.1 hx with hx | hx
      · exact (ha' _).1 (k1 a (by simp)) x hx
      · exact (hb' _).1 (k1 b (by simp)) x hx
    · intro c hc
      simp only [List.mem_cons, List.not_mem_nil, or_false] at hc
      rcases hc with rfl | rfl
      · exact (ha' g).2 fun x hx => h1 x (List.mem_append_left _ hx)
      · exact (hb' g).2 fun x hx => h1 x (List.mem_append_right _ hx)

/-- C194, scaling: multiplying all entries by `c` multiplies gcd and lcm by `|c|`. -/
theorem C194_scaling (c : Int) (l : List Int) (h : 2 ≤ l.length) :
    (∃ g, gcdList l = .ok g ∧ gcdList (l.map (c * ·)) = .ok (|c| * g)) ∧
      ∃ m, lcmList l = .ok m ∧ lcmList (l.map (c * ·)) = .ok (|c| * m) := by
  have hne : l ≠ [] := by rintro rfl; simp at h
  obtain ⟨x, hx⟩ := List.exists_mem_of_ne_nil l hne
  constructor
  · obtain ⟨g, hg, h0, h1, h2⟩ := C01_gcd_list l h
    obtain ⟨k, hk, k0, k1, k2⟩ := C01_gcd_list (l.map (c * ·)) (by simpa using h)
    refine ⟨g, hg, hk.trans (congrArg _ (Int.dvd_antisymm k0 (mul_nonneg (abs_nonneg c) h0) ?_ (k2 _ ?_)))⟩
    · by_cases hc : c = 0
      · subst hc; simp
      obtain ⟨e, rfl⟩ := k2 c fun a ha => by
        obtain ⟨b, -, rfl⟩ := List.mem_map.1 ha
        exact dvd_mul_right c b
      have he : e ∣ g := h2 e fun a ha =>
        (mul_dvd_mul_iff_left hc).1 (k1 (c * a) (List.mem_map_of_mem (f := (c * ·)) ha))
      exact mul_dvd_mul ((dvd_abs c c).2 dvd_rfl) he
    · intro a ha
      obtain ⟨b, hb, rfl⟩ := List.mem_map.1 ha
      exact mul_dvd_mul ((abs_dvd c c).2 dvd_rfl) (h1 b hb)
  · obtain ⟨g, hg, h0, h1, h2⟩ := C03_lcm_list l h
    obtain ⟨k, hk, k0, k1, k2⟩ := C03_lcm_list (l.map (c * ·)) (by simpa using h)
    refine ⟨g, hg, hk.trans (congrArg _ (Int.dvd_antisymm k0 (mul_nonneg (abs_nonneg c) h0) (k2 _ ?_) ?_))⟩
    · intro a ha
      obtain ⟨b, hb, rfl⟩ := List.mem_map.1 ha
      exact mul_dvd_mul ((dvd_abs c c).2 dvd_rfl) (h1 b hb)
    · have hxk := k1 (c * x) (List.mem_map_of_mem (f := (c * ·)) hx)
      by_cases hc : c = 0
      · subst hc; simpa using hxk
      obtain ⟨e, he⟩ := (dvd_mul_right c x).trans hxk
      rw [he]
      refine mul_dvd_mul ((abs_dvd c c).2 dvd_rfl) (h2 e fun a ha => (mul_dvd_mul_iff_left hc).1 ?_)
      rw [← he]
      exact k1 (c * a) (List.mem_map_of_mem (f := (c * ·)) ha)

private theorem gcd_lcm_distrib (x y z : ℕ) : x.gcd (y.lcm z) = (x.gcd y).lcm (x.gcd z) := by
  rcases Nat.eq_zero_or_pos x with rfl | hx
  · simp
  rcases Nat.eq_zero_or_pos y with rfl | hy
  · rw [Nat.lcm_zero_left, Nat.gcd_zero_right, Nat.lcm_eq_left (Nat.gcd_dvd_left _ _)]
  rcases Nat.eq_zero_or_pos z with rfl | hz
  · rw [Nat.lcm_zero_right, Nat.gcd_zero_right, Nat.lcm_eq_right (Nat.gcd_dvd_left _ _)]
  have h1 := (Nat.lcm_pos hy hz).ne'
  have h2 := (Nat.gcd_pos_of_pos_left y hx).ne'
  have h3 := (Nat.gcd_pos_of_pos_left z hx).ne'
  refine Nat.eq_of_factorization_eq (Nat.gcd_pos_of_pos_left _ hx).ne' (Nat.lcm_pos h2.bot_lt h3.bot_lt).ne' fun p => ?_
  rw [Nat.factorization_gcd hx.ne' h1, Nat.factorization_lcm hy.ne' hz.ne', Nat.factorization_lcm h2 h3,
    Nat.factorization_gcd hx.ne' hy.ne', Nat.factorization_gcd hx.ne' hz.ne']
  simp only [Finsupp.inf_apply, Finsupp.sup_apply]
  exact inf_sup_left ..

private theorem lcm_gcd_distrib (x y z : ℕ) : x.lcm (y.gcd z) = (x.lcm y).gcd (x.lcm z) := by
  rcases Nat.eq_zero_or_pos x with rfl | hx
  · simp
  rcases Nat.eq_zero_or_pos y with rfl | hy
  · simp
  rcases Nat.eq_zero_or_pos z with rfl | hz
  · simp
  have h1 := (Nat.gcd_pos_of_pos_left z hy).ne'
  have h2 := (Nat.lcm_pos hx hy).ne'
  have h3 := (Nat.lcm_pos hx hz).ne'
  refine Nat.eq_of_factorization_eq (Nat.lcm_pos hx h1.bot_lt).ne' (Nat.gcd_pos_of_pos_left _ h2.bot_lt).ne' fun p => ?_
  rw [Nat.factorization_lcm hx.ne' h1, Nat.factorization_gcd hy.ne' hz.ne', Nat.factorization_gcd h2 h3,
    Nat.factorization_lcm hx.ne' hy.ne', Nat.factorization_lcm hx.ne' hz.ne']
  simp only [Finsupp.inf_apply, Finsupp.sup_apply]
  exact sup_inf_left ..

/-- C194, lattice: `gcd` and `lcm` distribute over each other, absorb each other, and their product is the product of
the numbers up to sign. -/
theorem C194_lattice (x y z : Int) :
    Core.gcd x (Core.lcm y z) = Core.lcm (Core.gcd x y) (Core.gcd x z) ∧
      Core.lcm x (Core.gcd y z) = Core.gcd (Core.lcm x y) (Core.lcm x z) ∧
      Core.gcd x (Core.lcm x y) = |x| ∧ Core.lcm x (Core.gcd x y) = |x| ∧
      Core.gcd x y * Core.lcm x y = |x * y| := by
  simp only [gcd_eq, lcm_eq, Int.gcd, Int.lcm, Int.natAbs_natCast]
  refine ⟨?_, ?_, ?_, ?_, ?_⟩
  · exact_mod_cast gcd_lcm_distrib ..
  · exact_mod_cast lcm_gcd_distrib ..
  · rw [Nat.gcd_eq_left (Nat.dvd_lcm_left _ _), Int.abs_eq_natAbs]
  · rw [Nat.lcm_eq_left (Nat.gcd_dvd_left _ _), Int.abs_eq_natAbs]
  · rw [Int.abs_eq_natAbs, Int.natAbs_mul, ← Nat.gcd_mul_lcm x.natAbs y.natAbs]
    push_cast
    rfl

example : gcdList [12, -18, 30] = gcdList [30, 30, 12, -18] ∧ lcmList [4, 6, -10] = lcmList [-10, 4, 6, 4] ∧
    gcdList [-12] = .ok (-12) ∧ gcdList [-12, -12] = .ok 12 ∧
    gcdList ([12, 18].map (-5 * ·)) = .ok 30 := by decide +kernel

private theorem coprime_prod (a : Int) : ∀ t : List Int, (∀ b ∈ t, IsCoprime a b) → IsCoprime a t.prod
  | [], _ => by simpa using isCoprime_one_right
  | b :: t, hb => by
    rw [List.prod_cons]
    exact IsCoprime.mul_right (hb b (by simp)) (coprime_prod a t fun d hd => hb d (by simp [hd]))

private theorem dvd_list_prod (x : Int) : ∀ t : List Int, x ∈ t → x ∣ t.prod := fun _ h => List.dvd_prod h

/-- C194, `chinese` and order: rearranging congruences with positive moduli changes nothing, errors included. -/
theorem C194_chinese_order (cs ds : List (Int × Int)) (hpos : ∀ c ∈ cs, 0 < c.2) (h : cs.Perm ds) :
    chinese cs = chinese ds := by
  have hpos' : ∀ c ∈ ds, 0 < c.2 := fun c hc => hpos c (h.mem_iff.2 hc)
  by_cases hne : cs = []
  · subst hne; rw [List.nil_perm.1 h]
  have hco' : (cs.map Prod.snd).Pairwise IsCoprime ↔ (ds.map Prod.snd).Pairwise IsCoprime :=
    (h.map Prod.snd).pairwise_iff fun h => h.symm
  by_cases hco : (cs.map Prod.snd).Pairwise IsCoprime
  · by_cases h2 : 2 ≤ cs.length
    · obtain ⟨x, hx, x1, x2, x3, -⟩ := C10_chinese_partial cs h2 hpos hco
      obtain ⟨y, hy, -, -, -, y4⟩ := C10_chinese_partial ds (h.length_eq ▸ h2) hpos' (hco'.1 hco)
      rw [hx, hy, y4 x (fun c hc => x1 c (h.mem_iff.2 hc)) x2 (by rw [← (h.map Prod.snd).prod_eq]; exact x3)]
    · match cs, hne, h2 with
      | [a], _, _ => rw [List.singleton_perm.1 h]
      | _ :: _ :: _, _, h2 => simp at h2
  · rw [C10_chinese_error cs hne hpos hco, C10_chinese_error ds (fun e => hne (List.perm_nil.1 (e ▸ h))) hpos'
      (fun e => hco (hco'.2 e))]

/-- C194, `chinese` and residues: with two congruences or more, residues may be replaced by congruent ones.  A single
residue is returned as it is, so there the answer changes. -/
theorem C194_chinese_residues (cs ds : List (Int × Int)) (hlen : 2 ≤ cs.length) (hpos : ∀ c ∈ cs, 0 < c.2)
    (h : List.Forall₂ (fun c d => c.2 = d.2 ∧ c.2 ∣ c.1 - d.1) cs ds) :
    chinese cs = chinese ds ∧
      ∀ x m k : Int, chinese [(x + m * k, m)] = .ok (x + m * k) ∧ chinese [(x, m)] = .ok x := by
  refine ⟨?_, fun x m k => ⟨rfl, rfl⟩⟩
  have hmods : cs.map Prod.snd = ds.map Prod.snd := by
    clear hlen hpos
    induction h with
    | nil => rfl
    | cons a _ ih => rw [List.map_cons, List.map_cons, ih, a.1]
  have hmem : ∀ d ∈ ds, ∃ c ∈ cs, c.2 = d.2 ∧ c.2 ∣ c.1 - d.1 := by
    clear hlen hpos hmods
    induction h with
    | nil => simp
    | cons a _ ih =>
      intro d hd
      rcases List.mem_cons.1 hd with rfl | hd
      · exact ⟨_, List.mem_cons_self, a⟩
      · obtain ⟨c, hc, hc'⟩ := ih d hd
        exact ⟨c, List.mem_cons_of_mem _ hc, hc'⟩
  have hpos' : ∀ d ∈ ds, 0 < d.2 := fun d hd => by
    obtain ⟨c, hc, e, -⟩ := hmem d hd
    exact e ▸ hpos c hc
  by_cases hco : (cs.map Prod.snd).Pairwise IsCoprime
  · obtain ⟨x, hx, x1, x2, x3, -⟩ := C10_chinese_partial cs hlen hpos hco
    obtain ⟨y, hy, -, -, -, y4⟩ := C10_chinese_partial ds (h.length_eq ▸ hlen) hpos' (hmods ▸ hco)
    rw [hx, hy, y4 x ?_ x2 (hmods ▸ x3)]
    intro d hd
    obtain ⟨c, hc, e, e'⟩ := hmem d hd
    have := dvd_add (x1 c hc) e'
    rw [e] at this
    simpa using this
  · rw [C10_chinese_error cs (by rintro rfl; simp at hlen) hpos hco,
      C10_chinese_error ds (by rintro rfl; simp [h.length_eq] at hlen) hpos' (hmods ▸ hco)]

private theorem chinese_any (cs : List (Int × Int)) (hne : cs ≠ []) (hpos : ∀ c ∈ cs, 0 < c.2)
    (hco : (cs.map Prod.snd).Pairwise IsCoprime) : ∃ x, chinese cs = .ok x ∧ ∀ c ∈ cs, c.2 ∣ x - c.1 := by
  match cs, hne with
  | [(x, m)], _ => exact ⟨x, rfl, by simp⟩
  | a :: b :: r, _ =>
    obtain ⟨x, hx, x1, -⟩ := C10_chinese_partial (a :: b :: r) (by simp) hpos hco
    exact ⟨x, hx, x1⟩

/-- C194, `chinese` in groups: two systems may be solved first and their solutions combined. -/
theorem C194_chinese_groups (cs ds : List (Int × Int)) (hc : cs ≠ []) (hd : ds ≠ [])
    (hpos : ∀ c ∈ cs ++ ds, 0 < c.2) (hco : ((cs ++ ds).map Prod.snd).Pairwise IsCoprime) :
    ∃ x y, chinese cs = .ok x ∧ chinese ds = .ok y ∧
      chinese [(x, (cs.map Prod.snd).prod), (y, (ds.map Prod.snd).prod)] = chinese (cs ++ ds) := by
  have hco0 := hco
  rw [List.map_append, List.pairwise_append] at hco0
  obtain ⟨c1, c2, c3⟩ := hco0
  obtain ⟨x, hx, x1⟩ := chinese_any cs hc (fun c h => hpos c (List.mem_append_left _ h)) c1
  obtain ⟨y, hy, y1⟩ := chinese_any ds hd (fun c h => hpos c (List.mem_append_right _ h)) c2
  obtain ⟨z, hz, -, -, -, z4⟩ := C10_chinese_partial (cs ++ ds) (two_le_append hc hd) hpos hco
  have pc : 0 < (cs.map Prod.snd).prod := List.prod_pos fun a ha => by
    obtain ⟨c, h, rfl⟩ := List.mem_map.1 ha
    exact hpos c (List.mem_append_left _ h)
  have pd : 0 < (ds.map Prod.snd).prod := List.prod_pos fun a ha => by
    obtain ⟨c, h, rfl⟩ := List.mem_map.1 ha
    exact hpos c (List.mem_append_right _ h)
  have cop : IsCoprime (cs.map Prod.snd).prod (ds.map Prod.snd).prod :=
    coprime_prod _ _ fun b hb => (coprime_prod _ _ fun a ha => (c3 a ha b hb).symm).symm
  obtain ⟨w, hw, w1, w2, w3, -⟩ := C10_chinese_partial
    [(x, (cs.map Prod.snd).prod), (y, (ds.map Prod.snd).prod)] (by simp) (by simp [pc, pd]) (by simpa using cop)
  refine ⟨x, y, hx, hy, ?_⟩
  rw [hw, hz, z4 w ?_ w2 (by simpa using w3)]
  intro c h
  rcases List.mem_append.1 h with h | h
  · have := dvd_add ((dvd_list_prod _ _ (List.mem_map_of_mem (f := Prod.snd) h)).trans
      (w1 (x, (cs.map Prod.snd).prod) (by simp))) (x1 c h)
    simpa using this
  · have := dvd_add ((dvd_list_prod _ _ (List.mem_map_of_mem (f := Prod.snd) h)).trans
      (w1 (y, (ds.map Prod.snd).prod) (by simp))) (y1 c h)
    simpa using this

example : chinese [(2, 3), (3, 5), (2, 7)] = .ok 23 ∧ chinese [(2, 7), (2, 3), (3, 5)] = .ok 23 ∧
    chinese [(-1, 3), (8, 5), (2, 7)] = .ok 23 ∧ chinese [(2, 3), (3, 5)] = .ok 8 ∧
    chinese [(8, 15), (2, 7)] = .ok 23 := by decide +kernel

/-- C194, `factor_back`: the order of the factors is irrelevant, joining two factorizations multiplies the numbers,
and multiplying all exponents by `k` gives the `k`-th power. -/
theorem C194_factor_back (L M : List (Int × Nat)) (k : Nat) :
    (L.Perm M → factorBack L = factorBack M) ∧ factorBack (L ++ M) = factorBack L * factorBack M ∧
      factorBack (L.map fun pe => (pe.1, pe.2 * k)) = factorBack L ^ k := by
  simp only [C28_factor_back]
  refine ⟨fun h => (h.map _).prod_eq, by rw [List.map_append, List.prod_append], ?_⟩
  induction L with
  | nil => simp
  | cons a L ih => simp only [List.map_cons, List.prod_cons] at ih ⊢; rw [ih, mul_pow, pow_mul]

example : factorBack [(2, 3), (5, 1), (-1, 1)] = -40 ∧ factorBack [(-1, 1), (5, 1), (2, 3)] = -40 ∧
    factorBack [(2, 6), (5, 2), (-1, 2)] = 1600 := by decide +kernel

end Rosemary.Props
