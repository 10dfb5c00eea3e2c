import Verif.Lemmas.HavelHakimi
import Mathlib.Combinatorics.SimpleGraph.DegreeSum
import Mathlib.Algebra.Order.BigOperators.Group.Finset

/-!
# The theorem of Erdős and Gallai

The proof that the inequalities suffice follows Tripathi, Venugopalan and West, "A short constructive proof of the
Erdős-Gallai characterization of graphic lists".
-/

namespace Rosemary.Havel

open BigOperators

variable {W : Type} [Fintype W]

open Classical in
/-- Indicator. -/
noncomputable def ind (a x : W) : ℕ := if x = a then 1 else 0

omit [Fintype W] in
theorem ind_self (a : W) : ind a a = 1 := if_pos rfl

omit [Fintype W] in
theorem ind_ne {a x : W} (h : x ≠ a) : ind a x = 0 := if_neg h

/-- A new edge. -/
def addE (G : SimpleGraph W) (a b : W) (h : a ≠ b) : SimpleGraph W where
  Adj x y := G.Adj x y ∨ s(x, y) = s(a, b)
  symm := ⟨fun x y k => by
    rw [Sym2.eq_swap (a := y) (b := x)]
    exact k.imp (fun e => e.symm) id⟩
  loopless := ⟨fun x k => by
    rcases k with k | k
    · exact G.loopless.irrefl x k
    · simp only [Sym2.eq_iff] at k
      rcases k with ⟨rfl, e⟩ | ⟨rfl, e⟩
      · exact h e
      · exact h e.symm⟩

/-- Remove an edge. -/
def delE (G : SimpleGraph W) (a b : W) : SimpleGraph W where
  Adj x y := G.Adj x y ∧ s(x, y) ≠ s(a, b)
  symm := ⟨fun x y k => by
    rw [Sym2.eq_swap (a := y) (b := x)]
    exact ⟨k.1.symm, k.2⟩⟩
  loopless := ⟨fun x k => G.loopless.irrefl x k.1⟩

omit [Fintype W] in
theorem addE_adj {G : SimpleGraph W} {a b : W} (h : a ≠ b) (x y : W) :
    (addE G a b h).Adj x y ↔ G.Adj x y ∨ (x = a ∧ y = b) ∨ (x = b ∧ y = a) := by
  rw [← Sym2.eq_iff]; rfl

omit [Fintype W] in
theorem delE_adj {G : SimpleGraph W} {a b : W} (x y : W) :
    (delE G a b).Adj x y ↔ G.Adj x y ∧ ¬ ((x = a ∧ y = b) ∨ (x = b ∧ y = a)) := by
  rw [← Sym2.eq_iff]; rfl

open Classical in
theorem deg_addE {G : SimpleGraph W} {a b : W} (h : a ≠ b) (hn : ¬ G.Adj a b) (x : W) :
    deg (addE G a b h) x = deg G x + ind a x + ind b x := by
  have key : ∀ p q, ¬ G.Adj p q → (∀ y, (addE G a b h).Adj p y ↔ y = q ∨ G.Adj p y) → deg (addE G a b h) p = deg G p + 1 := by
    intro p q hpq hy
    rw [deg, deg, ← Finset.card_insert_of_notMem (a := q) (by simpa using hpq)]
    congr 1
    ext y
    simp only [Finset.mem_filter, Finset.mem_univ, true_and, hy, Finset.mem_insert]
  by_cases h1 : x = a
  · subst h1
    rw [key x b hn (fun y => by rw [addE_adj]; simp only [true_and, h, false_and, or_false]; tauto), ind_self, ind_ne h]
  by_cases h2 : x = b
  · subst h2
    rw [key x a (fun e => hn e.symm) (fun y => by rw [addE_adj]; simp only [true_and, h1, false_and, false_or]; tauto), ind_self, ind_ne h1]
  · rw [ind_ne h1, ind_ne h2, deg, deg]
    simp only [addE_adj, h1, h2, false_and, or_false, add_zero]

open Classical in
theorem deg_delE {G : SimpleGraph W} {a b : W} (hn : G.Adj a b) (x : W) :
    deg (delE G a b) x + ind a x + ind b x = deg G x := by
  have h : a ≠ b := hn.ne
  have key : ∀ p q, G.Adj p q → (∀ y, (delE G a b).Adj p y ↔ y ≠ q ∧ G.Adj p y) → deg (delE G a b) p + 1 = deg G p := by
    intro p q hpq hy
    have hm : q ∈ Finset.univ.filter (fun w => G.Adj p w) := by simpa using hpq
    have := Finset.card_erase_add_one hm
    rw [deg, deg, ← this]
    congr 2
    ext y
    simp only [Finset.mem_filter, Finset.mem_univ, true_and, hy, Finset.mem_erase]
  by_cases h1 : x = a
  · subst h1
    rw [ind_self, ind_ne h, ← key x b hn (fun y => by rw [delE_adj]; simp only [true_and, h, false_and, or_false]; tauto)]
  by_cases h2 : x = b
  · subst h2
    rw [ind_self, ind_ne h1, ← key x a hn.symm (fun y => by rw [delE_adj]; simp only [true_and, h1, false_and, false_or]; tauto)]
  · rw [ind_ne h1, ind_ne h2, deg, deg]
    simp only [delE_adj, h1, h2, false_and, or_false, add_zero, not_false_eq_true, and_true]

open Classical in
/-- The sum of the degrees is even. -/
theorem even_sum_deg (G : SimpleGraph W) : Even (∑ v, deg G v) := by
  have := G.sum_degrees_eq_twice_card_edges
  have e : ∀ v, deg G v = G.degree v := by
    intro v
    rw [← SimpleGraph.card_neighborFinset_eq_degree, deg]
    congr 1
    ext w
    simp
  simp only [e]
  rw [this]
  exact even_two_mul _

variable {n : ℕ}

/-- A graph that realises the degrees before `r`, exceeds none, and has no edges after `r`. -/
structure Inv (d : Fin n → ℕ) (r : ℕ) (G : SimpleGraph (Fin n)) : Prop where
  le : ∀ i, deg G i ≤ d i
  eq : ∀ i : Fin n, i.val < r → deg G i = d i
  indep : ∀ i j : Fin n, r < i.val → r < j.val → ¬ G.Adj i j

open Classical in
theorem deg_split (G : SimpleGraph (Fin n)) (r : ℕ) (v : Fin n) :
    deg G v = (∑ w ∈ Finset.univ.filter (fun w : Fin n => w.val ≤ r), if G.Adj v w then 1 else 0) +
      ∑ w ∈ Finset.univ.filter (fun w : Fin n => ¬ w.val ≤ r), if G.Adj v w then 1 else 0 := by
  rw [deg_eq_sum, Finset.sum_filter_add_sum_filter_not]

open Classical in
theorem card_le_index {r : ℕ} (hr : r < n) : (Finset.univ.filter (fun w : Fin n => w.val ≤ r)).card = r + 1 := by
  have : (Finset.univ.filter (fun w : Fin n => w.val ≤ r)) = Finset.univ.filter (fun w : Fin n => w.val < r + 1) := by
    ext w; simp only [Finset.mem_filter, Finset.mem_univ, true_and]; omega
  rw [this, Finset.card_filter]
  exact card_first (by omega)

open Classical in
/-- The degree at the critical vertex can be increased. -/
theorem improve {d : Fin n → ℕ} (hd : ∀ i j : Fin n, i ≤ j → d j ≤ d i) (heven : Even (∑ i, d i))
    (heg : ∀ r : Fin n, ∑ i ∈ Finset.univ.filter (fun w : Fin n => w.val ≤ r.val), d i ≤
      r.val * (r.val + 1) + ∑ i ∈ Finset.univ.filter (fun w : Fin n => ¬ w.val ≤ r.val), min (r.val + 1) (d i))
    (R : Fin n) (G : SimpleGraph (Fin n)) (hG : Inv d R.val G) (hR : deg G R < d R) :
    ∃ G', Inv d R.val G' ∧ deg G R < deg G' R := by
  -- no vertex before `R` lacks edges
  have hlow : ∀ i : Fin n, i ≠ R → deg G i < d i → R.val < i.val := by
    intro i hi hlt
    by_contra hc
    have : i.val < R.val := by
      have := fun e => hi (Fin.ext e)
      omega
    have := hG.eq i this
    omega
  -- case 0
  by_cases h0 : ∃ i, i ≠ R ∧ ¬ G.Adj R i ∧ deg G i < d i
  · obtain ⟨i, hi, hn, hlt⟩ := h0
    have hri := hlow i hi hlt
    have hdeg := deg_addE (Ne.symm hi) hn
    refine ⟨addE G R i (Ne.symm hi), ⟨fun x => ?_, fun x hx => ?_, fun x y hx hy => ?_⟩, ?_⟩
    · rw [hdeg]
      by_cases h1 : x = R
      · subst h1; rw [ind_self, ind_ne (Ne.symm hi)]; omega
      · by_cases h2 : x = i
        · subst h2; rw [ind_self, ind_ne h1]; omega
        · rw [ind_ne h1, ind_ne h2]; exact hG.le x
    · have h1 : x ≠ R := by rintro rfl; omega
      have h2 : x ≠ i := by rintro rfl; omega
      rw [hdeg, ind_ne h1, ind_ne h2]
      exact hG.eq x hx
    · rw [addE_adj]
      rintro (h | ⟨rfl, -⟩ | ⟨-, rfl⟩)
      · exact hG.indep x y hx hy h
      · omega
      · omega
    · rw [hdeg, ind_self, ind_ne (Ne.symm hi)]; omega
  have h0' : ∀ i, i ≠ R → deg G i < d i → G.Adj R i := by
    intro i hi hlt
    by_contra hn
    exact h0 ⟨i, hi, hn, hlt⟩
  -- an earlier vertex has a neighbour that `R` has not
  have hu : ∀ i : Fin n, i.val < R.val → ∃ u, G.Adj i u ∧ ¬ G.Adj R u ∧ u ≠ R := by
    intro i hi
    have hdi := hG.eq i hi
    have hdr := hd i R (by rw [Fin.le_def]; omega)
    by_contra hcon
    push Not at hcon
    have hsub : (Finset.univ.filter (fun w => G.Adj i w)).erase R ⊆ (Finset.univ.filter (fun w => G.Adj R w)).erase i := by
      intro w hw
      simp only [Finset.mem_erase, Finset.mem_filter, Finset.mem_univ, true_and] at hw ⊢
      refine ⟨hw.2.ne', ?_⟩
      by_contra hc
      exact hw.1 (hcon w hw.2 hc)
    have hle := Finset.card_le_card hsub
    rw [deg] at hdi hR
    by_cases hadj : G.Adj i R
    · rw [Finset.card_erase_of_mem (by simpa using hadj), Finset.card_erase_of_mem (by simpa using hadj.symm)] at hle
      have hpos := Finset.card_pos.2 ⟨i, (by simpa using hadj.symm : i ∈ Finset.univ.filter (fun w => G.Adj R w))⟩
      omega
    · rw [Finset.erase_eq_of_notMem (by simpa using hadj), Finset.erase_eq_of_notMem (by simpa using fun h => hadj (G.adj_symm h))] at hle
      omega
  -- case 1
  by_cases h1 : ∃ i : Fin n, i.val < R.val ∧ ¬ G.Adj R i
  · obtain ⟨i, hi, hn⟩ := h1
    obtain ⟨u, hiu, hRu, huR⟩ := hu i hi
    have hiR : i ≠ R := by rintro rfl; omega
    have hui : u ≠ i := hiu.ne'
    by_cases h2 : deg G R + 2 ≤ d R
    · have e1 := deg_delE hiu
      have e2 := deg_addE (G := delE G i u) (a := R) (b := u) (Ne.symm huR) (by rw [delE_adj]; tauto)
      have e3 := deg_addE (G := addE (delE G i u) R u (Ne.symm huR)) (a := R) (b := i) (Ne.symm hiR) (by
        rw [addE_adj, delE_adj]
        tauto)
      have hdeg : ∀ x, deg (addE (addE (delE G i u) R u (Ne.symm huR)) R i (Ne.symm hiR)) x = deg G x + ind R x + ind R x := by
        intro x
        have := e1 x
        rw [e3, e2]; omega
      refine ⟨addE (addE (delE G i u) R u (Ne.symm huR)) R i (Ne.symm hiR), ⟨fun x => ?_, fun x hx => ?_, fun x y hx hy => ?_⟩, ?_⟩
      · rw [hdeg]
        by_cases h : x = R
        · subst h; rw [ind_self]; omega
        · rw [ind_ne h]; exact hG.le x
      · rw [hdeg, ind_ne (by rintro rfl; omega)]; exact hG.eq x hx
      · rw [addE_adj, addE_adj, delE_adj]
        have := hG.indep x y hx hy
        rintro ((h | ⟨rfl, -⟩ | ⟨-, rfl⟩) | ⟨rfl, -⟩ | ⟨-, rfl⟩)
        · exact this h.1
        all_goals omega
      · rw [hdeg, ind_self]; omega
    · -- there is another vertex that lacks edges
      obtain ⟨k, hkR, hk⟩ : ∃ k, k ≠ R ∧ deg G k < d k := by
        by_contra hcon
        push Not at hcon
        have : ∑ v, d v = ∑ v, deg G v + 1 := by
          rw [← Finset.add_sum_erase _ _ (Finset.mem_univ R), ← Finset.add_sum_erase (f := deg G) _ (Finset.mem_univ R)]
          have : ∑ x ∈ Finset.univ.erase R, d x = ∑ x ∈ Finset.univ.erase R, deg G x :=
            Finset.sum_congr rfl (fun x hx => le_antisymm (hcon x (Finset.ne_of_mem_erase hx)) (hG.le x))
          omega
        have h3 := even_sum_deg G
        rw [this] at heven
        obtain ⟨a, ha⟩ := heven
        obtain ⟨b, hb⟩ := h3
        omega
      have hRk := h0' k hkR hk
      have hrk := hlow k hkR hk
      have huk : u ≠ k := fun e => hRu (e ▸ hRk)
      have hik : i ≠ k := fun e => hn (e ▸ hRk)
      have e0 := deg_delE hRk
      have e1 := deg_delE (G := delE G R k) (a := i) (b := u) (by rw [delE_adj]; tauto)
      have e2 := deg_addE (G := delE (delE G R k) i u) (a := R) (b := u) (Ne.symm huR) (by rw [delE_adj, delE_adj]; tauto)
      have e3 := deg_addE (G := addE (delE (delE G R k) i u) R u (Ne.symm huR)) (a := R) (b := i) (Ne.symm hiR) (by
        rw [addE_adj, delE_adj, delE_adj]
        tauto)
      have hdeg : ∀ x, deg (addE (addE (delE (delE G R k) i u) R u (Ne.symm huR)) R i (Ne.symm hiR)) x + ind k x = deg G x + ind R x := by
        intro x
        have := e1 x
        have := e0 x
        rw [e3, e2]; omega
      refine ⟨addE (addE (delE (delE G R k) i u) R u (Ne.symm huR)) R i (Ne.symm hiR), ⟨fun x => ?_, fun x hx => ?_, fun x y hx hy => ?_⟩, ?_⟩
      · have := hdeg x
        by_cases h : x = R
        · subst h; rw [ind_self] at this; omega
        · rw [ind_ne h] at this
          have := hG.le x
          omega
      · have := hdeg x
        rw [ind_ne (show x ≠ R by rintro rfl; omega), ind_ne (show x ≠ k by rintro rfl; omega)] at this
        have := hG.eq x hx
        omega
      · rw [addE_adj, addE_adj, delE_adj, delE_adj]
        have := hG.indep x y hx hy
        rintro ((h | ⟨rfl, -⟩ | ⟨-, rfl⟩) | ⟨rfl, -⟩ | ⟨-, rfl⟩)
        · exact this h.1.1
        all_goals omega
      · have := hdeg R
        rw [ind_self, ind_ne (Ne.symm hkR)] at this
        omega
  have h1' : ∀ i : Fin n, i.val < R.val → G.Adj R i := by
    intro i hi
    by_contra hn
    exact h1 ⟨i, hi, hn⟩
  -- the degree of a late vertex
  have hlate : ∀ k : Fin n, R.val < k.val → deg G k = ∑ w ∈ Finset.univ.filter (fun w : Fin n => w.val ≤ R.val), if G.Adj k w then 1 else 0 := by
    intro k hk
    rw [deg_split G R.val k]
    have : (∑ w ∈ Finset.univ.filter (fun w : Fin n => ¬ w.val ≤ R.val), if G.Adj k w then 1 else 0) = 0 := by
      refine Finset.sum_eq_zero (fun w hw => ?_)
      rw [if_neg (hG.indep k w hk (by simpa using (Finset.mem_filter.1 hw).2))]
    rw [this, add_zero]
  have hlate' : ∀ k : Fin n, R.val < k.val → deg G k ≤ R.val + 1 := by
    intro k hk
    rw [hlate k hk, ← Finset.card_filter, ← card_le_index R.2]
    exact Finset.card_filter_le _ _
  -- case 2
  by_cases h2 : ∃ k : Fin n, R.val < k.val ∧ deg G k ≠ min (R.val + 1) (d k)
  · obtain ⟨k, hk, hne⟩ := h2
    have hk1 := hlate' k hk
    have hk2 := hG.le k
    have hlt1 : deg G k < R.val + 1 := by omega
    have hlt2 : deg G k < d k := by omega
    have hkR : k ≠ R := by rintro rfl; omega
    have hRk := h0' k hkR hlt2
    obtain ⟨i, hi, hki⟩ : ∃ i : Fin n, i.val ≤ R.val ∧ ¬ G.Adj k i := by
      by_contra hcon
      push Not at hcon
      rw [hlate k hk, Finset.sum_congr rfl (fun w hw => if_pos (hcon w (Finset.mem_filter.1 hw).2)), Finset.sum_const, smul_eq_mul, mul_one,
        card_le_index R.2] at hlt1
      omega
    have hiR : i ≠ R := fun e => hki (e ▸ hRk.symm)
    have hiR' : i.val < R.val := by
      have := fun e => hiR (Fin.ext e)
      omega
    obtain ⟨u, hiu, hRu, huR⟩ := hu i hiR'
    have hui : u ≠ i := hiu.ne'
    have huk : u ≠ k := fun e => hRu (e ▸ hRk)
    have hik : i ≠ k := by rintro rfl; omega
    have hki' : ¬ G.Adj i k := fun h => hki h.symm
    have e1 := deg_delE hiu
    have e2 := deg_addE (G := delE G i u) (a := R) (b := u) (Ne.symm huR) (by rw [delE_adj]; tauto)
    have e3 := deg_addE (G := addE (delE G i u) R u (Ne.symm huR)) (a := i) (b := k) hik (by
      rw [addE_adj, delE_adj]
      tauto)
    have hdeg : ∀ x, deg (addE (addE (delE G i u) R u (Ne.symm huR)) i k hik) x = deg G x + ind R x + ind k x := by
      intro x
      have := e1 x
      rw [e3, e2]; omega
    refine ⟨addE (addE (delE G i u) R u (Ne.symm huR)) i k hik, ⟨fun x => ?_, fun x hx => ?_, fun x y hx hy => ?_⟩, ?_⟩
    · rw [hdeg]
      by_cases h : x = R
      · subst h; rw [ind_self, ind_ne (Ne.symm hkR)]; omega
      · by_cases h' : x = k
        · subst h'; rw [ind_self, ind_ne h]; omega
        · rw [ind_ne h, ind_ne h']; exact hG.le x
    · rw [hdeg, ind_ne (show x ≠ R by rintro rfl; omega), ind_ne (show x ≠ k by rintro rfl; omega)]; exact hG.eq x hx
    · rw [addE_adj, addE_adj, delE_adj]
      have := hG.indep x y hx hy
      rintro ((h | ⟨rfl, -⟩ | ⟨-, rfl⟩) | ⟨rfl, -⟩ | ⟨-, rfl⟩)
      · exact this h.1
      all_goals omega
    · rw [hdeg, ind_self, ind_ne (Ne.symm hkR)]; omega
  have h2' : ∀ k : Fin n, R.val < k.val → deg G k = min (R.val + 1) (d k) := by
    intro k hk
    by_contra hn
    exact h2 ⟨k, hk, hn⟩
  -- case 3
  by_cases h3 : ∃ i j : Fin n, i.val < R.val ∧ j.val < R.val ∧ i ≠ j ∧ ¬ G.Adj i j
  · obtain ⟨i, j, hi, hj, hij, hn⟩ := h3
    obtain ⟨u, hiu, hRu, huR⟩ := hu i hi
    obtain ⟨w, hjw, hRw, hwR⟩ := hu j hj
    have late : ∀ x : Fin n, ¬ G.Adj R x → x ≠ R → R.val < x.val := by
      intro x hx hne
      by_contra hc
      have := fun e => hne (Fin.ext e)
      exact hx (h1' x (by omega))
    have hu' := late u hRu huR
    have hw' := late w hRw hwR
    have hui : u ≠ i := hiu.ne'
    have huj : u ≠ j := by rintro rfl; omega
    have hwi : w ≠ i := by rintro rfl; omega
    have hwj : w ≠ j := hjw.ne'
    have hRi : R ≠ i := by rintro rfl; omega
    have hRj : R ≠ j := by rintro rfl; omega
    have e0 := deg_delE hiu
    have e1 := deg_delE (G := delE G i u) (a := j) (b := w) (by
      rw [delE_adj]
      refine ⟨hjw, ?_⟩
      rintro (⟨h, -⟩ | ⟨-, h⟩)
      · exact hij h.symm
      · exact hwi h)
    have e2 := deg_addE (G := delE (delE G i u) j w) (a := R) (b := u) (Ne.symm huR) (by rw [delE_adj, delE_adj]; tauto)
    have e3 := deg_addE (G := addE (delE (delE G i u) j w) R u (Ne.symm huR)) (a := i) (b := j) hij (by
      rw [addE_adj, delE_adj, delE_adj]
      rintro (h | ⟨h, -⟩ | ⟨h, -⟩)
      · exact hn h.1.1
      · exact hRi h.symm
      · exact hui h.symm)
    have hdeg : ∀ x, deg (addE (addE (delE (delE G i u) j w) R u (Ne.symm huR)) i j hij) x + ind w x = deg G x + ind R x := by
      intro x
      have := e1 x
      have := e0 x
      rw [e3, e2]; omega
    refine ⟨addE (addE (delE (delE G i u) j w) R u (Ne.symm huR)) i j hij, ⟨fun x => ?_, fun x hx => ?_, fun x y hx hy => ?_⟩, ?_⟩
    · have := hdeg x
      by_cases h : x = R
      · subst h; rw [ind_self] at this; omega
      · rw [ind_ne h] at this
        have := hG.le x
        omega
    · have := hdeg x
      rw [ind_ne (show x ≠ R by rintro rfl; omega), ind_ne (show x ≠ w by rintro rfl; omega)] at this
      have := hG.eq x hx
      omega
    · rw [addE_adj, addE_adj, delE_adj, delE_adj]
      have := hG.indep x y hx hy
      rintro ((h | ⟨rfl, -⟩ | ⟨-, rfl⟩) | ⟨rfl, -⟩ | ⟨-, rfl⟩)
      · exact this h.1.1
      all_goals omega
    · have := hdeg R
      rw [ind_self, ind_ne (Ne.symm hwR)] at this
      omega
  -- no case applies: the inequality is violated
  exfalso
  have hclique : ∀ i j : Fin n, i.val ≤ R.val → j.val ≤ R.val → i ≠ j → G.Adj i j := by
    intro i j hi hj hij
    by_cases hiR : i = R
    · subst hiR
      refine h1' j ?_
      have := fun e => hij (Fin.ext e)
      omega
    by_cases hjR : j = R
    · subst hjR
      refine (h1' i ?_).symm
      have := fun e => hij (Fin.ext e)
      omega
    by_contra hn
    have k1 := fun e => hiR (Fin.ext e)
    have k2 := fun e => hjR (Fin.ext e)
    exact h3 ⟨i, j, by omega, by omega, hij, hn⟩
  have hsum : ∑ i ∈ Finset.univ.filter (fun w : Fin n => w.val ≤ R.val), deg G i =
      R.val * (R.val + 1) + ∑ i ∈ Finset.univ.filter (fun w : Fin n => ¬ w.val ≤ R.val), deg G i := by
    rw [Finset.sum_congr rfl (fun i _ => deg_split G R.val i), Finset.sum_add_distrib]
    congr 1
    · have : ∀ i ∈ Finset.univ.filter (fun w : Fin n => w.val ≤ R.val),
          (∑ w ∈ Finset.univ.filter (fun w : Fin n => w.val ≤ R.val), if G.Adj i w then 1 else 0) = R.val := by
        intro i hi
        rw [← Finset.card_filter]
        have : (Finset.univ.filter (fun w : Fin n => w.val ≤ R.val)).filter (fun w => G.Adj i w) =
            (Finset.univ.filter (fun w : Fin n => w.val ≤ R.val)).erase i := by
          ext w
          simp only [Finset.mem_filter, Finset.mem_univ, true_and, Finset.mem_erase]
          constructor
          · rintro ⟨a, b⟩
            exact ⟨b.ne', a⟩
          · rintro ⟨a, b⟩
            exact ⟨b, hclique i w (Finset.mem_filter.1 hi).2 b (Ne.symm a)⟩
        rw [this, Finset.card_erase_of_mem hi, card_le_index R.2]
        rfl
      rw [Finset.sum_congr rfl this, Finset.sum_const, smul_eq_mul, card_le_index R.2, mul_comm]
    · rw [Finset.sum_comm]
      refine Finset.sum_congr rfl (fun k hk => ?_)
      have hk' : R.val < k.val := by simpa using (Finset.mem_filter.1 hk).2
      rw [hlate k hk']
      exact Finset.sum_congr rfl (fun w _ => by simp only [G.adj_comm])
  have h4 := heg R
  rw [← Finset.sum_congr rfl (fun (k : Fin n) hk => h2' k (by simpa using (Finset.mem_filter.1 hk).2)), ← hsum] at h4
  have h5 : ∑ i ∈ Finset.univ.filter (fun w : Fin n => w.val ≤ R.val), deg G i <
      ∑ i ∈ Finset.univ.filter (fun w : Fin n => w.val ≤ R.val), d i :=
    Finset.sum_lt_sum (fun i _ => hG.le i) ⟨R, by simp, hR⟩
  omega

open Classical in
/-- The inequalities and the parity suffice. -/
theorem erdos_gallai_sufficient {d : Fin n → ℕ} (hd : ∀ i j : Fin n, i ≤ j → d j ≤ d i) (heven : Even (∑ i, d i))
    (heg : ∀ r : Fin n, ∑ i ∈ Finset.univ.filter (fun w : Fin n => w.val ≤ r.val), d i ≤
      r.val * (r.val + 1) + ∑ i ∈ Finset.univ.filter (fun w : Fin n => ¬ w.val ≤ r.val), min (r.val + 1) (d i)) :
    ∃ G : SimpleGraph (Fin n), ∀ i, deg G i = d i := by
  have full : ∀ (R : Fin n) (m : ℕ) (G : SimpleGraph (Fin n)), Inv d R.val G → d R - deg G R = m →
      ∃ G', Inv d R.val G' ∧ deg G' R = d R := by
    intro R m
    induction m using Nat.strong_induction_on with
    | _ m ih =>
      intro G hG hm
      by_cases hR : deg G R < d R
      · obtain ⟨G', h1, h2⟩ := improve hd heven heg R G hG hR
        exact ih (d R - deg G' R) (by have := h1.le R; omega) G' h1 rfl
      · exact ⟨G, hG, le_antisymm (hG.le R) (by omega)⟩
  have all : ∀ r, r ≤ n → ∃ G, Inv d r G := by
    intro r
    induction r with
    | zero =>
      intro _
      refine ⟨⊥, fun i => ?_, fun i hi => by omega, fun i j _ _ h => h⟩
      have : deg (⊥ : SimpleGraph (Fin n)) i = 0 := by simp [deg]
      omega
    | succ r ih =>
      intro hr
      obtain ⟨G, hG⟩ := ih (by omega)
      obtain ⟨G', h1, h2⟩ := full ⟨r, hr⟩ _ G hG rfl
      refine ⟨G', h1.le, fun i hi => ?_, fun i j hi hj => h1.indep i j (by show r < _; omega) (by show r < _; omega)⟩
      rcases Nat.lt_succ_iff_lt_or_eq.1 hi with h | h
      · exact h1.eq i h
      · have : i = ⟨r, hr⟩ := Fin.ext h
        rw [this]; exact h2
  obtain ⟨G, hG⟩ := all n (le_refl _)
  exact ⟨G, fun i => hG.eq i i.2⟩

open Classical in
/-- The inequalities are necessary. -/
theorem erdos_gallai_necessary (G : SimpleGraph (Fin n)) (r : Fin n) :
    ∑ i ∈ Finset.univ.filter (fun w : Fin n => w.val ≤ r.val), deg G i ≤
      r.val * (r.val + 1) + ∑ i ∈ Finset.univ.filter (fun w : Fin n => ¬ w.val ≤ r.val), min (r.val + 1) (deg G i) := by
  rw [Finset.sum_congr rfl (fun i _ => deg_split G r.val i), Finset.sum_add_distrib]
  refine add_le_add ?_ ?_
  · have : ∀ i ∈ Finset.univ.filter (fun w : Fin n => w.val ≤ r.val),
        (∑ w ∈ Finset.univ.filter (fun w : Fin n => w.val ≤ r.val), if G.Adj i w then 1 else 0) ≤ r.val := by
      intro i hi
      rw [← Finset.card_filter]
      have hsub : (Finset.univ.filter (fun w : Fin n => w.val ≤ r.val)).filter (fun w => G.Adj i w) ⊆
          (Finset.univ.filter (fun w : Fin n => w.val ≤ r.val)).erase i := by
        intro w hw
        rw [Finset.mem_filter] at hw
        exact Finset.mem_erase.2 ⟨hw.2.ne', hw.1⟩
      have := Finset.card_le_card hsub
      rw [Finset.card_erase_of_mem hi, card_le_index r.2] at this
      omega
    refine (Finset.sum_le_sum this).trans ?_
    rw [Finset.sum_const, smul_eq_mul, card_le_index r.2, mul_comm]
  · rw [Finset.sum_comm]
    refine Finset.sum_le_sum (fun k _ => le_min ?_ ?_)
    · rw [← Finset.card_filter, ← card_le_index r.2]
      exact Finset.card_filter_le _ _
    · rw [deg_split G r.val k]
      refine le_trans (le_of_eq ?_) (Nat.le_add_right _ _)
      exact Finset.sum_congr rfl (fun w _ => by simp only [G.adj_comm])

end Rosemary.Havel
