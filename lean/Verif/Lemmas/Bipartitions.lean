import Verif.Model.Enumeration
import Mathlib.Data.Set.Card
import Mathlib.Algebra.BigOperators.Group.Multiset.Basic
import Mathlib.Algebra.Order.Sub.Prod
import Mathlib.Algebra.Group.Prod

/-!
# The table of `bipartitions`
-/

namespace Rosemary.Bipartitions

open Rosemary.Enumeration

/-- The multisets over `P` with sum `v`. -/
def S (P : Finset (ℕ × ℕ)) (v : ℕ × ℕ) : Set (Multiset (ℕ × ℕ)) := {M | (∀ x ∈ M, x ∈ P) ∧ M.sum = v}

theorem S_insert {q : ℕ × ℕ} {P : Finset (ℕ × ℕ)} (hq : q ∉ P) (v : ℕ × ℕ) :
    S (insert q P) v = S P v ∪ (if q.1 ≤ v.1 ∧ q.2 ≤ v.2 then
      (fun M => q ::ₘ M) '' S (insert q P) (v.1 - q.1, v.2 - q.2) else ∅) := by
  ext M
  constructor
  · rintro ⟨h1, h2⟩
    by_cases hM : q ∈ M
    · right
      obtain ⟨N, rfl⟩ := Multiset.exists_cons_of_mem hM
      rw [Multiset.sum_cons] at h2
      have e1 : q.1 + N.sum.1 = v.1 := congrArg Prod.fst h2
      have e2 : q.2 + N.sum.2 = v.2 := congrArg Prod.snd h2
      rw [if_pos ⟨by omega, by omega⟩]
      refine ⟨N, ⟨fun x hx => h1 x (Multiset.mem_cons_of_mem hx), ?_⟩, rfl⟩
      exact Prod.ext (by simp; omega) (by simp; omega)
    · left
      refine ⟨fun x hx => ?_, h2⟩
      exact (Finset.mem_insert.1 (h1 x hx)).resolve_left (fun h => hM (h ▸ hx))
  · rintro (⟨h1, h2⟩ | h)
    · exact ⟨fun x hx => Finset.mem_insert_of_mem (h1 x hx), h2⟩
    · split_ifs at h with hc
      · obtain ⟨N, ⟨h1, h2⟩, rfl⟩ := h
        refine ⟨fun x hx => ?_, ?_⟩
        · rcases Multiset.mem_cons.1 hx with rfl | hx
          · exact Finset.mem_insert_self _ _
          · exact h1 x hx
        · rw [Multiset.sum_cons, h2]
          exact Prod.ext (by simp; omega) (by simp; omega)
      · exact absurd h (Set.notMem_empty _)

theorem S_empty (v : ℕ × ℕ) : S ∅ v = if v = 0 then {0} else ∅ := by
  ext M
  constructor
  · rintro ⟨h1, h2⟩
    have : M = 0 := Multiset.eq_zero_of_forall_notMem fun x hx => absurd (h1 x hx) (by simp)
    subst this
    rw [if_pos (by rw [← h2]; rfl)]
    rfl
  · intro h
    split_ifs at h with hv
    · rw [Set.mem_singleton_iff.1 h, hv]
      exact ⟨by simp, by simp⟩
    · exact absurd h (Set.notMem_empty _)

theorem finite_S (P : Finset (ℕ × ℕ)) (h0 : (0, 0) ∉ P) : ∀ v, (S P v).Finite := by
  induction P using Finset.induction_on with
  | empty => intro v; rw [S_empty]; split_ifs <;> simp
  | insert q P hq ih =>
    have hq0 : q ≠ (0, 0) := fun h => h0 (h ▸ Finset.mem_insert_self _ _)
    have hpos : 0 < q.1 + q.2 := by
      by_contra hc
      exact hq0 (Prod.ext (by simp; omega) (by simp; omega))
    intro v
    induction hk : v.1 + v.2 using Nat.strong_induction_on generalizing v with
    | _ k ihk =>
      rw [S_insert hq]
      refine (ih (fun h => h0 (Finset.mem_insert_of_mem h)) v).union ?_
      split_ifs with hc
      · exact (ihk _ (show v.1 - q.1 + (v.2 - q.2) < k by omega) (v.1 - q.1, v.2 - q.2) rfl).image _
      · exact Set.finite_empty

/-- Their number. -/
noncomputable def W (P : Finset (ℕ × ℕ)) (v : ℕ × ℕ) : ℕ := (S P v).ncard

theorem W_insert {q : ℕ × ℕ} {P : Finset (ℕ × ℕ)} (hq : q ∉ P) (h0 : (0, 0) ∉ insert q P) (v : ℕ × ℕ) :
    W (insert q P) v = W P v + if q.1 ≤ v.1 ∧ q.2 ≤ v.2 then W (insert q P) (v.1 - q.1, v.2 - q.2) else 0 := by
  unfold W
  have hfin := finite_S (insert q P) h0
  conv_lhs => rw [S_insert hq]
  rw [Set.ncard_union_eq ?_ (finite_S P (fun h => h0 (Finset.mem_insert_of_mem h)) v) ?_]
  · congr 1
    split_ifs with hc
    · exact Set.ncard_image_of_injective _ (fun a b h => (Multiset.cons_inj_right q).1 h)
    · exact Set.ncard_empty _
  · rw [Set.disjoint_left]
    rintro M ⟨h1, -⟩ hM
    split_ifs at hM with hc
    · obtain ⟨N, -, rfl⟩ := hM
      exact hq (h1 q (Multiset.mem_cons_self _ _))
    · exact hM
  · split_ifs with hc
    · exact (hfin _).image _
    · exact Set.finite_empty

theorem W_empty (v : ℕ × ℕ) : W ∅ v = if v = 0 then 1 else 0 := by
  rw [W, S_empty]
  split_ifs <;> simp

theorem W_one (k l : ℕ) : W {(1, 0)} (k, l) = if l = 0 then 1 else 0 := by
  have h := W_insert (q := (1, 0)) (P := ∅) (by simp) (by simp)
  rw [insert_empty_eq] at h
  induction k with
  | zero =>
    rw [h, W_empty]
    simp [Prod.ext_iff]
  | succ k ih =>
    rw [h, W_empty, if_neg (by simp), if_pos (by simp)]
    simpa using ih

theorem W_base (k l : ℕ) : W {(0, 1), (1, 0)} (k, l) = 1 := by
  have h := W_insert (q := (0, 1)) (P := {(1, 0)}) (by simp) (by simp)
  induction l with
  | zero => rw [h, W_one, if_pos rfl, if_neg (by simp)]
  | succ l ih =>
    rw [h, W_one, if_neg (by omega), if_pos (by simp)]
    simpa using ih

/-! ## The table -/

/-- Entry of the table. -/
def get (p : List (List Nat)) (k l : Nat) : Nat := (p.getD k []).getD l 0

/-- The table has `m + 1` rows of length `n + 1`. -/
def Shape (m n : Nat) (p : List (List Nat)) : Prop := p.length = m + 1 ∧ ∀ k, k ≤ m → (p.getD k []).length = n + 1

theorem getD_set {α : Type} (l : List α) (i j : Nat) (a d : α) (hi : i < l.length) :
    (l.set i a).getD j d = if i = j then a else l.getD j d := by
  rw [List.getD_eq_getElem?_getD, List.getElem?_set]
  by_cases h : i = j
  · rw [if_pos h, if_pos hi, if_pos h]; rfl
  · rw [if_neg h, if_neg h, List.getD_eq_getElem?_getD]

theorem bipartCell_spec {m n i j : Nat} {p : List (List Nat)} (hp : Shape m n p) {a b : Nat} (ha : a ≤ m) (hb : b ≤ n) :
    Shape m n (bipartCell i j p (a, b)) ∧ ∀ k l, k ≤ m → l ≤ n → get (bipartCell i j p (a, b)) k l =
      if k = a ∧ l = b then get p a b + get p (a - i) (b - j) else get p k l := by
  obtain ⟨h1, h2⟩ := hp
  have hrow := h2 a ha
  refine ⟨⟨by simp [bipartCell, h1], fun k hk => ?_⟩, fun k l hk hl => ?_⟩
  · rw [bipartCell, getD_set _ _ _ _ _ (by simp; omega)]
    split_ifs with h
    · rw [List.length_set]; exact hrow
    · exact h2 k hk
  · rw [get, bipartCell, getD_set _ _ _ _ _ (by simp; omega)]
    by_cases hak : a = k
    · subst hak
      rw [if_pos rfl, getD_set _ _ _ _ _ (by rw [hrow]; omega)]
      by_cases hbl : b = l
      · subst hbl
        rw [if_pos rfl, if_pos ⟨rfl, rfl⟩]; rfl
      · rw [if_neg hbl, if_neg (fun h => hbl h.2.symm)]; rfl
    · rw [if_neg hak, if_neg (fun h => hak h.1.symm)]; rfl

/-- The cells visited for the part `(i, j)`. -/
def cells (m n i j : Nat) : List (Nat × Nat) :=
  (List.range' i (m + 1 - i)).flatMap (fun k => (List.range' j (n + 1 - j)).map (fun l => (k, l)))

theorem mem_cells {m n i j : Nat} {c : Nat × Nat} :
    c ∈ cells m n i j ↔ (i ≤ c.1 ∧ c.1 ≤ m) ∧ j ≤ c.2 ∧ c.2 ≤ n := by
  rw [cells, List.mem_flatMap]
  constructor
  · rintro ⟨k, hk, hc⟩
    obtain ⟨l, hl, rfl⟩ := List.mem_map.1 hc
    rw [List.mem_range'_1] at hk hl
    simp only
    omega
  · rintro ⟨h1, h2⟩
    refine ⟨c.1, List.mem_range'_1.2 (by omega), List.mem_map.2 ⟨c.2, List.mem_range'_1.2 (by omega), rfl⟩⟩

theorem pairwise_cells (m n i j : Nat) :
    (cells m n i j).Pairwise (fun c d => c.1 < d.1 ∨ (c.1 = d.1 ∧ c.2 < d.2)) := by
  rw [cells, List.pairwise_flatMap]
  constructor
  · intro k _
    rw [List.pairwise_map]
    exact (List.pairwise_lt_range' (s := j) (n := n + 1 - j)).imp (fun h => Or.inr ⟨rfl, h⟩)
  · refine (List.pairwise_lt_range' (s := i) (n := m + 1 - i)).imp ?_
    intro a b hab x hx y hy
    obtain ⟨_, _, rfl⟩ := List.mem_map.1 hx
    obtain ⟨_, _, rfl⟩ := List.mem_map.1 hy
    exact Or.inl hab

theorem pass_spec {m n i j : Nat} (hij : 0 < i + j) {P : Finset (ℕ × ℕ)} (hP : (i, j) ∉ P) (h0 : (0, 0) ∉ P)
    {p : List (List Nat)} (hp : Shape m n p) (hw : ∀ k l, k ≤ m → l ≤ n → get p k l = W P (k, l)) :
    Shape m n ((cells m n i j).foldl (bipartCell i j) p) ∧
    ∀ k l, k ≤ m → l ≤ n → get ((cells m n i j).foldl (bipartCell i j) p) k l = W (insert (i, j) P) (k, l) := by
  have h0' : (0, 0) ∉ insert (i, j) P := by
    intro h
    rcases Finset.mem_insert.1 h with h | h
    · have := Prod.ext_iff.1 h; simp at this; omega
    · exact h0 h
  have hrec := W_insert hP h0'
  have main : ∀ (L2 L1 : List (Nat × Nat)) (q : List (List Nat)), cells m n i j = L1 ++ L2 → Shape m n q →
      (∀ k l, k ≤ m → l ≤ n → get q k l =
        if (k, l) ∈ L1 ∨ ¬ (i ≤ k ∧ j ≤ l) then W (insert (i, j) P) (k, l) else W P (k, l)) →
      Shape m n (L2.foldl (bipartCell i j) q) ∧ ∀ k l, k ≤ m → l ≤ n →
        get (L2.foldl (bipartCell i j) q) k l = W (insert (i, j) P) (k, l) := by
    intro L2
    induction L2 with
    | nil =>
      intro L1 q hL hq hg
      rw [List.append_nil] at hL
      refine ⟨hq, fun k l hk hl => ?_⟩
      rw [List.foldl_nil, hg k l hk hl, if_pos]
      by_cases h : i ≤ k ∧ j ≤ l
      · left
        rw [← hL, mem_cells]
        simp only
        omega
      · exact Or.inr h
    | cons c L2 ih =>
      intro L1 q hL hq hg
      obtain ⟨a, b⟩ := c
      have hc : (a, b) ∈ cells m n i j := by rw [hL]; simp
      rw [mem_cells] at hc
      simp only at hc
      obtain ⟨s1, s2⟩ := bipartCell_spec (i := i) (j := j) hq (a := a) (b := b) (by omega) (by omega)
      rw [List.foldl_cons]
      refine ih (L1 ++ [(a, b)]) _ (by simp [hL]) s1 ?_
      intro k l hk hl
      have hpw := pairwise_cells m n i j
      rw [hL] at hpw
      have hab : (a, b) ∉ L1 := by
        intro h
        have := (List.pairwise_append.1 hpw).2.2 _ h _ List.mem_cons_self
        simp at this
      rw [s2 k l hk hl]
      by_cases hkl : k = a ∧ l = b
      · obtain ⟨rfl, rfl⟩ := hkl
        rw [if_pos ⟨rfl, rfl⟩, if_pos (by left; simp), hrec, if_pos ⟨hc.1.1, hc.2.1⟩]
        rw [hg k l hk hl, if_neg (by rintro (h | h); exacts [hab h, h ⟨hc.1.1, hc.2.1⟩])]
        congr 1
        rw [hg _ _ (by omega) (by omega), if_pos]
        by_cases hcc : i ≤ k - i ∧ j ≤ l - j
        · left
          have hm : (k - i, l - j) ∈ cells m n i j := by rw [mem_cells]; simp only; omega
          rw [hL, List.mem_append] at hm
          rcases hm with hm | hm
          · exact hm
          · exfalso
            rcases List.mem_cons.1 hm with hm | hm
            · have := Prod.ext_iff.1 hm
              simp at this
              omega
            · have := (List.pairwise_cons.1 (List.pairwise_append.1 hpw).2.1).1 _ hm
              simp at this
              omega
        · exact Or.inr hcc
      · rw [if_neg hkl, hg k l hk hl]
        have : (k, l) ∈ L1 ++ [(a, b)] ↔ (k, l) ∈ L1 := by
          rw [List.mem_append, List.mem_singleton]
          constructor
          · rintro (h | h)
            · exact h
            · exact absurd (by simpa using h) hkl
          · exact Or.inl
        simp only [this]
  refine main _ [] p rfl hp ?_
  intro k l hk hl
  rw [hw k l hk hl]
  split_ifs with h
  · rw [hrec, if_neg (by
      rcases h with h | h
      · simp at h
      · exact h), Nat.add_zero]
  · rfl

theorem outer_spec {m n : Nat} : ∀ (L : List (Nat × Nat)) (P : Finset (ℕ × ℕ)) (p : List (List Nat)), L.Nodup →
    (∀ c ∈ L, 1 < c.1 + c.2 → c ∉ P) → (0, 0) ∉ P → Shape m n p →
    (∀ k l, k ≤ m → l ≤ n → get p k l = W P (k, l)) →
    Shape m n (L.foldl (bipartPass m n) p) ∧ ∀ k l, k ≤ m → l ≤ n →
      get (L.foldl (bipartPass m n) p) k l = W (P ∪ L.toFinset.filter (fun c => 1 < c.1 + c.2)) (k, l) := by
  intro L
  induction L with
  | nil => intro P p _ _ _ hp hw; simpa using ⟨hp, hw⟩
  | cons c L ih =>
    intro P p hnd hc h0 hp hw
    rw [List.nodup_cons] at hnd
    obtain ⟨i, j⟩ := c
    rw [List.foldl_cons, bipartPass]
    by_cases hij : 1 < i + j
    · rw [if_pos hij]
      have hP := hc (i, j) List.mem_cons_self hij
      obtain ⟨s1, s2⟩ := pass_spec (m := m) (n := n) (i := i) (j := j) (by omega) hP h0 hp hw
      have := ih (insert (i, j) P) _ hnd.2 (fun c hcL h => by
        rw [Finset.mem_insert, not_or]
        exact ⟨fun h' => hnd.1 (h' ▸ hcL), hc c (List.mem_cons_of_mem _ hcL) h⟩) (by
        intro h
        rcases Finset.mem_insert.1 h with h | h
        · have := Prod.ext_iff.1 h; simp at this; omega
        · exact h0 h) s1 s2
      have he : insert (i, j) P ∪ L.toFinset.filter (fun c => 1 < c.1 + c.2) =
          P ∪ ((i, j) :: L).toFinset.filter (fun c => 1 < c.1 + c.2) := by
        rw [List.toFinset_cons, Finset.filter_insert, if_pos hij, Finset.union_insert, Finset.insert_union]
      rw [he] at this
      exact this
    · rw [if_neg hij]
      have := ih P p hnd.2 (fun c hcL h => hc c (List.mem_cons_of_mem _ hcL) h) h0 hp hw
      rw [List.toFinset_cons, Finset.filter_insert, if_neg hij]
      exact this

theorem bipartitions_eq (m n : Nat) :
    bipartitions m n = Nat.card {M : Multiset (ℕ × ℕ) // (0, 0) ∉ M ∧ M.sum = (m, n)} := by
  have hL : ((List.range (m + 1)).flatMap (fun i => (List.range (n + 1)).map (fun j => (i, j)))) = cells m n 0 0 := by
    rw [cells, List.range_eq_range', List.range_eq_range']
    rfl
  have hnd : (cells m n 0 0).Nodup := (pairwise_cells m n 0 0).imp (fun h h' => by rw [h'] at h; omega)
  have hrep : Shape m n (List.replicate (m + 1) (List.replicate (n + 1) 1)) := by
    refine ⟨by simp, fun k hk => ?_⟩
    rw [List.getD_eq_getElem?_getD, List.getElem?_replicate, if_pos (by omega)]
    simp
  have hbase : ∀ k l, k ≤ m → l ≤ n → get (List.replicate (m + 1) (List.replicate (n + 1) 1)) k l =
      W {(0, 1), (1, 0)} (k, l) := by
    intro k l hk hl
    rw [W_base, get, List.getD_eq_getElem?_getD (l := List.replicate (m + 1) _), List.getElem?_replicate,
      if_pos (by omega)]
    rw [Option.getD_some, List.getD_eq_getElem?_getD, List.getElem?_replicate, if_pos (by omega)]
    rfl
  obtain ⟨-, h⟩ := outer_spec (m := m) (n := n) (cells m n 0 0) {(0, 1), (1, 0)} _ hnd
    (by
      intro c _ h1 h2
      rw [Finset.mem_insert, Finset.mem_singleton] at h2
      rcases h2 with rfl | rfl <;> simp at h1) (by simp) hrep hbase
  have := h m n le_rfl le_rfl
  rw [bipartitions, hL]
  refine this.trans ?_
  rw [W, ← Nat.card_coe_set_eq]
  refine Nat.card_congr (Equiv.subtypeEquivRight fun M => ?_)
  constructor
  · rintro ⟨h1, h2⟩
    refine ⟨fun h0 => ?_, h2⟩
    have := h1 _ h0
    simp at this
  · rintro ⟨h1, h2⟩
    refine ⟨fun x hx => ?_, h2⟩
    obtain ⟨N, rfl⟩ := Multiset.exists_cons_of_mem hx
    rw [Multiset.sum_cons] at h2
    have e1 : x.1 + N.sum.1 = m := congrArg Prod.fst h2
    have e2 : x.2 + N.sum.2 = n := congrArg Prod.snd h2
    have hx0 : x ≠ (0, 0) := fun h => h1 (h ▸ hx)
    obtain ⟨a, b⟩ := x
    rw [Finset.mem_union, Finset.mem_filter, List.mem_toFinset, mem_cells]
    simp only [ne_eq, Prod.mk.injEq, Finset.mem_insert, Finset.mem_singleton] at *
    omega

end Rosemary.Bipartitions
