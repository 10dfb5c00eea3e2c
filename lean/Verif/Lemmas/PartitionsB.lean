import Verif.Lemmas.PartitionsH

/-!
# The backtracking search of `integer_partitions`
-/

namespace Rosemary.Partitions

open Rosemary.Gen Rosemary.Lex Rosemary.Generation

/-- The first index that may follow the index `i`. -/
def nextIdx (dist i : Nat) : Nat := if i ≠ 0 then i + dist else 0

/-- Lists of parts whose indices are allowed from `a` on. -/
def Adm (parts : List Int) (dist : Nat) : Nat → List Int → Prop
  | _, [] => True
  | a, x :: d => ∃ i, a ≤ i ∧ i < parts.length ∧ gi parts i = x ∧ Adm parts dist (nextIdx dist i) d

theorem gi_strict {parts : List Int} (h : parts.Pairwise (· > ·)) {i k : Nat} (hk : k < parts.length) :
    (gi parts k < gi parts i ↔ i < k) ∨ parts.length ≤ i := by
  by_cases hi : parts.length ≤ i
  · exact Or.inr hi
  · left
    rw [List.pairwise_iff_getElem] at h
    rw [gi_eq (show i < parts.length by omega), gi_eq hk]
    rcases lt_trichotomy i k with c | c | c
    · exact ⟨fun _ => c, fun _ => h i k (by omega) hk c⟩
    · subst c; simp
    · exact ⟨fun h' => absurd (h k i hk (by omega) c) (not_lt.2 h'.le), fun h' => by omega⟩

theorem flatten_spec {β : Type} {f : Nat → Option (List β)} {g : Nat → List β} (is : List Nat)
    (h : ∀ i ∈ is, f i = some (g i)) : is.mapM f = some (is.map g) := by
  induction is with
  | nil => rfl
  | cons i is ih =>
    rw [List.mapM_cons, h i List.mem_cons_self, ih (fun k hk => h k (List.mem_cons_of_mem _ hk))]
    rfl

theorem backtrack_spec (n : Int) (parts : List Int) (hpw : parts.Pairwise (· > ·)) (hpos : ∀ x ∈ parts, 1 ≤ x)
    (dist np : Nat) (k : Nat) : ∀ (psum : Int) (used : List Int) (nu last : Nat), (n - psum).toNat = k →
    ∃ L : List (List Int), backtrack n parts dist np psum used nu last = some (L.map (used ++ ·)) ∧
      L.Pairwise (· > ·) ∧
      ∀ d, d ∈ L ↔ Adm parts dist (nextIdx dist last) d ∧ d.sum = n - psum ∧ (np = 0 ∨ nu + d.length = np) := by
  have hge : ∀ (a : Nat) (d : List Int), Adm parts dist a d → (d.length : Int) ≤ d.sum := by
    intro a d
    induction d generalizing a with
    | nil => intro _; simp
    | cons x d ih =>
      rintro ⟨i, h1, h2, rfl, h3⟩
      have h4 := ih _ h3
      have h5 : 1 ≤ gi parts i := by rw [gi_eq h2]; exact hpos _ (List.getElem_mem _)
      rw [List.length_cons, List.sum_cons]
      push_cast
      omega
  induction k using Nat.strong_induction_on with
  | _ k ih =>
    intro psum used nu last hk
    rw [backtrack.eq_def]
    by_cases h0 : psum = n
    · rw [if_pos h0]
      refine ⟨if np = 0 ∨ nu = np then [[]] else [], ?_, ?_, fun d => ?_⟩
      · split_ifs <;> simp
      · split_ifs <;> simp
      · constructor
        · intro hd
          split_ifs at hd with hc
          · rw [List.mem_singleton.1 hd]
            exact ⟨trivial, by simp [h0], by simpa using hc⟩
          · simp at hd
        · rintro ⟨h1, h2, h3⟩
          have := hge _ _ h1
          have : d = [] := List.length_eq_zero_iff.1 (by omega)
          subst this
          rw [if_pos (by simpa using h3)]
          simp
    · rw [if_neg h0]
      by_cases h1 : psum < n
      · rw [if_pos h1]
        by_cases h2 : np ≠ 0 ∧ nu ≥ np
        · rw [if_pos h2]
          refine ⟨[], by simp, by simp, fun d => ?_⟩
          constructor
          · intro h; simp at h
          · rintro ⟨h3, h4, h5⟩
            exfalso
            cases d with
            | nil => simp at h4; omega
            | cons x d =>
              rw [List.length_cons] at h5
              omega
        · rw [if_neg h2]
          have hrec : ∀ i, i < parts.length → ∃ L : List (List Int),
              backtrack n parts dist np (psum + parts.getD i 0) (used ++ [parts.getD i 0]) (nu + 1) i
                = some (L.map ((used ++ [parts.getD i 0]) ++ ·)) ∧ L.Pairwise (· > ·) ∧
              ∀ d, d ∈ L ↔ Adm parts dist (nextIdx dist i) d ∧ d.sum = n - (psum + parts.getD i 0) ∧
                (np = 0 ∨ nu + 1 + d.length = np) := by
            intro i hi
            have h5 : 1 ≤ parts.getD i 0 := by
              have := gi_eq hi
              rw [gi] at this
              rw [this]; exact hpos _ (List.getElem_mem _)
            exact ih _ (by omega) _ _ _ _ rfl
          choose! F hF1 hF2 hF3 using hrec
          have hidx : (if last ≠ 0 then last + dist else 0) = nextIdx dist last := rfl
          dsimp only
          rw [hidx]
          have hmem : ∀ i ∈ List.range' (nextIdx dist last) (parts.length - nextIdx dist last), i < parts.length := by
            intro i hi
            rw [List.mem_range'_1] at hi
            omega
          rw [flatten_spec (g := fun i => (F i).map ((used ++ [parts.getD i 0]) ++ ·)) _
            (fun i hi => hF1 i (hmem i hi))]
          refine ⟨(List.range' (nextIdx dist last) (parts.length - nextIdx dist last)).flatMap
            (fun i => (F i).map (parts.getD i 0 :: ·)), ?_, ?_, fun d => ?_⟩
          · simp only [Option.bind_eq_bind, Option.bind_some, Option.some.injEq]
            rw [List.map_flatMap, List.flatMap_def]
            congr 1
            apply List.map_congr_left
            intro i _
            rw [List.map_map]
            apply List.map_congr_left
            intro d _
            simp
          · rw [List.pairwise_flatMap]
            refine ⟨fun i hi => ?_, ?_⟩
            · rw [List.pairwise_map]
              exact (hF2 i (hmem i hi)).imp (fun h => cons_lt_cons.2 (Or.inr ⟨rfl, h⟩))
            · refine List.Pairwise.imp_of_mem ?_ (List.pairwise_lt_range' (s := nextIdx dist last)
                (n := parts.length - nextIdx dist last))
              intro i k hi hk hik x hx y hy
              obtain ⟨x', -, rfl⟩ := List.mem_map.1 hx
              obtain ⟨y', -, rfl⟩ := List.mem_map.1 hy
              refine cons_lt_cons.2 (Or.inl ?_)
              rcases gi_strict hpw (i := i) (hmem k hk) with h | h
              · exact h.2 hik
              · have := hmem i hi; omega
          · rw [List.mem_flatMap]
            constructor
            · rintro ⟨i, hi, hd⟩
              obtain ⟨d', hd', rfl⟩ := List.mem_map.1 hd
              obtain ⟨g1, g2, g3⟩ := (hF3 i (hmem i hi) d').1 hd'
              have hi' := List.mem_range'_1.1 hi
              refine ⟨⟨i, hi'.1, hmem i hi, rfl, g1⟩, by rw [List.sum_cons, g2]; ring, ?_⟩
              rw [List.length_cons]
              omega
            · rintro ⟨g1, g2, g3⟩
              cases d with
              | nil => simp at g2; omega
              | cons x d =>
                obtain ⟨i, i1, i2, rfl, i4⟩ := g1
                refine ⟨i, List.mem_range'_1.2 ⟨i1, by omega⟩, List.mem_map.2 ⟨d, ?_, rfl⟩⟩
                rw [hF3 i i2]
                rw [List.sum_cons] at g2
                rw [List.length_cons] at g3
                refine ⟨i4, ?_, by omega⟩
                rw [gi] at g2
                linarith
      · rw [if_neg h1]
        refine ⟨[], by simp, by simp, fun d => ?_⟩
        constructor
        · intro h; simp at h
        · rintro ⟨h3, h4, h5⟩
          have := hge _ _ h3
          omega

/-- The relation between consecutive parts: strict for `distinct`, except for the largest part. -/
def Follows (parts : List Int) (dist : Nat) (x y : Int) : Prop :=
  if dist = 0 then y ≤ x else y < x ∨ (y = x ∧ parts.head? = some x)

theorem adm_iff {parts : List Int} (hpw : parts.Pairwise (· > ·)) {dist : Nat} (hd : dist ≤ 1) (a : Nat)
    (d : List Int) : Adm parts dist a d ↔
      (∀ x ∈ d, ∃ i, a ≤ i ∧ i < parts.length ∧ gi parts i = x) ∧ d.Pairwise (Follows parts dist) := by
  induction d generalizing a with
  | nil => simp [Adm]
  | cons x d ih =>
    rw [Adm, List.pairwise_cons]
    have hlt : ∀ {i k}, i < parts.length → k < parts.length → (gi parts k < gi parts i ↔ i < k) := by
      intro i k hi hk
      rcases gi_strict hpw (i := i) hk with h | h
      · exact h
      · omega
    have hhead : ∀ i, i < parts.length → (parts.head? = some (gi parts i) ↔ i = 0) := by
      intro i hi
      have : parts.head? = some (gi parts 0) := by
        rw [List.head?_eq_getElem?, gi_some (by omega)]
      rw [this, Option.some.injEq]
      constructor
      · intro h
        by_contra hc
        have := (hlt (i := 0) (k := i) (by omega) hi).2 (by omega)
        omega
      · intro h; rw [h]
    constructor
    · rintro ⟨i, i1, i2, rfl, i4⟩
      rw [ih] at i4
      obtain ⟨j1, j2⟩ := i4
      refine ⟨?_, ?_, j2⟩
      · intro y hy
        rcases List.mem_cons.1 hy with rfl | hy
        · exact ⟨i, i1, i2, rfl⟩
        · obtain ⟨k, k1, k2, k3⟩ := j1 y hy
          refine ⟨k, ?_, k2, k3⟩
          rw [nextIdx] at k1
          split_ifs at k1 <;> omega
      · intro y hy
        obtain ⟨k, k1, k2, rfl⟩ := j1 y hy
        rw [nextIdx] at k1
        rw [Follows]
        by_cases h0 : dist = 0
        · rw [if_pos h0, ← not_lt, hlt k2 i2]
          split_ifs at k1 <;> omega
        · rw [if_neg h0, hlt i2 k2]
          by_cases hi0 : i = 0
          · rw [hhead i i2]
            by_cases hk0 : k = 0
            · right; rw [hi0, hk0]; exact ⟨rfl, rfl⟩
            · left; omega
          · rw [if_pos hi0] at k1
            left; omega
    · rintro ⟨h1, h2, h3⟩
      obtain ⟨i, i1, i2, rfl⟩ := h1 x List.mem_cons_self
      refine ⟨i, i1, i2, rfl, (ih _).2 ⟨fun y hy => ?_, h3⟩⟩
      obtain ⟨k, k1, k2, rfl⟩ := h1 y (List.mem_cons_of_mem _ hy)
      refine ⟨k, ?_, k2, rfl⟩
      have hf := h2 _ hy
      rw [Follows] at hf
      rw [nextIdx]
      by_cases h0 : dist = 0
      · rw [if_pos h0, ← not_lt, hlt k2 i2] at hf
        split_ifs <;> omega
      · rw [if_neg h0, hlt i2 k2, hhead i i2] at hf
        split_ifs <;> omega

end Rosemary.Partitions
