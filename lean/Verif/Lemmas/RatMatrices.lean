import Verif.Model.RatMatrices
import Verif.Lemmas.Matrices
import Verif.Lemmas.RatPolys

/-!
# Lists of rows with rational entries
-/

namespace Rosemary.RatMatrices

open BigOperators
open Rosemary.Matrices (forRange forRange_ok)
open Rosemary.RatPolys (floorDiv Whole whole_floorDiv whole_zero)

/-- The list of rows with the given entries. -/
def table (r c : ℕ) (g : ℕ → ℕ → ℚ) : Entries := List.ofFn (fun i : Fin r => List.ofFn (fun j : Fin c => g i.val j.val))

theorem table_congr {r c : ℕ} {g h : ℕ → ℕ → ℚ} (e : ∀ i j, i < r → j < c → g i j = h i j) : table r c g = table r c h := by
  unfold table
  congr 1
  funext i
  congr 1
  funext j
  exact e i j i.2 j.2

theorem table_length (r c : ℕ) (g : ℕ → ℕ → ℚ) : (table r c g).length = r := by simp [table]

theorem get_table {r c : ℕ} (g : ℕ → ℕ → ℚ) {i j : ℕ} (hi : i < r) (hj : j < c) : get (table r c g) i j = .ok (g i j) := by
  simp [get, table, hi, hj]

theorem get_table_row {r c : ℕ} (g : ℕ → ℕ → ℚ) {i j : ℕ} (hi : ¬ i < r) : get (table r c g) i j = .error .indexError := by
  simp [get, table, hi]

/-- One entry changed. -/
def upd (g : ℕ → ℕ → ℚ) (i j : ℕ) (x : ℚ) : ℕ → ℕ → ℚ := fun a b => if a = i ∧ b = j then x else g a b

theorem put_table {r c : ℕ} (g : ℕ → ℕ → ℚ) {i j : ℕ} (hi : i < r) (hj : j < c) (x : ℚ) :
    put (table r c g) i j x = .ok (table r c (upd g i j x)) := by
  have h1 : (table r c g)[i]? = some (List.ofFn (fun b : Fin c => g i b.val)) := by simp [table, hi]
  rw [put, h1]
  simp only [List.length_ofFn, hj, if_true]
  congr 1
  apply List.ext_getElem
  · simp [table]
  · intro a h2 h3
    have ha : a < r := by simpa [table] using h3
    rw [List.getElem_set]
    split_ifs with e
    · subst e
      apply List.ext_getElem
      · simp [table]
      · intro b h4 h5
        rw [List.getElem_set]
        simp only [table, List.getElem_ofFn, upd]
        split_ifs with e1 e2 e3
        · rfl
        · exact absurd ⟨trivial, e1.symm⟩ e2
        · exact absurd e3.2.symm e1
        · rfl
    · simp only [table, List.getElem_ofFn, upd]
      congr 1
      funext b
      rw [if_neg (fun h => e h.1.symm)]

theorem put_table_row {r c : ℕ} (g : ℕ → ℕ → ℚ) {i j : ℕ} (hi : ¬ i < r) (x : ℚ) : put (table r c g) i j x = .error .indexError := by
  simp [put, table, hi]

theorem put_table_col {r c : ℕ} (g : ℕ → ℕ → ℚ) {i j : ℕ} (hj : ¬ j < c) (x : ℚ) : put (table r c g) i j x = .error .indexError := by
  by_cases hi : i < r
  · simp [put, table, hi, hj]
  · exact put_table_row g hi x

theorem zeros_eq (r c : ℕ) : zeros r c = table r c (fun _ _ => 0) := by
  rw [zeros, table, List.ofFn_const, List.ofFn_const]

/-- Filling a zero matrix. -/
theorem fill_ok {r c : ℕ} {step : ℕ → ℕ → Entries → Except PyErr Entries} (v : ℕ → ℕ → ℚ)
    (h : ∀ i j R, i < r → j < c → step i j R = put R i j (v i j)) :
    forRange 0 r (fun i R => forRange 0 c (fun j R => step i j R) R) (zeros r c) = .ok (table r c v) := by
  have h0 : zeros r c = (fun i => table r c (fun a b => if a < i then v a b else 0)) 0 := by
    rw [zeros_eq]
    exact table_congr (fun a b _ _ => by simp)
  rw [h0, forRange_ok (fun i => table r c (fun a b => if a < i then v a b else 0)) (Nat.zero_le r)]
  · congr 1
    exact table_congr (fun a b ha _ => if_pos ha)
  · intro i _ hi
    have h1 : table r c (fun a b => if a < i then v a b else 0) =
        (fun j => table r c (fun a b => if a < i ∨ (a = i ∧ b < j) then v a b else 0)) 0 :=
      table_congr (fun a b _ _ => by simp)
    rw [h1, forRange_ok (fun j => table r c (fun a b => if a < i ∨ (a = i ∧ b < j) then v a b else 0)) (Nat.zero_le c)]
    · congr 1
      refine table_congr (fun a b ha hb => ?_)
      by_cases e : a < i + 1
      · rw [if_pos e, if_pos (by omega)]
      · rw [if_neg e, if_neg (by omega)]
    · intro j _ hj
      rw [h i j _ hi hj, put_table _ hi hj]
      congr 1
      refine table_congr (fun a b ha hb => ?_)
      rw [upd]
      by_cases e : a = i ∧ b = j
      · rw [if_pos e, if_pos (by omega), e.1, e.2]
      · rw [if_neg e]
        by_cases e' : a < i ∨ (a = i ∧ b < j)
        · rw [if_pos e', if_pos (by omega)]
        · rw [if_neg e', if_neg (by omega)]

theorem nrows_table (r c : ℕ) (g : ℕ → ℕ → ℚ) : nrows (table r c g) = r := table_length r c g

theorem ncols_table {r c : ℕ} (hr : 0 < r) (g : ℕ → ℕ → ℚ) : ncols (table r c g) = c := by
  obtain ⟨r, rfl⟩ := Nat.exists_eq_succ_of_ne_zero hr.ne'
  simp [ncols, table, List.ofFn_succ]

theorem construct_table {r c : ℕ} (hr : 0 < r) (g : ℕ → ℕ → ℚ) : construct (table r c g) = .ok (table r c g) := by
  obtain ⟨r, rfl⟩ := Nat.exists_eq_succ_of_ne_zero hr.ne'
  simp [construct, init, table, List.ofFn_succ, Except.map]

/-- The list of the rows of a matrix. -/
def rowsOf {r c : ℕ} (M : Matrix (Fin r) (Fin c) ℚ) : List (List ℚ) := List.ofFn (fun i => List.ofFn (fun j => M i j))

/-- Entries outside are zero. -/
def extend {r c : ℕ} (M : Matrix (Fin r) (Fin c) ℚ) : ℕ → ℕ → ℚ :=
  fun i j => if h : i < r ∧ j < c then M ⟨i, h.1⟩ ⟨j, h.2⟩ else 0

theorem extend_val {r c : ℕ} (M : Matrix (Fin r) (Fin c) ℚ) (i : Fin r) (j : Fin c) : extend M i.val j.val = M i j := by
  rw [extend, dif_pos ⟨i.2, j.2⟩]

theorem rowsOf_eq {r c : ℕ} (M : Matrix (Fin r) (Fin c) ℚ) : rowsOf M = table r c (extend M) := by
  rw [rowsOf, table]
  simp only [extend_val]

theorem rowsOf_table {r c : ℕ} {M : Matrix (Fin r) (Fin c) ℚ} {g : ℕ → ℕ → ℚ} (h : ∀ (i : Fin r) (j : Fin c), g i.val j.val = M i j) :
    table r c g = rowsOf M := by
  rw [rowsOf, table]
  simp only [h]

/-- The inner loop of the product. -/
theorem dot_ok {r p c : ℕ} (A : Matrix (Fin r) (Fin p) ℚ) (B : Matrix (Fin p) (Fin c) ℚ) {i j : ℕ} (hi : i < r) (hj : j < c) :
    forRange 0 p (fun k t => do
      let x ← get (table r p (extend A)) i k
      let y ← get (table p c (extend B)) k j
      .ok (t + x * y)) (0 : ℚ) = .ok (∑ k ∈ Finset.range p, extend A i k * extend B k j) := by
  have := forRange_ok (a := 0) (b := p) (f := fun k t => do
      let x ← get (table r p (extend A)) i k
      let y ← get (table p c (extend B)) k j
      .ok (t + x * y)) (fun m => ∑ k ∈ Finset.range m, extend A i k * extend B k j) (Nat.zero_le p) (by
    intro k _ hk
    rw [get_table _ hi hk, get_table _ hk hj, Finset.sum_range_succ]
    rfl)
  exact this

/-! ### The result of `determinant` is an integer -/

theorem whole_mul {a b : ℚ} (ha : Whole a) (hb : Whole b) : Whole (a * b) := by
  obtain ⟨x, rfl⟩ := ha
  obtain ⟨y, rfl⟩ := hb
  exact ⟨x * y, by push_cast; rfl⟩

theorem whole_neg {a : ℚ} (ha : Whole a) : Whole (-a) := by
  obtain ⟨x, rfl⟩ := ha
  exact ⟨-x, by push_cast; rfl⟩

theorem forRange_succ {σ : Type} {a b : ℕ} (h : a ≤ b) (f : ℕ → σ → Except PyErr σ) (s : σ) :
    forRange a (b + 1) f s = (forRange a b f s >>= f b) := by
  unfold forRange
  have h1 : b + 1 - a = (b - a) + 1 := by omega
  rw [h1, List.range'_1_concat, List.foldlM_append]
  have h2 : a + (b - a) = b := by omega
  rw [h2]
  congr 1
  funext s
  simp

theorem forRange_last {σ : Type} {a b : ℕ} (h : a < b) {f : ℕ → σ → Except PyErr σ} {s s' : σ}
    (he : forRange a b f s = .ok s') : ∃ t, f (b - 1) t = .ok s' := by
  obtain ⟨c, rfl⟩ : ∃ c, b = c + 1 := ⟨b - 1, by omega⟩
  rw [forRange_succ (by omega)] at he
  cases h1 : forRange a c f s with
  | error e => rw [h1] at he; cases he
  | ok t => exact ⟨t, by rw [h1] at he; exact he⟩

theorem forRange_empty {σ : Type} {a b : ℕ} (h : b ≤ a) (f : ℕ → σ → Except PyErr σ) (s : σ) : forRange a b f s = .ok s := by
  unfold forRange
  rw [Nat.sub_eq_zero_of_le h]
  rfl

theorem get_put {m m' : Entries} {i j : ℕ} {x : ℚ} (h : put m i j x = .ok m') : get m' i j = .ok x := by
  unfold put at h
  cases hm : m[i]? with
  | none => rw [hm] at h; cases h
  | some row =>
    rw [hm] at h
    simp only at h
    split at h
    · rename_i hj
      cases h
      have hi : i < m.length := by
        rw [List.getElem?_eq_some_iff] at hm
        exact hm.1
      unfold get
      rw [List.getElem?_set_self hi]
      simp only
      rw [List.getElem?_set_self hj]
    · cases h

/-- Lines 335-338 leave an integer in the last place. -/
theorem eliminate_last {n k : ℕ} (hk : k + 1 < n) {pivot den : ℚ} {m m' : Entries} (h : eliminate n k pivot den m = .ok m') :
    ∃ x, get m' (n - 1) (n - 1) = .ok x ∧ Whole x := by
  unfold eliminate at h
  obtain ⟨t, ht⟩ := forRange_last hk h
  obtain ⟨u, hu⟩ := forRange_last hk ht
  cases h1 : get u (n - 1) (n - 1) with
  | error e => rw [h1] at hu; cases hu
  | ok x =>
    cases h2 : get u (n - 1) k with
    | error e => rw [h1, h2] at hu; cases hu
    | ok y =>
      cases h3 : get u k (n - 1) with
      | error e => rw [h1, h2, h3] at hu; cases hu
      | ok z =>
        rw [h1, h2, h3] at hu
        simp only [Bind.bind, Except.bind] at hu
        split at hu
        · cases hu
        · exact ⟨_, get_put hu, whole_floorDiv _ _⟩

theorem detLoop_whole {n : ℕ} (rem k : ℕ) (hk : k + rem = n) (m : Entries) (den sign : ℚ) (i : Option ℕ) (hs : Whole sign)
    (hn : 2 ≤ n) (hm : 0 < k → n ≤ k + 1 → ∃ x, get m (n - 1) (n - 1) = .ok x ∧ Whole x)
    (hi : 0 < k → i = some (n - 1)) {d : ℚ} {m' : Entries} (h : detLoop n rem k m den sign i = .ok (d, m')) : Whole d := by
  induction rem generalizing k m den sign i with
  | zero =>
    obtain ⟨x, hx, hw⟩ := hm (by omega) (by omega)
    rw [detLoop, hx] at h
    simp only [Bind.bind, Except.bind, Except.ok.injEq, Prod.mk.injEq] at h
    rw [← h.1]
    exact whole_mul hs hw
  | succ rem ih =>
    have step : ∀ (pivot den sign : ℚ) (m : Entries) (i : Option ℕ), Whole sign →
        (0 < k → n ≤ k + 1 → ∃ x, get m (n - 1) (n - 1) = .ok x ∧ Whole x) → (0 < k → i = some (n - 1)) →
        (do let m ← eliminate n k pivot den m
            detLoop n rem (k + 1) m pivot sign (afterLoop n k i)) = .ok (d, m') → Whole d := by
      intro pivot den sign m i hs hm hi h
      cases he : eliminate n k pivot den m with
      | error e => rw [he] at h; cases h
      | ok m1 =>
        rw [he] at h
        refine ih (k + 1) (by omega) m1 pivot sign _ hs (fun _ _ => ?_) (fun _ => ?_) h
        · by_cases hk1 : k + 1 < n
          · exact eliminate_last hk1 he
          · unfold eliminate at he
            rw [forRange_empty (by omega)] at he
            cases he
            exact hm (by omega) (by omega)
        · unfold afterLoop
          by_cases hk1 : k + 1 < n
          · rw [if_pos hk1]
          · rw [if_neg hk1]
            exact hi (by omega)
    rw [detLoop] at h
    cases hp : get m k k with
    | error e => rw [hp] at h; cases h
    | ok pivot =>
      rw [hp] at h
      simp only [Bind.bind, Except.bind] at h
      by_cases hz : pivot = 0
      · rw [if_pos hz] at h
        by_cases hk1 : k + 1 < n
        · cases hf : findRow m k (List.range' (k + 1) (n - (k + 1))) i with
          | error e => rw [hf] at h; cases h
          | ok i' =>
            rw [hf] at h
            cases i' with
            | none => cases h
            | some i' =>
              simp only at h
              by_cases hl : i' = n - 1
              · rw [if_pos hl] at h
                cases h
                exact whole_zero
              · rw [if_neg hl] at h
                cases hx : exchange n i' k m with
                | error e => rw [hx] at h; cases h
                | ok m1 =>
                  rw [hx] at h
                  simp only at h
                  cases hg : get m1 k k with
                  | error e => rw [hg] at h; cases h
                  | ok p1 =>
                    rw [hg] at h
                    simp only at h
                    cases he : eliminate n k p1 den m1 with
                    | error e => rw [he] at h; cases h
                    | ok m2 =>
                      rw [he] at h
                      refine ih (k + 1) (by omega) m2 p1 (-sign) _ (whole_neg hs) (fun _ _ => eliminate_last hk1 he) (fun _ => ?_) h
                      unfold afterLoop
                      rw [if_pos hk1]
        · rw [show n - (k + 1) = 0 by omega] at h
          rw [hi (by omega)] at h
          simp only [List.range'_zero, findRow, if_true] at h
          cases h
          exact whole_zero
      · rw [if_neg hz] at h
        exact step pivot den sign m i hs hm hi h

/-- Rows `i` and `k` exchanged. -/
def swapRows (g : ℕ → ℕ → ℚ) (i k : ℕ) : ℕ → ℕ → ℚ := fun a b => g (Equiv.swap i k a) b

theorem findRow_spec {n : ℕ} (g : ℕ → ℕ → ℚ) {k : ℕ} (hk : k < n) (a m : ℕ) (ham : a + m = n) (i0 : Option ℕ) :
    ∃ i, findRow (table n n g) k (List.range' a m) i0 = .ok i ∧
      ((∃ i', i = some i' ∧ a ≤ i' ∧ i' < n ∧ g i' k ≠ 0) ∨ (0 < m ∧ i = some (n - 1)) ∨ (m = 0 ∧ i = i0)) := by
  induction m generalizing a i0 with
  | zero => exact ⟨i0, rfl, Or.inr (Or.inr ⟨rfl, rfl⟩)⟩
  | succ m ih =>
    rw [List.range'_succ, findRow, get_table g (by omega) hk]
    by_cases h : g a k ≠ 0
    · exact ⟨some a, by show (if _ then _ else _) = _; rw [if_pos h], Or.inl ⟨a, rfl, le_refl _, by omega, h⟩⟩
    · obtain ⟨i, h1, h2⟩ := ih (a + 1) (by omega) (some a)
      refine ⟨i, by show (if _ then _ else _) = _; rw [if_neg h]; exact h1, ?_⟩
      rcases h2 with ⟨i', k1, k2, k3⟩ | ⟨k1, k2⟩ | ⟨k1, k2⟩
      · exact Or.inl ⟨i', k1, by omega, k3⟩
      · exact Or.inr (Or.inl ⟨by omega, k2⟩)
      · refine Or.inr (Or.inl ⟨by omega, ?_⟩)
        rw [k2]; congr 1; omega

theorem exchange_spec {n : ℕ} (g : ℕ → ℕ → ℚ) {i k : ℕ} (hik : k < i) (hi : i < n) :
    exchange n i k (table n n g) = .ok (table n n (fun a b => if k ≤ b then swapRows g i k a b else g a b)) := by
  have h0 : table n n g = (fun j => table n n (fun a b => if k ≤ b ∧ b < j then swapRows g i k a b else g a b)) k :=
    table_congr (fun a b _ _ => by rw [if_neg (by omega)])
  rw [exchange, h0, forRange_ok (fun j => table n n (fun a b => if k ≤ b ∧ b < j then swapRows g i k a b else g a b)) (by omega)]
  · congr 1
    refine table_congr (fun a b _ hb => ?_)
    by_cases h : k ≤ b
    · rw [if_pos h, if_pos ⟨h, hb⟩]
    · rw [if_neg h, if_neg (fun e => h e.1)]
  · intro j hkj hj
    rw [get_table _ (by omega) hj, get_table _ hi hj]
    show (put _ i j _).bind _ = _
    rw [put_table _ hi hj]
    show put _ k j _ = _
    rw [put_table _ (by omega) hj]
    congr 1
    refine table_congr (fun a b _ _ => ?_)
    simp only [upd, swapRows]
    rw [if_neg (show ¬ (k ≤ j ∧ j < j) by omega), if_neg (show ¬ (k ≤ j ∧ j < j) by omega)]
    by_cases hb : b = j
    · subst hb
      rw [if_neg (show ¬ (k ≤ b ∧ b < b) by omega), if_pos (show k ≤ b ∧ b < b + 1 by omega)]
      by_cases ha : a = k
      · subst ha
        rw [if_pos ⟨rfl, rfl⟩, Equiv.swap_apply_right]
      · rw [if_neg (fun e => ha e.1)]
        by_cases ha' : a = i
        · subst ha'
          rw [if_pos ⟨rfl, rfl⟩, Equiv.swap_apply_left]
        · rw [if_neg (fun e => ha' e.1), Equiv.swap_apply_of_ne_of_ne ha' ha]
    · rw [if_neg (fun e => hb e.2), if_neg (fun e => hb e.2)]
      by_cases h : k ≤ b ∧ b < j
      · rw [if_pos h, if_pos (by omega)]
      · rw [if_neg h, if_neg (by omega)]

theorem eliminate_spec {n : ℕ} (g : ℕ → ℕ → ℚ) {k : ℕ} (hk : k < n) (pivot den : ℚ) (hden : den ≠ 0) :
    eliminate n k pivot den (table n n g) = .ok (table n n (fun a b =>
      if k < a ∧ k < b then floorDiv (pivot * g a b - g a k * g k b) den else g a b)) := by
  set v : ℕ → ℕ → ℚ := fun a b => floorDiv (pivot * g a b - g a k * g k b) den with hv
  have h0 : table n n g = (fun i => table n n (fun a b => if (k < a ∧ k < b) ∧ a < i then v a b else g a b)) (k + 1) :=
    table_congr (fun a b _ _ => by rw [if_neg (by omega)])
  rw [eliminate, h0, forRange_ok (fun i => table n n (fun a b => if (k < a ∧ k < b) ∧ a < i then v a b else g a b)) (by omega)]
  · congr 1
    refine table_congr (fun a b ha hb => ?_)
    by_cases h : k < a ∧ k < b
    · rw [if_pos h, if_pos ⟨h, ha⟩]
    · rw [if_neg h, if_neg (fun e => h e.1)]
  · intro i hki hi
    have h1 : table n n (fun a b => if (k < a ∧ k < b) ∧ a < i then v a b else g a b) =
        (fun j => table n n (fun a b => if (k < a ∧ k < b) ∧ (a < i ∨ (a = i ∧ b < j)) then v a b else g a b)) (k + 1) := by
      refine table_congr (fun a b ha hb => ?_)
      by_cases h : (k < a ∧ k < b) ∧ a < i
      · rw [if_pos h, if_pos (by omega)]
      · rw [if_neg h, if_neg (by omega)]
    rw [h1, forRange_ok (fun j => table n n (fun a b => if (k < a ∧ k < b) ∧ (a < i ∨ (a = i ∧ b < j)) then v a b else g a b)) (by omega)]
    · congr 1
      refine table_congr (fun a b ha hb => ?_)
      by_cases h : (k < a ∧ k < b) ∧ a < i + 1
      · rw [if_pos h, if_pos (by omega)]
      · rw [if_neg h, if_neg (by omega)]
    · intro j hkj hj
      rw [get_table _ hi hj, get_table _ hi (by omega), get_table _ (by omega) hj]
      show (if den = 0 then _ else put _ i j _) = _
      rw [if_neg hden, put_table _ hi hj]
      congr 1
      refine table_congr (fun a b ha hb => ?_)
      rw [upd]
      by_cases e : a = i ∧ b = j
      · rw [if_pos e, if_neg (show ¬ ((k < i ∧ k < j) ∧ (i < i ∨ (i = i ∧ j < j))) by omega),
          if_neg (show ¬ ((k < i ∧ k < k) ∧ (i < i ∨ (i = i ∧ k < j))) by omega),
          if_neg (show ¬ ((k < k ∧ k < j) ∧ (k < i ∨ (k = i ∧ j < j))) by omega),
          if_pos (show (k < a ∧ k < b) ∧ (a < i ∨ (a = i ∧ b < j + 1)) by omega), e.1, e.2]
      · rw [if_neg e]
        by_cases e' : (k < a ∧ k < b) ∧ (a < i ∨ (a = i ∧ b < j))
        · rw [if_pos e', if_pos (by omega)]
        · rw [if_neg e', if_neg (by omega)]

/-- For a square table with at least two rows nothing is raised. -/
theorem detLoop_total {n : ℕ} (hn : 2 ≤ n) (rem k : ℕ) (hrem : rem + k = n) (h : ℕ → ℕ → ℚ) (den sign : ℚ) (hden : den ≠ 0)
    (i0 : Option ℕ) (hi0 : k = 0 ∨ i0 = some (n - 1)) :
    ∃ d m', detLoop n rem k (table n n h) den sign i0 = .ok (d, m') := by
  induction rem generalizing k h den sign i0 with
  | zero =>
    rw [detLoop, get_table h (by omega) (by omega)]
    exact ⟨_, _, rfl⟩
  | succ rem ih =>
    have hk : k < n := by omega
    have hafter : ∀ i, (k = 0 ∨ i = some (n - 1)) → k + 1 = 0 ∨ afterLoop n k i = some (n - 1) := by
      intro i hi
      unfold afterLoop
      by_cases e : k + 1 < n
      · rw [if_pos e]
        exact Or.inr rfl
      · rw [if_neg e]
        rcases hi with hi | hi
        · omega
        · exact Or.inr hi
    rw [detLoop, get_table h hk hk]
    show ∃ d m', (if h k k = 0 then _ else _) = _
    by_cases hp : h k k = 0
    · rw [if_pos hp]
      obtain ⟨i, h1, h2⟩ := findRow_spec h hk (k + 1) (n - (k + 1)) (by omega) i0
      rw [h1]
      have hstop : i = some (n - 1) ∨ ∃ i', i = some i' ∧ k < i' ∧ i' < n ∧ i' ≠ n - 1 ∧ h i' k ≠ 0 := by
        rcases h2 with ⟨i', e, k1, k2, k3⟩ | ⟨-, e⟩ | ⟨e0, e⟩
        · by_cases e' : i' = n - 1
          · exact Or.inl (by rw [e, e'])
          · exact Or.inr ⟨i', e, by omega, k2, e', k3⟩
        · exact Or.inl e
        · rcases hi0 with h0 | h0
          · omega
          · exact Or.inl (e.trans h0)
      rcases hstop with e | ⟨i', e, k1, k2, k3, k4⟩
      · subst e
        show ∃ d m', (if n - 1 = n - 1 then _ else _) = _
        rw [if_pos rfl]
        exact ⟨_, _, rfl⟩
      · subst e
        show ∃ d m', (if i' = n - 1 then _ else _) = _
        rw [if_neg k3, exchange_spec h k1 k2]
        simp only [Bind.bind, Except.bind]
        rw [get_table _ hk hk]
        simp only [le_refl, if_true]
        have hpiv : swapRows h i' k k k ≠ 0 := by
          unfold swapRows
          rw [Equiv.swap_apply_right]
          exact k4
        rw [eliminate_spec _ hk _ _ hden]
        exact ih (k + 1) (by omega) _ _ _ hpiv _ (Or.inr (by unfold afterLoop; rw [if_pos (by omega)]))
    · rw [if_neg hp]
      rw [eliminate_spec _ hk _ _ hden]
      exact ih (k + 1) (by omega) _ _ _ hp _ (hafter i0 hi0)

/-! ### Integer entries -/

/-- The integer matrix as a rational one. -/
def lift (m : Matrices.Entries) : Entries := m.map (fun row => row.map (fun x : ℤ => (x : ℚ)))

theorem floorDiv_cast (a b : ℤ) : floorDiv (a : ℚ) (b : ℚ) = ((a.fdiv b : ℤ) : ℚ) := by
  have key : ∀ (a : ℤ) (d : ℕ), (⌊(a : ℚ) / ((d : ℤ) : ℚ)⌋ : ℤ) = a.fdiv (d : ℤ) := by
    intro a d
    rw [Int.fdiv_eq_ediv_of_nonneg _ (Int.natCast_nonneg d), ← Rat.floor_intCast_div_natCast]
    simp
  unfold floorDiv
  congr 1
  rcases le_total 0 b with hb | hb
  · obtain ⟨d, rfl⟩ := Int.eq_ofNat_of_zero_le hb
    exact key a d
  · obtain ⟨d, hd⟩ := Int.eq_ofNat_of_zero_le (a := -b) (by omega)
    have hb' : b = -(d : ℤ) := by omega
    have h1 := key (-a) d
    rw [hb', ← Int.neg_fdiv_neg, neg_neg, ← h1]
    congr 1
    push_cast
    rw [div_neg, neg_div]

theorem get_lift (m : Matrices.Entries) (i j : ℕ) : get (lift m) i j = (Matrices.get m i j).map (fun x : ℤ => (x : ℚ)) := by
  unfold get Matrices.get lift
  rw [List.getElem?_map]
  cases m[i]? with
  | none => rfl
  | some row =>
    simp only [Option.map_some, List.getElem?_map]
    cases row[j]? with
    | none => rfl
    | some x => rfl

theorem put_lift (m : Matrices.Entries) (i j : ℕ) (x : ℤ) : put (lift m) i j (x : ℚ) = (Matrices.put m i j x).map lift := by
  unfold put Matrices.put lift
  rw [List.getElem?_map]
  cases m[i]? with
  | none => rfl
  | some row =>
    simp only [Option.map_some, List.length_map]
    split
    · simp only [Except.map, List.map_set]
    · rfl

/-- Loops on corresponding states. -/
theorem forRange_map {σ τ : Type} (φ : σ → τ) {a b : ℕ} {f : ℕ → σ → Except PyErr σ} {g : ℕ → τ → Except PyErr τ}
    (h : ∀ x s, g x (φ s) = (f x s).map φ) (s : σ) : forRange a b g (φ s) = (forRange a b f s).map φ := by
  unfold forRange
  generalize List.range' a (b - a) = l
  induction l generalizing s with
  | nil => rfl
  | cons x l ih =>
    rw [List.foldlM_cons, List.foldlM_cons, h]
    cases f x s with
    | error e => rfl
    | ok s' => exact ih s'

theorem nrows_lift (m : Matrices.Entries) : nrows (lift m) = Matrices.nrows m := by simp [nrows, Matrices.nrows, lift]

theorem ncols_lift (m : Matrices.Entries) : ncols (lift m) = Matrices.ncols m := by
  cases m with
  | nil => rfl
  | cons row m => simp [ncols, Matrices.ncols, lift]

theorem findRow_lift (m : Matrices.Entries) (k : ℕ) (is : List ℕ) (i : Option ℕ) :
    findRow (lift m) k is i = Matrices.findRow m k is i := by
  induction is generalizing i with
  | nil => rfl
  | cons i' is ih =>
    rw [findRow, Matrices.findRow, get_lift]
    cases Matrices.get m i' k with
    | error e => rfl
    | ok x =>
      show (if (x : ℚ) ≠ 0 then _ else _) = (if x ≠ 0 then _ else _)
      by_cases hx : x = 0
      · rw [if_neg (by simp [hx]), if_neg (by simp [hx])]
        exact ih _
      · rw [if_pos (by exact_mod_cast hx), if_pos hx]

theorem exchange_lift (n i k : ℕ) (m : Matrices.Entries) :
    exchange n i k (lift m) = (Matrices.exchange n i k m).map lift := by
  unfold exchange Matrices.exchange
  refine forRange_map lift (fun j m => ?_) m
  rw [get_lift, get_lift]
  cases Matrices.get m k j with
  | error e => rfl
  | ok a =>
    cases Matrices.get m i j with
    | error e => rfl
    | ok b =>
      show (do let m ← put (lift m) i j (a : ℚ); put m k j (b : ℚ)) = _
      rw [put_lift]
      cases h : Matrices.put m i j a with
      | error e => simp only [Bind.bind, Except.bind, h, Except.map]
      | ok m' =>
        simp only [Bind.bind, Except.bind, h, Except.map]
        exact put_lift m' k j b

theorem eliminate_lift (n k : ℕ) (pivot den : ℤ) (m : Matrices.Entries) :
    eliminate n k (pivot : ℚ) (den : ℚ) (lift m) = (Matrices.eliminate n k pivot den m).map lift := by
  unfold eliminate Matrices.eliminate
  refine forRange_map lift (fun i m => forRange_map lift (fun j m => ?_) m) m
  rw [get_lift, get_lift, get_lift]
  cases Matrices.get m i j with
  | error e => rfl
  | ok x =>
    cases Matrices.get m i k with
    | error e => rfl
    | ok y =>
      cases Matrices.get m k j with
      | error e => rfl
      | ok z =>
        show (if (den : ℚ) = 0 then _ else put (lift m) i j (floorDiv ((pivot : ℚ) * x - y * z) den)) = Except.map lift (if den = 0 then _ else _)
        by_cases hd : den = 0
        · rw [if_pos (by exact_mod_cast hd), if_pos hd]
          rfl
        · rw [if_neg (by exact_mod_cast hd), if_neg hd, ← put_lift, ← floorDiv_cast]
          push_cast
          rfl

theorem detLoop_lift (n rem k : ℕ) (m : Matrices.Entries) (den sign : ℤ) (i : Option ℕ) :
    detLoop n rem k (lift m) (den : ℚ) (sign : ℚ) i =
      (Matrices.detLoop n rem k m den sign i).map (fun r => ((r.1 : ℚ), lift r.2)) := by
  induction rem generalizing k m den sign i with
  | zero =>
    rw [detLoop, Matrices.detLoop, get_lift]
    cases Matrices.get m (n - 1) (n - 1) with
    | error e => rfl
    | ok x =>
      show Except.ok _ = Except.ok _
      push_cast
      rfl
  | succ rem ih =>
    rw [detLoop, Matrices.detLoop, get_lift]
    cases Matrices.get m k k with
    | error e => rfl
    | ok pivot =>
      show (if (pivot : ℚ) = 0 then _ else _) = Except.map _ (if pivot = 0 then _ else _)
      by_cases hp : pivot = 0
      · rw [if_pos (by exact_mod_cast hp), if_pos hp, findRow_lift]
        cases Matrices.findRow m k (List.range' (k + 1) (n - (k + 1))) i with
        | error e => rfl
        | ok i =>
          cases i with
          | none => rfl
          | some i =>
            show (if i = n - 1 then _ else _) = Except.map _ (if i = n - 1 then _ else _)
            by_cases hi : i = n - 1
            · rw [if_pos hi, if_pos hi]
              simp [Except.map]
            · rw [if_neg hi, if_neg hi, exchange_lift]
              cases Matrices.exchange n i k m with
              | error e => rfl
              | ok m =>
                show (do let pivot ← get (lift m) k k; _) = _
                rw [get_lift]
                cases h1 : Matrices.get m k k with
                | error e => simp only [Bind.bind, Except.bind, h1, Except.map]
                | ok pivot =>
                  simp only [Bind.bind, Except.bind, h1, Except.map]
                  rw [eliminate_lift]
                  cases h2 : Matrices.eliminate n k pivot den m with
                  | error e => simp only [Except.map]
                  | ok m =>
                    simp only [Except.map]
                    have := ih (k + 1) m pivot (-sign) (afterLoop n k (some i))
                    push_cast at this
                    exact this
      · rw [if_neg (by exact_mod_cast hp), if_neg hp]
        show (do let m ← eliminate n k (pivot : ℚ) (den : ℚ) (lift m); _) = _
        rw [eliminate_lift]
        cases h2 : Matrices.eliminate n k pivot den m with
        | error e => simp only [Bind.bind, Except.bind, h2, Except.map]
        | ok m =>
          simp only [Bind.bind, Except.bind, h2, Except.map]
          exact ih (k + 1) m pivot sign (afterLoop n k i)

end Rosemary.RatMatrices
