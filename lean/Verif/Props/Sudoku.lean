import Verif.Model.Sudoku
import Verif.Props.ExactCover
import Mathlib.Data.Fintype.Card
import Mathlib.Tactic.IntervalCases
import Mathlib.Tactic.FinCases

/-!
# The Sudoku solver (C112)
-/

namespace Rosemary.Props

open Rosemary.Sudoku Rosemary.ExactCover

/-- A completely filled grid that obeys the rules; `f r c` is the digit in row `r` and column `c`. -/
structure IsSudoku (f : ℕ → ℕ → ℕ) : Prop where
  digit : ∀ r < 9, ∀ c < 9, 1 ≤ f r c ∧ f r c ≤ 9
  row : ∀ r < 9, ∀ c < 9, ∀ c' < 9, f r c = f r c' → c = c'
  col : ∀ c < 9, ∀ r < 9, ∀ r' < 9, f r c = f r' c → r = r'
  box : ∀ r < 9, ∀ c < 9, ∀ r' < 9, ∀ c' < 9, r / 3 = r' / 3 → c / 3 = c' / 3 → f r c = f r' c' → r = r' ∧ c = c'

/-- The digit that the puzzle gives for a cell, 0 if none. -/
def clue (a : List Char) (r c : ℕ) : ℕ :=
  match a[9 * r + c]? with
  | none => 0
  | some ch => ch.toNat - '0'.toNat

/-- The grid agrees with the given digits. -/
def Completes (a : List Char) (f : ℕ → ℕ → ℕ) : Prop := ∀ r < 9, ∀ c < 9, clue a r c ≠ 0 → f r c = clue a r c

/-! ## Boards -/

/-- Nine rows of length nine. -/
def Shaped (M : Board) : Prop := M.length = 9 ∧ ∀ r < 9, (M.getD r []).length = 9

theorem shaped_setCell {M : Board} (h : Shaped M) (r c v : ℕ) : Shaped (setCell M r c v) := by
  refine ⟨by rw [setCell, List.length_set, h.1], fun r' hr' => ?_⟩
  rw [setCell, List.getD_eq_getElem?_getD, List.getElem?_set]
  by_cases h1 : r = r'
  · subst h1
    rw [if_pos rfl, if_pos (by rw [h.1]; exact hr'), Option.getD_some, List.length_set, h.2 r hr']
  · rw [if_neg h1, ← List.getD_eq_getElem?_getD, h.2 r' hr']

theorem cell_setCell {M : Board} (h : Shaped M) {r c v r' c' : ℕ} (hr : r < 9) (hc : c < 9) :
    cell (setCell M r c v) r' c' = if r = r' ∧ c = c' then v else cell M r' c' := by
  rw [cell, setCell, List.getD_eq_getElem?_getD (l := M.set _ _), List.getElem?_set]
  by_cases h1 : r = r'
  · subst h1
    rw [if_pos rfl, if_pos (by rw [h.1]; exact hr), Option.getD_some, List.getD_eq_getElem?_getD, List.getElem?_set]
    by_cases h2 : c = c'
    · subst h2
      rw [if_pos rfl, if_pos (by rw [h.2 r hr]; exact hc), if_pos ⟨rfl, rfl⟩, Option.getD_some]
    · rw [if_neg h2, if_neg (fun h => h2 h.2), ← List.getD_eq_getElem?_getD, cell]
  · rw [if_neg h1, if_neg (fun h => h1 h.1), ← List.getD_eq_getElem?_getD, cell]

theorem shaped_blank : Shaped (List.replicate 9 (List.replicate 9 0)) := by
  refine ⟨rfl, fun r hr => ?_⟩
  interval_cases r <;> rfl

theorem cell_blank (r c : ℕ) : cell (List.replicate 9 (List.replicate 9 0)) r c = 0 := by
  rw [cell, List.getD_eq_getElem?_getD (l := List.replicate 9 _), List.getElem?_replicate]
  by_cases h : r < 9
  · rw [if_pos h, Option.getD_some, List.getD_eq_getElem?_getD, List.getElem?_replicate]
    by_cases h : c < 9
    · rw [if_pos h]; rfl
    · rw [if_neg h]; rfl
  · rw [if_neg h]; rfl

/-- An ASCII digit. -/
def IsDigit (d : Char) : Prop := '0' ≤ d ∧ d ≤ '9'

theorem intOfChar_ok {d : Char} (h : IsDigit d) : intOfChar d = .ok (d.toNat - '0'.toNat) := by
  rw [IsDigit] at h
  rw [intOfChar, if_pos h]

theorem intOfChar_error {d : Char} (h : ¬ IsDigit d) : intOfChar d = .error .valueError := by
  rw [IsDigit] at h
  rw [intOfChar, if_neg h]

theorem digit_le {d : Char} (h : IsDigit d) : d.toNat - '0'.toNat ≤ 9 := by
  have h1 : d.toNat ≤ '9'.toNat := h.2
  have h2 : '9'.toNat = 57 := rfl
  have h3 : '0'.toNat = 48 := rfl
  omega

theorem parseLoop_ok (ds : List Char) : ∀ (i : ℕ) (M : Board), Shaped M → (∀ d ∈ ds, IsDigit d) → i + ds.length ≤ 81 →
    ∃ M', parseLoop M i ds = .ok M' ∧ Shaped M' ∧ ∀ r < 9, ∀ c < 9, cell M' r c =
      match (if 9 * r + c < i then none else ds[9 * r + c - i]?) with
      | none => cell M r c
      | some ch => ch.toNat - '0'.toNat := by
  induction ds with
  | nil =>
    intro i M h _ _
    refine ⟨M, rfl, h, fun r hr c hc => ?_⟩
    split_ifs <;> simp
  | cons d ds ih =>
    intro i M h hd hl
    rw [List.length_cons] at hl
    obtain ⟨M', h1, h2, h3⟩ := ih (i + 1) (setCell M (i / 9) (i % 9) (d.toNat - '0'.toNat)) (shaped_setCell h _ _ _)
      (fun d hd' => hd d (List.mem_cons_of_mem _ hd')) (by omega)
    refine ⟨M', ?_, h2, fun r hr c hc => ?_⟩
    · rw [parseLoop, intOfChar_ok (hd d List.mem_cons_self)]
      dsimp only
      rw [if_pos (by rw [h.1]; omega), h1]
    · rw [h3 r hr c hc]
      rcases lt_trichotomy (9 * r + c) i with hlt | heq | hgt
      · rw [if_pos (by omega), if_pos hlt]
        dsimp only
        rw [cell_setCell h (by omega) (by omega), if_neg (by omega)]
      · rw [if_pos (by omega), if_neg (by omega), heq, Nat.sub_self]
        dsimp only [List.getElem?_cons_zero]
        rw [cell_setCell h (by omega) (by omega), if_pos (by omega)]
      · obtain ⟨k, hk⟩ : ∃ k, 9 * r + c - i = k + 1 := ⟨9 * r + c - i - 1, by omega⟩
        rw [if_neg (by omega), if_neg (by omega), hk, List.getElem?_cons_succ,
          show 9 * r + c - (i + 1) = k by omega]
        cases ds[k]? with
        | none =>
          dsimp only
          rw [cell_setCell h (by omega) (by omega), if_neg (by omega)]
        | some ch => rfl

theorem parse_ok (a : List Char) (ha : ∀ d ∈ a, IsDigit d) (hl : a.length ≤ 81) :
    ∃ M, parse a = .ok M ∧ Shaped M ∧ ∀ r < 9, ∀ c < 9, cell M r c = clue a r c := by
  obtain ⟨M, h1, h2, h3⟩ := parseLoop_ok a 0 _ shaped_blank ha (by omega)
  refine ⟨M, h1, h2, fun r hr c hc => ?_⟩
  rw [h3 r hr c hc, if_neg (by omega), Nat.sub_zero, clue, cell_blank]

/-- Errors of `parse`: the first character that is no digit or comes after 81 others. -/
theorem parseLoop_error (ds : List Char) : ∀ (i : ℕ) (M : Board) (pre : List Char) (d : Char) (post : List Char),
    Shaped M → ds = pre ++ d :: post → (∀ d ∈ pre, IsDigit d) → i + pre.length ≤ 81 →
    (¬ IsDigit d → parseLoop M i ds = .error .valueError) ∧
    (IsDigit d → i + pre.length = 81 → parseLoop M i ds = .error .indexError) := by
  intro i M pre
  induction pre generalizing i M ds with
  | nil =>
    intro d post h hds _ hi
    subst hds
    rw [List.nil_append, parseLoop]
    constructor
    · intro hd
      rw [intOfChar_error hd]
    · intro hd h81
      rw [List.length_nil] at h81
      rw [intOfChar_ok hd]
      dsimp only
      rw [if_neg (by rw [h.1]; omega)]
  | cons p pre ih =>
    intro d post h hds hp hi
    subst hds
    rw [List.length_cons] at hi
    have := ih (pre ++ d :: post) (i + 1) (setCell M (i / 9) (i % 9) (p.toNat - '0'.toNat)) d post (shaped_setCell h _ _ _)
      rfl (fun d hd => hp d (List.mem_cons_of_mem _ hd)) (by omega)
    rw [List.cons_append, parseLoop, intOfChar_ok (hp p List.mem_cons_self)]
    dsimp only
    rw [if_pos (by rw [h.1]; omega), List.length_cons]
    exact ⟨this.1, fun h1 h2 => this.2 h1 (by omega)⟩

/-! ## The sets -/

/-- The candidates, row by row. -/
def candidates (M : Board) : List (ℕ × ℕ × ℕ) :=
  (List.range 9).flatMap (fun row => (List.range 9).flatMap (fun col =>
    (cellDigits M row col).map (fun digit => (row, col, digit))))

/-- The constraints that a candidate satisfies. -/
def keysOf (t : ℕ × ℕ × ℕ) : Finset Key :=
  {(t.1, 'O', t.2.1), (t.2.2, 'R', t.1), (t.2.2, 'C', t.2.1), (t.2.2, 'B', 3 * (t.1 / 3) + t.2.1 / 3)}

theorem mem_candidates {M : Board} {r c d : ℕ} : (r, c, d) ∈ candidates M ↔
    r < 9 ∧ c < 9 ∧ ((cell M r c = 0 ∧ 1 ≤ d ∧ d ≤ 9) ∨ (cell M r c ≠ 0 ∧ d = cell M r c)) := by
  simp only [candidates, List.mem_flatMap, List.mem_range, List.mem_map, Prod.mk.injEq]
  have hd : d ∈ cellDigits M r c ↔ (cell M r c = 0 ∧ 1 ≤ d ∧ d ≤ 9) ∨ (cell M r c ≠ 0 ∧ d = cell M r c) := by
    rw [cellDigits]
    by_cases h : cell M r c = 0
    · rw [if_pos h, List.mem_range'_1]
      omega
    · rw [if_neg h, List.mem_singleton]
      tauto
  constructor
  · rintro ⟨r', hr, c', hc, d', hd', rfl, rfl, rfl⟩
    exact ⟨hr, hc, hd.1 hd'⟩
  · rintro ⟨hr, hc, h⟩
    exact ⟨r, hr, c, hc, d, hd.2 h, rfl, rfl, rfl⟩

theorem nodup_candidates (M : Board) : (candidates M).Nodup := by
  rw [candidates, List.nodup_flatMap]
  refine ⟨fun r _ => ?_, ?_⟩
  · rw [List.nodup_flatMap]
    refine ⟨fun c _ => ?_, ?_⟩
    · refine List.Nodup.map (fun a b h => ?_) ?_
      · simpa using h
      · rw [cellDigits]
        split_ifs
        · exact List.nodup_range'
        · exact List.nodup_singleton _
    · refine List.Pairwise.imp ?_ (List.nodup_range (n := 9))
      intro c c' hne
      rw [Function.onFun, List.disjoint_left]
      simp only [List.mem_map, not_exists, not_and]
      rintro t ⟨d, _, rfl⟩ d' _ h
      simp only [Prod.mk.injEq] at h
      exact hne h.2.1.symm
  · refine List.Pairwise.imp ?_ (List.nodup_range (n := 9))
    intro r r' hne
    rw [Function.onFun, List.disjoint_left]
    simp only [List.mem_flatMap, List.mem_map, not_exists, not_and]
    rintro t ⟨c, _, d, _, rfl⟩ c' _ d' _ h
    simp only [Prod.mk.injEq] at h
    exact hne h.1.symm

theorem mapM_ok {α β : Type} {f : α → Except PyErr β} {g : α → β} (l : List α) (h : ∀ x ∈ l, f x = .ok (g x)) :
    l.mapM f = .ok (l.map g) := by
  induction l with
  | nil => rfl
  | cons x l ih =>
    rw [List.mapM_cons, h x List.mem_cons_self, ih (fun y hy => h y (List.mem_cons_of_mem _ hy))]
    rfl

theorem sudokuVectors_eq (M : Board) : sudokuVectors M = .ok ((candidates M).map keysOf) := by
  refine mapM_ok _ ?_
  rintro ⟨r, c, d⟩ ht
  obtain ⟨hr, hc, -⟩ := mem_candidates.1 ht
  have : blockIdx.get? (r - r % 3, c - c % 3) = some (3 * (r / 3) + c / 3) := by
    revert c
    interval_cases r <;> intro c _ hc <;> interval_cases c <;> rfl
  rw [cellEntries, this]
  rfl

theorem mem_keysOf {t : ℕ × ℕ × ℕ} {x : Key} : x ∈ keysOf t ↔ x = (t.1, 'O', t.2.1) ∨ x = (t.2.2, 'R', t.1) ∨
    x = (t.2.2, 'C', t.2.1) ∨ x = (t.2.2, 'B', 3 * (t.1 / 3) + t.2.1 / 3) := by
  simp only [keysOf, Finset.mem_insert, Finset.mem_singleton]

theorem mem_foldl_union {l : List (Finset Key)} {S : Finset Key} {x : Key} :
    x ∈ l.foldl (· ∪ ·) S ↔ x ∈ S ∨ ∃ s ∈ l, x ∈ s := by
  induction l generalizing S with
  | nil => simp
  | cons s l ih =>
    rw [List.foldl_cons, ih, Finset.mem_union, List.exists_mem_cons_iff, or_assoc]

/-! ## Reading the solution -/

theorem scanEntry_spec (es : List Key) : ∀ (st : Option ℕ × Option ℕ × Option ℕ) (r c d : ℕ),
    (∀ e ∈ es, e.2.1 = 'O' → e = (r, 'O', c)) → (∀ e ∈ es, e.2.1 = 'C' → e.1 = d) →
    (((∃ e ∈ es, e.2.1 = 'O') ∨ (st.1 = some r ∧ st.2.1 = some c)) → (scan st es).1 = some r ∧ (scan st es).2.1 = some c) ∧
    (((∃ e ∈ es, e.2.1 = 'C') ∨ st.2.2 = some d) → (scan st es).2.2 = some d) := by
  induction es with
  | nil =>
    intro st r c d _ _
    exact ⟨fun h => h.elim (by rintro ⟨e, he, -⟩; cases he) id, fun h => h.elim (by rintro ⟨e, he, -⟩; cases he) id⟩
  | cons e es ih =>
    intro st r c d hO hC
    rw [scan]
    by_cases h1 : e.2.1 = 'O'
    · have h2 : ¬ e.2.1 = 'C' := by rw [h1]; decide
      have he := hO e List.mem_cons_self h1
      rw [if_pos h1, if_neg h2]
      obtain ⟨i1, i2⟩ := ih (some e.1, some e.2.2, st.2.2) r c d (fun e he => hO e (List.mem_cons_of_mem _ he))
        (fun e he => hC e (List.mem_cons_of_mem _ he))
      refine ⟨fun _ => i1 (Or.inr (by rw [he]; exact ⟨rfl, rfl⟩)), fun h => i2 ?_⟩
      rcases h with ⟨e', he', h⟩ | h
      · rcases List.mem_cons.1 he' with rfl | he'
        · exact absurd h h2
        · exact Or.inl ⟨e', he', h⟩
      · exact Or.inr h
    · by_cases h2 : e.2.1 = 'C'
      · rw [if_neg h1, if_pos h2]
        obtain ⟨i1, i2⟩ := ih (st.1, st.2.1, some e.1) r c d (fun e he => hO e (List.mem_cons_of_mem _ he))
          (fun e he => hC e (List.mem_cons_of_mem _ he))
        refine ⟨fun h => i1 ?_, fun _ => i2 (Or.inr (by rw [hC e List.mem_cons_self h2]))⟩
        rcases h with ⟨e', he', h⟩ | h
        · rcases List.mem_cons.1 he' with rfl | he'
          · exact absurd h h1
          · exact Or.inl ⟨e', he', h⟩
        · exact Or.inr h
      · rw [if_neg h1, if_neg h2]
        obtain ⟨i1, i2⟩ := ih st r c d (fun e he => hO e (List.mem_cons_of_mem _ he))
          (fun e he => hC e (List.mem_cons_of_mem _ he))
        refine ⟨fun h => i1 ?_, fun h => i2 ?_⟩
        · rcases h with ⟨e', he', h⟩ | h
          · rcases List.mem_cons.1 he' with rfl | he'
            · exact absurd h h1
            · exact Or.inl ⟨e', he', h⟩
          · exact Or.inr h
        · rcases h with ⟨e', he', h⟩ | h
          · rcases List.mem_cons.1 he' with rfl | he'
            · exact absurd h h2
            · exact Or.inl ⟨e', he', h⟩
          · exact Or.inr h

variable {ordK : Finset Key → List Key} (hK : ∀ S, (ordK S).Nodup ∧ ∀ x, x ∈ ordK S ↔ x ∈ S)

include hK in
theorem scan_keysOf (st : Option ℕ × Option ℕ × Option ℕ) (t : ℕ × ℕ × ℕ) :
    scan st (ordK (keysOf t)) = (some t.1, some t.2.1, some t.2.2) := by
  obtain ⟨h1, h2⟩ := scanEntry_spec (ordK (keysOf t)) st t.1 t.2.1 t.2.2
    (by
      intro e he hO
      rw [(hK _).2, mem_keysOf] at he
      rcases he with rfl | rfl | rfl | rfl
      · rfl
      all_goals exact absurd hO (by dsimp only; decide))
    (by
      intro e he hO
      rw [(hK _).2, mem_keysOf] at he
      rcases he with rfl | rfl | rfl | rfl
      · exact absurd hO (by dsimp only; decide)
      · exact absurd hO (by dsimp only; decide)
      · rfl
      · exact absurd hO (by dsimp only; decide))
  obtain ⟨h3, h4⟩ := h1 (Or.inl ⟨(t.1, 'O', t.2.1), by rw [(hK _).2, mem_keysOf]; exact Or.inl rfl, rfl⟩)
  have h5 := h2 (Or.inl ⟨(t.2.2, 'C', t.2.1), by rw [(hK _).2, mem_keysOf]; exact Or.inr (Or.inr (Or.inl rfl)), rfl⟩)
  exact Prod.ext h3 (Prod.ext h4 h5)

include hK in
theorem fillLoop_spec (ts : List (ℕ × ℕ × ℕ)) (f : ℕ → ℕ → ℕ) : ∀ (st : Option ℕ × Option ℕ × Option ℕ) (M : Board),
    Shaped M → (∀ t ∈ ts, t.1 < 9 ∧ t.2.1 < 9 ∧ t.2.2 = f t.1 t.2.1) →
    ∃ M', fillLoop st M (ts.map (fun t => ordK (keysOf t))) = .ok M' ∧ Shaped M' ∧
      ∀ r c, ((∃ t ∈ ts, t.1 = r ∧ t.2.1 = c) ∨ cell M r c = f r c) → cell M' r c = f r c := by
  induction ts with
  | nil =>
    intro st M h _
    exact ⟨M, rfl, h, fun r c hrc => hrc.elim (by rintro ⟨t, ht, -⟩; cases ht) id⟩
  | cons t ts ih =>
    intro st M h hts
    obtain ⟨hr, hc, hd⟩ := hts t List.mem_cons_self
    obtain ⟨M', h1, h2, h3⟩ := ih (some t.1, some t.2.1, some t.2.2) (setCell M t.1 t.2.1 t.2.2) (shaped_setCell h _ _ _)
      (fun t ht => hts t (List.mem_cons_of_mem _ ht))
    refine ⟨M', ?_, h2, fun r c hrc => h3 r c ?_⟩
    · rw [List.map_cons, fillLoop, scan_keysOf hK]
      exact h1
    · by_cases h4 : ∃ t ∈ ts, t.1 = r ∧ t.2.1 = c
      · exact Or.inl h4
      · right
        rw [cell_setCell h hr hc]
        by_cases h5 : t.1 = r ∧ t.2.1 = c
        · rw [if_pos h5, hd, h5.1, h5.2]
        · rw [if_neg h5]
          rcases hrc with ⟨t', ht', h6⟩ | h6
          · rcases List.mem_cons.1 ht' with rfl | ht'
            · exact absurd h6 h5
            · exact absurd ⟨t', ht', h6⟩ h4
          · exact h6

theorem toStr_eq {M : Board} {f : ℕ → ℕ → ℕ} (h : ∀ r < 9, ∀ c < 9, cell M r c = f r c)
    (hf : ∀ r < 9, ∀ c < 9, f r c < 10) : toStr M = (List.range 81).map (fun k => Nat.digitChar (f (k / 9) (k % 9))) := by
  have h1 : ∀ r < 9, ∀ c < 9, Nat.toDigits 10 (cell M r c) = [Nat.digitChar (f r c)] := by
    intro r hr c hc
    rw [h r hr c hc]
    exact Nat.toDigits_of_lt_base (hf r hr c hc)
  have h2 : ∀ r < 9, (List.range 9).flatMap (fun j => Nat.toDigits 10 (cell M r j)) =
      (List.range 9).map (fun j => Nat.digitChar (f r j)) := by
    intro r hr
    rw [List.map_eq_flatMap]
    refine List.flatMap_congr fun j hj => h1 r hr j (List.mem_range.1 hj)
  rw [toStr]
  have h3 : (List.range 9).flatMap (fun i => (List.range 9).flatMap (fun j => Nat.toDigits 10 (cell M i j))) =
      (List.range 9).flatMap (fun i => (List.range 9).map (fun j => Nat.digitChar (f i j))) :=
    List.flatMap_congr fun i hi => h2 i (List.mem_range.1 hi)
  rw [h3]
  rfl

/-! ## Covers and grids -/

/-- The chosen candidates of a set of positions. -/
def Chosen (T : List (ℕ × ℕ × ℕ)) (S : Finset ℕ) (t : ℕ × ℕ × ℕ) : Prop := ∃ i ∈ S, T[i]? = some t

theorem surj_of_inj {g : ℕ → ℕ} (h1 : ∀ k < 9, 1 ≤ g k ∧ g k ≤ 9) (h2 : ∀ k < 9, ∀ k' < 9, g k = g k' → k = k')
    {d : ℕ} (hd : 1 ≤ d ∧ d ≤ 9) : ∃ k < 9, g k = d := by
  have hi : Function.Injective (fun k : Fin 9 => (⟨g k - 1, by have := h1 k k.2; omega⟩ : Fin 9)) := by
    intro k k' h
    simp only [Fin.mk.injEq] at h
    have e1 := h1 k k.2
    have e2 := h1 k' k'.2
    exact Fin.ext (h2 k k.2 k' k'.2 (by omega))
  obtain ⟨k, hk⟩ := Finite.surjective_of_injective hi ⟨d - 1, by omega⟩
  simp only [Fin.mk.injEq] at hk
  have e1 := h1 k k.2
  exact ⟨k, k.2, by omega⟩

theorem mem_rowAt (T : List (ℕ × ℕ × ℕ)) (i : ℕ) (x : Key) :
    x ∈ ((T.map keysOf).map ordK).getD i [] ↔ ∃ t, T[i]? = some t ∧ x ∈ ordK (keysOf t) := by
  rw [List.getD_eq_getElem?_getD, List.getElem?_map, List.getElem?_map]
  cases T[i]? with
  | none => simp
  | some t => simp

include hK in
theorem unique_row {T : List (ℕ × ℕ × ℕ)} (hT : T.Nodup) (S : Finset ℕ) (x : Key) :
    (∃! i, i ∈ S ∧ x ∈ ((T.map keysOf).map ordK).getD i []) ↔
    (∃ t, Chosen T S t ∧ x ∈ keysOf t) ∧ ∀ t t', Chosen T S t → Chosen T S t' → x ∈ keysOf t → x ∈ keysOf t' → t = t' := by
  constructor
  · rintro ⟨i, ⟨hi, hx⟩, hu⟩
    obtain ⟨t, ht, hxt⟩ := (mem_rowAt T i x).1 hx
    have key : ∀ t', Chosen T S t' → x ∈ keysOf t' → t' = t := by
      rintro t' ⟨j, hj, htj⟩ hx'
      have := hu j ⟨hj, (mem_rowAt T j x).2 ⟨t', htj, ((hK _).2 _).2 hx'⟩⟩
      subst this
      rw [ht] at htj
      exact (Option.some.inj htj).symm
    exact ⟨⟨t, ⟨i, hi, ht⟩, ((hK _).2 _).1 hxt⟩, fun t1 t2 h1 h2 h3 h4 => (key t1 h1 h3).trans (key t2 h2 h4).symm⟩
  · rintro ⟨⟨t, ⟨i, hi, ht⟩, hx⟩, hu⟩
    refine ⟨i, ⟨hi, (mem_rowAt T i x).2 ⟨t, ht, ((hK _).2 _).2 hx⟩⟩, ?_⟩
    rintro j ⟨hj, hxj⟩
    obtain ⟨t', ht', hx'⟩ := (mem_rowAt T j x).1 hxj
    have := hu t' t ⟨j, hj, ht'⟩ ⟨i, hi, ht⟩ (((hK _).2 _).1 hx') hx
    subst this
    obtain ⟨hil, hie⟩ := List.getElem?_eq_some_iff.1 ht
    obtain ⟨hjl, hje⟩ := List.getElem?_eq_some_iff.1 ht'
    exact (List.Nodup.getElem_inj_iff hT).1 (hje.trans hie.symm)

/-- A set of candidates that meets every constraint once is a grid. -/
theorem grid_of_cover {a : List Char} (ha : ∀ d ∈ a, IsDigit d) {M : Board}
    (hM : ∀ r < 9, ∀ c < 9, cell M r c = clue a r c) (S : Finset ℕ)
    (h : ∀ t0 ∈ candidates M, ∀ x ∈ keysOf t0, (∃ t, Chosen (candidates M) S t ∧ x ∈ keysOf t) ∧
      ∀ t t', Chosen (candidates M) S t → Chosen (candidates M) S t' → x ∈ keysOf t → x ∈ keysOf t' → t = t') :
    ∃ f, IsSudoku f ∧ Completes a f ∧ (∀ r < 9, ∀ c < 9, Chosen (candidates M) S (r, c, f r c)) ∧
      ∀ t, Chosen (candidates M) S t → t.1 < 9 ∧ t.2.1 < 9 ∧ t.2.2 = f t.1 t.2.1 := by
  have hmem : ∀ t, Chosen (candidates M) S t → t ∈ candidates M := by
    rintro t ⟨i, -, hi⟩
    exact List.mem_of_getElem? hi
  have huniq : ∀ t t' x, Chosen (candidates M) S t → Chosen (candidates M) S t' → x ∈ keysOf t → x ∈ keysOf t' → t = t' :=
    fun t t' x h1 h2 h3 h4 => (h t (hmem t h1) x h3).2 t t' h1 h2 h3 h4
  have hex : ∀ r c, ∃ d, r < 9 → c < 9 → Chosen (candidates M) S (r, c, d) := by
    intro r c
    by_cases hrc : r < 9 ∧ c < 9
    · have : ∃ d, (r, c, d) ∈ candidates M := by
        by_cases h0 : cell M r c = 0
        · exact ⟨1, mem_candidates.2 ⟨hrc.1, hrc.2, Or.inl ⟨h0, le_refl _, by omega⟩⟩⟩
        · exact ⟨cell M r c, mem_candidates.2 ⟨hrc.1, hrc.2, Or.inr ⟨h0, rfl⟩⟩⟩
      obtain ⟨d0, hd0⟩ := this
      obtain ⟨⟨⟨r', c', d⟩, ht, hx⟩, -⟩ := h _ hd0 (r, 'O', c) (mem_keysOf.2 (Or.inl rfl))
      have : r = r' ∧ c = c' := by
        rw [mem_keysOf] at hx
        simp only [Prod.mk.injEq] at hx
        rcases hx with hx | hx | hx | hx
        · exact ⟨hx.1, hx.2.2⟩
        all_goals exact absurd hx.2.1 (by decide)
      obtain ⟨rfl, rfl⟩ := this
      exact ⟨d, fun _ _ => ht⟩
    · exact ⟨0, fun h1 h2 => absurd ⟨h1, h2⟩ hrc⟩
  choose f hf using hex
  have hclue : ∀ r c, clue a r c ≤ 9 := by
    intro r c
    rw [clue]
    cases hg : a[9 * r + c]? with
    | none => exact Nat.zero_le _
    | some ch => exact digit_le (ha _ (List.mem_of_getElem? hg))
  refine ⟨f, ⟨?_, ?_, ?_, ?_⟩, ?_, fun r hr c hc => hf r c hr hc, ?_⟩
  · intro r hr c hc
    obtain ⟨-, -, h1⟩ := mem_candidates.1 (hmem _ (hf r c hr hc))
    rcases h1 with ⟨-, h1⟩ | ⟨h1, h2⟩
    · exact h1
    · rw [h2]
      have := hclue r c
      rw [← hM r hr c hc] at this
      omega
  · intro r hr c hc c' hc' he
    have := huniq _ _ (f r c, 'R', r) (hf r c hr hc) (hf r c' hr hc') (mem_keysOf.2 (Or.inr (Or.inl rfl)))
      (mem_keysOf.2 (Or.inr (Or.inl (by rw [he]))))
    simp only [Prod.mk.injEq] at this
    exact this.2.1
  · intro c hc r hr r' hr' he
    have := huniq _ _ (f r c, 'C', c) (hf r c hr hc) (hf r' c hr' hc) (mem_keysOf.2 (Or.inr (Or.inr (Or.inl rfl))))
      (mem_keysOf.2 (Or.inr (Or.inr (Or.inl (by rw [he])))))
    simp only [Prod.mk.injEq] at this
    exact this.1
  · intro r hr c hc r' hr' c' hc' h1 h2 he
    have := huniq _ _ (f r c, 'B', 3 * (r / 3) + c / 3) (hf r c hr hc) (hf r' c' hr' hc')
      (mem_keysOf.2 (Or.inr (Or.inr (Or.inr rfl)))) (mem_keysOf.2 (Or.inr (Or.inr (Or.inr (by rw [he, h1, h2])))))
    simp only [Prod.mk.injEq] at this
    exact ⟨this.1, this.2.1⟩
  · intro r hr c hc h0
    obtain ⟨-, -, h1⟩ := mem_candidates.1 (hmem _ (hf r c hr hc))
    rw [hM r hr c hc] at h1
    rcases h1 with ⟨h1, -⟩ | ⟨-, h2⟩
    · exact absurd h1 h0
    · exact h2
  · rintro ⟨r, c, d⟩ ht
    obtain ⟨hr, hc, -⟩ := mem_candidates.1 (hmem _ ht)
    have := huniq _ _ (r, 'O', c) ht (hf r c hr hc) (mem_keysOf.2 (Or.inl rfl)) (mem_keysOf.2 (Or.inl rfl))
    simp only [Prod.mk.injEq] at this
    exact ⟨hr, hc, this.2.2⟩

/-- A grid is a set of candidates that meets every constraint once. -/
theorem cover_of_grid {a : List Char} (ha : ∀ d ∈ a, IsDigit d) {M : Board}
    (hM : ∀ r < 9, ∀ c < 9, cell M r c = clue a r c) {f : ℕ → ℕ → ℕ} (hf : IsSudoku f) (hc : Completes a f) :
    ∃ S : Finset ℕ, (∀ i ∈ S, i < (candidates M).length) ∧
      ∀ t0 ∈ candidates M, ∀ x ∈ keysOf t0, (∃ t, Chosen (candidates M) S t ∧ x ∈ keysOf t) ∧
      ∀ t t', Chosen (candidates M) S t → Chosen (candidates M) S t' → x ∈ keysOf t → x ∈ keysOf t' → t = t' := by
  obtain ⟨S, hS⟩ : ∃ S : Finset ℕ, ∀ i, i ∈ S ↔
      i < (candidates M).length ∧ ∃ r < 9, ∃ c < 9, (candidates M)[i]? = some (r, c, f r c) := by
    have gen : ∀ (n : ℕ) (P : ℕ → Prop), ∃ S : Finset ℕ, ∀ i, i ∈ S ↔ i < n ∧ P i := by
      classical
      intro n P
      exact ⟨(Finset.range n).filter P, fun i => by rw [Finset.mem_filter, Finset.mem_range]⟩
    exact gen _ _
  refine ⟨S, fun i hi => ((hS i).1 hi).1, ?_⟩
  have hch : ∀ r < 9, ∀ c < 9, Chosen (candidates M) S (r, c, f r c) := by
    intro r hr c hc'
    have : (r, c, f r c) ∈ candidates M := by
      refine mem_candidates.2 ⟨hr, hc', ?_⟩
      rw [hM r hr c hc']
      by_cases h0 : clue a r c = 0
      · exact Or.inl ⟨h0, hf.digit r hr c hc'⟩
      · exact Or.inr ⟨h0, hc r hr c hc' h0⟩
    obtain ⟨i, hi, he⟩ := List.getElem_of_mem this
    have he' := List.getElem?_eq_some_iff.2 ⟨hi, he⟩
    exact ⟨i, (hS i).2 ⟨hi, r, hr, c, hc', he'⟩, he'⟩
  have hch' : ∀ t, Chosen (candidates M) S t → ∃ r < 9, ∃ c < 9, t = (r, c, f r c) := by
    rintro t ⟨i, hi, he⟩
    obtain ⟨-, r, hr, c, hc, h⟩ := (hS i).1 hi
    exact ⟨r, hr, c, hc, Option.some.inj (he.symm.trans h)⟩
  have hclue : ∀ r c, clue a r c ≤ 9 := by
    intro r c
    rw [clue]
    cases hg : a[9 * r + c]? with
    | none => exact Nat.zero_le _
    | some ch => exact digit_le (ha _ (List.mem_of_getElem? hg))
  rintro ⟨r0, c0, d0⟩ ht0 x hx
  obtain ⟨hr0, hc0, hd⟩ := mem_candidates.1 ht0
  have hd0 : 1 ≤ d0 ∧ d0 ≤ 9 := by
    rcases hd with ⟨-, h⟩ | ⟨h1, h2⟩
    · exact h
    · have := hclue r0 c0
      rw [hM r0 hr0 c0 hc0] at h1 h2
      omega
  rw [mem_keysOf] at hx
  rcases hx with rfl | rfl | rfl | rfl
  · refine ⟨⟨_, hch r0 hr0 c0 hc0, mem_keysOf.2 (Or.inl rfl)⟩, ?_⟩
    intro t t' h1 h2 h3 h4
    obtain ⟨r1, hr1, c1, hc1, rfl⟩ := hch' t h1
    obtain ⟨r2, hr2, c2, hc2, rfl⟩ := hch' t' h2
    simp only [mem_keysOf, Prod.mk.injEq, Char.reduceEq, false_and, and_false, or_false, true_and] at h3 h4
    obtain ⟨rfl, rfl⟩ := h3
    obtain ⟨rfl, rfl⟩ := h4
    rfl
  · obtain ⟨c, hc, he⟩ := surj_of_inj (hf.digit r0 hr0) (hf.row r0 hr0) hd0
    refine ⟨⟨_, hch r0 hr0 c hc, mem_keysOf.2 (Or.inr (Or.inl (by rw [he])))⟩, ?_⟩
    intro t t' h1 h2 h3 h4
    obtain ⟨r1, hr1, c1, hc1, rfl⟩ := hch' t h1
    obtain ⟨r2, hr2, c2, hc2, rfl⟩ := hch' t' h2
    simp only [mem_keysOf, Prod.mk.injEq, Char.reduceEq, false_and, and_false, or_false, false_or, true_and] at h3 h4
    obtain ⟨e1, rfl⟩ := h3
    obtain ⟨e2, rfl⟩ := h4
    rw [hf.row _ hr1 c1 hc1 c2 hc2 (e1.symm.trans e2)]
  · obtain ⟨r, hr, he⟩ := surj_of_inj (g := fun r => f r c0) (fun r hr => hf.digit r hr c0 hc0) (hf.col c0 hc0) hd0
    refine ⟨⟨_, hch r hr c0 hc0, mem_keysOf.2 (Or.inr (Or.inr (Or.inl (by rw [← he]))))⟩, ?_⟩
    intro t t' h1 h2 h3 h4
    obtain ⟨r1, hr1, c1, hc1, rfl⟩ := hch' t h1
    obtain ⟨r2, hr2, c2, hc2, rfl⟩ := hch' t' h2
    simp only [mem_keysOf, Prod.mk.injEq, Char.reduceEq, false_and, and_false, or_false, false_or, true_and] at h3 h4
    obtain ⟨e1, rfl⟩ := h3
    obtain ⟨e2, rfl⟩ := h4
    rw [hf.col _ hc1 r1 hr1 r2 hr2 (e1.symm.trans e2)]
  · obtain ⟨k, hk, he⟩ := surj_of_inj (g := fun k => f (3 * (r0 / 3) + k / 3) (3 * (c0 / 3) + k % 3))
      (fun k hk => hf.digit _ (by omega) _ (by omega)) (by
        intro k hk k' hk' h
        have := hf.box _ (by omega) _ (by omega) _ (by omega) _ (by omega) (by omega) (by omega) h
        omega) hd0
    refine ⟨⟨_, hch (3 * (r0 / 3) + k / 3) (by omega) (3 * (c0 / 3) + k % 3) (by omega),
      mem_keysOf.2 (Or.inr (Or.inr (Or.inr ?_)))⟩, ?_⟩
    · dsimp only at he ⊢
      rw [he]
      simp only [Prod.mk.injEq, true_and]
      omega
    intro t t' h1 h2 h3 h4
    obtain ⟨r1, hr1, c1, hc1, rfl⟩ := hch' t h1
    obtain ⟨r2, hr2, c2, hc2, rfl⟩ := hch' t' h2
    simp only [mem_keysOf, Prod.mk.injEq, Char.reduceEq, false_and, and_false, false_or, true_and] at h3 h4
    obtain ⟨e1, e2⟩ := h3
    obtain ⟨e3, e4⟩ := h4
    obtain ⟨rfl, rfl⟩ := hf.box r1 hr1 c1 hc1 r2 hr2 c2 hc2 (by omega) (by omega) (e1.symm.trans e3)
    rfl

/-- The end of `sudoku_dlx`, for the list of all the solutions of the exact cover problem. -/
def finish (M : Board) : List (List (List Key)) → Except PyErr (List Char)
  | [] => .error .stopIteration
  | sol :: _ =>
    match fillLoop (none, none, none) M sol with
    | .error e => .error e
    | .ok M => .ok (toStr M)

theorem sudokuDlx_eq {ord : Finset ℕ → List ℕ} {a : List Char} {M : Board} {R : List (List (List Key))}
    (h1 : parse a = .ok M) (h2 : algorithmx ord (ordK (((candidates M).map keysOf).foldl (· ∪ ·) ∅))
      (((candidates M).map keysOf).map ordK) = .ok R) : sudokuDlx ord ordK a = finish M R := by
  rw [sudokuDlx, h1]
  dsimp only
  rw [sudokuVectors_eq]
  dsimp only
  rw [h2]
  cases R <;> rfl

/-! ## C112 -/

/-- C112, `sudoku_dlx(a)` for a string of at most 81 digits (cells that are missing at the end are blank), whatever the
iteration order of sets: if the puzzle has a solution it returns a completed grid that obeys the rules and keeps all the
given digits, otherwise `next` raises StopIteration. -/
theorem C112_sudoku (ord : Finset ℕ → List ℕ) (hord : ∀ S, (ord S).Nodup ∧ ∀ x, x ∈ ord S ↔ x ∈ S)
    (ordK : Finset Key → List Key) (hK : ∀ S, (ordK S).Nodup ∧ ∀ x, x ∈ ordK S ↔ x ∈ S)
    (a : List Char) (ha : ∀ d ∈ a, IsDigit d) (hl : a.length ≤ 81) :
    ((∃ f, IsSudoku f ∧ Completes a f) → ∃ f, IsSudoku f ∧ Completes a f ∧
      sudokuDlx ord ordK a = .ok ((List.range 81).map (fun k => Nat.digitChar (f (k / 9) (k % 9))))) ∧
    ((¬ ∃ f, IsSudoku f ∧ Completes a f) → sudokuDlx ord ordK a = .error .stopIteration) := by
  obtain ⟨M, h1, h2, h3⟩ := parse_ok a ha hl
  have htarget : ∀ x, x ∈ ordK (((candidates M).map keysOf).foldl (· ∪ ·) ∅) ↔ ∃ t ∈ candidates M, x ∈ keysOf t := by
    intro x
    rw [(hK _).2, mem_foldl_union]
    simp only [Finset.notMem_empty, false_or, List.mem_map, exists_exists_and_eq_and]
  obtain ⟨L, h4, -, -, h7⟩ := C61_algorithmx ord hord (ordK (((candidates M).map keysOf).foldl (· ∪ ·) ∅))
    (((candidates M).map keysOf).map ordK)
    (by
      intro y hy
      obtain ⟨s, -, rfl⟩ := List.mem_map.1 hy
      exact (hK s).1)
    (by
      intro y hy k hk
      obtain ⟨s, hs, rfl⟩ := List.mem_map.1 hy
      obtain ⟨t, ht, rfl⟩ := List.mem_map.1 hs
      exact (htarget k).2 ⟨t, ht, ((hK _).2 _).1 hk⟩)
  have hcov : ∀ S : Finset ℕ, S ∈ L.map List.toFinset ↔ (∀ i ∈ S, i < (candidates M).length) ∧
      ∀ t0 ∈ candidates M, ∀ x ∈ keysOf t0, (∃ t, Chosen (candidates M) S t ∧ x ∈ keysOf t) ∧
      ∀ t t', Chosen (candidates M) S t → Chosen (candidates M) S t' → x ∈ keysOf t → x ∈ keysOf t' → t = t' := by
    intro S
    rw [h7]
    refine and_congr (forall_congr' fun i => forall_congr' fun hi => ?_) ?_
    · rw [List.length_map, List.length_map, and_iff_left_iff_imp]
      intro hil he
      have : ((candidates M)[i].1, 'O', (candidates M)[i].2.1) ∈ (((candidates M).map keysOf).map ordK).getD i [] :=
        (mem_rowAt _ i _).2 ⟨(candidates M)[i], List.getElem?_eq_getElem hil, ((hK _).2 _).2 (mem_keysOf.2 (Or.inl rfl))⟩
      rw [he] at this
      cases this
    · constructor
      · intro h t0 ht0 x hx
        exact (unique_row hK (nodup_candidates M) S x).1 (h x ((htarget x).2 ⟨t0, ht0, hx⟩))
      · intro h x hx
        obtain ⟨t0, ht0, hx'⟩ := (htarget x).1 hx
        exact (unique_row hK (nodup_candidates M) S x).2 (h t0 ht0 x hx')
  have hrun := sudokuDlx_eq h1 h4
  constructor
  · rintro ⟨f0, hf0, hc0⟩
    obtain ⟨S0, hS0⟩ := cover_of_grid ha h3 hf0 hc0
    have hmem := (hcov S0).2 hS0
    cases L with
    | nil => cases hmem
    | cons l L =>
      have hl := (hcov l.toFinset).1 (by rw [List.map_cons]; exact List.mem_cons_self)
      obtain ⟨f, hf, hfc, hch, hch'⟩ := grid_of_cover ha h3 l.toFinset hl.2
      refine ⟨f, hf, hfc, ?_⟩
      rw [hrun, List.map_cons, finish]
      have hrows : l.map (fun i => (((candidates M).map keysOf).map ordK).getD i []) =
          (l.map (fun i => (candidates M).getD i (0, 0, 0))).map (fun t => ordK (keysOf t)) := by
        refine Eq.trans (List.map_congr_left fun i hi => ?_) List.map_map.symm
        have hi' := hl.1 i (List.mem_toFinset.2 hi)
        rw [Function.comp_apply, List.getD_eq_getElem?_getD, List.getElem?_map, List.getElem?_map,
          List.getD_eq_getElem?_getD, List.getElem?_eq_getElem hi']
        rfl
      have hcho : ∀ t, t ∈ l.map (fun i => (candidates M).getD i (0, 0, 0)) ↔ Chosen (candidates M) l.toFinset t := by
        intro t
        rw [List.mem_map, Chosen]
        constructor
        · rintro ⟨i, hi, rfl⟩
          have hi' := hl.1 i (List.mem_toFinset.2 hi)
          refine ⟨i, List.mem_toFinset.2 hi, ?_⟩
          rw [List.getD_eq_getElem?_getD, List.getElem?_eq_getElem hi']
          rfl
        · rintro ⟨i, hi, he⟩
          refine ⟨i, List.mem_toFinset.1 hi, ?_⟩
          rw [List.getD_eq_getElem?_getD, he]
          rfl
      obtain ⟨M', h8, -, h9⟩ := fillLoop_spec hK (l.map (fun i => (candidates M).getD i (0, 0, 0))) f (none, none, none) M h2
        (fun t ht => hch' t ((hcho t).1 ht))
      rw [hrows, h8]
      dsimp only
      rw [toStr_eq (f := f)]
      · intro r hr c hc
        exact h9 r c (Or.inl ⟨_, (hcho _).2 (hch r hr c hc), rfl, rfl⟩)
      · intro r hr c hc
        exact Nat.lt_succ_of_le (hf.digit r hr c hc).2
  · intro hno
    rw [hrun]
    cases L with
    | nil => rfl
    | cons l L =>
      have hl := (hcov l.toFinset).1 (by rw [List.map_cons]; exact List.mem_cons_self)
      obtain ⟨f, hf, hfc, -⟩ := grid_of_cover ha h3 l.toFinset hl.2
      exact absurd ⟨f, hf, hfc⟩ hno

/-- C112: a character that is no digit among the first 82 raises ValueError, and a digit after 81 digits raises
IndexError. -/
theorem C112_errors (ord : Finset ℕ → List ℕ) (ordK : Finset Key → List Key) (pre : List Char) (d : Char)
    (post : List Char) (hpre : ∀ d ∈ pre, IsDigit d) (hl : pre.length ≤ 81) :
    (¬ IsDigit d → sudokuDlx ord ordK (pre ++ d :: post) = .error .valueError) ∧
    (IsDigit d → pre.length = 81 → sudokuDlx ord ordK (pre ++ d :: post) = .error .indexError) := by
  obtain ⟨h1, h2⟩ := parseLoop_error (pre ++ d :: post) 0 _ pre d post shaped_blank rfl hpre (by omega)
  rw [sudokuDlx, parse]
  refine ⟨fun h => ?_, fun h h' => ?_⟩
  · rw [h1 h]
  · rw [h2 h (by omega)]

/-! ## Examples -/

/-- A solved grid. -/
theorem sudoku_grid : IsSudoku (fun r c => (3 * r + r / 3 + c) % 9 + 1) := by
  refine ⟨?_, ?_, ?_, ?_⟩
  · intro r hr c hc
    omega
  · intro r hr c hc c' hc' h
    omega
  · intro c hc r hr r' hr' h
    interval_cases r <;> interval_cases r' <;> omega
  · intro r hr c hc r' hr' c' hc' h1 h2 h
    omega

/-- The two rows `123456789` and `456` are completed to a grid. -/
example : ∃ f, IsSudoku f ∧ f 0 4 = 5 ∧ f 1 2 = 6 ∧
    sudokuDlx Finset.toList Finset.toList "123456789456".toList =
      .ok ((List.range 81).map (fun k => Nat.digitChar (f (k / 9) (k % 9)))) := by
  have hord : ∀ S : Finset ℕ, S.toList.Nodup ∧ ∀ x, x ∈ S.toList ↔ x ∈ S := fun S => ⟨S.nodup_toList, fun x => Finset.mem_toList⟩
  have hK : ∀ S : Finset Key, S.toList.Nodup ∧ ∀ x, x ∈ S.toList ↔ x ∈ S := fun S => ⟨S.nodup_toList, fun x => Finset.mem_toList⟩
  have hd : ∀ d ∈ "123456789456".toList, IsDigit d := by
    unfold IsDigit
    decide
  obtain ⟨f, h1, h2, h3⟩ := (C112_sudoku Finset.toList hord Finset.toList hK "123456789456".toList hd (by decide)).1
    ⟨_, sudoku_grid, by unfold Completes; decide⟩
  exact ⟨f, h1, h2 0 (by decide) 4 (by decide) (by decide), h2 1 (by decide) 2 (by decide) (by decide), h3⟩

/-- A puzzle with the same digit twice in a row has no solution. -/
example : sudokuDlx Finset.toList Finset.toList "1000001".toList = .error .stopIteration := by
  have hord : ∀ S : Finset ℕ, S.toList.Nodup ∧ ∀ x, x ∈ S.toList ↔ x ∈ S := fun S => ⟨S.nodup_toList, fun x => Finset.mem_toList⟩
  have hK : ∀ S : Finset Key, S.toList.Nodup ∧ ∀ x, x ∈ S.toList ↔ x ∈ S := fun S => ⟨S.nodup_toList, fun x => Finset.mem_toList⟩
  have hd : ∀ d ∈ "1000001".toList, IsDigit d := by
    unfold IsDigit
    decide
  refine (C112_sudoku Finset.toList hord Finset.toList hK _ hd (by decide)).2 ?_
  rintro ⟨f, hf, hc⟩
  have h1 := hc 0 (by decide) 0 (by decide) (by decide)
  have h2 := hc 0 (by decide) 6 (by decide) (by decide)
  exact absurd (hf.row 0 (by decide) 0 (by decide) 6 (by decide) (h1.trans h2.symm)) (by decide)

end Rosemary.Props
