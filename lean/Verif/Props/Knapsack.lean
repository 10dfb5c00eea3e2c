import Verif.Model.Knapsack
import Mathlib.Tactic.Linarith
import Mathlib.Tactic.Ring
import Mathlib.Tactic.FieldSimp
import Mathlib.Data.List.Sublists
import Mathlib.Data.Rat.Cast.Order

/-!
# Properties of the knapsack solvers
-/

namespace Rosemary.Knapsack

/-- The total value of some items. -/
def val (s : List Item) : Int := (s.map (fun x => x.1)).sum

/-- The total weight of some items. -/
def wt (s : List Item) : Int := (s.map (fun x => x.2)).sum

@[simp] theorem val_nil : val [] = 0 := rfl
@[simp] theorem wt_nil : wt [] = 0 := rfl
@[simp] theorem val_cons (x : Item) (s : List Item) : val (x :: s) = x.1 + val s := rfl
@[simp] theorem wt_cons (x : Item) (s : List Item) : wt (x :: s) = x.2 + wt s := rfl
@[simp] theorem val_append (s t : List Item) : val (s ++ t) = val s + val t := by simp [val]
@[simp] theorem wt_append (s t : List Item) : wt (s ++ t) = wt s + wt t := by simp [wt]
theorem val_perm {s t : List Item} (h : s.Perm t) : val s = val t := (h.map _).sum_eq
theorem wt_perm {s t : List Item} (h : s.Perm t) : wt s = wt t := (h.map _).sum_eq

/-- `best` is a choice of items within the capacity, with its value, and no choice within the capacity is
better. -/
def Optimal (items : List Item) (capacity : Int) (best : Int × List Item) : Prop :=
  (∃ s, s.Sublist items ∧ best.2.Perm s) ∧ val best.2 = best.1 ∧ wt best.2 ≤ capacity ∧
    ∀ s, s.Sublist items → wt s ≤ capacity → val s ≤ best.1

theorem wt_nonneg {s : List Item} (h : ∀ x ∈ s, 0 ≤ x.2) : 0 ≤ wt s := by
  induction s with
  | nil => simp
  | cons x s ih =>
    rw [wt_cons]
    have := h x List.mem_cons_self
    have := ih (fun y hy => h y (List.mem_cons_of_mem _ hy))
    omega

theorem dfs_spec (items : List Item) (capacity : Int) (rest : List Item) (hw : ∀ x ∈ rest, 0 ≤ x.2) :
    ∀ (used : List Item) (best : Int × List Item),
      (∀ s, s.Sublist rest → (used ++ s).Sublist items) →
      (best.2.Sublist items ∧ val best.2 = best.1 ∧ wt best.2 ≤ capacity) →
      let r := dfs capacity rest (val used) (wt used) used best
      (r.2.Sublist items ∧ val r.2 = r.1 ∧ wt r.2 ≤ capacity) ∧ best.1 ≤ r.1 ∧
        ∀ s, s.Sublist rest → wt used + wt s ≤ capacity → val used + val s ≤ r.1 := by
  induction rest with
  | nil =>
    intro used best hused hb
    rw [dfs]
    by_cases h1 : wt used ≤ capacity
    · rw [if_pos h1]
      by_cases h2 : val used > best.1
      · rw [if_pos h2]
        refine ⟨⟨by simpa using hused [] List.Sublist.slnil, rfl, h1⟩, by simp only; omega, ?_⟩
        intro s hs _
        rw [List.sublist_nil.1 hs]; simp
      · rw [if_neg h2]
        refine ⟨hb, le_refl _, ?_⟩
        intro s hs _
        rw [List.sublist_nil.1 hs]; simp; omega
    · rw [if_neg h1]
      refine ⟨hb, le_refl _, ?_⟩
      intro s hs h
      rw [List.sublist_nil.1 hs] at h
      simp at h; omega
  | cons x rest ih =>
    obtain ⟨v, w⟩ := x
    intro used best hused hb
    rw [dfs]
    by_cases h1 : wt used ≤ capacity
    · rw [if_pos h1]
      have hw' : ∀ x ∈ rest, 0 ≤ x.2 := fun x hx => hw x (List.mem_cons_of_mem _ hx)
      have e1 : val used + v = val (used ++ [(v, w)]) := by simp
      have e2 : wt used + w = wt (used ++ [(v, w)]) := by simp
      rw [e1, e2]
      obtain ⟨a1, a2, a3⟩ := ih hw' (used ++ [(v, w)]) best (by
        intro s hs
        rw [List.append_assoc]
        exact hused _ (hs.cons_cons _)) hb
      dsimp only at a1 a2 a3 ⊢
      generalize dfs capacity rest (val (used ++ [(v, w)])) (wt (used ++ [(v, w)])) (used ++ [(v, w)]) best = b1 at *
      obtain ⟨c1, c2, c3⟩ := ih hw' used b1 (fun s hs => hused s (hs.cons _)) a1
      refine ⟨c1, le_trans a2 c2, ?_⟩
      intro s hs h
      rcases List.sublist_cons_iff.1 hs with hs | ⟨r, rfl, hr⟩
      · exact c3 s hs h
      · have := a3 r hr (by simp at h ⊢; omega)
        simp at this ⊢
        omega
    · rw [if_neg h1]
      refine ⟨hb, le_refl _, ?_⟩
      intro s hs h
      have := wt_nonneg (s := s) (fun x hx => hw x (hs.subset hx))
      omega

/-! ## Dynamic programming -/

/-- The best value of a choice among `R` of weight at most `k`. -/
def IsMax (R : List Item) (k : Int) (m : Int) : Prop :=
  (∃ s, s.Sublist R ∧ wt s ≤ k ∧ val s = m) ∧ ∀ s, s.Sublist R → wt s ≤ k → val s ≤ m

theorem dpUsed_append (R : List Item) (keep : List (List Bool)) (w : Int) (used : List Item) :
    dpUsed R keep w used = used ++ dpUsed R keep w [] := by
  induction R generalizing keep w used with
  | nil => simp [dpUsed]
  | cons x R ih =>
    cases keep with
    | nil => simp [dpUsed]
    | cons f keep =>
      obtain ⟨v, y⟩ := x
      rw [dpUsed, dpUsed]
      split
      · rw [ih, ih keep (w - y) ([] ++ [(v, y)])]; simp
      · rw [ih]

/-- The invariant of the table: `R` are the items processed so far, the last one first. -/
def DpInv (rows : Nat) (R : List Item) (col : List Int) (keep : List (List Bool)) : Prop :=
  col.length = rows ∧ (∀ x ∈ R, 0 ≤ x.2) ∧ ∀ k : Nat, k < rows →
    (dpUsed R keep k []).Sublist R ∧ wt (dpUsed R keep k []) ≤ k ∧ val (dpUsed R keep k []) = col.getD k 0 ∧
      ∀ s, s.Sublist R → wt s ≤ k → val s ≤ col.getD k 0

theorem dpEntry_ok {col : List Int} {v w : Int} {k rows : Nat} (hl : col.length = rows) (hk : k < rows) (hw : 0 ≤ w) :
    dpEntry col v w k = .ok (if (k : Int) < w then (col.getD k 0, false)
      else if col.getD k 0 > v + col.getD (k - w.toNat) 0 then (col.getD k 0, false)
      else (v + col.getD (k - w.toNat) 0, true)) := by
  have g : ∀ i, i < rows → col[i]? = some (col.getD i 0) := by
    intro i hi
    rw [List.getElem?_eq_getElem (by omega), List.getD_eq_getElem?_getD, List.getElem?_eq_getElem (by omega)]
    rfl
  rw [dpEntry, g k hk]
  dsimp only
  by_cases h : (k : Int) < w
  · rw [if_pos h, if_pos h]
  · rw [if_neg h, if_neg h, show ((k : Int) - w).toNat = k - w.toNat by omega, g _ (by omega)]
    dsimp only
    split_ifs <;> rfl

theorem mapM_ok {α β : Type} (f : α → Except PyErr β) (g : α → β) (l : List α) (h : ∀ x ∈ l, f x = .ok (g x)) :
    l.mapM f = .ok (l.map g) := by
  induction l with
  | nil => rfl
  | cons x l ih =>
    rw [List.mapM_cons, h x List.mem_cons_self, ih (fun y hy => h y (List.mem_cons_of_mem _ hy))]
    rfl

theorem dpLoop_spec (rows : Nat) (items : List Item) (hw : ∀ x ∈ items, 0 ≤ x.2) :
    ∀ (R : List Item) (col : List Int) (keep : List (List Bool)), DpInv rows R col keep →
      ∃ col' keep', dpLoop rows items col keep = .ok (col', keep') ∧ DpInv rows (items.reverse ++ R) col' keep' := by
  induction items with
  | nil => intro R col keep h; exact ⟨col, keep, rfl, by simpa using h⟩
  | cons x items ih =>
    obtain ⟨v, w⟩ := x
    intro R col keep h
    have hw0 : 0 ≤ w := hw (v, w) List.mem_cons_self
    rw [dpLoop, mapM_ok _ _ _ (fun k hk => dpEntry_ok h.1 (List.mem_range.1 hk) hw0)]
    dsimp only
    rw [List.map_map, List.map_map, List.reverse_cons, List.append_assoc]
    refine ih (fun x hx => hw x (List.mem_cons_of_mem _ hx)) ((v, w) :: R) _ _ ⟨by simp, ?_, ?_⟩
    · intro x hx
      rcases List.mem_cons.1 hx with rfl | hx
      · exact hw0
      · exact h.2.1 x hx
    intro k hk
    have hget : ∀ {β : Type} (f : Nat → β) (d : β), ((List.range rows).map f).getD k d = f k := by
      intro β f d
      rw [List.getD_eq_getElem?_getD, List.getElem?_map, List.getElem?_range hk]
      rfl
    rw [dpUsed, Int.toNat_natCast, hget, hget]
    simp only [Function.comp]
    obtain ⟨g1, g2, g3, g4⟩ := h.2.2 k hk
    by_cases hkw : (k : Int) < w
    · simp only [if_pos hkw, Bool.false_eq_true, and_false, if_false]
      refine ⟨g1.cons _, g2, g3, ?_⟩
      intro s hs hsk
      rcases List.sublist_cons_iff.1 hs with hs | ⟨r, rfl, hr⟩
      · exact g4 s hs hsk
      · have := wt_nonneg (s := r) (fun x hx => h.2.1 x (hr.subset hx))
        rw [wt_cons] at hsk
        simp only at hsk
        omega
    · simp only [if_neg hkw]
      obtain ⟨f1, f2, f3, f4⟩ := h.2.2 (k - w.toNat) (by omega)
      have hc : ((k - w.toNat : Nat) : Int) = k - w := by omega
      rw [hc] at f1 f2 f3 f4
      by_cases hcmp : col.getD k 0 > v + col.getD (k - w.toNat) 0
      · simp only [if_pos hcmp, Bool.false_eq_true, and_false, if_false]
        refine ⟨g1.cons _, g2, g3, ?_⟩
        intro s hs hsk
        rcases List.sublist_cons_iff.1 hs with hs | ⟨r, rfl, hr⟩
        · exact g4 s hs hsk
        · rw [wt_cons] at hsk
          have := f4 r hr (by simp only at hsk; omega)
          rw [val_cons]
          simp only
          omega
      · simp only [if_neg hcmp, Int.natCast_nonneg, and_self, if_true]
        rw [dpUsed_append]
        refine ⟨f1.cons_cons _, ?_, ?_, ?_⟩
        · rw [wt_append]; simp; omega
        · rw [val_append, f3]; simp
        · intro s hs hsk
          rcases List.sublist_cons_iff.1 hs with hs | ⟨r, rfl, hr⟩
          · have := g4 s hs hsk
            omega
          · rw [wt_cons] at hsk
            have := f4 r hr (by simp only at hsk; omega)
            rw [val_cons]
            simp only
            omega

/-! ## Branch and bound -/

/-- The items of some entries of `unit_cost`. -/
def strip (l : List Unit4) : List Item := l.map (fun t => (t.v, t.w))

/-- The items of a list of used entries. -/
def stripU (l : List Used) : List Item := l.map (fun t => (t.1, t.2.1))

theorem bnb_sound (fl : FloatOps) (items : List Item) (capacity : Int) (rest : List Unit4) :
    ∀ (used : List Used) (best : Int × List Used),
      (∀ s, s.Sublist (strip rest) → (stripU used ++ s).Sublist items) →
      ((stripU best.2).Sublist items ∧ val (stripU best.2) = best.1 ∧ wt (stripU best.2) ≤ capacity) →
      let r := bnb fl capacity rest (val (stripU used)) (wt (stripU used)) used best
      ((stripU r.2).Sublist items ∧ val (stripU r.2) = r.1 ∧ wt (stripU r.2) ≤ capacity) ∧ best.1 ≤ r.1 := by
  have hup : ∀ (used : List Used) (best : Int × List Used), wt (stripU used) ≤ capacity →
      (stripU used).Sublist items →
      ((stripU best.2).Sublist items ∧ val (stripU best.2) = best.1 ∧ wt (stripU best.2) ≤ capacity) →
      let b := if val (stripU used) > best.1 then (val (stripU used), used) else best
      ((stripU b.2).Sublist items ∧ val (stripU b.2) = b.1 ∧ wt (stripU b.2) ≤ capacity) ∧ best.1 ≤ b.1 := by
    intro used best h1 h2 h3
    dsimp only
    split_ifs with h
    · exact ⟨⟨h2, rfl, h1⟩, by simp only; omega⟩
    · exact ⟨h3, le_refl _⟩
  induction rest with
  | nil =>
    intro used best hused hb
    rw [bnb]
    by_cases h1 : wt (stripU used) ≤ capacity
    · rw [if_pos h1]
      exact hup used best h1 (by simpa using hused [] (List.nil_sublist _)) hb
    · rw [if_neg h1]; exact ⟨hb, le_refl _⟩
  | cons t rest ih =>
    intro used best hused hb
    rw [bnb]
    by_cases h1 : wt (stripU used) ≤ capacity
    · rw [if_pos h1]
      have hu := hup used best h1 (by simpa using hused [] (List.nil_sublist _)) hb
      dsimp only at hu ⊢
      generalize (if val (stripU used) > best.1 then (val (stripU used), used) else best) = b0 at hu ⊢
      obtain ⟨hu1, hu2⟩ := hu
      have hlater : ∀ b, ((stripU b.2).Sublist items ∧ val (stripU b.2) = b.1 ∧ wt (stripU b.2) ≤ capacity) →
          let r := bnb fl capacity rest (val (stripU used)) (wt (stripU used)) used b
          ((stripU r.2).Sublist items ∧ val (stripU r.2) = r.1 ∧ wt (stripU r.2) ≤ capacity) ∧ b.1 ≤ r.1 :=
        fun b hb => ih used b (fun s hs => hused s (hs.cons _)) hb
      dsimp only at hlater
      by_cases h2 : wt (stripU used) + t.w ≤ capacity
      · rw [if_pos h2]
        split_ifs with h3 h4
        · exact ⟨hu1, hu2⟩
        all_goals
          have e1 : val (stripU used) + t.v = val (stripU (used ++ [(t.v, t.w, t.i)])) := by simp [stripU]
          have e2 : wt (stripU used) + t.w = wt (stripU (used ++ [(t.v, t.w, t.i)])) := by simp [stripU]
          rw [e1, e2]
          have a := ih (used ++ [(t.v, t.w, t.i)]) b0 (by
            intro s hs
            rw [show stripU (used ++ [(t.v, t.w, t.i)]) = stripU used ++ [(t.v, t.w)] by simp [stripU],
              List.append_assoc]
            exact hused _ (hs.cons_cons _)) hu1
          dsimp only at a
        · exact ⟨a.1, le_trans hu2 a.2⟩
        · have c := hlater _ a.1
          exact ⟨c.1, le_trans hu2 (le_trans a.2 c.2)⟩
      · rw [if_neg h2]
        split_ifs with h3
        · exact ⟨hu1, hu2⟩
        · have c := hlater _ hu1
          exact ⟨c.1, le_trans hu2 c.2⟩
    · rw [if_neg h1]; exact ⟨hb, le_refl _⟩

/-- What the bound has to satisfy for the search to be exact, as long as the values sum up to at most `M` and the
capacity is at most `C`. -/
def BoundOk (fl : FloatOps) (M C : Int) (units : List Unit4) : Prop :=
  ∀ rest, rest <:+ units → ∀ (value target : Int), 0 ≤ value → value + val (strip rest) ≤ M → 0 ≤ target →
    target ≤ C → ∀ (b : Int),
    fl.add value (optimisticBound fl rest target) ≤ b → ∀ s, s.Sublist (strip rest) → wt s ≤ target → value + val s ≤ b

theorem bnb_complete (fl : FloatOps) (M capacity : Int) (rest : List Unit4) (hw : ∀ t ∈ rest, 0 ≤ t.w ∧ 0 ≤ t.v)
    (hB : BoundOk fl M capacity rest) :
    ∀ (used : List Used) (best : Int × List Used), (∀ x ∈ used, 0 ≤ x.1 ∧ 0 ≤ x.2.1) →
      val (stripU used) + val (strip rest) ≤ M →
      let r := bnb fl capacity rest (val (stripU used)) (wt (stripU used)) used best
      best.1 ≤ r.1 ∧ ∀ s, s.Sublist (strip rest) → wt (stripU used) + wt s ≤ capacity →
        val (stripU used) + val s ≤ r.1 := by
  have hup : ∀ (used : List Used) (best : Int × List Used),
      let b := if val (stripU used) > best.1 then (val (stripU used), used) else best
      best.1 ≤ b.1 ∧ val (stripU used) ≤ b.1 := by
    intro used best
    dsimp only
    split_ifs with h
    · simp only; omega
    · omega
  have hnn : ∀ used : List Used, (∀ x ∈ used, 0 ≤ x.1 ∧ 0 ≤ x.2.1) → 0 ≤ val (stripU used) ∧ 0 ≤ wt (stripU used) := by
    intro used
    induction used with
    | nil => intro _; simp [stripU]
    | cons x used ih =>
      intro h
      have h1 := ih (fun y hy => h y (List.mem_cons_of_mem _ hy))
      have h2 := h x List.mem_cons_self
      simp only [stripU, List.map_cons, val_cons, wt_cons] at h1 ⊢
      omega
  induction rest with
  | nil =>
    intro used best _ _
    rw [bnb]
    by_cases h1 : wt (stripU used) ≤ capacity
    · rw [if_pos h1]
      obtain ⟨u1, u2⟩ := hup used best
      refine ⟨u1, ?_⟩
      intro s hs _
      rw [show s = [] by simpa [strip] using hs, val_nil, Int.add_zero]
      exact u2
    · rw [if_neg h1]
      refine ⟨le_refl _, ?_⟩
      intro s hs h
      rw [show s = [] by simpa [strip] using hs, wt_nil] at h
      omega
  | cons t rest ih =>
    intro used best hused hM
    rw [bnb]
    by_cases h1 : wt (stripU used) ≤ capacity
    · rw [if_pos h1]
      have hu := hup used best
      obtain ⟨hn1, hn2⟩ := hnn used hused
      have hM1 : val (stripU used) + val (strip rest) ≤ M := by
        have := (hw t List.mem_cons_self).2
        simp only [strip, List.map_cons, val_cons] at hM ⊢
        omega
      have hM2 : val (stripU (used ++ [(t.v, t.w, t.i)])) + val (strip rest) ≤ M := by
        simp only [strip, stripU, List.map_cons, val_cons, List.map_append, List.map_nil, val_append, val_nil] at hM ⊢
        omega
      have hused2 : ∀ x ∈ used ++ [(t.v, t.w, t.i)], 0 ≤ x.1 ∧ 0 ≤ x.2.1 := by
        intro x hx
        rcases List.mem_append.1 hx with hx | hx
        · exact hused x hx
        · rw [List.mem_singleton.1 hx]
          exact (hw t List.mem_cons_self).symm
      dsimp only at hu ⊢
      generalize (if val (stripU used) > best.1 then (val (stripU used), used) else best) = b0 at hu ⊢
      obtain ⟨hu1, hu2⟩ := hu
      have hbound := hB (t :: rest) List.suffix_rfl (val (stripU used)) (capacity - wt (stripU used)) hn1 hM (by omega)
        (by omega)
      generalize fl.add (val (stripU used)) (optimisticBound fl (t :: rest) (capacity - wt (stripU used))) = bd at hbound ⊢
      have hcut : ∀ b : Int, bd ≤ b → ∀ s, s.Sublist (strip (t :: rest)) → wt (stripU used) + wt s ≤ capacity →
          val (stripU used) + val s ≤ b := fun b hb s hs hsw => hbound b hb s hs (by omega)
      have ih' := ih (fun t ht => hw t (List.mem_cons_of_mem _ ht))
        (fun r hr => hB r (hr.trans (List.suffix_cons _ _)))
      have htw := (hw t List.mem_cons_self).1
      by_cases h2 : wt (stripU used) + t.w ≤ capacity
      · rw [if_pos h2]
        split_ifs with h3 h4
        · exact ⟨hu1, hcut _ h3⟩
        · have e1 : val (stripU used) + t.v = val (stripU (used ++ [(t.v, t.w, t.i)])) := by simp [stripU]
          have e2 : wt (stripU used) + t.w = wt (stripU (used ++ [(t.v, t.w, t.i)])) := by simp [stripU]
          rw [e1, e2] at h4 ⊢
          have a := ih' (used ++ [(t.v, t.w, t.i)]) b0 hused2 hM2
          dsimp only at a
          exact ⟨le_trans hu1 a.1, hcut _ h4⟩
        · have e1 : val (stripU used) + t.v = val (stripU (used ++ [(t.v, t.w, t.i)])) := by simp [stripU]
          have e2 : wt (stripU used) + t.w = wt (stripU (used ++ [(t.v, t.w, t.i)])) := by simp [stripU]
          have a := ih' (used ++ [(t.v, t.w, t.i)]) b0 hused2 hM2
          dsimp only at a
          rw [← e1, ← e2] at a
          generalize bnb fl capacity rest (val (stripU used) + t.v) (wt (stripU used) + t.w)
            (used ++ [(t.v, t.w, t.i)]) b0 = b1 at a ⊢
          have c := ih' used b1 hused hM1
          dsimp only at c
          refine ⟨le_trans hu1 (le_trans a.1 c.1), ?_⟩
          intro s hs hsw
          rcases List.sublist_cons_iff.1 hs with hs | ⟨r, rfl, hr⟩
          · exact c.2 s hs hsw
          · have := a.2 r hr (by simp only [wt_cons] at hsw; omega)
            have := c.1
            simp only [val_cons]
            omega
      · rw [if_neg h2]
        split_ifs with h3
        · exact ⟨hu1, hcut _ h3⟩
        · have c := ih' used b0 hused hM1
          dsimp only at c
          refine ⟨le_trans hu1 c.1, ?_⟩
          intro s hs hsw
          rcases List.sublist_cons_iff.1 hs with hs | ⟨r, rfl, hr⟩
          · exact c.2 s hs hsw
          · have := wt_nonneg (s := r) (fun x hx => by
              obtain ⟨t', ht', rfl⟩ := List.mem_map.1 (hr.subset hx)
              exact (hw t' (List.mem_cons_of_mem _ ht')).1)
            simp only [wt_cons] at hsw
            omega
    · rw [if_neg h1]
      refine ⟨le_refl _, ?_⟩
      intro s hs h
      have := wt_nonneg (s := s) (fun x hx => by
        obtain ⟨t', ht', rfl⟩ := List.mem_map.1 (hs.subset hx)
        exact (hw t' ht').1)
      omega

/-- The fractional bound, as a recursion on what is left. -/
def greedy : List Unit4 → ℚ → ℚ → ℚ
  | [], t, u => u * t
  | x :: rest, t, _ => if (x.w : ℚ) > t then x.u * t else x.v + greedy rest (t - x.w) x.u

theorem boundLoop_eq (target : Int) (rest : List Unit4) (value weight : Int) (u : ℚ) :
    boundLoop .exact target rest value weight u = value + greedy rest (target - weight) u := by
  induction rest generalizing value weight u with
  | nil => rw [boundLoop, greedy, FloatOps.exact]; push_cast; ring
  | cons x rest ih =>
    rw [boundLoop, greedy]
    by_cases h : weight + x.w > target
    · have h' : (x.w : ℚ) > target - weight := by
        have : ((weight + x.w : Int) : ℚ) > target := by exact_mod_cast h
        push_cast at this
        linarith
      rw [if_pos h, if_pos h', FloatOps.exact]; push_cast; ring
    · have h' : ¬ (x.w : ℚ) > target - weight := by
        have : ((weight + x.w : Int) : ℚ) ≤ target := by exact_mod_cast not_lt.1 h
        push_cast at this
        linarith
      rw [if_neg h, if_neg h', ih]
      push_cast
      rw [show (target : ℚ) - (weight + x.w) = target - weight - x.w by ring]
      ring

theorem greedy_ge (rest : List Unit4) (hpos : ∀ x ∈ rest, 0 < x.w ∧ 0 ≤ x.v ∧ x.u = (x.v : ℚ) / x.w)
    (hsort : rest.Pairwise (fun a b => b.u ≤ a.u)) :
    ∀ (s : List Item), s.Sublist (strip rest) → ∀ (t U : ℚ), 0 ≤ t → 0 ≤ U → (∀ x ∈ rest, x.u ≤ U) →
      ∀ u, 0 ≤ u → ((val s : Int) : ℚ) ≤ greedy rest t u + U * max 0 (((wt s : Int) : ℚ) - t) := by
  induction rest with
  | nil =>
    intro s hs t U ht hU _ u hu
    rw [show s = [] by simpa [strip] using hs, greedy]
    have h1 := mul_nonneg hu ht
    have h2 := mul_nonneg hU (le_max_left 0 (((wt [] : Int) : ℚ) - t))
    simp only [val_nil, Int.cast_zero]
    linarith
  | cons x rest ih =>
    intro s hs t U ht hU hxU u hu
    obtain ⟨hw, hv, hxu⟩ := hpos x List.mem_cons_self
    obtain ⟨hs1, hs2⟩ := List.pairwise_cons.1 hsort
    have hwq : (0 : ℚ) < x.w := by exact_mod_cast hw
    have hvq : (0 : ℚ) ≤ x.v := by exact_mod_cast hv
    have hxu0 : 0 ≤ x.u := by rw [hxu]; exact div_nonneg hvq hwq.le
    have hxuw : x.u * x.w = x.v := by rw [hxu]; field_simp
    have hxU' := hxU x List.mem_cons_self
    have hval : ∀ l : List Unit4, (∀ y ∈ l, 0 < y.w ∧ 0 ≤ y.v ∧ y.u = (y.v : ℚ) / y.w) → (∀ y ∈ l, y.u ≤ x.u) →
        ∀ s : List Item, s.Sublist (strip l) → ((val s : Int) : ℚ) ≤ x.u * ((wt s : Int) : ℚ) := by
      intro l hl hle s hs
      induction s with
      | nil => simp
      | cons y s ihs =>
        obtain ⟨z, hz, hzy⟩ := List.mem_map.1 (hs.subset List.mem_cons_self)
        have h1 := ihs ((List.sublist_cons_self y s).trans hs)
        obtain ⟨z1, z2, z3⟩ := hl z hz
        have z4 := hle z hz
        have z1q : (0 : ℚ) < z.w := by exact_mod_cast z1
        rw [z3, div_le_iff₀ z1q] at z4
        rw [val_cons, wt_cons, ← hzy]
        push_cast
        linarith
    have hall : ∀ y ∈ x :: rest, y.u ≤ x.u := by
      intro y hy
      rcases List.mem_cons.1 hy with rfl | hy
      · exact le_refl _
      · exact hs1 y hy
    rw [greedy]
    by_cases h : (x.w : ℚ) > t
    · rw [if_pos h]
      have h1 := hval (x :: rest) hpos hall s hs
      have h2 : x.u * (((wt s : Int) : ℚ) - t) ≤ U * max 0 (((wt s : Int) : ℚ) - t) :=
        (mul_le_mul_of_nonneg_left (le_max_right 0 _) hxu0).trans
          (mul_le_mul_of_nonneg_right hxU' (le_max_left 0 _))
      linarith
    · rw [if_neg h]
      rw [not_lt] at h
      have ih' := ih (fun y hy => hpos y (List.mem_cons_of_mem _ hy)) hs2
      rcases List.sublist_cons_iff.1 hs with hs | ⟨r, rfl, hr⟩
      · have h1 := ih' s hs (t - x.w) x.u (by linarith) hxu0 hs1 x.u hxu0
        have h2 : max 0 (((wt s : Int) : ℚ) - (t - x.w)) ≤ max 0 (((wt s : Int) : ℚ) - t) + x.w := by
          rw [max_le_iff]
          constructor
          · have := le_max_left 0 (((wt s : Int) : ℚ) - t); linarith
          · have := le_max_right 0 (((wt s : Int) : ℚ) - t); linarith
        have h3 := mul_le_mul_of_nonneg_left h2 hxu0
        have h4 := mul_le_mul_of_nonneg_right hxU' (le_max_left 0 (((wt s : Int) : ℚ) - t))
        nlinarith
      · have h1 := ih' r hr (t - x.w) U (by linarith) hU (fun y hy => hxU y (List.mem_cons_of_mem _ hy)) x.u hxu0
        rw [val_cons, wt_cons]
        simp only
        push_cast
        rw [show (x.w : ℚ) + ((wt r : Int) : ℚ) - t = ((wt r : Int) : ℚ) - (t - x.w) by ring]
        linarith

theorem boundOk_exact (units : List Unit4) (hpos : ∀ x ∈ units, 0 < x.w ∧ 0 ≤ x.v ∧ x.u = (x.v : ℚ) / x.w)
    (hsort : units.Pairwise (fun a b => b.u ≤ a.u)) (M C : Int) : BoundOk .exact M C units := by
  intro rest hrest value target _ _ ht _ b hb s hs hsw
  have hpos' := fun x hx => hpos x (hrest.subset hx)
  have hsort' := hsort.sublist hrest.sublist
  have key : ((val s : Int) : ℚ) ≤ optimisticBound .exact rest target := by
    rw [optimisticBound]
    by_cases h : rest = []
    · subst h
      rw [show s = [] by simpa [strip] using hs]; simp
    · rw [if_neg h, boundLoop_eq]
      obtain ⟨x, rest', rfl⟩ := List.exists_cons_of_ne_nil h
      have htq : (0 : ℚ) ≤ target := by exact_mod_cast ht
      obtain ⟨p1, p2, p3⟩ := hpos' x List.mem_cons_self
      have p1q : (0 : ℚ) < x.w := by exact_mod_cast p1
      have p2q : (0 : ℚ) ≤ x.v := by exact_mod_cast p2
      have := greedy_ge (x :: rest') hpos' hsort' s hs target x.u htq (by rw [p3]; exact div_nonneg p2q p1q.le) (by
        intro y hy
        rcases List.mem_cons.1 hy with rfl | hy
        · exact le_refl _
        · exact (List.pairwise_cons.1 hsort').1 y hy) 0 (le_refl _)
      have hm : max 0 (((wt s : Int) : ℚ) - target) = 0 := by
        rw [max_eq_left]
        have : ((wt s : Int) : ℚ) ≤ target := by exact_mod_cast hsw
        linarith
      rw [hm] at this
      simpa using this
  have h2 : ((value + val s : Int) : ℚ) ≤ b := by
    rw [FloatOps.exact] at hb
    simp only at hb
    push_cast
    rw [← FloatOps.exact] at hb
    linarith
  exact_mod_cast h2

theorem unitCosts_spec (fl : FloatOps) (items : List Item) (hw : ∀ x ∈ items, x.2 ≠ 0) (i : Nat) :
    ∃ l, unitCosts fl i items = .ok l ∧ strip l = items ∧ ∀ t ∈ l, t.u = fl.div t.v t.w := by
  induction items generalizing i with
  | nil => exact ⟨[], rfl, rfl, by simp⟩
  | cons x items ih =>
    obtain ⟨v, w⟩ := x
    obtain ⟨l, h1, h2, h3⟩ := ih (fun x hx => hw x (List.mem_cons_of_mem _ hx)) (i + 1)
    rw [unitCosts, if_neg (hw (v, w) List.mem_cons_self), h1]
    refine ⟨_, rfl, by simp [strip] at h2 ⊢; exact h2, ?_⟩
    intro t ht
    rcases List.mem_cons.1 ht with rfl | ht
    · rfl
    · exact h3 t ht

theorem unitCosts_zero (fl : FloatOps) (items : List Item) (hw : ∃ x ∈ items, x.2 = 0) (i : Nat) :
    unitCosts fl i items = .error .zeroDivisionError := by
  induction items generalizing i with
  | nil => simp at hw
  | cons x items ih =>
    obtain ⟨v, w⟩ := x
    rw [unitCosts]
    by_cases h : w = 0
    · rw [if_pos h]
    · rw [if_neg h, ih]
      obtain ⟨y, hy, h0⟩ := hw
      rcases List.mem_cons.1 hy with rfl | hy
      · exact absurd h0 h
      · exact ⟨y, hy, h0⟩

/-! ## Annealing -/

/-- The chosen items. -/
def chosen (items : List Item) (X : List Bool) : List Item := ((items.zip X).filter (fun p => p.2)).map (fun p => p.1)

theorem chosen_sublist (items : List Item) (X : List Bool) : (chosen items X).Sublist items := by
  induction items generalizing X with
  | nil => exact List.Sublist.slnil
  | cons x items ih =>
    cases X with
    | nil => exact List.nil_sublist _
    | cons b X =>
      cases b
      · exact (by simpa [chosen] using ih X : (chosen items X).Sublist items).cons x
      · exact (by simpa [chosen] using ih X : (chosen items X).Sublist items).cons_cons x

theorem annealValue_eq (items : List Item) (X : List Bool) : annealValue items X = val (chosen items X) := by
  induction items generalizing X with
  | nil => rfl
  | cons x items ih =>
    cases X with
    | nil => rfl
    | cons b X =>
      have := ih X
      cases b <;> simp_all [annealValue, chosen]

theorem wt_chosen_set (items : List Item) (X : List Bool) (hl : X.length = items.length) (j : Nat)
    (hj : j < items.length) (b : Bool) :
    wt (chosen items (X.set j b)) = wt (chosen items X) - (if X.getD j false then (items.getD j (0, 0)).2 else 0) +
      (if b then (items.getD j (0, 0)).2 else 0) := by
  induction items generalizing X j with
  | nil => simp at hj
  | cons x items ih =>
    cases X with
    | nil => simp at hl
    | cons c X =>
      cases j with
      | zero => cases b <;> cases c <;> simp [chosen, Int.add_comm]
      | succ j =>
        have := ih X (by simpa using hl) j (by simpa using hj)
        cases c <;> simp [chosen] at this ⊢ <;> omega

/-- The invariant of the annealing loop. -/
def AnnealInv (items : List Item) (capacity : Int) (s : Anneal) : Prop :=
  s.current.length = items.length ∧ s.weight = wt (chosen items s.current) ∧ s.weight ≤ capacity ∧
    s.bestItems.length = items.length ∧ s.best = val (chosen items s.bestItems) ∧
    wt (chosen items s.bestItems) ≤ capacity ∧ 0 ≤ s.best

theorem annealStep_inv (items : List Item) (capacity : Int) (hw : ∀ x ∈ items, 0 ≤ x.2) (s : Anneal) (j : Nat)
    (hj : j < items.length) (accept : Bool) (h : AnnealInv items capacity s) :
    AnnealInv items capacity (annealStep items capacity s j accept) ∧
      s.best ≤ (annealStep items capacity s j accept).best := by
  obtain ⟨h1, h2, h3, h4, h5, h6, h7⟩ := h
  have hwj : 0 ≤ (items.getD j (0, 0)).2 := by
    rw [List.getD_eq_getElem?_getD, List.getElem?_eq_getElem hj]
    exact hw _ (List.getElem_mem hj)
  have hset := wt_chosen_set items s.current h1 j hj
  rw [annealStep]
  generalize (items.getD j (0, 0)).2 = w at *
  cases hc : s.current.getD j false with
  | true =>
    simp only [hc, Bool.not_true, Bool.false_and, Bool.false_eq_true, if_false, if_true] at hset ⊢
    cases accept with
    | true =>
      have := hset false
      simp only [Bool.false_eq_true, if_false] at this
      exact ⟨⟨by simpa using h1, by simp only [if_true]; omega, by simp only [if_true]; omega, h4, h5, h6, h7⟩, le_refl _⟩
    | false => exact ⟨⟨h1, h2, h3, h4, h5, h6, h7⟩, le_refl _⟩
  | false =>
    have hs := hset true
    simp only [hc, Bool.not_false, Bool.true_and, Bool.false_eq_true, if_false, if_true, decide_eq_true_eq] at hs ⊢
    by_cases hcap : s.weight + w > capacity
    · rw [if_pos hcap]; exact ⟨⟨h1, h2, h3, h4, h5, h6, h7⟩, le_refl _⟩
    · rw [if_neg hcap]
      by_cases hb : annealValue items (s.current.set j true) > s.best
      · rw [if_pos hb]
        exact ⟨⟨by simpa using h1, by simp only; omega, by simp only; omega, by simpa using h1,
          annealValue_eq _ _, by simp only; omega, by simp only; omega⟩, by simp only; omega⟩
      · rw [if_neg hb]
        exact ⟨⟨by simpa using h1, by simp only; omega, by simp only; omega, h4, h5, h6, h7⟩, le_refl _⟩

theorem chosen_none (items : List Item) : chosen items (List.replicate items.length false) = [] := by
  induction items with
  | nil => rfl
  | cons x items ih => simpa [chosen, List.replicate_succ] using ih

theorem itemLe_trans (a b c : Item) (h1 : itemLe a b) (h2 : itemLe b c) : itemLe a c := by
  simp only [itemLe, Bool.or_eq_true, Bool.and_eq_true, decide_eq_true_eq, beq_iff_eq] at *
  omega

theorem itemLe_total (a b : Item) : (itemLe a b || itemLe b a) = true := by
  simp only [itemLe, Bool.or_eq_true, Bool.and_eq_true, decide_eq_true_eq, beq_iff_eq]
  omega

theorem ge_u {a b : Unit4} (h : a.ge b) : b.u ≤ a.u := by
  simp only [Unit4.ge, Bool.or_eq_true, Bool.and_eq_true, decide_eq_true_eq, beq_iff_eq] at h
  rcases h with h | h
  · exact h.le
  · exact h.1.le

theorem ge_trans (a b c : Unit4) (h1 : a.ge b) (h2 : b.ge c) : a.ge c := by
  simp only [Unit4.ge, Bool.or_eq_true, Bool.and_eq_true, decide_eq_true_eq, beq_iff_eq] at *
  rcases h1 with h1 | ⟨h1, h1'⟩ <;> rcases h2 with h2 | ⟨h2, h2'⟩
  · exact Or.inl (h2.trans h1)
  · exact Or.inl (h2 ▸ h1)
  · exact Or.inl (h1 ▸ h2)
  · exact Or.inr ⟨h2.trans h1, by omega⟩

theorem ge_total (a b : Unit4) : (a.ge b || b.ge a) = true := by
  simp only [Unit4.ge, Bool.or_eq_true, Bool.and_eq_true, decide_eq_true_eq, beq_iff_eq]
  rcases lt_trichotomy a.u b.u with h | h | h
  · exact Or.inr (Or.inl h)
  · by_cases h' : b.v < a.v ∨ (b.v = a.v ∧ (b.w < a.w ∨ (b.w = a.w ∧ b.i ≤ a.i)))
    · exact Or.inl (Or.inr ⟨h.symm, h'⟩)
    · exact Or.inr (Or.inr ⟨h, by omega⟩)
  · exact Or.inl (Or.inl h)

end Rosemary.Knapsack

namespace Rosemary.Props

open Rosemary.Knapsack

/-! ## C60 -/

/-- C60, `depth_first` for nonnegative weights (and arbitrary values): the returned items are a sublist of the
given ones within the capacity, the returned value is theirs and no choice of items within the capacity is worth
more. -/
theorem C60_depth_first (items : List Item) (capacity : Int) (hc : 0 ≤ capacity) (hw : ∀ x ∈ items, 0 ≤ x.2) :
    Optimal items capacity (depthFirst items capacity) ∧ (depthFirst items capacity).2.Sublist items := by
  obtain ⟨⟨h1, h2, h3⟩, -, h5⟩ := dfs_spec items capacity items hw [] (0, []) (by simp) ⟨by simp, rfl, by simpa using hc⟩
  refine ⟨⟨⟨_, h1, List.Perm.refl _⟩, h2, h3, fun s hs hsw => ?_⟩, h1⟩
  have := h5 s hs (by simpa using hsw)
  rw [val_nil, Int.zero_add] at this
  exact this

example : depthFirst [(3, 2), (4, 3), (5, 4), (-2, 1)] 6 = (8, [(3, 2), (5, 4)]) := by decide +kernel

/-- C60: with a negative weight the optimum can be lost, since partial choices above the capacity are cut off. -/
theorem C60_negative_weight : depthFirst [(1, 2), (1, -1)] 1 = (1, [(1, -1)]) ∧
    wt [(1, 2), (1, -1)] ≤ 1 ∧ val [(1, 2), (1, -1)] = 2 := by decide +kernel

/-- C60, `dynamic_programming` for nonnegative weights: it returns, without an exception, an optimal choice; the
items are listed in sorted order. -/
theorem C60_dynamic_programming (items : List Item) (capacity : Int) (hc : 0 ≤ capacity)
    (hw : ∀ x ∈ items, 0 ≤ x.2) :
    ∃ best, dynamicProgramming items capacity = .ok best ∧ Optimal items capacity best ∧
      best.2.Pairwise (fun a b => itemLe a b) := by
  have hrows : (capacity + 1).toNat = capacity.toNat + 1 := by omega
  obtain ⟨col, keep, h1, h2, h3, h4⟩ := dpLoop_spec (capacity + 1).toNat items hw [] (List.replicate (capacity + 1).toNat 0) [] (by
    refine ⟨by simp, by simp, ?_⟩
    intro k hk
    refine ⟨by simp [dpUsed], by simp [dpUsed], by simp [dpUsed, hk], ?_⟩
    intro s hs _
    rw [List.sublist_nil.1 hs]
    simp [hk])
  rw [List.append_nil] at h3 h4
  have hcap : ((capacity.toNat : Nat) : Int) = capacity := by omega
  obtain ⟨g1, g2, g3, g4⟩ := h4 capacity.toNat (by omega)
  rw [hcap] at g1 g2 g3 g4
  have hget : col[capacity.toNat]? = some (col.getD capacity.toNat 0) := by
    rw [List.getElem?_eq_getElem (by omega), List.getD_eq_getElem?_getD, List.getElem?_eq_getElem (by omega)]
    rfl
  rw [dynamicProgramming]
  dsimp only
  rw [h1]
  dsimp only
  rw [if_pos hc, hget]
  refine ⟨_, rfl, ⟨⟨_, by simpa using g1.reverse, ?_⟩, ?_, ?_, ?_⟩, pairwise_pySort itemLe_trans itemLe_total _⟩
  · exact (pySort_perm _ _).trans (List.reverse_perm _).symm
  · rw [val_perm (pySort_perm _ _), g3]
  · rw [wt_perm (pySort_perm _ _)]; exact g2
  · intro s hs hsw
    refine le_trans (le_of_eq (val_perm (List.reverse_perm s)).symm) (g4 s.reverse hs.reverse ?_)
    rw [wt_perm (List.reverse_perm s)]
    exact hsw

example : dynamicProgramming [(4, 3), (3, 2), (5, 4)] 6 = .ok (8, [(3, 2), (5, 4)]) := by decide +kernel

/-- C60, a negative capacity makes `dynamic_programming` raise IndexError. -/
theorem C60_dynamic_programming_negative (items : List Item) (capacity : Int) (hc : capacity < 0) :
    dynamicProgramming items capacity = .error .indexError := by
  have hrows : (capacity + 1).toNat = 0 := by omega
  have h : ∀ (items : List Item) col keep, ∃ r, dpLoop 0 items col keep = .ok r := by
    intro items
    induction items with
    | nil => intro col keep; exact ⟨_, rfl⟩
    | cons x items ih =>
      intro col keep
      obtain ⟨v, w⟩ := x
      rw [dpLoop]
      exact ih _ _
  rw [dynamicProgramming]
  dsimp only
  rw [hrows]
  obtain ⟨r, hr⟩ := h items (List.replicate 0 0) []
  rw [hr]
  dsimp only
  rw [if_neg (by omega)]

/-- C60, `branch_and_bound_depth_first`, whatever the rounding of the floating point operations: the returned
items are among the given ones and within the capacity, and the returned value is theirs. -/
theorem C60_branch_and_bound_feasible (fl : FloatOps) (items : List Item) (capacity : Int) (hc : 0 ≤ capacity)
    (hw : ∀ x ∈ items, x.2 ≠ 0) :
    ∃ best, branchAndBound fl items capacity = .ok best ∧ (∃ s, s.Sublist items ∧ (stripU best.2).Perm s) ∧
      val (stripU best.2) = best.1 ∧ wt (stripU best.2) ≤ capacity := by
  obtain ⟨l, h1, h2, -⟩ := unitCosts_spec fl items hw 0
  rw [branchAndBound, h1]
  obtain ⟨⟨g1, g2, g3⟩, -⟩ := bnb_sound fl (strip (pySort l Unit4.ge)) capacity (pySort l Unit4.ge) [] (0, [])
    (by simp [stripU]) ⟨by simp [stripU], rfl, by simpa [stripU] using hc⟩
  refine ⟨_, rfl, ?_, g2, g3⟩
  have hp : (strip (pySort l Unit4.ge)).Perm items := by
    rw [← h2]; exact (pySort_perm _ _).map _
  obtain ⟨s, hs1, hs2⟩ := List.exists_perm_sublist g1 hp
  exact ⟨s, hs2, hs1.symm⟩

/-- C60, a weight 0 raises ZeroDivisionError. -/
theorem C60_branch_and_bound_zero (fl : FloatOps) (items : List Item) (capacity : Int) (hw : ∃ x ∈ items, x.2 = 0) :
    branchAndBound fl items capacity = .error .zeroDivisionError := by
  rw [branchAndBound, unitCosts_zero fl items hw]

/-- C60, `branch_and_bound_depth_first` without rounding errors is optimal for positive weights and nonnegative
values.  With rounding: `C60_branch_and_bound_rounded_partial`. -/
theorem C60_branch_and_bound_partial (items : List Item) (capacity : Int) (hc : 0 ≤ capacity)
    (hw : ∀ x ∈ items, 0 < x.2 ∧ 0 ≤ x.1) :
    ∃ best, branchAndBound .exact items capacity = .ok best ∧ Optimal items capacity (best.1, stripU best.2) := by
  obtain ⟨l, h1, h2, h3⟩ := unitCosts_spec .exact items (fun x hx => by have := hw x hx; omega) 0
  have hp : (strip (pySort l Unit4.ge)).Perm items := by
    rw [← h2]; exact (pySort_perm _ _).map _
  have hpos : ∀ t ∈ pySort l Unit4.ge, 0 < t.w ∧ 0 ≤ t.v ∧ t.u = (t.v : ℚ) / t.w := by
    intro t ht
    rw [mem_pySort] at ht
    have : (t.v, t.w) ∈ items := by rw [← h2]; exact List.mem_map.2 ⟨t, ht, rfl⟩
    have := hw _ this
    exact ⟨this.1, this.2, h3 t ht⟩
  obtain ⟨best, e1, e2, e3, e4⟩ := C60_branch_and_bound_feasible .exact items capacity hc (fun x hx => by
    have := hw x hx; omega)
  refine ⟨best, e1, e2, e3, e4, ?_⟩
  intro s hs hsw
  rw [branchAndBound, h1] at e1
  injection e1 with e1
  obtain ⟨-, c2⟩ := bnb_complete .exact _ capacity (pySort l Unit4.ge)
    (fun t ht => ⟨(hpos t ht).1.le, (hpos t ht).2.1⟩)
    (boundOk_exact _ hpos ((pairwise_pySort ge_trans ge_total l).imp ge_u) _ _) [] (0, []) (by simp) (le_refl _)
  simp only [stripU, List.map_nil, val_nil, wt_nil, Int.zero_add] at c2
  rw [e1] at c2
  obtain ⟨s', hs1, hs2⟩ := List.exists_perm_sublist hs hp.symm
  have := c2 s' hs2 (by rw [wt_perm hs1]; exact hsw)
  rw [val_perm hs1] at this
  exact this

example : branchAndBound .exact [(4, 3), (3, 2), (5, 4)] 6 = .ok (8, [(3, 2, 1), (5, 4, 2)]) := by decide +kernel

/-- C60: with a negative value the bound is wrong and the optimum can be lost. -/
theorem C60_branch_and_bound_negative : branchAndBound .exact [(10, 1), (-1, 1)] 100 = .ok (0, []) ∧
    wt [(10, 1)] ≤ 100 ∧ val [(10, 1)] = 10 := by decide +kernel

/-- C60, `simulated_annealing` for every sequence of random choices: the flags select items within the capacity
and the returned value is theirs. -/
theorem C60_simulated_annealing (choices : List (Nat × Bool)) (items : List Item) (capacity : Int) (hne : items ≠ [])
    (hc : 0 ≤ capacity) (hw : ∀ x ∈ items, 0 ≤ x.2) (hch : ∀ c ∈ choices, c.1 < items.length) :
    ∃ best, simulatedAnnealing choices items capacity = .ok best ∧ best.2.length = items.length ∧
      best.1 = val (chosen items best.2) ∧ wt (chosen items best.2) ≤ capacity := by
  rw [simulatedAnnealing, if_neg hne]
  have h : ∀ s, AnnealInv items capacity s →
      AnnealInv items capacity (choices.foldl (fun s c => annealStep items capacity s c.1 c.2) s) := by
    induction choices with
    | nil => intro s hs; exact hs
    | cons c choices ih =>
      intro s hs
      rw [List.foldl_cons]
      exact ih (fun c hc => hch c (List.mem_cons_of_mem _ hc)) _
        (annealStep_inv items capacity hw s c.1 (hch c List.mem_cons_self) c.2 hs).1
  obtain ⟨-, -, -, a4, a5, a6, -⟩ := h ⟨List.replicate items.length false, 0, List.replicate items.length false, 0⟩
    ⟨by simp, by simp [chosen_none], hc, by simp, by simp [chosen_none], by simpa [chosen_none] using hc, le_refl _⟩
  exact ⟨_, rfl, a4, a5, a6⟩

example : simulatedAnnealing [(0, true), (2, true), (1, true), (0, true), (1, false), (2, true)] [(4, 3), (3, 2), (5, 4)] 6 =
    .ok (8, [false, true, true]) := by decide +kernel

end Rosemary.Props
