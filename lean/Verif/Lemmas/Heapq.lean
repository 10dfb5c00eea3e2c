import Verif.Model.Heapq
import Mathlib.Data.List.Perm.Basic
import Mathlib.Order.Basic
import Mathlib.Data.List.Count

/-!
# `heapq` pops an entry with the least key

The comparison only has to respect the key: it may decide ties in any way, and it may raise.
-/

namespace Rosemary.Heapq

variable {α K : Type} [LinearOrder K]

/-- The comparison respects the key. -/
def Respects (lt : α → α → Except PyErr Bool) (key : α → K) : Prop :=
  ∀ a b, (lt a b = .ok true → key a ≤ key b) ∧ (lt a b = .ok false → key b ≤ key a)

/-- The heap condition. -/
def IsHeap (key : α → K) (h : List α) : Prop :=
  ∀ i p, ∀ (hi : i < h.length) (hp : p < h.length), (i = 2 * p + 1 ∨ i = 2 * p + 2) → key h[p] ≤ key h[i]

/-- The heap condition away from the hole `pos`; the children of the hole are not below its parent. -/
def Holed (key : α → K) (h : List α) (pos : ℕ) : Prop :=
  (∀ i p, ∀ (hi : i < h.length) (hp : p < h.length), (i = 2 * p + 1 ∨ i = 2 * p + 2) → i ≠ pos → p ≠ pos → key h[p] ≤ key h[i]) ∧
  (∀ i p, ∀ (hi : i < h.length) (hp : p < h.length), (i = 2 * pos + 1 ∨ i = 2 * pos + 2) → (pos = 2 * p + 1 ∨ pos = 2 * p + 2) →
    key h[p] ≤ key h[i])

theorem set_set_perm {h : List α} {i j : ℕ} (hi : i < h.length) (hj : j < h.length) (hij : i ≠ j) (x : α) :
    ((h.set i h[j]).set j x).Perm (h.set i x) := by
  classical
  rw [List.perm_iff_count]
  intro a
  rw [List.count_set (by rw [List.length_set]; exact hj), List.count_set hi, List.count_set hi]
  rw [List.getElem_set_ne hij]
  have h1 : h[i] = a → 1 ≤ h.count a := by
    rintro rfl; exact List.one_le_count_iff.2 (List.getElem_mem _)
  by_cases ha : h[i] = a <;> by_cases hb : h[j] = a <;> by_cases hx : x = a <;> simp [ha, hb, hx] <;> have := h1 <;> simp_all <;> omega

variable {lt : α → α → Except PyErr Bool} {key : α → K}

theorem siftDown_spec (hlt : Respects lt key) (x : α) : ∀ (pos : ℕ) (h r : List α), pos < h.length → Holed key h pos →
    (∀ i, ∀ (hi : i < h.length), (i = 2 * pos + 1 ∨ i = 2 * pos + 2) → key x ≤ key h[i]) →
    siftDown lt h x pos = .ok r → IsHeap key r ∧ r.Perm (h.set pos x) := by
  intro pos
  induction pos using Nat.strongRecOn with
  | _ pos ih =>
    intro h r hpos hole hx hr
    have hdone : (∀ p, ∀ (hp : p < h.length), (pos = 2 * p + 1 ∨ pos = 2 * p + 2) → key h[p] ≤ key x) → IsHeap key (h.set pos x) := by
      intro hpar i p hi hp hip
      rw [List.length_set] at hi hp
      rw [List.getElem_set, List.getElem_set]
      by_cases e1 : pos = p
      · subst e1
        rw [if_pos rfl, if_neg (by omega)]
        exact hx i hi hip
      · rw [if_neg e1]
        by_cases e2 : pos = i
        · subst e2
          rw [if_pos rfl]
          exact hpar p hp hip
        · rw [if_neg e2]
          exact hole.1 i p hi hp hip (Ne.symm e2) (Ne.symm e1)
    rw [siftDown] at hr
    split at hr
    · rename_i h0
      injection hr with hr
      subst hr
      exact ⟨hdone (fun p _ hp => by omega), List.Perm.refl _⟩
    · rename_i h0
      have hq : (pos - 1) / 2 < h.length := by omega
      rw [List.getElem?_eq_getElem hq] at hr
      dsimp only at hr
      have hpq : ∀ p, (pos = 2 * p + 1 ∨ pos = 2 * p + 2) ↔ p = (pos - 1) / 2 := by intro p; omega
      split at hr
      · simp at hr
      · rename_i e
        have hk := (hlt _ _).1 e
        have hne : (pos - 1) / 2 ≠ pos := by omega
        obtain ⟨h1, h2⟩ := ih ((pos - 1) / 2) (by omega) (h.set pos h[(pos - 1) / 2]) r (by rw [List.length_set]; exact hq) (by
          constructor
          · intro i p hi hp hip hi' hp'
            rw [List.length_set] at hi hp
            rw [List.getElem_set, List.getElem_set]
            by_cases e1 : pos = p
            · subst e1
              rw [if_pos rfl, if_neg (by omega)]
              exact hole.2 i ((pos - 1) / 2) hi hq hip ((hpq _).2 rfl)
            · rw [if_neg e1]
              by_cases e2 : pos = i
              · subst e2
                exact absurd ((hpq p).1 hip) hp'
              · rw [if_neg e2]
                exact hole.1 i p hi hp hip (Ne.symm e2) (Ne.symm e1)
          · intro i p hi hp hip hqp
            rw [List.length_set] at hi hp
            have hpne : p ≠ pos := by omega
            have hgp : key h[p] ≤ key h[(pos - 1) / 2] := hole.1 _ _ hq hp hqp (by omega) hpne
            rw [List.getElem_set, List.getElem_set, if_neg (Ne.symm hpne)]
            by_cases e2 : pos = i
            · rw [if_pos e2]; exact hgp
            · rw [if_neg e2]
              exact hgp.trans (hole.1 i ((pos - 1) / 2) hi hq hip (Ne.symm e2) hne)) (by
          intro i hi hip
          rw [List.length_set] at hi
          rw [List.getElem_set]
          by_cases e2 : pos = i
          · rw [if_pos e2]; exact hk
          · rw [if_neg e2]
            exact hk.trans (hole.1 i ((pos - 1) / 2) hi hq hip (Ne.symm e2) hne)) hr
        exact ⟨h1, h2.trans (set_set_perm hpos hq (Ne.symm hne) x)⟩
      · rename_i e
        injection hr with hr
        subst hr
        refine ⟨hdone (fun p hp hip => ?_), List.Perm.refl _⟩
        have := (hpq p).1 hip
        subst this
        exact (hlt _ _).2 e

theorem siftUp_spec (hlt : Respects lt key) (x : α) : ∀ (d pos : ℕ) (h r : List α), h.length ≤ pos + d → pos < h.length → Holed key h pos →
    siftUp lt h x pos = .ok r → IsHeap key r ∧ r.Perm (h.set pos x) := by
  intro d
  induction d with
  | zero => intro pos h r h1 h2; omega
  | succ d ih =>
    intro pos h r hd hpos hole hr
    have step : ∀ c, ∀ (hc : c < h.length), (c = 2 * pos + 1 ∨ c = 2 * pos + 2) →
        (∀ i, ∀ (hi : i < h.length), (i = 2 * pos + 1 ∨ i = 2 * pos + 2) → key h[c] ≤ key h[i]) →
        siftUp lt (h.set pos h[c]) x c = .ok r → IsHeap key r ∧ r.Perm (h.set pos x) := by
      intro c hc hcp hmin hr
      obtain ⟨h1, h2⟩ := ih c (h.set pos h[c]) r (by rw [List.length_set]; omega) (by rw [List.length_set]; exact hc) (by
        constructor
        · intro i p hi hp hip hi' hp'
          rw [List.length_set] at hi hp
          rw [List.getElem_set, List.getElem_set]
          by_cases e1 : pos = p
          · subst e1
            rw [if_pos rfl, if_neg (by omega)]
            exact hmin i hi hip
          · rw [if_neg e1]
            by_cases e2 : pos = i
            · subst e2
              rw [if_pos rfl]
              exact hole.2 c p hc hp hcp hip
            · rw [if_neg e2]
              exact hole.1 i p hi hp hip (Ne.symm e2) (Ne.symm e1)
        · intro i p hi hp hip hcp'
          have : p = pos := by omega
          subst this
          rw [List.getElem_set, List.getElem_set, if_pos rfl, if_neg (by omega)]
          exact hole.1 i c (by rwa [List.length_set] at hi) hc hip (by omega) (by omega)) hr
      exact ⟨h1, h2.trans (set_set_perm hpos hc (by omega) x)⟩
    rw [siftUp] at hr
    split at hr
    · rename_i hl
      split at hr
      · rename_i hl'
        split at hr
        · simp at hr
        · rename_i e
          refine step _ hl (Or.inl rfl) (fun i hi hip => ?_) hr
          rcases hip with rfl | rfl
          · exact le_refl _
          · exact (hlt _ _).1 e
        · rename_i e
          refine step _ hl' (Or.inr rfl) (fun i hi hip => ?_) hr
          rcases hip with rfl | rfl
          · exact (hlt _ _).2 e
          · exact le_refl _
      · rename_i hl'
        refine step _ hl (Or.inl rfl) (fun i hi hip => ?_) hr
        rcases hip with rfl | rfl
        · exact le_refl _
        · omega
    · rename_i hl
      exact siftDown_spec hlt x pos h r hpos hole (fun i hi hip => by omega) hr

/-- `heappush` adds the item. -/
theorem heappush_spec (hlt : Respects lt key) {h r : List α} (hh : IsHeap key h) (x : α) (hr : heappush lt h x = .ok r) :
    IsHeap key r ∧ r.Perm (x :: h) := by
  have hl : (h ++ [x]).length = h.length + 1 := by simp
  obtain ⟨h1, h2⟩ := siftDown_spec hlt x h.length (h ++ [x]) r (by omega) (by
    constructor
    · intro i p hi hp hip hi' hp'
      rw [List.getElem_append_left (by omega), List.getElem_append_left (by omega)]
      exact hh i p (by omega) (by omega) hip
    · intro i p hi; omega) (by intro i hi; omega) hr
  refine ⟨h1, h2.trans ?_⟩
  have : (h ++ [x]).set h.length x = h ++ [x] := by
    rw [List.set_append_right _ _ (Nat.le_refl _)]; simp
  rw [this]
  exact List.perm_append_comm

theorem IsHeap.root_le {h : List α} (hh : IsHeap key h) (hpos : 0 < h.length) : ∀ a ∈ h, key h[0] ≤ key a := by
  have : ∀ i, ∀ (hi : i < h.length), key h[0] ≤ key h[i] := by
    intro i
    induction i using Nat.strongRecOn with
    | _ i ih =>
      intro hi
      by_cases h0 : i = 0
      · subst h0; exact le_refl _
      · exact (ih ((i - 1) / 2) (by omega) (by omega)).trans (hh i ((i - 1) / 2) hi (by omega) (by omega))
  intro a ha
  obtain ⟨i, hi, rfl⟩ := List.getElem_of_mem ha
  exact this i hi

/-- `heappop` removes an item with the least key. -/
theorem heappop_spec (hlt : Respects lt key) {h r : List α} {x : α} (hh : IsHeap key h) (hr : heappop lt h = .ok (x, r)) :
    IsHeap key r ∧ h.Perm (x :: r) ∧ ∀ a ∈ h, key x ≤ key a := by
  rw [heappop] at hr
  split at hr
  · simp at hr
  · rename_i last e1 e2
    simp only [Except.ok.injEq, Prod.mk.injEq] at hr
    obtain ⟨rfl, rfl⟩ := hr
    obtain ⟨ys, rfl⟩ := List.getLast?_eq_some_iff.1 e1
    rw [List.dropLast_concat] at e2
    subst e2
    refine ⟨fun i p hi => by simp at hi, List.Perm.refl _, fun a ha => ?_⟩
    simp at ha
    rw [ha]
  · rename_i last first rest e1 e2
    obtain ⟨ys, rfl⟩ := List.getLast?_eq_some_iff.1 e1
    rw [List.dropLast_concat] at e2
    subst e2
    split at hr
    · simp at hr
    · rename_i heap e3
      simp only [Except.ok.injEq, Prod.mk.injEq] at hr
      obtain ⟨rfl, rfl⟩ := hr
      have hroot := hh.root_le (by simp)
      obtain ⟨h1, h2⟩ := siftUp_spec hlt last (rest.length + 1) 0 (last :: rest) heap (by simp) (by simp) (by
        constructor
        · intro i p hi hp hip hi' hp'
          obtain ⟨i, rfl⟩ : ∃ j, i = j + 1 := ⟨i - 1, by omega⟩
          obtain ⟨p, rfl⟩ : ∃ j, p = j + 1 := ⟨p - 1, by omega⟩
          simp only [List.length_cons] at hi hp
          have := hh (i + 1) (p + 1) (by simp; omega) (by simp; omega) hip
          rw [List.getElem_append_left (by simp; omega), List.getElem_append_left (by simp; omega)] at this
          simpa using this
        · intro i p _ _ _ hp; omega) e3
      refine ⟨h1, ?_, fun a ha => by simpa using hroot a ha⟩
      have h3 : heap.Perm (last :: rest) := h2
      refine List.Perm.trans ?_ (h3.symm.cons _)
      rw [List.cons_append]
      exact List.Perm.cons _ List.perm_append_comm

/-- If no comparison raises, `heappop` succeeds on a heap that is not empty. -/
theorem siftDown_total (h : ∀ a b, ∃ r, lt a b = .ok r) (x : α) : ∀ (pos : ℕ) (l : List α), pos < l.length → ∃ r, siftDown lt l x pos = .ok r := by
  intro pos
  induction pos using Nat.strongRecOn with
  | _ pos ih =>
    intro l hl
    rw [siftDown]
    split
    · exact ⟨_, rfl⟩
    · rw [List.getElem?_eq_getElem (by omega)]
      dsimp only
      obtain ⟨b, hb⟩ := h x l[(pos - 1) / 2]
      rw [hb]
      cases b
      · exact ⟨_, rfl⟩
      · exact ih _ (by omega) _ (by rw [List.length_set]; omega)

theorem siftUp_total (h : ∀ a b, ∃ r, lt a b = .ok r) (x : α) : ∀ (d pos : ℕ) (l : List α), l.length ≤ pos + d → pos < l.length →
    ∃ r, siftUp lt l x pos = .ok r := by
  intro d
  induction d with
  | zero => intro pos l h1 h2; omega
  | succ d ih =>
    intro pos l h1 h2
    rw [siftUp]
    split
    · rename_i hl
      split
      · rename_i hl'
        obtain ⟨b, hb⟩ := h l[2 * pos + 1] l[2 * pos + 2]
        rw [hb]
        cases b <;> exact ih _ _ (by rw [List.length_set]; omega) (by rw [List.length_set]; omega)
      · exact ih _ _ (by rw [List.length_set]; omega) (by rw [List.length_set]; omega)
    · exact siftDown_total h x pos l h2

theorem heappush_total (h : ∀ a b, ∃ r, lt a b = .ok r) (l : List α) (x : α) : ∃ r, heappush lt l x = .ok r :=
  siftDown_total h x _ _ (by simp)

theorem heappop_total (h : ∀ a b, ∃ r, lt a b = .ok r) {l : List α} (hl : l ≠ []) : ∃ r, heappop lt l = .ok r := by
  rw [heappop]
  split
  · rename_i e; exact absurd (List.getLast?_eq_none_iff.1 e) hl
  · exact ⟨_, rfl⟩
  · rename_i last first rest _ _
    obtain ⟨r, hr⟩ := siftUp_total h last (rest.length + 1) 0 (last :: rest) (by simp) (by simp)
    rw [hr]
    exact ⟨_, rfl⟩

/-- Every exception comes from a comparison, or from an empty heap. -/
theorem siftDown_error (x : α) {er : PyErr} : ∀ (pos : ℕ) (l : List α), pos < l.length → siftDown lt l x pos = .error er → ∃ a b, lt a b = .error er := by
  intro pos
  induction pos using Nat.strongRecOn with
  | _ pos ih =>
    intro l hl he
    rw [siftDown] at he
    split at he
    · simp at he
    · rw [List.getElem?_eq_getElem (by omega)] at he
      dsimp only at he
      split at he
      · rename_i e
        injection he with he
        subst he
        exact ⟨_, _, e⟩
      · exact ih _ (by omega) _ (by rw [List.length_set]; omega) he
      · simp at he

theorem siftUp_error (x : α) {er : PyErr} : ∀ (d pos : ℕ) (l : List α), l.length ≤ pos + d → pos < l.length →
    siftUp lt l x pos = .error er → ∃ a b, lt a b = .error er := by
  intro d
  induction d with
  | zero => intro pos l h1 h2; omega
  | succ d ih =>
    intro pos l h1 h2 he
    rw [siftUp] at he
    split at he
    · split at he
      · split at he
        · rename_i e
          injection he with he
          subst he
          exact ⟨_, _, e⟩
        all_goals exact ih _ _ (by rw [List.length_set]; omega) (by rw [List.length_set]; omega) he
      · exact ih _ _ (by rw [List.length_set]; omega) (by rw [List.length_set]; omega) he
    · exact siftDown_error x pos l h2 he

theorem heappush_error {l : List α} {x : α} {er : PyErr} (he : heappush lt l x = .error er) : ∃ a b, lt a b = .error er :=
  siftDown_error x _ _ (by simp) he

theorem heappop_error {l : List α} (hl : l ≠ []) {er : PyErr} (he : heappop lt l = .error er) : ∃ a b, lt a b = .error er := by
  rw [heappop] at he
  split at he
  · rename_i e; exact absurd (List.getLast?_eq_none_iff.1 e) hl
  · simp at he
  · rename_i last first rest _ _
    split at he
    · rename_i e
      injection he with he
      subst he
      exact siftUp_error last (rest.length + 1) 0 (last :: rest) (by simp) (by simp) e
    · simp at he

/-- If the comparison of `x` with every other item raises, so does `siftUp`, unless there is no other item. -/
theorem siftUp_raises (x : α) (P : α → Prop) (hP : ∀ a, P a → ∃ er, lt x a = .error er) : ∀ (d pos : ℕ) (l : List α),
    l.length ≤ pos + d → pos < l.length → (∀ i, ∀ (hi : i < l.length), i ≠ pos → P l[i]) → (0 < pos ∨ 2 * pos + 1 < l.length) →
    ∃ er, siftUp lt l x pos = .error er := by
  intro d
  induction d with
  | zero => intro pos l h1 h2; omega
  | succ d ih =>
    intro pos l h1 h2 hall hor
    have step : ∀ c, ∀ (hc : c < l.length), pos < c → ∃ er, siftUp lt (l.set pos l[c]) x c = .error er := by
      intro c hc hpc
      refine ih c _ (by rw [List.length_set]; omega) (by rw [List.length_set]; omega) (fun i hi hne => ?_) (Or.inl (by omega))
      rw [List.length_set] at hi
      rw [List.getElem_set]
      split
      · exact hall c hc (by omega)
      · rename_i hpi; exact hall i hi (Ne.symm hpi)
    rw [siftUp]
    split
    · rename_i hl
      split
      · rename_i hl'
        split
        · exact ⟨_, rfl⟩
        · exact step _ hl (by omega)
        · exact step _ hl' (by omega)
      · exact step _ hl (by omega)
    · rename_i hl
      rw [siftDown, dif_neg (by omega), List.getElem?_eq_getElem (by omega)]
      dsimp only
      obtain ⟨er, he⟩ := hP _ (hall ((pos - 1) / 2) (by omega) (by omega))
      rw [he]
      exact ⟨_, rfl⟩

/-- `heappop` of at least three items, any two of which cannot be compared, raises. -/
theorem heappop_raises {l : List α} (hl : 3 ≤ l.length) (hp : l.Pairwise (fun a b => (∃ er, lt a b = .error er) ∧ ∃ er, lt b a = .error er)) :
    ∃ er, heappop lt l = .error er := by
  rw [heappop]
  split
  · exact ⟨_, rfl⟩
  · rename_i last e1 e2
    have := congrArg List.length e2
    simp at this
    omega
  · rename_i last first rest e1 e2
    obtain ⟨ys, rfl⟩ := List.getLast?_eq_some_iff.1 e1
    rw [List.dropLast_concat] at e2
    subst e2
    have hlast : ∀ a ∈ rest, ∃ er, lt last a = .error er := by
      intro a ha
      exact ((List.pairwise_append.1 hp).2.2 a (List.mem_cons_of_mem _ ha) last (by simp)).2
    obtain ⟨er, he⟩ := siftUp_raises (lt := lt) last (fun a => a ∈ rest) hlast (rest.length + 1) 0 (last :: rest) (by simp) (by simp)
      (fun i hi hne => by
        obtain ⟨i, rfl⟩ : ∃ j, i = j + 1 := ⟨i - 1, by omega⟩
        simp) (Or.inr (by simp at hl ⊢; omega))
    rw [he]
    exact ⟨_, rfl⟩

end Rosemary.Heapq
