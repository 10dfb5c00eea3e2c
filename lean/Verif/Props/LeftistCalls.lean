import Verif.Model.LeftistCalls
import Verif.Props.LeftistHeap
import Mathlib.Tactic.Ring
import Mathlib.Tactic.Linarith

/-!
# How long the operations of the leftist heap take (C155)
-/

namespace Rosemary.Props

open Rosemary.LeftistHeap

variable {α : Type} [LinearOrder α]

private theorem mergeCalls_leaf_left (b : LeftistHeap.Tree α) : mergeCalls .leaf b = 1 := by
  rw [mergeCalls.eq_def]

private theorem mergeCalls_leaf_right (a : LeftistHeap.Tree α) : mergeCalls a .leaf = 1 := by
  cases a <;> rw [mergeCalls.eq_def]

private theorem mergeCalls_le (a b : LeftistHeap.Tree α) (ha : a ≠ .leaf) (hb : b ≠ .leaf) :
    mergeCalls a b + 1 ≤ spine a + spine b := by
  induction hn : a.size + b.size using Nat.strong_induction_on generalizing a b with
  | _ n ih =>
    cases a with
    | leaf => exact absurd rfl ha
    | node x kx lx rx =>
      cases b with
      | leaf => exact absurd rfl hb
      | node y ky ly ry =>
        rw [mergeCalls.eq_def]
        dsimp only
        split
        · cases ry with
          | leaf => simp only [spine]; omega
          | node u ku lu ru =>
            have := ih _ (by simp only [LeftistHeap.Tree.size] at hn ⊢; omega) (.node u ku lu ru) (.node x kx lx rx) (by simp) (by simp)
              rfl
            simp only [spine] at this ⊢
            omega
        · cases rx with
          | leaf => simp only [spine]; omega
          | node u ku lu ru =>
            have := ih _ (by simp only [LeftistHeap.Tree.size] at hn ⊢; omega) (.node u ku lu ru) (.node y ky ly ry) (by simp) (by simp)
              rfl
            simp only [spine] at this ⊢
            omega

omit [LinearOrder α] in
private theorem spine_le_log {t : LeftistHeap.Tree α} (h : Leftist t) : spine t ≤ Nat.log 2 (t.size + 1) :=
  Nat.le_log_of_pow_le (by decide) (leftist_spine t h).1

private theorem mergeCalls_log {a b : LeftistHeap.Tree α} (la : Leftist a) (lb : Leftist b) :
    mergeCalls a b ≤ max 1 (Nat.log 2 (a.size + 1) + Nat.log 2 (b.size + 1) - 1) := by
  by_cases ha : a = .leaf
  · subst ha; rw [mergeCalls_leaf_left]; exact le_max_left _ _
  · by_cases hb : b = .leaf
    · subst hb; rw [mergeCalls_leaf_right]; exact le_max_left _ _
    · have h1 := mergeCalls_le a b ha hb
      have h2 := spine_le_log la
      have h3 := spine_le_log lb
      exact le_trans (by omega) (le_max_right _ _)

/-- C155: merging two heaps, however they were made, takes at most `log2 (m + 1) + log2 (n + 1) - 1` calls of
`_leftist_heap_merge` (one call if a heap is empty), where `m` and `n` are their sizes. -/
theorem C155_merge (H G : History α) (hH : H.proper) (hG : G.proper) : ∃ h g, H.exec = .ok h ∧ G.exec = .ok g ∧
    h.mergeWithCalls g ≤
      max 1 (Nat.log 2 (H.content.length + 1) + Nat.log 2 (G.content.length + 1) - 1) := by
  obtain ⟨h, h1, h2⟩ := history_holds H hH
  obtain ⟨g, g1, g2⟩ := history_holds G hG
  refine ⟨h, g, h1, g1, ?_⟩
  have e1 : h.root.size = H.content.length := by rw [← values_length, h2.perm.length_eq]
  have e2 : g.root.size = G.content.length := by rw [← values_length, g2.perm.length_eq]
  rw [← e1, ← e2]
  exact mergeCalls_log h2.leftist g2.leftist

/-- C155: inserting into a heap of `n` values takes at most `log2 (n + 1)` calls. -/
theorem C155_insert (H : History α) (hH : H.proper) (v : α) : ∃ h, H.exec = .ok h ∧
    h.insertCalls v ≤ Nat.log 2 (H.content.length + 1) := by
  obtain ⟨h, h1, h2⟩ := history_holds H hH
  refine ⟨h, h1, ?_⟩
  have e1 : h.root.size = H.content.length := by rw [← values_length, h2.perm.length_eq]
  rw [← e1, Heap.insertCalls]
  split
  · exact Nat.zero_le _
  · rename_i hne
    have h3 := mergeCalls_le h.root (LeftistHeap.Tree.single v) hne (by simp [LeftistHeap.Tree.single])
    have h4 := spine_le_log h2.leftist
    simp only [LeftistHeap.Tree.single, spine] at h3
    simp only [LeftistHeap.Tree.single]
    omega

/-- C155: deleting the minimum of `n` values takes at most `2 * log2 n` calls (one if `n ≤ 2`). -/
theorem C155_delete_min (H : History α) (hH : H.proper) : ∃ h, H.exec = .ok h ∧
    h.deleteMinCalls ≤ max 1 (2 * Nat.log 2 H.content.length) := by
  obtain ⟨h, h1, h2⟩ := history_holds H hH
  refine ⟨h, h1, ?_⟩
  have e1 : h.root.size = H.content.length := by rw [← values_length, h2.perm.length_eq]
  rw [← e1, Heap.deleteMinCalls]
  have hl := h2.leftist
  cases hr : h.root with
  | leaf => exact Nat.zero_le _
  | node v k l r =>
    rw [hr] at hl
    obtain ⟨ll, lr⟩ := hl.children
    dsimp only
    refine (mergeCalls_log ll lr).trans ?_
    refine max_le_max le_rfl ?_
    have m1 : Nat.log 2 (l.size + 1) ≤ Nat.log 2 (LeftistHeap.Tree.node v k l r).size :=
      Nat.log_mono_right (by simp only [LeftistHeap.Tree.size]; omega)
    have m2 : Nat.log 2 (r.size + 1) ≤ Nat.log 2 (LeftistHeap.Tree.node v k l r).size :=
      Nat.log_mono_right (by simp only [LeftistHeap.Tree.size]; omega)
    omega

/-! ## The constructor -/

omit [LinearOrder α] in
private theorem potential_step {a b : ℕ} (ha : 1 ≤ a) (hab : a ≤ b) (hb : b ≤ 2 * a) :
    Nat.log 2 (a + 1) + Nat.log 2 (b + 1) + 2 * Nat.log 2 (a + b) ≤ 6 + 2 * Nat.log 2 a + 2 * Nat.log 2 b := by
  have hb0 : b ≠ 0 := by omega
  have h1 : Nat.log 2 (a + b) ≤ Nat.log 2 b + 1 := by
    have : Nat.log 2 (a + b) < Nat.log 2 b + 2 := by
      refine Nat.log_lt_of_lt_pow (by omega) ?_
      have := Nat.lt_pow_succ_log_self (b := 2) (by decide) b
      rw [Nat.succ_eq_add_one, pow_succ] at this
      rw [pow_succ, pow_succ]
      omega
    omega
  have h2 : Nat.log 2 (a + 1) ≤ Nat.log 2 a + 1 := by
    have : Nat.log 2 (a + 1) < Nat.log 2 a + 2 := by
      refine Nat.log_lt_of_lt_pow (by omega) ?_
      have := Nat.lt_pow_succ_log_self (b := 2) (by decide) a
      rw [Nat.succ_eq_add_one, pow_succ] at this
      rw [pow_succ, pow_succ]
      omega
    omega
  have h3 : Nat.log 2 (b + 1) ≤ Nat.log 2 b + 1 := by
    have : Nat.log 2 (b + 1) < Nat.log 2 b + 2 := by
      refine Nat.log_lt_of_lt_pow (by omega) ?_
      have := Nat.lt_pow_succ_log_self (b := 2) (by decide) b
      rw [Nat.succ_eq_add_one, pow_succ] at this
      rw [pow_succ, pow_succ]
      omega
    omega
  have h4 : Nat.log 2 b ≤ Nat.log 2 a + 1 := by
    have : Nat.log 2 b < Nat.log 2 a + 2 := by
      refine Nat.log_lt_of_lt_pow (by omega) ?_
      have := Nat.lt_pow_succ_log_self (b := 2) (by decide) a
      rw [Nat.succ_eq_add_one, pow_succ] at this
      rw [pow_succ, pow_succ]
      omega
    omega
  omega

private theorem buildCalls_le (n : ℕ) : ∀ nodes : List (LeftistHeap.Tree α), nodes.length = n → 1 ≤ n →
    (∀ t ∈ nodes, Ordered t ∧ Leftist t ∧ 1 ≤ t.size) →
    nodes.Pairwise (fun s t => s.size ≤ t.size ∧ t.size ≤ 2 * s.size) →
    buildCalls n nodes + 5 ≤ (nodes.map fun t => 5 + 2 * Nat.log 2 t.size).sum := by
  induction n with
  | zero => intro nodes _ h; omega
  | succ n ih =>
    intro nodes hn _ hg hp
    rw [buildCalls.eq_def]
    dsimp only
    by_cases h1 : n + 1 > 1
    · rw [dif_pos h1, Nat.add_sub_cancel]
      match nodes, hn with
      | [], hn => simp at hn
      | [a], hn => simp at hn; omega
      | a :: b :: rest, hn =>
        dsimp only
        obtain ⟨oa, la, sa⟩ := hg a (by simp)
        obtain ⟨ob, lb, sb⟩ := hg b (by simp)
        obtain ⟨m1, m2, m3, -⟩ := merge_spec a b oa ob la lb
        have msize : (merge a b).size = a.size + b.size := by
          rw [← values_length, m1.length_eq, List.length_append, values_length, values_length]
        rw [List.pairwise_cons, List.pairwise_cons] at hp
        obtain ⟨p1, p2, p3⟩ := hp
        have i := ih (rest ++ [merge a b]) (by simp at hn ⊢; omega) (by omega) (by
          intro t ht
          rcases List.mem_append.1 ht with ht | ht
          · exact hg t (by simp [ht])
          · rw [List.mem_singleton.1 ht]; exact ⟨m2, m3, by omega⟩) (by
          rw [List.pairwise_append]
          refine ⟨p3, by simp, ?_⟩
          intro s hs t ht
          rw [List.mem_singleton.1 ht, msize]
          have q1 := p1 s (List.mem_cons_of_mem _ hs)
          have q2 := p2 s hs
          have q3 := p1 b List.mem_cons_self
          omega)
        rw [List.map_append, List.sum_append, List.map_singleton, List.sum_singleton, msize] at i
        rw [List.map_cons, List.map_cons, List.sum_cons, List.sum_cons]
        have q := p1 b List.mem_cons_self
        have c1 := potential_step sa q.1 q.2
        have hane : a ≠ .leaf := by rintro rfl; simp [LeftistHeap.Tree.size] at sa
        have hbne : b ≠ .leaf := by rintro rfl; simp [LeftistHeap.Tree.size] at sb
        have c2 := mergeCalls_le a b hane hbne
        have c3 := spine_le_log la
        have c4 := spine_le_log lb
        omega
    · rw [dif_neg h1]
      match nodes, hn with
      | [], hn => simp at hn
      | a :: rest, hn => simp only [List.map_cons, List.sum_cons]; omega

/-- C155: making a heap of `n ≥ 1` values takes at most `5 (n - 1)` calls, so time O(n). -/
theorem C155_init (vs : List α) (h : vs ≠ []) : initCalls vs ≤ 5 * (vs.length - 1) := by
  have hl : 1 ≤ vs.length := List.length_pos_iff.2 h
  have h1 := buildCalls_le vs.length (vs.map LeftistHeap.Tree.single) (by simp) hl (by
    intro t ht
    obtain ⟨v, -, rfl⟩ := List.mem_map.1 ht
    exact ⟨⟨by simp [values], by simp [values], trivial, trivial⟩, ⟨rfl, rfl⟩, by simp [LeftistHeap.Tree.single, LeftistHeap.Tree.size]⟩) (by
    rw [List.pairwise_map]
    exact List.pairwise_of_forall (by intro x y; simp [LeftistHeap.Tree.single, LeftistHeap.Tree.size]))
  have h2 : ((vs.map LeftistHeap.Tree.single).map fun t => 5 + 2 * Nat.log 2 t.size).sum = vs.length * 5 := by
    rw [List.map_map]
    have : ((fun t : LeftistHeap.Tree α => 5 + 2 * Nat.log 2 t.size) ∘ LeftistHeap.Tree.single) = fun _ => 5 := by
      funext v; simp [LeftistHeap.Tree.single, LeftistHeap.Tree.size]
    rw [this]
    clear h h1 hl
    induction vs with
    | nil => rfl
    | cons v vs ih => rw [List.map_cons, List.sum_cons, ih, List.length_cons]; ring
  rw [h2] at h1
  rw [initCalls]
  omega

/-- A heap of four values takes three calls, one of eight values eight. -/
example : initCalls [4, 3, 2, 1] = 3 ∧ initCalls [1, 2, 3, 4, 5, 6, 7, 8] = 8 := by decide +kernel

end Rosemary.Props
