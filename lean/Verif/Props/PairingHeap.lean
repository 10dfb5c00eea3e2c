import Verif.Lemmas.PairingHeapOps
import Mathlib.Algebra.Order.Ring.Int

/-!
# C44: `PairingHeap` is a priority queue with `decrease_key`

The contents of a heap are observed with `list_elements`.
-/

namespace Rosemary.Props

open Rosemary.PairingHeap

variable {κ ν : Type} [LinearOrder κ] [DecidableEq ν] [Inhabited κ] [Inhabited ν]

/-- The heaps that come from an empty one by `insert` of values that are not in the heap, `decrease_key` of values in the heap
to keys that are not larger, and `delete_min`. -/
inductive Reachable : Heap κ ν → Prop
  | new : Reachable new
  | insert (h : Heap κ ν) (k : κ) (v : ν) : Reachable h → v ∉ (listElements h).map Prod.snd → Reachable (insert h k v)
  | decreaseKey (h h' : Heap κ ν) (k k0 : κ) (v : ν) : Reachable h → (k0, v) ∈ listElements h → k ≤ k0 →
      decreaseKey h v k = .ok h' → Reachable h'
  | deleteMin (h h' : Heap κ ν) (e : Option (κ × ν)) : Reachable h → deleteMin h = some (.ok (h', e)) → Reachable h'

private theorem reachable_inv {h : Heap κ ν} (hr : Reachable h) : Inv h := by
  induction hr with
  | new => exact inv_new
  | insert h k v _ hv ih => rw [values_eq] at hv; exact (insert_spec ih k v hv).1
  | decreaseKey h h' k k0 v _ hv hk he ih =>
    obtain ⟨h'', h1, h2, -⟩ := decreaseKey_spec ih v k k0 hv hk
    rw [h1] at he
    cases he
    exact h2
  | deleteMin h h' e _ he ih =>
    rcases deleteMin_spec ih with ⟨-, h1⟩ | ⟨h'', k, v, h1, h2, -⟩
    · rw [h1] at he
      cases he
      exact ih
    · rw [h1] at he
      cases he
      exact h2

/-- A new heap is empty, and a reachable heap never holds a value twice. -/
theorem C44_values (h : Heap κ ν) (hr : Reachable h) :
    listElements (new : Heap κ ν) = [] ∧ ((listElements h).map Prod.snd).Nodup := by
  refine ⟨rfl, ?_⟩
  rw [values_eq]
  exact (reachable_inv hr).wf

/-- `insert` adds the pair. -/
theorem C44_insert (h : Heap κ ν) (hr : Reachable h) (k : κ) (v : ν) (hv : v ∉ (listElements h).map Prod.snd) :
    listElements (insert h k v) = listElements h ++ [(k, v)] := by
  rw [values_eq] at hv
  exact (insert_spec (reachable_inv hr) k v hv).2

/-- `insert_values` adds all pairs. -/
theorem C44_insert_values (h : Heap κ ν) (hr : Reachable h) (l : List (κ × ν))
    (hv : ((listElements h ++ l).map Prod.snd).Nodup) :
    Reachable (insertValues h l) ∧ listElements (insertValues h l) = listElements h ++ l := by
  induction l generalizing h with
  | nil => exact ⟨hr, by rw [insertValues, List.append_nil]⟩
  | cons e l ih =>
    obtain ⟨k, v⟩ := e
    have hv' : v ∉ (listElements h).map Prod.snd := by
      rw [List.map_append, List.nodup_append'] at hv
      intro hc
      exact hv.2.2 hc (by simp)
    have he := C44_insert h hr k v hv'
    obtain ⟨h1, h2⟩ := ih _ (.insert h k v hr hv') (by rw [he, List.append_assoc]; exact hv)
    rw [insertValues]
    exact ⟨h1, by rw [h2, he, List.append_assoc]; rfl⟩

/-- `decrease_key` raises nothing and replaces the key of the value; nothing else changes. -/
theorem C44_decrease_key (h : Heap κ ν) (hr : Reachable h) (k k0 : κ) (v : ν) (hv : (k0, v) ∈ listElements h) (hk : k ≤ k0) :
    ∃ h', decreaseKey h v k = .ok h' ∧ listElements h' = (listElements h).map (fun e => if e.2 = v then (k, v) else e) := by
  obtain ⟨h', h1, -, h2⟩ := decreaseKey_spec (reachable_inv hr) v k k0 hv hk
  exact ⟨h', h1, h2⟩

/-- `decrease_key` of a value that is not in the heap raises `KeyError`. -/
theorem C44_decrease_key_error (h : Heap κ ν) (k : κ) (v : ν) (hv : v ∉ (listElements h).map Prod.snd) :
    decreaseKey h v k = .error .keyError := by
  rw [values_eq] at hv
  rw [decreaseKey, Dict.get?_eq_none.2 hv]

/-- `delete_min` ends and raises nothing; it returns `None` for the empty heap, and else a pair of the heap with a least key,
which is removed. -/
theorem C44_delete_min (h : Heap κ ν) (hr : Reachable h) :
    (listElements h = [] ∧ deleteMin h = some (.ok (h, none))) ∨
    ∃ h' k v, deleteMin h = some (.ok (h', some (k, v))) ∧ (k, v) ∈ listElements h ∧ (∀ e ∈ listElements h, k ≤ e.1) ∧
      listElements h' = (listElements h).filter (fun e => e.2 ≠ v) := by
  rcases deleteMin_spec (reachable_inv hr) with h1 | ⟨h', k, v, h1, -, h2⟩
  · exact Or.inl h1
  · exact Or.inr ⟨h', k, v, h1, h2⟩

/-- What the restrictions are for: a value that is inserted twice makes a later `delete_min` raise `KeyError`, and a key that
`decrease_key` makes larger leads to a pair that is not least. -/
theorem C44_restrictions :
    (∃ h' : Heap ℤ ℕ, deleteMin (insert (insert new 1 7) 2 7) = some (.ok (h', some (1, 7))) ∧
      deleteMin h' = some (.error .keyError)) ∧
    ∃ h' h'' : Heap ℤ ℕ, decreaseKey (insert (insert new 1 7) 2 8) 7 3 = .ok h' ∧ listElements h' = [(3, 7), (2, 8)] ∧
      deleteMin h' = some (.ok (h'', some (3, 7))) :=
  ⟨⟨_, rfl, rfl⟩, ⟨_, _, rfl, rfl, rfl⟩⟩

/-- Five values, one of them decreased to the least key. -/
example : ∃ h h' h'' : Heap ℤ ℕ, Reachable h ∧ listElements h = [(5, 1), (3, 2), (8, 3), (4, 4), (9, 5)] ∧
    decreaseKey h 5 0 = .ok h' ∧ listElements h' = [(5, 1), (3, 2), (8, 3), (4, 4), (0, 5)] ∧
    deleteMin h' = some (.ok (h'', some (0, 5))) ∧ listElements h'' = [(5, 1), (3, 2), (8, 3), (4, 4)] := by
  obtain ⟨h1, h2⟩ := C44_insert_values (new : Heap ℤ ℕ) .new [(5, 1), (3, 2), (8, 3), (4, 4), (9, 5)] (by decide)
  have h0 : listElements (insertValues (new : Heap ℤ ℕ) [(5, 1), (3, 2), (8, 3), (4, 4), (9, 5)]) =
      [(5, 1), (3, 2), (8, 3), (4, 4), (9, 5)] := h2
  obtain ⟨h', h3, h4⟩ := C44_decrease_key _ h1 0 9 5 (by rw [h0]; decide) (by decide)
  rw [h0] at h4
  have h5 : listElements h' = [(5, 1), (3, 2), (8, 3), (4, 4), (0, 5)] := h4
  rcases C44_delete_min _ (.decreaseKey _ h' 0 9 5 h1 (by rw [h0]; decide) (by decide) h3) with
    ⟨h6, -⟩ | ⟨h'', k, v, h6, h7, h8, h9⟩
  · rw [h5] at h6; simp at h6
  · rw [h5] at h7 h8 h9
    have hk := h8 (0, 5) (by decide)
    have : k = 0 ∧ v = 5 := by
      dsimp only at hk
      simp only [List.mem_cons, Prod.mk.injEq, List.not_mem_nil, or_false] at h7
      rcases h7 with h4 | h4 | h4 | h4 | h4
      · obtain ⟨rfl, -⟩ := h4; exact absurd hk (by decide)
      · obtain ⟨rfl, -⟩ := h4; exact absurd hk (by decide)
      · obtain ⟨rfl, -⟩ := h4; exact absurd hk (by decide)
      · obtain ⟨rfl, -⟩ := h4; exact absurd hk (by decide)
      · exact h4
    obtain ⟨rfl, rfl⟩ := this
    exact ⟨_, h', h'', h1, h0, h3, h5, h6, by rw [h9]; rfl⟩

/-- A root with three children, which are combined. -/
example : ∃ h' : Heap ℤ ℕ, deleteMin (insertValues new [(1, 1), (5, 2), (4, 3), (6, 4)]) = some (.ok (h', some (1, 1))) ∧
    listElements h' = [(5, 2), (4, 3), (6, 4)] := by
  obtain ⟨h1, h2⟩ := C44_insert_values (new : Heap ℤ ℕ) .new [(1, 1), (5, 2), (4, 3), (6, 4)] (by decide)
  rcases C44_delete_min _ h1 with ⟨h3, -⟩ | ⟨h', k, v, h3, h4, h5, h6⟩
  · rw [h2] at h3; simp [listElements, new] at h3
  · rw [h2] at h4 h5 h6
    have hk := h5 (1, 1) (by decide)
    simp only [listElements, new, List.map_nil, List.nil_append, List.mem_cons, Prod.mk.injEq, List.not_mem_nil, or_false] at h4
    have : k = 1 ∧ v = 1 := by
      dsimp only at hk
      rcases h4 with h4 | h4 | h4 | h4
      · exact h4
      all_goals (obtain ⟨rfl, -⟩ := h4; exact absurd hk (by decide))
    obtain ⟨rfl, rfl⟩ := this
    exact ⟨h', h3, by rw [h6]; rfl⟩

end Rosemary.Props
