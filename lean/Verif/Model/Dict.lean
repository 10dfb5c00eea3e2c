import Mathlib.Data.List.Nodup

/-!
# Python dictionaries

A dictionary is the list of its entries in the order of insertion.
-/

namespace Rosemary

/-- A dictionary, in insertion order. -/
abbrev Dict (κ β : Type) := List (κ × β)

namespace Dict

variable {κ β : Type} [DecidableEq κ]

/-- `d[k]`, if present. -/
def get? : Dict κ β → κ → Option β
  | [], _ => none
  | (k', v) :: d, k => if k' = k then some v else get? d k

/-- `d[k] = v`: a new key goes to the end. -/
def set : Dict κ β → κ → β → Dict κ β
  | [], k, v => [(k, v)]
  | (k', v') :: d, k, v => if k' = k then (k, v) :: d else (k', v') :: set d k v

/-- `del d[k]` for a key that may be absent. -/
def erase : Dict κ β → κ → Dict κ β
  | [], _ => []
  | (k', v') :: d, k => if k' = k then d else (k', v') :: erase d k

/-- The keys in order. -/
def keys (d : Dict κ β) : List κ := d.map Prod.fst

/-- No key occurs twice. -/
def WF (d : Dict κ β) : Prop := (keys d).Nodup

theorem get?_eq_none {d : Dict κ β} {k : κ} : get? d k = none ↔ k ∉ keys d := by
  induction d with
  | nil => simp [get?, keys]
  | cons e d ih =>
    obtain ⟨k', v⟩ := e
    rw [get?]
    by_cases h : k' = k
    · simp [h, keys]
    · rw [if_neg h, ih]
      simp [keys, Ne.symm h]

theorem get?_isSome {d : Dict κ β} {k : κ} : (∃ v, get? d k = some v) ↔ k ∈ keys d := by
  rw [← Option.isSome_iff_exists, ← not_iff_not, ← get?_eq_none]
  simp

theorem get?_set (d : Dict κ β) (k k' : κ) (v : β) : get? (set d k v) k' = if k = k' then some v else get? d k' := by
  induction d with
  | nil => rfl
  | cons e d ih =>
    obtain ⟨a, b⟩ := e
    rw [set]
    by_cases h : a = k
    · subst h
      rw [if_pos rfl, get?, get?]
      split_ifs <;> rfl
    · rw [if_neg h, get?, get?, ih]
      by_cases h' : a = k'
      · rw [if_pos h', if_pos h', if_neg (fun h'' => h (h'.trans h''.symm))]
      · rw [if_neg h', if_neg h']

theorem keys_set (d : Dict κ β) (k : κ) (v : β) :
    keys (set d k v) = if k ∈ keys d then keys d else keys d ++ [k] := by
  induction d with
  | nil => rfl
  | cons e d ih =>
    obtain ⟨a, b⟩ := e
    rw [set]
    by_cases h : a = k
    · subst h
      simp [keys]
    · rw [if_neg h]
      have e1 : keys ((a, b) :: set d k v) = a :: keys (set d k v) := rfl
      have e2 : keys ((a, b) :: d) = a :: keys d := rfl
      rw [e1, e2, ih]
      by_cases hm : k ∈ keys d
      · rw [if_pos hm, if_pos (List.mem_cons_of_mem _ hm)]
      · rw [if_neg hm, if_neg (by simp [hm, Ne.symm h])]; rfl

theorem WF.set {d : Dict κ β} (h : WF d) (k : κ) (v : β) : WF (set d k v) := by
  rw [WF, keys_set]
  split_ifs with hk
  · exact h
  · exact List.Nodup.append h (List.nodup_singleton k) (by simpa using hk)

theorem mem_keys_set {d : Dict κ β} {k k' : κ} {v : β} : k' ∈ keys (Dict.set d k v) ↔ k' = k ∨ k' ∈ keys d := by
  rw [keys_set]
  split_ifs with h
  · exact ⟨Or.inr, fun h' => h'.elim (fun e => e ▸ h) id⟩
  · simp [or_comm]

theorem keys_erase (d : Dict κ β) (k : κ) : keys (erase d k) = (keys d).erase k := by
  induction d with
  | nil => rfl
  | cons e d ih =>
    obtain ⟨a, b⟩ := e
    rw [erase]
    by_cases h : a = k
    · subst h; simp [keys]
    · rw [if_neg h]
      have : ((a, b) :: d).map Prod.fst = a :: d.map Prod.fst := rfl
      simp only [keys] at ih ⊢
      rw [this, List.erase_cons_tail (by simpa using h), List.map_cons, ih]

theorem WF.erase {d : Dict κ β} (h : WF d) (k : κ) : WF (erase d k) := by
  rw [WF, keys_erase]
  exact List.Nodup.erase _ h

theorem get?_erase {d : Dict κ β} (h : WF d) (k k' : κ) : get? (erase d k) k' = if k = k' then none else get? d k' := by
  induction d with
  | nil => simp [Dict.erase, get?]
  | cons e d ih =>
    obtain ⟨a, b⟩ := e
    have h' : WF d := (List.nodup_cons.1 h).2
    rw [Dict.erase, get?]
    by_cases ha : a = k
    · subst ha
      rw [if_pos rfl]
      by_cases hk : a = k'
      · rw [if_pos hk, get?_eq_none, ← hk]; exact (List.nodup_cons.1 h).1
      · rw [if_neg hk, if_neg hk]
    · rw [if_neg ha, get?, ih h']
      by_cases hk : k = k'
      · rw [if_pos hk, if_pos hk, if_neg (fun x => ha (x.trans hk.symm))]
      · rw [if_neg hk, if_neg hk]

theorem mem_keys_erase {d : Dict κ β} (h : WF d) {k k' : κ} : k' ∈ keys (Dict.erase d k) ↔ k' ≠ k ∧ k' ∈ keys d := by
  rw [keys_erase, List.Nodup.mem_erase_iff h]

theorem get?_of_mem {d : Dict κ β} (h : WF d) {k : κ} {v : β} (hm : (k, v) ∈ d) : get? d k = some v := by
  induction d with
  | nil => simp at hm
  | cons e d ih =>
    obtain ⟨a, b⟩ := e
    rw [get?]
    rcases List.mem_cons.1 hm with e | hm
    · rw [Prod.mk.injEq] at e
      rw [if_pos e.1.symm, e.2]
    · have : a ≠ k := by
        rintro rfl
        exact (List.nodup_cons.1 h).1 (List.mem_map.2 ⟨_, hm, rfl⟩)
      rw [if_neg this, ih (List.nodup_cons.1 h).2 hm]

theorem mem_of_get? {d : Dict κ β} {k : κ} {v : β} (h : get? d k = some v) : (k, v) ∈ d := by
  induction d with
  | nil => simp [get?] at h
  | cons e d ih =>
    obtain ⟨a, b⟩ := e
    rw [get?] at h
    split_ifs at h with ha
    · injection h with h
      rw [ha, h]; exact List.mem_cons_self
    · exact List.mem_cons_of_mem _ (ih h)

end Dict
end Rosemary
