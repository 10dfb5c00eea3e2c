import Verif.Model.MatrixObjects
import Mathlib.Data.List.Nodup

/-!
# The store model of matrices simulates the list model
-/

namespace Rosemary.MatrixObjects

open Rosemary.Matrices

/-- Two computations both raise the same exception, or both return, with related results. -/
def Sim {α β : Type} (R : α → β → Prop) : Except PyErr α → Except PyErr β → Prop
  | .ok a, .ok b => R a b
  | .error e, .error e' => e = e'
  | _, _ => False

theorem Sim.bind {α β γ δ : Type} {R : α → β → Prop} {Q : γ → δ → Prop} {a : Except PyErr α}
    {b : Except PyErr β} {f : α → Except PyErr γ} {g : β → Except PyErr δ} (h : Sim R a b)
    (hf : ∀ x y, R x y → Sim Q (f x) (g y)) : Sim Q (a >>= f) (b >>= g) := by
  cases a <;> cases b
  · exact h
  · exact h.elim
  · exact h.elim
  · exact hf _ _ h

/-- A value computed in the same way on both sides. -/
theorem Sim.bind_eq {α γ δ : Type} {Q : γ → δ → Prop} {a b : Except PyErr α}
    {f : α → Except PyErr γ} {g : α → Except PyErr δ} (h : a = b)
    (hf : ∀ x, Sim Q (f x) (g x)) : Sim Q (a >>= f) (b >>= g) := by
  subst h
  cases a
  · exact rfl
  · exact hf _

theorem Sim.foldlM {α β γ : Type} {R : α → β → Prop} {f : α → γ → Except PyErr α} {g : β → γ → Except PyErr β}
    (h : ∀ x s M, R s M → Sim R (f s x) (g M x)) (l : List γ) {s : α} {M : β} (h0 : R s M) :
    Sim R (l.foldlM f s) (l.foldlM g M) := by
  induction l generalizing s M with
  | nil => exact h0
  | cons x l ih =>
    rw [List.foldlM_cons, List.foldlM_cons]
    exact (h x s M h0).bind (fun _ _ h1 => ih h1)

theorem Sim.forRange {α β : Type} {R : α → β → Prop} {f : ℕ → α → Except PyErr α} {g : ℕ → β → Except PyErr β}
    (h : ∀ x s M, R s M → Sim R (f x s) (g x M)) (a b : ℕ) {s : α} {M : β} (h0 : R s M) :
    Sim R (Matrices.forRange a b f s) (Matrices.forRange a b g M) :=
  Sim.foldlM (fun x s M hs => h x s M hs) _ h0

/-- The store shows `M` at the rows `m` and is otherwise as in `s0`. -/
def Shows (s0 : Store) (m : List ℕ) (s : Store) (M : Entries) : Prop :=
  s.view m = M ∧ s.next = s0.next ∧ ∀ a, a ∉ m → s.rows a = s0.rows a

theorem getObj_eq (s : Store) (m : List ℕ) (i j : ℕ) : getObj s m i j = get (s.view m) i j := by
  unfold getObj Matrices.get Store.view
  rw [List.getElem?_map]
  cases m[i]? <;> rfl

theorem Shows.get {s0 s : Store} {m : List ℕ} {M : Entries} (h : Shows s0 m s M) (i j : ℕ) :
    getObj s m i j = Matrices.get M i j := by rw [getObj_eq, h.1]

theorem view_congr {s s' : Store} {m : List ℕ} (h : ∀ a ∈ m, s'.rows a = s.rows a) : s'.view m = s.view m :=
  List.map_congr_left h

theorem Shows.get_other {s0 s : Store} {m A : List ℕ} {M : Entries} (h : Shows s0 m s M) (hA : ∀ a ∈ A, a ∉ m)
    (i j : ℕ) : getObj s A i j = Matrices.get (s0.view A) i j := by
  rw [getObj_eq, view_congr (fun a ha => h.2.2 a (hA a ha))]

theorem view_update {s : Store} {m : List ℕ} (hm : m.Nodup) {i a : ℕ} (ha : m[i]? = some a) (r : List ℤ) :
    m.map (Function.update s.rows a r) = (m.map s.rows).set i r := by
  apply List.ext_getElem?
  intro k
  rw [List.getElem?_map, List.getElem?_set, List.getElem?_map, List.length_map]
  obtain ⟨hi, rfl⟩ := List.getElem?_eq_some_iff.1 ha
  by_cases hk : k < m.length
  · rw [List.getElem?_eq_getElem hk]
    by_cases hik : i = k
    · subst hik
      rw [if_pos rfl, if_pos hk]
      simp
    · rw [if_neg hik]
      simp only [Option.map_some]
      rw [Function.update_of_ne]
      intro e
      exact hik ((List.Nodup.getElem_inj_iff hm).1 e).symm
  · rw [List.getElem?_eq_none (by omega)]
    rw [if_neg (by omega)]; rfl

theorem Shows.put {s0 s : Store} {m : List ℕ} {M : Entries} (hm : m.Nodup) (h : Shows s0 m s M) (i j : ℕ) (x : ℤ) :
    Sim (Shows s0 m) (putObj s m i j x) (Matrices.put M i j x) := by
  obtain ⟨rfl, h2, h3⟩ := h
  unfold putObj Matrices.put
  rw [Store.view, List.getElem?_map]
  cases ha : m[i]? with
  | none => exact rfl
  | some a =>
    dsimp only [Option.map_some]
    by_cases hj : j < (s.rows a).length
    · rw [if_pos hj, if_pos hj]
      refine ⟨view_update hm ha _, h2, fun b hb => ?_⟩
      show Function.update s.rows a _ b = _
      rw [Function.update_of_ne, h3 b hb]
      rintro rfl
      exact hb (List.mem_of_getElem? ha)
    · rw [if_neg hj, if_neg hj]; exact rfl

theorem alloc_spec (s : Store) (L : Entries) :
    (s.alloc L).2.Nodup ∧ (s.alloc L).1.view (s.alloc L).2 = L ∧ (∀ a ∈ (s.alloc L).2, s.next ≤ a) ∧
      (s.alloc L).1.Has (s.alloc L).2 ∧ s.next ≤ (s.alloc L).1.next ∧ (s.alloc L).2.length = L.length ∧
      ∀ a, a < s.next → (s.alloc L).1.rows a = s.rows a := by
  refine ⟨List.nodup_range', ?_, ?_, ?_, ?_, ?_, ?_⟩
  · apply List.ext_getElem
    · simp [Store.alloc, Store.view]
    · intro k h1 h2
      simp only [Store.alloc, Store.view, List.getElem_map, List.getElem_range', Nat.one_mul]
      rw [if_pos ⟨by omega, by omega⟩, Nat.add_sub_cancel_left]
      simp [h2]
  · intro a ha; simp only [Store.alloc, List.mem_range'_1] at ha; exact ha.1
  · intro a ha; simp only [Store.alloc, List.mem_range'_1] at ha; exact ha.2
  · simp [Store.alloc]
  · simp [Store.alloc]
  · intro a ha
    simp only [Store.alloc]
    rw [if_neg (by omega)]

/-- The result of an operation: a matrix with new rows that looks like `M`; everything old is as before. -/
structure Fresh (s s' : Store) (R : List ℕ) (M : Entries) : Prop where
  view : s'.view R = M
  nodup : R.Nodup
  new : ∀ a ∈ R, s.next ≤ a
  has : s'.Has R
  next : s.next ≤ s'.next
  old : ∀ a, a < s.next → s'.rows a = s.rows a

theorem construct_sim {s s' : Store} {R : List ℕ} {M : Entries} (h : Fresh s s' R M) :
    Sim (fun p M => Fresh s p.1 p.2 M) (constructObj s' R) (construct M) := by
  have hv := h.view
  cases R with
  | nil => subst hv; exact rfl
  | cons a R => subst hv; exact h

theorem fill_sim (s : Store) (nr nc r c : ℕ) (f : Store → ℕ → ℕ → Except PyErr ℤ) (g : ℕ → ℕ → Except PyErr ℤ)
    (h : ∀ s', (∀ a, a < s.next → s'.rows a = s.rows a) → ∀ i j, f s' i j = g i j) :
    Sim (fun p M => Fresh s p.1 p.2 M) (fill s nr nc r c f)
      (do
        let result ← forRange 0 r (fun i R => forRange 0 c (fun j R => do
          let x ← g i j
          put R i j x) R) (zeros nr nc)
        construct result) := by
  unfold fill
  obtain ⟨h1, h2, h3, h4, h5, h6, h7⟩ := alloc_spec s (zeros nr nc)
  dsimp only
  refine Sim.bind (R := Shows (s.alloc (zeros nr nc)).1 (s.alloc (zeros nr nc)).2) ?_ ?_
  · refine Sim.forRange (fun i s' M hs => ?_) _ _ ⟨h2, rfl, fun _ _ => rfl⟩
    refine Sim.forRange (fun j s' M hs => ?_) _ _ hs
    refine Sim.bind_eq (h s' (fun a ha => ?_) i j) (fun x => hs.put h1 i j x)
    rw [hs.2.2 a (fun hm => by have := h3 a hm; omega), h7 a ha]
  · intro s' M hs
    refine construct_sim ⟨hs.1, h1, h3, ?_, ?_, ?_⟩
    · intro a ha; rw [hs.2.1]; exact h4 a ha
    · rw [hs.2.1]; exact h5
    · intro a ha
      rw [hs.2.2 a (fun hm => by have := h3 a hm; omega), h7 a ha]

theorem findRow_eq {s0 s : Store} {m : List ℕ} {M : Entries} (h : Shows s0 m s M) (k : ℕ) (is : List ℕ) (i : Option ℕ) :
    findRowObj s m k is i = findRow M k is i := by
  induction is generalizing i with
  | nil => rfl
  | cons j is ih =>
    unfold findRowObj findRow
    rw [h.get]
    congr 1
    funext x
    split
    · rfl
    · exact ih _

theorem exchange_sim {s0 s : Store} {m : List ℕ} {M : Entries} (hm : m.Nodup) (h : Shows s0 m s M) (n i k : ℕ) :
    Sim (Shows s0 m) (exchangeObj m n i k s) (exchange n i k M) := by
  refine Sim.forRange (fun j s M hs => ?_) _ _ h
  refine Sim.bind_eq (hs.get k j) fun a => Sim.bind_eq (hs.get i j) fun b => ?_
  exact (hs.put hm i j a).bind fun s M hs => hs.put hm k j b

theorem eliminate_sim {s0 s : Store} {m : List ℕ} {M : Entries} (hm : m.Nodup) (h : Shows s0 m s M) (n k : ℕ)
    (pivot den : ℤ) : Sim (Shows s0 m) (eliminateObj m n k pivot den s) (eliminate n k pivot den M) := by
  refine Sim.forRange (fun i s M hs => ?_) _ _ h
  refine Sim.forRange (fun j s M hs => ?_) _ _ hs
  refine Sim.bind_eq (hs.get i j) fun x => Sim.bind_eq (hs.get i k) fun y => Sim.bind_eq (hs.get k j) fun z => ?_
  split
  · exact rfl
  · exact hs.put hm i j _

theorem detLoop_sim {s0 s : Store} {m : List ℕ} {M : Entries} (hm : m.Nodup) (n rem k : ℕ) (h : Shows s0 m s M)
    (den sign : ℤ) (i : Option ℕ) :
    Sim (fun p q => p.1 = q.1 ∧ Shows s0 m p.2 q.2) (detLoopObj m n rem k s den sign i) (detLoop n rem k M den sign i) := by
  induction rem generalizing k s M den sign i with
  | zero =>
    unfold detLoopObj detLoop
    exact Sim.bind_eq (h.get _ _) fun x => ⟨rfl, h⟩
  | succ rem ih =>
    unfold detLoopObj detLoop
    refine Sim.bind_eq (h.get _ _) fun pivot => ?_
    split
    · refine Sim.bind_eq (findRow_eq h _ _ _) fun i => ?_
      cases i with
      | none => exact rfl
      | some i =>
        dsimp only
        split
        · exact ⟨rfl, h⟩
        · refine (exchange_sim hm h n i k).bind fun s M hs => ?_
          refine Sim.bind_eq (hs.get _ _) fun pivot => ?_
          refine (eliminate_sim hm hs n k pivot den).bind fun s M hs => ?_
          exact ih _ hs _ _ _
    · refine (eliminate_sim hm h n k pivot den).bind fun s M hs => ?_
      exact ih _ hs _ _ _

theorem determinant_sim (s : Store) {m : List ℕ} (hm : m.Nodup) :
    Sim (fun p q => p.1 = q.1 ∧ Shows s m p.2 q.2) (determinantObj s m) (determinant (s.view m)) := by
  unfold determinantObj determinant
  rw [show nrows (s.view m) = m.length by simp [nrows, Store.view]]
  rw [show ncols (s.view m) = ncolsObj s m from rfl]
  split
  · exact rfl
  · exact detLoop_sim hm _ _ _ ⟨rfl, rfl, fun _ _ => rfl⟩ _ _ _

end Rosemary.MatrixObjects
