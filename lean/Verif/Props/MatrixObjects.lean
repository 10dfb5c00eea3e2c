import Verif.Lemmas.MatrixObjects
import Verif.Props.Matrices

/-!
# C142: matrices that share rows

A matrix object is the list of the addresses of its rows in a store (Model/MatrixObjects.lean).
`s.view A` is the matrix that `A` shows in the store `s`, and `s.Has A` says that the rows of `A` have
been allocated.
-/

namespace Rosemary.Props

open Rosemary Rosemary.Matrices Rosemary.MatrixObjects

/-! ### What a change of a matrix can affect -/

private def Post {α : Type} (P : α → Prop) (x : Except PyErr α) : Prop := ∀ a, x = .ok a → P a

private theorem Post.bind {α β : Type} {P : α → Prop} {Q : β → Prop} {x : Except PyErr α} {f : α → Except PyErr β}
    (h : Post P x) (hf : ∀ a, P a → Post Q (f a)) : Post Q (x >>= f) := by
  cases x with
  | error e => intro b hb; cases hb
  | ok a => exact hf a (h a rfl)

private theorem Post.bind' {α β : Type} {Q : β → Prop} {x : Except PyErr α} {f : α → Except PyErr β}
    (hf : ∀ a, Post Q (f a)) : Post Q (x >>= f) := Post.bind (P := fun _ => True) (fun _ _ => trivial) fun a _ => hf a

private theorem Post.forRange {α : Type} {P : α → Prop} {f : ℕ → α → Except PyErr α}
    (h : ∀ x s, P s → Post P (f x s)) (a b : ℕ) {s : α} (h0 : P s) : Post P (Matrices.forRange a b f s) := by
  unfold Matrices.forRange
  induction List.range' a (b - a) generalizing s with
  | nil => intro t ht; cases ht; exact h0
  | cons x l ih =>
    rw [List.foldlM_cons]
    exact (h x s h0).bind fun _ h1 => ih h1

private theorem post_put {s0 s : Store} {m : List ℕ} (h : ∀ a, a ∉ m → s.rows a = s0.rows a) (i j : ℕ) (x : ℤ) :
    Post (fun s' => ∀ a, a ∉ m → s'.rows a = s0.rows a) (putObj s m i j x) := by
  unfold putObj
  split
  · intro s' hs; cases hs
  · rename_i a ha
    split
    · intro s' hs b hb
      cases hs
      show Function.update s.rows a _ b = _
      rw [Function.update_of_ne, h b hb]
      rintro rfl
      exact hb (List.mem_of_getElem? ha)
    · intro s' hs; cases hs

private theorem post_detLoop {s0 s : Store} {m : List ℕ} (n rem k : ℕ) (h : ∀ a, a ∉ m → s.rows a = s0.rows a)
    (den sign : ℤ) (i : Option ℕ) :
    Post (fun p => ∀ a, a ∉ m → p.2.rows a = s0.rows a) (detLoopObj m n rem k s den sign i) := by
  have elim : ∀ (pivot : ℤ) (s : Store), (∀ a, a ∉ m → s.rows a = s0.rows a) →
      Post (fun s' => ∀ a, a ∉ m → s'.rows a = s0.rows a) (eliminateObj m n k pivot den s) := by
    intro pivot s hs
    refine Post.forRange (fun i s hs => ?_) _ _ hs
    refine Post.forRange (fun j s hs => ?_) _ _ hs
    refine Post.bind' fun x => Post.bind' fun y => Post.bind' fun z => ?_
    split
    · intro s' h; cases h
    · exact post_put hs _ _ _
  induction rem generalizing k s den sign i with
  | zero =>
    unfold detLoopObj
    refine Post.bind' fun x => ?_
    intro p hp; cases hp; exact h
  | succ rem ih =>
    unfold detLoopObj
    refine Post.bind' fun pivot => ?_
    split
    · refine Post.bind' fun i => ?_
      cases i with
      | none => intro p hp; cases hp
      | some i =>
        dsimp only
        split
        · intro p hp; cases hp; exact h
        · refine Post.bind (P := fun s' => ∀ a, a ∉ m → s'.rows a = s0.rows a) ?_ fun s hs => ?_
          · refine Post.forRange (fun j s hs => ?_) _ _ h
            refine Post.bind' fun a => Post.bind' fun b => ?_
            exact (post_put hs _ _ _).bind fun s hs => post_put hs _ _ _
          · refine Post.bind' fun pivot => ?_
            refine (elim pivot s hs).bind fun s hs => ?_
            refine ih _ hs _ _ _ ?_
            intro pivot s hs
            refine Post.forRange (fun i s hs => ?_) _ _ hs
            refine Post.forRange (fun j s hs => ?_) _ _ hs
            refine Post.bind' fun x => Post.bind' fun y => Post.bind' fun z => ?_
            split
            · intro s' h; cases h
            · exact post_put hs _ _ _
    · refine (elim pivot s h).bind fun s hs => ?_
      refine ih _ hs _ _ _ ?_
      intro pivot s hs
      refine Post.forRange (fun i s hs => ?_) _ _ hs
      refine Post.forRange (fun j s hs => ?_) _ _ hs
      refine Post.bind' fun x => Post.bind' fun y => Post.bind' fun z => ?_
      split
      · intro s' h; cases h
      · exact post_put hs _ _ _

/-- C142: assigning to an entry of a matrix and computing its determinant do not change a matrix with
which it shares no row. -/
theorem C142_disjoint (s : Store) (m C : List ℕ) (h : ∀ a ∈ C, a ∉ m) :
    (∀ i j x s', putObj s m i j x = .ok s' → s'.view C = s.view C) ∧
    (∀ d s', determinantObj s m = .ok (d, s') → s'.view C = s.view C) := by
  constructor
  · intro i j x s' hs
    exact view_congr fun a ha => post_put (fun _ _ => rfl) i j x s' hs a (h a ha)
  · intro d s' hs
    unfold determinantObj at hs
    split at hs
    · cases hs
    · exact view_congr fun a ha => post_detLoop _ _ _ (fun _ _ => rfl) _ _ _ (d, s') hs a (h a ha)

/-- The matrix `R` of the store `s'` is independent of all matrices of `s`: these look as before, and
remain so when `R` is changed; `R` does not change with them. -/
structure Independent (s s' : Store) (R : List ℕ) : Prop where
  same : ∀ C, s.Has C → s'.view C = s.view C
  put : ∀ C, s.Has C → ∀ i j x s'', putObj s' R i j x = .ok s'' → s''.view C = s.view C
  det : ∀ C, s.Has C → ∀ d s'', determinantObj s' R = .ok (d, s'') → s''.view C = s.view C
  put' : ∀ C, s.Has C → ∀ i j x s'', putObj s' C i j x = .ok s'' → s''.view R = s'.view R
  det' : ∀ C, s.Has C → ∀ d s'', determinantObj s' C = .ok (d, s'') → s''.view R = s'.view R

private theorem fresh_independent {s s' : Store} {R : List ℕ} {M : Entries} (h : Fresh s s' R M) : Independent s s' R := by
  have h1 : ∀ C, s.Has C → ∀ a ∈ C, a ∉ R := fun C hC a ha hR => by
    have := hC a ha; have := h.new a hR; omega
  have h2 : ∀ C, s.Has C → ∀ a ∈ R, a ∉ C := fun C hC a ha hR => by
    have := hC a hR; have := h.new a ha; omega
  have h3 : ∀ C, s.Has C → s'.view C = s.view C := fun C hC => view_congr fun a ha => h.old a (hC a ha)
  refine ⟨h3, ?_, ?_, ?_, ?_⟩
  · intro C hC i j x s'' hs
    rw [(C142_disjoint s' R C (h1 C hC)).1 i j x s'' hs, h3 C hC]
  · intro C hC d s'' hs
    rw [(C142_disjoint s' R C (h1 C hC)).2 d s'' hs, h3 C hC]
  · intro C hC i j x s'' hs
    rw [(C142_disjoint s' C R (h2 C hC)).1 i j x s'' hs]
  · intro C hC d s'' hs
    rw [(C142_disjoint s' C R (h2 C hC)).2 d s'' hs]

private theorem of_sim {s : Store} {x : Except PyErr (Store × List ℕ)} {M : Entries}
    (h : Sim (fun p M => Fresh s p.1 p.2 M) x (.ok M)) :
    ∃ s' R, x = .ok (s', R) ∧ s'.view R = M ∧ Independent s s' R := by
  cases x with
  | error e => exact h.elim
  | ok p => exact ⟨p.1, p.2, rfl, h.view, fresh_independent h⟩

private theorem old_get {s s' : Store} {A : List ℕ} (hA : s.Has A) (h : ∀ a, a < s.next → s'.rows a = s.rows a) (i j : ℕ) :
    getObj s' A i j = Matrices.get (s.view A) i j := by
  rw [getObj_eq, view_congr fun a ha => h a (hA a ha)]

private theorem length_of_view {s : Store} {A : List ℕ} {r c : ℕ} {X : Matrix (Fin r) (Fin c) ℤ} (h : s.view A = rowsOf X) :
    A.length = r := by
  have := congrArg List.length h
  simpa [Store.view, rowsOf] using this

private theorem bind_assoc' {α β γ : Type} (x : Except PyErr α) (f : α → Except PyErr β) (g : β → Except PyErr γ) :
    (x >>= f) >>= g = x >>= fun a => f a >>= g := by cases x <;> rfl

/-- C142: sums, differences, negatives, multiples and products are new matrices, independent of all
matrices that existed before. -/
theorem C142_arithmetic {r c : ℕ} (hr : 0 < r) (s : Store) (A B : List ℕ) (hA : s.Has A) (hB : s.Has B)
    (X Y : Matrix (Fin r) (Fin c) ℤ) (hX : s.view A = rowsOf X) (hY : s.view B = rowsOf Y) (x : ℤ) :
    (∃ s' R, addObj s A B = .ok (s', R) ∧ s'.view R = rowsOf (X + Y) ∧ Independent s s' R) ∧
    (∃ s' R, subObj s A B = .ok (s', R) ∧ s'.view R = rowsOf (X - Y) ∧ Independent s s' R) ∧
    (∃ s' R, negObj s A = .ok (s', R) ∧ s'.view R = rowsOf (-X) ∧ Independent s s' R) ∧
    (∃ s' R, scaleObj s A x = .ok (s', R) ∧ s'.view R = rowsOf (x • X) ∧ Independent s s' R) := by
  have hl : A.length = nrows (rowsOf X) := by rw [← hX]; simp [nrows, Store.view]
  have hc : ncolsObj s A = ncols (rowsOf X) := by rw [← hX]; rfl
  refine ⟨of_sim ?_, of_sim ?_, of_sim ?_, of_sim ?_⟩
  · rw [← C51_add hr]
    unfold addObj add
    rw [if_neg (by simp), hl, hc]
    have := fill_sim s (nrows (rowsOf X)) (ncols (rowsOf X)) (nrows (rowsOf X)) (ncols (rowsOf X))
      (fun s i j => do
        let x ← getObj s A i j
        let y ← getObj s B i j
        .ok (x + y))
      (fun i j => do
        let x ← Matrices.get (rowsOf X) i j
        let y ← Matrices.get (rowsOf Y) i j
        .ok (x + y)) (fun s' hs i j => by rw [old_get hA hs, old_get hB hs, hX, hY])
    simp only [bind_assoc'] at this
    exact this
  · rw [← C51_sub hr]
    unfold subObj sub
    rw [hl, hc]
    have := fill_sim s (nrows (rowsOf X)) (ncols (rowsOf X)) (nrows (rowsOf X)) (ncols (rowsOf X))
      (fun s i j => do
        let x ← getObj s A i j
        let y ← getObj s B i j
        .ok (x - y))
      (fun i j => do
        let x ← Matrices.get (rowsOf X) i j
        let y ← Matrices.get (rowsOf Y) i j
        .ok (x - y)) (fun s' hs i j => by rw [old_get hA hs, old_get hB hs, hX, hY])
    simp only [bind_assoc'] at this
    exact this
  · rw [← C51_neg hr]
    unfold negObj neg
    rw [hl, hc]
    have := fill_sim s (nrows (rowsOf X)) (ncols (rowsOf X)) (nrows (rowsOf X)) (ncols (rowsOf X))
      (fun s i j => do
        let x ← getObj s A i j
        .ok (-x))
      (fun i j => do
        let x ← Matrices.get (rowsOf X) i j
        .ok (-x)) (fun s' hs i j => by rw [old_get hA hs, hX])
    simp only [bind_assoc'] at this
    exact this
  · rw [← C51_scale hr]
    unfold scaleObj scale
    rw [hl, hc]
    have := fill_sim s (nrows (rowsOf X)) (ncols (rowsOf X)) (nrows (rowsOf X)) (ncols (rowsOf X))
      (fun s i j => do
        let y ← getObj s A i j
        .ok (x * y))
      (fun i j => do
        let y ← Matrices.get (rowsOf X) i j
        .ok (x * y)) (fun s' hs i j => by rw [old_get hA hs, hX])
    simp only [bind_assoc'] at this
    have this : Sim (fun (p : Store × List ℕ) (M : Entries) => Fresh s p.1 p.2 M) _ (do
      let result ← forRange 0 (nrows (rowsOf X)) (fun i R => forRange 0 (ncols (rowsOf X)) (fun j R => do
        let y ← Matrices.get (rowsOf X) i j
        put R i j (x * y)) R) (zeros (nrows (rowsOf X)) (ncols (rowsOf X)))
      construct result) := this
    revert this
    generalize fill s _ _ _ _ _ = u
    generalize (do
      let result ← forRange 0 (nrows (rowsOf X)) (fun i R => forRange 0 (ncols (rowsOf X)) (fun j R => do
        let y ← Matrices.get (rowsOf X) i j
        put R i j (x * y)) R) (zeros (nrows (rowsOf X)) (ncols (rowsOf X)))
      construct result) = v
    intro h
    cases u <;> cases v
    · exact rfl
    · exact h.elim
    · exact h.elim
    · exact h

/-- C142: products. -/
theorem C142_product {n p : ℕ} (hn : 0 < n) (hp : 0 < p) (s : Store) (A B : List ℕ) (hA : s.Has A) (hB : s.Has B)
    (X : Matrix (Fin n) (Fin p) ℤ) (Y : Matrix (Fin p) (Fin n) ℤ) (hX : s.view A = rowsOf X) (hY : s.view B = rowsOf Y) :
    ∃ s' R, mulObj s A B = .ok (s', R) ∧ s'.view R = rowsOf (X * Y) ∧ Independent s s' R := by
  have hl : A.length = nrows (rowsOf X) := by rw [← hX]; simp [nrows, Store.view]
  have hl' : B.length = nrows (rowsOf Y) := by rw [← hY]; simp [nrows, Store.view]
  have hc : ncolsObj s A = ncols (rowsOf X) := by rw [← hX]; rfl
  have hc' : ncolsObj s B = ncols (rowsOf Y) := by rw [← hY]; rfl
  apply of_sim
  rw [← C51_mul_partial hn hp]
  unfold mulObj mul
  rw [hl, hl', hc, hc']
  split
  · exact rfl
  · refine fill_sim s _ _ _ _ _ _ ?_
    intro s' hs i j
    congr 1
    funext k t
    rw [old_get hA hs, old_get hB hs, hX, hY]

/-- C142: `delete_col` makes new rows. -/
theorem C142_delete_col {r c : ℕ} (hr : 0 < r) (s : Store) (A : List ℕ)
    (X : Matrix (Fin r) (Fin (c + 1)) ℤ) (hX : s.view A = rowsOf X) (j : Fin (c + 1)) :
    ∃ s' R, deleteColObj s A j = .ok (s', R) ∧ s'.view R = rowsOf (X.submatrix id j.succAbove) ∧ Independent s s' R := by
  apply of_sim
  rw [← C51_delete_col hr]
  unfold deleteColObj deleteCol
  rw [hX]
  obtain ⟨h1, h2, h3, h4, h5, h6, h7⟩ := alloc_spec s ((rowsOf X).map (fun row => row.eraseIdx j))
  exact construct_sim ⟨h2, h1, h3, h4, h5, h7⟩

/-- C142: on a matrix whose rows are different objects `determinant` behaves as in the model of C91. -/
theorem C142_determinant {n : ℕ} (hn : 2 ≤ n) (s : Store) (A : List ℕ) (hA : A.Nodup) (X : Matrix (Fin n) (Fin n) ℤ)
    (hX : s.view A = rowsOf X) :
    ∃ d s', determinantObj s A = .ok (d, s') ∧ (d = X.det ∨ d = 0) := by
  have h := determinant_sim s hA
  obtain ⟨d, m', h1, h2⟩ := C91_determinant_partial hn X
  rw [hX, h1] at h
  cases hd : determinantObj s A with
  | error e => rw [hd] at h; exact h.elim
  | ok p =>
    rw [hd] at h
    exact ⟨p.1, p.2, rfl, by rw [h.1]; exact h2⟩

/-- C142 is false for `delete_row`: the rows are shared, and every assignment that changes an entry of
the result changes the original matrix. -/
theorem C142_delete_row_violation (s : Store) (A : List ℕ) (idx i j : ℕ) (x : ℤ) (s' : Store)
    (hput : putObj s (A.eraseIdx idx) i j x = .ok s') (hne : getObj s (A.eraseIdx idx) i j ≠ .ok x) :
    deleteRowObj s A idx = .ok (s, A.eraseIdx idx) ∧ s'.view A ≠ s.view A := by
  unfold putObj at hput
  unfold getObj at hne
  cases ha : (A.eraseIdx idx)[i]? with
  | none => rw [ha] at hput; cases hput
  | some a =>
    rw [ha] at hput hne
    dsimp only at hput hne
    have hmem : a ∈ A.eraseIdx idx := List.mem_of_getElem? ha
    split at hput
    · rename_i hj
      cases hput
      constructor
      · unfold deleteRowObj constructObj
        cases hA : A.eraseIdx idx with
        | nil => rw [hA] at hmem; cases hmem
        | cons b l => rfl
      · intro h
        have h1 := List.map_inj_left.1 h a (List.mem_of_mem_eraseIdx hmem)
        dsimp only at h1
        rw [Function.update_self] at h1
        have h2 := congrArg (fun l : List ℤ => l[j]?) h1
        simp only [List.getElem?_set, if_pos, hj] at h2
        rw [← h2] at hne
        exact hne rfl
    · cases hput

/-- C142 is false for `delete_row`: `B = A.delete_row(2); B.determinant()` changes `A`. -/
theorem C142_delete_row_determinant :
    let s : Store := ⟨fun a => [[2, 0], [0, 3], [1, 1]].getD a [], 3⟩
    deleteRowObj s [0, 1, 2] 2 = .ok (s, [0, 1]) ∧
    (determinantObj s [0, 1]).map (fun p => (p.1, p.2.view [0, 1, 2])) = .ok (6, [[2, 0], [0, 6], [1, 1]]) ∧
    s.view [0, 1, 2] = [[2, 0], [0, 3], [1, 1]] := by
  refine ⟨rfl, by decide +kernel, by decide +kernel⟩

/-- C142 is false for the constructor: `A = Matrix(rows); B = Matrix(rows)` have the same rows. -/
theorem C142_constructor_violation (s : Store) (rows : List ℕ) (hr : rows ≠ []) :
    constructObj s rows = .ok (s, rows) ∧
    ∀ i j x s', putObj s rows i j x = .ok s' → getObj s' rows i j = .ok x := by
  constructor
  · cases rows with
    | nil => exact absurd rfl hr
    | cons a l => rfl
  · intro i j x s' h
    unfold putObj at h
    unfold getObj
    cases ha : rows[i]? with
    | none => rw [ha] at h; cases h
    | some a =>
      rw [ha] at h
      dsimp only at h ⊢
      split at h
      · rename_i hj
        cases h
        simp [hj]
      · cases h

/-- Two matrices and their sum. -/
example : (addObj ⟨fun a => [[1, 2], [3, 4], [5, 6], [7, 8]].getD a [], 4⟩ [0, 1] [2, 3]).map
    (fun p => (p.2, p.1.view p.2)) = .ok ([4, 5], [[6, 8], [10, 12]]) := by decide +kernel

end Rosemary.Props
