import Verif.Props.Paths
import Verif.Lemmas.IteratorEdits

/-!
# Callers that change the lists given by `dijkstra_iterator` (C169)
-/

namespace Rosemary.Props

open Rosemary.Graph Rosemary.Paths Rosemary.Spec

variable {V W : Type} [LinearOrder V] [AddCommMonoid W] [LinearOrder W]

/-- The behaviour of a caller that changes nothing is the one of C67. -/
theorem C169_unedited (g : Graph V W) (s : V) (r) (h : dijkstraIterator g s = some r) :
    dijkstraIteratorEdit (fun _ _ p => p) g s = some r := by
  unfold dijkstraIterator at h
  unfold dijkstraIteratorEdit
  split_ifs at h ⊢
  · exact iteratorEdit_id g _ _ _ _ h
  · exact h

variable [IsOrderedCancelAddMonoid W]

/-- C169, the part that holds: whatever the caller does to the lists, for nonnegative weights the generator ends and yields
exactly the vertices that can be reached, each once, by nondecreasing distance, each with its distance, and each with a list
that ends with the vertex.  That the lists are paths from `s` is missing (see the next theorem). -/
theorem C169_edited_paths_partial (edit : V → W → List V → List V) (ops : List (Op V W)) (hN : Nonneg ops) (s : V)
    (hs : s ∈ (toAbs (history ops)).verts) :
    ∃ l, dijkstraIteratorEdit edit (history ops) s = some (.ok l) ∧
      (∃ l0, dijkstraIterator (history ops) s = some (.ok l0) ∧
        l.map (fun e => (e.1, e.2.1)) = l0.map (fun e => (e.1, e.2.1))) ∧
      (l.map Prod.fst).Nodup ∧
      (∀ v, v ∈ l.map Prod.fst ↔ ∃ p c, WalkOf (toAbs (history ops)).weight s p v c) ∧
      l.Pairwise (fun e f => e.2.1 ≤ f.2.1) ∧
      ∀ v d p, (v, d, p) ∈ l → IsShortest (toAbs (history ops)).weight s v d ∧ p.getLast? = some v := by
  obtain ⟨l0, h0, h1, h2, h3, h4⟩ := C67_iterator ops hN s hs
  have h0' := h0
  unfold dijkstraIterator at h0
  have hsk : ¬ s ∉ Dict.keys (history ops) := by
    intro hc
    rw [if_pos hc] at h0
    cases h0
  rw [if_neg hsk] at h0
  obtain ⟨r, hr, hst⟩ := iteratorEdit_sim edit (history ops) _ _ _ _ h0 _ (List.Perm.refl _)
  cases r with
  | error e => simp [strip, Except.map] at hst
  | ok l =>
    simp only [strip, Except.map, Except.ok.injEq] at hst
    have hf : l.map Prod.fst = l0.map Prod.fst := by
      have := congrArg (List.map Prod.fst) hst
      simpa only [List.map_map, Function.comp_def] using this
    refine ⟨l, ?_, ⟨l0, h0', hst⟩, hf ▸ h1, fun v => by rw [hf]; exact h2 v, ?_, ?_⟩
    · rw [dijkstraIteratorEdit, if_neg hsk]; exact hr
    · have q : (l0.map (fun e => (e.1, e.2.1))).Pairwise (fun e f => e.2 ≤ f.2) := List.pairwise_map.2 h3
      rw [← hst, List.pairwise_map] at q
      exact q
    · intro v d p hp
      have hm : (v, d) ∈ l0.map (fun e => (e.1, e.2.1)) := by
        rw [← hst]
        exact List.mem_map.2 ⟨_, hp, rfl⟩
      obtain ⟨⟨v', d', p'⟩, hp', he⟩ := List.mem_map.1 hm
      simp only [Prod.mk.injEq] at he
      obtain ⟨rfl, rfl⟩ := he
      refine ⟨(h4 _ _ _ hp').1, ?_⟩
      refine iteratorEdit_last edit (history ops) _ _ _ _ hr ?_ l rfl _ hp
      intro e he
      rw [List.mem_singleton.1 he]
      rfl

omit [IsOrderedCancelAddMonoid W] in
theorem walkOf_head {A : V → V → Option W} {s v : V} {p : List V} {c : W} (h : WalkOf A s p v c) : p.head? = some s := by
  induction h with
  | start => rfl
  | step _ _ ih =>
    rw [List.head?_append, ih]
    rfl

/-- With a caller that empties the lists, every heap entry consists of its vertex alone. -/
theorem iteratorEdit_clear (g : Graph V W) :
    ∀ D H vis r, iteratorEditLoop (fun _ _ _ => []) g D H vis = some r → (∀ e ∈ H, e.2.2 = [e.2.1]) →
      ∀ l, r = .ok l → ∀ e ∈ l, e.2.2 = [e.1] := by
  have hrel : ∀ (w : W) (N : Dict V W) (D : Dict V (WithTop W)) (H : List (W × V × List V)) D1 R,
      relaxPath w [] N D H = .ok (D1, R) → (∀ e ∈ H, e.2.2 = [e.2.1]) → ∀ e ∈ R, e.2.2 = [e.2.1] := by
    intro w N
    induction N with
    | nil =>
      intro D H D1 R h hH
      simp only [relaxPath, Except.ok.injEq, Prod.mk.injEq] at h
      rw [← h.2]
      exact hH
    | cons a N ih =>
      intro D H D1 R h hH
      obtain ⟨v, x⟩ := a
      rw [relaxPath] at h
      cases hg : Dict.get? D v with
      | none => rw [hg] at h; cases h
      | some dv =>
        rw [hg] at h
        dsimp only at h
        split_ifs at h
        · refine ih _ _ _ _ h ?_
          intro e he
          rcases List.mem_cons.1 he with rfl | he
          · rfl
          · exact hH e he
        · exact ih _ _ _ _ h hH
  refine iteratorEditLoop.partial_correctness (fun _ _ _ => []) g
    (fun D H vis r => (∀ e ∈ H, e.2.2 = [e.2.1]) → ∀ l, r = .ok l → ∀ e ∈ l, e.2.2 = [e.1]) ?_
  intro f ih D H vis r hr hH l hl
  subst hl
  cases hp : popMin key3 H with
  | none =>
    rw [hp] at hr
    simp only [Option.some.injEq, Except.ok.injEq] at hr
    subst hr
    simp
  | some q =>
    obtain ⟨⟨w, u, p⟩, R⟩ := q
    obtain ⟨a1, -⟩ := popMin_perm' _ _ _ _ hp
    have hR : ∀ e ∈ R, e.2.2 = [e.2.1] := fun e he => hH e (a1.symm.subset (List.mem_cons_of_mem _ he))
    rw [hp] at hr
    dsimp only at hr
    split_ifs at hr with hv
    · exact ih _ _ _ _ hr hR l rfl
    · cases hN : Dict.get? g u with
      | none => rw [hN] at hr; cases hr
      | some N =>
        rw [hN] at hr
        dsimp only at hr
        cases hx : relaxPath w [] N D R with
        | error e => rw [hx] at hr; cases hr
        | ok q =>
          obtain ⟨D1, S⟩ := q
          rw [hx] at hr
          dsimp only at hr
          rw [Option.bind_eq_bind, Option.bind_eq_some_iff] at hr
          obtain ⟨a, ha, hb⟩ := hr
          cases a with
          | error e => cases hb
          | ok l' =>
            simp only [Option.some.injEq, Except.ok.injEq] at hb
            subst hb
            intro e he
            rcases List.mem_cons.1 he with rfl | he
            · exact hH _ (a1.symm.subset List.mem_cons_self)
            · exact ih _ _ _ _ ha (hrel _ _ _ _ _ _ hx hR) l' rfl e he

/-- C169, violation: on every graph, for a caller that empties each list it is given before it asks for the next tuple, no
vertex other than `s` is yielded with a path from `s`. -/
theorem C169_edited_paths_violation (ops : List (Op V W)) (hN : Nonneg ops) (s : V)
    (hs : s ∈ (toAbs (history ops)).verts) :
    ∃ l, dijkstraIteratorEdit (fun _ _ _ => []) (history ops) s = some (.ok l) ∧
      (∀ v, v ∈ l.map Prod.fst ↔ ∃ p c, WalkOf (toAbs (history ops)).weight s p v c) ∧
      ∀ v d p, (v, d, p) ∈ l → v ≠ s → ∀ c, ¬ WalkOf (toAbs (history ops)).weight s p v c := by
  obtain ⟨l, h0, -, -, h1, -⟩ := C169_edited_paths_partial (fun _ _ _ => []) ops hN s hs
  refine ⟨l, h0, h1, ?_⟩
  intro v d p hp hv c hw
  unfold dijkstraIteratorEdit at h0
  have hsk : ¬ s ∉ Dict.keys (history ops) := by
    intro hc
    rw [if_pos hc] at h0
    cases h0
  rw [if_neg hsk] at h0
  have := iteratorEdit_clear (history ops) _ _ _ _ h0 (by
    intro e he
    rw [List.mem_singleton.1 he]) l rfl _ hp
  dsimp only at this
  have h2 := walkOf_head hw
  rw [this] at h2
  simp only [List.head?_cons, Option.some.injEq] at h2
  exact hv h2

/-- With fuel, for examples. -/
def iteratorEditLoopN (edit : V → W → List V → List V) (g : Graph V W) : ℕ → Dict V (WithTop W) →
    List (W × V × List V) → Finset V → Option (Except PyErr (List (V × W × List V)))
  | 0, _, _, _ => none
  | fuel + 1, D, H, vis =>
    match popMin key3 H with
    | none => some (.ok [])
    | some ((w, u, path), H) =>
      if u ∈ vis then iteratorEditLoopN edit g fuel D H vis
      else
        match Dict.get? g u with
        | none => some (.error .keyError)
        | some N =>
          match relaxPath w (edit u w path) N D H with
          | .error e => some (.error e)
          | .ok (D, H) => do
            let r ← iteratorEditLoopN edit g fuel D H (insert u vis)
            match r with
            | .error e => some (.error e)
            | .ok l => some (.ok ((u, w, path) :: l))

omit [IsOrderedCancelAddMonoid W] in
theorem iteratorEditLoop_of_fuel (edit : V → W → List V → List V) (g : Graph V W) (fuel : ℕ) (D : Dict V (WithTop W))
    (H : List (W × V × List V)) (vis : Finset V) (r) (h : iteratorEditLoopN edit g fuel D H vis = some r) :
    iteratorEditLoop edit g D H vis = some r := by
  induction fuel generalizing D H vis r with
  | zero => simp [iteratorEditLoopN] at h
  | succ fuel ih =>
    rw [iteratorEditLoop.eq_def]
    rw [iteratorEditLoopN] at h
    split at h <;> rename_i e <;> rw [e] <;> dsimp only
    · exact h
    · split_ifs at h ⊢
      · exact ih _ _ _ _ h
      · split at h <;> rename_i e2 <;> rw [e2] <;> dsimp only
        · exact h
        · split at h <;> rename_i e3 <;> rw [e3] <;> dsimp only
          · exact h
          · rw [Option.bind_eq_bind, Option.bind_eq_some_iff] at h ⊢
            obtain ⟨a, ha, hb⟩ := h
            exact ⟨a, ih _ _ _ _ ha, hb⟩

/-- A caller that reverses each path in place: the later paths are jumbled, the distances are right. -/
example : dijkstraIteratorEdit (fun _ _ p => p.reverse) (history pathOps) 0 = some (.ok
    [(0, 0, [0]), (1, 2, [0, 1]), (2, 4, [1, 0, 2]), (3, 5, [2, 0, 1, 3])]) := by
  rw [dijkstraIteratorEdit, if_neg (by decide +kernel)]
  exact iteratorEditLoop_of_fuel _ _ 20 _ _ _ _ (by decide +kernel)

example : dijkstraIteratorEdit (fun _ _ _ => []) (history pathOps) 0 = some (.ok
    [(0, 0, [0]), (1, 2, [1]), (2, 4, [2]), (3, 5, [3])]) := by
  rw [dijkstraIteratorEdit, if_neg (by decide +kernel)]
  exact iteratorEditLoop_of_fuel _ _ 20 _ _ _ _ (by decide +kernel)

end Rosemary.Props
