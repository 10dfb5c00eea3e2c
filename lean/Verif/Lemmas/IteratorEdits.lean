import Verif.Model.IteratorEdits
import Verif.Lemmas.Paths

namespace Rosemary.Paths

open Graph

variable {V W : Type} [LinearOrder V] [AddCommMonoid W] [LinearOrder W]

/-- Vertex and distance of the tuples. -/
def strip (r : Except PyErr (List (V × W × List V))) : Except PyErr (List (V × W)) :=
  r.map (List.map (fun e => (e.1, e.2.1)))

/-- Keys of heap entries. -/
def heads (H : List (W × V × List V)) : List (W × V) := H.map (fun e => (e.1, e.2.1))

theorem popMin_perm' {α β : Type} [LinearOrder β] (key : α → β) (H : List α) (e : α) (r : List α)
    (h : popMin key H = some (e, r)) : H.Perm (e :: r) ∧ ∀ f ∈ H, key e ≤ key f := by
  induction H generalizing e r with
  | nil => simp [popMin] at h
  | cons a l ih =>
    rw [popMin] at h
    cases hp : popMin key l with
    | none =>
      rw [hp] at h
      have hl : l = [] := by
        cases l with
        | nil => rfl
        | cons b l =>
          rw [popMin] at hp
          split at hp
          · cases hp
          · split_ifs at hp
      subst hl
      simp only [Option.some.injEq, Prod.mk.injEq] at h
      obtain ⟨rfl, rfl⟩ := h
      simp
    | some q =>
      obtain ⟨b, r'⟩ := q
      rw [hp] at h
      obtain ⟨h1, h2⟩ := ih _ _ hp
      dsimp only at h
      split_ifs at h with hk
      · simp only [Option.some.injEq, Prod.mk.injEq] at h
        obtain ⟨rfl, rfl⟩ := h
        refine ⟨(h1.cons a).trans (List.Perm.swap _ _ _), ?_⟩
        intro f hf
        rcases List.mem_cons.1 hf with rfl | hf
        · exact hk.le
        · exact h2 _ hf
      · simp only [Option.some.injEq, Prod.mk.injEq] at h
        obtain ⟨rfl, rfl⟩ := h
        refine ⟨List.Perm.refl _, ?_⟩
        intro f hf
        rcases List.mem_cons.1 hf with rfl | hf
        · exact le_rfl
        · exact (not_lt.1 hk).trans (h2 _ hf)

omit [AddCommMonoid W] in
theorem key3_le {e f : W × V × List V} (h : key3 e ≤ key3 f) : key2 (e.1, e.2.1) ≤ key2 (f.1, f.2.1) := by
  unfold key3 at h
  unfold key2
  rw [Prod.Lex.toLex_le_toLex] at h ⊢
  rcases h with h | ⟨h1, h2⟩
  · exact Or.inl h
  · refine Or.inr ⟨h1, ?_⟩
    dsimp only at h2
    rw [Prod.Lex.toLex_le_toLex] at h2
    rcases h2 with h | h
    · exact h.le
    · exact h.1.le

omit [AddCommMonoid W] in
/-- Two heaps with the same keys yield the same key. -/
theorem popMin_heads {H H' : List (W × V × List V)} (h : (heads H).Perm (heads H')) :
    (popMin key3 H = none ∧ popMin key3 H' = none) ∨
    ∃ w u p p' R R', popMin key3 H = some ((w, u, p), R) ∧ popMin key3 H' = some ((w, u, p'), R') ∧
      (heads R).Perm (heads R') := by
  have none_iff : ∀ H : List (W × V × List V), popMin key3 H = none ↔ H = [] := by
    intro H
    cases H with
    | nil => simp [popMin]
    | cons a l =>
      simp only [reduceCtorEq, iff_false]
      intro hc
      rw [popMin] at hc
      split at hc
      · cases hc
      · split_ifs at hc
  cases hp : popMin key3 H with
  | none =>
    left
    have h0 := (none_iff H).1 hp
    subst h0
    refine ⟨rfl, (none_iff _).2 ?_⟩
    have := h.length_eq
    simp only [heads, List.map_nil, List.length_nil, List.length_map] at this
    exact List.length_eq_zero_iff.1 this.symm
  | some q =>
    right
    obtain ⟨⟨w, u, p⟩, R⟩ := q
    cases hp' : popMin key3 H' with
    | none =>
      have h0 := (none_iff H').1 hp'
      subst h0
      have := h.length_eq
      simp only [heads, List.map_nil, List.length_nil, List.length_map] at this
      rw [List.length_eq_zero_iff.1 this] at hp
      simp [popMin] at hp
    | some q' =>
      obtain ⟨⟨w', u', p'⟩, R'⟩ := q'
      obtain ⟨a1, a2⟩ := popMin_perm' _ _ _ _ hp
      obtain ⟨b1, b2⟩ := popMin_perm' _ _ _ _ hp'
      have m1 : (w, u) ∈ heads H' := by
        refine h.subset ?_
        exact List.mem_map.2 ⟨_, a1.symm.subset List.mem_cons_self, rfl⟩
      have m2 : (w', u') ∈ heads H := by
        refine h.symm.subset ?_
        exact List.mem_map.2 ⟨_, b1.symm.subset List.mem_cons_self, rfl⟩
      obtain ⟨f, hf, hfe⟩ := List.mem_map.1 m1
      obtain ⟨f', hf', hfe'⟩ := List.mem_map.1 m2
      have l1 := key3_le (b2 f hf)
      have l2 := key3_le (a2 f' hf')
      rw [hfe] at l1
      rw [hfe'] at l2
      have e := le_antisymm l1 l2
      unfold key2 at e
      have e' := toLex.injective e
      simp only [Prod.mk.injEq] at e'
      obtain ⟨rfl, rfl⟩ := e'
      refine ⟨w', u', p, p', R, R', rfl, rfl, ?_⟩
      have c1 : (heads H).Perm ((w', u') :: heads R) := a1.map _
      have c2 : (heads H').Perm ((w', u') :: heads R') := b1.map _
      exact (List.perm_cons _).1 (c1.symm.trans (h.trans c2))

/-- `relaxPath` on heaps with the same keys. -/
theorem relaxPath_heads (w : W) (p p' : List V) (N : Dict V W) (D : Dict V (WithTop W)) (H H' : List (W × V × List V))
    (h : (heads H).Perm (heads H')) :
    (∃ e, relaxPath w p N D H = .error e ∧ relaxPath w p' N D H' = .error e) ∨
    ∃ D1 R R', relaxPath w p N D H = .ok (D1, R) ∧ relaxPath w p' N D H' = .ok (D1, R') ∧ (heads R).Perm (heads R') := by
  induction N generalizing D H H' with
  | nil => exact Or.inr ⟨D, H, H', rfl, rfl, h⟩
  | cons a N ih =>
    obtain ⟨v, x⟩ := a
    rw [relaxPath, relaxPath]
    cases Dict.get? D v with
    | none => exact Or.inl ⟨_, rfl, rfl⟩
    | some dv =>
      dsimp only
      split_ifs with hc
      · exact ih _ _ _ (List.Perm.cons _ h)
      · exact ih _ _ _ h

theorem iteratorEdit_sim (edit : V → W → List V → List V) (g : Graph V W) :
    ∀ D H vis r, iteratorLoop g D H vis = some r → ∀ H', (heads H).Perm (heads H') →
      ∃ r', iteratorEditLoop edit g D H' vis = some r' ∧ strip r' = strip r := by
  refine iteratorLoop.partial_correctness g
    (fun D H vis r => ∀ H', (heads H).Perm (heads H') →
      ∃ r', iteratorEditLoop edit g D H' vis = some r' ∧ strip r' = strip r) ?_
  intro f ih D H vis r hr H' hH
  rw [iteratorEditLoop.eq_def]
  rcases popMin_heads hH with ⟨h1, h2⟩ | ⟨w, u, p, p', R, R', h1, h2, h3⟩
  · rw [h1] at hr
    rw [h2]
    dsimp only at hr ⊢
    exact ⟨r, hr, rfl⟩
  · rw [h1] at hr
    rw [h2]
    dsimp only at hr ⊢
    split_ifs at hr ⊢ with hv
    · exact ih _ _ _ _ hr _ h3
    · cases hN : Dict.get? g u with
      | none =>
        rw [hN] at hr
        dsimp only at hr ⊢
        exact ⟨r, hr, rfl⟩
      | some N =>
        rw [hN] at hr
        dsimp only at hr ⊢
        rcases relaxPath_heads w p (edit u w p') N D R R' h3 with ⟨e, e1, e2⟩ | ⟨D1, S, S', e1, e2, e3⟩
        · rw [e1] at hr
          rw [e2]
          exact ⟨r, hr, rfl⟩
        · rw [e1] at hr
          rw [e2]
          dsimp only at hr ⊢
          rw [Option.bind_eq_bind, Option.bind_eq_some_iff] at hr
          obtain ⟨a, ha, hb⟩ := hr
          obtain ⟨a', ha', hs⟩ := ih _ _ _ _ ha _ e3
          rw [ha']
          cases a with
          | error e =>
            cases a' with
            | error e' =>
              simp only [strip, Except.map, Except.error.injEq] at hs
              subst hs
              exact ⟨_, rfl, by simp only [Option.some.injEq] at hb; rw [← hb]⟩
            | ok l' => simp [strip, Except.map] at hs
          | ok l =>
            cases a' with
            | error e' => simp [strip, Except.map] at hs
            | ok l' =>
              simp only [strip, Except.map, Except.ok.injEq] at hs
              refine ⟨_, rfl, ?_⟩
              simp only [Option.some.injEq] at hb
              rw [← hb]
              simp only [strip, Except.map, List.map_cons, hs]

/-- Every heap entry's path ends with its vertex. -/
theorem relaxPath_last (w : W) (p : List V) (N : Dict V W) (D : Dict V (WithTop W)) (H : List (W × V × List V)) (D1 R)
    (h : relaxPath w p N D H = .ok (D1, R)) (hH : ∀ e ∈ H, e.2.2.getLast? = some e.2.1) :
    ∀ e ∈ R, e.2.2.getLast? = some e.2.1 := by
  induction N generalizing D H with
  | nil =>
    simp only [relaxPath, Except.ok.injEq, Prod.mk.injEq] at h
    rw [← h.2]
    exact hH
  | cons a N ih =>
    obtain ⟨v, x⟩ := a
    rw [relaxPath] at h
    cases hg : Dict.get? D v with
    | none => rw [hg] at h; cases h
    | some dv =>
      rw [hg] at h
      dsimp only at h
      split_ifs at h
      · refine ih _ _ h ?_
        intro e he
        rcases List.mem_cons.1 he with rfl | he
        · simp
        · exact hH e he
      · exact ih _ _ h hH

theorem iteratorEdit_last (edit : V → W → List V → List V) (g : Graph V W) :
    ∀ D H vis r, iteratorEditLoop edit g D H vis = some r → (∀ e ∈ H, e.2.2.getLast? = some e.2.1) →
      ∀ l, r = .ok l → ∀ e ∈ l, e.2.2.getLast? = some e.1 := by
  refine iteratorEditLoop.partial_correctness edit g
    (fun D H vis r => (∀ e ∈ H, e.2.2.getLast? = some e.2.1) →
      ∀ l, r = .ok l → ∀ e ∈ l, e.2.2.getLast? = some e.1) ?_
  intro f ih D H vis r hr hH l hl
  subst hl
  cases hp : popMin key3 H with
  | none =>
    rw [hp] at hr
    simp only [Option.some.injEq, Except.ok.injEq] at hr
    subst hr
    simp
  | some q =>
    obtain ⟨⟨w, u, p⟩, R⟩ := q
    obtain ⟨a1, -⟩ := popMin_perm' _ _ _ _ hp
    have hR : ∀ e ∈ R, e.2.2.getLast? = some e.2.1 := fun e he => hH e (a1.symm.subset (List.mem_cons_of_mem _ he))
    rw [hp] at hr
    dsimp only at hr
    split_ifs at hr with hv
    · exact ih _ _ _ _ hr hR l rfl
    · cases hN : Dict.get? g u with
      | none => rw [hN] at hr; cases hr
      | some N =>
        rw [hN] at hr
        dsimp only at hr
        cases hx : relaxPath w (edit u w p) N D R with
        | error e => rw [hx] at hr; cases hr
        | ok q =>
          obtain ⟨D1, S⟩ := q
          rw [hx] at hr
          dsimp only at hr
          rw [Option.bind_eq_bind, Option.bind_eq_some_iff] at hr
          obtain ⟨a, ha, hb⟩ := hr
          cases a with
          | error e => cases hb
          | ok l' =>
            simp only [Option.some.injEq, Except.ok.injEq] at hb
            subst hb
            intro e he
            rcases List.mem_cons.1 he with rfl | he
            · exact hH _ (a1.symm.subset List.mem_cons_self)
            · exact ih _ _ _ _ ha (relaxPath_last _ _ _ _ _ _ _ hx hR) l' rfl e he

/-- A caller that changes nothing. -/
theorem iteratorEdit_id (g : Graph V W) :
    ∀ D H vis r, iteratorLoop g D H vis = some r → iteratorEditLoop (fun _ _ p => p) g D H vis = some r := by
  refine iteratorLoop.partial_correctness g
    (fun D H vis r => iteratorEditLoop (fun _ _ p => p) g D H vis = some r) ?_
  intro f ih D H vis r hr
  rw [iteratorEditLoop.eq_def]
  split at hr <;> rename_i e <;> rw [e] <;> dsimp only
  · exact hr
  · split_ifs at hr ⊢
    · exact ih _ _ _ _ hr
    · split at hr <;> rename_i e2 <;> rw [e2] <;> dsimp only
      · exact hr
      · split at hr <;> rename_i e3 <;> rw [e3] <;> dsimp only
        · exact hr
        · rw [Option.bind_eq_bind, Option.bind_eq_some_iff] at hr ⊢
          obtain ⟨a, ha, hb⟩ := hr
          exact ⟨a, ih _ _ _ _ ha, hb⟩

end Rosemary.Paths
