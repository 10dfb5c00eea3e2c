import Verif.Model.Gen
import Mathlib.Data.Set.Finite.Basic
import Mathlib.Data.Finset.Card
import Mathlib.Data.Fintype.Card
import Mathlib.Order.Defs.LinearOrder
import Mathlib.Data.Set.Finite.Lemmas

/-!
# Generators that walk through a finite set in increasing order
-/

namespace Rosemary.Gen

theorem run_next {σ β : Type} {step : σ → Step σ} {out : σ → β} {s s' : σ} (h : step s = .next s')
    {L : List β} {e : Option PyErr} (hr : run step out s' = some (L, e)) :
    run step out s = some (out s :: L, e) := by
  rw [run.eq_def, h]; dsimp only; rw [hr]; rfl

theorem run_stop {σ β : Type} {step : σ → Step σ} {out : σ → β} {s : σ} (h : step s = .stop) :
    run step out s = some ([out s], none) := by rw [run.eq_def, h]

theorem run_raise {σ β : Type} {step : σ → Step σ} {out : σ → β} {s : σ} {e : PyErr}
    (h : step s = .raise e) : run step out s = some ([out s], some e) := by rw [run.eq_def, h]

/-- A generator whose step goes to the successor inside a finite set yields, from any state on, the
elements from there on, in order. -/
theorem run_enum_rel {σ β : Type} (R : β → β → Prop) (htrans : ∀ a b c, R a b → R b c → R a c)
    (hirr : ∀ a, ¬ R a a) {step : σ → Step σ} {out : σ → β} (P : Set β) (hfin : P.Finite)
    (Good : σ → Prop) (hgood : ∀ s, Good s → out s ∈ P)
    (hnext : ∀ s s', Good s → step s = .next s' →
      Good s' ∧ R (out s) (out s') ∧ ∀ t ∈ P, R (out s) t → t = out s' ∨ R (out s') t)
    (hstop : ∀ s, Good s → step s = .stop → ∀ t ∈ P, ¬ R (out s) t)
    (hraise : ∀ s e, Good s → step s ≠ .raise e) (s : σ) (hs : Good s) :
    ∃ L, run step out s = some (L, none) ∧ L.Pairwise R ∧
      ∀ t, t ∈ L ↔ t ∈ P ∧ (t = out s ∨ R (out s) t) := by
  classical
  generalize hk : (hfin.toFinset.filter (fun t => R (out s) t)).card = k
  induction k using Nat.strong_induction_on generalizing s with
  | _ k ih =>
    cases hst : step s with
    | raise e => exact absurd hst (hraise s e hs)
    | stop =>
      refine ⟨[out s], run_stop hst, by simp, fun t => ?_⟩
      rw [List.mem_singleton]
      constructor
      · rintro rfl
        exact ⟨hgood s hs, Or.inl rfl⟩
      · rintro ⟨ht, h | h⟩
        · exact h
        · exact absurd h (hstop s hs hst t ht)
    | next s' =>
      obtain ⟨hg, hlt, hsucc⟩ := hnext s s' hs hst
      have hcard : (hfin.toFinset.filter (fun t => R (out s') t)).card < k := by
        rw [← hk]
        apply Finset.card_lt_card
        rw [Finset.ssubset_iff_of_subset]
        · refine ⟨out s', ?_, ?_⟩
          · rw [Finset.mem_filter, Set.Finite.mem_toFinset]
            exact ⟨hgood s' hg, hlt⟩
          · rw [Finset.mem_filter]
            intro h
            exact hirr _ h.2
        · intro t ht
          rw [Finset.mem_filter] at ht ⊢
          exact ⟨ht.1, htrans _ _ _ hlt ht.2⟩
      obtain ⟨L, hrun, hpw, hmem⟩ := ih _ hcard s' hg rfl
      refine ⟨out s :: L, run_next hst hrun, List.pairwise_cons.2 ⟨?_, hpw⟩, fun t => ?_⟩
      · intro t ht
        rcases ((hmem t).1 ht).2 with rfl | h
        · exact hlt
        · exact htrans _ _ _ hlt h
      · rw [List.mem_cons, hmem]
        constructor
        · rintro (rfl | ⟨ht, rfl | h⟩)
          · exact ⟨hgood s hs, Or.inl rfl⟩
          · exact ⟨ht, Or.inr hlt⟩
          · exact ⟨ht, Or.inr (htrans _ _ _ hlt h)⟩
        · rintro ⟨ht, rfl | h⟩
          · exact Or.inl rfl
          · exact Or.inr ⟨ht, hsucc t ht h⟩

/-- The same for an increasing walk. -/
theorem run_enum {σ β : Type} [Preorder β] {step : σ → Step σ} {out : σ → β} (P : Set β) (hfin : P.Finite)
    (Good : σ → Prop) (hgood : ∀ s, Good s → out s ∈ P)
    (hnext : ∀ s s', Good s → step s = .next s' →
      Good s' ∧ out s < out s' ∧ ∀ t ∈ P, out s < t → t = out s' ∨ out s' < t)
    (hstop : ∀ s, Good s → step s = .stop → ∀ t ∈ P, ¬ out s < t)
    (hraise : ∀ s e, Good s → step s ≠ .raise e) (s : σ) (hs : Good s) :
    ∃ L, run step out s = some (L, none) ∧ L.Pairwise (· < ·) ∧
      ∀ t, t ∈ L ↔ t ∈ P ∧ (t = out s ∨ out s < t) :=
  run_enum_rel (· < ·) (fun _ _ _ => lt_trans) (fun a => lt_irrefl a) P hfin Good hgood hnext hstop hraise s hs

end Rosemary.Gen
