import Verif.Lemmas.SteinerHeuristics
import Verif.Model.SteinerCosts
import Mathlib.Tactic.Linarith

/-!
# Lemmas on the number of comparisons in `minimum_cost_paths_heuristic`
-/

namespace Rosemary.SteinerTrees

open Graph Paths SpanningTrees Spec

variable {V W : Type} [LinearOrder V] [AddCommMonoid W] [LinearOrder W] [IsOrderedCancelAddMonoid W]

theorem ord_length {ord : Finset V → List V} (hord : ∀ S, (ord S).Nodup ∧ ∀ x, x ∈ ord S ↔ x ∈ S) (S : Finset V) :
    (ord S).length = S.card := by
  rw [← List.toFinset_card_of_nodup (hord S).1]
  congr 1
  ext x
  rw [List.mem_toFinset, (hord S).2]

theorem Grown.mem {g : Graph V W} (hg : Good g) {B : V → V → Option W} {R : Finset V} {root : V} (hroot : Mem g root)
    {es : List (V × V)} {S : Finset V} (h : Grown g B R root es S) : ∀ x ∈ S, Mem g x := fun x hx =>
  mem_of_reach hg hroot (reach_of_joined hg (fun e he => h.edge e (List.mem_toFinset.1 he)) (h.joined x hx).symm)

theorem card_le_vertices {g : Graph V W} {S : Finset V} (h : ∀ x ∈ S, Mem g x) : S.card ≤ numVertices g := by
  have : S ⊆ (Dict.keys g).toFinset := fun x hx => List.mem_toFinset.2 (h x hx)
  calc S.card ≤ (Dict.keys g).toFinset.card := Finset.card_le_card this
    _ ≤ (Dict.keys g).length := List.toFinset_card_le _
    _ = numVertices g := by rw [Dict.keys, List.length_map, numVertices]

theorem growC_spec {ord : Finset V → List V} (hord : ∀ S, (ord S).Nodup ∧ ∀ x, x ∈ ord S ↔ x ∈ S) {g : Graph V W}
    (hg : Good g) (hA : ∀ u v x, adj g u v = some x → 0 < x) {terminals : List V}
    (hm : ∀ u ∈ terminals, Mem g u) (hr : ∀ u ∈ terminals, ∀ v ∈ terminals, Reach (fun a b => ∃ w, adj g a b = some w) u v)
    {D : Dict V (Dict V (WithTop W))} {P : Dict V (Dict V (Option V))} (hT : Tables g terminals D P) {root : V} (hroot : root ∈ terminals)
    {B : V → V → Option W} (hB : ∀ x y, B x y = if x ≠ y then some (dist (adj g) x y) else none) :
    ∀ (n : ℕ) (es : List (V × V)) (S : Finset V) (m : Option (V × V)) (k : ℕ), (terminals.toFinset \ S).card = n →
      Grown g B terminals.toFinset root es S →
      ∃ es' m' k', growLoopC ord D P es S (terminals.toFinset \ S) m k = some (.ok (es', m'), k') ∧
        growLoop ord D P es S (terminals.toFinset \ S) m = some (.ok (es', m')) ∧
        k' ≤ k + n * (terminals.toFinset.card * numVertices g) ∧
        ((∀ v, Mem g v → v ∈ terminals) → 6 * k' + n * (n + 1) = 6 * k + n * (n + 1) * (3 * S.card + n)) := by
  intro n
  induction n with
  | zero =>
    intro es S m k hn hG
    have h0 := Finset.card_eq_zero.1 hn
    rw [growLoopC, if_pos h0, growLoop, if_pos h0]
    exact ⟨es, m, k, rfl, rfl, by omega, fun _ => by ring⟩
  | succ n ih =>
    intro es S m k hn hG
    have hne : terminals.toFinset \ S ≠ ∅ := fun h => by rw [h, Finset.card_empty] at hn; omega
    obtain ⟨d, u, v, a, es1, S1, c1, j1, j4, hu, herase, hnew, hSm, hG'⟩ := grow_step hord hg hA hm hr hT hroot hB es S m hne hG
    have hRS : (terminals.toFinset \ S) \ S = terminals.toFinset \ S := by
      rw [sdiff_sdiff_left, sup_idem]
    have hk : (ord ((terminals.toFinset \ S) \ S)).length * (ord S).length = (n + 1) * S.card := by
      rw [hRS, ord_length hord, ord_length hord, hn]
    obtain ⟨es', m', k', i1, i2, i3, i4⟩ := ih es1 S1 (some (u, v)) (k + (n + 1) * S.card)
      (by rw [← herase, Finset.card_erase_of_mem hu]; omega) hG'
    refine ⟨es', m', k', ?_, ?_, ?_, ?_⟩
    · rw [growLoopC, if_neg hne, c1]
      dsimp only
      rw [j1]
      dsimp only
      rw [j4]
      dsimp only
      rw [herase, hk]
      exact i1
    · rw [growLoop, if_neg hne, c1]
      dsimp only
      rw [j1]
      dsimp only
      rw [j4]
      dsimp only
      rw [herase]
      exact i2
    · have h1 : n + 1 ≤ terminals.toFinset.card := by rw [← hn]; exact Finset.card_le_card Finset.sdiff_subset
      have h2 := Nat.mul_le_mul h1 (card_le_vertices hSm)
      rw [Nat.succ_mul]
      omega
    · intro hall
      have hsub : S ⊆ terminals.toFinset := fun x hx => List.mem_toFinset.2 (hall x (hSm x hx))
      have hsub1 : S1 ⊆ terminals.toFinset := fun x hx =>
        List.mem_toFinset.2 (hall x (hG'.mem hg (hm root hroot) x hx))
      have hcard : S1.card = S.card + 1 := by
        rw [Finset.inter_eq_left.2 hsub1, Finset.inter_eq_left.2 hsub] at hnew
        rw [hnew, Finset.card_insert_of_notMem (Finset.mem_sdiff.1 hu).2]
      have := i4 hall
      rw [hcard] at this
      nlinarith [this]

theorem rootsLoopC_spec {ord : Finset V → List V} (hord : ∀ S, (ord S).Nodup ∧ ∀ x, x ∈ ord S ↔ x ∈ S) {g : Graph V W}
    (hg : Good g) (hA : ∀ u v x, adj g u v = some x → 0 < x) (one : W) {terminals : List V} (hR : 2 ≤ terminals.toFinset.card)
    (hm : ∀ u ∈ terminals, Mem g u) (hr : ∀ u ∈ terminals, ∀ v ∈ terminals, Reach (fun a b => ∃ w, adj g a b = some w) u v)
    {D : Dict V (Dict V (WithTop W))} {P : Dict V (Dict V (Option V))} (hT : Tables g terminals D P) :
    ∀ (roots : List V) (m : Option (V × V)) (best : Option (W × List (V × V))) (k : ℕ), (∀ x ∈ roots, x ∈ terminals) →
      (best = none → roots ≠ []) →
      ∃ r k', rootsLoopC ord one g terminals D P roots m best k = some (.ok r, k') ∧
        rootsLoop ord one g terminals D P roots m best = some (.ok r) ∧
        k' ≤ k + roots.length * ((terminals.toFinset.card - 1) * (terminals.toFinset.card * numVertices g)) ∧
        ((∀ v, Mem g v → v ∈ terminals) → 6 * k' = 6 * k + roots.length *
          ((terminals.toFinset.card - 1) * terminals.toFinset.card * (terminals.toFinset.card + 1))) := by
  intro roots
  induction roots with
  | nil =>
    intro m best k _ hne
    cases best with
    | none => exact absurd rfl (hne rfl)
    | some b => exact ⟨b, k, rfl, rfl, by simp, fun _ => by simp⟩
  | cons root roots ih =>
    intro m best k hsub _
    have hroot := hsub root List.mem_cons_self
    have hrootR := List.mem_toFinset.2 hroot
    obtain ⟨es, m', r, h1, h2, h3⟩ := root_spec hord hg hA one hR hm hr hT hroot m
    obtain ⟨es', m'', k1, g1, g2, g3, g4⟩ := growC_spec hord hg hA hm hr hT hroot
      (B := fun x y => if x ≠ y then some (dist (adj g) x y) else none) (fun x y => rfl) _ [] {root} m k rfl
      ⟨Finset.mem_singleton_self _, by simp, by simp, by simp [ends], fun x hx => by
        rw [Finset.mem_singleton.1 hx]; exact Joined.refl _ _, by
        rw [Finset.inter_eq_left.2 (Finset.singleton_subset_iff.2 hrootR)]
        exact paid_start _ hrootR⟩
    rw [Finset.sdiff_singleton_eq_erase] at g1 g2 g3 g4
    rw [h1] at g2
    obtain ⟨rfl, rfl⟩ : es = es' ∧ m' = m'' := by
      have := Except.ok.inj (Option.some.inj g2)
      exact ⟨congrArg Prod.fst this, congrArg Prod.snd this⟩
    rw [Finset.card_erase_of_mem hrootR, Finset.card_singleton] at *
    obtain ⟨b', hb'⟩ : ∃ b', (match best with
            | none => some r
            | some best => if r.1 < best.1 then some r else some best) = some b' := by
      cases best with
      | none => exact ⟨r, rfl⟩
      | some b =>
        by_cases h : r.1 < b.1
        · exact ⟨r, if_pos h⟩
        · exact ⟨b, if_neg h⟩
    obtain ⟨r', k', i1, i2, i3, i4⟩ := ih m' (some b') k1 (fun x hx => hsub x (List.mem_cons_of_mem _ hx)) (fun e => by simp at e)
    refine ⟨r', k', ?_, ?_, ?_, ?_⟩
    · rw [rootsLoopC, g1]
      dsimp only
      rw [h2]
      dsimp only
      exact (congrArg (fun b => rootsLoopC ord one g terminals D P roots m' b k1) hb').trans i1
    · rw [rootsLoop, h1]
      dsimp only
      rw [h2]
      dsimp only
      exact (congrArg (fun b => rootsLoop ord one g terminals D P roots m' b) hb').trans i2
    · rw [List.length_cons, Nat.succ_mul]
      omega
    · intro hall
      have e1 := g4 hall
      have e2 := i4 hall
      obtain ⟨t, ht⟩ : ∃ t, terminals.toFinset.card = t + 1 := ⟨_, (Nat.succ_pred_eq_of_pos (by omega)).symm⟩
      rw [ht] at e1 e2 ⊢
      rw [List.length_cons]
      simp only [Nat.add_sub_cancel] at e1 e2 ⊢
      nlinarith [e1, e2]

end Rosemary.SteinerTrees
