import Verif.Lemmas.CliqueCosts
import Verif.Props.CliqueCounts
import Mathlib.Data.Set.Card
import Mathlib.Data.Fintype.BigOperators

/-!
# C164: the work of `tomita` in its set operations and in its output
-/

namespace Rosemary.Props

open Rosemary.Graph Rosemary.Cliques Rosemary.CliqueCosts Rosemary.Spec
open Rosemary.Traversal (E)

variable {V W : Type}

section Sets

variable [DecidableEq V]

/-- On a graph with `n` vertices `tomita` makes at most `5/2 * 3^(n/3)` passes of its loop, gives at most `3^(n/3)` lists,
and its set operations handle at most `1400 * 3^(n/3)` elements.  The lists `used + [q]` cost up to `n` copies per pass. -/
theorem C164_tomita_work_partial (ord : Finset V → List V) (hord : ∀ S, (ord S).Nodup ∧ ∀ x, x ∈ ord S ↔ x ∈ S)
    (ops : List (Op V W)) :
    ∃ l c, tomita ord (history ops) = some l ∧ tomitaC ord (history ops) = some (l, c) ∧
      (l.length : ℝ) ≤ 3 ^ (((vertexSet (history ops)).card : ℝ) / 3) ∧
      (c.passes : ℝ) ≤ 5 / 2 * 3 ^ (((vertexSet (history ops)).card : ℝ) / 3) ∧
      (c.sets : ℝ) ≤ 1400 * 3 ^ (((vertexSet (history ops)).card : ℝ) / 3) ∧
      c.copies ≤ (vertexSet (history ops)).card * c.passes ∧
      ∀ q ∈ l, q.length ≤ (vertexSet (history ops)).card := by
  obtain ⟨out, c, h1, h2, h3, h4, h5, h6, h7⟩ := tomitaC_entry hord (history ops) (vertexSet (history ops)).card
    (vertexSet (history ops)).card (vertexSet (history ops), vertexSet (history ops), []) rfl (fun _ h => h) (by simp)
  refine ⟨out, c, ?_, ?_, ?_, ?_, ?_, by omega, h3⟩
  · rw [tomita, h1, tomitaLoop.eq_def]; simp
  · rw [tomitaC, h2, tomitaLoopC.eq_def]; simp [Cost.plus]
  · rw [← cr3_pow]; exact h4
  · rw [← cr3_pow]; linarith
  · rw [← cr3_pow]
    have : (0 : ℝ) ≤ 1.5 * ((vertexSet (history ops)).card : ℝ) ^ 2 + 15.5 * (vertexSet (history ops)).card + 50 := by positivity
    linarith

end Sets

/-! ## The graphs of Moon and Moser -/

/-- One vertex of every group. -/
def transversal (k : ℕ) (f : Fin k → Fin 3) : Finset ℕ := Finset.univ.image (fun i : Fin k => 3 * (i : ℕ) + f i)

theorem mem_transversal {k : ℕ} {f : Fin k → Fin 3} {x : ℕ} :
    x ∈ transversal k f ↔ ∃ h : x / 3 < k, x % 3 = f ⟨x / 3, h⟩ := by
  unfold transversal
  rw [Finset.mem_image]
  constructor
  · rintro ⟨i, -, rfl⟩
    have h1 : (3 * (i : ℕ) + f i) / 3 = i := by have := (f i).2; omega
    refine ⟨by rw [h1]; exact i.2, ?_⟩
    have h2 : (⟨(3 * (i : ℕ) + f i) / 3, by rw [h1]; exact i.2⟩ : Fin k) = i := Fin.ext h1
    rw [h2]
    have := (f i).2
    omega
  · rintro ⟨h, h1⟩
    refine ⟨⟨x / 3, h⟩, Finset.mem_univ _, ?_⟩
    rw [← h1]
    exact Nat.div_add_mod x 3

theorem card_transversal (k : ℕ) (f : Fin k → Fin 3) : (transversal k f).card = k := by
  unfold transversal
  rw [Finset.card_image_of_injective, Finset.card_univ, Fintype.card_fin]
  intro i j h
  dsimp only at h
  have := (f i).2
  have := (f j).2
  exact Fin.ext (by omega)

theorem moonMoser_cliques (k : ℕ) (S : Finset ℕ) :
    IsMaximalClique (toAbs (history (moonMoserOps k))).verts (Linked (history (moonMoserOps k))) S ↔ ∃ f, transversal k f = S := by
  constructor
  · rintro ⟨⟨h1, h2⟩, h3⟩
    have hex : ∀ i : Fin k, ∃ j : Fin 3, 3 * (i : ℕ) + j ∈ S := by
      intro i
      by_contra hc
      push Not at hc
      have hi := i.2
      have hnot : ∀ x ∈ S, x / 3 ≠ i := by
        intro x hx he
        exact hc ⟨x % 3, Nat.mod_lt _ (by norm_num)⟩ (by
          have : 3 * (i : ℕ) + x % 3 = x := by omega
          dsimp only
          rw [this]; exact hx)
      have hcl : IsClique (toAbs (history (moonMoserOps k))).verts (Linked (history (moonMoserOps k))) (insert (3 * (i : ℕ)) S) := by
        refine ⟨?_, ?_⟩
        · intro v hv
          rcases Finset.mem_insert.1 hv with rfl | hv
          · rw [(moonMoser_abs k).1]; omega
          · exact h1 v hv
        · intro u hu v hv hne
          rw [(moonMoser_abs k).2]
          rcases Finset.mem_insert.1 hu with rfl | hu' <;> rcases Finset.mem_insert.1 hv with rfl | hv'
          · exact absurd rfl hne
          · have := hnot v hv'
            have := ((moonMoser_abs k).1 v).1 (h1 v hv')
            exact ⟨by omega, this, by omega⟩
          · have := hnot u hu'
            have := ((moonMoser_abs k).1 u).1 (h1 u hu')
            exact ⟨this, by omega, by omega⟩
          · exact ((moonMoser_abs k).2 u v).1 (h2 u hu' v hv' hne)
      have := h3 _ hcl (Finset.subset_insert _ _)
      have h4 : 3 * (i : ℕ) ∈ S := by rw [← this]; exact Finset.mem_insert_self _ _
      exact hnot _ h4 (by omega)
    choose f hf using hex
    refine ⟨f, ?_⟩
    ext x
    rw [mem_transversal]
    constructor
    · rintro ⟨h, h'⟩
      have := hf ⟨x / 3, h⟩
      rw [← h'] at this
      dsimp only at this
      rwa [Nat.div_add_mod] at this
    · intro hx
      have hxk := ((moonMoser_abs k).1 x).1 (h1 x hx)
      have hlt : x / 3 < k := by omega
      refine ⟨hlt, ?_⟩
      by_contra hne
      have hy := hf ⟨x / 3, hlt⟩
      have hj := (f ⟨x / 3, hlt⟩).2
      dsimp only at hy
      have := ((moonMoser_abs k).2 _ _).1 (h2 x hx _ hy (by omega))
      omega
  · rintro ⟨f, rfl⟩
    have hblock : ∀ x ∈ transversal k f, ∀ y ∈ transversal k f, x / 3 = y / 3 → x = y := by
      intro x hx y hy h
      obtain ⟨a, a'⟩ := mem_transversal.1 hx
      obtain ⟨b, b'⟩ := mem_transversal.1 hy
      have : (⟨x / 3, a⟩ : Fin k) = ⟨y / 3, b⟩ := Fin.ext h
      rw [this, ← b'] at a'
      omega
    have hlt : ∀ x ∈ transversal k f, x < 3 * k := by
      intro x hx
      obtain ⟨a, a'⟩ := mem_transversal.1 hx
      omega
    refine ⟨⟨fun v hv => ((moonMoser_abs k).1 v).2 (hlt v hv), ?_⟩, ?_⟩
    · intro u hu v hv hne
      rw [(moonMoser_abs k).2]
      exact ⟨hlt u hu, hlt v hv, fun h => hne (hblock u hu v hv h)⟩
    · rintro D ⟨d1, d2⟩ hsub
      refine Finset.Subset.antisymm ?_ hsub
      intro x hx
      have hxk := ((moonMoser_abs k).1 x).1 (d1 x hx)
      have hlt' : x / 3 < k := by omega
      rw [mem_transversal]
      refine ⟨hlt', ?_⟩
      by_contra hne
      have hj := (f ⟨x / 3, hlt'⟩).2
      have hy : 3 * (x / 3) + f ⟨x / 3, hlt'⟩ ∈ transversal k f :=
        Finset.mem_image.2 ⟨⟨x / 3, hlt'⟩, Finset.mem_univ _, rfl⟩
      have := ((moonMoser_abs k).2 _ _).1 (d2 x hx _ (hsub hy) (by omega))
      omega

/-- The time `O(3^(n/3))` of the docstring is out of reach: the lists given have together `n/3 * 3^(n/3)` entries. -/
theorem C164_tomita_output_violation (ord : Finset ℕ → List ℕ) (hord : ∀ S, (ord S).Nodup ∧ ∀ x, x ∈ ord S ↔ x ∈ S)
    (k : ℕ) : ∃ l, tomita ord (history (moonMoserOps k)) = some l ∧ (l.map List.length).sum = k * 3 ^ k ∧
      (vertexSet (history (moonMoserOps k))).card = 3 * k := by
  obtain ⟨hc, hloop, l, h1, hl⟩ := C154_optimal k ord hord
  obtain ⟨l', h1', h2, h3, h4⟩ := C72_tomita ord hord (moonMoserOps k) hloop
  rw [h1] at h1'
  obtain rfl : l = l' := by injection h1'
  refine ⟨l, h1, ?_, hc⟩
  have hlen : ∀ q ∈ l, q.length = k := by
    intro q hq
    have h5 := (h4 q.toFinset).1 (List.mem_map.2 ⟨q, hq, rfl⟩)
    obtain ⟨f, hf⟩ := (moonMoser_cliques k _).1 h5
    rw [← List.toFinset_card_of_nodup (h2 q hq), ← hf, card_transversal]
  have : l.map List.length = List.replicate (3 ^ k) k := by
    rw [List.eq_replicate_iff]
    refine ⟨by rw [List.length_map, hl], ?_⟩
    intro b hb
    obtain ⟨q, hq, rfl⟩ := List.mem_map.1 hb
    exact hlen q hq
  rw [this, List.sum_replicate, smul_eq_mul, mul_comm]

/-- The loop with the costs and a bound on the passes. -/
def tomitaLoopCN [DecidableEq V] (ord : Finset V → List V) (g : Graph V W) : ℕ →
    List (Finset V × Finset V × List V) → Option (List (List V) × Cost)
  | 0, _ => none
  | _ + 1, [] => some ([], ⟨0, 0, 0⟩)
  | n + 1, (subgraph, candidates, used) :: stack =>
    match ord subgraph with
    | [] => (tomitaLoopCN ord g n stack).map fun r => (used :: r.1, Cost.plus ⟨1, 1, 0⟩ r.2)
    | v :: vs =>
      let qs := ord (candidates \ nb g (pivotLoop g candidates vs v (nb g v ∩ candidates).card))
      (tomitaLoopCN ord g n ((children g subgraph used candidates qs).reverse ++ stack)).map fun r =>
        (r.1, Cost.plus ⟨1, passSets subgraph candidates qs.length, qs.length * (used.length + 1)⟩ r.2)

theorem tomitaLoopC_of_fuel [DecidableEq V] (ord : Finset V → List V) (g : Graph V W) (n : ℕ) : ∀ stack l,
    tomitaLoopCN ord g n stack = some l → tomitaLoopC ord g stack = some l := by
  induction n with
  | zero => intro stack l h; simp [tomitaLoopCN] at h
  | succ n ih =>
    rintro (_ | ⟨⟨S, C, used⟩, stack⟩) l h
    · rw [tomitaLoopC.eq_def]; simpa [tomitaLoopCN] using h
    · rw [tomitaLoopCN] at h
      rw [tomitaLoopC.eq_def]
      dsimp only at h ⊢
      cases ho : ord S with
      | nil =>
        rw [ho] at h
        obtain ⟨r, hr, rfl⟩ := Option.map_eq_some_iff.1 h
        rw [ih _ _ hr]
        rfl
      | cons v vs =>
        rw [ho] at h
        obtain ⟨r, hr, rfl⟩ := Option.map_eq_some_iff.1 h
        dsimp only
        rw [ih _ _ hr]
        rfl

/-- Two groups of three: 13 passes, nine cliques of two vertices. -/
example : tomitaC (fun S => (List.range 6).filter (· ∈ S)) (history (moonMoserOps 2)) =
    some ([[2, 5], [2, 4], [2, 3], [1, 5], [1, 4], [1, 3], [0, 5], [0, 4], [0, 3]], ⟨13, 220, 21⟩) := by
  exact tomitaLoopC_of_fuel _ _ 20 _ _ (by decide +kernel)

example : IsMaximalClique (toAbs (history (moonMoserOps 2))).verts (Linked (history (moonMoserOps 2))) {1, 5} :=
  (moonMoser_cliques 2 _).2 ⟨![1, 2], by decide⟩

end Rosemary.Props
