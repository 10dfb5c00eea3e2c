import Verif.Lemmas.Coloring
import Mathlib.Logic.Equiv.Basic
import Mathlib.Data.Finset.Image
import Mathlib.Data.Finset.Interval
import Mathlib.Order.Interval.Finset.Nat

/-!
# Lemmas on the branch and bound coloring
-/

namespace Rosemary.Coloring

open Rosemary.Graph Rosemary.Spec
open Rosemary.Traversal (E)

variable {V W : Type} [LinearOrder V]

/-- `f` is a proper coloring of the vertices. -/
def ProperOn (g : Graph V W) (f : V → ℕ) : Prop := ∀ u v, Mem g u → Mem g v → E g u v → u ≠ v → f u ≠ f v

/-- The number of colors of `f`. -/
def count (g : Graph V W) (f : V → ℕ) : ℕ := ((vertexSet g).image f).card

/-- `cm` is a proper partial coloring that uses exactly the colors `1, ..., k`. -/
structure Part (g : Graph V W) (k : ℕ) (cm : Dict V ℕ) : Prop where
  wf : Dict.WF cm
  mem : ∀ v ∈ Dict.keys cm, Mem g v
  range : ∀ v c, (v, c) ∈ cm → 1 ≤ c ∧ c < 1 + k
  all : ∀ c, 1 ≤ c → c < 1 + k → ∃ v, (v, c) ∈ cm
  proper : ∀ u c v d, (u, c) ∈ cm → (v, d) ∈ cm → E g u v → u ≠ v → c ≠ d

/-- `f` extends `cm`. -/
def Extends (cm : Dict V ℕ) (f : V → ℕ) : Prop := ∀ v c, (v, c) ∈ cm → f v = c

/-- What a call that started with `best` and ended with `best'` has achieved for the colorings in `P`. -/
structure Res (g : Graph V W) (k : ℕ) (P : (V → ℕ) → Prop) (best best' : ℕ × Dict V ℕ) : Prop where
  le : best'.1 ≤ best.1
  ge : k ≤ best'.1
  valid : best' = best ∨ best'.1 < best.1 ∧ IsColoring {v | Mem g v} (E g) 1 best'.1 best'.2
  opt : ∀ f, ProperOn g f → P f → best'.1 ≤ count g f

theorem Part.icc_subset {g : Graph V W} {k : ℕ} {cm : Dict V ℕ} (h : Part g k cm) {f : V → ℕ} (hf : Extends cm f) :
    Finset.Ico 1 (1 + k) ⊆ (vertexSet g).image f := by
  intro c hc
  rw [Finset.mem_Ico] at hc
  obtain ⟨v, hv⟩ := h.all c hc.1 hc.2
  rw [Finset.mem_image]
  exact ⟨v, Graph.mem_vertexSet.2 (h.mem v (List.mem_map.2 ⟨_, hv, rfl⟩)), hf v c hv⟩

theorem Part.le_count {g : Graph V W} {k : ℕ} {cm : Dict V ℕ} (h : Part g k cm) {f : V → ℕ} (hf : Extends cm f) :
    k ≤ count g f := by
  have := Finset.card_le_card (h.icc_subset hf)
  simpa [count] using this

/-- A color outside `1, ..., k` makes one more. -/
theorem Part.lt_count {g : Graph V W} {k : ℕ} {cm : Dict V ℕ} (h : Part g k cm) {f : V → ℕ} (hf : Extends cm f)
    {u : V} (hu : Mem g u) (hc : ¬ (1 ≤ f u ∧ f u < 1 + k)) : k + 1 ≤ count g f := by
  have hsub : insert (f u) (Finset.Ico 1 (1 + k)) ⊆ (vertexSet g).image f := by
    intro c hc'
    rcases Finset.mem_insert.1 hc' with rfl | hc'
    · exact Finset.mem_image_of_mem _ (Graph.mem_vertexSet.2 hu)
    · exact h.icc_subset hf hc'
  have := Finset.card_le_card hsub
  rw [Finset.card_insert_of_notMem (by rw [Finset.mem_Ico]; exact hc)] at this
  simpa [count] using this

/-- The colors of the neighbors, together with that of the vertex. -/
theorem card_used_lt {g : Graph V W} (hg : Good g) {k : ℕ} {cm : Dict V ℕ} (h : Part g k cm) {f : V → ℕ} (hf : Extends cm f)
    (hp : ProperOn g f) {u : V} (hu : Mem g u) (huc : u ∉ Dict.keys cm) {used : Finset ℕ}
    (hused : ∀ c, c ∈ used ↔ ∃ v, E g u v ∧ (v, c) ∈ cm) : f u ∉ used ∧ used.card + 1 ≤ count g f := by
  have h1 : f u ∉ used := by
    intro hc
    obtain ⟨v, hv1, hv2⟩ := (hused _).1 hc
    have hvk : v ∈ Dict.keys cm := List.mem_map.2 ⟨_, hv2, rfl⟩
    exact hp u v hu (h.mem v hvk) hv1 (by rintro rfl; exact huc hvk) (hf v _ hv2).symm
  refine ⟨h1, ?_⟩
  have hsub : insert (f u) used ⊆ (vertexSet g).image f := by
    intro c hc'
    rcases Finset.mem_insert.1 hc' with rfl | hc'
    · exact Finset.mem_image_of_mem _ (Graph.mem_vertexSet.2 hu)
    · obtain ⟨v, -, hv2⟩ := (hused _).1 hc'
      rw [← hf v c hv2]
      exact Finset.mem_image_of_mem _ (Graph.mem_vertexSet.2 (h.mem v (List.mem_map.2 ⟨_, hv2, rfl⟩)))
  have := Finset.card_le_card hsub
  rw [Finset.card_insert_of_notMem h1] at this
  exact this

/-- Coloring one more vertex. -/
theorem Part.snoc {g : Graph V W} (hg : Good g) {k k' : ℕ} {cm : Dict V ℕ} (h : Part g k cm) {u : V} (hu : Mem g u)
    (huc : u ∉ Dict.keys cm) {j : ℕ} (hj : 1 ≤ j ∧ j < 1 + k') (hk : k ≤ k') (hall : ∀ c, k < c → c ≤ k' → c = j)
    (hfree : ∀ v, E g u v → (v, j) ∉ cm) : Part g k' (Dict.set cm u j) := by
  rw [Rosemary.Paths.set_of_not_mem _ _ _ huc]
  refine ⟨?_, ?_, ?_, ?_, ?_⟩
  · rw [Dict.WF, Dict.keys, List.map_append, List.nodup_append]
    refine ⟨h.wf, by simp, ?_⟩
    intro a ha b hb
    simp only [List.map_cons, List.map_nil, List.mem_singleton] at hb
    rintro rfl
    exact huc (hb ▸ ha)
  · intro v hv
    simp only [Dict.keys, List.map_append, List.map_cons, List.map_nil, List.mem_append, List.mem_singleton] at hv
    rcases hv with hv | rfl
    · exact h.mem v hv
    · exact hu
  · intro v c hc
    rcases List.mem_append.1 hc with hc | hc
    · have := h.range v c hc; omega
    · simp only [List.mem_singleton, Prod.mk.injEq] at hc
      omega
  · intro c h1 h2
    by_cases hc : c < 1 + k
    · obtain ⟨v, hv⟩ := h.all c h1 hc
      exact ⟨v, List.mem_append_left _ hv⟩
    · exact ⟨u, List.mem_append_right _ (by rw [hall c (by omega) (by omega)]; simp)⟩
  · intro a c b d ha hb he hne
    rcases List.mem_append.1 ha with ha' | ha' <;> rcases List.mem_append.1 hb with hb' | hb'
    · exact h.proper a c b d ha' hb' he hne
    · simp only [List.mem_singleton, Prod.mk.injEq] at hb'
      rintro rfl
      rw [hb'.1] at he
      exact hfree a ((mem_nbrs_symm hg).1 he) (hb'.2 ▸ ha')
    · simp only [List.mem_singleton, Prod.mk.injEq] at ha'
      rintro rfl
      rw [ha'.1] at he
      exact hfree b he (ha'.2 ▸ hb')
    · simp only [List.mem_singleton, Prod.mk.injEq] at ha' hb'
      exact absurd (ha'.1.trans hb'.1.symm) hne

theorem Part.coloring {g : Graph V W} {k : ℕ} {cm : Dict V ℕ} (h : Part g k cm) (hall : ∀ v, Mem g v → v ∈ Dict.keys cm) :
    IsColoring {v | Mem g v} (E g) 1 k cm where
  nodup := h.wf
  verts := fun v => ⟨h.mem v, hall v⟩
  range := h.range
  all := h.all
  proper := h.proper

theorem extends_set {cm : Dict V ℕ} {u : V} (huc : u ∉ Dict.keys cm) {j : ℕ} {f : V → ℕ} (hf : Extends cm f) (hu : f u = j) :
    Extends (Dict.set cm u j) f := by
  rw [Rosemary.Paths.set_of_not_mem _ _ _ huc]
  intro v c hc
  rcases List.mem_append.1 hc with hc | hc
  · exact hf v c hc
  · simp only [List.mem_singleton, Prod.mk.injEq] at hc
    rw [hc.1, hc.2]; exact hu

theorem mem_keys_set' {cm : Dict V ℕ} {u v : V} {j : ℕ} : v ∈ Dict.keys (Dict.set cm u j) ↔ v = u ∨ v ∈ Dict.keys cm := by
  rw [Dict.mem_keys_set]

theorem bbLast_spec {g : Graph V W} (hg : Good g) {k : ℕ} {cm : Dict V ℕ} (h : Part g k cm) {u : V} (hu : Mem g u)
    (huc : u ∉ Dict.keys cm) (hall : ∀ v, Mem g v → v = u ∨ v ∈ Dict.keys cm) {used : Finset ℕ}
    (hused : ∀ c, c ∈ used ↔ ∃ v, E g u v ∧ (v, c) ∈ cm) (best : ℕ × Dict V ℕ) (hk : k ≤ best.1) :
    ∃ best', bbLast cm used u best.1 k best = (best'.1, best') ∧ Res g k (Extends cm) best best' := by
  have hfull : ∀ j, ∀ v, Mem g v → v ∈ Dict.keys (Dict.set cm u j) := fun j v hv => mem_keys_set'.2 (hall v hv)
  have hfree : ∀ j, j ∉ used → ∀ v, E g u v → (v, j) ∉ cm := fun j hj v hv hc => hj ((hused j).2 ⟨v, hv, hc⟩)
  rw [bbLast]
  cases hfind : (List.range' 1 k).find? (fun j => decide (j ∉ used)) with
  | some j =>
    have hj := List.mem_range'_1.1 (List.mem_of_find?_eq_some hfind)
    have hjn : j ∉ used := by simpa using List.find?_some hfind
    dsimp only
    by_cases hlt : k < best.1
    · rw [if_pos hlt]
      refine ⟨(k, Dict.set cm u j), rfl, hlt.le, le_refl _, Or.inr ⟨hlt, ?_⟩, fun f _ hf => h.le_count hf⟩
      exact (h.snoc hg hu huc hj (le_refl _) (by intro c; omega) (hfree j hjn)).coloring (hfull j)
    · rw [if_neg hlt]
      have : best.1 = k := by omega
      refine ⟨best, by rw [this], le_refl _, hk, Or.inl rfl, fun f _ hf => by rw [this]; exact h.le_count hf⟩
  | none =>
    have hno : ∀ j, 1 ≤ j → j < 1 + k → j ∈ used := by
      intro j h1 h2
      have := List.find?_eq_none.1 hfind j (List.mem_range'_1.2 ⟨h1, h2⟩)
      simpa using this
    have hcount : ∀ f, ProperOn g f → Extends cm f → k + 1 ≤ count g f := by
      intro f hp hf
      refine h.lt_count hf hu ?_
      rintro ⟨h1, h2⟩
      exact (card_used_lt hg h hf hp hu huc hused).1 (hno _ h1 h2)
    dsimp only
    by_cases hlt : k + 1 < best.1
    · rw [if_pos hlt, if_pos hlt]
      refine ⟨(k + 1, Dict.set cm u (k + 1)), rfl, hlt.le, Nat.le_succ _, Or.inr ⟨hlt, ?_⟩, hcount⟩
      refine (h.snoc hg hu huc (by omega) (Nat.le_succ _) (by intro c; omega) ?_).coloring (hfull _)
      intro v _ hc
      have := (h.range v _ hc).2
      omega
    · rw [if_neg hlt]
      exact ⟨best, rfl, le_refl _, hk, Or.inl rfl, fun f hp hf => (not_lt.1 hlt).trans (hcount f hp hf)⟩

theorem Res.trans {g : Graph V W} {k : ℕ} {P Q : (V → ℕ) → Prop} {a b c : ℕ × Dict V ℕ} (h1 : Res g k P a b)
    (h2 : Res g k Q b c) : Res g k (fun f => P f ∨ Q f) a c := by
  refine ⟨h2.le.trans h1.le, h2.ge, ?_, ?_⟩
  · rcases h2.valid with h | ⟨h, h'⟩
    · rw [h]; exact h1.valid
    · exact Or.inr ⟨h.trans_le h1.le, h'⟩
  · rintro f hp (hf | hf)
    · exact h2.le.trans (h1.opt f hp hf)
    · exact h2.opt f hp hf

theorem bbTry_spec {g : Graph V W} {k : ℕ} {cm : Dict V ℕ} {u : V} {used : Finset ℕ}
    {call : Dict V ℕ → ℕ → ℕ × Dict V ℕ → Except PyErr (ℕ × ℕ × Dict V ℕ)} (js : List ℕ)
    (hcall : ∀ j ∈ js, j ∉ used → ∀ best : ℕ × Dict V ℕ, k ≤ best.1 → ∃ best', call (Dict.set cm u j) best.1 best =
      .ok (best'.1, best') ∧ Res g k (Extends (Dict.set cm u j)) best best') :
    ∀ best : ℕ × Dict V ℕ, k ≤ best.1 → ∃ best', bbTry call cm u used js best.1 best = .ok (best'.1, best') ∧
      Res g k (fun f => ∃ j ∈ js, j ∉ used ∧ Extends (Dict.set cm u j) f) best best' := by
  induction js with
  | nil => intro best hb; exact ⟨best, rfl, le_refl _, hb, Or.inl rfl, by simp⟩
  | cons j js ih =>
    intro best hb
    have ih' := ih (fun i hi => hcall i (List.mem_cons_of_mem _ hi))
    rw [bbTry]
    by_cases hj : j ∈ used
    · rw [if_pos hj]
      obtain ⟨best', h1, h2⟩ := ih' best hb
      refine ⟨best', h1, h2.le, h2.ge, h2.valid, ?_⟩
      rintro f hp ⟨i, hi, hi', hf⟩
      rcases List.mem_cons.1 hi with rfl | hi
      · exact absurd hj hi'
      · exact h2.opt f hp ⟨i, hi, hi', hf⟩
    · rw [if_neg hj]
      obtain ⟨b1, h1, h2⟩ := hcall j List.mem_cons_self hj best hb
      obtain ⟨b2, h3, h4⟩ := ih' b1 h2.ge
      rw [h1]
      refine ⟨b2, h3, ?_⟩
      have := h2.trans h4
      refine ⟨this.le, this.ge, this.valid, ?_⟩
      rintro f hp ⟨i, hi, hi', hf⟩
      rcases List.mem_cons.1 hi with rfl | hi
      · exact this.opt f hp (Or.inl hf)
      · exact this.opt f hp (Or.inr ⟨i, hi, hi', hf⟩)

theorem count_comp {g : Graph V W} (s : ℕ ≃ ℕ) (f : V → ℕ) : count g (fun v => s (f v)) = count g f := by
  rw [count, count, ← Finset.card_image_of_injective ((vertexSet g).image f) s.injective, Finset.image_image]
  rfl

theorem bbColor_spec {ord : Finset V → List V} (hord : ∀ S, (ord S).Nodup ∧ ∀ x, x ∈ ord S ↔ x ∈ S)
    {g : Graph V W} (hg : Good g) (fuel : ℕ) : ∀ (U : Finset V) (k : ℕ) (cm : Dict V ℕ) (best : ℕ × Dict V ℕ),
    U.card ≤ fuel → 1 ≤ U.card → (∀ v, v ∈ U ↔ Mem g v ∧ v ∉ Dict.keys cm) → Part g k cm → k ≤ best.1 →
    ∃ best', bbColor ord g fuel U k cm best.1 best = .ok (best'.1, best') ∧ Res g k (Extends cm) best best' := by
  induction fuel with
  | zero => intro U k cm best h1 h2; omega
  | succ fuel ih =>
    intro U k cm best hfu hU hUm h hk
    have husedspec : ∀ u, ∀ c, c ∈ colorsOf cm (ord (nbrs g u).toFinset) ↔ ∃ v, E g u v ∧ (v, c) ∈ cm := by
      intro u c
      rw [mem_colorsOf]
      constructor
      · rintro ⟨v, h1, h2⟩
        rw [(hord _).2, List.mem_toFinset] at h1
        exact ⟨v, h1, (mem_iff_get? h.wf).2 h2⟩
      · rintro ⟨v, h1, h2⟩
        exact ⟨v, ((hord _).2 v).2 (List.mem_toFinset.2 h1), (mem_iff_get? h.wf).1 h2⟩
    rw [bbColor]
    by_cases hone : U.card = 1
    · rw [if_pos hone]
      obtain ⟨u, rfl⟩ := Finset.card_eq_one.1 hone
      have hu := (hUm u).1 (Finset.mem_singleton_self u)
      cases ho : ord {u} with
      | nil =>
        have := ((hord {u}).2 u).2 (Finset.mem_singleton_self u)
        rw [ho] at this; simp at this
      | cons x l =>
        have hx : x = u := by
          have := ((hord {u}).2 x).1 (by rw [ho]; exact List.mem_cons_self)
          simpa using this
        subst hx
        dsimp only
        rw [neighbors_eq hu.1]
        dsimp only
        obtain ⟨best', h1, h2⟩ := bbLast_spec hg h hu.1 hu.2 (by
          intro v hv
          by_contra hc
          push Not at hc
          exact hc.1 (Finset.mem_singleton.1 ((hUm v).2 ⟨hv, hc.2⟩))) (husedspec x) best hk
        exact ⟨best', by rw [h1], h2⟩
    · rw [if_neg hone, triples_spec cm (ord U) (fun u hu => ((hUm u).1 (((hord U).2 u).1 hu)).1)]
      dsimp only
      obtain ⟨x, hx⟩ : U.Nonempty := Finset.card_pos.1 (by omega)
      obtain ⟨t, ht, e1, -⟩ := maxTriple_spec (l := (ord U).map
        (fun u => ((colorsOf cm (nbrs g u)).card, uncoloredIn cm (nbrs g u), u))) (by
        simp only [ne_eq, List.map_eq_nil_iff]
        exact List.ne_nil_of_mem (((hord U).2 x).2 hx))
      obtain ⟨u, hu, rfl⟩ := List.mem_map.1 ht
      rw [e1]
      dsimp only
      have huU := ((hord U).2 u).1 hu
      obtain ⟨hu1, hu2⟩ := (hUm u).1 huU
      rw [neighbors_eq hu1]
      dsimp only
      have hused := husedspec u
      generalize colorsOf cm (ord (nbrs g u).toFinset) = used at hused
      by_cases hprune : (used.card : ℤ) = best.1 - 1
      · rw [if_pos hprune]
        refine ⟨best, rfl, le_refl _, hk, Or.inl rfl, fun f hp hf => ?_⟩
        have := (card_used_lt hg h hf hp hu1 hu2 hused).2
        omega
      · rw [if_neg hprune]
        have hUe : ∀ j v, v ∈ U.erase u ↔ Mem g v ∧ v ∉ Dict.keys (Dict.set cm u j) := by
          intro j v
          rw [Finset.mem_erase, hUm, mem_keys_set']
          tauto
        have hcard : (U.erase u).card = U.card - 1 := Finset.card_erase_of_mem huU
        obtain ⟨b1, f1, f2⟩ := bbTry_spec (g := g) (k := k) (cm := cm) (u := u) (used := used)
          (call := bbColor ord g fuel (U.erase u) k) (List.range' 1 k) (by
            intro j hj hjn best hb
            have hj' := List.mem_range'_1.1 hj
            exact ih (U.erase u) k (Dict.set cm u j) best (by omega) (by omega) (hUe j)
              (h.snoc hg hu1 hu2 hj' (le_refl _) (by intro c; omega) (fun v hv hc => hjn ((hused j).2 ⟨v, hv, hc⟩))) hb)
          best hk
        rw [f1]
        dsimp only
        have hold : ∀ f, ProperOn g f → Extends cm f → 1 ≤ f u ∧ f u < 1 + k → b1.1 ≤ count g f := by
          intro f hp hf hfu
          exact f2.opt f hp ⟨f u, List.mem_range'_1.2 hfu, (card_used_lt hg h hf hp hu1 hu2 hused).1,
            extends_set hu2 hf rfl⟩
        by_cases hnew : (k : ℤ) < b1.1 - 1
        · rw [if_pos hnew]
          obtain ⟨b2, g1, g2⟩ := ih (U.erase u) (k + 1) (Dict.set cm u (k + 1)) b1 (by omega) (by omega) (hUe _)
            (h.snoc hg hu1 hu2 (by omega) (Nat.le_succ _) (by intro c; omega) (by
              intro v _ hc
              have := (h.range v _ hc).2
              omega)) (by omega)
          refine ⟨b2, g1, g2.le.trans f2.le, (Nat.le_succ _).trans g2.ge, ?_, ?_⟩
          · rcases g2.valid with e | ⟨e, e'⟩
            · rw [e]; exact f2.valid
            · exact Or.inr ⟨e.trans_le f2.le, e'⟩
          · intro f hp hf
            by_cases hfu : 1 ≤ f u ∧ f u < 1 + k
            · exact g2.le.trans (hold f hp hf hfu)
            · rw [← count_comp (Equiv.swap (f u) (k + 1)) f]
              apply g2.opt
              · intro a b ha hb he hne hc
                exact hp a b ha hb he hne ((Equiv.swap (f u) (k + 1)).injective hc)
              · apply extends_set hu2
                · intro v c hc
                  dsimp only
                  rw [hf v c hc]
                  have := h.range v c hc
                  apply Equiv.swap_apply_of_ne_of_ne
                  · rintro rfl; exact hfu this
                  · omega
                · exact Equiv.swap_apply_left _ _
        · rw [if_neg hnew]
          refine ⟨b1, rfl, f2.le, f2.ge, f2.valid, ?_⟩
          intro f hp hf
          by_cases hfu : 1 ≤ f u ∧ f u < 1 + k
          · exact hold f hp hf hfu
          · have := h.lt_count hf hu1 hfu
            omega

end Rosemary.Coloring
