import Verif.Model.Gabow
import Verif.Lemmas.TreeExchange
import Verif.Lemmas.UnionFind
import Verif.Lemmas.Graph

/-!
# `find_exchange` finds the best exchange

The sets of the union-find structure are the classes of the tree with some edges contracted, named by their topmost
vertex: `F u` is the nearest ancestor of `u` whose edge to its predecessor is not contracted.
-/

namespace Rosemary.Gabow

open Graph UnionFind SpanningTrees Spec

variable {V W : Type} [LinearOrder V]

/-- The unordered edge of a pair. -/
def norm (p : V × V) : V × V := pair p.1 p.2

theorem norm_of_le {p : V × V} (h : p.1 ≤ p.2) : norm p = p := by
  rw [norm, pair, min_eq_left h, max_eq_right h]

/-- The names `F` after the contraction of edges. -/
structure Con (C : Finset V) (root : V) (φ F : V → V) : Prop where
  root : F root = root
  up : ∀ u ∈ C, F u ≠ u → F u = F (φ u)
  out : ∀ u, u ∉ C → F u = u

section

variable {A : V → V → Option W} {C : Finset V} {T : Finset (V × V)} {root : V} {φ F : V → V}

theorem Con.spec (hc : Con C root φ F) (h : Rooted A C root φ T) {u : V} (hu : u ∈ C) :
    Anc φ (F u) u ∧ F (F u) = F u := by
  refine h.induct (P := fun u => Anc φ (F u) u ∧ F (F u) = F u) ?_ ?_ u hu
  · rw [hc.root, hc.root]; exact ⟨Anc.refl _ _, rfl⟩
  · intro u hu _ ih
    by_cases he : F u = u
    · rw [he, he]; exact ⟨Anc.refl _ _, rfl⟩
    · rw [hc.up u hu he]; exact ⟨ih.1.up, ih.2⟩

theorem Con.mem (hc : Con C root φ F) (h : Rooted A C root φ T) {u : V} (hu : u ∈ C) : F u ∈ C :=
  h.anc_mem hu (hc.spec h hu).1

/-- An ancestor that is not contracted is an ancestor of the name. -/
theorem Con.anc_name (hc : Con C root φ F) (h : Rooted A C root φ T) {z u : V} (hu : u ∈ C) (hz : F z = z) (ha : Anc φ z u) :
    Anc φ z (F u) := by
  refine h.induct (P := fun u => Anc φ z u → Anc φ z (F u)) ?_ ?_ u hu ha
  · intro ha; rw [hc.root]; exact ha
  · intro u hu _ ih ha
    by_cases he : F u = u
    · rw [he]; exact ha
    · rw [hc.up u hu he]
      exact ih (ha.pred (by rintro rfl; exact he hz))

/-- The names after one more contraction. -/
theorem Con.step (hc : Con C root φ F) (h : Rooted A C root φ T) {v : V} (hv : v ∈ C) (hr : v ≠ root) (hF : F v = v) :
    F (φ v) ≠ v ∧ Con C root φ (fun u => if F u = v ∨ F u = F (φ v) then F (φ v) else F u) ∧
      ∀ u ∈ C, (fun u => if F u = v ∨ F u = F (φ v) then F (φ v) else F u) u = u ↔ F u = u ∧ u ≠ v := by
  have hw : F (φ v) ≠ v := by
    intro he
    have := (hc.spec h (h.closed v hv)).1
    rw [he] at this
    exact h.not_anc_pred hv hr this
  have hwC : F (φ v) ∈ C := hc.mem h (h.closed v hv)
  refine ⟨hw, ⟨?_, ?_, fun u hu => ?_⟩, ?_⟩
  · rw [hc.root]
    split
    · rename_i h1
      rcases h1 with h1 | h1
      · exact absurd h1.symm hr
      · exact h1.symm
    · rfl
  · intro u hu hne
    by_cases huv : u = v
    · subst huv
      rw [if_pos (Or.inl hF), if_pos (Or.inr rfl)]
    · by_cases he : F u = u
      · exfalso
        apply hne
        split
        · rename_i h1
          rcases h1 with h1 | h1
          · exact absurd (he.symm.trans h1) huv
          · exact h1.symm.trans he
        · exact he
      · rw [hc.up u hu he]
  · rw [hc.out u hu, if_neg]
    rintro (rfl | rfl)
    · exact hu hv
    · exact hu hwC
  · intro u hu
    dsimp only
    constructor
    · intro he
      split at he
      · rename_i h1
        have hFu : F u = u := by
          rw [← he]; exact (hc.spec h (h.closed v hv)).2
        exact ⟨hFu, fun huv => hw (he.trans huv)⟩
      · rename_i h1
        exact ⟨he, fun huv => h1 (Or.inl (he.trans huv))⟩
    · rintro ⟨h1, h2⟩
      split
      · rename_i h3
        rcases h3 with h3 | h3
        · exact absurd (h1.symm.trans h3) h2
        · exact h3.symm.trans h1
      · exact h1

theorem anc_root_eq (hfix : φ root = root) {z : V} (ha : Anc φ z root) : z = root := by
  obtain ⟨k, hk⟩ := ha
  rw [← hk]
  exact Function.iterate_fixed hfix k

/-- The setting: the tree `T` with the predecessors `φ`, given by the dictionary `father`. -/
structure Given (A : V → V → Option W) (C : Finset V) (root : V) (φ : V → V) (T : Finset (V × V)) (E : List V) (father : Links V) :
    Prop where
  rooted : Rooted A C root φ T
  elements : ∀ v ∈ C, v ∈ E
  dict : ∀ v ∈ C, Dict.get? father v = some (some (φ v))

variable {E : List V} {father : Links V}

theorem Given.getKey (hG : Given A C root φ T E father) {v : V} (hv : v ∈ C) : getKey father v = pure (some (φ v)) := by
  rw [Gabow.getKey, hG.dict v hv]

theorem Given.findLink (hG : Given A C root φ T E father) {X : NUF V} (hX : NInv E X F) {v : V} (hv : v ∈ C) :
    ∃ X', findLink X (some v) = pure (F v, X') ∧ NInv E X' F := by
  obtain ⟨X', h1, h2⟩ := nfind_inv hX (hG.elements v hv)
  exact ⟨X', by rw [Gabow.findLink, h1]; rfl, h2⟩

/-- The contraction of the edge above `v`. -/
theorem Given.union (hG : Given A C root φ T E father) (hc : Con C root φ F) {X : NUF V} (hX : NInv E X F) {v : V} (hv : v ∈ C) (hr : v ≠ root)
    (hF : F v = v) : ∃ X' F', ofExcept (X.union v (F (φ v)) (F (φ v))) = pure X' ∧ NInv E X' F' ∧ Con C root φ F' ∧
      ∀ u ∈ C, F' u = u ↔ F u = u ∧ u ≠ v := by
  obtain ⟨h1, h2, h3⟩ := hc.step hG.rooted hv hr hF
  obtain ⟨X', h4, h5⟩ := nunion_inv hX (u := v) (v := F (φ v)) (w := F (φ v)) (Ne.symm h1) ⟨v, hG.elements v hv, hF⟩
    ⟨φ v, hG.elements _ (hG.rooted.closed v hv), rfl⟩ (Or.inr (Or.inl rfl))
  exact ⟨X', _, by rw [h4]; rfl, h5, h2, h3⟩

/-- The loop over `included`. -/
theorem contract_spec (hG : Given A C root φ T E father) : ∀ (es : List (V × V)) (X : NUF V) (F : V → V), NInv E X F → Con C root φ F →
    (∀ p ∈ es, norm p ∈ T) → (es.map norm).Nodup → (∀ v ∈ C, v ≠ root → pair v (φ v) ∈ es.map norm → F v = v) →
    ∃ X' F', contract father es X = pure X' ∧ NInv E X' F' ∧ Con C root φ F' ∧
      ∀ u ∈ C, F' u = u ↔ F u = u ∧ ¬ (u ≠ root ∧ pair u (φ u) ∈ es.map norm) := by
  intro es
  induction es with
  | nil =>
    intro X F hX hc _ _ _
    exact ⟨X, F, rfl, hX, hc, fun u _ => by simp⟩
  | cons p es ih =>
    obtain ⟨x, y⟩ := p
    intro X F hX hc hT hnd hF
    obtain ⟨v, hv, hr, he⟩ := (hG.rooted.edges _).1 (hT (x, y) List.mem_cons_self)
    have hnp := hG.rooted.ne_pred hv hr
    rw [List.map_cons, List.nodup_cons] at hnd
    have hxy : (x = v ∧ y = φ v) ∨ (x = φ v ∧ y = v) := pair_eq_iff.1 he
    have hsel : ∃ fx, getKey father x = pure fx ∧ (if fx ≠ some y then x else y) = φ v ∧ (if fx ≠ some y then y else x) = v := by
      rcases hxy with ⟨rfl, rfl⟩ | ⟨rfl, rfl⟩
      · refine ⟨_, hG.getKey hv, ?_, ?_⟩ <;> rw [if_neg (by simp)]
      · refine ⟨_, hG.getKey (hG.rooted.closed _ hv), ?_, ?_⟩ <;> rw [if_pos] <;>
        · intro he
          injection he with he
          have h1 := hG.rooted.depth_succ hv hr
          have h2 := hG.rooted.depth_le (hG.rooted.closed _ (hG.rooted.closed _ hv)) (Anc.refl φ (φ (φ y)))
          by_cases h3 : φ y = root
          · rw [h3, hG.rooted.fix] at he
            exact hr he.symm
          · have h4 := hG.rooted.depth_succ (hG.rooted.closed _ hv) h3
            rw [he] at h4
            omega
    obtain ⟨fx, k1, k2, k3⟩ := hsel
    have hFv : F v = v := hF v hv hr (by rw [List.map_cons]; exact List.mem_cons.2 (Or.inl he.symm))
    obtain ⟨X1, f1, f2⟩ := hG.findLink hX (hG.rooted.closed v hv)
    obtain ⟨X2, F2, u1, u2, u3, u4⟩ := hG.union hc f2 hv hr hFv
    obtain ⟨X3, F3, r1, r2, r3, r4⟩ := ih X2 F2 u2 u3 (fun p hp => hT p (List.mem_cons_of_mem _ hp)) hnd.2 (by
      intro u hu hur hmem
      refine (u4 u hu).2 ⟨hF u hu hur (by rw [List.map_cons]; exact List.mem_cons_of_mem _ hmem), ?_⟩
      rintro rfl
      apply hnd.1
      rw [he]; exact hmem)
    refine ⟨X3, F3, ?_, r2, r3, fun u hu => ?_⟩
    · rw [contract, k1, pure_bind, k2, k3, f1, pure_bind]
      dsimp only
      rw [u1, pure_bind, r1]
    · rw [r4 u hu, u4 u hu, List.map_cons, List.mem_cons, he]
      constructor
      · rintro ⟨⟨h1, h2⟩, h3⟩
        refine ⟨h1, fun h4 => ?_⟩
        rcases h4.2 with h5 | h5
        · exact h2 (hG.rooted.pair_inj hu h4.1 hv hr h5)
        · exact h3 ⟨h4.1, h5⟩
      · rintro ⟨h1, h2⟩
        refine ⟨⟨h1, ?_⟩, fun h3 => h2 ⟨h3.1, Or.inr h3.2⟩⟩
        rintro rfl
        exact h2 ⟨hr, Or.inl rfl⟩

theorem ancestors_spec (hG : Given A C root φ T E father) (hc : Con C root φ F) : ∀ (d : ℕ) (a : V) (X : NUF V) (anc : Finset V),
    depthOf φ root a = d → a ∈ C → F a = a → NInv E X F → (∀ z ∈ anc, d < depthOf φ root z) →
    ∃ X' S, ancestors father X a anc = pure (S, X') ∧ NInv E X' F ∧ ∀ z, z ∈ S ↔ z ∈ anc ∨ (F z = z ∧ Anc φ z a) := by
  intro d
  induction d using Nat.strong_induction_on with
  | _ d ih =>
    intro a X anc hd ha hF hX hanc
    have hna : a ∉ anc := by
      intro h
      have := hanc a h
      omega
    obtain ⟨X1, f1, f2⟩ := hG.findLink hX (hG.rooted.closed a ha)
    by_cases hr : a = root
    · subst hr
      refine ⟨X1, insert a anc, ?_, f2, fun z => ?_⟩
      · rw [ancestors, if_neg hna, hG.getKey ha, pure_bind, f1, pure_bind]
        dsimp only
        rw [hG.rooted.fix, hF, ancestors, if_pos (Finset.mem_insert_self _ _)]
      · rw [Finset.mem_insert]
        constructor
        · rintro (rfl | h)
          · exact Or.inr ⟨hF, Anc.refl _ _⟩
          · exact Or.inl h
        · rintro (h | ⟨-, h⟩)
          · exact Or.inr h
          · exact Or.inl (anc_root_eq hG.rooted.fix h)
    · have h1 := hG.rooted.depth_succ ha hr
      have h2 := hc.spec hG.rooted (hG.rooted.closed a ha)
      have h3 := hG.rooted.depth_le (hG.rooted.closed a ha) h2.1
      obtain ⟨X2, S, r1, r2, r3⟩ := ih (depthOf φ root (F (φ a))) (by omega) (F (φ a)) X1 (insert a anc) rfl
        (hc.mem hG.rooted (hG.rooted.closed a ha)) h2.2 f2 (by
          intro z hz
          rcases Finset.mem_insert.1 hz with rfl | hz
          · omega
          · have := hanc z hz; omega)
      refine ⟨X2, S, ?_, r2, fun z => ?_⟩
      · rw [ancestors, if_neg hna, hG.getKey ha, pure_bind, f1, pure_bind]
        exact r1
      · rw [r3, Finset.mem_insert]
        constructor
        · rintro ((rfl | h) | ⟨h4, h5⟩)
          · exact Or.inr ⟨hF, Anc.refl _ _⟩
          · exact Or.inl h
          · exact Or.inr ⟨h4, (h5.trans h2.1).up⟩
        · rintro (h | ⟨h4, h5⟩)
          · exact Or.inl (Or.inr h)
          · by_cases hz : z = a
            · exact Or.inl (Or.inl hz)
            · exact Or.inr ⟨h4, hc.anc_name hG.rooted (hG.rooted.closed a ha) h4 (h5.pred hz)⟩

theorem meet_spec (hG : Given A C root φ T E father) (hc : Con C root φ F) {S : Finset V} (hS : root ∈ S) : ∀ (d : ℕ) (a : V) (X : NUF V),
    depthOf φ root a = d → a ∈ C → F a = a → NInv E X F →
    ∃ X' m, meet father S X a = pure (m, X') ∧ NInv E X' F ∧ m ∈ S ∧ F m = m ∧ Anc φ m a ∧
      ∀ z, F z = z → z ∈ S → Anc φ z a → Anc φ z m := by
  intro d
  induction d using Nat.strong_induction_on with
  | _ d ih =>
    intro a X hd ha hF hX
    by_cases haS : a ∈ S
    · exact ⟨X, a, by rw [meet, if_pos haS], hX, haS, hF, Anc.refl _ _, fun z _ _ h => h⟩
    · have hr : a ≠ root := by rintro rfl; exact haS hS
      have h1 := hG.rooted.depth_succ ha hr
      have h2 := hc.spec hG.rooted (hG.rooted.closed a ha)
      have h3 := hG.rooted.depth_le (hG.rooted.closed a ha) h2.1
      obtain ⟨X1, f1, f2⟩ := hG.findLink hX (hG.rooted.closed a ha)
      obtain ⟨X2, m, r1, r2, r3, r4, r5, r6⟩ := ih (depthOf φ root (F (φ a))) (by omega) (F (φ a)) X1 rfl
        (hc.mem hG.rooted (hG.rooted.closed a ha)) h2.2 f2
      refine ⟨X2, m, ?_, r2, r3, r4, ((r5.trans h2.1).up), fun z hz hzS hza => ?_⟩
      · rw [meet, if_neg haS, hG.getKey ha, pure_bind, f1, pure_bind]
        exact r1
      · refine r6 z hz hzS (hc.anc_name hG.rooted (hG.rooted.closed a ha) hz (hza.pred ?_))
        rintro rfl
        exact haS hzS

end

section

variable [AddCommGroup W] [LinearOrder W] {g : Graph V W} {C : Finset V} {T : Finset (V × V)} {root : V} {φ F : V → V}
  {E : List V} {father : Links V}

omit [LinearOrder W] in
theorem weightOf_eq {u v : V} {w : W} (h : adj g u v = some w) : weightOf g u v = pure w := by
  rw [adj] at h
  rw [weightOf, h]

theorem raise_spec (hG : Given (adj g) C root φ T E father) {x y m : V} {wxy : W} (hw : adj g x y = some wxy) {wt : V → W}
    (hwt : ∀ v ∈ C, v ≠ root → adj g v (φ v) = some (wt v)) : ∀ (d : ℕ) (v : V) (X : NUF V) (F : V → V) (best : Best V W),
    depthOf φ root v = d → v ∈ C → F v = v → F m = m → Anc φ m v → NInv E X F → Con C root φ F →
    ∃ X' F' best', raise g father x y m X best v = pure (X', best') ∧ NInv E X' F' ∧ Con C root φ F' ∧
      (∀ u ∈ C, F' u = u ↔ F u = u ∧ ¬ (Anc φ u v ∧ ¬ Anc φ u m)) ∧
      best'.1 ≤ best.1 ∧ (∀ u ∈ C, F u = u → Anc φ u v → ¬ Anc φ u m → best'.1 ≤ ((wxy - wt u : W) : WithTop W)) ∧
      (best' = best ∨ ∃ u ∈ C, F u = u ∧ Anc φ u v ∧ ¬ Anc φ u m ∧ best' = (((wxy - wt u : W) : WithTop W), some (u, φ u), some (x, y))) := by
  intro d
  induction d using Nat.strong_induction_on with
  | _ d ih =>
    intro v X F best hd hv hF hm hmv hX hc
    by_cases hvm : v = m
    · subst hvm
      exact ⟨X, F, best, by rw [raise, if_pos rfl], hX, hc, fun u _ => by tauto, le_refl _, fun u _ _ h1 h2 => absurd h1 h2, Or.inl rfl⟩
    · have hr : v ≠ root := by
        rintro rfl
        exact hvm (anc_root_eq hG.rooted.fix hmv).symm
      have h1 := hG.rooted.depth_succ hv hr
      have h2 := hc.spec hG.rooted (hG.rooted.closed v hv)
      have h3 := hG.rooted.depth_le (hG.rooted.closed v hv) h2.1
      have hnm : ¬ Anc φ v m := by
        intro h
        have h4 := hG.rooted.depth_le (hG.rooted.closed v hv) (hmv.pred (Ne.symm hvm))
        have h5 := hG.rooted.depth_le (hG.rooted.anc_mem hv hmv) h
        omega
      obtain ⟨X1, f1, f2⟩ := hG.findLink hX (hG.rooted.closed v hv)
      obtain ⟨X2, F2, u1, u2, u3, u4⟩ := hG.union hc f2 hv hr hF
      have hb : F (φ v) ≠ v := by
        intro he
        rw [he] at h3
        omega
      have hbC : F (φ v) ∈ C := hc.mem hG.rooted (hG.rooted.closed v hv)
      have hmC : m ∈ C := hG.rooted.anc_mem hv hmv
      set best1 : Best V W := if ((wxy - wt v : W) : WithTop W) < best.1 then
        (((wxy - wt v : W) : WithTop W), some (v, φ v), some (x, y)) else best with hb1
      obtain ⟨X3, F3, best3, r1, r2, r3, r4, r5, r6, r7⟩ := ih (depthOf φ root (F (φ v))) (by omega) (F (φ v)) X2 F2 best1 rfl hbC
        ((u4 _ hbC).2 ⟨h2.2, hb⟩) ((u4 _ hmC).2 ⟨hm, Ne.symm hvm⟩)
        (hc.anc_name hG.rooted (hG.rooted.closed v hv) hm (hmv.pred (Ne.symm hvm))) u2 u3
      have hle : best1.1 ≤ best.1 ∧ best1.1 ≤ ((wxy - wt v : W) : WithTop W) := by
        rw [hb1]
        split
        · rename_i hlt; exact ⟨hlt.le, le_refl _⟩
        · rename_i hlt; exact ⟨le_refl _, not_lt.1 hlt⟩
      have hanc : ∀ u, F u = u → u ≠ v → (Anc φ u (F (φ v)) ↔ Anc φ u v) := by
        intro u hu huv
        exact ⟨fun h => (h.trans h2.1).up, fun h => hc.anc_name hG.rooted (hG.rooted.closed v hv) hu (h.pred huv)⟩
      refine ⟨X3, F3, best3, ?_, r2, r3, fun u hu => ?_, r5.trans hle.1, fun u hu hFu h4 h5 => ?_, ?_⟩
      · rw [raise, if_neg hvm, hG.getKey hv, pure_bind, weightOf_eq hw, pure_bind]
        dsimp only
        rw [weightOf_eq (hwt v hv hr), pure_bind, f1, pure_bind]
        dsimp only
        rw [u1, pure_bind]
        exact r1
      · rw [r4 u hu, u4 u hu]
        constructor
        · rintro ⟨⟨k1, k2⟩, k3⟩
          rw [hanc u k1 k2] at k3
          exact ⟨k1, k3⟩
        · rintro ⟨k1, k2⟩
          have k3 : u ≠ v := by rintro rfl; exact k2 ⟨Anc.refl _ _, hnm⟩
          rw [hanc u k1 k3]
          exact ⟨⟨k1, k3⟩, k2⟩
      · by_cases huv : u = v
        · subst huv; exact r5.trans hle.2
        · exact r6 u hu ((u4 u hu).2 ⟨hFu, huv⟩) ((hanc u hFu huv).2 h4) h5
      · rcases r7 with r7 | ⟨u, hu, k1, k2, k3, k4⟩
        · rw [r7, hb1]
          split
          · exact Or.inr ⟨v, hv, hF, Anc.refl _ _, hnm, rfl⟩
          · exact Or.inl rfl
        · obtain ⟨k5, k6⟩ := (u4 u hu).1 k1
          exact Or.inr ⟨u, hu, k5, (hanc u k5 k6).1 k2, k3, k4⟩

/-- The edge above `u` is on the cycle that `(x, y)` closes. -/
def Cross (φ : V → V) (u : V) (p : V × V) : Prop := ¬ (Anc φ u p.1 ↔ Anc φ u p.2)

/-- The exchanges for one edge. -/
theorem improve_spec (hG : Given (adj g) C root φ T E father) {x y : V} {wxy : W} (hw : adj g x y = some wxy) {wt : V → W}
    (hwt : ∀ v ∈ C, v ≠ root → adj g v (φ v) = some (wt v)) (hx : x ∈ C) (hy : y ∈ C) {X : NUF V} (hX : NInv E X F)
    (hc : Con C root φ F) (best : Best V W) :
    ∃ X' F' best', improve g father x y X best = pure (X', best') ∧ NInv E X' F' ∧ Con C root φ F' ∧
      (∀ u ∈ C, F' u = u ↔ F u = u ∧ ¬ Cross φ u (x, y)) ∧
      best'.1 ≤ best.1 ∧ (∀ u ∈ C, F u = u → Cross φ u (x, y) → best'.1 ≤ ((wxy - wt u : W) : WithTop W)) ∧
      (best' = best ∨ ∃ u ∈ C, F u = u ∧ Cross φ u (x, y) ∧
        best' = (((wxy - wt u : W) : WithTop W), some (u, φ u), some (x, y))) := by
  have hR := hG.rooted
  obtain ⟨X1, f1, g1⟩ := hG.findLink hX hx
  obtain ⟨X2, S, a1, a2, a3⟩ := ancestors_spec hG hc _ (F x) X1 ∅ rfl (hc.mem hR hx) (hc.spec hR hx).2 g1 (by simp)
  obtain ⟨X3, f3, g3⟩ := hG.findLink a2 hy
  have hrootS : root ∈ S := (a3 root).2 (Or.inr ⟨hc.root, hR.anc_root (hc.mem hR hx)⟩)
  obtain ⟨X4, m, m1, m2, m3, m4, m5, m6⟩ := meet_spec hG hc hrootS _ (F y) X3 rfl (hc.mem hR hy) (hc.spec hR hy).2 g3
  have hS : ∀ z, z ∈ S ↔ F z = z ∧ Anc φ z x := by
    intro z
    rw [a3]
    constructor
    · rintro (h | ⟨h1, h2⟩)
      · simp at h
      · exact ⟨h1, h2.trans (hc.spec hR hx).1⟩
    · rintro ⟨h1, h2⟩
      exact Or.inr ⟨h1, hc.anc_name hR hx h1 h2⟩
  have hmx : Anc φ m x := ((hS m).1 m3).2
  have hmy : Anc φ m y := m5.trans (hc.spec hR hy).1
  have hm : ∀ z, F z = z → (Anc φ z m ↔ Anc φ z x ∧ Anc φ z y) := by
    intro z hz
    constructor
    · intro h; exact ⟨h.trans hmx, h.trans hmy⟩
    · rintro ⟨h1, h2⟩
      exact m6 z hz ((hS z).2 ⟨hz, h1⟩) (hc.anc_name hR hy hz h2)
  obtain ⟨X5, f5, g5⟩ := hG.findLink m2 hx
  obtain ⟨X6, F6, best6, r1, r2, r3, r4, r5, r6, r7⟩ := raise_spec hG hw hwt _ (F x) X5 F best rfl (hc.mem hR hx) (hc.spec hR hx).2 m4
    (hc.anc_name hR hx m4 hmx) g5 hc
  obtain ⟨X7, f7, g7⟩ := hG.findLink r2 hy
  have hmC : m ∈ C := hR.anc_mem hx hmx
  have hF6m : F6 m = m := (r4 m hmC).2 ⟨m4, fun h => h.2 (Anc.refl _ _)⟩
  obtain ⟨X8, F8, best8, s1, s2, s3, s4, s5, s6, s7⟩ := raise_spec hG hw hwt _ (F6 y) X7 F6 best6 rfl (r3.mem hR hy) (r3.spec hR hy).2 hF6m
    (r3.anc_name hR hy hF6m hmy) g7 r3
  have hax : ∀ u, F u = u → (Anc φ u (F x) ↔ Anc φ u x) := fun u hu =>
    ⟨fun h => h.trans (hc.spec hR hx).1, fun h => hc.anc_name hR hx hu h⟩
  have hay : ∀ u, F6 u = u → (Anc φ u (F6 y) ↔ Anc φ u y) := fun u hu =>
    ⟨fun h => h.trans (r3.spec hR hy).1, fun h => r3.anc_name hR hy hu h⟩
  have hcross : ∀ u, Cross φ u (x, y) ↔ ¬ (Anc φ u x ↔ Anc φ u y) := fun u => Iff.rfl
  have h6 : ∀ u ∈ C, F6 u = u ↔ F u = u ∧ ¬ (Anc φ u x ∧ ¬ Anc φ u y) := by
    intro u hu
    rw [r4 u hu]
    constructor
    · rintro ⟨k1, k2⟩
      rw [hax u k1, hm u k1] at k2
      exact ⟨k1, by tauto⟩
    · rintro ⟨k1, k2⟩
      rw [hax u k1, hm u k1]
      exact ⟨k1, by tauto⟩
  refine ⟨X8, F8, best8, ?_, s2, s3, fun u hu => ?_, s5.trans r5, fun u hu hF hcr => ?_, ?_⟩
  · rw [improve, f1, pure_bind]
    dsimp only
    rw [a1, pure_bind]
    dsimp only
    rw [f3, pure_bind]
    dsimp only
    rw [m1, pure_bind]
    dsimp only
    rw [f5, pure_bind]
    dsimp only
    rw [r1, pure_bind]
    dsimp only
    rw [f7, pure_bind]
    exact s1
  · rw [s4 u hu, hcross]
    constructor
    · rintro ⟨k1, k2⟩
      obtain ⟨k3, k4⟩ := (h6 u hu).1 k1
      rw [hay u k1, hm u k3] at k2
      exact ⟨k3, by tauto⟩
    · rintro ⟨k1, k2⟩
      have k3 := (h6 u hu).2 ⟨k1, by tauto⟩
      rw [hay u k3, hm u k1]
      exact ⟨k3, by tauto⟩
  · rw [hcross] at hcr
    by_cases k : Anc φ u x
    · refine s5.trans (r6 u hu hF ((hax u hF).2 k) ?_)
      rw [hm u hF]; tauto
    · have k3 := (h6 u hu).2 ⟨hF, by tauto⟩
      refine s6 u hu k3 ((hay u k3).2 (by tauto)) ?_
      rw [hm u hF]; tauto
  · rcases s7 with s7 | ⟨u, hu, k1, k2, k3, k4⟩
    · rcases r7 with r7 | ⟨u, hu, k1, k2, k3, k4⟩
      · exact Or.inl (s7.trans r7)
      · refine Or.inr ⟨u, hu, k1, ?_, s7.trans k4⟩
        rw [hax u k1] at k2
        rw [hm u k1] at k3
        rw [hcross]; tauto
    · obtain ⟨k5, k6⟩ := (h6 u hu).1 k1
      refine Or.inr ⟨u, hu, k5, ?_, k4⟩
      rw [hay u k1] at k2
      rw [hm u k5] at k3
      rw [hcross]; tauto

/-- The exchange of the edge above `u` for the edge `p` is allowed. -/
structure Allowed (g : Graph V W) (C : Finset V) (root : V) (φ : V → V) (T I X : Finset (V × V)) (P : List (V × V)) (u : V) (p : V × V) : Prop where
  mem : u ∈ C
  ne : u ≠ root
  inc : pair u (φ u) ∉ I
  edge : p ∈ P
  tree : p ∉ T
  exc : p ∉ X
  cross : Cross φ u p

/-- The best exchange among those with the edges `P`. -/
def IsBest (g : Graph V W) (C : Finset V) (root : V) (φ : V → V) (T I X : Finset (V × V)) (wt : V → W) (P : List (V × V))
    (best : Best V W) : Prop :=
  (∀ u p w, Allowed g C root φ T I X P u p → adj g p.1 p.2 = some w → best.1 ≤ ((w - wt u : W) : WithTop W)) ∧
  (best = (⊤, none, none) ∨ ∃ u p w, Allowed g C root φ T I X P u p ∧ adj g p.1 p.2 = some w ∧
    best = (((w - wt u : W) : WithTop W), some (u, φ u), some p))

/-- The loop over the edges. -/
theorem scanEdges_spec [IsOrderedAddMonoid W] (hG : Given (adj g) C root φ T E father) {wt : V → W} {I X : Finset (V × V)}
    (hwt : ∀ v ∈ C, v ≠ root → adj g v (φ v) = some (wt v)) : ∀ (es P : List (V × V)) (Y : NUF V) (F : V → V) (best : Best V W)
    (marked : Finset (V × V)),
    (∀ p ∈ es, p.1 ≤ p.2 ∧ p.1 ∈ C ∧ p.2 ∈ C ∧ ∃ w, adj g p.1 p.2 = some w) → es.Nodup →
    (es.Pairwise (fun p q => ∀ w w', adj g p.1 p.2 = some w → adj g q.1 q.2 = some w' → w ≤ w')) →
    (∀ p ∈ P, (∃ w, adj g p.1 p.2 = some w) ∧ ∀ q ∈ es, ∀ w w', adj g p.1 p.2 = some w → adj g q.1 q.2 = some w' → w ≤ w') →
    (∀ p, (∃ q ∈ marked, norm q = p) ↔ p ∈ X ∧ p ∈ es) →
    NInv E Y F → Con C root φ F →
    (∀ u ∈ C, F u = u ↔ ¬ (u ≠ root ∧ (pair u (φ u) ∈ I ∨ ∃ p ∈ P, p ∉ T ∧ p ∉ X ∧ Cross φ u p))) →
    IsBest g C root φ T I X wt P best →
    ∃ best', scanEdges g father es marked Y best = pure (best', ∅) ∧ IsBest g C root φ T I X wt (P ++ es) best' := by
  have hR := hG.rooted
  intro es
  induction es with
  | nil =>
    intro P Y F best marked _ _ _ _ hm _ _ _ hb
    have hempty : marked = ∅ := by
      rw [Finset.eq_empty_iff_forall_notMem]
      intro q hq
      have := ((hm (norm q)).1 ⟨q, hq, rfl⟩).2
      simp at this
    refine ⟨best, by rw [scanEdges, hempty], by rw [List.append_nil]; exact hb⟩
  | cons p es ih =>
    obtain ⟨x, y⟩ := p
    intro P Y F best marked hes hnd hsort hP hm hY hc hF hb
    obtain ⟨hxy, hx, hy, wxy, hw⟩ := hes (x, y) List.mem_cons_self
    dsimp only at hxy hx hy hw
    rw [List.nodup_cons] at hnd
    rw [List.pairwise_cons] at hsort
    have happ : P ++ (x, y) :: es = (P ++ [(x, y)]) ++ es := by simp
    have hP' : ∀ p ∈ P ++ [(x, y)], (∃ w, adj g p.1 p.2 = some w) ∧ ∀ q ∈ es, ∀ w w', adj g p.1 p.2 = some w → adj g q.1 q.2 = some w' → w ≤ w' := by
      intro p hp
      rcases List.mem_append.1 hp with hp | hp
      · exact ⟨(hP p hp).1, fun q hq => (hP p hp).2 q (List.mem_cons_of_mem _ hq)⟩
      · rw [List.mem_singleton] at hp
        subst hp
        exact ⟨⟨wxy, hw⟩, hsort.1⟩
    have hmark : ((x, y) ∈ marked ∨ (y, x) ∈ marked) ↔ (x, y) ∈ X := by
      have h1 : ((x, y) ∈ marked ∨ (y, x) ∈ marked) ↔ ∃ q ∈ marked, norm q = (x, y) := by
        have h2 : ∀ q : V × V, norm q = (x, y) ↔ q = (x, y) ∨ q = (y, x) := by
          intro q
          have h3 : norm q = (x, y) ↔ pair q.1 q.2 = pair x y := by
            rw [show pair x y = (x, y) from norm_of_le (p := (x, y)) hxy, norm]
          rw [h3, pair_eq_iff]
          constructor
          · rintro (⟨h1, h2⟩ | ⟨h1, h2⟩)
            · exact Or.inl (Prod.ext h1 h2)
            · exact Or.inr (Prod.ext h1 h2)
          · rintro (rfl | rfl)
            · exact Or.inl ⟨rfl, rfl⟩
            · exact Or.inr ⟨rfl, rfl⟩
        constructor
        · rintro (h | h)
          · exact ⟨_, h, (h2 _).2 (Or.inl rfl)⟩
          · exact ⟨_, h, (h2 _).2 (Or.inr rfl)⟩
        · rintro ⟨q, hq, he⟩
          rcases (h2 q).1 he with rfl | rfl
          · exact Or.inl hq
          · exact Or.inr hq
      rw [h1, hm]
      simp
    -- an edge that is skipped
    have hskip : ((x, y) ∈ T ∨ (x, y) ∈ X ∨ x = y) → ∀ marked', (∀ p, (∃ q ∈ marked', norm q = p) ↔ p ∈ X ∧ p ∈ es) →
        ∃ best', scanEdges g father es marked' Y best = pure (best', ∅) ∧ IsBest g C root φ T I X wt (P ++ (x, y) :: es) best' := by
      intro hor marked' hm'
      have hno : ∀ u, ¬ ((x, y) ∉ T ∧ (x, y) ∉ X ∧ Cross φ u (x, y)) := by
        rintro u ⟨h1, h2, h3⟩
        rcases hor with h | h | h
        · exact h1 h
        · exact h2 h
        · subst h; exact h3 Iff.rfl
      have hall : ∀ u p, Allowed g C root φ T I X (P ++ [(x, y)]) u p → Allowed g C root φ T I X P u p := by
        intro u p ha
        rcases List.mem_append.1 ha.edge with h | h
        · exact { ha with edge := h }
        · rw [List.mem_singleton] at h
          subst h
          exact absurd ⟨ha.tree, ha.exc, ha.cross⟩ (hno u)
      rw [happ]
      refine ih (P ++ [(x, y)]) Y F best marked' (fun p hp => hes p (List.mem_cons_of_mem _ hp)) hnd.2 hsort.2 hP' hm' hY hc ?_ ?_
      · intro u hu
        rw [hF u hu, not_iff_not]
        refine and_congr_right (fun _ => or_congr_right ⟨?_, ?_⟩)
        · rintro ⟨p, hp, h⟩; exact ⟨p, List.mem_append_left _ hp, h⟩
        · rintro ⟨p, hp, h⟩
          rcases List.mem_append.1 hp with hp | hp
          · exact ⟨p, hp, h⟩
          · rw [List.mem_singleton] at hp
            subst hp
            exact absurd h (hno u)
      · refine ⟨fun u p w ha => hb.1 u p w (hall u p ha), hb.2.imp id ?_⟩
        rintro ⟨u, p, w, ha, h⟩
        exact ⟨u, p, w, { ha with edge := List.mem_append_left _ ha.edge }, h⟩
    rw [scanEdges]
    by_cases hmk : (x, y) ∈ marked ∨ (y, x) ∈ marked
    · rw [if_pos hmk]
      refine hskip (Or.inr (Or.inl (hmark.1 hmk))) _ (fun p => ?_)
      constructor
      · rintro ⟨q, hq, rfl⟩
        rw [Finset.mem_erase, Finset.mem_erase] at hq
        obtain ⟨h1, h2⟩ := (hm (norm q)).1 ⟨q, hq.2.2, rfl⟩
        refine ⟨h1, (List.mem_cons.1 h2).resolve_left (fun h3 => ?_)⟩
        rw [norm, ← show pair x y = (x, y) from norm_of_le (p := (x, y)) hxy, pair_eq_iff] at h3
        rcases h3 with ⟨h4, h5⟩ | ⟨h4, h5⟩
        · exact hq.2.1 (Prod.ext h4 h5)
        · exact hq.1 (Prod.ext h4 h5)
      · rintro ⟨h1, h2⟩
        obtain ⟨q, hq, rfl⟩ := (hm p).2 ⟨h1, List.mem_cons_of_mem _ h2⟩
        refine ⟨q, ?_, rfl⟩
        rw [Finset.mem_erase, Finset.mem_erase]
        refine ⟨?_, ?_, hq⟩
        · rintro rfl
          apply hnd.1
          rw [show norm (y, x) = (x, y) by rw [norm, pair, min_eq_right hxy, max_eq_left hxy]] at h2
          exact h2
        · rintro rfl
          apply hnd.1
          rw [norm_of_le (p := (x, y)) hxy] at h2
          exact h2
    · rw [if_neg hmk, hG.getKey hx, pure_bind]
      have hm' : ∀ p, (∃ q ∈ marked, norm q = p) ↔ p ∈ X ∧ p ∈ es := by
        intro p
        rw [hm p, List.mem_cons]
        constructor
        · rintro ⟨h1, rfl | h2⟩
          · exact absurd (hmark.2 h1) hmk
          · exact ⟨h1, h2⟩
        · rintro ⟨h1, h2⟩; exact ⟨h1, Or.inr h2⟩
      have htree : ∀ a b, a ∈ C → φ a = b → pair a b ∈ T ∨ a = b := by
        rintro a b ha rfl
        by_cases hr : a = root
        · right; rw [hr, hR.fix]
        · left; exact (hR.edges _).2 ⟨a, ha, hr, rfl⟩
      have hpxy : pair x y = (x, y) := norm_of_le (p := (x, y)) hxy
      have hpyx : pair y x = (x, y) := by rw [pair, min_eq_right hxy, max_eq_left hxy]
      by_cases h1 : φ x = y
      · rw [if_neg (by rw [h1]; simp)]
        refine hskip ?_ marked hm'
        rcases htree x y hx h1 with h | h
        · left; rw [← hpxy]; exact h
        · exact Or.inr (Or.inr h)
      · rw [if_pos (by simpa using h1), hG.getKey hy, pure_bind]
        by_cases h2 : φ y = x
        · rw [if_neg (by rw [h2]; simp)]
          refine hskip ?_ marked hm'
          rcases htree y x hy h2 with h | h
          · left; rw [← hpyx]; exact h
          · exact Or.inr (Or.inr h.symm)
        · rw [if_pos (by simpa using h2)]
          obtain ⟨Y', F', best', i1, i2, i3, i4, i5, i6, i7⟩ := improve_spec hG hw hwt hx hy hY hc best
          rw [i1, pure_bind]
          have hxT : (x, y) ∉ T := by
            intro h
            obtain ⟨v, hv, hr, he⟩ := (hR.edges _).1 h
            rw [← hpxy] at he
            rcases pair_eq_iff.1 he with ⟨k1, k2⟩ | ⟨k1, k2⟩
            · exact h1 (by rw [k1, k2])
            · exact h2 (by rw [k1, k2])
          have hxX : (x, y) ∉ X := fun h => hmk (hmark.2 h)
          rw [happ]
          refine ih (P ++ [(x, y)]) Y' F' best' marked (fun p hp => hes p (List.mem_cons_of_mem _ hp)) hnd.2 hsort.2 hP' hm' i2 i3 ?_ ⟨?_, ?_⟩
          · intro u hu
            rw [i4 u hu, hF u hu]
            have hcr : Cross φ u (x, y) → u ≠ root := by
              rintro h3 rfl
              exact h3 ⟨fun _ => hR.anc_root hy, fun _ => hR.anc_root hx⟩
            constructor
            · rintro ⟨k1, k2⟩ ⟨k3, k4⟩
              rcases k4 with k4 | ⟨p, hp, k4, k5, k6⟩
              · exact k1 ⟨k3, Or.inl k4⟩
              · rcases List.mem_append.1 hp with hp | hp
                · exact k1 ⟨k3, Or.inr ⟨p, hp, k4, k5, k6⟩⟩
                · rw [List.mem_singleton] at hp
                  subst hp
                  exact k2 k6
            · intro k1
              refine ⟨fun k2 => k1 ⟨k2.1, k2.2.imp id ?_⟩, fun k2 => k1 ⟨hcr k2, Or.inr ⟨_, by simp, hxT, hxX, k2⟩⟩⟩
              rintro ⟨p, hp, h⟩; exact ⟨p, List.mem_append_left _ hp, h⟩
          · intro u p w ha hpw
            rcases List.mem_append.1 ha.edge with h | h
            · exact i5.trans (hb.1 u p w { ha with edge := h } hpw)
            · rw [List.mem_singleton] at h
              subst h
              have hww : w = wxy := by
                dsimp only at hpw
                rw [hw] at hpw
                exact (Option.some.inj hpw).symm
              rw [hww]
              by_cases hFu : F u = u
              · exact i6 u ha.mem hFu ha.cross
              · have := (not_iff_not.2 (hF u ha.mem)).1 hFu
                rw [not_not] at this
                rcases this.2 with h3 | ⟨q, hq, k1, k2, k3⟩
                · exact absurd h3 ha.inc
                · obtain ⟨wq, hwq⟩ := (hP q hq).1
                  refine i5.trans ((hb.1 u q wq ⟨ha.mem, ha.ne, ha.inc, hq, k1, k2, k3⟩ hwq).trans ?_)
                  rw [WithTop.coe_le_coe]
                  exact sub_le_sub_right ((hP q hq).2 _ List.mem_cons_self _ _ hwq hw) _
          · rcases i7 with i7 | ⟨u, hu, k1, k2, k3⟩
            · rw [i7]
              refine hb.2.imp id ?_
              rintro ⟨u, p, w, ha, h⟩
              exact ⟨u, p, w, { ha with edge := List.mem_append_left _ ha.edge }, h⟩
            · have hnF := (hF u hu).1 k1
              have hne : u ≠ root := by
                rintro rfl
                exact k2 ⟨fun _ => hR.anc_root hy, fun _ => hR.anc_root hx⟩
              exact Or.inr ⟨u, (x, y), wxy, ⟨hu, hne, fun h => hnF ⟨hne, Or.inl h⟩, by simp, hxT, hxX, k2⟩, hw, k3⟩

/-- The loop over the edges raises a KeyError at the first edge between vertices without a predecessor. -/
theorem scanEdges_raises (hG : Given (adj g) C root φ T E father) {wt : V → W}
    (hwt : ∀ v ∈ C, v ≠ root → adj g v (φ v) = some (wt v)) : ∀ (es : List (V × V)) (Y : NUF V) (F : V → V) (best : Best V W),
    (∀ p ∈ es, (p.1 ∈ C ∧ p.2 ∈ C ∧ ∃ w, adj g p.1 p.2 = some w) ∨
      (p.1 ∉ C ∧ p.1 ∈ E ∧ Dict.get? father p.1 = some none ∧ Dict.get? father p.2 = some none)) →
    NInv E Y F → Con C root φ F →
    (∃ best', scanEdges g father es ∅ Y best = pure (best', ∅)) ∨ scanEdges g father es ∅ Y best = throw .keyError := by
  intro es
  induction es with
  | nil => intro Y F best _ _ _; exact Or.inl ⟨best, rfl⟩
  | cons p es ih =>
    obtain ⟨x, y⟩ := p
    intro Y F best hes hY hc
    have hes' := fun p hp => hes p (List.mem_cons_of_mem (x, y) hp)
    rw [scanEdges, if_neg (by simp)]
    rcases hes (x, y) List.mem_cons_self with ⟨hx, hy, w, hw⟩ | ⟨hx, hxE, h1, h2⟩
    · rw [hG.getKey hx, pure_bind]
      by_cases h1 : φ x = y
      · rw [if_neg (by rw [h1]; simp)]
        exact ih Y F best hes' hY hc
      · rw [if_pos (by simpa using h1), hG.getKey hy, pure_bind]
        by_cases h2 : φ y = x
        · rw [if_neg (by rw [h2]; simp)]
          exact ih Y F best hes' hY hc
        · rw [if_pos (by simpa using h2)]
          obtain ⟨Y', F', best', i1, i2, i3, -⟩ := improve_spec hG hw hwt hx hy hY hc best
          rw [i1, pure_bind]
          exact ih Y' F' best' hes' i2 i3
    · right
      dsimp only at hx hxE h1 h2
      obtain ⟨Y', n1, -⟩ := nfind_inv hY hxE
      have hk : getKey father x = pure none := by rw [getKey, h1]
      have hk2 : getKey father y = pure none := by rw [getKey, h2]
      have hi : improve g father x y Y best = throw .keyError := by
        have hfl : findLink Y (some x) = pure (F x, Y') := by rw [findLink, n1]; rfl
        rw [improve, hfl, pure_bind, hc.out x hx]
        dsimp only
        rw [ancestors, if_neg (by simp), hk, pure_bind]
        rfl
      rw [hk, pure_bind, if_pos (by simp), hk2, pure_bind, if_pos (by simp), hi]
      rfl

end

end Rosemary.Gabow
