import Verif.Lemmas.Paths
import Verif.Lemmas.SpanningTree
import Verif.Model.SpanningTrees
import Verif.Spec.Walk
import Mathlib.Algebra.BigOperators.Group.List.Basic
import Mathlib.Algebra.BigOperators.Group.Finset.Basic

/-!
# Lemmas on `prim`
-/

namespace Rosemary.SpanningTrees

open Graph Paths Spec

variable {V W : Type} [LinearOrder V]

theorem pair_cases {u v : V} (h : u ≠ v) : (u < v ∧ pair u v = (u, v)) ∨ (v < u ∧ pair u v = (v, u)) := by
  rcases lt_or_gt_of_ne h with h | h
  · exact Or.inl ⟨h, by rw [pair, min_eq_left h.le, max_eq_right h.le]⟩
  · exact Or.inr ⟨h, by rw [pair, min_eq_right h.le, max_eq_left h.le]⟩

theorem pair_comm (u v : V) : pair u v = pair v u := by rw [pair, pair, min_comm, max_comm]

theorem sortPairs_spec {l : List (V × V)} (h : l.Nodup) :
    (sortPairs l).Pairwise (fun a b => toLex a < toLex b) ∧ (sortPairs l).toFinset = l.toFinset := by
  constructor
  · have h1 := pairwise_pySort (le := fun a b : V × V => decide (toLex a ≤ toLex b))
      (fun a b c h1 h2 => decide_eq_true (le_trans (of_decide_eq_true h1) (of_decide_eq_true h2)))
      (fun a b => by rcases le_total (toLex a) (toLex b) with h | h <;> simp [h]) l
    have h2 := (pySort_perm l (fun a b : V × V => decide (toLex a ≤ toLex b))).nodup_iff.2 h
    refine (h1.and h2).imp ?_
    intro a b ⟨h3, h4⟩
    exact lt_of_le_of_ne (of_decide_eq_true h3) (fun e => h4 (toLex.injective e))
  · ext x
    rw [List.mem_toFinset, List.mem_toFinset]
    exact mem_pySort

variable [LinearOrder W]

theorem primRelax_spec (u : V) (vis : Finset V) (N : Dict V W) (hN : Dict.WF N) (D : Dict V (WithTop W)) (P : Dict V (Option V))
    (H : List (W × V)) (hD : ∀ v ∈ Dict.keys N, v ∈ Dict.keys D) (hP : Dict.keys P = Dict.keys D) :
    ∃ D' P' H', primRelax u vis N D P H = .ok (D', P', H') ∧ Dict.keys D' = Dict.keys D ∧ Dict.keys P' = Dict.keys D ∧
      (∀ v x, Dict.get? N v = some x → v ∉ vis → (x : WithTop W) < dg D v →
        dg D' v = (x : WithTop W) ∧ Dict.get? P' v = some (some u) ∧ (x, v) ∈ H') ∧
      (∀ v, (∀ x, Dict.get? N v = some x → v ∉ vis → ¬ (x : WithTop W) < dg D v) →
        dg D' v = dg D v ∧ Dict.get? P' v = Dict.get? P v) ∧
      (∀ e ∈ H', e ∈ H ∨ ∃ x, Dict.get? N e.2 = some x ∧ e.2 ∉ vis ∧ (x : WithTop W) < dg D e.2 ∧ e.1 = x) ∧
      ∀ e ∈ H, e ∈ H' := by
  induction N generalizing D P H with
  | nil =>
    refine ⟨D, P, H, rfl, rfl, hP, fun v x h => by simp [Dict.get?] at h, fun v _ => ⟨rfl, rfl⟩, fun e he => Or.inl he,
      fun e he => he⟩
  | cons e N ih =>
    obtain ⟨a, y⟩ := e
    obtain ⟨haN, hN'⟩ : a ∉ Dict.keys N ∧ Dict.WF N := List.nodup_cons.1 hN
    have haD : a ∈ Dict.keys D := hD a List.mem_cons_self
    obtain ⟨dv, hdv⟩ := Dict.get?_isSome.2 haD
    have hdg : dg D a = dv := by rw [dg, hdv]; rfl
    have hget : ∀ v, Dict.get? ((a, y) :: N) v = if a = v then some y else Dict.get? N v := fun v => rfl
    have hna : Dict.get? N a = none := Dict.get?_eq_none.2 haN
    have hav : ∀ v x, Dict.get? N v = some x → a ≠ v := by
      rintro v x hx rfl
      rw [hna] at hx; simp at hx
    rw [primRelax, hdv]
    dsimp only
    -- the entry is used, or the dictionaries stay as they are
    by_cases hc : a ∉ vis ∧ (y : WithTop W) < dv
    · rw [if_neg hc.1, if_pos hc.2]
      have hk1 : Dict.keys (Dict.set D a (y : WithTop W)) = Dict.keys D := by rw [Dict.keys_set, if_pos haD]
      have hk2 : Dict.keys (Dict.set P a (some u)) = Dict.keys D := by rw [Dict.keys_set, hP, if_pos haD]
      obtain ⟨D', P', H', h1, h2, h3, h4, h5, h6, h7⟩ := ih hN' (Dict.set D a (y : WithTop W))
        (Dict.set P a (some u)) ((y, a) :: H) (fun v hv => by rw [hk1]; exact hD v (List.mem_cons_of_mem _ hv))
        (by rw [hk1, hk2])
      rw [hk1] at h2 h3
      refine ⟨D', P', H', h1, h2, h3, fun v x hx hvis hlt => ?_, fun v hv => ?_, fun e he => ?_, fun e he =>
        h7 e (List.mem_cons_of_mem _ he)⟩
      · rw [hget] at hx
        split_ifs at hx with hav'
        · injection hx with hx
          subst hx hav'
          obtain ⟨k1, k2⟩ := h5 a (fun x hx => by rw [hna] at hx; simp at hx)
          refine ⟨?_, ?_, h7 _ List.mem_cons_self⟩
          · rw [k1, dg_set, if_pos rfl]
          · rw [k2, Dict.get?_set, if_pos rfl]
        · exact h4 v x hx hvis (by rw [dg_set, if_neg hav']; exact hlt)
      · have hne : a ≠ v := by
          rintro rfl
          exact hv y (by rw [hget, if_pos rfl]) hc.1 (by rw [hdg]; exact hc.2)
        obtain ⟨k1, k2⟩ := h5 v (fun x hx hvis => by
          rw [dg_set, if_neg hne]
          exact hv x (by rw [hget, if_neg hne]; exact hx) hvis)
        rw [k1, k2, dg_set, if_neg hne, Dict.get?_set, if_neg hne]
        exact ⟨rfl, rfl⟩
      · rcases h6 e he with he | ⟨x, hx, hvis, hlt, hex⟩
        · rcases List.mem_cons.1 he with rfl | he
          · exact Or.inr ⟨y, by rw [hget, if_pos rfl], hc.1, by rw [hdg]; exact hc.2, rfl⟩
          · exact Or.inl he
        · have hne := hav _ _ hx
          refine Or.inr ⟨x, by rw [hget, if_neg hne]; exact hx, hvis, ?_, hex⟩
          rwa [dg_set, if_neg hne] at hlt
    · have hgo : (if a ∈ vis then primRelax u vis N D P H else
          if (y : WithTop W) < dv then primRelax u vis N (Dict.set D a (y : WithTop W)) (Dict.set P a (some u)) ((y, a) :: H)
          else primRelax u vis N D P H) = primRelax u vis N D P H := by
        by_cases ha : a ∈ vis
        · rw [if_pos ha]
        · rw [if_neg ha, if_neg (fun h => hc ⟨ha, h⟩)]
      rw [hgo]
      obtain ⟨D', P', H', h1, h2, h3, h4, h5, h6, h7⟩ := ih hN' D P H (fun v hv => hD v (List.mem_cons_of_mem _ hv)) hP
      refine ⟨D', P', H', h1, h2, h3, fun v x hx hvis hlt => ?_, fun v hv => ?_, fun e he => ?_, h7⟩
      · rw [hget] at hx
        split_ifs at hx with hav'
        · injection hx with hx
          subst hx hav'
          rw [hdg] at hlt
          exact absurd ⟨hvis, hlt⟩ hc
        · exact h4 v x hx hvis hlt
      · refine h5 v (fun x hx => hv x ?_)
        rw [hget, if_neg (hav v x hx)]; exact hx
      · rcases h6 e he with he | ⟨x, hx, h'⟩
        · exact Or.inl he
        · exact Or.inr ⟨x, by rw [hget, if_neg (hav _ _ hx)]; exact hx, h'⟩

/-- What holds for the vertices outside of the tree. -/
structure Frontier (g : Graph V W) (s : V) (D : Dict V (WithTop W)) (P : Dict V (Option V)) (H : List (W × V)) (S : Finset V) :
    Prop where
  keysD : Dict.keys D = Dict.keys g
  keysP : Dict.keys P = Dict.keys g
  hmem : ∀ e ∈ H, Mem g e.2
  le : ∀ u ∈ S, ∀ v, v ∉ S → ∀ x, adj g u v = some x → dg D v ≤ x
  has : ∀ v, v ∉ S → v ≠ s → ∀ c : W, dg D v = c → (c, v) ∈ H ∧ ∃ u ∈ S, Dict.get? P v = some (some u) ∧ adj g u v = some c
  ge : ∀ e ∈ H, e.2 ∉ S → dg D e.2 ≤ e.1
  nolink : ∀ v, v ∉ S → Mem g v → dg D v = ⊤ → Dict.get? P v = some none
  rootP : Dict.get? P s = some none

theorem Frontier.skip {g : Graph V W} {s : V} {D : Dict V (WithTop W)} {P : Dict V (Option V)} {H H' : List (W × V)}
    {S : Finset V} (h : Frontier g s D P H S) {w : W} {u : V} (hp : H.Perm ((w, u) :: H')) (hu : u ∈ S) :
    Frontier g s D P H' S := by
  have hsub : ∀ e ∈ H', e ∈ H := fun e he => hp.mem_iff.2 (List.mem_cons_of_mem _ he)
  refine ⟨h.keysD, h.keysP, fun e he => h.hmem e (hsub e he), h.le, fun v hv hs c hc => ?_,
    fun e he => h.ge e (hsub e he), h.nolink, h.rootP⟩
  obtain ⟨h1, h2⟩ := h.has v hv hs c hc
  refine ⟨?_, h2⟩
  rcases List.mem_cons.1 (hp.mem_iff.1 h1) with e | h1
  · injection e with _ e
    exact absurd (e ▸ hu) hv
  · exact h1

theorem Frontier.visit {g : Graph V W} (hg : Good g) {s : V} {D : Dict V (WithTop W)} {P : Dict V (Option V)} {H H' : List (W × V)}
    {S : Finset V} (h : Frontier g s D P H S) {w : W} {u : V} (hp : H.Perm ((w, u) :: H')) (hs : s ∈ insert u S) {N : Dict V W}
    (hN : Dict.get? g u = some N) :
    ∃ D' P' H'', primRelax u (insert u S) N D P H' = .ok (D', P', H'') ∧ Frontier g s D' P' H'' (insert u S) ∧
      ∀ v ∈ insert u S, Dict.get? P' v = Dict.get? P v := by
  have hsub : ∀ e ∈ H', e ∈ H := fun e he => hp.mem_iff.2 (List.mem_cons_of_mem _ he)
  have hA : ∀ v, adj g u v = Dict.get? N v := fun v => by rw [adj, hN]; rfl
  obtain ⟨D', P', H'', h1, h2, h3, h4, h5, h6, h7⟩ := primRelax_spec u (insert u S) N (hg.inner u N hN) D P H'
    (fun v hv => by
      rw [h.keysD]
      obtain ⟨x, hx⟩ := Dict.get?_isSome.2 hv
      exact hg.mem_right (w := x) (by rw [hA]; exact hx)) (by rw [h.keysP, h.keysD])
  have hfix : ∀ v ∈ insert u S, dg D' v = dg D v ∧ Dict.get? P' v = Dict.get? P v :=
    fun v hv => h5 v (fun x _ hv' => absurd hv hv')
  refine ⟨D', P', H'', h1, ⟨by rw [h2, h.keysD], by rw [h3, h.keysD], ?_, ?_, ?_, ?_, ?_, ?_⟩, fun v hv => (hfix v hv).2⟩
  · intro e he
    rcases h6 e he with he | ⟨x, hx, -⟩
    · exact h.hmem e (hsub e he)
    · exact hg.mem_right (w := x) (by rw [hA]; exact hx)
  · intro a ha v hv x hx
    have hv' : v ∉ S := fun hv' => hv (Finset.mem_insert_of_mem hv')
    -- the cost of `v` does not increase
    have hmono : dg D' v ≤ dg D v := by
      by_cases hex : ∃ x, Dict.get? N v = some x ∧ (x : WithTop W) < dg D v
      · obtain ⟨y, hy, hlt⟩ := hex
        rw [(h4 v y hy hv hlt).1]; exact hlt.le
      · rw [(h5 v (fun y hy _ hlt => hex ⟨y, hy, hlt⟩)).1]
    rcases Finset.mem_insert.1 ha with rfl | ha
    · by_cases hlt : (x : WithTop W) < dg D v
      · rw [(h4 v x (by rw [← hA]; exact hx) hv hlt).1]
      · exact hmono.trans (not_lt.1 hlt)
    · exact hmono.trans (h.le a ha v hv' x hx)
  · intro v hv hvs c hc
    have hv' : v ∉ S := fun hv' => hv (Finset.mem_insert_of_mem hv')
    by_cases hex : ∃ x, Dict.get? N v = some x ∧ (x : WithTop W) < dg D v
    · obtain ⟨y, hy, hlt⟩ := hex
      obtain ⟨k1, k2, k3⟩ := h4 v y hy hv hlt
      rw [k1, WithTop.coe_inj] at hc
      subst hc
      exact ⟨k3, u, Finset.mem_insert_self _ _, k2, by rw [hA]; exact hy⟩
    · obtain ⟨k1, k2⟩ := h5 v (fun y hy _ hlt => hex ⟨y, hy, hlt⟩)
      rw [k1] at hc
      obtain ⟨m1, a, m2, m3, m4⟩ := h.has v hv' hvs c hc
      refine ⟨h7 _ ?_, a, Finset.mem_insert_of_mem m2, by rw [k2]; exact m3, m4⟩
      rcases List.mem_cons.1 (hp.mem_iff.1 m1) with e | m1
      · injection e with _ e
        exact absurd (e ▸ Finset.mem_insert_self _ _) hv
      · exact m1
  · intro e he hv
    have hv' : e.2 ∉ S := fun hv' => hv (Finset.mem_insert_of_mem hv')
    by_cases hex : ∃ x, Dict.get? N e.2 = some x ∧ (x : WithTop W) < dg D e.2
    · obtain ⟨y, hy, hlt⟩ := hex
      rw [(h4 e.2 y hy hv hlt).1]
      rcases h6 e he with he | ⟨x, hx, -, -, hex⟩
      · exact hlt.le.trans (h.ge e (hsub e he) hv')
      · rw [hy] at hx
        injection hx with hx
        rw [hex, hx]
    · rw [(h5 e.2 (fun y hy _ hlt => hex ⟨y, hy, hlt⟩)).1]
      rcases h6 e he with he | ⟨x, hx, -, hlt, -⟩
      · exact h.ge e (hsub e he) hv'
      · exact absurd ⟨x, hx, hlt⟩ hex
  · intro v hv hm ht
    have hv' : v ∉ S := fun hv' => hv (Finset.mem_insert_of_mem hv')
    by_cases hex : ∃ x, Dict.get? N v = some x ∧ (x : WithTop W) < dg D v
    · obtain ⟨y, hy, hlt⟩ := hex
      rw [(h4 v y hy hv hlt).1] at ht
      exact absurd ht WithTop.coe_ne_top
    · obtain ⟨k1, k2⟩ := h5 v (fun y hy _ hlt => hex ⟨y, hy, hlt⟩)
      rw [k2]
      exact h.nolink v hv' hm (by rw [← k1]; exact ht)
  · rw [(hfix s hs).2]; exact h.rootP

variable [AddCommMonoid W] [IsOrderedCancelAddMonoid W]

/-- What holds for the tree `A` of the vertices `S` in the component `C`. -/
structure Tree (g : Graph V W) (s : V) (P : Dict V (Option V)) (S : Finset V) (A : Finset (V × V)) (C : Finset V) : Prop where
  root : s ∈ S
  sub : S ⊆ C
  mem : ∀ u ∈ S, Mem g u
  link : ∀ v ∈ S, v ≠ s → ∃ u ∈ S, Dict.get? P v = some (some u) ∧ pair v u ∈ A
  from' : ∀ e ∈ A, ∃ v ∈ S, v ≠ s ∧ ∃ u, Dict.get? P v = some (some u) ∧ e = pair v u
  edge : ∀ a b, (a, b) ∈ A → a < b ∧ a ∈ S ∧ b ∈ S ∧ ∃ w, adj g a b = some w
  joined : ∀ v ∈ S, Joined A s v
  card : A.card + 1 = S.card
  safe : Safe (adj g) C A

/-- The vertices that can be reached. -/
def IsComponent (g : Graph V W) (s : V) (C : Finset V) : Prop := ∀ v, v ∈ C ↔ Reach (fun a b => ∃ w, adj g a b = some w) s v

omit [IsOrderedCancelAddMonoid W] [AddCommMonoid W] [LinearOrder W] in
theorem IsComponent.step {g : Graph V W} {s : V} {C : Finset V} (h : IsComponent g s C) {u v : V} (hu : u ∈ C) {w : W}
    (hw : adj g u v = some w) : v ∈ C := (h v).2 (((h u).1 hu).step ⟨w, hw⟩)

theorem Tree.visit {g : Graph V W} (hg : Good g) {s : V} {D : Dict V (WithTop W)} {P P' : Dict V (Option V)} {H H' : List (W × V)}
    {S : Finset V} {A : Finset (V × V)} {C : Finset V} (hC : IsComponent g s C) (hF : Frontier g s D P H S) (hT : Tree g s P S A C)
    {w : W} {u : V} (hp : H.Perm ((w, u) :: H')) (hmin : ∀ e ∈ H, key2 (w, u) ≤ key2 e) (hu : u ∉ S) (hum : Mem g u)
    (hP : ∀ v ∈ insert u S, Dict.get? P' v = Dict.get? P v) :
    ∃ A', Tree g s P' (insert u S) A' C := by
  have hus : u ≠ s := fun e => hu (e ▸ hT.root)
  have hin : (w, u) ∈ H := hp.mem_iff.2 List.mem_cons_self
  have hle : ∀ e ∈ H, w ≤ e.1 := by
    intro e he
    have := hmin e he
    rw [key2, key2, Prod.Lex.toLex_le_toLex] at this
    rcases this with h | ⟨h, -⟩
    · exact h.le
    · exact h.le
  have hDu : dg D u = w := by
    have h1 := hF.ge (w, u) hin hu
    obtain ⟨c, hc⟩ := WithTop.ne_top_iff_exists.1 (ne_top_of_le_ne_top WithTop.coe_ne_top h1)
    have h2 := hle _ (hF.has u hu hus c hc.symm).1
    dsimp only at h1 h2
    rw [← hc, WithTop.coe_le_coe] at h1
    rw [← hc, le_antisymm h1 h2]
  obtain ⟨-, p, hpS, hPu, hpu⟩ := hF.has u hu hus w hDu
  have hcross : ∀ a ∈ S, ∀ b, b ∉ S → ∀ w', adj g a b = some w' → w ≤ w' := by
    intro a ha b hb w' hw'
    have h1 := hF.le a ha b hb w' hw'
    obtain ⟨c, hc⟩ := WithTop.ne_top_iff_exists.1 (ne_top_of_le_ne_top WithTop.coe_ne_top h1)
    have h2 := hle _ (hF.has b hb (fun e => hb (e ▸ hT.root)) c hc.symm).1
    rw [← hc, WithTop.coe_le_coe] at h1
    exact h2.trans h1
  have hup : u ≠ p := fun e => hu (e ▸ hpS)
  have huC : u ∈ C := hC.step (hT.sub hpS) hpu
  have hpC : p ∈ C := hT.sub hpS
  have hsafe : Safe (adj g) C (insert (pair u p) A) := by
    have hc : ∀ a b, (a, b) ∈ A → (a ∈ S) = (b ∈ S) := fun a b hab => by
      obtain ⟨-, h1, h2, -⟩ := hT.edge a b hab
      exact propext ⟨fun _ => h2, fun _ => h1⟩
    have hm : ∀ a b w', a < b → adj g a b = some w' → (a ∈ S) ≠ (b ∈ S) → w ≤ w' := by
      intro a b w' _ hw' hne
      by_cases ha : a ∈ S
      · exact hcross a ha b (fun hb => hne (propext ⟨fun _ => hb, fun _ => ha⟩)) w' hw'
      · have hb : b ∈ S := by
          by_contra hb
          exact hne (propext ⟨fun h => absurd h ha, fun h => absurd h hb⟩)
        exact hcross b hb a ha w' (by rw [hg.symm]; exact hw')
    rcases pair_cases hup with ⟨h1, h2⟩ | ⟨h1, h2⟩ <;> rw [h2]
    · exact hT.safe.add (fun v => v ∈ S) hc h1 huC hpC (by rw [hg.symm]; exact hpu) (fun e => hu (e ▸ hpS)) hm
    · exact hT.safe.add (fun v => v ∈ S) hc h1 hpC huC hpu (fun e => hu (e ▸ hpS)) hm
  have hnew : pair u p ∉ A := by
    intro hmem
    rcases pair_cases hup with ⟨h1, h2⟩ | ⟨h1, h2⟩ <;> rw [h2] at hmem
    · exact hu (hT.edge _ _ hmem).2.1
    · exact hu (hT.edge _ _ hmem).2.2.1
  have hj : Joined (insert (pair u p) A) p u := by
    have hmem : pair u p ∈ insert (pair u p) A := Finset.mem_insert_self _ _
    rcases pair_cases hup with ⟨h1, h2⟩ | ⟨h1, h2⟩ <;> rw [h2] at hmem ⊢
    · exact (Joined.of_mem hmem).symm
    · exact Joined.of_mem hmem
  have hsub : A ⊆ insert (pair u p) A := Finset.subset_insert _ _
  refine ⟨insert (pair u p) A, ⟨Finset.mem_insert_of_mem hT.root, Finset.insert_subset huC hT.sub, ?_, ?_, ?_, ?_, ?_, ?_, hsafe⟩⟩
  · intro v hv
    rcases Finset.mem_insert.1 hv with rfl | hv
    · exact hum
    · exact hT.mem v hv
  · intro v hv hvs
    rw [hP v hv]
    rcases Finset.mem_insert.1 hv with rfl | hv
    · exact ⟨p, Finset.mem_insert_of_mem hpS, hPu, Finset.mem_insert_self _ _⟩
    · obtain ⟨q, h1, h2, h3⟩ := hT.link v hv hvs
      exact ⟨q, Finset.mem_insert_of_mem h1, h2, hsub h3⟩
  · intro e he
    rcases Finset.mem_insert.1 he with rfl | he
    · exact ⟨u, Finset.mem_insert_self _ _, hus, p, by rw [hP u (Finset.mem_insert_self _ _)]; exact hPu, rfl⟩
    · obtain ⟨v, h1, h2, q, h3, h4⟩ := hT.from' e he
      exact ⟨v, Finset.mem_insert_of_mem h1, h2, q, by rw [hP v (Finset.mem_insert_of_mem h1)]; exact h3, h4⟩
  · intro a b hab
    rcases Finset.mem_insert.1 hab with e | hab
    · rcases pair_cases hup with ⟨h1, h2⟩ | ⟨h1, h2⟩ <;> rw [h2] at e <;> injection e with e1 e2 <;> subst e1 e2
      · exact ⟨h1, Finset.mem_insert_self _ _, Finset.mem_insert_of_mem hpS, w, by rw [hg.symm]; exact hpu⟩
      · exact ⟨h1, Finset.mem_insert_of_mem hpS, Finset.mem_insert_self _ _, w, hpu⟩
    · obtain ⟨h1, h2, h3, h4⟩ := hT.edge a b hab
      exact ⟨h1, Finset.mem_insert_of_mem h2, Finset.mem_insert_of_mem h3, h4⟩
  · intro v hv
    rcases Finset.mem_insert.1 hv with rfl | hv
    · exact ((hT.joined p hpS).mono hsub).trans hj
    · exact (hT.joined v hv).mono hsub
  · rw [Finset.card_insert_of_notMem hnew, Finset.card_insert_of_notMem hu, hT.card]

theorem primLoop_main {g : Graph V W} (hg : Good g) (s : V) {C : Finset V} (hC : IsComponent g s C) :
    ∀ (k m : ℕ) (D : Dict V (WithTop W)) (P : Dict V (Option V)) (H : List (W × V)) (S : Finset V) (A : Finset (V × V)),
      Frontier g s D P H S → Tree g s P S A C → g.length ≤ k + S.card → H.length ≤ m →
      ∃ D' P' S' A', primLoop g D P H S = some (.ok P') ∧ Frontier g s D' P' [] S' ∧ Tree g s P' S' A' C := by
  intro k
  induction k using Nat.strong_induction_on with
  | _ k ihk =>
    intro m
    induction m with
    | zero =>
      intro D P H S A h1 h2 _ hm
      obtain rfl : H = [] := List.eq_nil_of_length_eq_zero (by omega)
      exact ⟨D, P, S, A, by rw [primLoop.eq_def]; rfl, h1, h2⟩
    | succ m ih =>
      intro D P H S A hF hT hk hm
      rw [primLoop.eq_def]
      cases hp : popMin key2 H with
      | none =>
        rw [popMin_none] at hp
        subst hp
        exact ⟨D, P, S, A, rfl, hF, hT⟩
      | some e =>
        obtain ⟨⟨w, u⟩, H'⟩ := e
        obtain ⟨p1, p2⟩ := popMin_some key2 hp
        have hl := p1.length_eq
        rw [List.length_cons] at hl
        dsimp only
        by_cases hu : u ∈ S
        · rw [if_pos hu]
          exact ih D P H' S A (hF.skip p1 hu) hT hk (by omega)
        · rw [if_neg hu]
          have hum : Mem g u := hF.hmem (w, u) (p1.mem_iff.2 List.mem_cons_self)
          obtain ⟨N, hN⟩ := mem_iff.1 hum
          obtain ⟨D', P', H'', h1, h2, h3⟩ := hF.visit hg p1 (Finset.mem_insert_of_mem hT.root) hN
          obtain ⟨A', hT'⟩ := Tree.visit hg hC hF hT p1 p2 hu hum h3
          rw [hN]
          dsimp only
          rw [h1]
          have hlt := card_lt hT.mem hum hu
          exact ihk (k - 1) (by omega) H''.length D' P' H'' _ A' h2 hT'
            (by rw [Finset.card_insert_of_notMem hu]; omega) (le_refl _)

theorem primLoop_spec {g : Graph V W} (hg : Good g) {s : V} (hs : Mem g s) {C : Finset V} (hC : IsComponent g s C) :
    ∃ D P S A, primLoop g (Dict.set (g.map (fun e => (e.1, (⊤ : WithTop W)))) s ((0 : W) : WithTop W))
        (g.map (fun e => (e.1, (none : Option V)))) [(0, s)] ∅ = some (.ok P) ∧ Frontier g s D P [] S ∧ Tree g s P S A C := by
  have kD : Dict.keys (g.map (fun e => (e.1, (⊤ : WithTop W)))) = Dict.keys g := keys_mapVal (fun _ => (⊤ : WithTop W)) g
  have kP : Dict.keys (g.map (fun e => (e.1, (none : Option V)))) = Dict.keys g := keys_mapVal (fun _ => (none : Option V)) g
  have gP : ∀ v, Mem g v → Dict.get? (g.map (fun e => (e.1, (none : Option V)))) v = some none := by
    intro v hv
    obtain ⟨N, hN⟩ := mem_iff.1 hv
    rw [get?_mapVal (fun _ => (none : Option V)), hN]; rfl
  have hF : Frontier g s (Dict.set (g.map (fun e => (e.1, (⊤ : WithTop W)))) s ((0 : W) : WithTop W))
      (g.map (fun e => (e.1, (none : Option V)))) [(0, s)] ∅ := by
    refine ⟨by rw [Dict.keys_set, kD]; exact if_pos hs, kP, ?_, by simp, ?_, ?_, fun v _ hm _ => gP v hm, gP s hs⟩
    · intro e he
      rw [List.mem_singleton] at he
      subst he; exact hs
    · intro v _ hvs c hc
      rw [dg_init, if_neg (fun e => hvs e.symm)] at hc
      exact absurd hc.symm WithTop.coe_ne_top
    · intro e he _
      rw [List.mem_singleton] at he
      subst he
      rw [dg_init, if_pos rfl]
  obtain ⟨N, hN⟩ := mem_iff.1 hs
  obtain ⟨D', P', H'', h1, h2, h3⟩ := hF.visit hg (List.Perm.refl _) (Finset.mem_insert_self _ _) hN
  have hsC : s ∈ C := (hC s).2 (Reach.refl _ s)
  have hT : Tree g s P' (insert s ∅) ∅ C := by
    refine ⟨Finset.mem_insert_self _ _, by simpa using hsC, by simpa using hs, ?_, by simp, by simp, ?_, by simp, safe_empty _ _⟩
    · intro v hv hvs
      simp at hv; exact absurd hv hvs
    · intro v hv
      simp at hv; rw [hv]; exact Joined.refl _ _
  rw [primLoop.eq_def]
  have hpop : popMin key2 [((0 : W), s)] = some ((0, s), []) := rfl
  rw [hpop]
  dsimp only
  rw [if_neg (Finset.notMem_empty s), hN]
  dsimp only
  rw [h1]
  exact primLoop_main hg s hC g.length H''.length D' P' H'' _ _ h2 hT (by omega) (le_refl _)

/-! ### The list of the edges -/

/-- The edges given by the links. -/
def linkEdges (P : Dict V (Option V)) : List (V × V) := P.filterMap (fun e => e.2.map (fun v => pair e.1 v))

omit [LinearOrder W] [IsOrderedCancelAddMonoid W] in
theorem weight_pair {g : Graph V W} (hg : Good g) (u v : V) : adj g (pair u v).1 (pair u v).2 = adj g u v := by
  rcases le_total u v with h | h
  · rw [pair, min_eq_left h, max_eq_right h]
  · rw [pair, min_eq_right h, max_eq_left h, hg.symm]

omit [LinearOrder W] [IsOrderedCancelAddMonoid W] in
theorem collect_spec {g : Graph V W} (hg : Good g) (P : Dict V (Option V))
    (hP : ∀ u v, (u, some v) ∈ P → ∃ w, adj g u v = some w) (total : W) (edges : List (V × V)) :
    collect g P total edges = .ok (total + ((linkEdges P).map (fun e => (adj g e.1 e.2).getD 0)).sum, edges ++ linkEdges P) := by
  induction P generalizing total edges with
  | nil => simp [collect, linkEdges]
  | cons e P ih =>
    obtain ⟨u, o⟩ := e
    have ih' := ih (fun a b h => hP a b (List.mem_cons_of_mem _ h))
    cases o with
    | none =>
      rw [collect, ih']
      rfl
    | some v =>
      obtain ⟨w, hw⟩ := hP u v List.mem_cons_self
      have hw' : (Dict.get? g u).bind (fun N => Dict.get? N v) = some w := hw
      rw [collect, hw']
      dsimp only
      rw [ih']
      have : linkEdges ((u, some v) :: P) = pair u v :: linkEdges P := rfl
      rw [this, List.map_cons, List.sum_cons, weight_pair hg, hw, Option.getD_some, add_assoc, List.append_assoc]
      rfl

theorem prim_spec {g : Graph V W} (hg : Good g) {s : V} (hs : Mem g s) {C : Finset V} (hC : IsComponent g s C) :
    ∃ P, primCore g (some s) = some (.ok (totalWeight (adj g) (linkEdges P).toFinset, linkEdges P, P)) ∧
      (linkEdges P).Nodup ∧ MinSpanningTree (adj g) C (linkEdges P).toFinset ∧ Dict.keys P = Dict.keys g ∧
      Dict.get? P s = some none ∧ (∀ v, Mem g v → v ∉ C → Dict.get? P v = some none) ∧
      ∀ u v, Dict.get? P u = some (some v) → ∃ w, adj g u v = some w := by
  obtain ⟨D, P, S, A, h1, hF, hT⟩ := primLoop_spec hg hs hC
  have htop : ∀ v, v ∉ S → dg D v = ⊤ := by
    intro v hv
    by_contra hne
    obtain ⟨c, hc⟩ := WithTop.ne_top_iff_exists.1 hne
    have := (hF.has v hv (fun e => hv (e ▸ hT.root)) c hc.symm).1
    simp at this
  have hSC : S = C := by
    refine Finset.Subset.antisymm hT.sub (fun v hv => ?_)
    have hclosed : ∀ n a b, Steps (fun a b => ∃ w, adj g a b = some w) n a b → a ∈ S → b ∈ S := by
      intro n a b hn ha
      induction hn with
      | zero => exact ha
      | succ _ he ih =>
        obtain ⟨w, hw⟩ := he
        by_contra hno
        have := hF.le _ (ih ha) _ hno w hw
        rw [htop _ hno] at this
        exact absurd (top_le_iff.1 this) WithTop.coe_ne_top
    obtain ⟨n, hn⟩ := (hC v).1 hv
    exact hclosed n s v hn hT.root
  subst hSC
  have hPwf : Dict.WF P := by
    show (Dict.keys P).Nodup
    rw [hF.keysP]; exact hg.wf
  -- links are exactly those of the tree
  have hlink : ∀ v u, Dict.get? P v = some (some u) → v ∈ S ∧ v ≠ s ∧ pair v u ∈ A := by
    intro v u h
    have hvs : v ≠ s := by
      rintro rfl
      rw [hF.rootP] at h; simp at h
    have hvS : v ∈ S := by
      by_contra hno
      rw [hF.nolink v hno ?_ (htop v hno)] at h
      · simp at h
      · rw [Graph.Mem, ← hF.keysP]; exact Dict.get?_isSome.1 ⟨_, h⟩
    obtain ⟨q, -, h2, h3⟩ := hT.link v hvS hvs
    rw [h] at h2
    simp only [Option.some.injEq] at h2
    exact ⟨hvS, hvs, h2 ▸ h3⟩
  have hadj : ∀ u v, Dict.get? P u = some (some v) → ∃ w, adj g u v = some w := by
    intro u v h
    obtain ⟨-, -, -, w, hw⟩ := hT.edge _ _ (hlink u v h).2.2
    have := weight_pair hg u v
    exact ⟨w, by rw [← this]; exact hw⟩
  have hmemP : ∀ u v, (u, some v) ∈ P → Dict.get? P u = some (some v) := fun u v h => Dict.get?_of_mem hPwf h
  have hLA : (linkEdges P).toFinset = A := by
    ext e
    rw [List.mem_toFinset, linkEdges, List.mem_filterMap]
    constructor
    · rintro ⟨⟨u, o⟩, h2, h3⟩
      cases o with
      | none => simp at h3
      | some v =>
        simp only [Option.map_some, Option.some.injEq] at h3
        rw [← h3]
        exact (hlink u v (hmemP u v h2)).2.2
    · intro he
      obtain ⟨v, -, -, u, h2, rfl⟩ := hT.from' e he
      exact ⟨(v, some u), Dict.mem_of_get? h2, rfl⟩
  have hlen : (linkEdges P).length = A.card := by
    have e1 : (linkEdges P).length = ((P.filter (fun e => e.2.isSome)).map Prod.fst).length := by
      rw [List.length_map, linkEdges]
      generalize P = Q
      induction Q with
      | nil => rfl
      | cons e Q ih =>
        obtain ⟨u, o⟩ := e
        cases o with
        | none => simpa using ih
        | some v => simpa using ih
    have e2 : ((P.filter (fun e => e.2.isSome)).map Prod.fst).Nodup :=
      List.Nodup.sublist (List.Sublist.map _ List.filter_sublist) hPwf
    have e3 : ((P.filter (fun e => e.2.isSome)).map Prod.fst).toFinset = S.erase s := by
      ext v
      rw [List.mem_toFinset, List.mem_map, Finset.mem_erase]
      constructor
      · rintro ⟨⟨a, o⟩, h2, rfl⟩
        obtain ⟨h3, h4⟩ := List.mem_filter.1 h2
        cases o with
        | none => simp at h4
        | some u =>
          obtain ⟨k1, k2, -⟩ := hlink a u (hmemP a u h3)
          exact ⟨k2, k1⟩
      · rintro ⟨h2, h3⟩
        obtain ⟨u, -, h4, -⟩ := hT.link v h3 h2
        exact ⟨(v, some u), List.mem_filter.2 ⟨Dict.mem_of_get? h4, rfl⟩, rfl⟩
    rw [e1, ← List.toFinset_card_of_nodup e2, e3, Finset.card_erase_of_mem hT.root]
    have := hT.card
    omega
  have hnd : (linkEdges P).Nodup := by
    have : (Multiset.ofList (linkEdges P)).toFinset.card = Multiset.card (Multiset.ofList (linkEdges P)) := by
      rw [Multiset.coe_card, hlen, ← hLA]; rfl
    exact Multiset.coe_nodup.1 (Multiset.toFinset_card_eq_card_iff_nodup.1 this)
  refine ⟨P, ?_, hnd, ?_, hF.keysP, hF.rootP, fun v hv hvC => hF.nolink v hvC hv (htop v hvC), hadj⟩
  · rw [primCore, primRoot]
    dsimp only
    rw [h1]
    dsimp only
    rw [collect_spec hg P (fun u v h => hadj u v (hmemP u v h)), zero_add, List.nil_append, totalWeight, List.sum_toFinset _ hnd]
  · rw [hLA]
    refine hT.safe.final ⟨fun u v huv => ?_, fun u hu v hv => (hT.joined u hu).symm.trans (hT.joined v hv), hT.card⟩
    exact hT.edge u v huv

end Rosemary.SpanningTrees
