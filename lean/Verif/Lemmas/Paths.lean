import Verif.Lemmas.Graph
import Verif.Model.Paths
import Verif.Spec.WalkOf
import Mathlib.Tactic.Abel

/-!
# Lemmas on Dijkstra's algorithm
-/

namespace Rosemary.Paths

open Graph Spec

variable {V W : Type}

theorem popMin_none {α β : Type} [LinearOrder β] (key : α → β) (l : List α) : popMin key l = none ↔ l = [] := by
  cases l with
  | nil => simp [popMin]
  | cons a l =>
    rw [popMin]
    constructor
    · intro h
      split at h
      · simp at h
      · split_ifs at h
    · intro h; simp at h

theorem popMin_some {α β : Type} [LinearOrder β] (key : α → β) {l : List α} {a : α} {r : List α}
    (h : popMin key l = some (a, r)) : l.Perm (a :: r) ∧ ∀ b ∈ l, key a ≤ key b := by
  induction l generalizing a r with
  | nil => simp [popMin] at h
  | cons x l ih =>
    rw [popMin] at h
    split at h
    · rename_i h0
      rw [popMin_none] at h0
      subst h0
      simp only [Option.some.injEq, Prod.mk.injEq] at h
      rw [← h.1, ← h.2]
      exact ⟨List.Perm.refl _, by simp⟩
    · rename_i b r' h0
      obtain ⟨h1, h2⟩ := ih h0
      split_ifs at h with hc
      · simp only [Option.some.injEq, Prod.mk.injEq] at h
        rw [← h.1, ← h.2]
        refine ⟨(h1.cons x).trans (List.Perm.swap _ _ _), fun y hy => ?_⟩
        rcases List.mem_cons.1 hy with rfl | hy
        · exact hc.le
        · exact h2 y hy
      · simp only [Option.some.injEq, Prod.mk.injEq] at h
        rw [← h.1, ← h.2]
        refine ⟨List.Perm.refl _, fun y hy => ?_⟩
        rcases List.mem_cons.1 hy with rfl | hy
        · exact le_refl _
        · exact (not_lt.1 hc).trans (h2 y hy)

/-- What Dijkstra's algorithm needs of the addition of weights: a longer walk to a vertex stays longer when an edge is
added, and no walk gets shorter by an edge of nonnegative weight. -/
class PathAdd (W : Type) [Add W] [Zero W] [LinearOrder W] : Prop where
  mono : ∀ a b x : W, a ≤ b → a + x ≤ b + x
  infl : ∀ a x : W, 0 ≤ x → a ≤ a + x

instance [AddCommMonoid W] [LinearOrder W] [IsOrderedCancelAddMonoid W] : PathAdd W where
  mono _ _ x h := add_le_add_left h x
  infl _ _ h := le_add_of_nonneg_right h

section core

variable [Add W] [Zero W] [LinearOrder W] [PathAdd W]

theorem PathAdd.nonneg {a x : W} (ha : 0 ≤ a) (hx : 0 ≤ x) : 0 ≤ a + x := ha.trans (PathAdd.infl a x hx)

theorem walk_nonneg {A : V → V → Option W} (hA : ∀ u v x, A u v = some x → 0 ≤ x) {s v : V} {p : List V} {c : W}
    (h : WalkOf A s p v c) : 0 ≤ c := by
  induction h with
  | start => exact le_refl _
  | step _ hx ih => exact PathAdd.nonneg ih (hA _ _ _ hx)

/-- What holds between the rounds of Dijkstra's algorithm: `D` are the estimates, `vis` the visited vertices and
`InH w v` says that the heap has an entry for `v` with priority `w`. -/
structure Core (A : V → V → Option W) (s : V) (D : V → WithTop W) (vis : Finset V) (InH : W → V → Prop) : Prop where
  start : D s = ((0 : W) : WithTop W)
  walk : ∀ v (c : W), D v = c → ∃ p, WalkOf A s p v c
  ge : ∀ w v, InH w v → D v ≤ w
  has : ∀ v (c : W), v ∉ vis → D v = c → InH c v
  closed : ∀ u ∈ vis, ∀ v x, A u v = some x → D v ≤ D u + (x : WithTop W)
  fin : ∀ u ∈ vis, ∃ c : W, D u = c ∧ ∀ w v, InH w v → c ≤ w

theorem Core.skip {A : V → V → Option W} {s : V} {D : V → WithTop W} {vis : Finset V} {InH InH' : W → V → Prop}
    (h : Core A s D vis InH) {w : W} {u : V} (hu : u ∈ vis) (h1 : ∀ w' v', InH w' v' → (w' = w ∧ v' = u) ∨ InH' w' v')
    (h2 : ∀ w' v', InH' w' v' → InH w' v') : Core A s D vis InH' := by
  refine ⟨h.start, h.walk, fun w v hv => h.ge w v (h2 w v hv), fun v c hv hc => ?_, h.closed, fun x hx => ?_⟩
  · rcases h1 c v (h.has v c hv hc) with h' | h'
    · exact absurd (h'.2 ▸ hu) hv
    · exact h'
  · obtain ⟨c, k1, k2⟩ := h.fin x hx
    exact ⟨c, k1, fun w v hv => k2 w v (h2 w v hv)⟩

theorem Core.top_eq {A : V → V → Option W} {s : V} {D : V → WithTop W} {vis : Finset V} {InH : W → V → Prop}
    (h : Core A s D vis InH) {w : W} {u : V} (hu : u ∉ vis) (hin : InH w u) (hmin : ∀ w' v', InH w' v' → w ≤ w') :
    D u = w := by
  have h1 := h.ge w u hin
  obtain ⟨c, hc⟩ := WithTop.ne_top_iff_exists.1 (ne_top_of_le_ne_top WithTop.coe_ne_top h1)
  rw [← hc, WithTop.coe_le_coe] at h1
  have h2 := hmin c u (h.has u c hu hc.symm)
  rw [← hc, le_antisymm h1 h2]

/-- A vertex whose estimate drops has not been visited. -/
theorem Core.fresh {A : V → V → Option W} {s : V} {D : V → WithTop W} {vis : Finset V} {InH : W → V → Prop}
    (h : Core A s D vis InH) (hA : ∀ u v x, A u v = some x → 0 ≤ x) {w : W} {u : V} (hu : u ∉ vis) (hin : InH w u)
    (hmin : ∀ w' v', InH w' v' → w ≤ w') {v : V} {x : W} (hv : A u v = some x) (hlt : ((w + x : W) : WithTop W) < D v) :
    v ∉ vis ∧ v ≠ u := by
  have hx := hA u v x hv
  have hwx : w ≤ w + x := PathAdd.infl w x hx
  constructor
  · intro hv'
    obtain ⟨c, k1, k2⟩ := h.fin v hv'
    rw [k1, WithTop.coe_lt_coe] at hlt
    exact absurd (hlt.trans_le (k2 w u hin)) (not_lt.2 hwx)
  · rintro rfl
    rw [h.top_eq hu hin hmin, WithTop.coe_lt_coe] at hlt
    exact absurd hlt (not_lt.2 hwx)

theorem Core.visit [DecidableEq V] {A : V → V → Option W} {s : V} {D D' : V → WithTop W} {vis : Finset V} {InH InH' : W → V → Prop}
    (h : Core A s D vis InH) (hA : ∀ u v x, A u v = some x → 0 ≤ x) {w : W} {u : V} (hu : u ∉ vis) (hin : InH w u)
    (hmin : ∀ w' v', InH w' v' → w ≤ w')
    (hD1 : ∀ v, D' v = D v ∨ ∃ x, A u v = some x ∧ D' v = ((w + x : W) : WithTop W) ∧ ((w + x : W) : WithTop W) < D v)
    (hD2 : ∀ v x, A u v = some x → D' v ≤ ((w + x : W) : WithTop W))
    (hH1 : ∀ w' v', InH w' v' → D' v' = D v' → (w' = w ∧ v' = u) ∨ InH' w' v')
    (hH2 : ∀ w' v', InH' w' v' → InH w' v' ∨ ∃ x, A u v' = some x ∧ w' = w + x)
    (hH3 : ∀ v x, A u v = some x → ((w + x : W) : WithTop W) < D v → InH' (w + x) v) :
    Core A s D' (insert u vis) InH' := by
  have hDu := h.top_eq hu hin hmin
  have hle : ∀ v, D' v ≤ D v := by
    intro v
    rcases hD1 v with e | ⟨x, -, e, hlt⟩
    · rw [e]
    · rw [e]; exact hlt.le
  have hfix : ∀ v ∈ insert u vis, D' v = D v := by
    intro v hv
    rcases hD1 v with e | ⟨x, hx, e, hlt⟩
    · exact e
    · obtain ⟨h1, h2⟩ := h.fresh hA hu hin hmin hx hlt
      rcases Finset.mem_insert.1 hv with h' | h'
      · exact absurd h' h2
      · exact absurd h' h1
  have hs : D' s = ((0 : W) : WithTop W) := by
    rcases hD1 s with e | ⟨x, hx, e, hlt⟩
    · rw [e, h.start]
    · rw [h.start, WithTop.coe_lt_coe] at hlt
      obtain ⟨p, hp⟩ := h.walk u w hDu
      exact absurd hlt (not_lt.2 (PathAdd.nonneg (walk_nonneg hA hp) (hA u s x hx)))
  refine ⟨hs, ?_, ?_, ?_, ?_, ?_⟩
  · intro v c hc
    rcases hD1 v with e | ⟨x, hx, e, -⟩
    · exact h.walk v c (e ▸ hc)
    · obtain ⟨p, hp⟩ := h.walk u w hDu
      rw [e, WithTop.coe_inj] at hc
      exact ⟨p ++ [v], hc ▸ WalkOf.step hp hx⟩
  · intro w' v' hv
    rcases hH2 w' v' hv with hv | ⟨x, hx, rfl⟩
    · exact (hle v').trans (h.ge w' v' hv)
    · exact hD2 v' x hx
  · intro v c hv hc
    rw [Finset.mem_insert, not_or] at hv
    rcases hD1 v with e | ⟨x, hx, e, hlt⟩
    · rcases hH1 c v (h.has v c hv.2 (e ▸ hc)) e with h' | h'
      · exact absurd h'.2 hv.1
      · exact h'
    · rw [e, WithTop.coe_inj] at hc
      rw [← hc]
      exact hH3 v x hx hlt
  · intro y hy v x hx
    rcases Finset.mem_insert.1 hy with rfl | hy'
    · rw [hfix y hy, hDu, ← WithTop.coe_add]
      exact hD2 v x hx
    · rw [hfix y hy]
      exact (hle v).trans (h.closed y hy' v x hx)
  · intro y hy
    have hmin' : ∀ w' v', InH' w' v' → w ≤ w' := by
      intro w' v' hv
      rcases hH2 w' v' hv with hv | ⟨x, hx, rfl⟩
      · exact hmin w' v' hv
      · exact PathAdd.infl _ _ (hA _ _ _ hx)
    rcases Finset.mem_insert.1 hy with rfl | hy'
    · exact ⟨w, by rw [hfix y hy, hDu], hmin'⟩
    · obtain ⟨c, k1, k2⟩ := h.fin y hy'
      exact ⟨c, by rw [hfix y hy, k1], fun w' v' hv => (k2 w u hin).trans (hmin' w' v' hv)⟩

/-- At the end the estimates are the distances. -/
theorem Core.final {A : V → V → Option W} {s : V} {D : V → WithTop W} {vis : Finset V} {InH : W → V → Prop}
    (h : Core A s D vis InH) (hempty : ∀ w v, ¬ InH w v) (v : V) : IsDistance A s v (D v) := by
  have key : ∀ p v c, WalkOf A s p v c → D v ≤ c := by
    intro p v c hp
    induction hp with
    | start => rw [h.start]
    | step _ hx ih =>
      rename_i p' v' w' c' x' hw'
      obtain ⟨d, hd⟩ := WithTop.ne_top_iff_exists.1 (ne_top_of_le_ne_top WithTop.coe_ne_top ih)
      have hv : v' ∈ vis := by
        by_contra hv
        exact hempty _ _ (h.has v' d hv hd.symm)
      refine (h.closed v' hv _ _ hx).trans ?_
      rw [← hd] at ih ⊢
      rw [← WithTop.coe_add, WithTop.coe_le_coe]
      exact PathAdd.mono _ _ _ (WithTop.coe_le_coe.1 ih)
  refine ⟨fun c hc => ⟨h.walk v c hc, fun p c' hp => ?_⟩, fun htop p c hp => ?_⟩
  · have := key p v c' hp
    rwa [hc, WithTop.coe_le_coe] at this
  · have := key p v c hp
    rw [htop, top_le_iff] at this
    exact WithTop.coe_ne_top this

end core

/-! ### `dijkstra` -/

omit W in
theorem LinkPath.congr {P P' : V → Option (Option V)} {s : V} {p : List V} {v : V} (h : LinkPath P s p v)
    (hP : ∀ y ∈ p, P' y = P y) : LinkPath P' s p v := by
  induction h with
  | root h => exact LinkPath.root (by rw [hP s List.mem_cons_self]; exact h)
  | step _ h ih =>
    exact LinkPath.step (ih (fun y hy => hP y (List.mem_append_left _ hy))) (by rw [hP _ (by simp)]; exact h)

/-- A value of `distance`. -/
def dg [DecidableEq V] (D : Dict V (WithTop W)) (v : V) : WithTop W := (Dict.get? D v).getD ⊤

theorem dg_set [DecidableEq V] (D : Dict V (WithTop W)) (k v : V) (d : WithTop W) :
    dg (Dict.set D k d) v = if k = v then d else dg D v := by
  rw [dg, Dict.get?_set]
  split_ifs <;> rfl

variable [LinearOrder V] [Add W] [Zero W] [LinearOrder W]

theorem relax_spec (w : W) (u : V) (N : Dict V W) (hN : Dict.WF N) (D : Dict V (WithTop W)) (P : Dict V (Option V))
    (H : List (W × V)) (hD : ∀ v ∈ Dict.keys N, v ∈ Dict.keys D) (hP : Dict.keys P = Dict.keys D) :
    ∃ D' P' H', relax w u N D P H = .ok (D', P', H') ∧ Dict.keys D' = Dict.keys D ∧ Dict.keys P' = Dict.keys D ∧
      (∀ v x, Dict.get? N v = some x → ((w + x : W) : WithTop W) < dg D v →
        dg D' v = ((w + x : W) : WithTop W) ∧ Dict.get? P' v = some (some u) ∧ (w + x, v) ∈ H') ∧
      (∀ v, (∀ x, Dict.get? N v = some x → ¬ ((w + x : W) : WithTop W) < dg D v) →
        dg D' v = dg D v ∧ Dict.get? P' v = Dict.get? P v) ∧
      (∀ e ∈ H', e ∈ H ∨ ∃ x, Dict.get? N e.2 = some x ∧ ((w + x : W) : WithTop W) < dg D e.2 ∧ e.1 = w + x) ∧
      ∀ e ∈ H, e ∈ H' := by
  induction N generalizing D P H with
  | nil =>
    refine ⟨D, P, H, rfl, rfl, hP, fun v x h => by simp [Dict.get?] at h, fun v _ => ⟨rfl, rfl⟩, fun e he => Or.inl he,
      fun e he => he⟩
  | cons e N ih =>
    obtain ⟨a, y⟩ := e
    obtain ⟨haN, hN'⟩ : a ∉ Dict.keys N ∧ Dict.WF N := List.nodup_cons.1 hN
    have haD : a ∈ Dict.keys D := hD a List.mem_cons_self
    obtain ⟨dv, hdv⟩ := Dict.get?_isSome.2 haD
    have hdg : dg D a = dv := by rw [dg, hdv]; rfl
    have hget : ∀ v, Dict.get? ((a, y) :: N) v = if a = v then some y else Dict.get? N v := fun v => rfl
    have hna : Dict.get? N a = none := Dict.get?_eq_none.2 haN
    rw [relax, hdv]
    dsimp only
    by_cases hc : ((w + y : W) : WithTop W) < dv
    · rw [if_pos hc]
      have hk1 : Dict.keys (Dict.set D a ((w + y : W) : WithTop W)) = Dict.keys D := by rw [Dict.keys_set, if_pos haD]
      have hk2 : Dict.keys (Dict.set P a (some u)) = Dict.keys D := by rw [Dict.keys_set, hP, if_pos haD]
      obtain ⟨D', P', H', h1, h2, h3, h4, h5, h6, h7⟩ := ih hN' (Dict.set D a ((w + y : W) : WithTop W))
        (Dict.set P a (some u)) ((w + y, a) :: H) (fun v hv => by rw [hk1]; exact hD v (List.mem_cons_of_mem _ hv))
        (by rw [hk1, hk2])
      rw [hk1] at h2 h3
      have hav : ∀ v x, Dict.get? N v = some x → a ≠ v := by
        rintro v x hx rfl
        rw [hna] at hx; simp at hx
      refine ⟨D', P', H', h1, h2, h3, fun v x hx hlt => ?_, fun v hv => ?_, fun e he => ?_, fun e he =>
        h7 e (List.mem_cons_of_mem _ he)⟩
      · rw [hget] at hx
        split_ifs at hx with hav'
        · injection hx with hx
          subst hx hav'
          obtain ⟨k1, k2⟩ := h5 a (fun x hx => by rw [hna] at hx; simp at hx)
          refine ⟨?_, ?_, h7 _ List.mem_cons_self⟩
          · rw [k1, dg_set, if_pos rfl]
          · rw [k2, Dict.get?_set, if_pos rfl]
        · exact h4 v x hx (by rw [dg_set, if_neg hav']; exact hlt)
      · have hne : a ≠ v := by
          rintro rfl
          exact hv y (by rw [hget, if_pos rfl]) (by rw [hdg]; exact hc)
        obtain ⟨k1, k2⟩ := h5 v (fun x hx => by
          rw [dg_set, if_neg hne]
          exact hv x (by rw [hget, if_neg hne]; exact hx))
        rw [k1, k2, dg_set, if_neg hne, Dict.get?_set, if_neg hne]
        exact ⟨rfl, rfl⟩
      · rcases h6 e he with he | ⟨x, hx, hlt, hex⟩
        · rcases List.mem_cons.1 he with rfl | he
          · exact Or.inr ⟨y, by rw [hget, if_pos rfl], by rw [hdg]; exact hc, rfl⟩
          · exact Or.inl he
        · have hne := hav _ _ hx
          refine Or.inr ⟨x, by rw [hget, if_neg hne]; exact hx, ?_, hex⟩
          rwa [dg_set, if_neg hne] at hlt
    · rw [if_neg hc]
      obtain ⟨D', P', H', h1, h2, h3, h4, h5, h6, h7⟩ := ih hN' D P H (fun v hv => hD v (List.mem_cons_of_mem _ hv)) hP
      have hav : ∀ v x, Dict.get? N v = some x → a ≠ v := by
        rintro v x hx rfl
        rw [hna] at hx; simp at hx
      refine ⟨D', P', H', h1, h2, h3, fun v x hx hlt => ?_, fun v hv => ?_, fun e he => ?_, h7⟩
      · rw [hget] at hx
        split_ifs at hx with hav'
        · injection hx with hx
          subst hx hav'
          rw [hdg] at hlt
          exact absurd hlt hc
        · exact h4 v x hx hlt
      · refine h5 v (fun x hx => hv x ?_)
        rw [hget, if_neg (hav v x hx)]; exact hx
      · rcases h6 e he with he | ⟨x, hx, h'⟩
        · exact Or.inl he
        · exact Or.inr ⟨x, by rw [hget, if_neg (hav _ _ hx)]; exact hx, h'⟩

variable [PathAdd W]

/-- What holds between the rounds of `dijkstra`. -/
structure DjInv (g : Graph V W) (s : V) (D : Dict V (WithTop W)) (P : Dict V (Option V)) (H : List (W × V)) (vis : Finset V) :
    Prop where
  keysD : Dict.keys D = Dict.keys g
  keysP : Dict.keys P = Dict.keys g
  core : Core (adj g) s (dg D) vis (fun w v => (w, v) ∈ H)
  mem : ∀ u ∈ vis, Mem g u
  hmem : ∀ e ∈ H, Mem g e.2
  root : Dict.get? P s = some none
  link : ∀ v (c : W), dg D v = c → ∃ p, LinkPath (Dict.get? P) s p v ∧ WalkOf (adj g) s p v c ∧ ∀ y ∈ p, y = v ∨ y ∈ vis
  nolink : ∀ v, dg D v = ⊤ → Mem g v → Dict.get? P v = some none

theorem adj_eq {g : Graph V W} {u : V} {N : Dict V W} (h : Dict.get? g u = some N) (v : V) : adj g u v = Dict.get? N v := by
  rw [adj, h]; rfl

theorem DjInv.skip {g : Graph V W} {s : V} {D : Dict V (WithTop W)} {P : Dict V (Option V)} {H H' : List (W × V)}
    {vis : Finset V} (h : DjInv g s D P H vis) {w : W} {u : V} (hp : H.Perm ((w, u) :: H')) (hu : u ∈ vis) :
    DjInv g s D P H' vis := by
  refine ⟨h.keysD, h.keysP, h.core.skip (w := w) hu (fun w' v' hv => ?_) (fun w' v' hv => ?_), h.mem, fun e he => ?_, h.root, h.link,
    h.nolink⟩
  · rcases List.mem_cons.1 (hp.mem_iff.1 hv) with e | hv
    · rw [Prod.mk.injEq] at e; exact Or.inl e
    · exact Or.inr hv
  · exact hp.mem_iff.2 (List.mem_cons_of_mem _ hv)
  · exact h.hmem e (hp.mem_iff.2 (List.mem_cons_of_mem _ he))

theorem DjInv.visit {g : Graph V W} (hg : Good g) (hA : ∀ u v x, adj g u v = some x → 0 ≤ x) {s : V}
    {D : Dict V (WithTop W)} {P : Dict V (Option V)} {H H' : List (W × V)}
    {vis : Finset V} (h : DjInv g s D P H vis) {w : W} {u : V} (hp : H.Perm ((w, u) :: H'))
    (hmin : ∀ e ∈ H, key2 (w, u) ≤ key2 e) (hu : u ∉ vis) {N : Dict V W} (hN : Dict.get? g u = some N) :
    ∃ D' P' H'', relax w u N D P H' = .ok (D', P', H'') ∧ DjInv g s D' P' H'' (insert u vis) := by
  have hmin' : ∀ w' v', (w', v') ∈ H → w ≤ w' := by
    intro w' v' hv
    have := hmin _ hv
    rw [key2, key2, Prod.Lex.toLex_le_toLex] at this
    rcases this with h | h
    · exact h.le
    · exact h.1.le
  have hin : (w, u) ∈ H := hp.mem_iff.2 List.mem_cons_self
  have hum : Mem g u := h.hmem _ hin
  have hkN : ∀ v ∈ Dict.keys N, v ∈ Dict.keys D := by
    intro v hv
    rw [h.keysD]
    obtain ⟨x, hx⟩ := Dict.get?_isSome.2 hv
    exact hg.mem_right (u := u) (w := x) (by rw [adj_eq hN]; exact hx)
  obtain ⟨D', P', H'', h1, h2, h3, h4, h5, h6, h7⟩ := relax_spec w u N (hg.inner u N hN) D P H' hkN (by rw [h.keysP, h.keysD])
  have hDu := h.core.top_eq (InH := fun w v => (w, v) ∈ H) hu hin hmin'
  have hfresh := fun v x => h.core.fresh (InH := fun w v => (w, v) ∈ H) hA hu hin hmin' (v := v) (x := x)
  have hcore : Core (adj g) s (dg D') (insert u vis) (fun w v => (w, v) ∈ H'') := by
    refine h.core.visit hA hu hin hmin' (fun v => ?_) (fun v x hx => ?_) (fun w' v' hv _ => ?_) (fun w' v' hv => ?_)
      (fun v x hx hlt => ?_)
    · by_cases hup : ∃ x, Dict.get? N v = some x ∧ ((w + x : W) : WithTop W) < dg D v
      · obtain ⟨x, hx, hlt⟩ := hup
        exact Or.inr ⟨x, by rw [adj_eq hN]; exact hx, (h4 v x hx hlt).1, hlt⟩
      · exact Or.inl (h5 v (fun x hx hlt => hup ⟨x, hx, hlt⟩)).1
    · rw [adj_eq hN] at hx
      by_cases hlt : ((w + x : W) : WithTop W) < dg D v
      · rw [(h4 v x hx hlt).1]
      · rw [(h5 v (fun y hy hlt' => by
          rw [hx] at hy; injection hy with hy; subst hy; exact hlt hlt')).1]
        exact not_lt.1 hlt
    · rcases List.mem_cons.1 (hp.mem_iff.1 hv) with e | hv
      · rw [Prod.mk.injEq] at e; exact Or.inl e
      · exact Or.inr (h7 _ hv)
    · rcases h6 _ hv with hv | ⟨x, hx, -, e⟩
      · exact Or.inl (hp.mem_iff.2 (List.mem_cons_of_mem _ hv))
      · exact Or.inr ⟨x, by rw [adj_eq hN]; exact hx, e⟩
    · rw [adj_eq hN] at hx
      exact (h4 v x hx hlt).2.2
  have hkeep : ∀ y ∈ insert u vis, Dict.get? P' y = Dict.get? P y ∧ dg D' y = dg D y := by
    intro y hy
    have := h5 y (fun x hx hlt => by
      have := hfresh y x (by rw [adj_eq hN]; exact hx) hlt
      rcases Finset.mem_insert.1 hy with h' | h'
      · exact this.2 h'
      · exact this.1 h')
    exact ⟨this.2, this.1⟩
  have hkeep2 : ∀ v, (∀ x, Dict.get? N v = some x → ¬ ((w + x : W) : WithTop W) < dg D v) → ∀ c : W, dg D v = c →
      ∃ p, LinkPath (Dict.get? P') s p v ∧ WalkOf (adj g) s p v c ∧ ∀ y ∈ p, y = v ∨ y ∈ insert u vis := by
    intro v hv c hc
    obtain ⟨p, k1, k2, k3⟩ := h.link v c hc
    refine ⟨p, LinkPath.congr k1 (fun y hy => ?_), k2, fun y hy => (k3 y hy).imp id (Finset.mem_insert_of_mem)⟩
    rcases k3 y hy with rfl | hy'
    · exact (h5 y hv).2
    · exact (hkeep y (Finset.mem_insert_of_mem hy')).1
  have hnou : ∀ x, Dict.get? N u = some x → ¬ ((w + x : W) : WithTop W) < dg D u := by
    intro x hx hlt
    exact (hfresh u x (by rw [adj_eq hN]; exact hx) hlt).2 rfl
  refine ⟨D', P', H'', h1, h2.trans h.keysD, h3.trans h.keysD, hcore, ?_, ?_, ?_, ?_, ?_⟩
  · intro y hy
    rcases Finset.mem_insert.1 hy with rfl | hy
    · exact hum
    · exact h.mem y hy
  · intro e he
    rcases h6 e he with he | ⟨x, hx, -⟩
    · exact h.hmem e (hp.mem_iff.2 (List.mem_cons_of_mem _ he))
    · exact hg.mem_right (u := u) (w := x) (by rw [adj_eq hN]; exact hx)
  · rw [(h5 s (fun x hx hlt => ?_)).2, h.root]
    rw [h.core.start, WithTop.coe_lt_coe] at hlt
    obtain ⟨p, hp'⟩ := h.core.walk u w hDu
    exact absurd hlt (not_lt.2 (PathAdd.nonneg (walk_nonneg hA hp') (hA u s x (by rw [adj_eq hN]; exact hx))))
  · intro v c hc
    by_cases hup : ∃ x, Dict.get? N v = some x ∧ ((w + x : W) : WithTop W) < dg D v
    · obtain ⟨x, hx, hlt⟩ := hup
      obtain ⟨e1, e2, -⟩ := h4 v x hx hlt
      rw [e1, WithTop.coe_inj] at hc
      obtain ⟨p, k1, k2, k3⟩ := hkeep2 u hnou w hDu
      refine ⟨p ++ [v], LinkPath.step k1 e2, hc ▸ WalkOf.step k2 (by rw [adj_eq hN]; exact hx), fun y hy => ?_⟩
      rcases List.mem_append.1 hy with hy | hy
      · rcases k3 y hy with rfl | hy'
        · exact Or.inr (Finset.mem_insert_self _ _)
        · exact Or.inr hy'
      · exact Or.inl (List.mem_singleton.1 hy)
    · have hv : ∀ x, Dict.get? N v = some x → ¬ ((w + x : W) : WithTop W) < dg D v := fun x hx hlt => hup ⟨x, hx, hlt⟩
      rw [(h5 v hv).1] at hc
      exact hkeep2 v hv c hc
  · intro v hv hm
    by_cases hup : ∃ x, Dict.get? N v = some x ∧ ((w + x : W) : WithTop W) < dg D v
    · obtain ⟨x, hx, hlt⟩ := hup
      rw [(h4 v x hx hlt).1] at hv
      exact absurd hv WithTop.coe_ne_top
    · have hv' : ∀ x, Dict.get? N v = some x → ¬ ((w + x : W) : WithTop W) < dg D v := fun x hx hlt => hup ⟨x, hx, hlt⟩
      obtain ⟨k1, k2⟩ := h5 v hv'
      rw [k2]
      exact h.nolink v (k1 ▸ hv) hm

theorem card_lt {g : Graph V W} {vis : Finset V} (hm : ∀ u ∈ vis, Mem g u) {u : V} (hu : Mem g u) (hn : u ∉ vis) :
    vis.card < g.length := by
  have h1 : insert u vis ⊆ (Dict.keys g).toFinset := by
    intro x hx
    rw [List.mem_toFinset]
    rcases Finset.mem_insert.1 hx with rfl | hx
    · exact hu
    · exact hm x hx
  have h2 := Finset.card_le_card h1
  rw [Finset.card_insert_of_notMem hn] at h2
  have h3 := List.toFinset_card_le (Dict.keys g)
  rw [Dict.keys, List.length_map] at h3
  change (Dict.keys g).toFinset.card ≤ g.length at h3
  omega

theorem dijkstra_main {g : Graph V W} (hg : Good g) (hA : ∀ u v x, adj g u v = some x → 0 ≤ x) (s : V) :
    ∀ (k m : ℕ) (D : Dict V (WithTop W)) (P : Dict V (Option V)) (H : List (W × V)) (vis : Finset V),
      DjInv g s D P H vis → g.length ≤ k + vis.card → H.length ≤ m →
      ∃ D' P' vis', dijkstraLoop g D P H vis = some (.ok (D', P')) ∧ DjInv g s D' P' [] vis' := by
  intro k
  induction k with
  | zero =>
    intro m
    induction m with
    | zero =>
      intro D P H vis h _ hm
      obtain rfl : H = [] := List.eq_nil_of_length_eq_zero (by omega)
      exact ⟨D, P, vis, by rw [dijkstraLoop.eq_def]; rfl, h⟩
    | succ m ih =>
      intro D P H vis h hk hm
      rw [dijkstraLoop.eq_def]
      cases hp : popMin key2 H with
      | none =>
        rw [popMin_none] at hp
        subst hp
        exact ⟨D, P, vis, rfl, h⟩
      | some e =>
        obtain ⟨⟨w, u⟩, H'⟩ := e
        obtain ⟨p1, p2⟩ := popMin_some key2 hp
        have hl := p1.length_eq
        rw [List.length_cons] at hl
        have hu : u ∈ vis := by
          by_contra hu
          have := card_lt h.mem (h.hmem (w, u) (p1.mem_iff.2 List.mem_cons_self)) hu
          omega
        dsimp only
        rw [if_pos hu]
        exact ih D P H' vis (h.skip p1 hu) hk (by omega)
  | succ k ihk =>
    intro m
    induction m with
    | zero =>
      intro D P H vis h _ hm
      obtain rfl : H = [] := List.eq_nil_of_length_eq_zero (by omega)
      exact ⟨D, P, vis, by rw [dijkstraLoop.eq_def]; rfl, h⟩
    | succ m ih =>
      intro D P H vis h hk hm
      rw [dijkstraLoop.eq_def]
      cases hp : popMin key2 H with
      | none =>
        rw [popMin_none] at hp
        subst hp
        exact ⟨D, P, vis, rfl, h⟩
      | some e =>
        obtain ⟨⟨w, u⟩, H'⟩ := e
        obtain ⟨p1, p2⟩ := popMin_some key2 hp
        have hl := p1.length_eq
        rw [List.length_cons] at hl
        dsimp only
        by_cases hu : u ∈ vis
        · rw [if_pos hu]
          exact ih D P H' vis (h.skip p1 hu) hk (by omega)
        · rw [if_neg hu]
          obtain ⟨N, hN⟩ := mem_iff.1 (h.hmem (w, u) (p1.mem_iff.2 List.mem_cons_self))
          dsimp only at hN
          obtain ⟨D', P', H'', h1, h2⟩ := h.visit hg hA p1 p2 hu hN
          rw [hN]
          dsimp only
          rw [h1]
          exact ihk H''.length D' P' H'' _ h2 (by rw [Finset.card_insert_of_notMem hu]; omega) (le_refl _)

theorem dg_top {g : Graph V W} (v : V) : dg (g.map (fun e => (e.1, (⊤ : WithTop W)))) v = ⊤ := by
  rw [dg, get?_mapVal (fun _ => (⊤ : WithTop W))]
  cases Dict.get? g v <;> rfl

theorem dg_init {g : Graph V W} (s v : V) : dg (Dict.set (g.map (fun e => (e.1, (⊤ : WithTop W)))) s ((0 : W) : WithTop W)) v =
    if s = v then ((0 : W) : WithTop W) else ⊤ := by
  rw [dg_set, dg_top]

theorem core_init {g : Graph V W} (s : V) (InH : W → V → Prop) (h1 : InH 0 s) (h2 : ∀ w v, InH w v → w = 0 ∧ v = s) :
    Core (adj g) s (dg (Dict.set (g.map (fun e => (e.1, (⊤ : WithTop W)))) s ((0 : W) : WithTop W))) ∅ InH := by
  refine ⟨by rw [dg_init, if_pos rfl], fun v c hc => ?_, fun w v hv => ?_, fun v c _ hc => ?_, fun u hu => by simp at hu,
    fun u hu => by simp at hu⟩
  · rw [dg_init] at hc
    split_ifs at hc with hs
    · subst hs
      rw [WithTop.coe_inj] at hc
      exact ⟨[s], hc ▸ WalkOf.start⟩
    · exact absurd hc.symm WithTop.coe_ne_top
  · obtain ⟨rfl, rfl⟩ := h2 w v hv
    rw [dg_init, if_pos rfl]
  · rw [dg_init] at hc
    split_ifs at hc with hs
    · subst hs
      rw [WithTop.coe_inj] at hc
      exact hc ▸ h1
    · exact absurd hc.symm WithTop.coe_ne_top

theorem dijkstra_spec {g : Graph V W} (hg : Good g) (hA : ∀ u v x, adj g u v = some x → 0 ≤ x) {s : V} (hs : Mem g s) :
    ∃ D P vis, dijkstra g s = some (.ok (D, P)) ∧ DjInv g s D P [] vis := by
  rw [dijkstra, if_neg (fun h : s ∉ Dict.keys g => h hs)]
  have kD : Dict.keys (g.map (fun e => (e.1, (⊤ : WithTop W)))) = Dict.keys g := keys_mapVal (fun _ => (⊤ : WithTop W)) g
  have kP : Dict.keys (g.map (fun e => (e.1, (none : Option V)))) = Dict.keys g := keys_mapVal (fun _ => (none : Option V)) g
  have gP : ∀ v, Mem g v → Dict.get? (g.map (fun e => (e.1, (none : Option V)))) v = some none := by
    intro v hv
    obtain ⟨N, hN⟩ := mem_iff.1 hv
    rw [get?_mapVal (fun _ => (none : Option V)), hN]; rfl
  refine dijkstra_main hg hA s g.length 1 _ _ _ ∅ ⟨?_, kP, ?_, by simp, ?_, gP s hs, ?_, fun v _ hm => gP v hm⟩ (by simp) (le_refl _)
  · rw [Dict.keys_set, kD]
    exact if_pos hs
  · refine core_init s _ (by simp) (fun w v hv => ?_)
    rw [List.mem_singleton, Prod.mk.injEq] at hv; exact hv
  · intro e he
    rw [List.mem_singleton] at he
    subst he; exact hs
  · intro v c hc
    rw [dg_init] at hc
    split_ifs at hc with hsv
    · subst hsv
      rw [WithTop.coe_inj] at hc
      exact ⟨[s], LinkPath.root (gP s hs), hc ▸ WalkOf.start, fun y hy => Or.inl (List.mem_singleton.1 hy)⟩
    · exact absurd hc.symm WithTop.coe_ne_top

/-! ### `dijkstra_iterator` -/

omit [PathAdd W] in
theorem relaxPath_spec (w : W) (q : List V) (N : Dict V W) (hN : Dict.WF N) (D : Dict V (WithTop W))
    (H : List (W × V × List V)) (hD : ∀ v ∈ Dict.keys N, v ∈ Dict.keys D) :
    ∃ D' H', relaxPath w q N D H = .ok (D', H') ∧ Dict.keys D' = Dict.keys D ∧
      (∀ v x, Dict.get? N v = some x → ((w + x : W) : WithTop W) < dg D v →
        dg D' v = ((w + x : W) : WithTop W) ∧ (w + x, v, q ++ [v]) ∈ H') ∧
      (∀ v, (∀ x, Dict.get? N v = some x → ¬ ((w + x : W) : WithTop W) < dg D v) → dg D' v = dg D v) ∧
      (∀ e ∈ H', e ∈ H ∨ ∃ x, Dict.get? N e.2.1 = some x ∧ e.1 = w + x ∧ e.2.2 = q ++ [e.2.1]) ∧
      ∀ e ∈ H, e ∈ H' := by
  induction N generalizing D H with
  | nil =>
    exact ⟨D, H, rfl, rfl, fun v x h => by simp [Dict.get?] at h, fun v _ => rfl, fun e he => Or.inl he, fun e he => he⟩
  | cons e N ih =>
    obtain ⟨a, y⟩ := e
    obtain ⟨haN, hN'⟩ : a ∉ Dict.keys N ∧ Dict.WF N := List.nodup_cons.1 hN
    have haD : a ∈ Dict.keys D := hD a List.mem_cons_self
    obtain ⟨dv, hdv⟩ := Dict.get?_isSome.2 haD
    have hdg : dg D a = dv := by rw [dg, hdv]; rfl
    have hget : ∀ v, Dict.get? ((a, y) :: N) v = if a = v then some y else Dict.get? N v := fun v => rfl
    have hna : Dict.get? N a = none := Dict.get?_eq_none.2 haN
    have hav : ∀ v x, Dict.get? N v = some x → a ≠ v := by
      rintro v x hx rfl
      rw [hna] at hx; simp at hx
    rw [relaxPath, hdv]
    dsimp only
    by_cases hc : ((w + y : W) : WithTop W) < dv
    · rw [if_pos hc]
      have hk1 : Dict.keys (Dict.set D a ((w + y : W) : WithTop W)) = Dict.keys D := by rw [Dict.keys_set, if_pos haD]
      obtain ⟨D', H', h1, h2, h4, h5, h6, h7⟩ := ih hN' (Dict.set D a ((w + y : W) : WithTop W))
        ((w + y, a, q ++ [a]) :: H) (fun v hv => by rw [hk1]; exact hD v (List.mem_cons_of_mem _ hv))
      rw [hk1] at h2
      refine ⟨D', H', h1, h2, fun v x hx hlt => ?_, fun v hv => ?_, fun e he => ?_, fun e he =>
        h7 e (List.mem_cons_of_mem _ he)⟩
      · rw [hget] at hx
        split_ifs at hx with hav'
        · injection hx with hx
          subst hx hav'
          have k1 := h5 a (fun x hx => by rw [hna] at hx; simp at hx)
          refine ⟨?_, h7 _ List.mem_cons_self⟩
          rw [k1, dg_set, if_pos rfl]
        · exact h4 v x hx (by rw [dg_set, if_neg hav']; exact hlt)
      · have hne : a ≠ v := by
          rintro rfl
          exact hv y (by rw [hget, if_pos rfl]) (by rw [hdg]; exact hc)
        have k1 := h5 v (fun x hx => by
          rw [dg_set, if_neg hne]
          exact hv x (by rw [hget, if_neg hne]; exact hx))
        rw [k1, dg_set, if_neg hne]
      · rcases h6 e he with he | ⟨x, hx, hex⟩
        · rcases List.mem_cons.1 he with rfl | he
          · exact Or.inr ⟨y, by rw [hget, if_pos rfl], rfl, rfl⟩
          · exact Or.inl he
        · have hne := hav _ _ hx
          exact Or.inr ⟨x, by rw [hget, if_neg hne]; exact hx, hex⟩
    · rw [if_neg hc]
      obtain ⟨D', H', h1, h2, h4, h5, h6, h7⟩ := ih hN' D H (fun v hv => hD v (List.mem_cons_of_mem _ hv))
      refine ⟨D', H', h1, h2, fun v x hx hlt => ?_, fun v hv => ?_, fun e he => ?_, h7⟩
      · rw [hget] at hx
        split_ifs at hx with hav'
        · injection hx with hx
          subst hx hav'
          rw [hdg] at hlt
          exact absurd hlt hc
        · exact h4 v x hx hlt
      · refine h5 v (fun x hx => hv x ?_)
        rw [hget, if_neg (hav v x hx)]; exact hx
      · rcases h6 e he with he | ⟨x, hx, h'⟩
        · exact Or.inl he
        · exact Or.inr ⟨x, by rw [hget, if_neg (hav _ _ hx)]; exact hx, h'⟩

/-- What holds between the rounds of `dijkstra_iterator`; `out` has been yielded. -/
structure ItInv (g : Graph V W) (s : V) (D : Dict V (WithTop W)) (H : List (W × V × List V)) (vis : Finset V)
    (out : List (V × W × List V)) : Prop where
  keysD : Dict.keys D = Dict.keys g
  core : Core (adj g) s (dg D) vis (fun w v => ∃ p, (w, v, p) ∈ H)
  mem : ∀ u ∈ vis, Mem g u
  hmem : ∀ e ∈ H, Mem g e.2.1
  visout : ∀ u, u ∈ vis ↔ u ∈ out.map Prod.fst
  nodup : (out.map Prod.fst).Nodup
  val : ∀ e ∈ out, dg D e.1 = (e.2.1 : WithTop W)
  sorted : out.Pairwise (fun e f => e.2.1 ≤ f.2.1)
  heap : ∀ e ∈ H, (e.2.1 = s ∧ e.1 = 0 ∧ e.2.2 = [s]) ∨
    ∃ f ∈ out, ∃ x, adj g f.1 e.2.1 = some x ∧ e.1 = f.2.1 + x ∧ e.2.2 = f.2.2 ++ [e.2.1]
  tree : ∀ o1 e o2, out = o1 ++ e :: o2 → (e.1 = s ∧ e.2.1 = 0 ∧ e.2.2 = [s]) ∨
    ∃ f ∈ o1, ∃ x, adj g f.1 e.1 = some x ∧ e.2.1 = f.2.1 + x ∧ e.2.2 = f.2.2 ++ [e.1]

theorem ItInv.skip {g : Graph V W} {s : V} {D : Dict V (WithTop W)} {H H' : List (W × V × List V)}
    {vis : Finset V} {out : List (V × W × List V)} (h : ItInv g s D H vis out) {w : W} {u : V} {q : List V}
    (hp : H.Perm ((w, u, q) :: H')) (hu : u ∈ vis) : ItInv g s D H' vis out := by
  refine ⟨h.keysD, h.core.skip (w := w) hu (fun w' v' hv => ?_) (fun w' v' hv => ?_), h.mem, fun e he => ?_, h.visout, h.nodup,
    h.val, h.sorted, fun e he => ?_, h.tree⟩
  · obtain ⟨p, hv⟩ := hv
    rcases List.mem_cons.1 (hp.mem_iff.1 hv) with e | hv
    · rw [Prod.mk.injEq, Prod.mk.injEq] at e; exact Or.inl ⟨e.1, e.2.1⟩
    · exact Or.inr ⟨p, hv⟩
  · obtain ⟨p, hv⟩ := hv
    exact ⟨p, hp.mem_iff.2 (List.mem_cons_of_mem _ hv)⟩
  · exact h.hmem e (hp.mem_iff.2 (List.mem_cons_of_mem _ he))
  · exact h.heap e (hp.mem_iff.2 (List.mem_cons_of_mem _ he))

theorem ItInv.visit {g : Graph V W} (hg : Good g) (hA : ∀ u v x, adj g u v = some x → 0 ≤ x) {s : V}
    {D : Dict V (WithTop W)} {H H' : List (W × V × List V)} {vis : Finset V} {out : List (V × W × List V)}
    (h : ItInv g s D H vis out) {w : W} {u : V} {q : List V} (hp : H.Perm ((w, u, q) :: H'))
    (hmin : ∀ e ∈ H, key3 (w, u, q) ≤ key3 e) (hu : u ∉ vis) {N : Dict V W} (hN : Dict.get? g u = some N) :
    ∃ D' H'', relaxPath w q N D H' = .ok (D', H'') ∧ ItInv g s D' H'' (insert u vis) (out ++ [(u, w, q)]) := by
  have hmin' : ∀ w' v', (∃ p, (w', v', p) ∈ H) → w ≤ w' := by
    rintro w' v' ⟨p, hv⟩
    have := hmin _ hv
    rw [key3, key3, Prod.Lex.toLex_le_toLex] at this
    rcases this with h | h
    · exact h.le
    · exact h.1.le
  have hin : (w, u, q) ∈ H := hp.mem_iff.2 List.mem_cons_self
  have hum : Mem g u := h.hmem _ hin
  have hkN : ∀ v ∈ Dict.keys N, v ∈ Dict.keys D := by
    intro v hv
    rw [h.keysD]
    obtain ⟨x, hx⟩ := Dict.get?_isSome.2 hv
    exact hg.mem_right (u := u) (w := x) (by rw [adj_eq hN]; exact hx)
  obtain ⟨D', H'', h1, h2, h4, h5, h6, h7⟩ := relaxPath_spec w q N (hg.inner u N hN) D H' hkN
  have hDu := h.core.top_eq (InH := fun w v => ∃ p, (w, v, p) ∈ H) hu ⟨q, hin⟩ hmin'
  have hfresh := fun v x => h.core.fresh (InH := fun w v => ∃ p, (w, v, p) ∈ H) hA hu ⟨q, hin⟩ hmin' (v := v) (x := x)
  have hcore : Core (adj g) s (dg D') (insert u vis) (fun w v => ∃ p, (w, v, p) ∈ H'') := by
    refine h.core.visit hA hu ⟨q, hin⟩ hmin' (fun v => ?_) (fun v x hx => ?_) (fun w' v' hv _ => ?_) (fun w' v' hv => ?_)
      (fun v x hx hlt => ?_)
    · by_cases hup : ∃ x, Dict.get? N v = some x ∧ ((w + x : W) : WithTop W) < dg D v
      · obtain ⟨x, hx, hlt⟩ := hup
        exact Or.inr ⟨x, by rw [adj_eq hN]; exact hx, (h4 v x hx hlt).1, hlt⟩
      · exact Or.inl (h5 v (fun x hx hlt => hup ⟨x, hx, hlt⟩))
    · rw [adj_eq hN] at hx
      by_cases hlt : ((w + x : W) : WithTop W) < dg D v
      · rw [(h4 v x hx hlt).1]
      · rw [h5 v (fun y hy hlt' => by
          rw [hx] at hy; injection hy with hy; subst hy; exact hlt hlt')]
        exact not_lt.1 hlt
    · obtain ⟨p, hv⟩ := hv
      rcases List.mem_cons.1 (hp.mem_iff.1 hv) with e | hv
      · rw [Prod.mk.injEq, Prod.mk.injEq] at e; exact Or.inl ⟨e.1, e.2.1⟩
      · exact Or.inr ⟨p, h7 _ hv⟩
    · obtain ⟨p, hv⟩ := hv
      rcases h6 _ hv with hv | ⟨x, hx, e, -⟩
      · exact Or.inl ⟨p, hp.mem_iff.2 (List.mem_cons_of_mem _ hv)⟩
      · exact Or.inr ⟨x, by rw [adj_eq hN]; exact hx, e⟩
    · rw [adj_eq hN] at hx
      exact ⟨_, (h4 v x hx hlt).2⟩
  have hkeep : ∀ y ∈ insert u vis, dg D' y = dg D y := by
    intro y hy
    exact h5 y (fun x hx hlt => by
      have := hfresh y x (by rw [adj_eq hN]; exact hx) hlt
      rcases Finset.mem_insert.1 hy with h' | h'
      · exact this.2 h'
      · exact this.1 h')
  refine ⟨D', H'', h1, h2.trans h.keysD, hcore, ?_, ?_, ?_, ?_, ?_, ?_, ?_, ?_⟩
  · intro y hy
    rcases Finset.mem_insert.1 hy with rfl | hy
    · exact hum
    · exact h.mem y hy
  · intro e he
    rcases h6 e he with he | ⟨x, hx, -⟩
    · exact h.hmem e (hp.mem_iff.2 (List.mem_cons_of_mem _ he))
    · exact hg.mem_right (u := u) (w := x) (by rw [adj_eq hN]; exact hx)
  · intro y
    rw [Finset.mem_insert, h.visout, List.map_append, List.mem_append, List.map_singleton, List.mem_singleton, or_comm]
  · rw [List.map_append]
    refine List.Nodup.append h.nodup (List.nodup_singleton _) ?_
    simp only [List.map_singleton, List.disjoint_singleton]
    rw [← h.visout]; exact hu
  · intro e he
    rcases List.mem_append.1 he with he | he
    · rw [hkeep e.1 (Finset.mem_insert_of_mem ((h.visout _).2 (List.mem_map_of_mem he)))]
      exact h.val e he
    · rw [List.mem_singleton] at he
      subst he
      rw [hkeep u (Finset.mem_insert_self _ _), hDu]
  · rw [List.pairwise_append]
    refine ⟨h.sorted, List.pairwise_singleton _ _, fun e he f hf => ?_⟩
    rw [List.mem_singleton] at hf
    subst hf
    obtain ⟨c, k1, k2⟩ := h.core.fin e.1 ((h.visout _).2 (List.mem_map_of_mem he))
    rw [h.val e he, WithTop.coe_inj] at k1
    rw [k1]
    exact k2 w u ⟨q, hin⟩
  · intro e he
    rcases h6 e he with he | ⟨x, hx, e1, e2⟩
    · rcases h.heap e (hp.mem_iff.2 (List.mem_cons_of_mem _ he)) with h' | ⟨f, hf, h'⟩
      · exact Or.inl h'
      · exact Or.inr ⟨f, List.mem_append_left _ hf, h'⟩
    · exact Or.inr ⟨(u, w, q), by simp, x, by rw [adj_eq hN]; exact hx, e1, e2⟩
  · intro o1 e o2 ho
    rcases List.eq_nil_or_concat o2 with rfl | ⟨o2', b, rfl⟩
    · obtain ⟨e1, e2⟩ := List.append_inj' ho rfl
      simp only [List.cons.injEq, and_true] at e2
      subst e1 e2
      exact h.heap _ hin
    · have ho' : out ++ [(u, w, q)] = (o1 ++ e :: o2') ++ [b] := by rw [ho]; simp
      exact h.tree o1 e o2' (List.append_inj' ho' rfl).1

theorem iterator_main {g : Graph V W} (hg : Good g) (hA : ∀ u v x, adj g u v = some x → 0 ≤ x) (s : V) :
    ∀ (k m : ℕ) (D : Dict V (WithTop W)) (H : List (W × V × List V)) (vis : Finset V) (out : List (V × W × List V)),
      ItInv g s D H vis out → g.length ≤ k + vis.card → H.length ≤ m →
      ∃ r D' vis', iteratorLoop g D H vis = some (.ok r) ∧ ItInv g s D' [] vis' (out ++ r) := by
  intro k
  induction k with
  | zero =>
    intro m
    induction m with
    | zero =>
      intro D H vis out h _ hm
      obtain rfl : H = [] := List.eq_nil_of_length_eq_zero (by omega)
      exact ⟨[], D, vis, by rw [iteratorLoop.eq_def]; rfl, by rw [List.append_nil]; exact h⟩
    | succ m ih =>
      intro D H vis out h hk hm
      rw [iteratorLoop.eq_def]
      cases hp : popMin key3 H with
      | none =>
        rw [popMin_none] at hp
        subst hp
        exact ⟨[], D, vis, rfl, by rw [List.append_nil]; exact h⟩
      | some e =>
        obtain ⟨⟨w, u, q⟩, H'⟩ := e
        obtain ⟨p1, p2⟩ := popMin_some key3 hp
        have hl := p1.length_eq
        rw [List.length_cons] at hl
        have hu : u ∈ vis := by
          by_contra hu
          have := card_lt h.mem (h.hmem (w, u, q) (p1.mem_iff.2 List.mem_cons_self)) hu
          omega
        dsimp only
        rw [if_pos hu]
        exact ih D H' vis out (h.skip p1 hu) hk (by omega)
  | succ k ihk =>
    intro m
    induction m with
    | zero =>
      intro D H vis out h _ hm
      obtain rfl : H = [] := List.eq_nil_of_length_eq_zero (by omega)
      exact ⟨[], D, vis, by rw [iteratorLoop.eq_def]; rfl, by rw [List.append_nil]; exact h⟩
    | succ m ih =>
      intro D H vis out h hk hm
      rw [iteratorLoop.eq_def]
      cases hp : popMin key3 H with
      | none =>
        rw [popMin_none] at hp
        subst hp
        exact ⟨[], D, vis, rfl, by rw [List.append_nil]; exact h⟩
      | some e =>
        obtain ⟨⟨w, u, q⟩, H'⟩ := e
        obtain ⟨p1, p2⟩ := popMin_some key3 hp
        have hl := p1.length_eq
        rw [List.length_cons] at hl
        dsimp only
        by_cases hu : u ∈ vis
        · rw [if_pos hu]
          exact ih D H' vis out (h.skip p1 hu) hk (by omega)
        · rw [if_neg hu]
          obtain ⟨N, hN⟩ := mem_iff.1 (h.hmem (w, u, q) (p1.mem_iff.2 List.mem_cons_self))
          dsimp only at hN
          obtain ⟨D', H'', h1, h2⟩ := h.visit hg hA p1 p2 hu hN
          rw [hN]
          dsimp only
          rw [h1]
          dsimp only
          obtain ⟨r, D'', vis', r1, r2⟩ := ihk H''.length D' H'' _ _ h2 (by rw [Finset.card_insert_of_notMem hu]; omega) (le_refl _)
          refine ⟨(u, w, q) :: r, D'', vis', ?_, by rw [List.append_assoc] at r2; exact r2⟩
          rw [r1]
          rfl

theorem iterator_spec {g : Graph V W} (hg : Good g) (hA : ∀ u v x, adj g u v = some x → 0 ≤ x) {s : V} (hs : Mem g s) :
    ∃ l D vis, dijkstraIterator g s = some (.ok l) ∧ ItInv g s D [] vis l := by
  rw [dijkstraIterator, if_neg (fun h : s ∉ Dict.keys g => h hs)]
  have kD : Dict.keys (g.map (fun e => (e.1, (⊤ : WithTop W)))) = Dict.keys g := keys_mapVal (fun _ => (⊤ : WithTop W)) g
  have h0 : ItInv g s (Dict.set (g.map (fun e => (e.1, ⊤))) s ((0 : W) : WithTop W)) [(0, s, [s])] ∅ [] := by
    refine ⟨?_, ?_, by simp, ?_, by simp, List.nodup_nil, by simp, List.Pairwise.nil, ?_, ?_⟩
    · rw [Dict.keys_set, kD]
      exact if_pos hs
    · refine core_init s _ ⟨[s], by simp⟩ (fun w v hv => ?_)
      obtain ⟨p, hv⟩ := hv
      rw [List.mem_singleton, Prod.mk.injEq, Prod.mk.injEq] at hv; exact ⟨hv.1, hv.2.1⟩
    · intro e he
      rw [List.mem_singleton] at he
      subst he; exact hs
    · intro e he
      rw [List.mem_singleton] at he
      subst he; exact Or.inl ⟨rfl, rfl, rfl⟩
    · intro o1 e o2 ho; simp at ho
  obtain ⟨r, D, vis, h1, h2⟩ := iterator_main hg hA s g.length 1 _ _ _ _ h0 (by simp) (le_refl _)
  exact ⟨r, D, vis, h1, h2⟩

/-! ### What the generator yields -/

theorem ItInv.shortest {g : Graph V W} {s : V} {D : Dict V (WithTop W)} {vis : Finset V} {l : List (V × W × List V)}
    (h : ItInv g s D [] vis l) {e : V × W × List V} (he : e ∈ l) : IsShortest (adj g) s e.1 e.2.1 :=
  (h.core.final (by simp) e.1).1 e.2.1 (h.val e he)

theorem ItInv.reached {g : Graph V W} {s : V} {D : Dict V (WithTop W)} {vis : Finset V} {l : List (V × W × List V)}
    (h : ItInv g s D [] vis l) {p : List V} {v : V} {c : W} (hp : WalkOf (adj g) s p v c) : ∃ e ∈ l, e.1 = v := by
  have h1 : D ≠ D ∨ dg D v ≠ ⊤ := Or.inr (fun ht => (h.core.final (by simp) v).2 ht p c hp)
  rcases h1 with h1 | h1
  · exact absurd rfl h1
  obtain ⟨d, hd⟩ := WithTop.ne_top_iff_exists.1 h1
  have hv : v ∈ vis := by
    by_contra hv
    obtain ⟨q, hq⟩ := h.core.has v d hv hd.symm
    simp at hq
  rw [h.visout] at hv
  obtain ⟨e, he, rfl⟩ := List.mem_map.1 hv
  exact ⟨e, he, rfl⟩

theorem ItInv.path {g : Graph V W} {s : V} {D : Dict V (WithTop W)} {vis : Finset V} {l : List (V × W × List V)}
    (h : ItInv g s D [] vis l) : ∀ (n : ℕ) (o1 : List (V × W × List V)) e o2, l = o1 ++ e :: o2 → o1.length ≤ n →
      WalkOf (adj g) s e.2.2 e.1 e.2.1 := by
  intro n
  induction n with
  | zero =>
    intro o1 e o2 ho hn
    obtain rfl : o1 = [] := List.eq_nil_of_length_eq_zero (by omega)
    rcases h.tree [] e o2 ho with ⟨h1, h2, h3⟩ | ⟨f, hf, -⟩
    · rw [h1, h2, h3]; exact WalkOf.start
    · simp at hf
  | succ n ih =>
    intro o1 e o2 ho hn
    rcases h.tree o1 e o2 ho with ⟨h1, h2, h3⟩ | ⟨f, hf, x, h1, h2, h3⟩
    · rw [h1, h2, h3]; exact WalkOf.start
    · obtain ⟨a, b, e1⟩ := List.append_of_mem hf
      rw [h2, h3]
      refine WalkOf.step (ih a f (b ++ e :: o2) (by rw [ho, e1]; simp) ?_) h1
      rw [e1, List.length_append, List.length_cons] at hn
      omega

theorem ItInv.path' {g : Graph V W} {s : V} {D : Dict V (WithTop W)} {vis : Finset V} {l : List (V × W × List V)}
    (h : ItInv g s D [] vis l) {e : V × W × List V} (he : e ∈ l) : WalkOf (adj g) s e.2.2 e.1 e.2.1 := by
  obtain ⟨a, b, e1⟩ := List.append_of_mem he
  exact h.path a.length a e b e1 (le_refl _)

end Rosemary.Paths
