import Verif.Lemmas.Paths
import Verif.Lemmas.PairingHeapOps
import Mathlib.Algebra.Order.Ring.Int

/-!
# Lemmas on `dijkstra_buckets` and `dijkstra_pairing_heap`
-/

namespace Rosemary.Paths

open Graph Spec

variable {V W : Type} [LinearOrder V] [Add W] [Zero W] [LinearOrder W]

section general

variable [PathAdd W]

/-- What holds between the rounds; `InH w v` says that `v` waits with the priority `w`. -/
structure DjInv2 (A : V → V → Option W) (s : V) (D : Dict V (WithTop W)) (P : Dict V (Option V)) (vis : Finset V)
    (InH : W → V → Prop) : Prop where
  core : Core A s (dg D) vis InH
  mem : ∀ u ∈ vis, u ∈ Dict.keys D
  hmem : ∀ w v, InH w v → v ∈ Dict.keys D
  root : Dict.get? P s = some none
  link : ∀ v (c : W), dg D v = c → ∃ p, LinkPath (Dict.get? P) s p v ∧ WalkOf A s p v c ∧ ∀ y ∈ p, y = v ∨ y ∈ vis
  nolink : ∀ v, dg D v = ⊤ → Dict.get? P v = none

theorem DjInv2.visit {A : V → V → Option W} {s : V} {D D' : Dict V (WithTop W)} {P P' : Dict V (Option V)} {vis : Finset V}
    {InH InH' : W → V → Prop} (h : DjInv2 A s D P vis InH) (hA : ∀ u v x, A u v = some x → 0 ≤ x) {w : W} {u : V}
    (hu : u ∉ vis) (hin : InH w u) (hmin : ∀ w' v', InH w' v' → w ≤ w') (hkA : ∀ v x, A u v = some x → v ∈ Dict.keys D)
    (h2 : Dict.keys D' = Dict.keys D)
    (h4 : ∀ v x, A u v = some x → ((w + x : W) : WithTop W) < dg D v →
      dg D' v = ((w + x : W) : WithTop W) ∧ Dict.get? P' v = some (some u))
    (h5 : ∀ v, (∀ x, A u v = some x → ¬ ((w + x : W) : WithTop W) < dg D v) →
      dg D' v = dg D v ∧ Dict.get? P' v = Dict.get? P v)
    (hH1 : ∀ w' v', InH w' v' → dg D' v' = dg D v' → (w' = w ∧ v' = u) ∨ InH' w' v')
    (hH2 : ∀ w' v', InH' w' v' → InH w' v' ∨ ∃ x, A u v' = some x ∧ w' = w + x)
    (hH3 : ∀ v x, A u v = some x → ((w + x : W) : WithTop W) < dg D v → InH' (w + x) v) :
    DjInv2 A s D' P' (insert u vis) InH' := by
  have hDu := h.core.top_eq hu hin hmin
  have hfresh := fun v x => h.core.fresh hA hu hin hmin (v := v) (x := x)
  have hcore : Core A s (dg D') (insert u vis) InH' := by
    refine h.core.visit hA hu hin hmin (fun v => ?_) (fun v x hx => ?_) hH1 hH2 hH3
    · by_cases hup : ∃ x, A u v = some x ∧ ((w + x : W) : WithTop W) < dg D v
      · obtain ⟨x, hx, hlt⟩ := hup
        exact Or.inr ⟨x, hx, (h4 v x hx hlt).1, hlt⟩
      · exact Or.inl (h5 v (fun x hx hlt => hup ⟨x, hx, hlt⟩)).1
    · by_cases hlt : ((w + x : W) : WithTop W) < dg D v
      · rw [(h4 v x hx hlt).1]
      · rw [(h5 v (fun y hy hlt' => by
          rw [hx] at hy; injection hy with hy; subst hy; exact hlt hlt')).1]
        exact not_lt.1 hlt
  have hkeep : ∀ y ∈ insert u vis, Dict.get? P' y = Dict.get? P y ∧ dg D' y = dg D y := by
    intro y hy
    have := h5 y (fun x hx hlt => by
      have := hfresh y x hx hlt
      rcases Finset.mem_insert.1 hy with h' | h'
      · exact this.2 h'
      · exact this.1 h')
    exact ⟨this.2, this.1⟩
  have hkeep2 : ∀ v, (∀ x, A u v = some x → ¬ ((w + x : W) : WithTop W) < dg D v) → ∀ c : W, dg D v = c →
      ∃ p, LinkPath (Dict.get? P') s p v ∧ WalkOf A s p v c ∧ ∀ y ∈ p, y = v ∨ y ∈ insert u vis := by
    intro v hv c hc
    obtain ⟨p, k1, k2, k3⟩ := h.link v c hc
    refine ⟨p, LinkPath.congr k1 (fun y hy => ?_), k2, fun y hy => (k3 y hy).imp id (Finset.mem_insert_of_mem)⟩
    rcases k3 y hy with rfl | hy'
    · exact (h5 y hv).2
    · exact (hkeep y (Finset.mem_insert_of_mem hy')).1
  have hnou : ∀ x, A u u = some x → ¬ ((w + x : W) : WithTop W) < dg D u := by
    intro x hx hlt
    exact (hfresh u x hx hlt).2 rfl
  refine ⟨hcore, ?_, ?_, ?_, ?_, ?_⟩
  · intro y hy
    rw [h2]
    rcases Finset.mem_insert.1 hy with rfl | hy
    · exact h.hmem _ _ hin
    · exact h.mem y hy
  · intro w' v' he
    rw [h2]
    rcases hH2 w' v' he with he | ⟨x, hx, -⟩
    · exact h.hmem _ _ he
    · exact hkA v' x hx
  · rw [(h5 s (fun x hx hlt => ?_)).2, h.root]
    rw [h.core.start, WithTop.coe_lt_coe] at hlt
    obtain ⟨p, hp'⟩ := h.core.walk u w hDu
    exact absurd hlt (not_lt.2 (PathAdd.nonneg (walk_nonneg hA hp') (hA u s x hx)))
  · intro v c hc
    by_cases hup : ∃ x, A u v = some x ∧ ((w + x : W) : WithTop W) < dg D v
    · obtain ⟨x, hx, hlt⟩ := hup
      obtain ⟨e1, e2⟩ := h4 v x hx hlt
      rw [e1, WithTop.coe_inj] at hc
      obtain ⟨p, k1, k2, k3⟩ := hkeep2 u hnou w hDu
      refine ⟨p ++ [v], LinkPath.step k1 e2, hc ▸ WalkOf.step k2 hx, fun y hy => ?_⟩
      rcases List.mem_append.1 hy with hy | hy
      · rcases k3 y hy with rfl | hy'
        · exact Or.inr (Finset.mem_insert_self _ _)
        · exact Or.inr hy'
      · exact Or.inl (List.mem_singleton.1 hy)
    · have hv : ∀ x, A u v = some x → ¬ ((w + x : W) : WithTop W) < dg D v := fun x hx hlt => hup ⟨x, hx, hlt⟩
      rw [(h5 v hv).1] at hc
      exact hkeep2 v hv c hc
  · intro v hv
    by_cases hup : ∃ x, A u v = some x ∧ ((w + x : W) : WithTop W) < dg D v
    · obtain ⟨x, hx, hlt⟩ := hup
      rw [(h4 v x hx hlt).1] at hv
      exact absurd hv WithTop.coe_ne_top
    · have hv' : ∀ x, A u v = some x → ¬ ((w + x : W) : WithTop W) < dg D v := fun x hx hlt => hup ⟨x, hx, hlt⟩
      obtain ⟨k1, k2⟩ := h5 v hv'
      rw [k2]
      exact h.nolink v (k1 ▸ hv)

theorem DjInv2.init {W' : Type} {g : Graph V W'} (A : V → V → Option W) {s : V} (hs : s ∈ Dict.keys g) (InH : W → V → Prop)
    (h1 : InH 0 s) (h2 : ∀ w v, InH w v → w = 0 ∧ v = s) :
    Dict.keys (Dict.set (g.map (fun e => (e.1, (⊤ : WithTop W)))) s ((0 : W) : WithTop W)) = Dict.keys g ∧
    DjInv2 A s (Dict.set (g.map (fun e => (e.1, (⊤ : WithTop W)))) s ((0 : W) : WithTop W)) [(s, none)] ∅ InH := by
  have kD : Dict.keys (g.map (fun e => (e.1, (⊤ : WithTop W)))) = Dict.keys g := keys_mapVal (fun _ => (⊤ : WithTop W)) g
  have kD' : Dict.keys (Dict.set (g.map (fun e => (e.1, (⊤ : WithTop W)))) s ((0 : W) : WithTop W)) = Dict.keys g := by
    rw [Dict.keys_set, kD, if_pos hs]
  have dgi : ∀ v, dg (Dict.set (g.map (fun e => (e.1, (⊤ : WithTop W)))) s ((0 : W) : WithTop W)) v =
      if s = v then ((0 : W) : WithTop W) else ⊤ := by
    intro v
    rw [dg_set, dg, get?_mapVal (fun _ => (⊤ : WithTop W))]
    cases Dict.get? g v <;> rfl
  have hz : ∀ v (c : W), dg (Dict.set (g.map (fun e => (e.1, (⊤ : WithTop W)))) s ((0 : W) : WithTop W)) v = c → v = s ∧ c = 0 := by
    intro v c hc
    rw [dgi] at hc
    split_ifs at hc with hs
    · exact ⟨hs.symm, (WithTop.coe_inj.1 hc).symm⟩
    · exact absurd hc.symm WithTop.coe_ne_top
  refine ⟨kD', ⟨⟨by rw [dgi, if_pos rfl], fun v c hc => ?_, fun w v hv => ?_, fun v c _ hc => ?_, fun u hu => by simp at hu,
    fun u hu => by simp at hu⟩, by simp, fun w v hv => ?_, by simp [Dict.get?], fun v c hc => ?_, fun v hv => ?_⟩⟩
  · obtain ⟨rfl, rfl⟩ := hz v c hc
    exact ⟨[v], WalkOf.start⟩
  · obtain ⟨rfl, rfl⟩ := h2 w v hv
    rw [dgi, if_pos rfl]
  · obtain ⟨rfl, rfl⟩ := hz v c hc
    exact h1
  · obtain ⟨rfl, rfl⟩ := h2 w v hv
    rw [kD']; exact hs
  · obtain ⟨rfl, rfl⟩ := hz v c hc
    exact ⟨[v], LinkPath.root (by simp [Dict.get?]), WalkOf.start, by simp⟩
  · rw [dgi] at hv
    split_ifs at hv with hs
    · exact absurd hv WithTop.coe_ne_top
    · rw [Dict.get?, if_neg hs]; rfl

end general

/-! ### `dijkstra_pairing_heap` -/

open PairingHeap (Heap listElements)

theorem relaxHeap_spec (w : W) (u : V) (N : Dict V W) (hN : Dict.WF N) (D : Dict V (WithTop W)) (P : Dict V (Option V))
    (H : Heap W V) (hD : ∀ v ∈ Dict.keys N, v ∈ Dict.keys D) (hI : PairingHeap.Inv H)
    (hk : ∀ e ∈ listElements H, dg D e.2 = (e.1 : WithTop W)) :
    ∃ D' P' H', relaxHeap w u N D P H = .ok (D', P', H') ∧ Dict.keys D' = Dict.keys D ∧ PairingHeap.Inv H' ∧
      (∀ e ∈ listElements H', dg D' e.2 = (e.1 : WithTop W)) ∧
      (∀ v x, Dict.get? N v = some x → ((w + x : W) : WithTop W) < dg D v →
        dg D' v = ((w + x : W) : WithTop W) ∧ Dict.get? P' v = some (some u)) ∧
      (∀ v, (∀ x, Dict.get? N v = some x → ¬ ((w + x : W) : WithTop W) < dg D v) →
        dg D' v = dg D v ∧ Dict.get? P' v = Dict.get? P v) ∧
      ∀ v, v ∈ (listElements H').map Prod.snd ↔ v ∈ (listElements H).map Prod.snd ∨
        ∃ x, Dict.get? N v = some x ∧ ((w + x : W) : WithTop W) < dg D v := by
  induction N generalizing D P H with
  | nil =>
    exact ⟨D, P, H, rfl, rfl, hI, hk, fun v x h => by simp [Dict.get?] at h, fun v _ => ⟨rfl, rfl⟩, fun v => by simp [Dict.get?]⟩
  | cons e N ih =>
    obtain ⟨a, y⟩ := e
    obtain ⟨haN, hN'⟩ : a ∉ Dict.keys N ∧ Dict.WF N := List.nodup_cons.1 hN
    have haD : a ∈ Dict.keys D := hD a List.mem_cons_self
    obtain ⟨dv, hdv⟩ := Dict.get?_isSome.2 haD
    have hdg : dg D a = dv := by rw [dg, hdv]; rfl
    have hget : ∀ v, Dict.get? ((a, y) :: N) v = if a = v then some y else Dict.get? N v := fun v => rfl
    have hna : Dict.get? N a = none := Dict.get?_eq_none.2 haN
    have hav : ∀ v x, Dict.get? N v = some x → a ≠ v := by
      rintro v x hx rfl
      rw [hna] at hx; simp at hx
    rw [relaxHeap, hdv]
    dsimp only
    by_cases hc : ((w + y : W) : WithTop W) < dv
    · rw [if_pos hc]
      have hk1 : Dict.keys (Dict.set D a ((w + y : W) : WithTop W)) = Dict.keys D := by rw [Dict.keys_set, if_pos haD]
      -- both ways of changing the heap
      have step : ∀ H1 : Heap W V, PairingHeap.Inv H1 → (∀ e ∈ listElements H1, e = (w + y, a) ∨ e ∈ listElements H ∧ e.2 ≠ a) →
          (∀ v, v ∈ (listElements H1).map Prod.snd ↔ v ∈ (listElements H).map Prod.snd ∨ v = a) →
          ∃ D' P' H', relaxHeap w u N (Dict.set D a ((w + y : W) : WithTop W)) (Dict.set P a (some u)) H1 = .ok (D', P', H') ∧
            Dict.keys D' = Dict.keys D ∧ PairingHeap.Inv H' ∧
            (∀ e ∈ listElements H', dg D' e.2 = (e.1 : WithTop W)) ∧
            (∀ v x, Dict.get? ((a, y) :: N) v = some x → ((w + x : W) : WithTop W) < dg D v →
              dg D' v = ((w + x : W) : WithTop W) ∧ Dict.get? P' v = some (some u)) ∧
            (∀ v, (∀ x, Dict.get? ((a, y) :: N) v = some x → ¬ ((w + x : W) : WithTop W) < dg D v) →
              dg D' v = dg D v ∧ Dict.get? P' v = Dict.get? P v) ∧
            ∀ v, v ∈ (listElements H').map Prod.snd ↔ v ∈ (listElements H).map Prod.snd ∨
              ∃ x, Dict.get? ((a, y) :: N) v = some x ∧ ((w + x : W) : WithTop W) < dg D v := by
        intro H1 i1 i2 i3
        obtain ⟨D', P', H', h1, h2, h3, h4, h5, h6, h7⟩ := ih hN' (Dict.set D a ((w + y : W) : WithTop W))
          (Dict.set P a (some u)) H1 (fun v hv => by rw [hk1]; exact hD v (List.mem_cons_of_mem _ hv)) i1 (by
            intro e he
            rw [dg_set]
            rcases i2 e he with rfl | ⟨he, hne⟩
            · rw [if_pos rfl]
            · rw [if_neg (Ne.symm hne)]; exact hk e he)
        rw [hk1] at h2
        refine ⟨D', P', H', h1, h2, h3, h4, fun v x hx hlt => ?_, fun v hv => ?_, fun v => ?_⟩
        · rw [hget] at hx
          split_ifs at hx with hav'
          · injection hx with hx
            subst hx hav'
            obtain ⟨k1, k2⟩ := h6 a (fun x hx => by rw [hna] at hx; simp at hx)
            refine ⟨?_, ?_⟩
            · rw [k1, dg_set, if_pos rfl]
            · rw [k2, Dict.get?_set, if_pos rfl]
          · exact h5 v x hx (by rw [dg_set, if_neg hav']; exact hlt)
        · have hne : a ≠ v := by
            rintro rfl
            exact hv y (by rw [hget, if_pos rfl]) (by rw [hdg]; exact hc)
          obtain ⟨k1, k2⟩ := h6 v (fun x hx => by
            rw [dg_set, if_neg hne]
            exact hv x (by rw [hget, if_neg hne]; exact hx))
          rw [k1, k2, dg_set, if_neg hne, Dict.get?_set, if_neg hne]
          exact ⟨rfl, rfl⟩
        · rw [h7, i3]
          by_cases hv : a = v
          · subst hv
            constructor
            · intro _; exact Or.inr ⟨y, by rw [hget, if_pos rfl], by rw [hdg]; exact hc⟩
            · intro _; exact Or.inl (Or.inr rfl)
          · have : v ≠ a := fun e => hv e.symm
            simp only [this, or_false, hget, if_neg hv, dg_set]
      by_cases hm : a ∈ Dict.keys H.lookup
      · rw [if_pos hm]
        have hm' := hm
        rw [← PairingHeap.values_eq] at hm'
        obtain ⟨⟨k0, a'⟩, he, rfl⟩ := List.mem_map.1 hm'
        have hk0 : dv = (k0 : WithTop W) := by rw [← hdg]; exact hk _ he
        have hle : w + y ≤ k0 := by
          rw [hk0, WithTop.coe_lt_coe] at hc; exact hc.le
        obtain ⟨H1, j1, j2, j3⟩ := PairingHeap.decreaseKey_spec hI a' (w + y) k0 he hle
        dsimp only
        rw [j1]
        refine step H1 j2 (fun e he' => ?_) (fun v => ?_)
        · rw [j3] at he'
          obtain ⟨f, hf, rfl⟩ := List.mem_map.1 he'
          by_cases hfa : f.2 = a'
          · rw [if_pos hfa]; exact Or.inl rfl
          · rw [if_neg hfa]; exact Or.inr ⟨hf, hfa⟩
        · rw [j3, List.map_map]
          have : ((Prod.snd : W × V → V) ∘ fun e : W × V => if e.2 = a' then (w + y, a') else e) = Prod.snd := by
            funext e
            simp only [Function.comp]
            split_ifs with h
            · exact h.symm
            · rfl
          rw [this]
          constructor
          · exact Or.inl
          · rintro (h | rfl)
            · exact h
            · exact hm'
      · rw [if_neg hm]
        obtain ⟨j1, j2⟩ := PairingHeap.insert_spec hI (w + y) a hm
        rw [← PairingHeap.values_eq] at hm
        refine step _ j1 (fun e he' => ?_) (fun v => ?_)
        · rw [j2, List.mem_append, List.mem_singleton] at he'
          rcases he' with he' | he'
          · exact Or.inr ⟨he', fun h => hm (h ▸ List.mem_map_of_mem he')⟩
          · exact Or.inl he'
        · rw [j2, List.map_append, List.mem_append]
          simp
    · rw [if_neg hc]
      obtain ⟨D', P', H', h1, h2, h3, h4, h5, h6, h7⟩ := ih hN' D P H (fun v hv => hD v (List.mem_cons_of_mem _ hv)) hI hk
      refine ⟨D', P', H', h1, h2, h3, h4, fun v x hx hlt => ?_, fun v hv => ?_, fun v => ?_⟩
      · rw [hget] at hx
        split_ifs at hx with hav'
        · injection hx with hx
          subst hx hav'
          rw [hdg] at hlt
          exact absurd hlt hc
        · exact h5 v x hx hlt
      · refine h6 v (fun x hx => hv x ?_)
        rw [hget, if_neg (hav v x hx)]; exact hx
      · rw [h7]
        refine or_congr Iff.rfl ⟨?_, ?_⟩
        · rintro ⟨x, hx, hlt⟩
          exact ⟨x, by rw [hget, if_neg (hav v x hx)]; exact hx, hlt⟩
        · rintro ⟨x, hx, hlt⟩
          rw [hget] at hx
          split_ifs at hx with hav'
          · injection hx with hx
            subst hx hav'
            rw [hdg] at hlt
            exact absurd hlt hc
          · exact ⟨x, hx, hlt⟩

variable [PathAdd W]

theorem heapLoop_main {g : Graph V W} (hg : Good g) (hA : ∀ u v x, adj g u v = some x → 0 ≤ x) (s : V) :
    ∀ (k : ℕ) (D : Dict V (WithTop W)) (P : Dict V (Option V)) (H : Heap W V) (vis : Finset V),
      DjInv2 (adj g) s D P vis (fun w v => (w, v) ∈ listElements H) → Dict.keys D = Dict.keys g → PairingHeap.Inv H →
      (∀ e ∈ listElements H, dg D e.2 = (e.1 : WithTop W)) → (∀ e ∈ listElements H, e.2 ∉ vis) → g.length < k + vis.card →
      ∃ D' P' vis', heapLoop g D P H = some (.ok (D', P')) ∧ Dict.keys D' = Dict.keys g ∧
        DjInv2 (adj g) s D' P' vis' (fun _ _ => False) := by
  intro k
  induction k with
  | zero =>
    intro D P H vis h hkD _ _ _ hk
    exfalso
    have h1 : vis ⊆ (Dict.keys g).toFinset := fun x hx => List.mem_toFinset.2 (hkD ▸ h.mem x hx)
    have h2 := Finset.card_le_card h1
    have h3 := List.toFinset_card_le (Dict.keys g)
    have h4 : (Dict.keys g).length = g.length := by rw [Dict.keys, List.length_map]
    omega
  | succ k ih =>
    intro D P H vis h hkD hI hkey hvis hk
    rw [heapLoop.eq_def]
    rcases PairingHeap.deleteMin_spec hI with ⟨d1, d2⟩ | ⟨H', w, u, d1, d2, d3, d4, d5⟩
    · rw [d2]
      refine ⟨D, P, vis, rfl, hkD, ?_⟩
      have he : (fun (w : W) (v : V) => (w, v) ∈ listElements H) = fun _ _ => False := by
        funext w v
        rw [d1]; simp
      rw [he] at h
      exact h
    · rw [d1]
      have hu := hvis _ d3
      have hmin : ∀ w' v', (w', v') ∈ listElements H → w ≤ w' := fun w' v' hv => d4 _ hv
      have hum : u ∈ Dict.keys g := hkD ▸ h.hmem w u d3
      obtain ⟨N, hN⟩ := Dict.get?_isSome.2 hum
      have hkN : ∀ v ∈ Dict.keys N, v ∈ Dict.keys D := by
        intro v hv
        rw [hkD]
        obtain ⟨x, hx⟩ := Dict.get?_isSome.2 hv
        exact hg.mem_right (u := u) (w := x) (by rw [adj_eq hN]; exact hx)
      have hsub : ∀ e ∈ listElements H', e ∈ listElements H ∧ e.2 ≠ u := by
        intro e he
        rw [d5, List.mem_filter] at he
        exact ⟨he.1, by simpa using he.2⟩
      obtain ⟨D', P', H'', r1, r2, r3, r4, r5, r6, r7⟩ := relaxHeap_spec w u N (hg.inner u N hN) D P H' hkN d2
        (fun e he => hkey e (hsub e he).1)
      have hDu := h.core.top_eq hu d3 hmin
      have hfresh := fun v x => h.core.fresh hA hu d3 hmin (v := v) (x := x)
      show ∃ D'_1 P'_1 vis', (match Dict.get? g u with
        | none => some (.error .keyError)
        | some N => match relaxHeap w u N D P H' with
          | .error e => some (.error e)
          | .ok (D, P, H) => heapLoop g D P H) = some (.ok (D'_1, P'_1)) ∧ _
      rw [hN]
      dsimp only
      rw [r1]
      dsimp only
      have hval : ∀ v, v ∈ (listElements H').map Prod.snd ↔ v ∈ (listElements H).map Prod.snd ∧ v ≠ u := by
        intro v
        rw [d5, List.mem_map, List.mem_map]
        constructor
        · rintro ⟨e, he, rfl⟩
          rw [List.mem_filter] at he
          exact ⟨⟨e, he.1, rfl⟩, by simpa using he.2⟩
        · rintro ⟨⟨e, he, rfl⟩, hne⟩
          exact ⟨e, List.mem_filter.2 ⟨he, by simpa using hne⟩, rfl⟩
      refine ih D' P' H'' (insert u vis) ?_ (r2.trans hkD) r3 r4 ?_ (by rw [Finset.card_insert_of_notMem hu]; omega)
      · refine h.visit hA hu d3 hmin ?_ r2 ?_ ?_ ?_ ?_ ?_
        · intro v x hx
          rw [adj_eq hN] at hx
          exact hkN v (Dict.get?_isSome.1 ⟨x, hx⟩)
        · intro v x hx; rw [adj_eq hN] at hx; exact r5 v x hx
        · intro v hv; exact r6 v (fun x hx => hv x (by rw [adj_eq hN]; exact hx))
        · intro w' v' hv hsame
          by_cases hvu : v' = u
          · left
            subst hvu
            have := hkey _ hv
            rw [hDu, WithTop.coe_inj] at this
            exact ⟨this.symm, rfl⟩
          · right
            have h1 : v' ∈ (listElements H'').map Prod.snd :=
              (r7 v').2 (Or.inl ((hval v').2 ⟨List.mem_map.2 ⟨_, hv, rfl⟩, hvu⟩))
            obtain ⟨⟨k', v''⟩, he, rfl⟩ := List.mem_map.1 h1
            have e1 := r4 _ he
            have e2 := hkey _ hv
            dsimp only at e1 e2 hsame ⊢
            rw [hsame, e2, WithTop.coe_inj] at e1
            rw [e1]; exact he
        · intro w' v' hv
          have e1 := r4 _ hv
          dsimp only at e1
          by_cases hup : ∃ x, Dict.get? N v' = some x ∧ ((w + x : W) : WithTop W) < dg D v'
          · obtain ⟨x, hx, hlt⟩ := hup
            rw [(r5 v' x hx hlt).1, WithTop.coe_inj] at e1
            exact Or.inr ⟨x, by rw [adj_eq hN]; exact hx, e1.symm⟩
          · left
            rcases (r7 v').1 (List.mem_map.2 ⟨_, hv, rfl⟩) with hm | hm
            · obtain ⟨⟨k', v''⟩, he, rfl⟩ := List.mem_map.1 ((hval v').1 hm).1
              have e2 := hkey _ he
              rw [(r6 v'' (fun x hx hlt => hup ⟨x, hx, hlt⟩)).1, e2, WithTop.coe_inj] at e1
              dsimp only at e1
              rw [← e1]; exact he
            · exact absurd hm hup
        · intro v x hx hlt
          rw [adj_eq hN] at hx
          obtain ⟨⟨k', v''⟩, he, rfl⟩ := List.mem_map.1 ((r7 v).2 (Or.inr ⟨x, hx, hlt⟩))
          have e1 := r4 _ he
          dsimp only at e1 hx hlt ⊢
          rw [(r5 v'' x hx hlt).1, WithTop.coe_inj] at e1
          rw [e1]; exact he
      · intro e he hc
        have hm := (r7 e.2).1 (List.mem_map_of_mem he)
        rcases hm with hm | ⟨x, hx, hlt⟩
        · obtain ⟨hm1, hm2⟩ := (hval e.2).1 hm
          rcases Finset.mem_insert.1 hc with hc | hc
          · exact hm2 hc
          · obtain ⟨f, hf, hfe⟩ := List.mem_map.1 hm1
            exact hvis f hf (hfe ▸ hc)
        · have := hfresh e.2 x (by rw [adj_eq hN]; exact hx) hlt
          rcases Finset.mem_insert.1 hc with hc | hc
          · exact this.2 hc
          · exact this.1 hc

theorem dijkstraPairingHeap_spec {g : Graph V W} (hg : Good g) (hA : ∀ u v x, adj g u v = some x → 0 ≤ x) {s : V}
    (hs : s ∈ Dict.keys g) :
    ∃ D P vis, dijkstraPairingHeap g s = some (.ok (D, P)) ∧ Dict.keys D = Dict.keys g ∧
      DjInv2 (adj g) s D P vis (fun _ _ => False) := by
  rw [dijkstraPairingHeap, if_neg (fun h => h hs)]
  letI : Inhabited W := ⟨0⟩
  letI : Inhabited V := ⟨s⟩
  obtain ⟨i1, i2⟩ := PairingHeap.insert_spec (PairingHeap.inv_new (κ := W) (ν := V)) 0 s (by simp [PairingHeap.new, Dict.keys])
  have i3 : listElements (PairingHeap.insert (PairingHeap.new : Heap W V) 0 s) = [(0, s)] := i2
  obtain ⟨k1, k2⟩ := DjInv2.init (g := g) (adj g) hs
    (fun w v => (w, v) ∈ listElements (PairingHeap.insert (PairingHeap.new : Heap W V) 0 s)) (by rw [i3]; simp)
    (fun w v hv => by rw [i3] at hv; simpa using hv)
  exact heapLoop_main hg hA s (g.length + 1) _ _ _ ∅ k2 k1 i1
    (by intro e he
        rw [i3, List.mem_singleton] at he
        subst he
        exact k2.core.start) (by simp) (by simp)

/-! ### `dijkstra_buckets` -/

section buckets

variable {V W : Type} [LinearOrder V]

/-- The bucket of the weight `w`. -/
def bl (B : Dict ℤ (List V)) (w : ℤ) : List V := (Dict.get? B w).getD []

/-- The vertices that wait when the position in the bucket `w` is `i`. -/
def InB (B : Dict ℤ (List V)) (w : ℤ) (i : ℕ) (w' : ℤ) (v : V) : Prop :=
  v ∈ (if w' = w then (bl B w').drop i else bl B w')

omit [LinearOrder V] in
theorem bl_set (B : Dict ℤ (List V)) (w w' : ℤ) (l : List V) : bl (Dict.set B w l) w' = if w = w' then l else bl B w' := by
  rw [bl, Dict.get?_set]
  split_ifs <;> rfl

theorem relaxBuckets_spec (asInt : W → Option ℤ) (w : ℤ) (u : V) (N : Dict V W) (hN : Dict.WF N) (D : Dict V (WithTop ℤ))
    (P : Dict V (Option V)) (B : Dict ℤ (List V)) (hD : ∀ v ∈ Dict.keys N, v ∈ Dict.keys D) (hB : Dict.WF B) :
    (relaxBuckets asInt w u N D P B = .error .valueError ∧ ∃ v x, Dict.get? N v = some x ∧ asInt x = none) ∨
    ∃ D' P' B', relaxBuckets asInt w u N D P B = .ok (D', P', B') ∧ Dict.keys D' = Dict.keys D ∧ Dict.WF B' ∧
      (∀ v x, Dict.get? N v = some x → asInt x ≠ none) ∧
      (∀ v x, (Dict.get? N v).bind asInt = some x → ((w + x : ℤ) : WithTop ℤ) < dg D v →
        dg D' v = ((w + x : ℤ) : WithTop ℤ) ∧ Dict.get? P' v = some (some u)) ∧
      (∀ v, (∀ x, (Dict.get? N v).bind asInt = some x → ¬ ((w + x : ℤ) : WithTop ℤ) < dg D v) →
        dg D' v = dg D v ∧ Dict.get? P' v = Dict.get? P v) ∧
      (∀ k ∈ Dict.keys B, k ∈ Dict.keys B') ∧
      (∀ k ∈ Dict.keys B', k ∈ Dict.keys B ∨ ∃ v x, (Dict.get? N v).bind asInt = some x ∧ k = w + x) ∧
      ∀ w', ∃ ext, bl B' w' = bl B w' ++ ext ∧
        ∀ v, v ∈ ext ↔ ∃ x, (Dict.get? N v).bind asInt = some x ∧ ((w + x : ℤ) : WithTop ℤ) < dg D v ∧ w' = w + x := by
  induction N generalizing D P B with
  | nil =>
    right
    refine ⟨D, P, B, rfl, rfl, hB, ?_, ?_, fun v _ => ⟨rfl, rfl⟩, fun k hk => hk, fun k hk => Or.inl hk, fun w' => ⟨[], ?_, ?_⟩⟩
    · simp [Dict.get?]
    · simp [Dict.get?]
    · simp
    · simp [Dict.get?]
  | cons e N ih =>
    obtain ⟨a, y⟩ := e
    obtain ⟨haN, hN'⟩ : a ∉ Dict.keys N ∧ Dict.WF N := List.nodup_cons.1 hN
    have haD : a ∈ Dict.keys D := hD a List.mem_cons_self
    obtain ⟨dv, hdv⟩ := Dict.get?_isSome.2 haD
    have hdg : dg D a = dv := by rw [dg, hdv]; rfl
    have hget : ∀ v, Dict.get? ((a, y) :: N) v = if a = v then some y else Dict.get? N v := fun v => rfl
    have hna : Dict.get? N a = none := Dict.get?_eq_none.2 haN
    have hav : ∀ v x, Dict.get? N v = some x → a ≠ v := by
      rintro v x hx rfl
      rw [hna] at hx; simp at hx
    have hgb : ∀ v, a ≠ v → (Dict.get? ((a, y) :: N) v).bind asInt = (Dict.get? N v).bind asInt := by
      intro v hv; rw [hget, if_neg hv]
    have hga : (Dict.get? ((a, y) :: N) a).bind asInt = asInt y := by rw [hget, if_pos rfl]; rfl
    have hnb : (Dict.get? N a).bind asInt = none := by rw [hna]; rfl
    have hbav : ∀ v x, (Dict.get? N v).bind asInt = some x → a ≠ v := by
      rintro v x hx rfl
      rw [hnb] at hx; simp at hx
    rw [relaxBuckets]
    rcases hy : asInt y with - | z
    · left
      exact ⟨rfl, a, y, by rw [hget, if_pos rfl], hy⟩
    dsimp only
    rw [hdv]
    dsimp only
    have hint : (∀ v x, Dict.get? N v = some x → asInt x ≠ none) → ∀ v x, Dict.get? ((a, y) :: N) v = some x → asInt x ≠ none := by
      intro h v x hx
      rw [hget] at hx
      split_ifs at hx
      · injection hx with hx
        subst hx
        rw [hy]; simp
      · exact h v x hx
    by_cases hc : ((w + z : ℤ) : WithTop ℤ) < dv
    · rw [if_pos hc]
      have hk1 : Dict.keys (Dict.set D a ((w + z : ℤ) : WithTop ℤ)) = Dict.keys D := by rw [Dict.keys_set, if_pos haD]
      rcases ih hN' (Dict.set D a ((w + z : ℤ) : WithTop ℤ)) (Dict.set P a (some u))
        (Dict.set B (w + z) ((Dict.get? B (w + z)).getD [] ++ [a]))
        (fun v hv => by rw [hk1]; exact hD v (List.mem_cons_of_mem _ hv)) (hB.set _ _) with
        ⟨h1, v, x, h2, h3⟩ | ⟨D', P', B', h1, h2, h3, h4, h5, h6, h7, h8, h9⟩
      · left
        exact ⟨h1, v, x, by rw [hget, if_neg (hav v x h2)]; exact h2, h3⟩
      · right
        rw [hk1] at h2
        refine ⟨D', P', B', h1, h2, h3, hint h4, fun v x hx hlt => ?_, fun v hv => ?_, fun k hk => ?_, fun k hk => ?_, fun w' => ?_⟩
        · by_cases hav' : a = v
          · subst hav'
            rw [hga, hy] at hx
            injection hx with hx
            subst hx
            obtain ⟨k1, k2⟩ := h6 a (fun x hx => by rw [hnb] at hx; simp at hx)
            refine ⟨?_, ?_⟩
            · rw [k1, dg_set, if_pos rfl]
            · rw [k2, Dict.get?_set, if_pos rfl]
          · rw [hgb v hav'] at hx
            exact h5 v x hx (by rw [dg_set, if_neg hav']; exact hlt)
        · have hne : a ≠ v := by
            rintro rfl
            exact hv z (by rw [hga, hy]) (by rw [hdg]; exact hc)
          obtain ⟨k1, k2⟩ := h6 v (fun x hx => by
            rw [dg_set, if_neg hne]
            exact hv x (by rw [hgb v hne]; exact hx))
          rw [k1, k2, dg_set, if_neg hne, Dict.get?_set, if_neg hne]
          exact ⟨rfl, rfl⟩
        · exact h7 k (Dict.mem_keys_set.2 (Or.inr hk))
        · rcases h8 k hk with hk | ⟨v, x, hx, e⟩
          · rcases Dict.mem_keys_set.1 hk with hk | hk
            · exact Or.inr ⟨a, z, by rw [hga, hy], hk⟩
            · exact Or.inl hk
          · exact Or.inr ⟨v, x, by rw [hgb v (hbav v x hx)]; exact hx, e⟩
        · obtain ⟨ext, e1, e2⟩ := h9 w'
          rw [bl_set] at e1
          have hbody : ∀ v, a ≠ v → ((∃ x, (Dict.get? ((a, y) :: N) v).bind asInt = some x ∧
              ((w + x : ℤ) : WithTop ℤ) < dg D v ∧ w' = w + x) ↔ v ∈ ext) := by
            intro v hv
            rw [e2, hgb v hv, dg_set, if_neg hv]
          have hbodya : a ∉ ext := by
            rw [e2]
            rintro ⟨x, hx, -⟩
            rw [hnb] at hx; simp at hx
          by_cases hw : w + z = w'
          · rw [if_pos hw] at e1
            refine ⟨a :: ext, ?_, fun v => ?_⟩
            · rw [e1, hw, bl, List.append_assoc]; rfl
            · by_cases hv : a = v
              · subst hv
                constructor
                · intro _
                  exact ⟨z, by rw [hga, hy], by rw [hdg]; exact hc, hw.symm⟩
                · intro _; simp
              · rw [hbody v hv, List.mem_cons, or_iff_right (Ne.symm hv)]
          · rw [if_neg hw] at e1
            refine ⟨ext, e1, fun v => ?_⟩
            by_cases hv : a = v
            · subst hv
              constructor
              · intro h; exact absurd h hbodya
              · rintro ⟨x, hx, -, hw'⟩
                rw [hga, hy] at hx
                injection hx with hx
                exact absurd (hx ▸ hw'.symm) hw
            · rw [hbody v hv]
    · rw [if_neg hc]
      rcases ih hN' D P B (fun v hv => hD v (List.mem_cons_of_mem _ hv)) hB with
        ⟨h1, v, x, h2, h3⟩ | ⟨D', P', B', h1, h2, h3, h4, h5, h6, h7, h8, h9⟩
      · left
        exact ⟨h1, v, x, by rw [hget, if_neg (hav v x h2)]; exact h2, h3⟩
      · right
        have hno : ∀ v x, (Dict.get? ((a, y) :: N) v).bind asInt = some x → ((w + x : ℤ) : WithTop ℤ) < dg D v → a ≠ v := by
          rintro v x hx hlt rfl
          rw [hga, hy] at hx
          injection hx with hx
          subst hx
          rw [hdg] at hlt
          exact hc hlt
        refine ⟨D', P', B', h1, h2, h3, hint h4, fun v x hx hlt => ?_, fun v hv => ?_, h7, fun k hk => ?_, fun w' => ?_⟩
        · have hne := hno v x hx hlt
          rw [hgb v hne] at hx
          exact h5 v x hx hlt
        · refine h6 v (fun x hx => hv x ?_)
          rw [hgb v (hbav v x hx)]; exact hx
        · rcases h8 k hk with hk | ⟨v, x, hx, e⟩
          · exact Or.inl hk
          · exact Or.inr ⟨v, x, by rw [hgb v (hbav v x hx)]; exact hx, e⟩
        · obtain ⟨ext, e1, e2⟩ := h9 w'
          refine ⟨ext, e1, fun v => ?_⟩
          rw [e2]
          constructor
          · rintro ⟨x, hx, h⟩
            exact ⟨x, by rw [hgb v (hbav v x hx)]; exact hx, h⟩
          · rintro ⟨x, hx, hlt, h⟩
            have hne := hno v x hx hlt
            rw [hgb v hne] at hx
            exact ⟨x, hx, hlt, h⟩

omit [LinearOrder V] in
/-- The search for the next bucket. -/
theorem findBucket_spec {B : Dict ℤ (List V)} (n : ℕ) {w k : ℤ} (hk : k ∈ Dict.keys B) (hle : w ≤ k) (hn : (k - w).toNat ≤ n) :
    ∃ w', findBucket B w = some w' ∧ w' ∈ Dict.keys B ∧ ∀ k' ∈ Dict.keys B, w ≤ k' → w' ≤ k' := by
  induction n generalizing w with
  | zero =>
    have : w = k := by omega
    subst this
    rw [findBucket.eq_def, if_pos hk]
    exact ⟨w, rfl, hk, fun _ _ h => h⟩
  | succ n ih =>
    rw [findBucket.eq_def]
    by_cases hw : w ∈ Dict.keys B
    · rw [if_pos hw]
      exact ⟨w, rfl, hw, fun _ _ h => h⟩
    · rw [if_neg hw]
      have hne : w ≠ k := fun e => hw (e ▸ hk)
      obtain ⟨w', h1, h2, h3⟩ := ih (w := w + 1) (by omega) (by omega)
      refine ⟨w', h1, h2, fun k' hk' hl => h3 k' hk' ?_⟩
      have : w ≠ k' := fun e => hw (e ▸ hk')
      omega

omit [LinearOrder V] in
theorem findBucket_some {B : Dict ℤ (List V)} {w r : ℤ} (hf : findBucket B w = some r) : r ∈ Dict.keys B ∧ w ≤ r :=
  findBucket.partial_correctness B (motive := fun (w : ℤ) (r : ℤ) => r ∈ Dict.keys B ∧ w ≤ r) (by
    intro f ih w r hr
    split_ifs at hr with hw
    · cases hr
      exact ⟨hw, le_refl _⟩
    · obtain ⟨h1, h2⟩ := ih _ _ hr
      exact ⟨h1, by omega⟩) w r hf

theorem relaxBuckets_keys {asInt : W → Option ℤ} {w : ℤ} {u : V} {N : Dict V W} {D D' : Dict V (WithTop ℤ)}
    {P P' : Dict V (Option V)} {B B' : Dict ℤ (List V)} (h : relaxBuckets asInt w u N D P B = .ok (D', P', B')) :
    ∀ k ∈ Dict.keys B, k ∈ Dict.keys B' := by
  induction N generalizing D P B with
  | nil =>
    rw [relaxBuckets] at h
    injection h with h
    rw [Prod.mk.injEq, Prod.mk.injEq] at h
    rw [h.2.2]
    exact fun _ hk => hk
  | cons e N ih =>
    obtain ⟨v, x⟩ := e
    rw [relaxBuckets] at h
    split at h
    · cases h
    · split at h
      · cases h
      · split_ifs at h
        · exact fun k hk => ih h k (Dict.mem_keys_set.2 (Or.inr hk))
        · exact ih h

theorem visitBucket_keys {asInt : W → Option ℤ} {g : Graph V W} {w : ℤ} {i : ℕ} {D D' : Dict V (WithTop ℤ)}
    {P P' : Dict V (Option V)} {B B' : Dict ℤ (List V)} {vis vis' : Finset V}
    (h : visitBucket asInt g w i D P B vis = some (.ok (D', P', B', vis'))) : ∀ k ∈ Dict.keys B, k ∈ Dict.keys B' :=
  visitBucket.partial_correctness asInt g w
    (motive := fun _ _ _ B _ r => ∀ D' P' B' vis', r = .ok (D', P', B', vis') → ∀ k ∈ Dict.keys B, k ∈ Dict.keys B') (by
      intro f ih i D P B vis r hr D' P' B' vis' he
      split at hr
      · cases hr
        injection he with he
        simp only [Prod.mk.injEq] at he
        rw [he.2.2.1]
        exact fun _ hk => hk
      · split_ifs at hr
        · exact ih _ _ _ _ _ _ hr _ _ _ _ he
        · split at hr
          · cases hr; cases he
          · split at hr
            · cases hr; cases he
            · rename_i hrel
              exact fun k hk => ih _ _ _ _ _ _ hr _ _ _ _ he k (relaxBuckets_keys hrel k hk)) i D P B vis _ h _ _ _ _ rfl

/-- A bucket below the current weight is never emptied. -/
theorem bucketsLoop_stuck {asInt : W → Option ℤ} {g : Graph V W} {w : ℤ} {D : Dict V (WithTop ℤ)}
    {P : Dict V (Option V)} {B : Dict ℤ (List V)} {vis : Finset V} (hk : ∃ k ∈ Dict.keys B, k < w) (r : _) :
    bucketsLoop asInt g w D P B vis ≠ some (.ok r) := by
  intro h
  exact bucketsLoop.partial_correctness asInt g
    (motive := fun w _ _ B _ r => (∃ k ∈ Dict.keys B, k < w) → ∀ x, r ≠ .ok x) (by
      intro f ih w D P B vis r hr ⟨k, hk, hlt⟩ x hx
      split_ifs at hr with hB
      · rw [hB] at hk; simp [Dict.keys] at hk
      · rw [Option.bind_eq_bind, Option.bind_eq_some_iff] at hr
        obtain ⟨w2, hf, hr⟩ := hr
        rw [Option.bind_eq_bind, Option.bind_eq_some_iff] at hr
        obtain ⟨r2, hv, hr⟩ := hr
        split at hr
        · cases hr; cases hx
        · have := (findBucket_some hf).2
          refine ih _ _ _ _ _ _ hr ⟨k, ?_, by omega⟩ x hx
          rw [Dict.keys_erase]
          exact (List.mem_erase_of_ne (by omega)).2 (visitBucket_keys hv k hk)) w D P B vis _ h hk r rfl

/-- The edges with a weight that is an `int` and not negative. -/
def natAdj (asInt : W → Option ℤ) (g : Graph V W) (u v : V) : Option ℤ := ((adj g u v).bind asInt).filter (fun x => 0 ≤ x)

theorem natAdj_eq_some {asInt : W → Option ℤ} {g : Graph V W} {u v : V} {z : ℤ} :
    natAdj asInt g u v = some z ↔ (adj g u v).bind asInt = some z ∧ 0 ≤ z := by
  rw [natAdj, Option.filter_eq_some_iff]
  simp

/-- An edge at a vertex that can be reached has a weight that is not integral. -/
def BadWeight (asInt : W → Option ℤ) (g : Graph V W) (s : V) : Prop :=
  ∃ p u c v x, WalkOf (natAdj asInt g) s p u c ∧ adj g u v = some x ∧ asInt x = none

/-- An edge at a vertex that can be reached has negative weight. -/
def NegWeight (asInt : W → Option ℤ) (g : Graph V W) (s : V) : Prop :=
  ∃ p u c v z, WalkOf (natAdj asInt g) s p u c ∧ (adj g u v).bind asInt = some z ∧ z < 0

/-- What holds between the rounds of `dijkstra_buckets`. -/
structure BkInv (asInt : W → Option ℤ) (g : Graph V W) (s : V) (D : Dict V (WithTop ℤ)) (P : Dict V (Option V))
    (B : Dict ℤ (List V)) (vis : Finset V) (w : ℤ) (i : ℕ) : Prop where
  inv : DjInv2 (natAdj asInt g) s D P vis (InB B w i)
  keys : Dict.keys D = Dict.keys g
  wf : Dict.WF B
  low : ∀ k ∈ Dict.keys B, w ≤ k
  ints : ∀ u ∈ vis, ∀ v x, adj g u v = some x → ∃ z, asInt x = some z ∧ 0 ≤ z

omit [LinearOrder V] in
theorem inB_low {B : Dict ℤ (List V)} {w w' : ℤ} {i : ℕ} {v : V} (h : InB B w i w' v) : w' ∈ Dict.keys B := by
  rw [InB] at h
  by_contra hc
  rw [bl, Dict.get?_eq_none.2 hc] at h
  simp at h

theorem card_le_of {g : Graph V W} {vis : Finset V} (h : ∀ u ∈ vis, u ∈ Dict.keys g) : vis.card ≤ g.length := by
  have h1 : vis ⊆ (Dict.keys g).toFinset := fun x hx => List.mem_toFinset.2 (h x hx)
  have h2 := Finset.card_le_card h1
  have h3 := List.toFinset_card_le (Dict.keys g)
  have h4 : (Dict.keys g).length = g.length := by rw [Dict.keys, List.length_map]
  omega

theorem BkInv.skip {asInt : W → Option ℤ} {g : Graph V W} {s : V} {D : Dict V (WithTop ℤ)} {P : Dict V (Option V)}
    {B : Dict ℤ (List V)} {vis : Finset V} {w : ℤ} {i : ℕ} {u : V} (h : BkInv asInt g s D P B vis w i)
    (hdrop : (bl B w).drop i = u :: (bl B w).drop (i + 1)) (hu : u ∈ vis) : BkInv asInt g s D P B vis w (i + 1) := by
  have h2 : ∀ w' v', InB B w (i + 1) w' v' → InB B w i w' v' := by
    intro w' v' hv
    rw [InB] at hv ⊢
    split_ifs at hv ⊢ with he
    · subst he; rw [hdrop]; exact List.mem_cons_of_mem _ hv
    · exact hv
  refine ⟨⟨h.inv.core.skip (w := w) hu (fun w' v' hv => ?_) h2, h.inv.mem, fun w' v' hv => h.inv.hmem w' v' (h2 w' v' hv),
    h.inv.root, h.inv.link, h.inv.nolink⟩, h.keys, h.wf, h.low, h.ints⟩
  rw [InB] at hv ⊢
  split_ifs at hv ⊢ with he
  · subst he
    rw [hdrop, List.mem_cons] at hv
    exact hv.imp (fun e => ⟨rfl, e⟩) id
  · exact Or.inr hv

theorem natAdj_nonneg {asInt : W → Option ℤ} {g : Graph V W} (u v : V) (x : ℤ) (h : natAdj asInt g u v = some x) : 0 ≤ x :=
  (natAdj_eq_some.1 h).2

theorem visitBucket_main {asInt : W → Option ℤ} {g : Graph V W} (hin : ∀ u N, Dict.get? g u = some N → Dict.WF N)
    (hmr : ∀ u v x, adj g u v = some x → v ∈ Dict.keys g) (hsym : ∀ u v, adj g u v = adj g v u) (s : V) (w : ℤ) :
    ∀ (k m : ℕ) (i : ℕ) (D : Dict V (WithTop ℤ)) (P : Dict V (Option V)) (B : Dict ℤ (List V)) (vis : Finset V),
      BkInv asInt g s D P B vis w i → g.length ≤ k + vis.card → (bl B w).length - i ≤ m →
      (visitBucket asInt g w i D P B vis = some (.error .valueError) ∧ BadWeight asInt g s) ∨
      (NegWeight asInt g s ∧ ∀ D' P' B' vis', visitBucket asInt g w i D P B vis = some (.ok (D', P', B', vis')) →
        ∃ k ∈ Dict.keys B', k < w) ∨
      ∃ D' P' B' vis' j, visitBucket asInt g w i D P B vis = some (.ok (D', P', B', vis')) ∧
        BkInv asInt g s D' P' B' vis' w j ∧ (bl B' w).length ≤ j ∧
        (vis.card < vis'.card ∨ (B' = B ∧ vis' = vis)) := by
  intro k
  induction k using Nat.strong_induction_on with
  | _ k ihk =>
  intro m
  induction m with
  | zero =>
    intro i D P B vis h _ hm
    right; right
    rw [visitBucket.eq_def]
    have : ((Dict.get? B w).getD [])[i]? = none := by
      rw [List.getElem?_eq_none_iff]
      change (bl B w).length ≤ i
      omega
    rw [this]
    exact ⟨D, P, B, vis, i, rfl, h, by omega, Or.inr ⟨rfl, rfl⟩⟩
  | succ m ih =>
    intro i D P B vis h hk hm
    rw [visitBucket.eq_def]
    rcases hu : ((Dict.get? B w).getD [])[i]? with - | u
    · right; right
      rw [List.getElem?_eq_none_iff] at hu
      exact ⟨D, P, B, vis, i, rfl, h, hu, Or.inr ⟨rfl, rfl⟩⟩
    have hil : i < (bl B w).length := (List.getElem?_eq_some_iff.1 hu).1
    have hdrop : (bl B w).drop i = u :: (bl B w).drop (i + 1) := by
      obtain ⟨hlt, he⟩ := List.getElem?_eq_some_iff.1 hu
      rw [List.drop_eq_getElem_cons (l := bl B w) hlt]
      exact congrArg (· :: _) he
    have huB : InB B w i w u := by rw [InB, if_pos rfl, hdrop]; simp
    have hug : u ∈ Dict.keys g := by rw [← h.keys]; exact h.inv.hmem _ _ huB
    dsimp only
    by_cases huv : u ∈ vis
    · rw [if_pos huv]
      exact ih (i + 1) D P B vis (h.skip hdrop huv) hk (by omega)
    rw [if_neg huv]
    obtain ⟨N, hN⟩ := Dict.get?_isSome.2 hug
    rw [hN]
    dsimp only
    have hadj : ∀ v, adj g u v = Dict.get? N v := fun v => by rw [adj, hN]; rfl
    have hint : ∀ v z, natAdj asInt g u v = some z ↔ (Dict.get? N v).bind asInt = some z ∧ 0 ≤ z := fun v z => by
      rw [natAdj_eq_some, hadj]
    have hmin : ∀ w' v', InB B w i w' v' → w ≤ w' := fun w' v' hv => h.low w' (inB_low hv)
    have hkN : ∀ v ∈ Dict.keys N, v ∈ Dict.keys D := by
      intro v hv
      obtain ⟨x, hx⟩ := Dict.get?_isSome.2 hv
      rw [h.keys]
      exact hmr u v x (by rw [hadj]; exact hx)
    have hcard : vis.card < g.length := by
      have h2 := card_le_of (g := g) (vis := insert u vis) (fun x hx => by
        rcases Finset.mem_insert.1 hx with rfl | hx
        · exact hug
        · rw [← h.keys]; exact h.inv.mem x hx)
      rw [Finset.card_insert_of_notMem huv] at h2
      omega
    rcases relaxBuckets_spec asInt w u N (hin u N hN) D P B hkN h.wf with
      ⟨h1, v, x, h2, h3⟩ | ⟨D', P', B', h1, h2, h3, h4, h5, h6, h7, h8, h9⟩
    · left
      rw [h1]
      refine ⟨rfl, ?_⟩
      obtain ⟨p, hp⟩ := h.inv.core.walk u w (h.inv.core.top_eq huv huB hmin)
      exact ⟨p, u, w, v, x, hp, by rw [hadj]; exact h2, h3⟩
    rw [h1]
    dsimp only
    by_cases hneg : ∃ v z, (Dict.get? N v).bind asInt = some z ∧ z < 0
    · right; left
      obtain ⟨v, z, hz, hz0⟩ := hneg
      have hDu := h.inv.core.top_eq huv huB hmin
      obtain ⟨p, hp⟩ := h.inv.core.walk u w hDu
      refine ⟨⟨p, u, w, v, z, hp, by rw [hadj]; exact hz, hz0⟩, fun D2 P2 B2 vis2 h2 => ?_⟩
      have hlt : ((w + z : ℤ) : WithTop ℤ) < dg D v := by
        have hvv : v ∉ vis := by
          intro hv
          rcases hx : Dict.get? N v with - | x
          · rw [hx] at hz; simp at hz
          · obtain ⟨z', e1, e2⟩ := h.ints v hv u x (by rw [hsym, hadj]; exact hx)
            rw [hx, Option.bind_some, e1] at hz
            injection hz with hz
            omega
        rcases hd : dg D v with - | d
        · exact WithTop.coe_lt_top _
        · have := hmin d v (h.inv.core.has v d hvv hd)
          exact WithTop.coe_lt_coe.2 (by omega)
      obtain ⟨ext, e1, e2⟩ := h9 (w + z)
      have hm : v ∈ bl B' (w + z) := by
        rw [e1]
        exact List.mem_append_right _ ((e2 v).2 ⟨z, hz, hlt, rfl⟩)
      exact ⟨w + z, visitBucket_keys h2 _ (inB_low (w := w + z) (i := 0) (v := v) (by rw [InB, if_pos rfl]; simpa using hm)), by omega⟩
    · have hnn : ∀ v z, (Dict.get? N v).bind asInt = some z → 0 ≤ z := by
        intro v z hz
        by_contra hc
        exact hneg ⟨v, z, hz, by omega⟩
      have hext : ∀ w' v, InB B' w (i + 1) w' v ↔ InB B w (i + 1) w' v ∨
          ∃ x, (Dict.get? N v).bind asInt = some x ∧ ((w + x : ℤ) : WithTop ℤ) < dg D v ∧ w' = w + x := by
        intro w' v
        obtain ⟨ext, e1, e2⟩ := h9 w'
        rw [InB, InB, e1, ← e2]
        split_ifs with he
        · subst he
          rw [List.drop_append_of_le_length (by omega), List.mem_append]
        · rw [List.mem_append]
      have hstep : ∀ w' v, InB B w i w' v ↔ (w' = w ∧ v = u) ∨ InB B w (i + 1) w' v := by
        intro w' v
        rw [InB, InB]
        by_cases he : w' = w
        · subst he
          rw [if_pos rfl, if_pos rfl, hdrop, List.mem_cons]
          simp
        · rw [if_neg he, if_neg he]
          simp [he]
      have hinv : BkInv asInt g s D' P' B' (insert u vis) w (i + 1) := by
        refine ⟨?_, h2.trans h.keys, h3, fun k hk => ?_, fun y hy v x hx => ?_⟩
        · refine h.inv.visit natAdj_nonneg huv huB hmin ?_ h2 ?_ ?_ ?_ ?_ ?_
          · intro v x hx
            rw [hint] at hx
            rcases hg : Dict.get? N v with - | y
            · rw [hg] at hx; simp at hx
            · exact hkN v (Dict.get?_isSome.1 ⟨y, hg⟩)
          · intro v x hx; rw [hint] at hx; exact h5 v x hx.1
          · intro v hv; exact h6 v (fun x hx => hv x (by rw [hint]; exact ⟨hx, hnn v x hx⟩))
          · intro w' v' hv _
            rcases (hstep w' v').1 hv with hv | hv
            · exact Or.inl hv
            · exact Or.inr ((hext w' v').2 (Or.inl hv))
          · intro w' v' hv
            rcases (hext w' v').1 hv with hv | ⟨x, hx, -, he⟩
            · exact Or.inl ((hstep w' v').2 (Or.inr hv))
            · exact Or.inr ⟨x, by rw [hint]; exact ⟨hx, hnn v' x hx⟩, he⟩
          · intro v x hx hlt
            rw [hint] at hx
            exact (hext _ v).2 (Or.inr ⟨x, hx.1, hlt, rfl⟩)
        · rcases h8 k hk with hk | ⟨v, x, hx, rfl⟩
          · exact h.low k hk
          · have := hnn v x hx
            omega
        · rcases Finset.mem_insert.1 hy with rfl | hy
          · rw [hadj] at hx
            rcases hz : asInt x with - | z
            · exact absurd hz (h4 v x hx)
            · exact ⟨z, rfl, hnn v z (by rw [hx]; exact hz)⟩
          · exact h.ints y hy v x hx
      have hc1 : (insert u vis).card = vis.card + 1 := Finset.card_insert_of_notMem huv
      rcases ihk (k - 1) (by omega) _ (i + 1) D' P' B' (insert u vis) hinv (by omega) (le_refl _) with
        r | r | ⟨D2, P2, B2, vis2, j, r1, r2, r3, r4⟩
      · exact Or.inl r
      · exact Or.inr (Or.inl r)
      · right; right
        refine ⟨D2, P2, B2, vis2, j, r1, r2, r3, Or.inl ?_⟩
        rcases r4 with r4 | ⟨-, r4⟩
        · omega
        · rw [r4]; omega

omit [LinearOrder V] in
theorem inB_zero {B : Dict ℤ (List V)} {w w' : ℤ} {v : V} : InB B w 0 w' v ↔ v ∈ bl B w' := by
  rw [InB]; split_ifs <;> simp

theorem bucketsLoop_main {asInt : W → Option ℤ} {g : Graph V W} (hin : ∀ u N, Dict.get? g u = some N → Dict.WF N)
    (hmr : ∀ u v x, adj g u v = some x → v ∈ Dict.keys g) (hsym : ∀ u v, adj g u v = adj g v u) (s : V) :
    ∀ (k m : ℕ) (w : ℤ) (D : Dict V (WithTop ℤ)) (P : Dict V (Option V)) (B : Dict ℤ (List V)) (vis : Finset V),
      BkInv asInt g s D P B vis w 0 → g.length ≤ k + vis.card → B.length ≤ m →
      (bucketsLoop asInt g w D P B vis = some (.error .valueError) ∧ BadWeight asInt g s) ∨
      (NegWeight asInt g s ∧ ∀ r, bucketsLoop asInt g w D P B vis ≠ some (.ok r)) ∨
      ∃ D' P' vis', bucketsLoop asInt g w D P B vis = some (.ok (D', P')) ∧ Dict.keys D' = Dict.keys g ∧
        DjInv2 (natAdj asInt g) s D' P' vis' (fun _ _ => False) ∧
        ∀ u ∈ vis', ∀ v x, adj g u v = some x → ∃ z, asInt x = some z ∧ 0 ≤ z := by
  intro k
  induction k using Nat.strong_induction_on with
  | _ k ihk =>
  intro m
  induction m using Nat.strong_induction_on with
  | _ m ih =>
  intro w D P B vis h hk hm
  rw [bucketsLoop.eq_def]
  by_cases hB : B = []
  · right; right
    rw [if_pos hB]
    refine ⟨D, P, vis, rfl, h.keys, ?_, h.ints⟩
    have : InB B w 0 = fun _ _ => False := by
      funext w' v
      subst hB
      rw [inB_zero]
      simp [bl, Dict.get?]
    rw [← this]
    exact h.inv
  rw [if_neg hB]
  obtain ⟨k0, hk0⟩ : ∃ k0, k0 ∈ Dict.keys B := by
    obtain ⟨e, B', rfl⟩ := List.exists_cons_of_ne_nil hB
    exact ⟨e.1, List.mem_cons_self⟩
  obtain ⟨w2, f1, f2, f3⟩ := findBucket_spec (k0 - w).toNat hk0 (h.low k0 hk0) (le_refl _)
  have hinv : BkInv asInt g s D P B vis w2 0 := by
    refine ⟨?_, h.keys, h.wf, fun k hk => f3 k hk (h.low k hk), h.ints⟩
    have : InB B w2 0 = InB B w 0 := by
      funext w' v
      rw [inB_zero, inB_zero]
    rw [this]; exact h.inv
  rw [f1, Option.bind_eq_bind, Option.bind_some]
  rcases visitBucket_main hin hmr hsym s w2 k _ 0 D P B vis hinv hk (le_refl _) with
    ⟨r, hbad⟩ | ⟨hbad, hr⟩ | ⟨D', P', B', vis', j, r1, r2, r3, r4⟩
  · left
    rw [r]
    exact ⟨rfl, hbad⟩
  · right; left
    refine ⟨hbad, fun r hr' => ?_⟩
    rw [Option.bind_eq_bind, Option.bind_eq_some_iff] at hr'
    obtain ⟨r2, hv, hr2⟩ := hr'
    split at hr2
    · cases hr2
    · obtain ⟨k', hk', hlt⟩ := hr _ _ _ _ hv
      refine bucketsLoop_stuck ⟨k', ?_, hlt⟩ r hr2
      rw [Dict.keys_erase]
      exact (List.mem_erase_of_ne (by omega)).2 hk'
  · rw [r1, Option.bind_eq_bind, Option.bind_some]
    dsimp only
    have hinv' : BkInv asInt g s D' P' (Dict.erase B' w2) vis' w2 0 := by
      refine ⟨?_, r2.keys, r2.wf.erase _, fun k hk => ?_, r2.ints⟩
      · have : InB (Dict.erase B' w2) w2 0 = InB B' w2 j := by
          funext w' v
          rw [inB_zero, InB, bl, Dict.get?_erase r2.wf]
          by_cases he : w' = w2
          · subst he
            rw [if_pos rfl, if_pos rfl, List.drop_eq_nil_of_le r3]; rfl
          · rw [if_neg he, if_neg (Ne.symm he)]; rfl
        rw [this]; exact r2.inv
      · exact r2.low k (Dict.mem_keys_erase r2.wf |>.1 hk).2
    rcases r4 with r4 | ⟨rfl, rfl⟩
    · have hle := card_le_of (g := g) (vis := vis') (fun x hx => by rw [← r2.keys]; exact r2.inv.mem x hx)
      exact ihk (k - 1) (by omega) _ w2 D' P' _ vis' hinv' (by omega) (le_refl _)
    · refine ih (m - 1) ?_ w2 D' P' _ vis' hinv' hk ?_
      · have : B'.length ≠ 0 := fun e => hB (List.eq_nil_of_length_eq_zero e)
        omega
      · have h1 : (Dict.keys (Dict.erase B' w2)).length = (Dict.keys B').length - 1 := by
          rw [Dict.keys_erase, List.length_erase_of_mem f2]
        simp only [Dict.keys, List.length_map] at h1
        omega

theorem dijkstraBuckets_spec {asInt : W → Option ℤ} {g : Graph V W} (hin : ∀ u N, Dict.get? g u = some N → Dict.WF N)
    (hmr : ∀ u v x, adj g u v = some x → v ∈ Dict.keys g) (hsym : ∀ u v, adj g u v = adj g v u) {s : V} (hs : s ∈ Dict.keys g) :
    (dijkstraBuckets asInt g s = some (.error .valueError) ∧ BadWeight asInt g s) ∨
    (NegWeight asInt g s ∧ ∀ r, dijkstraBuckets asInt g s ≠ some (.ok r)) ∨
    ∃ D P vis, dijkstraBuckets asInt g s = some (.ok (D, P)) ∧ Dict.keys D = Dict.keys g ∧
      DjInv2 (natAdj asInt g) s D P vis (fun _ _ => False) ∧ ¬ BadWeight asInt g s ∧ ¬ NegWeight asInt g s := by
  rw [dijkstraBuckets, if_neg (fun h => h hs)]
  obtain ⟨k1, k2⟩ := DjInv2.init (g := g) (natAdj asInt g) hs (InB [((0 : ℤ), [s])] 0 0)
    (by rw [inB_zero]; simp [bl, Dict.get?])
    (fun w v hv => by
      rw [inB_zero, bl, Dict.get?] at hv
      split_ifs at hv with h0
      · exact ⟨h0.symm, by simpa using hv⟩
      · simp [Dict.get?] at hv)
  rcases bucketsLoop_main hin hmr hsym s g.length _ 0 _ _ _ ∅ ⟨k2, k1, by simp [Dict.WF, Dict.keys], by simp [Dict.keys], by simp⟩ (by simp)
    (le_refl _) with r | r | ⟨D, P, vis, r1, r2, r3, r4⟩
  · exact Or.inl r
  · exact Or.inr (Or.inl r)
  · have hvis : ∀ p u c, WalkOf (natAdj asInt g) s p u c → u ∈ vis := by
      intro p u c h1
      by_contra hu
      have hd := r3.core.final (fun _ _ h => h) u
      rcases hD : dg D u with - | d
      · rw [hD] at hd
        exact hd.2 rfl p c h1
      · exact r3.core.has u d hu hD
    refine Or.inr (Or.inr ⟨D, P, vis, r1, r2, r3, ?_, ?_⟩)
    · rintro ⟨p, u, c, v, x, h1, h2, h3⟩
      obtain ⟨z, hz, -⟩ := r4 u (hvis p u c h1) v x h2
      rw [h3] at hz
      cases hz
    · rintro ⟨p, u, c, v, z, h1, h2, h3⟩
      rw [Option.bind_eq_some_iff] at h2
      obtain ⟨x, hx, hz⟩ := h2
      obtain ⟨z', hz', h0⟩ := r4 u (hvis p u c h1) v x hx
      rw [hz] at hz'
      injection hz' with e
      omega

end buckets

end Rosemary.Paths
