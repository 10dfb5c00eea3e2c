import Verif.Lemmas.FloydWarshall
import Mathlib.Algebra.BigOperators.Group.Finset.Basic
import Mathlib.Algebra.Order.BigOperators.Group.Finset

/-!
# Lemmas on `bellman_ford`
-/

namespace Rosemary.Paths

open Graph Spec BigOperators

variable {V W : Type} [LinearOrder V] [Add W] [Zero W] [LinearOrder W] [PathAdd W]

theorem top_mono {a b : WithTop W} (x : W) (h : a ≤ b) : a + (x : WithTop W) ≤ b + (x : WithTop W) := by
  cases b with
  | top => rw [WithTop.top_add]; exact le_top
  | coe b =>
    cases a with
    | top => exact absurd h (by simp)
    | coe a =>
      rw [← WithTop.coe_add, ← WithTop.coe_add, WithTop.coe_le_coe]
      exact PathAdd.mono _ _ _ (WithTop.coe_le_coe.1 h)

theorem top_infl {a : WithTop W} {x : W} (h : (0 : WithTop W) ≤ (x : WithTop W)) : a ≤ a + (x : WithTop W) := by
  cases a with
  | top => rw [WithTop.top_add]
  | coe a =>
    rw [← WithTop.coe_add, WithTop.coe_le_coe]
    exact PathAdd.infl _ _ (WithTop.coe_le_coe.1 h)

/-- No edge that can be reached from `s` is negative. -/
def NoNeg (g : Graph V W) (s : V) : Prop := ∀ p u c v x, WalkOf (adj g) s p u c → adj g u v = some x → 0 ≤ x

/-- What always holds: costs, the queue and the set of its elements. -/
structure BF (g : Graph V W) (s : V) (C : Dict V (WithTop W)) (q : List V) (S : Finset V) : Prop where
  keysC : Dict.keys C = Dict.keys g
  start : dg C s ≤ 0
  walk : ∀ v (c : W), dg C v = c → ∃ p, WalkOf (adj g) s p v c
  sq : ∀ v, v ∈ S ↔ v ∈ q
  nodup : q.Nodup
  qmem : ∀ v ∈ q, Mem g v

/-- The links, if no edge that can be reached is negative. -/
structure PInv (g : Graph V W) (s : V) (C : Dict V (WithTop W)) (P : Dict V (Option V)) : Prop where
  keysP : Dict.keys P = Dict.keys g
  zero : dg C s = 0
  root : Dict.get? P s = some none
  pred : ∀ v y, Dict.get? P v = some (some y) → ∃ x, adj g y v = some x ∧ dg C y + (x : WithTop W) ≤ dg C v
  link : ∀ v, dg C v ≠ ⊤ → ∃ p, LinkPath (Dict.get? P) s p v
  nolink : ∀ v, dg C v = ⊤ → Mem g v → Dict.get? P v = some none

omit [PathAdd W] in
theorem BF.step {g : Graph V W} (hg : Good g) {s : V} {C : Dict V (WithTop W)} {q : List V} {S : Finset V} (h : BF g s C q S) {u v : V} {x : W}
    (hx : adj g u v = some x) (hlt : dg C u + (x : WithTop W) < dg C v) :
    BF g s (Dict.set C v (dg C u + (x : WithTop W))) (if v ∈ S then q else q ++ [v]) (insert v S) := by
  have hv : Mem g v := mem_of_adj (by rw [hg.symm]; exact hx)
  refine ⟨?_, ?_, ?_, ?_, ?_, ?_⟩
  · rw [Dict.keys_set, if_pos (by rw [h.keysC]; exact hv)]; exact h.keysC
  · rw [dg_set]
    split_ifs with hc
    · subst hc; exact (hlt.trans_le h.start).le
    · exact h.start
  · intro w c hc
    rw [dg_set] at hc
    split_ifs at hc with hw
    · subst hw
      obtain ⟨a, b, e1, e2, e3⟩ := WithTop.add_eq_coe.1 hc
      obtain ⟨p, hp⟩ := h.walk u a e1.symm
      rw [← e3, WithTop.coe_injective e2]
      exact ⟨_, WalkOf.step hp hx⟩
    · exact h.walk w c hc
  · intro w
    rw [Finset.mem_insert]
    split_ifs with hc
    · rw [h.sq]
      exact ⟨fun k => k.elim (fun e => by rw [e]; exact (h.sq v).1 hc) id, Or.inr⟩
    · rw [h.sq, List.mem_append, List.mem_singleton]
      exact or_comm
  · split_ifs with hc
    · exact h.nodup
    · rw [List.nodup_append]
      refine ⟨h.nodup, by simp, fun a ha b hb e => ?_⟩
      rw [List.mem_singleton] at hb
      exact hc ((h.sq v).2 (by rw [← hb, ← e]; exact ha))
  · intro w hw
    split_ifs at hw with hc
    · exact h.qmem w hw
    · rcases List.mem_append.1 hw with hw | hw
      · exact h.qmem w hw
      · rw [List.mem_singleton.1 hw]; exact hv

theorem walk_nonneg_of {g : Graph V W} {s : V} (hN : NoNeg g s) {p : List V} {v : V} {c : W} (h : WalkOf (adj g) s p v c) : 0 ≤ c := by
  induction h with
  | start => exact le_refl _
  | step hp hx ih => exact PathAdd.nonneg ih (hN _ _ _ _ _ hp hx)

theorem link_le {g : Graph V W} {s : V} (hN : NoNeg g s) {C : Dict V (WithTop W)} {P : Dict V (Option V)} {q : List V} {S : Finset V}
    (hB : BF g s C q S) (h : PInv g s C P) {p : List V} {u : V} (hp : LinkPath (Dict.get? P) s p u) : ∀ y ∈ p, dg C y ≤ dg C u := by
  induction hp with
  | root _ => intro y hy; rw [List.mem_singleton.1 hy]
  | step hp hv ih =>
    rename_i p u v
    intro y hy
    obtain ⟨x, hx, hle⟩ := h.pred v u hv
    have huv : dg C u ≤ dg C v := by
      by_cases ht : dg C u = ⊤
      · rw [ht, WithTop.top_add] at hle; rw [ht]; exact hle
      · obtain ⟨c, hc⟩ := WithTop.ne_top_iff_exists.1 ht
        obtain ⟨r, hr⟩ := hB.walk u c hc.symm
        have h0 : (0 : WithTop W) ≤ (x : WithTop W) := WithTop.coe_le_coe.2 (hN _ _ _ _ _ hr hx)
        exact (top_infl h0).trans hle
    rcases List.mem_append.1 hy with hy | hy
    · exact (ih y hy).trans huv
    · rw [List.mem_singleton.1 hy]

theorem PInv.step {g : Graph V W} (hg : Good g) {s : V} (hN : NoNeg g s) {C : Dict V (WithTop W)} {P : Dict V (Option V)} {q : List V} {S : Finset V}
    (hB : BF g s C q S) (h : PInv g s C P) {u v : V} {x : W}
    (hx : adj g u v = some x) (hlt : dg C u + (x : WithTop W) < dg C v) :
    PInv g s (Dict.set C v (dg C u + (x : WithTop W))) (Dict.set P v (some u)) := by
  have hv : Mem g v := mem_of_adj (by rw [hg.symm]; exact hx)
  have hut : dg C u ≠ ⊤ := fun e => by rw [e, WithTop.top_add] at hlt; exact absurd hlt not_top_lt
  obtain ⟨c, hc⟩ := WithTop.ne_top_iff_exists.1 hut
  obtain ⟨r, hr⟩ := hB.walk u c hc.symm
  have hx0 : 0 ≤ x := hN _ _ _ _ _ hr hx
  have hx0' : (0 : WithTop W) ≤ (x : WithTop W) := WithTop.coe_le_coe.2 hx0
  have hc0 : (0 : WithTop W) ≤ dg C u := by rw [← hc]; exact WithTop.coe_le_coe.2 (walk_nonneg_of hN hr)
  have hule : dg C u ≤ dg C u + (x : WithTop W) := top_infl hx0'
  have hvs : v ≠ s := fun e => by
    rw [e, h.zero] at hlt
    exact absurd hlt (not_lt.2 (hc0.trans hule))
  have hvu : v ≠ u := fun e => by
    rw [e] at hlt
    exact absurd hlt (not_lt.2 hule)
  have hmono : ∀ w, dg (Dict.set C v (dg C u + (x : WithTop W))) w ≤ dg C w := by
    intro w
    rw [dg_set]; split_ifs with e
    · rw [← e]; exact hlt.le
    · exact le_refl _
  obtain ⟨pu, hpu⟩ := h.link u hut
  have hvp : v ∉ pu := fun hm => absurd (link_le hN hB h hpu v hm) (not_le.2 (hule.trans_lt hlt))
  have hpu' : LinkPath (Dict.get? (Dict.set P v (some u))) s pu u :=
    LinkPath.congr hpu (fun y hy => by rw [Dict.get?_set, if_neg (fun e => hvp (by rw [e]; exact hy))])
  have hpv' : LinkPath (Dict.get? (Dict.set P v (some u))) s (pu ++ [v]) v :=
    LinkPath.step hpu' (by rw [Dict.get?_set, if_pos rfl])
  refine ⟨?_, ?_, ?_, ?_, ?_, ?_⟩
  · rw [Dict.keys_set, if_pos (by rw [h.keysP]; exact hv)]; exact h.keysP
  · rw [dg_set, if_neg hvs]; exact h.zero
  · rw [Dict.get?_set, if_neg hvs]; exact h.root
  · intro w y hy
    rw [Dict.get?_set] at hy
    split_ifs at hy with hw
    · subst hw
      injection hy with hy
      injection hy with hy
      subst hy
      refine ⟨x, hx, ?_⟩
      rw [dg_set, dg_set, if_neg hvu, if_pos rfl]
    · obtain ⟨z, hz, hle⟩ := h.pred w y hy
      refine ⟨z, hz, ?_⟩
      rw [dg_set C v w, if_neg hw]
      exact (top_mono _ (hmono y)).trans hle
  · intro w hw
    by_cases hvw : v = w
    · exact ⟨pu ++ [v], by rw [← hvw]; exact hpv'⟩
    · rw [dg_set, if_neg hvw] at hw
      obtain ⟨p, hp⟩ := h.link w hw
      clear hw hvw
      induction hp with
      | root hr => exact ⟨[s], LinkPath.root (by rw [Dict.get?_set, if_neg hvs]; exact hr)⟩
      | step hpy hz ih =>
        rename_i p y z
        by_cases hvz : v = z
        · exact ⟨pu ++ [v], by rw [← hvz]; exact hpv'⟩
        · obtain ⟨p', hp'⟩ := ih
          exact ⟨_, LinkPath.step hp' (by rw [Dict.get?_set, if_neg hvz]; exact hz)⟩
  · intro w hw hm
    rw [dg_set] at hw
    split_ifs at hw with hvw
    · rw [hw] at hlt; exact absurd hlt not_top_lt
    · rw [Dict.get?_set, if_neg hvw]; exact h.nolink w hw hm

/-- The inner loop; `X` is anything that one relaxation preserves. -/
theorem bfRelax_spec {g : Graph V W} (hg : Good g) {s u : V} (hu : Mem g u) (C0 : Dict V (WithTop W))
    (X : Dict V (WithTop W) → Dict V (Option V) → List V → Finset V → Prop)
    (hX : ∀ C P q S v x, BF g s C q S → X C P q S → adj g u v = some x → dg C u + (x : WithTop W) < dg C v →
      X (Dict.set C v (dg C u + (x : WithTop W))) (Dict.set P v (some u)) (if v ∈ S then q else q ++ [v]) (insert v S))
    (N : Dict V W) (hN : ∀ v x, (v, x) ∈ N → adj g u v = some x)
    (C : Dict V (WithTop W)) (P : Dict V (Option V)) (q : List V) (S : Finset V) (hB : BF g s C q S) (h1 : X C P q S)
    (h2 : ∀ a, a ≠ u → a ∉ S → ∀ b y, adj g a b = some y → dg C b ≤ dg C a + (y : WithTop W))
    (h3 : ∀ a, dg C a ≠ dg C0 a → a ∈ S) (h4 : ∀ a, dg C a ≤ dg C0 a) :
    ∃ C' P' q' S', bfRelax u N C P q S = .ok (C', P', q', S') ∧ BF g s C' q' S' ∧ X C' P' q' S' ∧
      (∀ a, a ≠ u → a ∉ S' → ∀ b y, adj g a b = some y → dg C' b ≤ dg C' a + (y : WithTop W)) ∧
      (∀ a, dg C' a ≠ dg C0 a → a ∈ S') ∧ (∀ a, dg C' a ≤ dg C a) ∧
      ∀ v x, (v, x) ∈ N → dg C' v ≤ dg C0 u + (x : WithTop W) := by
  induction N generalizing C P q S with
  | nil => exact ⟨C, P, q, S, rfl, hB, h1, h2, h3, fun _ => le_refl _, by simp⟩
  | cons e N ih =>
    obtain ⟨v, x⟩ := e
    have hx := hN v x List.mem_cons_self
    have hv : Mem g v := mem_of_adj (by rw [hg.symm]; exact hx)
    obtain ⟨cu, hcu⟩ : ∃ cu, Dict.get? C u = some cu := Dict.get?_isSome.2 (by rw [hB.keysC]; exact hu)
    obtain ⟨cv, hcv⟩ : ∃ cv, Dict.get? C v = some cv := Dict.get?_isSome.2 (by rw [hB.keysC]; exact hv)
    have ecu : dg C u = cu := by rw [dg, hcu]; rfl
    have ecv : dg C v = cv := by rw [dg, hcv]; rfl
    rw [bfRelax, hcu, hcv]
    dsimp only
    have hN' := fun a y hm => hN a y (List.mem_cons_of_mem _ hm)
    by_cases hc : cu + (x : WithTop W) < cv
    · rw [if_pos hc]
      rw [← ecu, ← ecv] at hc
      rw [← ecu]
      have hmono : ∀ w, dg (Dict.set C v (dg C u + (x : WithTop W))) w ≤ dg C w := by
        intro w
        rw [dg_set]; split_ifs with e
        · rw [← e]; exact hc.le
        · exact le_refl _
      have key := ih hN' (Dict.set C v (dg C u + (x : WithTop W))) (Dict.set P v (some u)) (if v ∈ S then q else q ++ [v]) (insert v S)
        (hB.step hg hx hc) (hX C P q S v x hB h1 hx hc)
        (fun a hau haS b y hy => by
          rw [Finset.mem_insert, not_or] at haS
          rw [dg_set C v a, if_neg (Ne.symm haS.1)]
          exact (hmono b).trans (h2 a hau haS.2 b y hy))
        (fun a ha => by
          rw [Finset.mem_insert]
          by_cases hav : a = v
          · exact Or.inl hav
          · rw [dg_set, if_neg (Ne.symm hav)] at ha
            exact Or.inr (h3 a ha))
        (fun a => (hmono a).trans (h4 a))
      obtain ⟨C', P', q', S', k1, k2, k3, k4, k5, k6, k7⟩ := key
      refine ⟨C', P', q', S', ?_, k2, k3, k4, k5, fun a => (k6 a).trans (hmono a), ?_⟩
      · by_cases hS : v ∈ S
        · rw [if_pos hS]
          rw [if_pos hS, Finset.insert_eq_of_mem hS] at k1
          exact k1
        · rw [if_neg hS]
          rw [if_neg hS] at k1
          exact k1
      · intro a y hm
        rcases List.mem_cons.1 hm with e | hm
        · rw [Prod.mk.injEq] at e
          rw [e.1, e.2]
          refine (k6 v).trans ?_
          rw [dg_set, if_pos rfl]
          exact top_mono _ (h4 u)
        · exact k7 a y hm
    · rw [if_neg hc]
      obtain ⟨C', P', q', S', k1, k2, k3, k4, k5, k6, k7⟩ := ih hN' C P q S hB h1 h2 h3 h4
      refine ⟨C', P', q', S', k1, k2, k3, k4, k5, k6, ?_⟩
      intro a y hm
      rcases List.mem_cons.1 hm with e | hm
      · rw [Prod.mk.injEq] at e
        rw [e.1, e.2]
        refine (k6 v).trans ?_
        rw [ecv]
        refine (not_lt.1 hc).trans ?_
        rw [← ecu]
        exact top_mono _ (h4 u)
      · exact k7 a y hm

/-! ### Short walks -/

theorem walk_cut {g : Graph V W} {s : V} (hN : NoNeg g s) {p : List V} {v : V} {c : W} (h : WalkOf (adj g) s p v c) :
    ∀ w ∈ p, ∃ p' c', WalkOf (adj g) s p' w c' ∧ p' <+: p ∧ c' ≤ c := by
  induction h with
  | start =>
    intro w hw
    rw [List.mem_singleton.1 hw]
    exact ⟨[s], 0, WalkOf.start, List.prefix_refl _, le_refl _⟩
  | step hp hx ih =>
    rename_i p v w c x
    intro y hy
    rcases List.mem_append.1 hy with hy | hy
    · obtain ⟨p', c', h1, h2, h3⟩ := ih y hy
      exact ⟨p', c', h1, h2.trans (List.prefix_append _ _), h3.trans (PathAdd.infl _ _ (hN _ _ _ _ _ hp hx))⟩
    · rw [List.mem_singleton.1 hy]
      exact ⟨_, _, WalkOf.step hp hx, List.prefix_refl _, le_refl _⟩

theorem walk_simple {g : Graph V W} (hg : Good g) {s : V} (hs : Mem g s) (hN : NoNeg g s) {p : List V} {v : V} {c : W}
    (h : WalkOf (adj g) s p v c) : ∃ p' c', WalkOf (adj g) s p' v c' ∧ p'.length ≤ g.length ∧ c' ≤ c := by
  have key : ∃ p' c', WalkOf (adj g) s p' v c' ∧ p'.Nodup ∧ (∀ y ∈ p', Mem g y) ∧ c' ≤ c := by
    induction h with
    | start => exact ⟨[s], 0, WalkOf.start, by simp, fun y hy => by rw [List.mem_singleton.1 hy]; exact hs, le_refl _⟩
    | step hp hx ih =>
      rename_i p v w c x
      obtain ⟨p', c', h1, h2, h3, h4⟩ := ih
      by_cases hw : w ∈ p'
      · obtain ⟨p'', c'', k1, k2, k3⟩ := walk_cut hN h1 w hw
        refine ⟨p'', c'', k1, h2.sublist k2.sublist, fun y hy => h3 y (k2.subset hy), ?_⟩
        exact k3.trans (h4.trans (PathAdd.infl _ _ (hN _ _ _ _ _ hp hx)))
      · refine ⟨p' ++ [w], c' + x, WalkOf.step h1 hx, ?_, ?_, PathAdd.mono _ _ _ h4⟩
        · rw [List.nodup_append]
          refine ⟨h2, by simp, fun a ha b hb e => hw ?_⟩
          rw [List.mem_singleton] at hb
          rw [← hb, ← e]; exact ha
        · intro y hy
          rcases List.mem_append.1 hy with hy | hy
          · exact h3 y hy
          · rw [List.mem_singleton.1 hy]
            exact mem_of_adj (by rw [hg.symm]; exact hx)
  obtain ⟨p', c', h1, h2, h3, h4⟩ := key
  refine ⟨p', c', h1, ?_, h4⟩
  have : p'.toFinset ⊆ (Dict.keys g).toFinset := fun y hy => List.mem_toFinset.2 (h3 y (List.mem_toFinset.1 hy))
  have h5 := Finset.card_le_card this
  rw [List.toFinset_card_of_nodup h2, List.toFinset_card_of_nodup hg.wf] at h5
  simpa [Dict.keys] using h5

/-! ### The phases -/

/-- The costs in phase `i`: `q1` is the rest of its queue. -/
structure Ph (g : Graph V W) (s : V) (i : ℕ) (q1 q2 : List V) (C : Dict V (WithTop W)) : Prop where
  short : ∀ p v c, WalkOf (adj g) s p v c → p.length ≤ i + 1 → dg C v ≤ (c : WithTop W)
  done : ∀ u, u ∉ q1 → ∀ p c v x, WalkOf (adj g) s p u c → p.length ≤ i + 1 → adj g u v = some x →
    dg C v ≤ ((c + x : W) : WithTop W)
  last : i + 1 = g.length → q2 = []

/-- How often a vertex has been taken from the queue. -/
def cn (count : Dict V ℕ) (v : V) : ℕ := (Dict.get? count v).getD 0

theorem bf_main {g : Graph V W} (hg : Good g) {s : V} (hs : Mem g s) : ∀ (k : ℕ) (count : Dict V ℕ) (C : Dict V (WithTop W)) (P : Dict V (Option V))
    (q : List V) (S : Finset V), BF g s C q S →
    (∀ a, a ∉ S → ∀ b y, adj g a b = some y → dg C b ≤ dg C a + (y : WithTop W)) →
    Dict.keys count = Dict.keys g → ∑ v ∈ (Dict.keys g).toFinset, (g.length - cn count v) ≤ k →
    (NoNeg g s → PInv g s C P ∧ ∃ i q1 q2, q = q1 ++ q2 ∧ Ph g s i q1 q2 C ∧ i + 1 ≤ g.length ∧ (∀ v, cn count v ≤ i + 1) ∧
      ∀ v ∈ q1, cn count v ≤ i) →
    (¬ NoNeg g s ∧ bfLoop g g.length count C P q S = some (.error .valueError)) ∨
    ∃ C' P', bfLoop g g.length count C P q S = some (.ok (C', P')) ∧ BF g s C' [] ∅ ∧
      (∀ a b y, adj g a b = some y → dg C' b ≤ dg C' a + (y : WithTop W)) ∧ (NoNeg g s → PInv g s C' P') := by
  intro k
  induction k with
  | zero =>
    intro count C P q S hB hcl hk hm hph
    rw [bfLoop.eq_def]
    cases q with
    | nil =>
      right
      have hS : S = ∅ := Finset.eq_empty_of_forall_notMem (fun v hv => by have := (hB.sq v).1 hv; simp at this)
      subst hS
      exact ⟨C, P, rfl, hB, fun a b y hy => hcl a (by simp) b y hy, fun h => (hph h).1⟩
    | cons u q =>
      have hu := hB.qmem u List.mem_cons_self
      obtain ⟨c, hc⟩ : ∃ c, Dict.get? count u = some c := Dict.get?_isSome.2 (by rw [hk]; exact hu)
      obtain ⟨N, hN⟩ := mem_iff.1 hu
      have h0 := (Finset.sum_eq_zero_iff.1 (Nat.le_zero.1 hm)) u (List.mem_toFinset.2 hu)
      have ec : cn count u = c := by rw [cn, hc]; rfl
      rw [ec] at h0
      dsimp only
      rw [hc, hN]
      dsimp only
      rw [if_pos (by omega)]
      left
      refine ⟨fun hnn => ?_, rfl⟩
      obtain ⟨-, i, q1, q2, e, hp, h1, h2, h3⟩ := hph hnn
      cases q1 with
      | cons a q1 =>
        rw [List.cons_append, List.cons.injEq] at e
        have := h3 u (by rw [e.1]; exact List.mem_cons_self)
        rw [ec] at this
        omega
      | nil =>
        have hq2 : i + 1 ≠ g.length := fun e' => by rw [hp.last e'] at e; simp at e
        have := h2 u
        rw [ec] at this
        omega
  | succ k ih =>
    intro count C P q S hB hcl hk hm hph
    rw [bfLoop.eq_def]
    cases q with
    | nil =>
      right
      have hS : S = ∅ := Finset.eq_empty_of_forall_notMem (fun v hv => by have := (hB.sq v).1 hv; simp at this)
      subst hS
      exact ⟨C, P, rfl, hB, fun a b y hy => hcl a (by simp) b y hy, fun h => (hph h).1⟩
    | cons u q =>
      have hu := hB.qmem u List.mem_cons_self
      obtain ⟨c, hc⟩ : ∃ c, Dict.get? count u = some c := Dict.get?_isSome.2 (by rw [hk]; exact hu)
      obtain ⟨N, hN⟩ := mem_iff.1 hu
      have ec : cn count u = c := by rw [cn, hc]; rfl
      dsimp only
      rw [hc, hN]
      dsimp only
      -- the phases, with a nonempty rest of the queue
      have hph' : NoNeg g s → PInv g s C P ∧ ∃ i q1 q2, q = q1 ++ q2 ∧ Ph g s i (u :: q1) q2 C ∧ i + 1 ≤ g.length ∧
          (∀ v, cn count v ≤ i + 1) ∧ ∀ v ∈ u :: q1, cn count v ≤ i := by
        intro hnn
        obtain ⟨hP, i, q1, q2, e, hp, h1, h2, h3⟩ := hph hnn
        refine ⟨hP, ?_⟩
        cases q1 with
        | cons a q1 =>
          rw [List.cons_append, List.cons.injEq] at e
          obtain ⟨rfl, rfl⟩ := e
          exact ⟨i, q1, q2, rfl, hp, h1, h2, h3⟩
        | nil =>
          rw [List.nil_append] at e
          have hq2 : i + 1 ≠ g.length := fun e' => by rw [hp.last e'] at e; simp at e
          have hshort : ∀ p v c, WalkOf (adj g) s p v c → p.length ≤ i + 1 + 1 → dg C v ≤ (c : WithTop W) := by
            intro p v c hw hl
            cases hw with
            | start => exact hB.start
            | step hw hx =>
              rw [List.length_append, List.length_singleton] at hl
              exact hp.done _ (by simp) _ _ _ _ hw (by omega) hx
          refine ⟨i + 1, q, [], by simp, ⟨hshort, ?_, fun _ => rfl⟩, by omega, fun v => (h2 v).trans (by omega), fun v _ => h2 v⟩
          intro a ha p c v x hw hl hx
          have haS : a ∉ S := fun h => ha ((hB.sq a).1 h)
          refine (hcl a haS v x hx).trans ?_
          rw [WithTop.coe_add]
          exact top_mono _ (hshort p a c hw hl)
      by_cases hraise : g.length + 1 ≤ c + 1
      · rw [if_pos hraise]
        left
        refine ⟨fun hnn => ?_, rfl⟩
        obtain ⟨-, i, q1, q2, e, hp, h1, h2, h3⟩ := hph' hnn
        have := h3 u List.mem_cons_self
        rw [ec] at this
        omega
      · rw [if_neg hraise]
        have hnd := List.nodup_cons.1 hB.nodup
        have hB' : BF g s C q (S.erase u) := by
          refine ⟨hB.keysC, hB.start, hB.walk, fun v => ?_, hnd.2, fun v hv => hB.qmem v (List.mem_cons_of_mem _ hv)⟩
          rw [Finset.mem_erase, hB.sq, List.mem_cons]
          constructor
          · rintro ⟨h1, h2 | h2⟩
            · exact absurd h2 h1
            · exact h2
          · intro h; exact ⟨fun e => hnd.1 (by rw [← e]; exact h), Or.inr h⟩
        have hNadj : ∀ v x, (v, x) ∈ N → adj g u v = some x := fun v x hm => by
          rw [adj_eq hN]; exact Dict.get?_of_mem (hg.inner u N hN) hm
        -- what is kept during the inner loop
        let X : Dict V (WithTop W) → Dict V (Option V) → List V → Finset V → Prop := fun C' P' q' _ =>
          NoNeg g s → PInv g s C' P' ∧ ∀ i q1 q2, q = q1 ++ q2 → Ph g s i (u :: q1) q2 C → ∃ q2', q' = q1 ++ q2' ∧
            Ph g s i (u :: q1) q2' C'
        have hX : ∀ C P q S v x, BF g s C q S → X C P q S → adj g u v = some x → dg C u + (x : WithTop W) < dg C v →
            X (Dict.set C v (dg C u + (x : WithTop W))) (Dict.set P v (some u)) (if v ∈ S then q else q ++ [v]) (insert v S) := by
          intro C1 P1 q1 S1 v x hB1 hX1 hx hlt hnn
          refine ⟨PInv.step hg hnn hB1 (hX1 hnn).1 hx hlt, fun i r1 r2 e hp => ?_⟩
          obtain ⟨q2', e', hp'⟩ := (hX1 hnn).2 i r1 r2 e hp
          have hmono : ∀ w, dg (Dict.set C1 v (dg C1 u + (x : WithTop W))) w ≤ dg C1 w := by
            intro w
            rw [dg_set]; split_ifs with e
            · rw [← e]; exact hlt.le
            · exact le_refl _
          refine ⟨if v ∈ S1 then q2' else q2' ++ [v], ?_, fun p w c hw hl => (hmono w).trans (hp'.short p w c hw hl),
            fun a ha p c w y hw hl hy => (hmono w).trans (hp'.done a ha p c w y hw hl hy), fun hi => ?_⟩
          · split_ifs
            · exact e'
            · rw [e', List.append_assoc]
          · exfalso
            have hut : dg C1 u ≠ ⊤ := fun e => by rw [e, WithTop.top_add] at hlt; exact absurd hlt not_top_lt
            obtain ⟨c, hc⟩ := WithTop.ne_top_iff_exists.1 hut
            obtain ⟨r, hr⟩ := hB1.walk u c hc.symm
            obtain ⟨p', c', k1, k2, k3⟩ := walk_simple hg hs hnn (WalkOf.step hr hx)
            have := hp'.short p' v c' k1 (by omega)
            rw [← hc, ← WithTop.coe_add] at hlt
            exact absurd (lt_of_lt_of_le hlt this) (not_lt.2 (WithTop.coe_le_coe.2 k3))
        obtain ⟨C', P', q', S', k1, k2, k3, k4, k5, k6, k7⟩ := bfRelax_spec hg hu C X hX N hNadj C P q (S.erase u) hB'
          (fun hnn => ⟨(hph' hnn).1, fun i q1 q2 e hp => ⟨q2, e, hp⟩⟩)
          (fun a hau haS b y hy => hcl a (fun h => haS (Finset.mem_erase.2 ⟨hau, h⟩)) b y hy) (fun a ha => absurd rfl ha)
          (fun a => le_refl _)
        rw [k1]
        dsimp only
        have k7' : ∀ v x, adj g u v = some x → dg C' v ≤ dg C u + (x : WithTop W) := fun v x hx =>
          k7 v x (Dict.mem_of_get? (by rw [← adj_eq hN]; exact hx))
        have hcn : ∀ v, cn (Dict.set count u (c + 1)) v = if u = v then c + 1 else cn count v := by
          intro v
          rw [cn, Dict.get?_set]
          split_ifs <;> rfl
        refine ih (Dict.set count u (c + 1)) C' P' q' S' k2 ?_ ?_ ?_ ?_
        · intro a haS b y hy
          by_cases hau : a = u
          · subst hau
            have : dg C' a = dg C a := by
              by_contra hne
              exact haS (k5 a hne)
            rw [this]
            exact k7' b y hy
          · exact k4 a hau haS b y hy
        · rw [Dict.keys_set, if_pos (by rw [hk]; exact hu)]; exact hk
        · have : ∑ v ∈ (Dict.keys g).toFinset, (g.length - cn (Dict.set count u (c + 1)) v) <
              ∑ v ∈ (Dict.keys g).toFinset, (g.length - cn count v) := by
            refine Finset.sum_lt_sum (fun v _ => ?_) ⟨u, List.mem_toFinset.2 hu, ?_⟩
            · rw [hcn]
              split_ifs with e
              · rw [← e, ec]; omega
              · exact le_refl _
            · rw [hcn, if_pos rfl, ec]; omega
          omega
        · intro hnn
          obtain ⟨hP, i, q1, q2, e, hp, h1, h2, h3⟩ := hph' hnn
          obtain ⟨hP', hq⟩ := k3 hnn
          obtain ⟨q2', e', hp'⟩ := hq i q1 q2 e hp
          refine ⟨hP', i, q1, q2', e', ⟨hp'.short, ?_, hp'.last⟩, h1, fun v => ?_, fun v hv => ?_⟩
          · intro a ha p c v x hw hl hx
            by_cases hau : a = u
            · subst hau
              refine (k7' v x hx).trans ?_
              rw [WithTop.coe_add]
              exact top_mono _ (hp.short p a c hw hl)
            · exact hp'.done a (by rw [List.mem_cons, not_or]; exact ⟨hau, ha⟩) p c v x hw hl hx
          · rw [hcn]
            split_ifs with e1
            · have := h3 u List.mem_cons_self
              rw [ec] at this
              omega
            · exact h2 v
          · rw [hcn, if_neg]
            · exact h3 v (List.mem_cons_of_mem _ hv)
            · rintro rfl
              exact hnd.1 (by rw [e]; exact List.mem_append_left _ hv)

theorem bellmanFord_spec {g : Graph V W} (hg : Good g) {s : V} (hs : Mem g s) :
    (¬ NoNeg g s ∧ bellmanFord g s = some (.error .valueError)) ∨
    ∃ C P, bellmanFord g s = some (.ok (C, P)) ∧ BF g s C [] ∅ ∧
      (∀ a b y, adj g a b = some y → dg C b ≤ dg C a + (y : WithTop W)) ∧ (NoNeg g s → PInv g s C P) := by
  rw [bellmanFord, if_neg (fun h : s ∉ Dict.keys g => h hs)]
  have kC : Dict.keys (g.map (fun e => (e.1, (⊤ : WithTop W)))) = Dict.keys g := keys_mapVal (fun _ => (⊤ : WithTop W)) g
  have kP : Dict.keys (g.map (fun e => (e.1, (none : Option V)))) = Dict.keys g := keys_mapVal (fun _ => (none : Option V)) g
  have kN : Dict.keys (g.map (fun e => (e.1, 0))) = Dict.keys g := keys_mapVal (fun _ => 0) g
  have gP : ∀ v, Mem g v → Dict.get? (g.map (fun e => (e.1, (none : Option V)))) v = some none := by
    intro v hv
    obtain ⟨N, hN⟩ := mem_iff.1 hv
    rw [get?_mapVal (fun _ => (none : Option V)), hN]; rfl
  have gC : ∀ v, dg (Dict.set (g.map (fun e => (e.1, (⊤ : WithTop W)))) s ((0 : W) : WithTop W)) v = if s = v then 0 else ⊤ := by
    intro v
    rw [dg_set]
    split_ifs
    · rfl
    · rw [dg, get?_mapVal (fun _ => (⊤ : WithTop W))]
      cases Dict.get? g v <;> rfl
  have gN : ∀ v, cn (g.map (fun e => (e.1, 0))) v = 0 := by
    intro v
    rw [cn, get?_mapVal (fun _ => 0)]
    cases Dict.get? g v <;> rfl
  have hlen : 1 ≤ g.length := by
    cases g with
    | nil => simp [Graph.Mem, Dict.keys] at hs
    | cons a g => simp
  refine bf_main hg hs _ _ _ _ _ _ ⟨?_, ?_, ?_, ?_, ?_, ?_⟩ ?_ kN (le_refl _) ?_
  · rw [Dict.keys_set, if_pos (by rw [kC]; exact hs)]; exact kC
  · rw [gC, if_pos rfl]
  · intro v c hc
    rw [gC] at hc
    split_ifs at hc with e
    · subst e
      have : (0 : W) = c := WithTop.coe_injective hc
      exact ⟨_, this ▸ WalkOf.start⟩
    · simp at hc
  · simp
  · simp
  · intro v hv; rw [List.mem_singleton.1 hv]; exact hs
  · intro a ha b y hy
    rw [gC a, if_neg (fun e => ha (by rw [← e]; simp)), WithTop.top_add]
    exact le_top
  · intro hnn
    refine ⟨⟨kP, by rw [gC, if_pos rfl], gP s hs, ?_, ?_, fun v _ hm => gP v hm⟩, 0, [s], [], rfl, ⟨?_, ?_, fun _ => rfl⟩, hlen, fun v => by rw [gN]; omega, fun v _ => by rw [gN]⟩
    · intro v y hy
      have hm : Mem g v := by
        rw [Mem, ← kP]; exact Dict.get?_isSome.1 ⟨_, hy⟩
      rw [gP v hm] at hy
      simp at hy
    · intro v hv
      rw [gC] at hv
      split_ifs at hv with e
      · subst e; exact ⟨[s], LinkPath.root (gP s hs)⟩
      · exact absurd rfl hv
    · intro p v c hw hl
      cases hw with
      | start => rw [gC, if_pos rfl]; exact le_refl _
      | step hw _ =>
        obtain ⟨r, hr⟩ := walk_head hw
        rw [hr] at hl; simp at hl
    · intro u hu p c v x hw hl
      cases hw with
      | start => simp at hu
      | step hw _ =>
        obtain ⟨r, hr⟩ := walk_head hw
        rw [hr] at hl; simp at hl

/-- What is returned are distances. -/
theorem bf_distances {g : Graph V W} {s : V} {C : Dict V (WithTop W)} (hB : BF g s C [] ∅)
    (hcl : ∀ a b y, adj g a b = some y → dg C b ≤ dg C a + (y : WithTop W)) :
    (∀ v, IsDistance (adj g) s v (dg C v)) ∧ ∀ p v c, WalkOf (adj g) s p v c → dg C v ≤ (c : WithTop W) := by
  have key : ∀ p v c, WalkOf (adj g) s p v c → dg C v ≤ (c : WithTop W) := by
    intro p v c h
    induction h with
    | start => exact hB.start
    | step _ hx ih =>
      refine (hcl _ _ _ hx).trans ?_
      rw [WithTop.coe_add]
      exact top_mono _ ih
  refine ⟨?_, key⟩
  intro v
  constructor
  · intro c hc
    refine ⟨hB.walk v c hc, fun p c' hp => ?_⟩
    have := key p v c' hp
    rw [hc] at this
    exact WithTop.coe_le_coe.1 this
  · intro ht p c hp
    have := key p v c hp
    rw [ht] at this
    simp at this

theorem bf_path {g : Graph V W} {s : V} {C : Dict V (WithTop W)} {P : Dict V (Option V)}
    (hcl : ∀ a b y, adj g a b = some y → dg C b ≤ dg C a + (y : WithTop W)) (h : PInv g s C P) {p : List V} {v : V}
    (hp : LinkPath (Dict.get? P) s p v) : ∀ c : W, dg C v = c → WalkOf (adj g) s p v c := by
  induction hp with
  | root _ =>
    intro c hc
    rw [h.zero] at hc
    have : (0 : W) = c := WithTop.coe_injective hc
    exact this ▸ WalkOf.start
  | step _ hv ih =>
    intro c hc
    obtain ⟨x, hx, hle⟩ := h.pred _ _ hv
    have k3 := le_antisymm hle (hcl _ _ _ hx)
    rw [hc] at k3
    obtain ⟨a, b, e1, e2, e3⟩ := WithTop.add_eq_coe.1 k3
    rw [← e3, WithTop.coe_injective e2]
    exact WalkOf.step (ih a e1.symm) hx

section cancel

variable {V W : Type} [LinearOrder V] [AddCommMonoid W] [LinearOrder W] [IsOrderedCancelAddMonoid W]

/-- What is returned are distances, and no edge that can be reached is negative. -/
theorem bf_distance {g : Graph V W} (hg : Good g) {s : V} {C : Dict V (WithTop W)} (hB : BF g s C [] ∅)
    (hcl : ∀ a b y, adj g a b = some y → dg C b ≤ dg C a + (y : WithTop W)) :
    (∀ v, IsDistance (adj g) s v (dg C v)) ∧ NoNeg g s := by
  obtain ⟨k1, key⟩ := bf_distances hB hcl
  refine ⟨k1, ?_⟩
  intro p u c v x hp hx
  have hut : dg C u ≠ ⊤ := fun e => by have := key p u c hp; rw [e] at this; simp at this
  obtain ⟨a, ha⟩ := WithTop.ne_top_iff_exists.1 hut
  have h1 := hcl u v x hx
  have h2 := hcl v u x (by rw [hg.symm]; exact hx)
  have h3 : dg C u ≤ dg C u + (x : WithTop W) + (x : WithTop W) := h2.trans (add_le_add h1 (le_refl _))
  rw [← ha, ← WithTop.coe_add, ← WithTop.coe_add, WithTop.coe_le_coe, add_assoc] at h3
  have h4 : 0 ≤ x + x := by rwa [le_add_iff_nonneg_right] at h3
  by_contra hneg
  exact absurd h4 (not_le.2 (add_neg (not_le.1 hneg) (not_le.1 hneg)))

end cancel

end Rosemary.Paths
