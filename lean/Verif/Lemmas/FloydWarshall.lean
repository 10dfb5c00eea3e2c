import Verif.Lemmas.Bidirectional
import Mathlib.Algebra.Order.BigOperators.Group.List
import Mathlib.Algebra.Order.Ring.Nat
import Mathlib.Algebra.Order.Group.Nat

/-!
# Lemmas on `floyd_warshall`
-/

namespace Rosemary.Paths

open Graph Spec

section rounds

variable {V W : Type} [LinearOrder V] [AddZeroClass W] [LinearOrder W]

/-- The dictionary has the values of `f` for all pairs of vertices. -/
def Rep (g : Graph V W) (D : Dict (V × V) (WithTop W × Option V)) (f : V → V → WithTop W × Option V) : Prop :=
  ∀ v w, Mem g v → Mem g w → Dict.get? D (v, w) = some (f v w)

/-- One round for the intermediate vertex `u`. -/
def T (f : V → V → WithTop W × Option V) (u v w : V) : WithTop W × Option V :=
  if (f v u).1 + (f u w).1 < (f v w).1 then ((f v u).1 + (f u w).1, (f u w).2) else f v w

omit [LinearOrder V] in
theorem T_le (f : V → V → WithTop W × Option V) (u v w : V) : (T f u v w).1 ≤ (f v w).1 := by
  rw [T]; split_ifs with h
  · exact h.le
  · exact le_refl _

omit [LinearOrder V] in
theorem T_le' (f : V → V → WithTop W × Option V) (u v w : V) : (T f u v w).1 ≤ (f v u).1 + (f u w).1 := by
  rw [T]; split_ifs with h
  · exact le_refl _
  · exact not_lt.1 h

omit [LinearOrder V] in
theorem T_row {f : V → V → WithTop W × Option V} {u : V} (h : (f u u).1 = 0) (w : V) : T f u u w = f u w := by
  rw [T, h, zero_add, if_neg (lt_irrefl _)]

omit [LinearOrder V] in
theorem T_col {f : V → V → WithTop W × Option V} {u : V} (h : (f u u).1 = 0) (v : V) : T f u v u = f v u := by
  rw [T, h, add_zero, if_neg (lt_irrefl _)]

theorem fwInner_spec {g : Graph V W} {f : V → V → WithTop W × Option V} {u v : V} (hu : Mem g u) (hv : Mem g v)
    (h0 : (f u u).1 = 0) (ws : List V) (hws : ∀ w ∈ ws, Mem g w) (D : Dict (V × V) (WithTop W × Option V))
    (h : V → V → WithTop W × Option V) (hD : Rep g D h) (hh : ∀ a b, h a b = f a b ∨ h a b = T f u a b) :
    ∃ D' h', fwInner u v ws D = .ok D' ∧ Rep g D' h' ∧ (∀ a b, h' a b = f a b ∨ h' a b = T f u a b) ∧
      (∀ w ∈ ws, h' v w = T f u v w) ∧ ∀ a b, h a b = T f u a b → h' a b = T f u a b := by
  induction ws generalizing D h with
  | nil => exact ⟨D, h, rfl, hD, hh, by simp, fun _ _ h => h⟩
  | cons w ws ih =>
    have hw := hws w List.mem_cons_self
    have e1 : h v u = f v u := (hh v u).elim id (fun e => e.trans (T_col h0 v))
    have e2 : h u w = f u w := (hh u w).elim id (fun e => e.trans (T_row h0 w))
    rw [fwInner, fwCell, hD v w hv hw, hD v u hv hu, hD u w hu hw, e1, e2]
    dsimp only
    by_cases hc : (f v u).1 + (f u w).1 < (h v w).1
    · rw [if_pos hc]
      dsimp only
      have ht : T f u v w = ((f v u).1 + (f u w).1, (f u w).2) := by
        have hf : h v w = f v w := (hh v w).elim id (fun e => absurd hc (by rw [e]; exact not_lt.2 (T_le' f u v w)))
        rw [T, if_pos (by rw [← hf]; exact hc)]
      have hrep : Rep g (Dict.set D (v, w) ((f v u).1 + (f u w).1, (f u w).2))
          (fun a b => if v = a ∧ w = b then T f u v w else h a b) := by
        intro a b ha hb
        rw [Dict.get?_set]
        dsimp only
        by_cases hc' : v = a ∧ w = b
        · rw [if_pos (by rw [hc'.1, hc'.2]), if_pos hc', ht]
        · rw [if_neg (by rwa [Prod.mk.injEq]), if_neg hc']
          exact hD a b ha hb
      have hor : ∀ a b, (if v = a ∧ w = b then T f u v w else h a b) = f a b ∨
          (if v = a ∧ w = b then T f u v w else h a b) = T f u a b := by
        intro a b
        by_cases hc' : v = a ∧ w = b
        · right; rw [if_pos hc', hc'.1, hc'.2]
        · rw [if_neg hc']; exact hh a b
      obtain ⟨D', h', k1, k2, k3, k4, k5⟩ := ih (fun x hx => hws x (List.mem_cons_of_mem _ hx)) _ _ hrep hor
      refine ⟨D', h', k1, k2, k3, fun x hx => ?_, fun a b hab => k5 a b ?_⟩
      · rcases List.mem_cons.1 hx with rfl | hx
        · exact k5 v x (if_pos ⟨rfl, rfl⟩)
        · exact k4 x hx
      · by_cases hc' : v = a ∧ w = b
        · rw [if_pos hc', hc'.1, hc'.2]
        · rw [if_neg hc']; exact hab
    · rw [if_neg hc]
      dsimp only
      obtain ⟨D', h', k1, k2, k3, k4, k5⟩ := ih (fun x hx => hws x (List.mem_cons_of_mem _ hx)) D h hD hh
      refine ⟨D', h', k1, k2, k3, fun x hx => ?_, k5⟩
      rcases List.mem_cons.1 hx with rfl | hx
      · refine k5 v x ?_
        rcases hh v x with e | e
        · rw [T, if_neg (by rw [← e]; exact hc), e]
        · exact e
      · exact k4 x hx

theorem fwMiddle_spec {g : Graph V W} {f : V → V → WithTop W × Option V} {u : V} (hu : Mem g u)
    (h0 : (f u u).1 = 0) (ws : List V) (hws : ∀ w, w ∈ ws ↔ Mem g w) (vs : List V) (hvs : ∀ v ∈ vs, Mem g v)
    (D : Dict (V × V) (WithTop W × Option V))
    (h : V → V → WithTop W × Option V) (hD : Rep g D h) (hh : ∀ a b, h a b = f a b ∨ h a b = T f u a b) :
    ∃ D' h', fwMiddle u ws vs D = .ok D' ∧ Rep g D' h' ∧ 
      (∀ v ∈ vs, ∀ w, Mem g w → h' v w = T f u v w) ∧ ∀ a b, h a b = T f u a b → h' a b = T f u a b := by
  induction vs generalizing D h with
  | nil => exact ⟨D, h, rfl, hD, by simp, fun _ _ h => h⟩
  | cons v vs ih =>
    obtain ⟨D1, h1, k1, k2, k3, k4, k5⟩ := fwInner_spec hu (hvs v List.mem_cons_self) h0 ws (fun w hw => (hws w).1 hw) D h hD hh
    rw [fwMiddle, k1]
    dsimp only
    obtain ⟨D2, h2, m1, m2, m3, m4⟩ := ih (fun x hx => hvs x (List.mem_cons_of_mem _ hx)) D1 h1 k2 k3
    refine ⟨D2, h2, m1, m2, fun a ha w hw => ?_, fun a b hab => m4 a b (k5 a b hab)⟩
    rcases List.mem_cons.1 ha with rfl | ha
    · exact m4 a w (k4 w ((hws w).2 hw))
    · exact m3 a ha w hw

/-- One round of the outer loop, when the test is passed. -/
theorem fw_round {g : Graph V W} {f : V → V → WithTop W × Option V} {u : V} (hu : Mem g u) (h0 : (f u u).1 = 0)
    {D : Dict (V × V) (WithTop W × Option V)} (hD : Rep g D f) :
    ∃ D', fwMiddle u (Dict.keys g) (Dict.keys g) D = .ok D' ∧ Rep g D' (T f u) := by
  obtain ⟨D', h', k1, k2, k3, -⟩ := fwMiddle_spec hu h0 (Dict.keys g) (fun _ => Iff.rfl) (Dict.keys g) (fun _ h => h) D f hD
    (fun _ _ => Or.inl rfl)
  refine ⟨D', k1, fun a b ha hb => ?_⟩
  rw [k2 a b ha hb, k3 a ha b hb]

/-- The adjacency without loops. -/
def noLoop (A : V → V → Option W) (u v : V) : Option W := if u = v then none else A u v

omit [AddZeroClass W] [LinearOrder W] in
theorem noLoop_eq {A : V → V → Option W} {u v : V} {x : W} (h : noLoop A u v = some x) : u ≠ v ∧ A u v = some x := by
  rw [noLoop] at h
  by_cases hc : u = v
  · rw [if_pos hc] at h; simp at h
  · rw [if_neg hc] at h; exact ⟨hc, h⟩

/-- The initial values. -/
def fw0 (g : Graph V W) (v w : V) : WithTop W × Option V := fwInit v w ((Dict.get? g v).getD [])

theorem rep_start {g : Graph V W} (hg : Good g) : Rep g (fwStart g) (fw0 g) := by
  intro v w hv hw
  obtain ⟨N, hN⟩ := mem_iff.1 hv
  have hk : Dict.keys (fwStart g) = (Dict.keys g).flatMap (fun a => (Dict.keys g).map (fun b => (a, b))) := by
    rw [fwStart, Dict.keys, List.map_flatMap, Dict.keys, List.flatMap_map]
    congr 1
    funext e
    rw [List.map_map]; rfl
  have hwf : Dict.WF (fwStart g) := by
    rw [Dict.WF, hk]
    exact List.Nodup.product hg.wf hg.wf
  apply Dict.get?_of_mem hwf
  rw [fwStart, List.mem_flatMap]
  refine ⟨(v, N), Dict.mem_of_get? hN, ?_⟩
  rw [List.mem_map]
  exact ⟨w, hw, by rw [fw0, hN]; rfl⟩

theorem fw0_cases (g : Graph V W) (v w : V) : (v = w ∧ fw0 g v w = (0, none)) ∨
    (v ≠ w ∧ adj g v w = none ∧ fw0 g v w = (⊤, none)) ∨ ∃ x, v ≠ w ∧ adj g v w = some x ∧ fw0 g v w = ((x : WithTop W), some v) := by
  rw [fw0, fwInit, adj]
  by_cases h : v = w
  · rw [if_pos h]; exact Or.inl ⟨h, rfl⟩
  · rw [if_neg h]
    right
    cases Dict.get? g v with
    | none => left; exact ⟨h, rfl, rfl⟩
    | some N =>
      dsimp only [Option.getD_some, Option.bind_some]
      cases hx : Dict.get? N w with
      | none => left; exact ⟨h, by simpa using hx, rfl⟩
      | some x => right; exact ⟨x, h, by simpa using hx, rfl⟩

/-! ### Negative edges -/

theorem fwOuter_negative {g : Graph V W} {b : V} (hb : Mem g b) (us : List V) (hus : ∀ u ∈ us, Mem g u) (hbu : b ∈ us)
    (D : Dict (V × V) (WithTop W × Option V)) (f : V → V → WithTop W × Option V) (hD : Rep g D f)
    (hd : ∀ v, Mem g v → (f v v).1 ≤ 0) (hneg : (f b b).1 < 0) : fwOuter (Dict.keys g) us D = .error .valueError := by
  induction us generalizing D f with
  | nil => simp at hbu
  | cons u us ih =>
    have hu := hus u List.mem_cons_self
    rw [fwOuter, hD u u hu hu]
    dsimp only
    by_cases hc : (f u u).1 < 0
    · rw [WithTop.coe_zero, if_pos hc]
    · rw [WithTop.coe_zero, if_neg hc]
      have h0 : (f u u).1 = 0 := le_antisymm (hd u hu) (not_lt.1 hc)
      obtain ⟨D1, k1, k2⟩ := fw_round hu h0 hD
      rw [k1]
      dsimp only
      refine ih (fun x hx => hus x (List.mem_cons_of_mem _ hx)) ?_ D1 _ k2 (fun v hv => (T_le f u v v).trans (hd v hv))
        (lt_of_le_of_lt (T_le f u b b) hneg)
      rcases List.mem_cons.1 hbu with rfl | h
      · exact absurd hneg hc
      · exact h

theorem fwOuter_negative_edge (hadd : ∀ a b c d : W, a ≤ b → c ≤ d → a + c ≤ b + d) {g : Graph V W} (hg : Good g) {a b : V} {x : W} (hab : noLoop (adj g) a b = some x) (hx : x < 0)
    (us : List V) (hus : ∀ u ∈ us, Mem g u) (hau : a ∈ us) (hbu : b ∈ us)
    (D : Dict (V × V) (WithTop W × Option V)) (f : V → V → WithTop W × Option V) (hD : Rep g D f)
    (hd : ∀ v, Mem g v → (f v v).1 ≤ 0) (h1 : (f a b).1 ≤ (x : WithTop W)) (h2 : (f b a).1 ≤ (x : WithTop W)) :
    fwOuter (Dict.keys g) us D = .error .valueError := by
  have hne := (noLoop_eq hab).1
  have ha : Mem g a := mem_of_adj (noLoop_eq hab).2
  have hb : Mem g b := mem_of_adj (by rw [hg.symm]; exact (noLoop_eq hab).2)
  have hxx : ((x : W) : WithTop W) + (x : WithTop W) < 0 := by
    rw [← WithTop.coe_add, ← WithTop.coe_zero, WithTop.coe_lt_coe]
    have := hadd x x x 0 le_rfl hx.le
    rw [add_zero] at this
    exact lt_of_le_of_lt this hx
  have hadd' : ∀ a b c d : WithTop W, a ≤ b → c ≤ d → a + c ≤ b + d := by
    intro a b c d h1 h2
    cases b with
    | top => rw [WithTop.top_add]; exact le_top
    | coe b =>
      cases d with
      | top => rw [WithTop.add_top]; exact le_top
      | coe d =>
        obtain ⟨a, rfl, ha⟩ := WithTop.le_coe_iff.1 h1
        obtain ⟨c, rfl, hc⟩ := WithTop.le_coe_iff.1 h2
        exact WithTop.coe_le_coe.2 (hadd a b c d ha hc)
  induction us generalizing D f with
  | nil => simp at hau
  | cons u us ih =>
    have hu := hus u List.mem_cons_self
    rw [fwOuter, hD u u hu hu]
    dsimp only
    by_cases hc : (f u u).1 < 0
    · rw [WithTop.coe_zero, if_pos hc]
    · rw [WithTop.coe_zero, if_neg hc]
      have h0 : (f u u).1 = 0 := le_antisymm (hd u hu) (not_lt.1 hc)
      obtain ⟨D1, k1, k2⟩ := fw_round hu h0 hD
      rw [k1]
      dsimp only
      have hus' := fun x hx => hus x (List.mem_cons_of_mem _ hx)
      have hd' : ∀ v, Mem g v → (T f u v v).1 ≤ 0 := fun v hv => (T_le f u v v).trans (hd v hv)
      by_cases hua : u = a
      · refine fwOuter_negative hb us hus' ((List.mem_cons.1 hbu).resolve_left (fun e => hne (by rw [e, hua]))) D1 _ k2 hd' ?_
        refine lt_of_le_of_lt (T_le' f u b b) (lt_of_le_of_lt ?_ hxx)
        rw [hua]
        exact hadd' _ _ _ _ h2 h1
      by_cases hub : u = b
      · refine fwOuter_negative ha us hus' ((List.mem_cons.1 hau).resolve_left (fun e => hne (by rw [e, hub]))) D1 _ k2 hd' ?_
        refine lt_of_le_of_lt (T_le' f u a a) (lt_of_le_of_lt ?_ hxx)
        rw [hub]
        exact hadd' _ _ _ _ h1 h2
      exact ih hus' ((List.mem_cons.1 hau).resolve_left (Ne.symm hua)) ((List.mem_cons.1 hbu).resolve_left (Ne.symm hub)) D1 _ k2 hd'
        ((T_le f u a b).trans h1) ((T_le f u b a).trans h2)

end rounds

variable {V W : Type} [LinearOrder V] [AddCommMonoid W] [LinearOrder W] [IsOrderedCancelAddMonoid W]

/-- What holds after the rounds for the vertices in `K`, if no edge is negative. -/
structure FInv (g : Graph V W) (K : V → Prop) (f : V → V → WithTop W × Option V) : Prop where
  diag : ∀ v, Mem g v → f v v = (0, none)
  edge : ∀ v w x, noLoop (adj g) v w = some x → (f v w).1 ≤ (x : WithTop W)
  walk : ∀ v w (c : W), Mem g v → Mem g w → (f v w).1 = c → ∃ p, WalkOf (noLoop (adj g)) v p w c
  tri : ∀ y, K y → Mem g y → ∀ a w, Mem g a → Mem g w → (f a w).1 ≤ (f a y).1 + (f y w).1
  pred : ∀ v w y, Mem g v → Mem g w → (f v w).2 = some y → ∃ x, noLoop (adj g) y w = some x ∧
    (f v y).1 + (x : WithTop W) ≤ (f v w).1 ∧ (y = v ∨ K y)
  predn : ∀ v w, Mem g v → Mem g w → (f v w).2 = none → v = w ∨ (f v w).1 = ⊤
  predt : ∀ v w, Mem g v → Mem g w → (f v w).1 = ⊤ → (f v w).2 = none
  rank : ∀ v, Mem g v → ∃ ρ : V → ℕ, ∀ w y, Mem g w → (f v w).2 = some y → ρ y < ρ w

theorem FInv.nonneg {g : Graph V W} (hN : ∀ u v x, noLoop (adj g) u v = some x → 0 ≤ x) {K : V → Prop}
    {f : V → V → WithTop W × Option V} (h : FInv g K f) {v w : V} (hv : Mem g v) (hw : Mem g w) : 0 ≤ (f v w).1 := by
  by_cases ht : (f v w).1 = ⊤
  · rw [ht]; exact le_top
  · obtain ⟨c, hc⟩ := WithTop.ne_top_iff_exists.1 ht
    obtain ⟨p, hp⟩ := h.walk v w c hv hw hc.symm
    rw [← hc]
    exact WithTop.coe_le_coe.2 (walk_nonneg hN hp)

omit [LinearOrder V] [LinearOrder W] [IsOrderedCancelAddMonoid W] in
theorem walk_trans {A : V → V → Option W} {s : V} {p : List V} {u : V} {c : W} (h : WalkOf A s p u c) {q : List V} {v : V} {d : W}
    (hq : WalkOf A u q v d) : ∃ r, WalkOf A s r v (c + d) := by
  induction hq with
  | start => exact ⟨p, by rw [add_zero]; exact h⟩
  | step _ hx ih =>
    obtain ⟨r, hr⟩ := ih
    exact ⟨_, by rw [← add_assoc]; exact WalkOf.step hr hx⟩

theorem FInv.round {g : Graph V W} (hg : Good g) (hN : ∀ u v x, noLoop (adj g) u v = some x → 0 ≤ x) {K : V → Prop}
    {f : V → V → WithTop W × Option V} (h : FInv g K f) {u : V} (hu : Mem g u) :
    FInv g (fun y => y = u ∨ K y) (T f u) := by
  have h0 : (f u u).1 = 0 := by rw [h.diag u hu]
  have nn := fun {v w : V} (hv : Mem g v) (hw : Mem g w) => h.nonneg hN hv hw
  have hmem : ∀ {y w : V} {x : W}, noLoop (adj g) y w = some x → Mem g y := fun hx => mem_of_adj (noLoop_eq hx).2
  constructor
  · intro v hv
    rw [T, if_neg, h.diag v hv]
    rw [h.diag v hv]
    exact not_lt.2 (add_nonneg (nn hv hu) (nn hu hv))
  · intro v w x hx
    exact (T_le f u v w).trans (h.edge v w x hx)
  · intro v w c hv hw hc
    rw [T] at hc
    split_ifs at hc with hlt
    · dsimp only at hc
      obtain ⟨c1, c2, e1, e2, e3⟩ := WithTop.add_eq_coe.1 hc
      obtain ⟨p, hp⟩ := h.walk v u c1 hv hu e1.symm
      obtain ⟨q, hq⟩ := h.walk u w c2 hu hw e2.symm
      rw [← e3]
      exact walk_trans hp hq
    · exact h.walk v w c hv hw hc
  · intro y hy hym a w ha hw
    rcases hy with rfl | hy
    · rw [T_row h0, T_col h0]
      exact T_le' f y a w
    · have t1 := T_le f u a w
      have t2 := T_le' f u a w
      have cases1 : (T f u a y).1 = (f a y).1 ∨ (T f u a y).1 = (f a u).1 + (f u y).1 := by
        rw [T]; split_ifs
        · exact Or.inr rfl
        · exact Or.inl rfl
      have cases2 : (T f u y w).1 = (f y w).1 ∨ (T f u y w).1 = (f y u).1 + (f u w).1 := by
        rw [T]; split_ifs
        · exact Or.inr rfl
        · exact Or.inl rfl
      rcases cases1 with c1 | c1 <;> rcases cases2 with c2 | c2 <;> rw [c1, c2]
      · exact t1.trans (h.tri y hy hym a w ha hw)
      · rw [← add_assoc]
        exact t2.trans (add_le_add (h.tri y hy hym a u ha hu) (le_refl _))
      · rw [add_assoc]
        exact t2.trans (add_le_add (le_refl _) (h.tri y hy hym u w hu hw))
      · refine t2.trans ?_
        rw [show (f a u).1 + (f u y).1 + ((f y u).1 + (f u w).1) = (f a u).1 + ((f u y).1 + (f y u).1) + (f u w).1 by
          rw [add_assoc, add_assoc, add_assoc]]
        refine add_le_add ?_ (le_refl _)
        exact le_add_of_nonneg_right (add_nonneg (nn hu hym) (nn hym hu))
  · intro v w y hv hw hy
    rw [T] at hy
    split_ifs at hy with hlt
    · dsimp only at hy
      obtain ⟨x, hx, k1, k2⟩ := h.pred u w y hu hw hy
      refine ⟨x, hx, ?_, Or.inr k2⟩
      rw [show T f u v w = ((f v u).1 + (f u w).1, (f u w).2) by rw [T, if_pos hlt]]
      dsimp only
      refine (add_le_add (T_le' f u v y) (le_refl _)).trans ?_
      rw [add_assoc]
      exact add_le_add (le_refl _) k1
    · obtain ⟨x, hx, k1, k2⟩ := h.pred v w y hv hw hy
      refine ⟨x, hx, ?_, k2.imp id Or.inr⟩
      rw [show T f u v w = f v w by rw [T, if_neg hlt]]
      exact (add_le_add (T_le f u v y) (le_refl _)).trans k1
  · intro v w hv hw hn
    rw [T] at hn ⊢
    split_ifs at hn ⊢ with hlt
    · dsimp only at hn ⊢
      rcases h.predn u w hu hw hn with rfl | ht
      · rw [h0, add_zero] at hlt
        exact absurd hlt (lt_irrefl _)
      · right; rw [ht, WithTop.add_top]
    · exact h.predn v w hv hw hn
  · intro v w hv hw ht
    rw [T] at ht ⊢
    split_ifs at ht ⊢ with hlt
    · dsimp only at ht
      rw [ht] at hlt
      exact absurd hlt not_top_lt
    · exact h.predt v w hv hw ht
  · intro v hv
    obtain ⟨ρ, hρ⟩ := h.rank v hv
    obtain ⟨ρu, hρu⟩ := h.rank u hu
    -- the vertices whose entry changes
    let M : ℕ := (((Dict.keys g).map ρ).sum) + 1
    have hM : ∀ y, Mem g y → ρ y < M := fun y hy => Nat.lt_succ_of_le (List.le_sum_of_mem (List.mem_map_of_mem hy))
    refine ⟨fun w => if (f v u).1 + (f u w).1 < (f v w).1 then M + ρu w else ρ w, fun w y hw hy => ?_⟩
    dsimp only
    rw [T] at hy
    by_cases hlt : (f v u).1 + (f u w).1 < (f v w).1
    · rw [if_pos hlt] at hy ⊢
      dsimp only at hy
      obtain ⟨x, hx, -, -⟩ := h.pred u w y hu hw hy
      split_ifs with hc
      · exact Nat.add_lt_add_left (hρu w y hw hy) M
      · exact (hM y (hmem hx)).trans_le (Nat.le_add_right _ _)
    · rw [if_neg hlt] at hy ⊢
      obtain ⟨x, hx, k1, k2⟩ := h.pred v w y hv hw hy
      have hym := hmem hx
      rw [if_neg]
      · exact hρ w y hw hy
      · intro hc
        apply hlt
        rcases k2 with rfl | k2
        · rw [h.diag y hv] at hc
          exact absurd hc (not_lt.2 (add_nonneg (nn hv hu) (nn hu hv)))
        · have t1 : (f u w).1 ≤ (f u y).1 + (x : WithTop W) :=
            (h.tri y k2 hym u w hu hw).trans (add_le_add (le_refl _) (h.edge y w x hx))
          have t2 : (f v u).1 + (f u y).1 + (x : WithTop W) < (f v y).1 + (x : WithTop W) :=
            WithTop.add_lt_add_right WithTop.coe_ne_top hc
          refine lt_of_le_of_lt (add_le_add (le_refl _) t1) (lt_of_lt_of_le ?_ k1)
          rw [← add_assoc]
          exact t2

theorem fwOuter_spec {g : Graph V W} (hg : Good g) (hN : ∀ u v x, noLoop (adj g) u v = some x → 0 ≤ x) (us : List V)
    (hus : ∀ u ∈ us, Mem g u) (K : V → Prop) (D : Dict (V × V) (WithTop W × Option V)) (f : V → V → WithTop W × Option V)
    (hD : Rep g D f) (h : FInv g K f) :
    ∃ D' f', fwOuter (Dict.keys g) us D = .ok D' ∧ Rep g D' f' ∧ FInv g (fun y => y ∈ us ∨ K y) f' := by
  induction us generalizing K D f with
  | nil =>
    refine ⟨D, f, rfl, hD, ?_⟩
    convert h using 1
    funext y; simp
  | cons u us ih =>
    have hu := hus u List.mem_cons_self
    have h0 : (f u u).1 = 0 := by rw [h.diag u hu]
    obtain ⟨D1, k1, k2⟩ := fw_round hu h0 hD
    rw [fwOuter, hD u u hu hu]
    dsimp only
    rw [h0, WithTop.coe_zero, if_neg (lt_irrefl _), k1]
    dsimp only
    obtain ⟨D2, f2, m1, m2, m3⟩ := ih (fun x hx => hus x (List.mem_cons_of_mem _ hx)) _ D1 _ k2 (h.round hg hN hu)
    refine ⟨D2, f2, m1, m2, ?_⟩
    convert m3 using 1
    funext y
    rw [List.mem_cons]
    exact propext ⟨by tauto, by tauto⟩

omit [IsOrderedCancelAddMonoid W] in
theorem FInv.init (g : Graph V W) : FInv g (fun _ => False) (fw0 g) := by
  refine ⟨?_, ?_, ?_, by simp, ?_, ?_, ?_, ?_⟩
  · intro v _
    rcases fw0_cases g v v with ⟨_, h⟩ | ⟨h, _⟩ | ⟨x, h, _⟩
    · exact h
    · exact absurd rfl h
    · exact absurd rfl h
  · intro v w x hx
    obtain ⟨hne, hx⟩ := noLoop_eq hx
    rcases fw0_cases g v w with ⟨h, _⟩ | ⟨_, h, _⟩ | ⟨y, _, h, k⟩
    · exact absurd h hne
    · rw [hx] at h; simp at h
    · rw [hx] at h
      injection h with h
      rw [k, h]
  · intro v w c _ _ hc
    rcases fw0_cases g v w with ⟨rfl, k⟩ | ⟨_, h, k⟩ | ⟨y, h1, h, k⟩
    · rw [k] at hc
      have : (0 : W) = c := WithTop.coe_injective hc
      exact ⟨[v], this ▸ WalkOf.start⟩
    · rw [k] at hc; simp at hc
    · rw [k] at hc
      have : y = c := WithTop.coe_injective hc
      have hs := WalkOf.step (WalkOf.start (A := noLoop (adj g)) (s := v)) (w := w) (x := y) (by rw [noLoop, if_neg h1, h])
      rw [zero_add, this] at hs
      exact ⟨_, hs⟩
  · intro v w y _ _ hy
    rcases fw0_cases g v w with ⟨rfl, k⟩ | ⟨_, h, k⟩ | ⟨z, h1, h, k⟩
    · rw [k] at hy; simp at hy
    · rw [k] at hy; simp at hy
    · rw [k] at hy
      injection hy with hy
      refine ⟨z, by rw [← hy, noLoop, if_neg h1, h], ?_, Or.inl hy.symm⟩
      rw [k, ← hy]
      rcases fw0_cases g v v with ⟨_, h⟩ | ⟨h, _⟩ | ⟨x, h, _⟩
      · rw [h, zero_add]
      · exact absurd rfl h
      · exact absurd rfl h
  · intro v w _ _ hn
    rcases fw0_cases g v w with ⟨h, k⟩ | ⟨_, h, k⟩ | ⟨y, h1, h, k⟩
    · exact Or.inl h
    · right; rw [k]
    · rw [k] at hn; simp at hn
  · intro v w _ _ ht
    rcases fw0_cases g v w with ⟨h, k⟩ | ⟨_, h, k⟩ | ⟨y, h1, h, k⟩
    · rw [k]
    · rw [k]
    · rw [k] at ht; simp at ht
  · intro v _
    refine ⟨fun w => if w = v then 0 else 1, fun w y _ hy => ?_⟩
    rcases fw0_cases g v w with ⟨h, k⟩ | ⟨_, h, k⟩ | ⟨z, h1, h, k⟩
    · rw [k] at hy; simp at hy
    · rw [k] at hy; simp at hy
    · rw [k] at hy
      injection hy with hy
      dsimp only
      rw [if_pos hy.symm, if_neg (Ne.symm h1)]
      exact Nat.one_pos

theorem FInv.le_walk {g : Graph V W} {f : V → V → WithTop W × Option V} (h : FInv g (fun y => y ∈ Dict.keys g ∨ False) f)
    (hg : Good g) {v : V} (hv : Mem g v) {p : List V} {w : V} {c : W} (hp : WalkOf (noLoop (adj g)) v p w c) :
    Mem g w ∧ (f v w).1 ≤ (c : WithTop W) := by
  induction hp with
  | start => exact ⟨hv, by rw [h.diag v hv]; exact le_refl _⟩
  | step hp hx ih =>
    rename_i p y w c x
    obtain ⟨h1, h2⟩ := ih
    have hw : Mem g w := mem_of_adj (by rw [hg.symm]; exact (noLoop_eq hx).2)
    refine ⟨hw, (h.tri y (Or.inl h1) h1 v w hv hw).trans ?_⟩
    rw [WithTop.coe_add]
    exact add_le_add h2 (h.edge _ _ _ hx)

theorem FInv.distance {g : Graph V W} {f : V → V → WithTop W × Option V} (h : FInv g (fun y => y ∈ Dict.keys g ∨ False) f)
    (hg : Good g) {v w : V} (hv : Mem g v) (hw : Mem g w) : IsDistance (noLoop (adj g)) v w (f v w).1 := by
  constructor
  · intro c hc
    refine ⟨h.walk v w c hv hw hc, fun p c' hp => ?_⟩
    have := (h.le_walk hg hv hp).2
    rw [hc] at this
    exact WithTop.coe_le_coe.1 this
  · intro ht p c hp
    have := (h.le_walk hg hv hp).2
    rw [ht] at this
    simp at this

theorem FInv.path {g : Graph V W} {f : V → V → WithTop W × Option V} (h : FInv g (fun y => y ∈ Dict.keys g ∨ False) f)
    {v : V} (hv : Mem g v) {P : V → Option (Option V)} (hP : ∀ w, Mem g w → P w = some (f v w).2)
    (w : V) (hw : Mem g w) (c : W) (hc : (f v w).1 = c) : ∃ p, LinkPath P v p w ∧ WalkOf (noLoop (adj g)) v p w c := by
  obtain ⟨ρ, hρ⟩ := h.rank v hv
  have key : ∀ n w c, Mem g w → ρ w < n → (f v w).1 = ((c : W) : WithTop W) →
      ∃ p, LinkPath P v p w ∧ WalkOf (noLoop (adj g)) v p w c := by
    intro n
    induction n with
    | zero => intro w c _ h; omega
    | succ n ih =>
      intro w c hw hn hc
      cases hp : (f v w).2 with
      | none =>
        rcases h.predn v w hv hw hp with rfl | ht
        · rw [h.diag v hv] at hc
          have : (0 : W) = c := WithTop.coe_injective hc
          rw [← this]
          exact ⟨[v], LinkPath.root (by rw [hP v hv, hp]), WalkOf.start⟩
        · rw [hc] at ht; simp at ht
      | some y =>
        obtain ⟨x, hx, k1, -⟩ := h.pred v w y hv hw hp
        have hy : Mem g y := mem_of_adj (noLoop_eq hx).2
        have k2 : (f v w).1 ≤ (f v y).1 + (x : WithTop W) :=
          (h.tri y (Or.inl hy) hy v w hv hw).trans (add_le_add (le_refl _) (h.edge _ _ _ hx))
        have k3 := le_antisymm k1 k2
        rw [hc] at k3
        obtain ⟨c1, c2, e1, e2, e3⟩ := WithTop.add_eq_coe.1 k3
        obtain ⟨p, m1, m2⟩ := ih y c1 hy (by have := hρ w y hw hp; omega) e1.symm
        refine ⟨p ++ [w], LinkPath.step m1 (by rw [hP w hw, hp]), ?_⟩
        rw [← e3, WithTop.coe_injective e2]
        exact WalkOf.step m2 hx
  exact key (ρ w + 1) w c hw (Nat.lt_succ_self _) hc

/-- All of it, if no edge (apart from loops) is negative. -/
theorem floydWarshall_spec {g : Graph V W} (hg : Good g) (hN : ∀ u v x, noLoop (adj g) u v = some x → 0 ≤ x) :
    ∃ D f, floydWarshall g = .ok D ∧ Rep g D f ∧ FInv g (fun y => y ∈ Dict.keys g ∨ False) f :=
  fwOuter_spec hg hN (Dict.keys g) (fun _ h => h) _ _ _ (rep_start hg) (FInv.init g)

theorem floydWarshall_negative {g : Graph V W} (hg : Good g) {a b : V} {x : W} (hab : noLoop (adj g) a b = some x) (hx : x < 0) :
    floydWarshall g = .error .valueError := by
  have ha : Mem g a := mem_of_adj (noLoop_eq hab).2
  have hb : Mem g b := mem_of_adj (by rw [hg.symm]; exact (noLoop_eq hab).2)
  have h := FInv.init g
  refine fwOuter_negative_edge (fun _ _ _ _ h k => add_le_add h k) hg hab hx (Dict.keys g) (fun _ h => h) ha hb _ _ (rep_start hg)
    (fun v hv => by rw [h.diag v hv]) (h.edge a b x hab) (h.edge b a x ?_)
  rw [noLoop, if_neg (Ne.symm (noLoop_eq hab).1), hg.symm]
  exact (noLoop_eq hab).2

end Rosemary.Paths
