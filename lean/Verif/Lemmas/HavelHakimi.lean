import Mathlib.Combinatorics.SimpleGraph.Basic
import Mathlib.Combinatorics.SimpleGraph.Maps
import Mathlib.Algebra.BigOperators.Fin
import Mathlib.Data.Fintype.BigOperators
import Verif.Model.DegreeSequences
import Mathlib.Data.Fintype.Card
import Mathlib.Data.Fintype.Sigma
import Mathlib.Data.Fintype.EquivFin
import Mathlib.Data.Set.Card
import Mathlib.Tactic.Linarith
import Mathlib.Tactic.Ring

/-!
# The exchange argument of Havel and Hakimi
-/

namespace Rosemary.Havel

open Classical in
/-- The number of neighbours. -/
noncomputable def deg {W : Type} [Fintype W] (G : SimpleGraph W) (v : W) : ℕ := (Finset.univ.filter (fun w => G.Adj v w)).card

theorem card_exchange {W : Type} [DecidableEq W] {s : Finset W} {p q : W} (hq : q ∈ s) (hp : p ∉ s) :
    (insert p (s.erase q)).card = s.card := by
  rw [Finset.card_insert_of_notMem (fun h => hp (Finset.mem_of_mem_erase h)), Finset.card_erase_of_mem hq]
  have := Finset.card_pos.2 ⟨q, hq⟩
  omega

/-- Remove the edges r-b and a-w, insert the edges r-a and b-w. -/
def switch {W : Type} (G : SimpleGraph W) (r a b w : W) (h1 : r ≠ a) (h2 : b ≠ w) : SimpleGraph W where
  Adj x y := (G.Adj x y ∧ s(x, y) ≠ s(r, b) ∧ s(x, y) ≠ s(a, w)) ∨ s(x, y) = s(r, a) ∨ s(x, y) = s(b, w)
  symm := ⟨fun x y h => by
    rw [Sym2.eq_swap (a := y) (b := x)]
    rcases h with h | h
    · exact Or.inl ⟨h.1.symm, h.2⟩
    · exact Or.inr h⟩
  loopless := ⟨fun x h => by
    rcases h with h | h | h
    · exact G.loopless.irrefl x h.1
    · simp only [Sym2.eq_iff] at h
      rcases h with ⟨rfl, e⟩ | ⟨rfl, e⟩
      · exact h1 e
      · exact h1 e.symm
    · simp only [Sym2.eq_iff] at h
      rcases h with ⟨rfl, e⟩ | ⟨rfl, e⟩
      · exact h2 e
      · exact h2 e.symm⟩

open Classical in
theorem deg_switch {W : Type} [Fintype W] (G : SimpleGraph W) {r a b w : W} (hrb : G.Adj r b) (haw : G.Adj a w) (hra : ¬ G.Adj r a)
    (hbw : ¬ G.Adj b w) (h1 : r ≠ a) (h2 : b ≠ w) (x : W) : deg (switch G r a b w h1 h2) x = deg G x := by
  have n1 : r ≠ b := hrb.ne
  have n2 : a ≠ w := haw.ne
  have n3 : a ≠ b := fun e => hra (e ▸ hrb)
  have n4 : r ≠ w := fun e => hra (e ▸ haw.symm)
  have key : ∀ p q, G.Adj x q → ¬ G.Adj x p → (∀ y, (switch G r a b w h1 h2).Adj x y ↔ y = p ∨ (y ≠ q ∧ G.Adj x y)) →
      deg (switch G r a b w h1 h2) x = deg G x := by
    intro p q hq hp hy
    rw [deg, deg, ← card_exchange (s := Finset.univ.filter (fun w => G.Adj x w)) (p := p) (q := q) (by simpa using hq) (by simpa using hp)]
    congr 1
    ext y
    simp only [Finset.mem_filter, Finset.mem_univ, true_and, hy, Finset.mem_insert, Finset.mem_erase]
  have hadj : ∀ y, (switch G r a b w h1 h2).Adj x y ↔
      (G.Adj x y ∧ s(x, y) ≠ s(r, b) ∧ s(x, y) ≠ s(a, w)) ∨ s(x, y) = s(r, a) ∨ s(x, y) = s(b, w) := fun y => Iff.rfl
  by_cases hx1 : x = r
  · subst hx1
    refine key a b hrb hra (fun y => ?_)
    rw [hadj]
    simp only [Sym2.eq_iff, ne_eq, true_and, h1, n1, n4, false_and, or_false, not_false_eq_true, and_true]
    tauto
  by_cases hx2 : x = a
  · subst hx2
    refine key r w haw (fun h => hra h.symm) (fun y => ?_)
    rw [hadj]
    simp only [Sym2.eq_iff, ne_eq, true_and, Ne.symm h1, n2, n3, false_and, or_false, false_or, not_false_eq_true, and_true]
    tauto
  by_cases hx3 : x = b
  · subst hx3
    refine key w r hrb.symm hbw (fun y => ?_)
    rw [hadj]
    simp only [Sym2.eq_iff, ne_eq, true_and, Ne.symm n1, h2, Ne.symm n3, false_and, or_false, false_or, not_false_eq_true, and_true]
    tauto
  by_cases hx4 : x = w
  · subst hx4
    refine key b a haw.symm (fun h => hbw h.symm) (fun y => ?_)
    rw [hadj]
    simp only [Sym2.eq_iff, ne_eq, true_and, Ne.symm n2, Ne.symm n4, Ne.symm h2, false_and, or_false, false_or, not_false_eq_true, and_true]
    tauto
  · rw [deg, deg]
    congr 1
    ext y
    simp only [Finset.mem_filter, Finset.mem_univ, true_and]
    rw [hadj]
    simp only [Sym2.eq_iff, ne_eq, hx1, hx2, hx3, hx4, false_and, or_false, not_false_eq_true, and_true]

open Classical in
/-- A vertex can be joined to the vertices of largest degree. -/
theorem exchange {W : Type} [Fintype W] (r : W) (A : Finset W) (hr : r ∉ A) (n : ℕ) (G : SimpleGraph W) (hc : A.card = deg G r)
    (hA : ∀ a ∈ A, ∀ b, b ∉ A → b ≠ r → deg G b ≤ deg G a) (hn : (A.filter (fun a => ¬ G.Adj r a)).card = n) :
    ∃ G' : SimpleGraph W, (∀ x, deg G' x = deg G x) ∧ ∀ y, G'.Adj r y ↔ y ∈ A := by
  induction n generalizing G with
  | zero =>
    refine ⟨G, fun _ => rfl, ?_⟩
    have hsub : A ⊆ Finset.univ.filter (fun w => G.Adj r w) := by
      intro a ha
      rw [Finset.mem_filter]
      refine ⟨Finset.mem_univ _, ?_⟩
      by_contra h
      have : a ∈ A.filter (fun a => ¬ G.Adj r a) := Finset.mem_filter.2 ⟨ha, h⟩
      rw [Finset.card_eq_zero.1 hn] at this
      simp at this
    have e := Finset.eq_of_subset_of_card_le hsub (by rw [hc]; rfl)
    intro y
    rw [e, Finset.mem_filter]
    simp
  | succ n ih =>
    have hne : (A.filter (fun a => ¬ G.Adj r a)).Nonempty := Finset.card_pos.1 (by omega)
    obtain ⟨a, ha⟩ := hne
    obtain ⟨haA, hra⟩ := Finset.mem_filter.1 ha
    -- a neighbour outside
    obtain ⟨b, hrb, hbA⟩ : ∃ b, G.Adj r b ∧ b ∉ A := by
      by_contra hcon
      push Not at hcon
      have hsub : Finset.univ.filter (fun w => G.Adj r w) ⊆ A := fun b hb => hcon b (Finset.mem_filter.1 hb).2
      have e := Finset.eq_of_subset_of_card_le hsub (by rw [hc]; rfl)
      rw [← e] at haA
      exact hra (Finset.mem_filter.1 haA).2
    have hbr : b ≠ r := hrb.ne'
    have hab : a ≠ b := fun e => hra (e ▸ hrb)
    have har : r ≠ a := fun e => hr (e ▸ haA)
    have hdeg := hA a haA b hbA hbr
    obtain ⟨w, haw, hwb, hbw⟩ : ∃ w, G.Adj a w ∧ w ≠ b ∧ ¬ G.Adj b w := by
      by_contra hcon
      push Not at hcon
      have hsub : (Finset.univ.filter (fun w => G.Adj a w)).erase b ⊆ ((Finset.univ.filter (fun w => G.Adj b w)).erase a).erase r := by
        intro w hw
        simp only [Finset.mem_erase, Finset.mem_filter, Finset.mem_univ, true_and] at hw ⊢
        exact ⟨fun e => hra (e ▸ hw.2.symm), hw.2.ne', hcon w hw.2 hw.1⟩
      have hle := Finset.card_le_card hsub
      have hrmem : r ∈ (Finset.univ.filter (fun w => G.Adj b w)).erase a := by
        simp only [Finset.mem_erase, Finset.mem_filter, Finset.mem_univ, true_and]
        exact ⟨har, hrb.symm⟩
      rw [Finset.card_erase_of_mem hrmem] at hle
      have hpos := Finset.card_pos.2 ⟨r, hrmem⟩
      rw [deg, deg] at hdeg
      by_cases hadj : G.Adj a b
      · rw [Finset.card_erase_of_mem (by simpa using hadj)] at hle
        rw [Finset.card_erase_of_mem (by simpa using hadj.symm)] at hle hpos
        omega
      · rw [Finset.erase_eq_of_notMem (by simpa using hadj)] at hle
        rw [Finset.erase_eq_of_notMem (by simpa using fun h => hadj h.symm)] at hle hpos
        omega
    have hd := deg_switch G hrb haw hra hbw har hwb.symm
    have hrw : r ≠ w := fun e => hra (e ▸ haw.symm)
    have hadjr : ∀ y, (switch G r a b w har hwb.symm).Adj r y ↔ y = a ∨ (y ≠ b ∧ G.Adj r y) := by
      intro y
      show (G.Adj r y ∧ s(r, y) ≠ s(r, b) ∧ s(r, y) ≠ s(a, w)) ∨ s(r, y) = s(r, a) ∨ s(r, y) = s(b, w) ↔ _
      simp only [Sym2.eq_iff, ne_eq, true_and, har, Ne.symm hbr, hrw, false_and, or_false, not_false_eq_true, and_true]
      tauto
    obtain ⟨G', k1, k2⟩ := ih (switch G r a b w har hwb.symm) (by rw [hd]; exact hc) (by
      intro a' ha' b' hb' hbr'
      rw [hd, hd]; exact hA a' ha' b' hb' hbr') (by
      have : A.filter (fun x => ¬ (switch G r a b w har hwb.symm).Adj r x) = (A.filter (fun a => ¬ G.Adj r a)).erase a := by
        ext y
        simp only [Finset.mem_filter, Finset.mem_erase, hadjr]
        constructor
        · rintro ⟨h1, h2⟩
          push Not at h2
          exact ⟨h2.1, h1, h2.2 (fun e => hbA (e ▸ h1))⟩
        · rintro ⟨h1, h2, h3⟩
          exact ⟨h2, by rintro (h | h); exact h1 h; exact h3 h.2⟩
      rw [this, Finset.card_erase_of_mem ha, hn]; rfl)
    exact ⟨G', fun x => (k1 x).trans (hd x), k2⟩

/-- Equal multisets of values can be matched. -/
theorem exists_match {α β γ : Type} [Fintype α] [Fintype β] (f : α → γ) (g : β → γ)
    (h : (Finset.univ : Finset α).val.map f = (Finset.univ : Finset β).val.map g) : ∃ e : α ≃ β, ∀ a, g (e a) = f a := by
  classical
  have hc : ∀ c, Fintype.card {a // f a = c} = Fintype.card {b // g b = c} := by
    intro c
    have := congrArg (Multiset.count c) h
    rw [Multiset.count_map, Multiset.count_map] at this
    rw [Fintype.card_subtype, Fintype.card_subtype]
    rw [Finset.card_def, Finset.card_def, Finset.filter_val, Finset.filter_val]
    simpa [eq_comm] using this
  let e : α ≃ β := (Equiv.sigmaFiberEquiv f).symm.trans ((Equiv.sigmaCongrRight (fun c => Fintype.equivOfCardEq (hc c))).trans
    (Equiv.sigmaFiberEquiv g))
  refine ⟨e, fun a => ?_⟩
  exact (Fintype.equivOfCardEq (hc (f a)) ⟨a, rfl⟩).2

/-- The list is the list of degrees of a graph. -/
def Graphic (l : List ℤ) : Prop := ∃ G : SimpleGraph (Fin l.length), ∀ i, (deg G i : ℤ) = l.get i

open Classical in
theorem deg_map {V W : Type} [Fintype V] [Fintype W] (e : V ≃ W) (G : SimpleGraph V) (v : V) :
    deg (G.map e.toEmbedding) (e v) = deg G v := by
  rw [deg, deg]
  refine (Finset.card_bij (fun x _ => e x) ?_ ?_ ?_).symm
  · intro x hx
    simp only [Finset.mem_filter, Finset.mem_univ, true_and] at hx ⊢
    exact (SimpleGraph.map_adj _ _ _ _).2 ⟨v, x, hx, rfl, rfl⟩
  · intro x _ y _ h
    exact e.injective h
  · intro y hy
    simp only [Finset.mem_filter, Finset.mem_univ, true_and] at hy
    obtain ⟨a, b, hab, h1, h2⟩ := (SimpleGraph.map_adj _ _ _ _).1 hy
    have : a = v := e.injective h1
    subst this
    exact ⟨b, by simpa using hab, h2⟩

theorem Graphic.perm {l l' : List ℤ} (hp : l.Perm l') (h : Graphic l) : Graphic l' := by
  obtain ⟨G, hG⟩ := h
  obtain ⟨e, he⟩ := exists_match l.get l'.get (by
    rw [Fin.univ_val_map, Fin.univ_val_map, List.ofFn_get, List.ofFn_get]
    exact Multiset.coe_eq_coe.2 hp)
  refine ⟨G.map e.toEmbedding, fun i => ?_⟩
  obtain ⟨j, rfl⟩ := e.surjective i
  rw [deg_map, hG, he]

/-! ### One round -/

/-- The numbers are the degrees of a graph. -/
def GraphicF (n : ℕ) (f : Fin n → ℤ) : Prop := ∃ G : SimpleGraph (Fin n), ∀ i, (deg G i : ℤ) = f i

theorem graphic_iff {l : List ℤ} {n : ℕ} (h : l.length = n) : Graphic l ↔ GraphicF n (fun i => l[i.val]'(by omega)) := by
  subst h
  exact Iff.rfl

open Classical in
theorem deg_eq_sum {W : Type} [Fintype W] (G : SimpleGraph W) (v : W) : deg G v = ∑ w, if G.Adj v w then 1 else 0 := by
  rw [deg, Finset.card_filter]

/-- A new vertex 0 joined to the first `k` vertices. -/
def join {n : ℕ} (G : SimpleGraph (Fin n)) (k : ℕ) : SimpleGraph (Fin (n + 1)) where
  Adj x y := (∃ i j, x = Fin.succ i ∧ y = Fin.succ j ∧ G.Adj i j) ∨ (x = 0 ∧ ∃ j : Fin n, y = Fin.succ j ∧ j.val < k) ∨
    (y = 0 ∧ ∃ j : Fin n, x = Fin.succ j ∧ j.val < k)
  symm := ⟨fun x y h => by
    rcases h with ⟨i, j, h1, h2, h3⟩ | h | h
    · exact Or.inl ⟨j, i, h2, h1, h3.symm⟩
    · exact Or.inr (Or.inr h)
    · exact Or.inr (Or.inl h)⟩
  loopless := ⟨fun x h => by
    rcases h with ⟨i, j, rfl, h2, h3⟩ | ⟨rfl, j, h, -⟩ | ⟨rfl, j, h, -⟩
    · rw [Fin.succ_inj] at h2; exact h3.ne h2
    · exact Fin.succ_ne_zero _ h.symm
    · exact Fin.succ_ne_zero _ h.symm⟩

theorem join_zero_succ {n : ℕ} (G : SimpleGraph (Fin n)) (k : ℕ) (j : Fin n) : (join G k).Adj 0 j.succ ↔ j.val < k := by
  constructor
  · rintro (⟨i, j, h, -⟩ | ⟨-, j', h, h'⟩ | ⟨h, -⟩)
    · exact absurd h.symm (Fin.succ_ne_zero _)
    · rw [Fin.succ_inj] at h; rw [h]; exact h'
    · exact absurd h (Fin.succ_ne_zero _)
  · intro h
    exact Or.inr (Or.inl ⟨rfl, j, rfl, h⟩)

theorem join_succ_succ {n : ℕ} (G : SimpleGraph (Fin n)) (k : ℕ) (i j : Fin n) : (join G k).Adj i.succ j.succ ↔ G.Adj i j := by
  constructor
  · rintro (⟨i', j', h, h', h3⟩ | ⟨h, -⟩ | ⟨h, -⟩)
    · rw [Fin.succ_inj] at h h'; rw [h, h']; exact h3
    · exact absurd h (Fin.succ_ne_zero _)
    · exact absurd h (Fin.succ_ne_zero _)
  · intro h
    exact Or.inl ⟨i, j, rfl, rfl, h⟩

theorem card_first {n k : ℕ} (hk : k ≤ n) : (∑ j : Fin n, if j.val < k then 1 else 0) = k := by
  rw [Fin.sum_univ_eq_sum_range (fun i => if i < k then 1 else 0) n, ← Finset.card_filter]
  have : (Finset.range n).filter (fun i => i < k) = Finset.range k := by
    ext i
    simp only [Finset.mem_filter, Finset.mem_range]
    omega
  rw [this, Finset.card_range]

open Classical in
theorem deg_join_zero {n : ℕ} (G : SimpleGraph (Fin n)) {k : ℕ} (hk : k ≤ n) : deg (join G k) 0 = k := by
  rw [deg_eq_sum, Fin.sum_univ_succ, if_neg ((join G k).loopless.irrefl 0), zero_add]
  simp only [join_zero_succ]
  exact card_first hk

open Classical in
theorem deg_join_succ {n : ℕ} (G : SimpleGraph (Fin n)) (k : ℕ) (i : Fin n) :
    deg (join G k) i.succ = (if i.val < k then 1 else 0) + deg G i := by
  rw [deg_eq_sum, Fin.sum_univ_succ]
  simp only [join_succ_succ, (join G k).adj_comm i.succ 0, join_zero_succ]
  rw [← deg_eq_sum]

open Classical in
/-- The theorem of Havel and Hakimi. -/
theorem havel_hakimi {n k : ℕ} (hk : k ≤ n) (f : Fin (n + 1) → ℤ) (h0 : f 0 = k)
    (hmono : ∀ i j : Fin n, i ≤ j → f j.succ ≤ f i.succ) :
    GraphicF (n + 1) f ↔ GraphicF n (fun i => f i.succ - if i.val < k then 1 else 0) := by
  constructor
  · rintro ⟨G, hG⟩
    obtain ⟨G', h1, h2⟩ := exchange (0 : Fin (n + 1)) (Finset.univ.filter (fun x : Fin (n + 1) => ∃ j : Fin n, x = j.succ ∧ j.val < k))
      (by simp [(Fin.succ_ne_zero _).symm]) _ G (by
        have : ((deg G 0 : ℕ) : ℤ) = k := by rw [hG, h0]
        have hd : deg G 0 = k := by exact_mod_cast this
        rw [hd, Finset.card_filter, Fin.sum_univ_succ, if_neg (by
          rintro ⟨j, h, -⟩; exact Fin.succ_ne_zero _ h.symm), zero_add]
        have : ∀ i : Fin n, (∃ j : Fin n, i.succ = j.succ ∧ j.val < k) ↔ i.val < k := fun i =>
          ⟨fun ⟨j, h, h'⟩ => by rw [Fin.succ_inj] at h; rw [h]; exact h', fun h => ⟨i, rfl, h⟩⟩
        simp only [this]
        exact card_first hk) (by
        intro a ha b hb hb0
        simp only [Finset.mem_filter, Finset.mem_univ, true_and] at ha hb
        obtain ⟨i, rfl, hi⟩ := ha
        obtain ⟨j, rfl⟩ := Fin.exists_succ_eq.2 hb0
        have hj : ¬ j.val < k := fun h => hb ⟨j, rfl, h⟩
        have := hmono i j (by rw [Fin.le_def]; omega)
        rw [← hG, ← hG] at this
        exact_mod_cast this) rfl
    refine ⟨G'.comap Fin.succ, fun i => ?_⟩
    have e : deg G' i.succ = (if i.val < k then 1 else 0) + deg (G'.comap Fin.succ) i := by
      rw [deg_eq_sum, Fin.sum_univ_succ, deg_eq_sum]
      congr 1
      have : G'.Adj i.succ 0 ↔ i.val < k := by
        rw [G'.adj_comm, h2]
        simp only [Finset.mem_filter, Finset.mem_univ, true_and]
        exact ⟨fun ⟨j, h, h'⟩ => by rw [Fin.succ_inj] at h; rw [h]; exact h', fun h => ⟨i, rfl, h⟩⟩
      simp only [this]
    show _ = f i.succ - _
    rw [← hG, ← h1, e]
    push_cast
    ring
  · rintro ⟨G, hG⟩
    refine ⟨join G k, fun i => ?_⟩
    refine Fin.cases ?_ (fun i => ?_) i
    · rw [deg_join_zero G hk, h0]
    · rw [deg_join_succ]
      push_cast
      rw [hG]
      ring

/-! ### The loop -/

open Rosemary.DegreeSequences

theorem subtract_spec (k : ℕ) (T : List ℤ) (hk : k ≤ T.length) :
    ∃ T', subtract k T = .ok T' ∧ ∃ hl : T'.length = T.length, ∀ i (h : i < T.length),
      T'[i]'(by omega) = T[i] - if i < k then 1 else 0 := by
  induction k generalizing T with
  | zero => exact ⟨T, rfl, rfl, fun i h => by simp⟩
  | succ k ih =>
    cases T with
    | nil => simp at hk
    | cons t T =>
      obtain ⟨T', h1, h2, h3⟩ := ih T (by simpa using hk)
      refine ⟨(t - 1) :: T', by rw [subtract, h1]; rfl, by simp [h2], fun i h => ?_⟩
      cases i with
      | zero => simp
      | succ i => simpa using h3 i (by simpa using h)

theorem graphicLoop_spec (n : ℕ) (T : List ℤ) (hn : T.length ≤ n) (hlt : ∀ x ∈ T, x < T.length) :
    ∃ b, graphicLoop n T = .ok b ∧ (b = true ↔ Graphic T) := by
  induction n generalizing T with
  | zero =>
    obtain rfl : T = [] := List.eq_nil_of_length_eq_zero (by omega)
    exact ⟨true, rfl, fun _ => ⟨⊥, fun i => i.elim0⟩, fun _ => rfl⟩
  | succ n ih =>
    rw [graphicLoop]
    by_cases h1 : T.any (fun e => decide (e < 0)) = true
    · refine ⟨false, by rw [if_pos h1], by simp, ?_⟩
      rintro ⟨G, hG⟩
      rw [List.any_eq_true] at h1
      obtain ⟨x, hx, hx0⟩ := h1
      obtain ⟨i, hi, rfl⟩ := List.getElem_of_mem hx
      have := hG ⟨i, hi⟩
      simp only [decide_eq_true_eq, List.get_eq_getElem] at hx0 this
      omega
    rw [if_neg h1]
    have hpos : ∀ x ∈ T, 0 ≤ x := fun x hx => by
      by_contra hc
      exact h1 (List.any_eq_true.2 ⟨x, hx, by simpa using hc⟩)
    by_cases h2 : T.all (fun e => decide (e ≤ 0)) = true
    · refine ⟨true, by rw [if_pos h2], fun _ => ⟨⊥, fun i => ?_⟩, fun _ => rfl⟩
      rw [List.all_eq_true] at h2
      have e : T.get i = 0 := le_antisymm (by simpa using h2 _ (List.get_mem T i)) (hpos _ (List.get_mem T i))
      rw [e]
      simp [deg]
    rw [if_neg h2]
    have hp := pySort_perm T (fun a b => decide (b ≤ a))
    have hs : (pySort T (fun a b => decide (b ≤ a))).Pairwise (fun a b => b ≤ a) :=
      (pairwise_pySort (le := fun a b : ℤ => decide (b ≤ a)) (fun a b c h h' => by
        simp only [decide_eq_true_eq] at h h' ⊢; exact le_trans h' h)
        (fun a b => by simp only [Bool.or_eq_true, decide_eq_true_eq]; exact le_total b a) T).imp
        (fun {a b} h => by simpa using h)
    generalize pySort T (fun a b => decide (b ≤ a)) = S at hp hs
    cases S with
    | nil =>
      exfalso
      obtain rfl := hp.symm.eq_nil
      simp at h2
    | cons d S =>
      obtain ⟨hs1, hs2⟩ := List.pairwise_cons.1 hs
      have hlen : T.length = S.length + 1 := by rw [← hp.length_eq]; rfl
      have hd0 : 0 ≤ d := hpos d (hp.mem_iff.1 (by simp))
      have hdl : d < S.length + 1 := by
        have := hlt d (hp.mem_iff.1 (by simp))
        rw [hlen] at this; exact_mod_cast this
      obtain ⟨k, rfl⟩ := Int.eq_ofNat_of_zero_le hd0
      have hk : k ≤ S.length := by omega
      obtain ⟨T', e1, e2, e3⟩ := subtract_spec k S hk
      obtain ⟨b, e4, e5⟩ := ih T' (by omega) (by
        intro x hx
        obtain ⟨i, hi, rfl⟩ := List.getElem_of_mem hx
        rw [e3 i (by omega), e2]
        have h3 := hs1 _ (List.getElem_mem (show i < S.length by omega))
        split_ifs with hc
        · omega
        · omega)
      refine ⟨b, ?_, ?_⟩
      · show (subtract (Int.toNat (k : ℤ)) S).bind _ = _
        rw [Int.toNat_natCast, e1]
        exact e4
      · rw [e5]
        have hiff : Graphic T ↔ Graphic ((k : ℤ) :: S) := ⟨Graphic.perm hp.symm, Graphic.perm hp⟩
        rw [hiff, graphic_iff (l := (k : ℤ) :: S) (n := S.length + 1) rfl, graphic_iff e2,
          havel_hakimi hk (fun i => ((k : ℤ) :: S)[i.val]'(by simpa using i.2)) rfl (by
            intro i j hij
            simp only [Fin.val_succ, List.getElem_cons_succ]
            rcases lt_or_eq_of_le hij with h | h
            · exact List.pairwise_iff_getElem.1 hs2 i.val j.val i.2 j.2 h
            · rw [h])]
        simp only [Fin.val_succ, List.getElem_cons_succ]
        have : (fun i : Fin S.length => T'[i.val]'(by omega)) = fun i : Fin S.length => S[i.val] - if i.val < k then 1 else 0 := by
          funext i
          exact e3 i.val i.2
        rw [this]

end Rosemary.Havel
