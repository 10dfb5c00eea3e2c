import Verif.Lemmas.Cliques
import Verif.Lemmas.Core
import Mathlib.Data.Nat.Bitwise
import Mathlib.Data.List.Nodup

/-!
# Sets of vertices as bit masks
-/

namespace Rosemary.Cliques

open Rosemary.Graph Rosemary.Spec
open Rosemary.Traversal (E)
open Rosemary.Core (land_pred_even land_pred_odd)

/-! ## The least set bit -/

theorem land_pred_testBit (n : ℕ) (hn : n ≠ 0) : ∃ b, lowBit n = 2 ^ b ∧ n.testBit b = true ∧
    (∀ k, k < b → n.testBit k = false) ∧ ∀ k, (n &&& (n - 1)).testBit k = (n.testBit k && decide (k ≠ b)) := by
  induction n using Nat.strong_induction_on with
  | _ n ih =>
    rcases Nat.even_or_odd' n with ⟨k, rfl | rfl⟩
    · obtain ⟨b, h1, h2, h3, h4⟩ := ih k (by omega) (by omega)
      have hle : k &&& (k - 1) ≤ k := Nat.and_le_left
      refine ⟨b + 1, ?_, ?_, ?_, ?_⟩
      · rw [lowBit] at h1 ⊢
        rw [land_pred_even k (by omega), pow_succ, ← h1]
        omega
      · rw [Nat.testBit_succ]; simpa using h2
      · intro j hj
        cases j with
        | zero => simp [Nat.testBit_zero]
        | succ j => rw [Nat.testBit_succ]; simpa using h3 j (by omega)
      · intro j
        rw [land_pred_even k (by omega)]
        cases j with
        | zero => simp [Nat.testBit_zero]
        | succ j =>
          rw [Nat.testBit_succ, Nat.testBit_succ]
          simpa using h4 j
    · refine ⟨0, ?_, by simp [Nat.testBit_zero], by intro k hk; omega, ?_⟩
      · rw [lowBit, land_pred_odd]; simp
      · intro j
        rw [land_pred_odd]
        cases j with
        | zero => simp [Nat.testBit_zero]
        | succ j =>
          rw [Nat.testBit_succ, Nat.testBit_succ]
          have h1 : 2 * k / 2 = k := by omega
          have h2 : (2 * k + 1) / 2 = k := by omega
          rw [h1, h2]
          simp

variable {V W : Type} [DecidableEq V]

/-! ## Lists of vertices in the order of a list -/

/-- The vertices of a mask, in the order of the list. -/
def lst (vl : List V) (m : ℕ) : List V := vl.filter (fun v => m.testBit (vl.idxOf v))

/-- The vertices of a mask. -/
def dec (vl : List V) (m : ℕ) : Finset V := (lst vl m).toFinset

theorem mem_lst {vl : List V} {m : ℕ} {v : V} : v ∈ lst vl m ↔ v ∈ vl ∧ m.testBit (vl.idxOf v) = true := by
  rw [lst, List.mem_filter]

theorem mem_dec {vl : List V} {m : ℕ} {v : V} : v ∈ dec vl m ↔ v ∈ vl ∧ m.testBit (vl.idxOf v) = true := by
  rw [dec, List.mem_toFinset, mem_lst]

/-- Increasing in the order of the list. -/
def Inc (vl l : List V) : Prop := l.Pairwise (fun a b => vl.idxOf a < vl.idxOf b)

theorem inc_self {vl : List V} (h : vl.Nodup) : Inc vl vl := by
  rw [Inc, List.pairwise_iff_getElem]
  intro i j hi hj hij
  rw [h.idxOf_getElem i hi, h.idxOf_getElem j hj]
  exact hij

theorem inc_lst {vl : List V} (h : vl.Nodup) (m : ℕ) : Inc vl (lst vl m) := (inc_self h).filter _

theorem Inc.nodup {vl l : List V} (h : Inc vl l) : l.Nodup := h.imp (by rintro a b hab rfl; omega)

theorem Inc.ext {vl l l' : List V} (h : Inc vl l) (h' : Inc vl l') (hm : ∀ v, v ∈ l ↔ v ∈ l') : l = l' := by
  refine List.Perm.eq_of_pairwise (fun a b _ _ h1 h2 => absurd h1 (by omega)) h h' ?_
  exact (List.perm_ext_iff_of_nodup h.nodup h'.nodup).2 hm

theorem idx_eq {vl : List V} (h : vl.Nodup) {i : ℕ} (hi : i < vl.length) {v : V} (hv : v ∈ vl) :
    vl.idxOf v = i ↔ v = vl[i] := by
  constructor
  · intro he
    subst he
    exact (List.getElem_idxOf _).symm
  · rintro rfl; exact h.idxOf_getElem i hi

theorem testBit_lt' {v n b : ℕ} (hv : v < 2 ^ n) (h : v.testBit b = true) : b < n := by
  by_contra hb
  rw [Nat.testBit_lt_two_pow (lt_of_lt_of_le hv (Nat.pow_le_pow_right (by norm_num) (not_lt.1 hb)))] at h
  simp at h

theorem eq_zero_iff {vl : List V} (h : vl.Nodup) {m : ℕ} (hm : m < 2 ^ vl.length) : m = 0 ↔ dec vl m = ∅ := by
  constructor
  · rintro rfl
    rw [Finset.eq_empty_iff_forall_notMem]
    intro v hv
    rw [mem_dec] at hv; simp at hv
  · intro he
    by_contra hne
    obtain ⟨b, -, hb, -⟩ := land_pred_testBit m hne
    have hlt := testBit_lt' hm hb
    have : vl[b] ∈ dec vl m := mem_dec.2 ⟨List.getElem_mem hlt, by rw [h.idxOf_getElem b hlt]; exact hb⟩
    rw [he] at this; simp at this

/-- The lowest bit is the first vertex of the set, and clearing it removes that vertex. -/
theorem low_spec {vl : List V} (h : vl.Nodup) {m : ℕ} (hm : m < 2 ^ vl.length) (hne : m ≠ 0) :
    ∃ b, ∃ hb : b < vl.length, lowBit m = 2 ^ b ∧ m.testBit b = true ∧ vl[b] ∈ dec vl m ∧
      (∀ v ∈ dec vl m, b ≤ vl.idxOf v) ∧ (∀ k, m.testBit k = true → b ≤ k) ∧
      (∀ k, (m &&& (m - 1)).testBit k = true → m.testBit k = true ∧ b < k) ∧
      dec vl (m &&& (m - 1)) = (dec vl m).erase vl[b] ∧ m &&& (m - 1) < 2 ^ vl.length := by
  obtain ⟨b, h1, h2, h3, h4⟩ := land_pred_testBit m hne
  have hb := testBit_lt' hm h2
  have hmin : ∀ k, m.testBit k = true → b ≤ k := by
    intro k hk
    by_contra hc
    rw [h3 k (by omega)] at hk; simp at hk
  refine ⟨b, hb, h1, h2, mem_dec.2 ⟨List.getElem_mem hb, by rw [h.idxOf_getElem b hb]; exact h2⟩,
    fun v hv => hmin _ (mem_dec.1 hv).2, hmin, ?_, ?_, lt_of_le_of_lt Nat.and_le_left hm⟩
  · intro k hk
    rw [h4] at hk
    simp only [Bool.and_eq_true, decide_eq_true_eq] at hk
    have := hmin k hk.1
    exact ⟨hk.1, by omega⟩
  · ext v
    rw [Finset.mem_erase, mem_dec, mem_dec, h4]
    simp only [Bool.and_eq_true, decide_eq_true_eq]
    constructor
    · rintro ⟨k1, k2, k3⟩
      exact ⟨fun he => k3 ((idx_eq h hb k1).2 he), k1, k2⟩
    · rintro ⟨k1, k2, k3⟩
      exact ⟨k2, k3, fun he => k1 ((idx_eq h hb k2).1 he)⟩

theorem log2_two_pow (b : ℕ) : Nat.log2 (2 ^ b) = b := Nat.log2_two_pow

/-- The vertices of a mask with one bit added. -/
theorem lst_or {vl : List V} (h : vl.Nodup) {m b : ℕ} (hb : b < vl.length) (hlt : ∀ k, m.testBit k = true → k < b) :
    lst vl (m ||| 2 ^ b) = lst vl m ++ [vl[b]] := by
  refine (inc_lst h _).ext (vl := vl) ?_ ?_
  · rw [Inc, List.pairwise_append]
    refine ⟨inc_lst h m, by simp, ?_⟩
    intro a ha c hc
    rw [List.mem_singleton.1 hc, h.idxOf_getElem b hb]
    exact hlt _ (mem_lst.1 ha).2
  · intro v
    rw [List.mem_append, mem_lst, mem_lst, List.mem_singleton, Nat.testBit_or, Nat.testBit_two_pow, Bool.or_eq_true,
      decide_eq_true_eq]
    constructor
    · rintro ⟨h1, h2 | h2⟩
      · exact Or.inl ⟨h1, h2⟩
      · exact Or.inr ((idx_eq h hb h1).1 h2.symm)
    · rintro (⟨h1, h2⟩ | rfl)
      · exact ⟨h1, Or.inl h2⟩
      · exact ⟨List.getElem_mem hb, Or.inr (h.idxOf_getElem b hb).symm⟩

theorem dec_or {vl : List V} (h : vl.Nodup) {m b : ℕ} (hb : b < vl.length) :
    dec vl (m ||| 2 ^ b) = insert vl[b] (dec vl m) := by
  ext v
  rw [Finset.mem_insert, mem_dec, mem_dec, Nat.testBit_or, Nat.testBit_two_pow, Bool.or_eq_true,
      decide_eq_true_eq]
  constructor
  · rintro ⟨h1, h2 | h2⟩
    · exact Or.inr ⟨h1, h2⟩
    · exact Or.inl ((idx_eq h hb h1).1 h2.symm)
  · rintro (rfl | ⟨h1, h2⟩)
    · exact ⟨List.getElem_mem hb, Or.inr (h.idxOf_getElem b hb).symm⟩
    · exact ⟨h1, Or.inl h2⟩

theorem dec_and {vl : List V} {m k : ℕ} : dec vl (m &&& k) = dec vl m ∩ dec vl k := by
  ext v
  rw [Finset.mem_inter, mem_dec, mem_dec, mem_dec, Nat.testBit_and, Bool.and_eq_true]
  tauto

theorem dec_full {vl : List V} : dec vl (2 ^ vl.length - 1) = vl.toFinset := by
  ext v
  rw [mem_dec, List.mem_toFinset, Nat.testBit_two_pow_sub_one, decide_eq_true_eq]
  exact ⟨fun h => h.1, fun h => ⟨h, List.idxOf_lt_length_of_mem h⟩⟩

theorem or_lt {m b n : ℕ} (hm : m < 2 ^ n) (hb : b < n) : m ||| 2 ^ b < 2 ^ n :=
  Nat.or_lt_two_pow hm (Nat.pow_lt_pow_right (by norm_num) hb)

theorem decodeLoop_eq {vl : List V} (h : vl.Nodup) (n : ℕ) : ∀ m, m < 2 ^ vl.length → (dec vl m).card ≤ n →
    decodeLoop vl n m = lst vl m := by
  induction n with
  | zero =>
    intro m hm hc
    rw [decodeLoop]
    have : dec vl m = ∅ := Finset.card_eq_zero.1 (by omega)
    symm
    rw [List.eq_nil_iff_forall_not_mem]
    intro v hv
    have : v ∈ dec vl m := List.mem_toFinset.2 hv
    simp_all
  | succ n ih =>
    intro m hm hc
    rw [decodeLoop]
    by_cases h0 : m = 0
    · rw [if_pos h0]
      symm
      rw [List.eq_nil_iff_forall_not_mem]
      intro v hv
      rw [mem_lst, h0] at hv; simp at hv
    · rw [if_neg h0]
      obtain ⟨b, hb, h1, -, h2, h3, -, h5, h6, h7⟩ := low_spec h hm h0
      rw [h1, log2_two_pow, List.getElem?_eq_getElem hb, ih _ h7 (by rw [h6, Finset.card_erase_of_mem h2]; omega)]
      symm
      refine (inc_lst h m).ext ?_ ?_
      · rw [Inc, Option.toList_some, List.singleton_append, List.pairwise_cons]
        refine ⟨?_, inc_lst h _⟩
        intro a ha
        rw [h.idxOf_getElem b hb]
        exact (h5 _ (mem_lst.1 ha).2).2
      · intro v
        have := Finset.ext_iff.1 h6 v
        rw [Finset.mem_erase, dec, dec, List.mem_toFinset, List.mem_toFinset] at this
        rw [Option.toList_some, List.singleton_append, List.mem_cons, this]
        by_cases hv : v = vl[b]
        · subst hv; simpa using List.mem_toFinset.1 h2
        · simp [hv]

theorem card_dec_le {vl : List V} (m : ℕ) : (dec vl m).card ≤ vl.length :=
  (List.toFinset_card_le _).trans (List.length_filter_le _ _)

theorem decode_eq {vl : List V} (h : vl.Nodup) {m : ℕ} (hm : m < 2 ^ vl.length) :
    decodeLoop vl vl.length m = lst vl m := decodeLoop_eq h _ m hm (card_dec_le m)

theorem foldl_or_testBit (f : V → ℕ) (k : ℕ) (l : List V) : ∀ m, (l.foldl (fun m w => m ||| 2 ^ f w) m).testBit k = true ↔
    m.testBit k = true ∨ ∃ w ∈ l, f w = k := by
  induction l with
  | nil => simp
  | cons a l ih =>
    intro m
    rw [List.foldl_cons, ih, Nat.testBit_or, Nat.testBit_two_pow, Bool.or_eq_true, decide_eq_true_eq,
      List.exists_mem_cons_iff, or_assoc]

/-- The masks of neighbors. -/
theorem dec_neighborMask {ord : Finset V → List V} (hord : ∀ S, (ord S).Nodup ∧ ∀ x, x ∈ ord S ↔ x ∈ S)
    {g : Graph V W} {vl : List V} (h : vl.Nodup) (hvl : ∀ u v, E g u v → v ∈ vl) {b : ℕ} (hb : b < vl.length) :
    dec vl (neighborMask ord g vl (2 ^ b)) = nb g vl[b] := by
  ext v
  rw [mem_dec, neighborMask, log2_two_pow, List.getElem?_eq_getElem hb]
  dsimp only
  rw [foldl_or_testBit]
  constructor
  · rintro ⟨h1, h2 | ⟨w, hw, he⟩⟩
    · simp at h2
    · have hw' := ((hord _).2 w).1 hw
      have hwv : w = v := by
        have h3 := hvl _ _ (mem_nb.1 hw')
        exact (List.idxOf_inj h3).1 he
      exact hwv ▸ hw'
  · intro hv
    exact ⟨hvl _ _ (mem_nb.1 hv), Or.inr ⟨v, ((hord _).2 v).2 hv, rfl⟩⟩

/-! ## `bron_kerbosch_binary` -/

theorem bkMaskLoop_eq {ord : Finset V → List V} (hord : ∀ S, (ord S).Nodup ∧ ∀ x, x ∈ ord S ↔ x ∈ S)
    {g : Graph V W} {vl : List V} (h : vl.Nodup) (hvl : ∀ u v, E g u v → v ∈ vl) {pop : List V → Finset V → V}
    (hpop : ∀ l S, S.Nonempty → (∀ v ∈ S, v ∈ vl) → pop l S ∈ S ∧ ∀ v ∈ S, vl.idxOf (pop l S) ≤ vl.idxOf v)
    (n : ℕ) : ∀ used A F : ℕ, used < 2 ^ vl.length → A < 2 ^ vl.length → F < 2 ^ vl.length →
    (∀ i j, used.testBit i = true → A.testBit j = true → i < j) →
    bkMaskLoop ord g vl n used A F = bkLoop g pop n (lst vl used) (dec vl A) (dec vl F) := by
  induction n with
  | zero => intros; rfl
  | succ n ih =>
    intro used A F hU hA hF hlt
    rw [bkMaskLoop, bkLoop]
    by_cases h0 : A = 0
    · rw [if_pos h0, if_pos ((eq_zero_iff h hA).1 h0)]
    · rw [if_neg h0, if_neg (fun hc => h0 ((eq_zero_iff h hA).2 hc))]
      dsimp only
      obtain ⟨b, hb, h1, h1', h2, h3, -, h5, h6, h7⟩ := low_spec h hA h0
      obtain ⟨p1, p2⟩ := hpop (lst vl used) (dec vl A) ⟨_, h2⟩ (fun v hv => (mem_dec.1 hv).1)
      have hpv : pop (lst vl used) (dec vl A) = vl[b] := by
        rw [← idx_eq h hb (mem_dec.1 p1).1]
        have := p2 _ h2
        rw [h.idxOf_getElem b hb] at this
        have := h3 _ p1
        omega
      rw [hpv, h1]
      have hlt' : ∀ k, used.testBit k = true → k < b := fun k hk => hlt k b hk h1'
      have hn := dec_neighborMask hord h hvl hb
      generalize neighborMask ord g vl (2 ^ b) = N at hn
      have hNA : A &&& (A - 1) &&& N < 2 ^ vl.length := lt_of_le_of_lt Nat.and_le_left h7
      have hNF : F &&& N < 2 ^ vl.length := lt_of_le_of_lt Nat.and_le_left hF
      have hU' := or_lt hU hb
      have e1 : (A &&& (A - 1) &&& N = 0 ∧ F &&& N = 0) ↔
          ((dec vl A).erase vl[b] ∩ nb g vl[b] = ∅ ∧ dec vl F ∩ nb g vl[b] = ∅) := by
        rw [eq_zero_iff h hNA, eq_zero_iff h hNF, dec_and (m := A &&& (A - 1)), dec_and (m := F), hn, h6]
      have e2 := ih (used ||| 2 ^ b) (A &&& (A - 1) &&& N) (F &&& N) hU' hNA hNF (by
        intro i j hi hj
        rw [Nat.testBit_and, Bool.and_eq_true] at hj
        rw [Nat.testBit_or, Nat.testBit_two_pow, Bool.or_eq_true, decide_eq_true_eq] at hi
        have hj' := (h5 _ hj.1).2
        rcases hi with hi | hi
        · have := hlt' _ hi; omega
        · omega)
      have e3 := ih used (A &&& (A - 1)) (F ||| 2 ^ b) hU h7 (or_lt hF hb) (by
        intro i j hi hj
        exact hlt i j hi (h5 _ hj).1)
      rw [e2, e3, decode_eq h hU', lst_or h hb hlt', dec_and (m := A &&& (A - 1)), dec_and (m := F), hn,
        h6, dec_or h hb]
      by_cases hc : A &&& (A - 1) &&& N = 0 ∧ F &&& N = 0
      · rw [if_pos hc, if_pos (e1.1 hc)]
      · rw [if_neg hc, if_neg (fun h => hc (e1.2 h))]

/-- When the vertices are taken in the order of a list, the cliques come in lexicographic order. -/
theorem bkLoop_lex {g : Graph V W} {vl : List V} (h : vl.Nodup) {pop : List V → Finset V → V}
    (hpop : ∀ l S, S.Nonempty → (∀ v ∈ S, v ∈ vl) → pop l S ∈ S ∧ ∀ v ∈ S, vl.idxOf (pop l S) ≤ vl.idxOf v) (n : ℕ) :
    ∀ (used : List V) (A F : Finset V), (∀ v ∈ A, v ∈ vl) → Inc vl used → (∀ u ∈ used, ∀ v ∈ A, vl.idxOf u < vl.idxOf v) →
    (∀ l ∈ bkLoop g pop n used A F, ∃ v t, l = used ++ v :: t ∧ v ∈ A ∧ Inc vl l) ∧
    (bkLoop g pop n used A F).Pairwise (fun k l => List.Lex (fun a b => vl.idxOf a < vl.idxOf b) k l) := by
  induction n with
  | zero => intros; simp [bkLoop]
  | succ n ih =>
    intro used A F hA hinc hlt
    rw [bkLoop]
    by_cases he : A = ∅
    · rw [if_pos he]; simp
    · rw [if_neg he]
      dsimp only
      obtain ⟨p1, p2⟩ := hpop used A (Finset.nonempty_iff_ne_empty.2 he) hA
      generalize pop used A = u at p1 p2
      have hA' : ∀ v ∈ A.erase u, v ∈ vl := fun v hv => hA v (Finset.mem_of_mem_erase hv)
      have hgt : ∀ v ∈ A.erase u, vl.idxOf u < vl.idxOf v := by
        intro v hv
        rw [Finset.mem_erase] at hv
        refine lt_of_le_of_ne (p2 v hv.2) ?_
        intro hc
        exact hv.1 ((List.idxOf_inj (hA u p1)).1 hc).symm
      have hinc' : Inc vl (used ++ [u]) := by
        rw [Inc, List.pairwise_append]
        refine ⟨hinc, by simp, ?_⟩
        intro a ha b hb
        rw [List.mem_singleton.1 hb]
        exact hlt a ha u p1
      obtain ⟨r1, r2⟩ := ih used (A.erase u) (insert u F) hA' hinc
        (fun a ha b hb => hlt a ha b (Finset.mem_of_mem_erase hb))
      have hfirst : (∀ l ∈ (if A.erase u ∩ nb g u = ∅ ∧ F ∩ nb g u = ∅ then [used ++ [u]]
            else bkLoop g pop n (used ++ [u]) (A.erase u ∩ nb g u) (F ∩ nb g u)), ∃ t, l = used ++ u :: t ∧ Inc vl l) ∧
          (if A.erase u ∩ nb g u = ∅ ∧ F ∩ nb g u = ∅ then [used ++ [u]]
            else bkLoop g pop n (used ++ [u]) (A.erase u ∩ nb g u) (F ∩ nb g u)).Pairwise
              (fun k l => List.Lex (fun a b => vl.idxOf a < vl.idxOf b) k l) := by
        split
        · refine ⟨?_, by simp⟩
          intro l hl
          exact ⟨[], by rw [List.mem_singleton.1 hl], by rw [List.mem_singleton.1 hl]; exact hinc'⟩
        · obtain ⟨s1, s2⟩ := ih (used ++ [u]) (A.erase u ∩ nb g u) (F ∩ nb g u)
            (fun v hv => hA' v (Finset.mem_inter.1 hv).1) hinc' (by
              intro a ha b hb
              have hb' := hgt b (Finset.mem_inter.1 hb).1
              rcases List.mem_append.1 ha with ha | ha
              · have := hlt a ha u p1; omega
              · rw [List.mem_singleton.1 ha]; exact hb')
          refine ⟨?_, s2⟩
          intro l hl
          obtain ⟨v, t, e, -, hi⟩ := s1 l hl
          exact ⟨v :: t, by rw [e]; simp, hi⟩
      obtain ⟨f1, f2⟩ := hfirst
      refine ⟨?_, ?_⟩
      · intro l hl
        rcases List.mem_append.1 hl with hl | hl
        · obtain ⟨t, e, hi⟩ := f1 l hl
          exact ⟨u, t, e, p1, hi⟩
        · obtain ⟨v, t, e, hv, hi⟩ := r1 l hl
          exact ⟨v, t, e, Finset.mem_of_mem_erase hv, hi⟩
      · rw [List.pairwise_append]
        refine ⟨f2, r2, ?_⟩
        intro k hk l hl
        obtain ⟨t, e, -⟩ := f1 k hk
        obtain ⟨v, t', e', hv, -⟩ := r1 l hl
        rw [e, e']
        exact List.Lex.append_left (fun a b => vl.idxOf a < vl.idxOf b) (List.Lex.rel (hgt v hv)) used

end Rosemary.Cliques
