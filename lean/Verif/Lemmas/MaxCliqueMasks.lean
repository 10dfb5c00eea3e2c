import Verif.Lemmas.MaxCliques

/-!
# The searches with bit masks make the same steps as those with sets
-/

namespace Rosemary.Cliques

open Rosemary.Graph Rosemary.Spec
open Rosemary.Traversal (E)
open Rosemary.Core (count_bits_land_pred)

variable {V W : Type} [DecidableEq V]

theorem count_bits_eq {vs : List V} (h : vs.Nodup) (k : ℕ) : ∀ m, m < 2 ^ vs.length → (dec vs m).card = k →
    (Nat.digits 2 m).count 1 = k := by
  induction k with
  | zero =>
    intro m hm hc
    rw [(eq_zero_iff h hm).2 (Finset.card_eq_zero.1 hc)]
    simp
  | succ k ih =>
    intro m hm hc
    have h0 : m ≠ 0 := by
      rintro rfl
      rw [(eq_zero_iff h hm).1 rfl] at hc
      simp at hc
    obtain ⟨b, hb, h1, -, h2, h3, -, h5, h6, h7⟩ := low_spec h hm h0
    rw [count_bits_land_pred m h0, ih _ h7 (by rw [h6, Finset.card_erase_of_mem h2]; omega)]

theorem scan_low {vs : List V} (h : vs.Nodup) {c : ℕ} (hc : c < 2 ^ vs.length) {last b : ℕ}
    (hlast : ∀ j, c.testBit j = true → last ≤ j) (hb : b < vs.length) (hbit : vs[b] ∈ dec vs c)
    (hmin : ∀ v ∈ dec vs c, b ≤ vs.idxOf v) : scan vs (dec vs c) last = .ok (vs[b], b) := by
  obtain ⟨u, i, h1, h2, h3, h4, h5⟩ := scan_spec (vs := vs) (last := last) ⟨_, hbit⟩ (by
    intro v hv
    rw [mem_dec] at hv
    have hl := hlast _ hv.2
    have hlt := List.idxOf_lt_length_of_mem hv.1
    rw [List.mem_iff_getElem]
    refine ⟨vs.idxOf v - last, by rw [List.length_drop]; omega, ?_⟩
    rw [List.getElem_drop]
    have : last + (vs.idxOf v - last) = vs.idxOf v := by omega
    simp only [this]
    exact List.getElem_idxOf hlt)
  have hil : i < vs.length := by
    by_contra hge
    rw [List.drop_eq_nil_of_le (by omega)] at h4
    simp at h4
  have hu : u = vs[i] := by
    have := mem_drop_cons hil
    rw [h4] at this
    exact (List.cons.inj this).1
  have e1 := idx_ge h (mem_drop_cons hb) (h5 _ hbit)
  have e2 := hmin u h3
  rw [hu, h.idxOf_getElem i hil] at e2
  have : i = b := by omega
  subst this
  rw [h1, hu]

/-- The common facts on one step. -/
theorem mask_step {ord : Finset V → List V} (hord : ∀ S, (ord S).Nodup ∧ ∀ x, x ∈ ord S ↔ x ∈ S)
    {g : Graph V W} {vs : List V} (h : vs.Nodup) (hvs : ∀ u v, E g u v → v ∈ vs) {used c last : ℕ}
    (hU : used < 2 ^ vs.length) (hC : c < 2 ^ vs.length)
    (hlt : ∀ i j, used.testBit i = true → c.testBit j = true → i < j) (hlast : ∀ j, c.testBit j = true → last ≤ j)
    (h0 : c ≠ 0) :
    ∃ b, ∃ hb : b < vs.length, lowBit c = 2 ^ b ∧ scan vs (dec vs c) last = .ok (vs[b], b) ∧ vs[b] ∈ dec vs c ∧
      dec vs (c &&& (c - 1)) = (dec vs c).erase vs[b] ∧ c &&& (c - 1) < 2 ^ vs.length ∧
      dec vs (c &&& (c - 1) &&& neighborMask ord g vs (2 ^ b)) = (dec vs c).erase vs[b] ∩ nb g vs[b] ∧
      c &&& (c - 1) &&& neighborMask ord g vs (2 ^ b) < 2 ^ vs.length ∧
      used ||| 2 ^ b < 2 ^ vs.length ∧ lst vs (used ||| 2 ^ b) = lst vs used ++ [vs[b]] ∧
      (∀ i j, (used ||| 2 ^ b).testBit i = true →
        (c &&& (c - 1) &&& neighborMask ord g vs (2 ^ b)).testBit j = true → i < j) ∧
      (∀ i j, used.testBit i = true → (c &&& (c - 1)).testBit j = true → i < j) ∧
      (∀ j, (c &&& (c - 1)).testBit j = true → b + 1 ≤ j) := by
  obtain ⟨b, hb, h1, h1', h2, h3, -, h5, h6, h7⟩ := low_spec h hC h0
  have hn := dec_neighborMask hord h hvs hb
  have hlt' : ∀ k, used.testBit k = true → k < b := fun k hk => hlt k b hk h1'
  refine ⟨b, hb, h1, scan_low h hC hlast hb h2 h3, h2, h6, h7, ?_, lt_of_le_of_lt Nat.and_le_left h7, or_lt hU hb,
    lst_or h hb hlt', ?_, fun i j hi hj => hlt i j hi (h5 _ hj).1, fun j hj => (h5 j hj).2⟩
  · rw [dec_and (m := c &&& (c - 1)), hn, h6]
  · intro i j hi hj
    rw [Nat.testBit_and, Bool.and_eq_true] at hj
    rw [Nat.testBit_or, Nat.testBit_two_pow, Bool.or_eq_true, decide_eq_true_eq] at hi
    have hj' := (h5 _ hj.1).2
    rcases hi with hi | hi
    · have := hlt' _ hi; omega
    · omega

theorem leaf_map {α β γ : Type} [LT α] [DecidableLT α] (f : β → γ) (best : α × β) (size : α) (used : β) :
    leaf (best.1, f best.2) size (f used) = ((leaf best size used).1, f (leaf best size used).2) := by
  rw [leaf, leaf]
  split <;> rfl

theorem leaf_lt {best : ℕ × ℕ} {size used B : ℕ} (h1 : best.2 < B) (h2 : used < B) : (leaf best size used).2 < B := by
  rw [leaf]
  split
  · exact h2
  · exact h1

theorem pardalosMask_sim {ord : Finset V → List V} (hord : ∀ S, (ord S).Nodup ∧ ∀ x, x ∈ ord S ↔ x ∈ S)
    {g : Graph V W} {vs : List V} (h : vs.Nodup) (hvs : ∀ u v, E g u v → v ∈ vs) (n : ℕ) :
    ∀ (used size last num c : ℕ) (best : ℕ × ℕ), used < 2 ^ vs.length → c < 2 ^ vs.length → best.2 < 2 ^ vs.length →
    (∀ i j, used.testBit i = true → c.testBit j = true → i < j) → (∀ j, c.testBit j = true → last ≤ j) →
    num = (dec vs c).card →
    (pardalosMaskLoop ord g vs n used size num c best).2 < 2 ^ vs.length ∧
    pardalosLoop g vs n (lst vs used) size last (dec vs c) (best.1, lst vs best.2) =
      .ok ((pardalosMaskLoop ord g vs n used size num c best).1, lst vs (pardalosMaskLoop ord g vs n used size num c best).2)
    := by
  induction n with
  | zero => intro used size last num c best _ _ hB _ _ _; exact ⟨hB, rfl⟩
  | succ n ih =>
    intro used size last num c best hU hC hB hlt hlast hnum
    rw [pardalosMaskLoop, pardalosLoop]
    have hiff : (c ≠ 0 ∧ best.1 < size + num) ↔ (dec vs c ≠ ∅ ∧ (best.1, lst vs best.2).1 < size + (dec vs c).card) := by
      rw [hnum, ne_eq, ne_eq, ← eq_zero_iff h hC]
    by_cases hcond : c ≠ 0 ∧ best.1 < size + num
    · rw [if_pos hcond, if_pos (hiff.1 hcond)]
      obtain ⟨b, hb, e1, e2, e3, e4, e5, e6, e7, e8, e9, e10, e11, e12⟩ := mask_step hord h hvs hU hC hlt hlast hcond.1
      rw [e1, e2]
      dsimp only
      generalize c &&& (c - 1) &&& neighborMask ord g vs (2 ^ b) = c' at *
      generalize c &&& (c - 1) = d at *
      have hrec : ∃ b1 : ℕ × ℕ, b1.2 < 2 ^ vs.length ∧ (if c' = 0 then leaf best (size + 1) (used ||| 2 ^ b)
          else pardalosMaskLoop ord g vs n (used ||| 2 ^ b) (size + 1) ((Nat.digits 2 c').count 1) c' best) = b1 ∧
          (if (dec vs c).erase vs[b] ∩ nb g vs[b] = ∅ then
              .ok (leaf (best.1, lst vs best.2) (size + 1) (lst vs used ++ [vs[b]]))
            else pardalosLoop g vs n (lst vs used ++ [vs[b]]) (size + 1) 0 ((dec vs c).erase vs[b] ∩ nb g vs[b])
              (best.1, lst vs best.2) : Except PyErr _) = .ok (b1.1, lst vs b1.2) := by
        by_cases h0 : c' = 0
        · rw [if_pos h0, if_pos (by rw [← e6]; exact (eq_zero_iff h e7).1 h0)]
          exact ⟨_, leaf_lt hB e8, rfl, by rw [← e9, leaf_map]⟩
        · rw [if_neg h0, if_neg (by rw [← e6]; exact fun hc => h0 ((eq_zero_iff h e7).2 hc))]
          obtain ⟨r1, r2⟩ := ih (used ||| 2 ^ b) (size + 1) 0 ((Nat.digits 2 c').count 1) c' best e8 e7 hB e10
            (fun j _ => Nat.zero_le j) (count_bits_eq h _ c' e7 rfl)
          exact ⟨_, r1, rfl, by rw [← e6, ← e9]; exact r2⟩
      obtain ⟨b1, r0, r1, r2⟩ := hrec
      rw [r1, r2]
      dsimp only
      have := ih used size (b + 1) (num - 1) d b1 hU e5 r0 e11 e12 (by rw [e4, Finset.card_erase_of_mem e3, hnum])
      rw [e4] at this
      exact this
    · rw [if_neg hcond, if_neg (fun hc => hcond (hiff.2 hc))]
      exact ⟨hB, rfl⟩

theorem unmask_eq {vs : List V} (h : vs.Nodup) (m : ℕ) : unmask vs m = lst vs m := by
  have hbit : ∀ i, m &&& (1 <<< i) ≠ 0 ↔ m.testBit i = true := by
    intro i
    rw [Nat.one_shiftLeft]
    constructor
    · intro hne
      by_contra hc
      apply hne
      apply Nat.eq_of_testBit_eq
      intro j
      rw [Nat.testBit_and, Nat.testBit_two_pow, Nat.zero_testBit]
      by_cases hj : i = j
      · subst hj; simpa using hc
      · simp [hj]
    · intro hb he
      have := congrArg (fun x => x.testBit i) he
      simp [Nat.testBit_and, hb] at this
  have hget : ∀ l : List ℕ, (∀ i ∈ l, i < vs.length) → l.Pairwise (· < ·) →
      Inc vs (l.filterMap (fun i => if m &&& (1 <<< i) ≠ 0 then vs[i]? else none)) := by
    intro l hl hp
    rw [Inc, List.pairwise_filterMap]
    refine hp.imp_of_mem ?_
    intro i j hi hj hij a ha b hb
    have hi' := hl i hi
    have hj' := hl j hj
    split at ha <;> split at hb
    · rw [List.getElem?_eq_getElem hi'] at ha
      rw [List.getElem?_eq_getElem hj'] at hb
      cases ha
      cases hb
      rw [h.idxOf_getElem i hi', h.idxOf_getElem j hj']
      exact hij
    all_goals simp_all
  refine (hget _ (fun i hi => List.mem_range.1 hi) List.pairwise_lt_range).ext (inc_lst h m) ?_
  intro v
  rw [List.mem_filterMap, mem_lst]
  constructor
  · rintro ⟨i, hi, he⟩
    rw [List.mem_range] at hi
    split at he
    · rename_i hb
      rw [List.getElem?_eq_getElem hi] at he
      cases he
      exact ⟨List.getElem_mem hi, by rw [h.idxOf_getElem i hi]; exact (hbit i).1 hb⟩
    · simp at he
  · rintro ⟨h1, h2⟩
    have hlt := List.idxOf_lt_length_of_mem h1
    refine ⟨vs.idxOf v, List.mem_range.2 hlt, ?_⟩
    rw [if_pos ((hbit _).2 h2), List.getElem?_eq_getElem hlt, List.getElem_idxOf hlt]

theorem lst_zero (vs : List V) : lst vs 0 = [] := by
  rw [List.eq_nil_iff_forall_not_mem]
  intro v hv
  rw [mem_lst] at hv; simp at hv

theorem full_lt (n : ℕ) : 2 ^ n - 1 < 2 ^ n := by
  have : 0 < 2 ^ n := by positivity
  omega

/-! ## `ostergard_binary` -/

theorem ostergardMask_sim {ord : Finset V → List V} (hord : ∀ S, (ord S).Nodup ∧ ∀ x, x ∈ ord S ↔ x ∈ S)
    {g : Graph V W} {vs : List V} (h : vs.Nodup) (hvs : ∀ u v, E g u v → v ∈ vs) {largest : List ℕ} {lar : Dict ℕ ℕ}
    (hlar : ∀ i, i < vs.length → largest[i]? = some ((Dict.get? lar (2 ^ i)).getD 0)) (n : ℕ) :
    ∀ (used size last num c : ℕ) (st : (ℕ × ℕ) × Bool), used < 2 ^ vs.length → c < 2 ^ vs.length →
    st.1.2 < 2 ^ vs.length →
    (∀ i j, used.testBit i = true → c.testBit j = true → i < j) → (∀ j, c.testBit j = true → last ≤ j) →
    num = (dec vs c).card →
    (ostergardMaskLoop ord g vs lar n used size num c st).1.2 < 2 ^ vs.length ∧
    ostergardLoop g vs largest n (lst vs used) size last (dec vs c) ((st.1.1, lst vs st.1.2), st.2) =
      .ok (((ostergardMaskLoop ord g vs lar n used size num c st).1.1,
        lst vs (ostergardMaskLoop ord g vs lar n used size num c st).1.2),
        (ostergardMaskLoop ord g vs lar n used size num c st).2) := by
  induction n with
  | zero => intro used size last num c st _ _ hB _ _ _; exact ⟨hB, rfl⟩
  | succ n ih =>
    intro used size last num c st hU hC hB hlt hlast hnum
    rw [ostergardMaskLoop, ostergardLoop]
    have hiff : (c ≠ 0 ∧ st.1.1 < size + num) ↔
        (dec vs c ≠ ∅ ∧ ((st.1.1, lst vs st.1.2), st.2).1.1 < size + (dec vs c).card) := by
      rw [hnum, ne_eq, ne_eq, ← eq_zero_iff h hC]
    by_cases hcond : c ≠ 0 ∧ st.1.1 < size + num
    · rw [if_pos hcond, if_pos (hiff.1 hcond)]
      obtain ⟨b, hb, e1, e2, e3, e4, e5, e6, e7, e8, e9, e10, e11, e12⟩ := mask_step hord h hvs hU hC hlt hlast hcond.1
      rw [e1, e2]
      dsimp only
      rw [hlar b hb]
      dsimp only
      by_cases hprune : size + (Dict.get? lar (2 ^ b)).getD 0 ≤ st.1.1
      · rw [if_pos hprune, if_pos hprune]
        exact ⟨hB, rfl⟩
      · rw [if_neg hprune, if_neg hprune]
        generalize c &&& (c - 1) &&& neighborMask ord g vs (2 ^ b) = c' at *
        generalize c &&& (c - 1) = d at *
        have hrec : ∃ s1 : (ℕ × ℕ) × Bool, s1.1.2 < 2 ^ vs.length ∧
            (if c' = 0 then (leaf st.1 (size + 1) (used ||| 2 ^ b), st.2 || decide (st.1.1 < size + 1))
            else ostergardMaskLoop ord g vs lar n (used ||| 2 ^ b) (size + 1) ((Nat.digits 2 c').count 1) c' st) = s1 ∧
            (if (dec vs c).erase vs[b] ∩ nb g vs[b] = ∅ then
                .ok (leaf (st.1.1, lst vs st.1.2) (size + 1) (lst vs used ++ [vs[b]]), st.2 || decide (st.1.1 < size + 1))
              else ostergardLoop g vs largest n (lst vs used ++ [vs[b]]) (size + 1) 0
                ((dec vs c).erase vs[b] ∩ nb g vs[b])
                ((st.1.1, lst vs st.1.2), st.2) : Except PyErr _) = .ok ((s1.1.1, lst vs s1.1.2), s1.2) := by
          by_cases h0 : c' = 0
          · rw [if_pos h0, if_pos (by rw [← e6]; exact (eq_zero_iff h e7).1 h0)]
            exact ⟨_, leaf_lt hB e8, rfl, by rw [← e9, leaf_map]⟩
          · rw [if_neg h0, if_neg (by rw [← e6]; exact fun hc => h0 ((eq_zero_iff h e7).2 hc))]
            obtain ⟨r1, r2⟩ := ih (used ||| 2 ^ b) (size + 1) 0 ((Nat.digits 2 c').count 1) c' st e8 e7 hB e10
              (fun j _ => Nat.zero_le j) (count_bits_eq h _ c' e7 rfl)
            exact ⟨_, r1, rfl, by rw [← e6, ← e9]; exact r2⟩
        obtain ⟨s1, r0, r1, r2⟩ := hrec
        rw [r1, r2]
        dsimp only
        by_cases hf : s1.2 = true
        · rw [if_pos hf, if_pos hf]
          exact ⟨r0, rfl⟩
        · rw [if_neg hf, if_neg hf]
          have := ih used size (b + 1) (num - 1) d s1 hU e5 r0 e11 e12 (by rw [e4, Finset.card_erase_of_mem e3, hnum])
          rw [e4] at this
          exact this
    · rw [if_neg hcond, if_neg (fun hc => hcond (hiff.2 hc))]
      exact ⟨hB, rfl⟩

theorem dec_suffix {vs : List V} (h : vs.Nodup) {i : ℕ} (hi : i < vs.length) :
    dec vs (((2 ^ vs.length - 1) >>> i) <<< i) = (vs.drop i).toFinset ∧
    (∀ j, (((2 ^ vs.length - 1) >>> i) <<< i).testBit j = true → i ≤ j) := by
  have hb : ∀ j, (((2 ^ vs.length - 1) >>> i) <<< i).testBit j = true ↔ i ≤ j ∧ j < vs.length := by
    intro j
    rw [Nat.testBit_shiftLeft, Nat.testBit_shiftRight, Nat.testBit_two_pow_sub_one]
    simp only [Bool.and_eq_true, decide_eq_true_eq, ge_iff_le]
    omega
  refine ⟨?_, fun j hj => ((hb j).1 hj).1⟩
  ext v
  rw [mem_dec, List.mem_toFinset, hb]
  constructor
  · rintro ⟨h1, h2, h3⟩
    rw [List.mem_iff_getElem]
    refine ⟨vs.idxOf v - i, by rw [List.length_drop]; omega, ?_⟩
    rw [List.getElem_drop]
    have : i + (vs.idxOf v - i) = vs.idxOf v := by omega
    simp only [this]
    exact List.getElem_idxOf h3
  · intro hv
    have hv' := List.mem_of_mem_drop hv
    have hlt := List.idxOf_lt_length_of_mem hv'
    refine ⟨hv', ?_, hlt⟩
    refine idx_ge h (u := v) ?_ hv
    have := mem_drop_cons hlt
    rwa [List.getElem_idxOf] at this

theorem ostergardMaskOuter_sim {ord : Finset V → List V} (hord : ∀ S, (ord S).Nodup ∧ ∀ x, x ∈ ord S ↔ x ∈ S)
    {g : Graph V W} (hloop : ∀ v, ¬ E g v v) {vs : List V} (h : vs.Nodup) (hvs : ∀ u v, E g u v → v ∈ vs) (i : ℕ) :
    ∀ (largest : List ℕ) (lar : Dict ℕ ℕ) (best : ℕ × ℕ), i ≤ vs.length → largest.length = vs.length →
    (∀ j, j < vs.length → largest[j]? = some ((Dict.get? lar (2 ^ j)).getD 0)) → best.2 < 2 ^ vs.length →
    ostergardOuter g vs (List.range i).reverse largest (best.1, lst vs best.2) =
      .ok ((ostergardMaskOuter ord g vs (List.range i).reverse lar best).1,
        lst vs (ostergardMaskOuter ord g vs (List.range i).reverse lar best).2) := by
  induction i with
  | zero => intro largest lar best _ _ _ _; rfl
  | succ i ih =>
    intro largest lar best hi hlen hlar hB
    have hi' : i < vs.length := hi
    rw [List.range_succ, List.reverse_append, List.reverse_singleton, List.singleton_append, ostergardOuter,
      ostergardMaskOuter, List.getElem?_eq_getElem hi', Nat.one_shiftLeft]
    dsimp only
    obtain ⟨d1, d2⟩ := dec_suffix h hi'
    have hn := dec_neighborMask hord h hvs hi'
    have hSlt : ((2 ^ vs.length - 1) >>> i) <<< i < 2 ^ vs.length := by
      have h1 : ((2 ^ vs.length - 1) >>> i) <<< i ≤ 2 ^ vs.length - 1 := by
        rw [Nat.shiftLeft_eq, Nat.shiftRight_eq_div_pow]
        exact Nat.div_mul_le_self _ _
      exact lt_of_le_of_lt h1 (full_lt _)
    have hC : (((2 ^ vs.length - 1) >>> i) <<< i) &&& neighborMask ord g vs (2 ^ i) < 2 ^ vs.length :=
      lt_of_le_of_lt Nat.and_le_left hSlt
    have hcd : dec vs ((((2 ^ vs.length - 1) >>> i) <<< i) &&& neighborMask ord g vs (2 ^ i)) =
        (vs.drop i).toFinset ∩ nb g vs[i] := by rw [dec_and, d1, hn]
    have hlow : ∀ j, ((((2 ^ vs.length - 1) >>> i) <<< i) &&& neighborMask ord g vs (2 ^ i)).testBit j = true → i < j := by
      intro j hj
      rw [Nat.testBit_and, Bool.and_eq_true] at hj
      refine lt_of_le_of_ne (d2 j hj.1) ?_
      rintro rfl
      have : vs[i] ∈ dec vs (neighborMask ord g vs (2 ^ i)) :=
        mem_dec.2 ⟨List.getElem_mem hi', by rw [h.idxOf_getElem i hi']; exact hj.2⟩
      rw [hn] at this
      exact hloop _ (mem_nb.1 this)
    generalize (((2 ^ vs.length - 1) >>> i) <<< i) &&& neighborMask ord g vs (2 ^ i) = c at *
    have hUlt : 2 ^ i < 2 ^ vs.length := Nat.pow_lt_pow_right (by norm_num) hi'
    have hl1 : lst vs (2 ^ i) = [vs[i]] := by
      have := lst_or (m := 0) h hi' (by simp)
      rwa [Nat.zero_or, lst_zero, List.nil_append] at this
    have hstep : ∃ s1 : (ℕ × ℕ) × Bool, s1.1.2 < 2 ^ vs.length ∧
        (if c = 0 then (leaf best 1 (2 ^ i), decide (best.1 < 1))
          else ostergardMaskLoop ord g vs lar vs.length (2 ^ i) 1 ((Nat.digits 2 c).count 1) c (best, false)) = s1 ∧
        (if (vs.drop i).toFinset ∩ nb g vs[i] = ∅ then
            .ok (leaf (best.1, lst vs best.2) 1 [vs[i]], decide (best.1 < 1))
          else ostergardLoop g vs largest vs.length [vs[i]] 1 0 ((vs.drop i).toFinset ∩ nb g vs[i])
            ((best.1, lst vs best.2), false) : Except PyErr _) = .ok ((s1.1.1, lst vs s1.1.2), s1.2) := by
      by_cases h0 : c = 0
      · rw [if_pos h0, if_pos (by rw [← hcd]; exact (eq_zero_iff h hC).1 h0)]
        exact ⟨_, leaf_lt hB hUlt, rfl, by rw [← hl1, leaf_map]⟩
      · rw [if_neg h0, if_neg (by rw [← hcd]; exact fun hc => h0 ((eq_zero_iff h hC).2 hc))]
        obtain ⟨r1, r2⟩ := ostergardMask_sim hord h hvs hlar vs.length (2 ^ i) 1 0 ((Nat.digits 2 c).count 1) c
          (best, false) hUlt hC hB (by
            intro a j ha hj
            rw [Nat.testBit_two_pow, decide_eq_true_eq] at ha
            have := hlow j hj
            omega) (fun j _ => Nat.zero_le j) (count_bits_eq h _ c hC rfl)
        exact ⟨_, r1, rfl, by rw [← hcd, ← hl1]; exact r2⟩
    obtain ⟨s1, r0, r1, r2⟩ := hstep
    rw [r1, r2]
    dsimp only
    refine ih (largest.set i s1.1.1) (Dict.set lar (2 ^ i) s1.1.1) s1.1 (by omega) (by rw [List.length_set, hlen]) ?_ r0
    intro j hj
    rw [Dict.get?_set]
    by_cases hij : i = j
    · subst hij
      rw [List.getElem?_set_self (by omega), if_pos rfl]; rfl
    · rw [List.getElem?_set_ne hij, if_neg (fun hc => hij (Nat.pow_right_injective le_rfl hc)), hlar j hj]

end Rosemary.Cliques
