import Verif.Lemmas.FloydWarshall
import Verif.Lemmas.FloatWeights
import Verif.Lemmas.WeightOrder

/-!
# `floyd_warshall` with floating point weights

The run with floats is compared with the run with the exact weights.
-/

namespace Rosemary.Floats

open Graph Paths Spec

variable {V : Type} [LinearOrder V] {M : Mode}

noncomputable instance : AddZeroClass (Double M) where
  zero_add x := Subtype.ext (by
    change M.rnd (0 + x.1) = x.1
    rw [zero_add]; exact M.exact _ x.2)
  add_zero x := Subtype.ext (by
    change M.rnd (x.1 + 0) = x.1
    rw [add_zero]; exact M.exact _ x.2)

theorem Double.add_mono_right (a b c : Double M) (h : b ≤ c) : a + b ≤ a + c := by
  rw [Double.le_iff, Double.val_add, Double.val_add]
  have := Double.le_iff.1 h
  exact M.mono (by linarith)

theorem close_add {k : ℕ} {L L' c c' : ℝ} (h : Close k L c) (h' : Close k L' c') : Close (k + 1) (L + L') (M.rnd (c + c')) := by
  obtain ⟨h0, h1, h2⟩ := h
  obtain ⟨k0, k1, k2⟩ := h'
  have u0 := ulp_pos
  have u1 := ulp_lt
  have p1 : 0 ≤ (1 - ulp) ^ k := pow_nonneg (by linarith) k
  have hc : 0 ≤ c := (mul_nonneg p1 h0).trans h1
  have hc' : 0 ≤ c' := (mul_nonneg p1 k0).trans k1
  obtain ⟨e1, e2⟩ := rnd_error M (y := c + c') (by linarith)
  refine ⟨by linarith, ?_, ?_⟩
  · refine le_trans ?_ e1
    rw [pow_succ', mul_assoc]
    refine mul_le_mul_of_nonneg_left ?_ (by linarith)
    linarith
  · refine e2.trans ?_
    rw [pow_succ', mul_assoc]
    refine mul_le_mul_of_nonneg_left ?_ (by linarith)
    linarith

theorem close_nonneg {k : ℕ} {L c : ℝ} (h : Close k L c) : 0 ≤ c :=
  (mul_nonneg (pow_nonneg (by have := ulp_lt; linarith) k) h.1).trans h.2.1

/-- The smaller of two pairs of numbers close to each other. -/
theorem close_min {k : ℕ} {L L' c c' : ℝ} (h : Close k L c) (h' : Close k L' c') : Close k (min L L') (min c c') := by
  have p1 : 0 ≤ (1 - ulp) ^ k := pow_nonneg (by have := ulp_lt; linarith) k
  have p2 : 0 ≤ (1 + ulp) ^ k := pow_nonneg (by have := ulp_pos; linarith) k
  refine ⟨le_min h.1 h'.1, le_min ?_ ?_, ?_⟩
  · exact (mul_le_mul_of_nonneg_left (min_le_left _ _) p1).trans h.2.1
  · exact (mul_le_mul_of_nonneg_left (min_le_right _ _) p1).trans h'.2.1
  · rcases min_choice L L' with e | e <;> rw [e]
    · exact (min_le_left _ _).trans h.2.2
    · exact (min_le_right _ _).trans h'.2.2

/-- The entry of the float run and the one of the exact run: both infinite, or close. -/
def CloseTop (k : ℕ) (d : WithTop (Double M)) (e : WithTop ℝ) : Prop :=
  (d = ⊤ ∧ e = ⊤) ∨ ∃ (c : Double M) (L : ℝ), d = c ∧ e = L ∧ Close k L c.val

theorem CloseTop.mono {k n : ℕ} (hk : k ≤ n) {d : WithTop (Double M)} {e : WithTop ℝ} (h : CloseTop k d e) : CloseTop n d e := by
  rcases h with h | ⟨c, L, h1, h2, h3⟩
  · exact Or.inl h
  · exact Or.inr ⟨c, L, h1, h2, close_mono hk h3⟩

theorem CloseTop.add {k : ℕ} {d d' : WithTop (Double M)} {e e' : WithTop ℝ} (h : CloseTop k d e) (h' : CloseTop k d' e') :
    CloseTop (k + 1) (d + d') (e + e') := by
  rcases h with ⟨rfl, rfl⟩ | ⟨c, L, rfl, rfl, h3⟩
  · exact Or.inl ⟨WithTop.top_add _, WithTop.top_add _⟩
  · rcases h' with ⟨rfl, rfl⟩ | ⟨c', L', rfl, rfl, h3'⟩
    · exact Or.inl ⟨WithTop.add_top _, WithTop.add_top _⟩
    · exact Or.inr ⟨c + c', L + L', rfl, rfl, close_add h3 h3'⟩

theorem CloseTop.inf {k : ℕ} {d d' : WithTop (Double M)} {e e' : WithTop ℝ} (h : CloseTop k d e) (h' : CloseTop k d' e') :
    CloseTop k (min d d') (min e e') := by
  rcases h with ⟨rfl, rfl⟩ | ⟨c, L, rfl, rfl, h3⟩
  · rw [min_eq_right le_top, min_eq_right le_top]; exact h'
  · rcases h' with ⟨rfl, rfl⟩ | ⟨c', L', rfl, rfl, h3'⟩
    · rw [min_eq_left le_top, min_eq_left le_top]; exact Or.inr ⟨c, L, rfl, rfl, h3⟩
    · refine Or.inr ⟨min c c', min L L', ?_, ?_, ?_⟩
      · exact (WithTop.coe_min c c').symm
      · exact (WithTop.coe_min L L').symm
      · have : (min c c').val = min c.val c'.val := by
          rcases le_total c c' with hc | hc
          · rw [min_eq_left hc, min_eq_left (Double.le_iff.1 hc)]
          · rw [min_eq_right hc, min_eq_right (Double.le_iff.1 hc)]
        rw [this]
        exact close_min h3 h3'

theorem T_fst {W : Type} [AddZeroClass W] [LinearOrder W] (f : V → V → WithTop W × Option V) (u v w : V) :
    (Paths.T f u v w).1 = min ((f v u).1 + (f u w).1) (f v w).1 := by
  rw [Paths.T]
  split_ifs with h
  · exact (min_eq_left h.le).symm
  · exact (min_eq_right (not_lt.1 h)).symm

/-- What holds after `k` rounds for the entries `f` of the float run and `e` of the exact run. -/
structure FloatInv (g : Graph V (Double M)) (k : ℕ) (f : V → V → WithTop (Double M) × Option V) (e : V → V → WithTop ℝ × Option V) :
    Prop where
  diag : ∀ v, Mem g v → f v v = (0, none)
  diag' : ∀ v, Mem g v → (e v v).1 = 0
  close : ∀ v w, Mem g v → Mem g w → CloseTop k (f v w).1 (e v w).1
  pred : ∀ v w y, Mem g v → Mem g w → (f v w).2 = some y → ∃ x c d, noLoop (adj g) y w = some x ∧ (f v y).1 = ((c : Double M) : WithTop (Double M)) ∧
    (f v w).1 = ((d : Double M) : WithTop (Double M)) ∧ c ≤ d ∧ (1 - ulp) ^ k * (c.val + x.val) ≤ (1 + ulp) ^ k * d.val
  predn : ∀ v w, Mem g v → Mem g w → (f v w).2 = none → v = w ∨ (f v w).1 = ⊤
  rank : ∀ v, Mem g v → ∃ ρ : V → ℕ, ∀ w y, Mem g w → (f v w).2 = some y → ρ y < ρ w

theorem FloatInv.nonneg {g : Graph V (Double M)} {k : ℕ} {f e} (h : FloatInv g k f e) {v w : V} (hv : Mem g v) (hw : Mem g w) {c : Double M}
    (hc : (f v w).1 = (c : WithTop (Double M))) : 0 ≤ c.val := by
  rcases h.close v w hv hw with ⟨h1, -⟩ | ⟨c', L, h1, -, h3⟩
  · rw [hc] at h1; simp at h1
  · rw [hc] at h1
    rw [WithTop.coe_injective h1]
    exact close_nonneg h3

theorem top_add_lt {a b c : WithTop (Double M)} (h : a + b < c) : ∃ x y : Double M, a = x ∧ b = y := by
  cases a with
  | top => rw [WithTop.top_add] at h; exact absurd h not_top_lt
  | coe x =>
    cases b with
    | top => rw [WithTop.add_top] at h; exact absurd h not_top_lt
    | coe y => exact ⟨x, y, rfl, rfl⟩

theorem FloatInv.round {g : Graph V (Double M)} (hN : ∀ u v x, noLoop (adj g) u v = some x → 0 ≤ x) {k : ℕ} {f e}
    (h : FloatInv g k f e) {u : V} (hu : Mem g u) : FloatInv g (k + 1) (Paths.T f u) (Paths.T e u) := by
  have u0 := ulp_pos
  have u1 := ulp_lt
  have hmem : ∀ {y w : V} {x : Double M}, noLoop (adj g) y w = some x → Mem g y := fun hx => mem_of_adj (noLoop_eq hx).2
  have hle : ∀ v w, (Paths.T f u v w).1 ≤ (f v w).1 := fun v w => T_le f u v w
  have hfin : ∀ v w (c : Double M), (f v w).1 = (c : WithTop (Double M)) →
      ∃ c' : Double M, (Paths.T f u v w).1 = (c' : WithTop (Double M)) ∧ c' ≤ c := by
    intro v w c hc
    have := hle v w
    rw [hc] at this
    obtain ⟨c', h1, h2⟩ := WithTop.le_coe_iff.1 this
    exact ⟨c', h1, h2⟩
  -- the links
  have hchanged : ∀ v w y, Mem g v → Mem g w → (f v u).1 + (f u w).1 < (f v w).1 → (f u w).2 = some y →
      ∃ x c d, noLoop (adj g) y w = some x ∧ (Paths.T f u v y).1 = ((c : Double M) : WithTop (Double M)) ∧
        (Paths.T f u v w).1 = ((d : Double M) : WithTop (Double M)) ∧ c ≤ d ∧
        (1 - ulp) ^ (k + 1) * (c.val + x.val) ≤ (1 + ulp) ^ (k + 1) * d.val := by
    intro v w y hv hw hlt hy
    obtain ⟨x, c, d, k1, k2, k3, k4, k5⟩ := h.pred u w y hu hw hy
    obtain ⟨a, d', e1, e2⟩ := top_add_lt hlt
    rw [k3] at e2
    obtain rfl := WithTop.coe_injective e2
    have hx := Double.le_iff.1 (hN _ _ _ k1)
    rw [Double.val_zero] at hx
    have ha := h.nonneg hv hu e1
    have hc := h.nonneg hu (hmem k1) k2
    have hd := h.nonneg hu hw k3
    have t := T_le' f u v y
    rw [e1, k2, ← WithTop.coe_add] at t
    obtain ⟨c', t1, t2⟩ := WithTop.le_coe_iff.1 t
    refine ⟨x, c', a + d, k1, t1, ?_, t2.trans (Double.add_mono_right a c d k4), ?_⟩
    · rw [Paths.T, if_pos hlt]
      dsimp only
      rw [e1, k3]; rfl
    · have t3 := Double.le_iff.1 t2
      rw [Double.val_add] at t3
      have r1 := (rnd_error M (y := a.val + c.val) (by linarith)).2
      have r2 := (rnd_error M (y := a.val + d.val) (by linarith)).1
      rw [Double.val_add]
      have p1 : 0 ≤ (1 - ulp) ^ k := pow_nonneg (by linarith) k
      have p2 : 1 ≤ (1 + ulp) ^ k := one_le_pow₀ (by linarith)
      have p3 : (1 - ulp) ^ k ≤ 1 := pow_le_one₀ (by linarith) (by linarith)
      have s1 : c'.val + x.val ≤ (1 + ulp) * (a.val + c.val + x.val) := by nlinarith
      have s2 : (1 - ulp) ^ k * (a.val + c.val + x.val) ≤ (1 + ulp) ^ k * (a.val + d.val) := by
        have : (1 - ulp) ^ k * a.val ≤ (1 + ulp) ^ k * a.val := mul_le_mul_of_nonneg_right (p3.trans p2) ha
        nlinarith
      calc (1 - ulp) ^ (k + 1) * (c'.val + x.val) ≤ (1 - ulp) ^ (k + 1) * ((1 + ulp) * (a.val + c.val + x.val)) :=
            mul_le_mul_of_nonneg_left s1 (pow_nonneg (by linarith) _)
        _ = (1 - ulp) * (1 + ulp) * ((1 - ulp) ^ k * (a.val + c.val + x.val)) := by ring
        _ ≤ (1 - ulp) * (1 + ulp) * ((1 + ulp) ^ k * (a.val + d.val)) :=
            mul_le_mul_of_nonneg_left s2 (mul_nonneg (by linarith) (by linarith))
        _ = (1 + ulp) ^ (k + 1) * ((1 - ulp) * (a.val + d.val)) := by ring
        _ ≤ (1 + ulp) ^ (k + 1) * M.rnd (a.val + d.val) := mul_le_mul_of_nonneg_left r2 (pow_nonneg (by linarith) _)
  have hsame : ∀ v w y, Mem g v → Mem g w → ¬ (f v u).1 + (f u w).1 < (f v w).1 → (f v w).2 = some y →
      ∃ x c d, noLoop (adj g) y w = some x ∧ (Paths.T f u v y).1 = ((c : Double M) : WithTop (Double M)) ∧
        (Paths.T f u v w).1 = ((d : Double M) : WithTop (Double M)) ∧ c ≤ d ∧
        (1 - ulp) ^ (k + 1) * (c.val + x.val) ≤ (1 + ulp) ^ (k + 1) * d.val := by
    intro v w y hv hw hlt hy
    obtain ⟨x, c, d, k1, k2, k3, k4, k5⟩ := h.pred v w y hv hw hy
    obtain ⟨c', t1, t2⟩ := hfin v y c k2
    have hx := Double.le_iff.1 (hN _ _ _ k1)
    rw [Double.val_zero] at hx
    have hc := h.nonneg hv (hmem k1) k2
    have hd := h.nonneg hv hw k3
    refine ⟨x, c', d, k1, t1, by rw [Paths.T, if_neg hlt]; exact k3, t2.trans k4, ?_⟩
    have t3 := Double.le_iff.1 t2
    have p1 : 0 ≤ (1 - ulp) ^ k := pow_nonneg (by linarith) k
    have p2 : 0 ≤ (1 + ulp) ^ k := pow_nonneg (by linarith) k
    calc (1 - ulp) ^ (k + 1) * (c'.val + x.val) ≤ (1 - ulp) ^ (k + 1) * (c.val + x.val) :=
          mul_le_mul_of_nonneg_left (by linarith) (pow_nonneg (by linarith) _)
      _ = (1 - ulp) * ((1 - ulp) ^ k * (c.val + x.val)) := by ring
      _ ≤ 1 * ((1 - ulp) ^ k * (c.val + x.val)) := mul_le_mul_of_nonneg_right (by linarith) (mul_nonneg p1 (by linarith))
      _ ≤ 1 * ((1 + ulp) ^ k * d.val) := mul_le_mul_of_nonneg_left k5 zero_le_one
      _ ≤ (1 + ulp) * ((1 + ulp) ^ k * d.val) := mul_le_mul_of_nonneg_right (by linarith) (mul_nonneg p2 hd)
      _ = (1 + ulp) ^ (k + 1) * d.val := by ring
  constructor
  · intro v hv
    rw [Paths.T, if_neg, h.diag v hv]
    intro hlt
    obtain ⟨a, b, e1, e2⟩ := top_add_lt hlt
    rw [e1, e2, h.diag v hv] at hlt
    have h1 : a + b < 0 := WithTop.coe_lt_coe.1 hlt
    have h2 : 0 ≤ a + b := Paths.PathAdd.nonneg (Double.le_iff.2 (h.nonneg hv hu e1)) (Double.le_iff.2 (h.nonneg hu hv e2))
    exact absurd h1 (not_lt.2 h2)
  · intro v hv
    rw [T_fst, h.diag' v hv]
    apply min_eq_right
    have hee : ∀ a b, Mem g a → Mem g b → 0 ≤ (e a b).1 := by
      intro a b ha hb
      rcases h.close a b ha hb with ⟨-, h1⟩ | ⟨c, L, -, h2, h3⟩
      · rw [h1]; exact le_top
      · rw [h2]; exact WithTop.coe_le_coe.2 h3.1
    exact add_nonneg (hee v u hv hu) (hee u v hu hv)
  · intro v w hv hw
    rw [T_fst, T_fst]
    exact ((h.close v u hv hu).add (h.close u w hu hw)).inf ((h.close v w hv hw).mono (Nat.le_succ k))
  · intro v w y hv hw hy
    by_cases hlt : (f v u).1 + (f u w).1 < (f v w).1
    · exact hchanged v w y hv hw hlt (by rw [Paths.T, if_pos hlt] at hy; exact hy)
    · exact hsame v w y hv hw hlt (by rw [Paths.T, if_neg hlt] at hy; exact hy)
  · intro v w hv hw hn
    rw [Paths.T] at hn ⊢
    split_ifs at hn ⊢ with hlt
    · dsimp only at hn ⊢
      obtain ⟨a, b, e1, e2⟩ := top_add_lt hlt
      rcases h.predn u w hu hw hn with rfl | ht
      · rw [h.diag u hu, add_zero] at hlt
        exact absurd hlt (lt_irrefl _)
      · rw [ht] at e2; simp at e2
    · exact h.predn v w hv hw hn
  · intro v hv
    obtain ⟨ρ, hρ⟩ := h.rank v hv
    obtain ⟨ρu, hρu⟩ := h.rank u hu
    let B : ℕ := ((Dict.keys g).map ρ).sum + 1
    let Bu : ℕ := ((Dict.keys g).map ρu).sum + 1
    have hB : ∀ y, Mem g y → ρ y < B := fun y hy => Nat.lt_succ_of_le (List.le_sum_of_mem (List.mem_map_of_mem hy))
    have hBu : ∀ y, Mem g y → ρu y < Bu := fun y hy => Nat.lt_succ_of_le (List.le_sum_of_mem (List.mem_map_of_mem hy))
    let s : V → Finset V := fun w => (Dict.keys g).toFinset.filter (fun z => (Paths.T f u v z).1 < (Paths.T f u v w).1)
    have hs : ∀ y w, (Paths.T f u v y).1 ≤ (Paths.T f u v w).1 → (s y).card ≤ (s w).card := fun y w hyw =>
      Finset.card_le_card fun z hz => by
        rw [Finset.mem_filter] at hz ⊢
        exact ⟨hz.1, lt_of_lt_of_le hz.2 hyw⟩
    have hs' : ∀ y w, Mem g y → (Paths.T f u v y).1 < (Paths.T f u v w).1 → (s y).card < (s w).card := fun y w hy hyw =>
      Finset.card_lt_card (Finset.ssubset_iff_of_subset (fun z hz => by
        rw [Finset.mem_filter] at hz ⊢
        exact ⟨hz.1, hz.2.trans hyw⟩) |>.2 ⟨y, by
          rw [Finset.mem_filter]
          exact ⟨List.mem_toFinset.2 hy, hyw⟩, by
          rw [Finset.mem_filter]
          exact fun hh => lt_irrefl _ hh.2⟩)
    let τ : V → ℕ := fun w => if (f v u).1 + (f u w).1 < (f v w).1 then B + ρu w else ρ w
    have hτ : ∀ y, Mem g y → τ y < B + Bu := by
      intro y hy
      dsimp only [τ]
      split_ifs
      · exact Nat.add_lt_add_left (hBu y hy) B
      · exact (hB y hy).trans_le (Nat.le_add_right _ _)
    refine ⟨fun w => (s w).card * (B + Bu) + τ w, fun w y hw hy => ?_⟩
    dsimp only
    have lex : ∀ {m n a b : ℕ}, m < n → a < B + Bu → m * (B + Bu) + a < n * (B + Bu) + b := by
      intro m n a b hmn ha
      have : (m + 1) * (B + Bu) ≤ n * (B + Bu) := Nat.mul_le_mul_right _ hmn
      rw [Nat.add_mul, one_mul] at this
      omega
    by_cases hlt : (f v u).1 + (f u w).1 < (f v w).1
    · have hy' : (f u w).2 = some y := by rw [Paths.T, if_pos hlt] at hy; exact hy
      obtain ⟨x, c, d, k1, k2, k3, k4, -⟩ := hchanged v w y hv hw hlt hy'
      have hym := hmem k1
      have hcard := hs y w (by rw [k2, k3]; exact WithTop.coe_le_coe.2 k4)
      have hτyw : τ y < τ w := by
        dsimp only [τ]
        rw [if_pos hlt]
        split_ifs
        · exact Nat.add_lt_add_left (hρu w y hw hy') B
        · exact (hB y hym).trans_le (Nat.le_add_right _ _)
      exact Nat.add_lt_add_of_le_of_lt (Nat.mul_le_mul_right _ hcard) hτyw
    · have hy' : (f v w).2 = some y := by rw [Paths.T, if_neg hlt] at hy; exact hy
      obtain ⟨x, c, d, k1, k2, k3, k4, -⟩ := hsame v w y hv hw hlt hy'
      have hym := hmem k1
      by_cases hlt' : (f v u).1 + (f u y).1 < (f v y).1
      · refine lex (hs' y w hym ?_) (hτ y hym)
        obtain ⟨x', c', d', m1, m2, m3, m4, -⟩ := h.pred v w y hv hw hy'
        rw [show (Paths.T f u v y).1 = (f v u).1 + (f u y).1 by rw [Paths.T, if_pos hlt'],
          show (Paths.T f u v w).1 = (f v w).1 by rw [Paths.T, if_neg hlt]]
        refine lt_of_lt_of_le hlt' ?_
        rw [m2, m3]; exact WithTop.coe_le_coe.2 m4
      · have hcard := hs y w (by rw [k2, k3]; exact WithTop.coe_le_coe.2 k4)
        have hτyw : τ y < τ w := by
          dsimp only [τ]
          rw [if_neg hlt, if_neg hlt']
          exact hρ w y hw hy'
        exact Nat.add_lt_add_of_le_of_lt (Nat.mul_le_mul_right _ hcard) hτyw

/-! ### Integral weights -/

theorem intClose_add {L L' c c' : ℝ} (h : IntClose L c) (h' : IntClose L' c') : IntClose (L + L') (M.rnd (c + c')) := by
  obtain ⟨h0, ⟨n, rfl⟩, h2, h3⟩ := h
  obtain ⟨k0, ⟨m, rfl⟩, k2, k3⟩ := h'
  have c0 : 0 ≤ c := by
    rcases le_total (n : ℝ) (2 ^ 53) with hc | hc
    · rw [h2 hc]; exact h0
    · exact le_trans (by norm_num) (h3 hc)
  have c0' : 0 ≤ c' := by
    rcases le_total (m : ℝ) (2 ^ 53) with hc | hc
    · rw [k2 hc]; exact k0
    · exact le_trans (by norm_num) (k3 hc)
  refine ⟨by linarith, ⟨n + m, by push_cast; rfl⟩, fun h => ?_, fun h => ?_⟩
  · rw [h2 (by linarith), k2 (by linarith), ← Int.cast_add]
    refine M.exact _ (isDouble_int _ ?_)
    rw [← Int.cast_add] at h
    have h' : n + m ≤ 2 ^ 53 := by exact_mod_cast h
    have h0' : 0 ≤ n := by exact_mod_cast h0
    have hx' : 0 ≤ m := by exact_mod_cast k0
    rw [abs_of_nonneg (by omega)]; exact h'
  · refine M.isRounding.lower _ _ ?_ ?_
    · exact ⟨2 ^ 53, 0, by norm_num, by norm_num⟩
    · rcases le_total (n : ℝ) (2 ^ 53) with hc | hc
      · rcases le_total (m : ℝ) (2 ^ 53) with hd | hd
        · rw [h2 hc, k2 hd]; exact h
        · have := k3 hd; linarith
      · have := h3 hc; linarith

theorem intClose_min {L L' c c' : ℝ} (h : IntClose L c) (h' : IntClose L' c') : IntClose (min L L') (min c c') := by
  obtain ⟨h0, h1, h2, h3⟩ := h
  obtain ⟨k0, k1, k2, k3⟩ := h'
  refine ⟨le_min h0 k0, ?_, fun hb => ?_, fun hb => ?_⟩
  · rcases min_choice L L' with e | e <;> rw [e] <;> assumption
  · rcases le_total L (2 ^ 53) with a | a
    · rcases le_total L' (2 ^ 53) with b | b
      · rw [h2 a, k2 b]
      · rw [h2 a, min_eq_left (a.trans b), min_eq_left (a.trans (k3 b))]
    · rcases le_total L' (2 ^ 53) with b | b
      · rw [k2 b, min_eq_right (b.trans a), min_eq_right (b.trans (h3 a))]
      · have e : min L L' = 2 ^ 53 := le_antisymm hb (le_min a b)
        rcases min_choice L L' with e' | e'
        · have e1 : L = 2 ^ 53 := e'.symm.trans e
          rw [e', h2 e1.le]
          refine min_eq_left ?_
          rw [e1]; exact k3 b
        · have e1 : L' = 2 ^ 53 := e'.symm.trans e
          rw [e', k2 e1.le]
          refine min_eq_right ?_
          rw [e1]; exact h3 a
  · exact le_min (h3 (hb.trans (min_le_left _ _))) (k3 (hb.trans (min_le_right _ _)))

def IntTop (d : WithTop (Double M)) (e : WithTop ℝ) : Prop :=
  (d = ⊤ ∧ e = ⊤) ∨ ∃ (c : Double M) (L : ℝ), d = c ∧ e = L ∧ IntClose L c.val

theorem IntTop.add {d d' : WithTop (Double M)} {e e' : WithTop ℝ} (h : IntTop d e) (h' : IntTop d' e') :
    IntTop (d + d') (e + e') := by
  rcases h with ⟨rfl, rfl⟩ | ⟨c, L, rfl, rfl, h3⟩
  · exact Or.inl ⟨WithTop.top_add _, WithTop.top_add _⟩
  · rcases h' with ⟨rfl, rfl⟩ | ⟨c', L', rfl, rfl, h3'⟩
    · exact Or.inl ⟨WithTop.add_top _, WithTop.add_top _⟩
    · exact Or.inr ⟨c + c', L + L', rfl, rfl, intClose_add h3 h3'⟩

theorem IntTop.inf {d d' : WithTop (Double M)} {e e' : WithTop ℝ} (h : IntTop d e) (h' : IntTop d' e') :
    IntTop (min d d') (min e e') := by
  rcases h with ⟨rfl, rfl⟩ | ⟨c, L, rfl, rfl, h3⟩
  · rw [min_eq_right le_top, min_eq_right le_top]; exact h'
  · rcases h' with ⟨rfl, rfl⟩ | ⟨c', L', rfl, rfl, h3'⟩
    · rw [min_eq_left le_top, min_eq_left le_top]; exact Or.inr ⟨c, L, rfl, rfl, h3⟩
    · refine Or.inr ⟨min c c', min L L', ?_, ?_, ?_⟩
      · exact (WithTop.coe_min c c').symm
      · exact (WithTop.coe_min L L').symm
      · have : (min c c').val = min c.val c'.val := by
          rcases le_total c c' with hc | hc
          · rw [min_eq_left hc, min_eq_left (Double.le_iff.1 hc)]
          · rw [min_eq_right hc, min_eq_right (Double.le_iff.1 hc)]
        rw [this]
        exact intClose_min h3 h3'

/-- The value of an entry below `2^53` is an integer. -/
theorem IntTop.int {d : WithTop (Double M)} {e : WithTop ℝ} (h : IntTop d e) {c : Double M} (hd : d = c) (hc : c.val < 2 ^ 53) :
    0 ≤ c.val ∧ ∃ n : ℤ, c.val = n := by
  rcases h with ⟨rfl, -⟩ | ⟨c', L, h1, -, h0, h2, h3, h4⟩
  · simp at hd
  · rw [hd] at h1
    obtain rfl := WithTop.coe_injective h1
    rcases le_total L (2 ^ 53) with a | a
    · rw [h3 a]; exact ⟨h0, h2⟩
    · exact absurd (h4 a) (not_le.2 hc)

theorem IntTop.lower {d : WithTop (Double M)} {e : WithTop ℝ} (h : IntTop d e) {c : Double M} (hd : d = c) : 0 ≤ c.val := by
  rcases le_or_gt ((2 : ℝ) ^ 53) c.val with a | a
  · exact le_trans (by norm_num) a
  · exact (h.int hd a).1

structure IntInv (g : Graph V (Double M)) (f : V → V → WithTop (Double M) × Option V) (e : V → V → WithTop ℝ × Option V) : Prop where
  int : ∀ v w, Mem g v → Mem g w → IntTop (f v w).1 (e v w).1
  pred : ∀ v w y, Mem g v → Mem g w → (f v w).2 = some y → ∃ x c d, noLoop (adj g) y w = some x ∧ (f v y).1 = ((c : Double M) : WithTop (Double M)) ∧
    (f v w).1 = ((d : Double M) : WithTop (Double M)) ∧ (d.val < 2 ^ 53 → c.val + x.val ≤ d.val)

theorem IntInv.round {g : Graph V (Double M)} (hN : ∀ u v x, noLoop (adj g) u v = some x → 0 ≤ x)
    {f : V → V → WithTop (Double M) × Option V} {e : V → V → WithTop ℝ × Option V}
    (h : IntInv g f e) {u : V} (hu : Mem g u) : IntInv g (Paths.T f u) (Paths.T e u) := by
  have hmem : ∀ {y w : V} {x : Double M}, noLoop (adj g) y w = some x → Mem g y := fun hx => mem_of_adj (noLoop_eq hx).2
  have hint : ∀ v w, Mem g v → Mem g w → IntTop (Paths.T f u v w).1 (Paths.T e u v w).1 := by
    intro v w hv hw
    rw [T_fst, T_fst]
    exact ((h.int v u hv hu).add (h.int u w hu hw)).inf (h.int v w hv hw)
  refine ⟨hint, fun v w y hv hw hy => ?_⟩
  by_cases hlt : (f v u).1 + (f u w).1 < (f v w).1
  · have hy' : (f u w).2 = some y := by rw [Paths.T, if_pos hlt] at hy; exact hy
    obtain ⟨x, c, d, k1, k2, k3, k4⟩ := h.pred u w y hu hw hy'
    obtain ⟨a, d', e1, e2⟩ := top_add_lt hlt
    rw [k3] at e2
    obtain rfl := WithTop.coe_injective e2
    have hx := Double.le_iff.1 (hN _ _ _ k1)
    rw [Double.val_zero] at hx
    have ha := (h.int v u hv hu).lower e1
    have hc := (h.int u y hu (hmem k1)).lower k2
    have hd := (h.int u w hu hw).lower k3
    have t := T_le' f u v y
    rw [e1, k2, ← WithTop.coe_add] at t
    obtain ⟨c', t1, t2⟩ := WithTop.le_coe_iff.1 t
    refine ⟨x, c', a + d, k1, t1, ?_, fun hb => ?_⟩
    · rw [Paths.T, if_pos hlt]
      dsimp only
      rw [e1, k3]; rfl
    · have t3 := Double.le_iff.1 t2
      rw [Double.val_add] at t3
      rw [Double.val_add] at hb ⊢
      have hb' : a.val + d.val < 2 ^ 53 := by
        by_contra hc
        refine absurd hb (not_lt.2 ?_)
        exact M.isRounding.lower _ _ ⟨2 ^ 53, 0, by norm_num, by norm_num⟩ (not_lt.1 hc)
      have exact_add : ∀ {p q : Double M}, 0 ≤ p.val → 0 ≤ q.val → (∃ n : ℤ, p.val = n) → (∃ n : ℤ, q.val = n) → p.val + q.val < 2 ^ 53 →
          M.rnd (p.val + q.val) = p.val + q.val := by
        rintro p q hp hq ⟨n, hn⟩ ⟨m, hm⟩ hb
        rw [hn] at hp hb ⊢
        rw [hm] at hq hb ⊢
        rw [← Int.cast_add] at hb ⊢
        refine M.exact _ (isDouble_int _ ?_)
        have h' : n + m < 2 ^ 53 := by exact_mod_cast hb
        have h0' : 0 ≤ n := by exact_mod_cast hp
        have hx' : 0 ≤ m := by exact_mod_cast hq
        rw [abs_of_nonneg (by omega)]; exact h'.le
      have k4' := k4 (by linarith)
      have ia := ((h.int v u hv hu).int e1 (by linarith)).2
      have ic := ((h.int u y hu (hmem k1)).int k2 (by linarith)).2
      have id := ((h.int u w hu hw).int k3 (by linarith)).2
      rw [exact_add ha hd ia id hb']
      rw [exact_add ha hc ia ic (by linarith)] at t3
      linarith
  · have hy' : (f v w).2 = some y := by rw [Paths.T, if_neg hlt] at hy; exact hy
    obtain ⟨x, c, d, k1, k2, k3, k4⟩ := h.pred v w y hv hw hy'
    have := T_le f u v y
    rw [k2] at this
    obtain ⟨c', t1, t2⟩ := WithTop.le_coe_iff.1 this
    refine ⟨x, c', d, k1, t1, by rw [Paths.T, if_neg hlt]; exact k3, fun hb => ?_⟩
    have := k4 hb
    have := Double.le_iff.1 t2
    linarith

/-! ### The whole run -/

theorem float_outer {g : Graph V (Double M)} {g' : Graph V ℝ} (hg' : Good g') (hm : ∀ v, Mem g' v ↔ Mem g v)
    (hN : ∀ u v x, noLoop (adj g) u v = some x → 0 ≤ x) (hN' : ∀ u v x, noLoop (adj g') u v = some x → 0 ≤ x)
    {Q : (V → V → WithTop (Double M) × Option V) → (V → V → WithTop ℝ × Option V) → Prop}
    (hQ : ∀ f e u, Mem g u → Q f e → Q (Paths.T f u) (Paths.T e u)) (us : List V)
    (hus : ∀ u ∈ us, Mem g u) (K : V → Prop) (k : ℕ) (D : Dict (V × V) (WithTop (Double M) × Option V))
    (f : V → V → WithTop (Double M) × Option V) (e : V → V → WithTop ℝ × Option V)
    (hD : Rep g D f) (he : FInv g' K e) (h : FloatInv g k f e) (q : Q f e) :
    ∃ D' f' e', fwOuter (Dict.keys g) us D = .ok D' ∧ Rep g D' f' ∧ FInv g' (fun y => y ∈ us ∨ K y) e' ∧
      FloatInv g (k + us.length) f' e' ∧ Q f' e' := by
  induction us generalizing K k D f e with
  | nil =>
    refine ⟨D, f, e, rfl, hD, ?_, h, q⟩
    convert he using 1
    funext y; simp
  | cons u us ih =>
    have hu := hus u List.mem_cons_self
    have h0 : (f u u).1 = 0 := by rw [h.diag u hu]
    obtain ⟨D1, k1, k2⟩ := fw_round hu h0 hD
    rw [fwOuter, hD u u hu hu]
    dsimp only
    rw [h0, WithTop.coe_zero, if_neg (lt_irrefl _), k1]
    dsimp only
    obtain ⟨D2, f2, e2, m1, m2, m3, m4, m5⟩ := ih (fun x hx => hus x (List.mem_cons_of_mem _ hx)) _ _ D1 _ _ k2
      (he.round hg' hN' ((hm u).2 hu)) (h.round hN hu) (hQ f e u hu q)
    refine ⟨D2, f2, e2, m1, m2, ?_, ?_, m5⟩
    · convert m3 using 1
      funext y
      rw [List.mem_cons]
      exact propext ⟨by tauto, by tauto⟩
    · rw [List.length_cons, show k + (us.length + 1) = k + 1 + us.length by omega]
      exact m4

theorem fw0_exact {g : Graph V (Double M)} {g' : Graph V ℝ} (hA : adj g' = Double.exactWeight (adj g)) (v w : V) :
    (v = w ∧ fw0 g v w = (0, none) ∧ fw0 g' v w = (0, none)) ∨ (fw0 g v w = (⊤, none) ∧ fw0 g' v w = (⊤, none)) ∨
    ∃ x : Double M, noLoop (adj g) v w = some x ∧ fw0 g v w = ((x : WithTop (Double M)), some v) ∧
      fw0 g' v w = ((x.val : WithTop ℝ), some v) := by
  have hvw := congrFun (congrFun hA v) w
  rw [Double.exactWeight] at hvw
  rcases fw0_cases g v w with ⟨h1, h2⟩ | ⟨h1, h2, h3⟩ | ⟨x, h1, h2, h3⟩
  · rcases fw0_cases g' v w with ⟨k1, k2⟩ | ⟨k1, -⟩ | ⟨_, k1, -⟩
    · exact Or.inl ⟨h1, h2, k2⟩
    · exact absurd h1 k1
    · exact absurd h1 k1
  · rw [h2] at hvw
    rcases fw0_cases g' v w with ⟨k1, -⟩ | ⟨-, -, k3⟩ | ⟨_, -, k2, -⟩
    · exact absurd k1 h1
    · exact Or.inr (Or.inl ⟨h3, k3⟩)
    · rw [hvw] at k2; simp at k2
  · rw [h2] at hvw
    rcases fw0_cases g' v w with ⟨k1, -⟩ | ⟨-, k2, -⟩ | ⟨y, -, k2, k3⟩
    · exact absurd k1 h1
    · rw [hvw] at k2; simp at k2
    · rw [hvw] at k2
      simp only [Option.map_some, Option.some.injEq] at k2
      refine Or.inr (Or.inr ⟨x, by rw [noLoop, if_neg h1, h2], h3, ?_⟩)
      rw [k3, ← k2]

theorem close_zero {L : ℝ} (h : 0 ≤ L) : Close 0 L L := ⟨h, by simp, by simp⟩

theorem FloatInv.init {g : Graph V (Double M)} {g' : Graph V ℝ} (hA : adj g' = Double.exactWeight (adj g))
    (hN : ∀ u v x, noLoop (adj g) u v = some x → 0 ≤ x) : FloatInv g 0 (fw0 g) (fw0 g') := by
  have hdiag : ∀ v, fw0 g v v = (0, none) ∧ fw0 g' v v = (0, none) := by
    intro v
    rcases fw0_cases g v v with ⟨-, h2⟩ | ⟨h1, -⟩ | ⟨x, h1, -⟩
    · rcases fw0_cases g' v v with ⟨-, k2⟩ | ⟨h1, -⟩ | ⟨x, h1, -⟩
      · exact ⟨h2, k2⟩
      · exact absurd rfl h1
      · exact absurd rfl h1
    · exact absurd rfl h1
    · exact absurd rfl h1
  refine ⟨fun v _ => (hdiag v).1, fun v _ => by rw [(hdiag v).2], fun v w _ _ => ?_, fun v w y _ _ hy => ?_, fun v w _ _ hn => ?_, fun v _ => ?_⟩
  · rcases fw0_exact hA v w with ⟨-, h1, h2⟩ | ⟨h1, h2⟩ | ⟨x, h0, h1, h2⟩
    · rw [h1, h2]
      refine Or.inr ⟨0, 0, rfl, rfl, ?_⟩
      rw [Double.val_zero]; exact close_zero le_rfl
    · rw [h1, h2]; exact Or.inl ⟨rfl, rfl⟩
    · rw [h1, h2]
      exact Or.inr ⟨x, x.val, rfl, rfl, close_zero (by have := Double.le_iff.1 (hN _ _ _ h0); rwa [Double.val_zero] at this)⟩
  · rcases fw0_exact hA v w with ⟨-, h1, -⟩ | ⟨h1, -⟩ | ⟨x, h0, h1, -⟩
    · rw [h1] at hy; simp at hy
    · rw [h1] at hy; simp at hy
    · rw [h1] at hy
      simp only [Option.some.injEq] at hy
      subst hy
      have hx := hN _ _ _ h0
      exact ⟨x, 0, x, h0, by rw [(hdiag v).1]; rfl, by rw [h1], hx, by rw [Double.val_zero]; simp⟩
  · rcases fw0_exact hA v w with ⟨h0, -⟩ | ⟨h1, -⟩ | ⟨x, h0, h1, -⟩
    · exact Or.inl h0
    · right; rw [h1]
    · rw [h1] at hn; simp at hn
  · classical
    refine ⟨fun w => if w = v then 0 else 1, fun w y _ hy => ?_⟩
    rcases fw0_exact hA v w with ⟨-, h1, -⟩ | ⟨h1, -⟩ | ⟨x, h0, h1, -⟩
    · rw [h1] at hy; simp at hy
    · rw [h1] at hy; simp at hy
    · rw [h1] at hy
      simp only [Option.some.injEq] at hy
      subst hy
      dsimp only
      rw [if_pos rfl, if_neg (Ne.symm (noLoop_eq h0).1)]
      exact Nat.one_pos

theorem IntInv.init {g : Graph V (Double M)} {g' : Graph V ℝ} (hA : adj g' = Double.exactWeight (adj g))
    (hN : ∀ u v x, noLoop (adj g) u v = some x → 0 ≤ x) (hI : ∀ u v x, noLoop (adj g) u v = some x → ∃ n : ℤ, x.val = n) :
    IntInv g (fw0 g) (fw0 g') := by
  refine ⟨fun v w _ _ => ?_, fun v w y _ _ hy => ?_⟩
  · rcases fw0_exact hA v w with ⟨-, h1, h2⟩ | ⟨h1, h2⟩ | ⟨x, h0, h1, h2⟩
    · rw [h1, h2]
      refine Or.inr ⟨0, 0, rfl, rfl, le_rfl, ⟨0, by simp⟩, ?_, ?_⟩
      · intro _; exact Double.val_zero
      · intro h; norm_num at h
    · rw [h1, h2]; exact Or.inl ⟨rfl, rfl⟩
    · rw [h1, h2]
      have hx := Double.le_iff.1 (hN _ _ _ h0)
      rw [Double.val_zero] at hx
      exact Or.inr ⟨x, x.val, rfl, rfl, hx, hI _ _ _ h0, fun _ => rfl, fun h => h⟩
  · rcases fw0_exact hA v w with ⟨-, h1, -⟩ | ⟨h1, -⟩ | ⟨x, h0, h1, -⟩
    · rw [h1] at hy; simp at hy
    · rw [h1] at hy; simp at hy
    · rw [h1] at hy
      simp only [Option.some.injEq] at hy
      subst hy
      refine ⟨x, 0, x, h0, ?_, by rw [h1], fun _ => by rw [Double.val_zero, zero_add]⟩
      rcases fw0_cases g v v with ⟨-, h2⟩ | ⟨h1, -⟩ | ⟨x, h1, -⟩
      · rw [h2]; rfl
      · exact absurd rfl h1
      · exact absurd rfl h1

/-- The links lead from every vertex that can be reached to the source, and `R` holds along the path. -/
theorem FloatInv.links {g : Graph V (Double M)} {k : ℕ} {f e} (h : FloatInv g k f e) {v : V} (hv : Mem g v)
    {P : V → Option (Option V)} (hP : ∀ w, Mem g w → P w = some (f v w).2) {R : List V → ℝ → Double M → Prop}
    (h0 : R [v] 0 0) (hs : ∀ p L w y c d x, Mem g w → (f v w).2 = some y → noLoop (adj g) y w = some x →
      (f v y).1 = ((c : Double M) : WithTop (Double M)) → (f v w).1 = ((d : Double M) : WithTop (Double M)) → p ≠ [] → R p L c → R (p ++ [w]) (L + x.val) d)
    (w : V) (hw : Mem g w) (c : Double M) (hc : (f v w).1 = c) :
    ∃ p L, LinkPath P v p w ∧ WalkOf (Double.exactWeight (adj g)) v p w L ∧ R p L c := by
  obtain ⟨ρ, hρ⟩ := h.rank v hv
  have key : ∀ n w c, Mem g w → ρ w < n → (f v w).1 = ((c : Double M) : WithTop (Double M)) →
      ∃ p L, LinkPath P v p w ∧ WalkOf (Double.exactWeight (adj g)) v p w L ∧ R p L c := by
    intro n
    induction n with
    | zero => intro w c _ h; omega
    | succ n ih =>
      intro w c hw hn hc
      cases hp : (f v w).2 with
      | none =>
        rcases h.predn v w hv hw hp with rfl | ht
        · rw [h.diag v hv] at hc
          have : (0 : Double M) = c := WithTop.coe_injective hc
          rw [← this]
          exact ⟨[v], 0, LinkPath.root (by rw [hP v hv, hp]), WalkOf.start, h0⟩
        · rw [hc] at ht; simp at ht
      | some y =>
        obtain ⟨x, c1, d, hx, k2, k3, -⟩ := h.pred v w y hv hw hp
        have hy : Mem g y := mem_of_adj (noLoop_eq hx).2
        rw [hc] at k3
        obtain rfl := WithTop.coe_injective k3
        obtain ⟨p, L, m1, m2, m3⟩ := ih y c1 hy (by have := hρ w y hw hp; omega) k2
        refine ⟨p ++ [w], L + x.val, LinkPath.step m1 (by rw [hP w hw, hp]), ?_, ?_⟩
        · exact WalkOf.step m2 (by rw [Double.exactWeight, (noLoop_eq hx).2]; rfl)
        · refine hs p L w y c1 c x hw hp hx k2 hc ?_ m3
          intro h; have := walk_length_pos m2; rw [h] at this; simp at this
  exact key (ρ w + 1) w c hw (Nat.lt_succ_self _) hc

end Rosemary.Floats
