import Verif.Model.FloatWeights
import Verif.Lemmas.Paths

/-!
# Lemmas on floating point weights
-/

namespace Rosemary.Floats

open Rosemary.Spec

/-! ### Rounding modes -/

theorem Mode.isRounding (M : Mode) : IsRounding M.rnd := isRounding_of_monotone M.mono M.exact

section modes

variable {r : ℝ → ℤ}

theorem log_spec {x : ℝ} (hx : x ≠ 0) : (2 : ℝ) ^ Int.log 2 |x| ≤ |x| ∧ |x| < 2 ^ (Int.log 2 |x| + 1) :=
  ⟨by exact_mod_cast Int.zpow_log_le_self (b := 2) one_lt_two (abs_pos.2 hx),
    by exact_mod_cast Int.lt_zpow_succ_log_self (b := 2) one_lt_two |x|⟩

theorem pow_cancel (e : ℤ) : (2 : ℝ) ^ (52 - e) * 2 ^ (e - 52) = 1 := by
  rw [← zpow_add₀ two_ne_zero]; simp

theorem pow_mantissa (e : ℤ) (k : ℕ) : (2 : ℝ) ^ (e - 52 + k) * 2 ^ (52 - e) = 2 ^ k := by
  rw [← zpow_add₀ two_ne_zero, show e - 52 + (k : ℤ) + (52 - e) = (k : ℤ) by ring, zpow_natCast]

/-- The rounded number stays within the powers of two around `x`. -/
theorem roundMantissa_bounds (hm : Monotone r) (hr : ∀ n : ℤ, r n = n) {x : ℝ} (hx : 0 < x) :
    (2 : ℝ) ^ Int.log 2 |x| ≤ roundMantissa r x ∧ roundMantissa r x ≤ 2 ^ (Int.log 2 |x| + 1) := by
  obtain ⟨h1, h2⟩ := log_spec hx.ne'
  rw [roundMantissa, if_neg hx.ne']
  rw [abs_of_pos hx] at h1 h2 ⊢
  set e := Int.log 2 x
  have hp : (0 : ℝ) < 2 ^ (e - 52) := by positivity
  have hq : (0 : ℝ) < 2 ^ (52 - e) := by positivity
  have a1 : (2 : ℝ) ^ e = ((2 ^ 52 : ℤ) : ℝ) * 2 ^ (e - 52) := by
    rw [Int.cast_pow, Int.cast_ofNat, ← zpow_natCast, ← zpow_add₀ two_ne_zero]; congr 1; push_cast; ring
  have a2 : (2 : ℝ) ^ (e + 1) = ((2 ^ 53 : ℤ) : ℝ) * 2 ^ (e - 52) := by
    rw [Int.cast_pow, Int.cast_ofNat, ← zpow_natCast, ← zpow_add₀ two_ne_zero]; congr 1; push_cast; ring
  have b : x = x * 2 ^ (52 - e) * 2 ^ (e - 52) := by rw [mul_assoc, pow_cancel, mul_one]
  rw [a1] at h1 ⊢
  rw [a2] at h2 ⊢
  have c1 : ((2 ^ 52 : ℤ) : ℝ) ≤ x * 2 ^ (52 - e) := le_of_mul_le_mul_right (h1.trans b.le) hp
  have c2 : x * 2 ^ (52 - e) ≤ ((2 ^ 53 : ℤ) : ℝ) := le_of_mul_le_mul_right (b.ge.trans h2.le) hp
  constructor
  · refine mul_le_mul_of_nonneg_right ?_ hp.le
    exact_mod_cast (hr (2 ^ 52)).ge.trans (hm c1)
  · refine mul_le_mul_of_nonneg_right ?_ hp.le
    exact_mod_cast (hm c2).trans (hr (2 ^ 53)).le

theorem roundMantissa_neg (x : ℝ) : roundMantissa r (-x) = -roundMantissa (fun y => -r (-y)) x := by
  unfold roundMantissa
  by_cases h : x = 0
  · simp [h]
  · rw [if_neg h, if_neg (neg_ne_zero.2 h), abs_neg]
    push_cast
    rw [neg_mul, neg_mul, neg_neg]

theorem neg_round (hm : Monotone r) (hr : ∀ n : ℤ, r n = n) :
    Monotone (fun y => -r (-y)) ∧ ∀ n : ℤ, (fun y : ℝ => -r (-y)) n = n := by
  refine ⟨fun a b h => neg_le_neg (hm (neg_le_neg h)), fun n => ?_⟩
  have := hr (-n)
  push_cast at this
  simp only [this, neg_neg]

theorem roundMantissa_mono_pos (hm : Monotone r) (hr : ∀ n : ℤ, r n = n) {x y : ℝ} (hx : 0 < x) (hxy : x ≤ y) :
    roundMantissa r x ≤ roundMantissa r y := by
  have hy := hx.trans_le hxy
  have hle : Int.log 2 |x| ≤ Int.log 2 |y| := by
    rw [abs_of_pos hx, abs_of_pos hy]; exact Int.log_mono_right hx hxy
  rcases hle.eq_or_lt with he | hlt
  · rw [roundMantissa, roundMantissa, if_neg hx.ne', if_neg hy.ne', he]
    refine mul_le_mul_of_nonneg_right ?_ (by positivity)
    exact_mod_cast hm (mul_le_mul_of_nonneg_right hxy (by positivity))
  · refine (roundMantissa_bounds hm hr hx).2.trans (le_trans ?_ (roundMantissa_bounds hm hr hy).1)
    exact zpow_le_zpow_right₀ one_le_two (by omega)

theorem roundMantissa_pos (hm : Monotone r) (hr : ∀ n : ℤ, r n = n) {x : ℝ} (hx : 0 < x) : 0 < roundMantissa r x :=
  lt_of_lt_of_le (by positivity) (roundMantissa_bounds hm hr hx).1

theorem roundMantissa_mono (hm : Monotone r) (hr : ∀ n : ℤ, r n = n) : Monotone (roundMantissa r) := by
  intro x y hxy
  obtain ⟨hm', hr'⟩ := neg_round hm hr
  have hneg : ∀ z : ℝ, z < 0 → roundMantissa r z < 0 := fun z hz => by
    rw [show z = -(-z) by ring, roundMantissa_neg]
    exact neg_neg_of_pos (roundMantissa_pos hm' hr' (neg_pos.2 hz))
  have h0 : roundMantissa r 0 = 0 := if_pos rfl
  rcases lt_trichotomy x 0 with hx | rfl | hx
  · rcases lt_trichotomy y 0 with hy | rfl | hy
    · have h := neg_le_neg (roundMantissa_mono_pos hm' hr' (neg_pos.2 hy) (neg_le_neg hxy))
      rwa [← roundMantissa_neg, ← roundMantissa_neg, neg_neg, neg_neg] at h
    · rw [h0]; exact (hneg x hx).le
    · exact ((hneg x hx).trans (roundMantissa_pos hm hr hy)).le
  · rcases hxy.eq_or_lt with rfl | hy
    · exact le_rfl
    · rw [h0]; exact (roundMantissa_pos hm hr hy).le
  · exact roundMantissa_mono_pos hm hr hx hxy

theorem roundMantissa_double (hm : Monotone r) (hr : ∀ n : ℤ, r n = n) (x : ℝ) : IsDouble (roundMantissa r x) := by
  by_cases hx : x = 0
  · rw [roundMantissa, if_pos hx]; exact ⟨0, 0, by norm_num, by simp⟩
  obtain ⟨h1, h2⟩ := log_spec hx
  rw [roundMantissa, if_neg hx]
  set e := Int.log 2 |x|
  refine ⟨_, _, ?_, rfl⟩
  have hq : (0 : ℝ) < 2 ^ (52 - e) := by positivity
  have a2 : (2 : ℝ) ^ (e + 1) * 2 ^ (52 - e) = ((2 ^ 53 : ℤ) : ℝ) := by
    rw [Int.cast_pow, Int.cast_ofNat, ← zpow_natCast, ← zpow_add₀ two_ne_zero]; congr 1; push_cast; ring
  have hb : |x * 2 ^ (52 - e)| ≤ ((2 ^ 53 : ℤ) : ℝ) := by
    rw [abs_mul, abs_of_pos hq, ← a2]; exact mul_le_mul_of_nonneg_right h2.le hq.le
  rw [abs_le] at hb ⊢
  constructor
  · have := hm hb.1
    rw [← Int.cast_neg, hr] at this
    exact this
  · exact (hm hb.2).trans (hr _).le

theorem roundMantissa_exact (hr : ∀ n : ℤ, r n = n) (x : ℝ) (h : IsDouble x) : roundMantissa r x = x := by
  by_cases hx : x = 0
  · rw [roundMantissa, if_pos hx, hx]
  obtain ⟨h1, h2⟩ := log_spec hx
  rw [roundMantissa, if_neg hx]
  set e := Int.log 2 |x|
  have key : ∃ n : ℤ, x * 2 ^ (52 - e) = n := by
    obtain ⟨m, f, hm, hxm⟩ := h
    -- the case that the exponent is large enough
    have large : ∀ (m f : ℤ), x = m * 2 ^ f → e - 52 ≤ f → ∃ n : ℤ, x * 2 ^ (52 - e) = n := by
      intro m f hx hf
      refine ⟨m * 2 ^ (f + 52 - e).toNat, ?_⟩
      rw [hx, mul_assoc, ← zpow_add₀ two_ne_zero]
      push_cast
      rw [← zpow_natCast, Int.toNat_of_nonneg (by omega)]
      congr 2; ring
    by_cases hf : e - 52 ≤ f
    · exact large m f hxm hf
    · have hmr : |(m : ℝ)| ≤ 2 ^ 53 := by exact_mod_cast hm
      have hax : |x| = |(m : ℝ)| * 2 ^ f := by rw [hxm, abs_mul, abs_of_pos (a := (2 : ℝ) ^ f) (by positivity)]
      have hbound : |x| ≤ 2 ^ (53 + f) := by
        rw [hax, zpow_add₀ two_ne_zero]
        refine mul_le_mul_of_nonneg_right ?_ (by positivity)
        exact_mod_cast hmr
      have hef : e ≤ 53 + f := (zpow_le_zpow_iff_right₀ (one_lt_two (α := ℝ))).1 (h1.trans hbound)
      have hfe : f = e - 53 := by omega
      have hval : |x| = 2 ^ e := le_antisymm (by rw [show e = 53 + f by omega]; exact hbound) h1
      rcases abs_choice x with hc | hc
      · exact large 1 e (by rw [← hc, hval]; simp) (by omega)
      · exact large (-1) e (by
          have : x = -|x| := by rw [hc]; ring
          rw [this, hval]; push_cast; ring) (by omega)
  obtain ⟨n, hn⟩ := key
  rw [hn, hr, ← hn, mul_assoc, pow_cancel, mul_one]

/-- The rounding mode of a rounding to integers. -/
noncomputable def Mode.ofInt (r : ℝ → ℤ) (hm : Monotone r) (hr : ∀ n : ℤ, r n = n) : Mode :=
  ⟨roundMantissa r, roundMantissa_mono hm hr, roundMantissa_exact hr, roundMantissa_double hm hr⟩

theorem roundEven_bounds (y : ℝ) : ⌊y⌋ ≤ roundEven y ∧ roundEven y ≤ ⌊y⌋ + 1 := by
  unfold roundEven; split_ifs <;> constructor <;> omega

theorem roundEven_mono : Monotone roundEven := by
  intro a b hab
  rcases (Int.floor_mono hab).eq_or_lt with he | hlt
  · unfold roundEven
    rw [he]
    split_ifs <;> first | omega | (exfalso; linarith)
  · have h1 := (roundEven_bounds a).2
    have h2 := (roundEven_bounds b).1
    omega

theorem roundEven_int (n : ℤ) : roundEven n = n := by
  unfold roundEven
  rw [Int.floor_intCast, if_pos (by linarith)]

/-- The default mode of binary64, and of Python: to the nearest number, ties to even. -/
noncomputable def nearestEven : Mode := Mode.ofInt roundEven roundEven_mono roundEven_int

/-- Rounding towards minus infinity. -/
noncomputable def downward : Mode := Mode.ofInt Int.floor Int.floor_mono Int.floor_intCast

end modes

/-! ### Rounded lengths of walks -/

namespace Double

variable {M : Mode}

theorem val_add (a b : Double M) : (a + b).val = M.rnd (a.val + b.val) := rfl

theorem val_zero : (0 : Double M).val = 0 := rfl

theorem le_iff {a b : Double M} : a ≤ b ↔ a.val ≤ b.val := Iff.rfl

instance : Paths.PathAdd (Double M) where
  mono a b x h := le_iff.2 (by rw [val_add, val_add]; exact M.mono (by have := le_iff.1 h; linarith))
  infl a x h := le_iff.2 (by
    have hx : 0 ≤ x.val := h
    rw [val_add]; exact M.isRounding.lower _ _ a.2 (by change a.val ≤ a.val + x.val; linarith))

/-- The exact weights. -/
def exactWeight {V : Type} (A : V → V → Option (Double M)) (u v : V) : Option ℝ := (A u v).map val

end Double

open Paths

section walks

variable {V W : Type} [Add W] [Zero W]

theorem walk_length_pos {A : V → V → Option W} {s v : V} {p : List V} {c : W} (h : WalkOf A s p v c) : 1 ≤ p.length := by
  cases h <;> simp

theorem walk_mem {A : V → V → Option W} {s v : V} {p : List V} {c : W} (h : WalkOf A s p v c) : v ∈ p := by
  cases h <;> simp

theorem walk_verts {A : V → V → Option W} {S : V → Prop} (hA : ∀ u v x, A u v = some x → S v) {s v : V} (hs : S s)
    {p : List V} {c : W} (h : WalkOf A s p v c) : ∀ w ∈ p, S w := by
  induction h with
  | start => intro w hw; rw [List.mem_singleton.1 hw]; exact hs
  | step hp hx ih =>
    intro w hw
    rcases List.mem_append.1 hw with hw | hw
    · exact ih w hw
    · rw [List.mem_singleton.1 hw]; exact hA _ _ _ hx

theorem walk_prefix [LinearOrder W] [PathAdd W] {A : V → V → Option W} (hA : ∀ u v x, A u v = some x → 0 ≤ x)
    {s v : V} {p : List V} {c : W} (h : WalkOf A s p v c) : ∀ w ∈ p, ∃ q d, WalkOf A s q w d ∧ q <+: p ∧ d ≤ c := by
  induction h with
  | start => intro w hw; rw [List.mem_singleton.1 hw]; exact ⟨_, _, .start, List.prefix_refl _, le_rfl⟩
  | step hp hx ih =>
    intro w hw
    rcases List.mem_append.1 hw with hw | hw
    · obtain ⟨q, d, h1, h2, h3⟩ := ih w hw
      exact ⟨q, d, h1, h2.trans (List.prefix_append _ _), h3.trans (PathAdd.infl _ _ (hA _ _ _ hx))⟩
    · rw [List.mem_singleton.1 hw]; exact ⟨_, _, .step hp hx, List.prefix_refl _, le_rfl⟩

/-- A walk can be cut to one without repeated vertices that is not longer. -/
theorem walk_shorten [LinearOrder W] [PathAdd W] {A : V → V → Option W} (hA : ∀ u v x, A u v = some x → 0 ≤ x)
    {s v : V} {p : List V} {c : W} (h : WalkOf A s p v c) : ∃ q d, WalkOf A s q v d ∧ q.Nodup ∧ d ≤ c := by
  induction h with
  | start => exact ⟨_, _, .start, by simp, le_rfl⟩
  | step hp hx ih =>
    rename_i p v w c x
    obtain ⟨q, d, h1, h2, h3⟩ := ih
    by_cases hw : w ∈ q
    · obtain ⟨q', d', k1, k2, k3⟩ := walk_prefix hA h1 w hw
      exact ⟨q', d', k1, h2.sublist k2.sublist, k3.trans (h3.trans (PathAdd.infl _ _ (hA _ _ _ hx)))⟩
    · refine ⟨q ++ [w], d + x, .step h1 hx, ?_, PathAdd.mono _ _ _ h3⟩
      rw [List.nodup_append]
      refine ⟨h2, by simp, fun a ha b hb e => hw ?_⟩
      rw [← List.mem_singleton.1 hb, ← e]; exact ha

theorem walk_weight {A : V → V → Option W} {s v v' : V} {p : List V} {c c' : W} (h : WalkOf A s p v c)
    (k : WalkOf A s p v' c') : v = v' ∧ c = c' := by
  induction h generalizing v' c' with
  | start =>
    generalize hq : [s] = q at k
    cases k with
    | start => exact ⟨rfl, rfl⟩
    | step k _ =>
      have h1 := congrArg List.length hq
      have h2 := walk_length_pos k
      rw [List.length_append, List.length_singleton, List.length_singleton] at h1
      omega
  | step h hx ih =>
    rename_i p v w c x
    generalize hq : p ++ [w] = q at k
    cases k with
    | start =>
      have h1 := congrArg List.length hq
      have h2 := walk_length_pos h
      rw [List.length_append, List.length_singleton, List.length_singleton] at h1
      omega
    | step k hy =>
      obtain ⟨rfl, h2⟩ := List.append_inj' hq rfl
      obtain ⟨rfl⟩ := List.cons.inj h2 |>.1
      obtain ⟨rfl, rfl⟩ := ih k
      rw [hx] at hy
      simp only [Option.some.injEq] at hy
      exact ⟨rfl, by rw [hy]⟩

/-- If there is a walk, there is a shortest one: only finitely many walks have no repeated vertices. -/
theorem exists_shortest [LinearOrder W] [PathAdd W] {A : V → V → Option W} (hA : ∀ u v x, A u v = some x → 0 ≤ x) (K : List V)
    {s v : V} (hK : ∀ p v c, WalkOf A s p v c → ∀ w ∈ p, w ∈ K) {p : List V} {c : W} (h : WalkOf A s p v c) :
    ∃ d, IsShortest A s v d := by
  have hfin : {d | ∃ q, q.Nodup ∧ WalkOf A s q v d}.Finite := by
    have h1 : {q | q.Nodup ∧ ∃ d, WalkOf A s q v d}.Finite := by
      refine (List.finite_toSet (K.sublists.flatMap List.permutations)).subset ?_
      rintro q ⟨hq, d, hd⟩
      obtain ⟨l, hl1, hl2⟩ := List.subperm_of_subset hq (fun w hw => hK q v d hd w hw)
      rw [Set.mem_setOf_eq, List.mem_flatMap]
      exact ⟨l, List.mem_sublists.2 hl2, List.mem_permutations.2 hl1.symm⟩
    refine (h1.image (fun q => @Classical.epsilon _ ⟨c⟩ (fun d => WalkOf A s q v d))).subset ?_
    rintro d ⟨q, hq, hd⟩
    refine ⟨q, ⟨hq, d, hd⟩, ?_⟩
    exact (walk_weight (Classical.epsilon_spec (p := fun d => WalkOf A s q v d) ⟨d, hd⟩) hd).2
  obtain ⟨q, d, h1, h2, -⟩ := walk_shorten hA h
  obtain ⟨m, ⟨r, hr1, hr2⟩, hm⟩ := hfin.exists_minimal ⟨d, q, h2, h1⟩
  refine ⟨m, ⟨r, hr2⟩, fun p' c' hp' => ?_⟩
  obtain ⟨q', d', k1, k2, k3⟩ := walk_shorten hA hp'
  rcases le_total m d' with hle | hle
  · exact hle.trans k3
  · exact (hm ⟨q', k2, k1⟩ hle).trans k3

/-- Lower bounds for all walks from a potential. -/
theorem walk_potential [LinearOrder W] [PathAdd W] {A : V → V → Option W} {f : V → W}
    (hf : ∀ u v x, A u v = some x → f v ≤ f u + x) {s v : V} (hs : f s ≤ 0) {p : List V} {c : W} (h : WalkOf A s p v c) : f v ≤ c := by
  induction h with
  | start => exact hs
  | step _ hx ih => exact (hf _ _ _ hx).trans (PathAdd.mono _ _ _ ih)

/-- Links lead back in one way only. -/
theorem link_unique {P : V → Option (Option V)} {s v : V} {p q : List V} (h : LinkPath P s p v) (k : LinkPath P s q v) : p = q := by
  induction h generalizing q with
  | root h0 =>
    cases k with
    | root _ => rfl
    | step _ h1 => rw [h0] at h1; simp at h1
  | step h h0 ih =>
    cases k with
    | root h1 => rw [h0] at h1; simp at h1
    | step k h1 =>
      rw [h0] at h1
      simp only [Option.some.injEq] at h1
      subst h1
      rw [ih k]

theorem link_prefix {P : V → Option (Option V)} {s v : V} {p : List V} (h : LinkPath P s p v) :
    ∀ w ∈ p, ∃ q, LinkPath P s q w ∧ q <+: p := by
  induction h with
  | root h0 => intro w hw; rw [List.mem_singleton.1 hw]; exact ⟨_, .root h0, List.prefix_refl _⟩
  | step h h0 ih =>
    intro w hw
    rcases List.mem_append.1 hw with hw | hw
    · obtain ⟨q, h1, h2⟩ := ih w hw
      exact ⟨q, h1, h2.trans (List.prefix_append _ _)⟩
    · rw [List.mem_singleton.1 hw]; exact ⟨_, .step h h0, List.prefix_refl _⟩

/-- No vertex is met twice on the way along the links. -/
theorem link_nodup {P : V → Option (Option V)} {s v : V} {p : List V} (h : LinkPath P s p v) : p.Nodup := by
  induction h with
  | root _ => simp
  | step h h0 ih =>
    rename_i p u v
    rw [List.nodup_append]
    refine ⟨ih, by simp, fun a ha b hb e => ?_⟩
    rw [List.mem_singleton.1 hb] at e
    subst e
    obtain ⟨q, k1, k2⟩ := link_prefix h a ha
    have := link_unique k1 (.step h h0)
    have hl := k2.length_le
    rw [this] at hl
    simp at hl

end walks

section errors

variable {V : Type} {M : Mode} {A : V → V → Option (Double M)}

/-- The relative error of one addition. -/
noncomputable def ulp : ℝ := (2 : ℝ)⁻¹ ^ 52

theorem ulp_pos : 0 < ulp := by unfold ulp; positivity

theorem ulp_lt : ulp < 1 := by unfold ulp; norm_num

theorem rnd_error (M : Mode) {y : ℝ} (hy : 0 ≤ y) : (1 - ulp) * y ≤ M.rnd y ∧ M.rnd y ≤ (1 + ulp) * y := by
  rcases hy.eq_or_lt with rfl | hy
  · rw [M.exact 0 ⟨0, 0, by norm_num, by simp⟩]; simp
  · have := abs_le.1 (relative_error M.isRounding hy)
    rw [← ulp] at this
    constructor <;> linarith [this.1, this.2]

/-- How far the rounded length `c` of a walk with `k` edges can be from its length `L`. -/
def Close (k : ℕ) (L c : ℝ) : Prop := 0 ≤ L ∧ (1 - ulp) ^ k * L ≤ c ∧ c ≤ (1 + ulp) ^ k * L

theorem close_step {k : ℕ} {L c x : ℝ} (h : Close k L c) (hx : 0 ≤ x) : Close (k + 1) (L + x) (M.rnd (c + x)) := by
  obtain ⟨h0, h1, h2⟩ := h
  have u0 := ulp_pos
  have u1 := ulp_lt
  have p1 : 0 ≤ (1 - ulp) ^ k := pow_nonneg (by linarith) k
  have p2 : (1 - ulp) ^ k ≤ 1 := pow_le_one₀ (by linarith) (by linarith)
  have p3 : 1 ≤ (1 + ulp) ^ k := one_le_pow₀ (by linarith)
  have hc : 0 ≤ c := (mul_nonneg p1 h0).trans h1
  obtain ⟨e1, e2⟩ := rnd_error M (y := c + x) (by linarith)
  refine ⟨by linarith, ?_, ?_⟩
  · refine le_trans ?_ e1
    rw [pow_succ', mul_assoc]
    refine mul_le_mul_of_nonneg_left ?_ (by linarith)
    nlinarith [mul_le_of_le_one_left hx p2]
  · refine e2.trans ?_
    rw [pow_succ', mul_assoc]
    refine mul_le_mul_of_nonneg_left ?_ (by linarith)
    nlinarith [le_mul_of_one_le_left hx p3]

theorem close_mono {k n : ℕ} (hk : k ≤ n) {L c : ℝ} (h : Close k L c) : Close n L c := by
  obtain ⟨h0, h1, h2⟩ := h
  have u0 := ulp_pos
  have u1 := ulp_lt
  refine ⟨h0, le_trans ?_ h1, h2.trans ?_⟩
  · exact mul_le_mul_of_nonneg_right (pow_le_pow_of_le_one (by linarith) (by linarith) hk) h0
  · exact mul_le_mul_of_nonneg_right (pow_le_pow_right₀ (by linarith) hk) h0

theorem walk_exact (hA : ∀ u v x, A u v = some x → 0 ≤ x) {s v : V} {p : List V} {c : Double M} (h : WalkOf A s p v c) :
    ∃ L, WalkOf (Double.exactWeight A) s p v L ∧ Close (p.length - 1) L c.val := by
  induction h with
  | start => exact ⟨0, .start, le_rfl, by simp [Double.val_zero]⟩
  | step hp hx ih =>
    rename_i p v w c x
    obtain ⟨L, h1, h2⟩ := ih
    refine ⟨L + x.val, .step h1 (by rw [Double.exactWeight, hx]; rfl), ?_⟩
    have := close_step (M := M) h2 (hA _ _ _ hx : 0 ≤ x.val)
    have hl := walk_length_pos hp
    rw [List.length_append, List.length_singleton, show p.length + 1 - 1 = p.length - 1 + 1 by omega]
    exact this

theorem walk_rounded (hA : ∀ u v x, A u v = some x → 0 ≤ x) {s v : V} {p : List V} {L : ℝ}
    (h : WalkOf (Double.exactWeight A) s p v L) :
    ∃ c : Double M, WalkOf A s p v c ∧ Close (p.length - 1) L c.val := by
  induction h with
  | start => exact ⟨0, .start, le_rfl, by simp [Double.val_zero]⟩
  | step hp hx ih =>
    rename_i p v w L x
    obtain ⟨c, h1, h2⟩ := ih
    rw [Double.exactWeight, Option.map_eq_some_iff] at hx
    obtain ⟨y, hy, rfl⟩ := hx
    refine ⟨c + y, .step h1 hy, ?_⟩
    have := close_step (M := M) h2 (hA _ _ _ hy : 0 ≤ y.val)
    have hl := walk_length_pos hp
    rw [List.length_append, List.length_singleton, show p.length + 1 - 1 = p.length - 1 + 1 by omega]
    exact this

/-- The length `L` is an integer, and the rounded length `c` is the same or both are at least `2^53`. -/
def IntClose (L c : ℝ) : Prop := 0 ≤ L ∧ (∃ n : ℤ, L = n) ∧ (L ≤ 2 ^ 53 → c = L) ∧ (2 ^ 53 ≤ L → 2 ^ 53 ≤ c)

theorem intClose_step {L c x : ℝ} (h : IntClose L c) (hx : 0 ≤ x) (hn : ∃ n : ℤ, x = n) : IntClose (L + x) (M.rnd (c + x)) := by
  obtain ⟨h0, ⟨n, rfl⟩, h2, h3⟩ := h
  obtain ⟨m, rfl⟩ := hn
  refine ⟨by linarith, ⟨n + m, by push_cast; rfl⟩, fun h => ?_, fun h => ?_⟩
  · rw [h2 (by linarith), ← Int.cast_add]
    refine M.exact _ (isDouble_int _ ?_)
    rw [← Int.cast_add] at h
    have h' : n + m ≤ 2 ^ 53 := by exact_mod_cast h
    have h0' : 0 ≤ n := by exact_mod_cast h0
    have hx' : 0 ≤ m := by exact_mod_cast hx
    rw [abs_of_nonneg (by omega)]; exact h'
  · refine M.isRounding.lower _ _ ?_ ?_
    · exact ⟨2 ^ 53, 0, by norm_num, by norm_num⟩
    · rcases le_total (n : ℝ) (2 ^ 53) with hc | hc
      · rw [h2 hc]; exact h
      · have := h3 hc; linarith

theorem walk_exact_int (hA : ∀ u v x, A u v = some x → 0 ≤ x) (hI : ∀ u v x, A u v = some x → ∃ n : ℤ, x.val = n)
    {s v : V} {p : List V} {c : Double M} (h : WalkOf A s p v c) :
    ∃ L, WalkOf (Double.exactWeight A) s p v L ∧ IntClose L c.val := by
  induction h with
  | start => exact ⟨0, .start, le_rfl, ⟨0, by simp⟩, by simp [Double.val_zero], by simp [Double.val_zero]⟩
  | step hp hx ih =>
    rename_i p v w c x
    obtain ⟨L, h1, h2⟩ := ih
    exact ⟨L + x.val, .step h1 (by rw [Double.exactWeight, hx]; rfl), intClose_step h2 (hA _ _ _ hx : 0 ≤ x.val) (hI _ _ _ hx)⟩

theorem walk_rounded_int (hA : ∀ u v x, A u v = some x → 0 ≤ x) (hI : ∀ u v x, A u v = some x → ∃ n : ℤ, x.val = n)
    {s v : V} {p : List V} {L : ℝ} (h : WalkOf (Double.exactWeight A) s p v L) :
    ∃ c : Double M, WalkOf A s p v c ∧ IntClose L c.val := by
  induction h with
  | start => exact ⟨0, .start, le_rfl, ⟨0, by simp⟩, by simp [Double.val_zero], by simp [Double.val_zero]⟩
  | step hp hx ih =>
    rename_i p v w L x
    obtain ⟨c, h1, h2⟩ := ih
    rw [Double.exactWeight, Option.map_eq_some_iff] at hx
    obtain ⟨y, hy, rfl⟩ := hx
    exact ⟨c + y, .step h1 hy, intClose_step h2 (hA _ _ _ hy : 0 ≤ y.val) (hI _ _ _ hy)⟩

end errors

end Rosemary.Floats
