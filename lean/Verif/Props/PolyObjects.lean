import Verif.Model.PolyObjects
import Verif.Lemmas.PolyGcd
import Verif.Props.Polynomials
import Mathlib.Algebra.Polynomial.Eval.Degree

/-!
# C171: expressions of polynomial objects
-/

namespace Rosemary.Props

open Rosemary Rosemary.Polys Rosemary.PolyObj Polynomial

/-- The class and the variable an expression should have: those of its leftmost polynomial, of the
argument for a polynomial applied to something; `none` for a number. -/
def polyLeader : Expr → Option (Cls × String)
  | .num _ => none
  | .list cls _ name => some (cls, name)
  | .const cls _ name => some (cls, name)
  | .var cls name => some (cls, name)
  | .add a b => (polyLeader a).or (polyLeader b)
  | .sub a b => (polyLeader a).or (polyLeader b)
  | .neg a => polyLeader a
  | .mul a b => (polyLeader a).or (polyLeader b)
  | .pow a _ => polyLeader a
  | .powerBinary a _ => polyLeader a
  | .call _ b => polyLeader b
  | .primitive a => polyLeader a
  | .pquo a _ => polyLeader a
  | .prem a _ => polyLeader a
  | .quo a _ => polyLeader a
  | .rem a _ => polyLeader a
  | .content _ => none
  | .item _ _ => none

/-- What an expression of ring operations means: an element of `ℤ[X]`, where applying a polynomial
to something is substitution. -/
noncomputable def polyMeaning : Expr → ℤ[X]
  | .num c => C c
  | .list _ L _ => (L.mapIdx (fun i c => C c * X ^ i)).sum
  | .const _ c _ => C c
  | .var _ _ => X
  | .add a b => polyMeaning a + polyMeaning b
  | .sub a b => polyMeaning a - polyMeaning b
  | .neg a => -polyMeaning a
  | .mul a b => polyMeaning a * polyMeaning b
  | .pow a k => polyMeaning a ^ k
  | .powerBinary a k => polyMeaning a ^ k
  | .call a b => (polyMeaning a).comp (polyMeaning b)
  | _ => 0

/-- Expressions of ring operations and substitution, without a polynomial minus a number, without the
zero polynomial raised to a power by `**`, without `power_binary(0)`, and without methods of numbers. -/
def RingExpr : Expr → Prop
  | .num _ => True
  | .list _ _ _ => True
  | .const _ _ _ => True
  | .var _ _ => True
  | .add a b => RingExpr a ∧ RingExpr b
  | .sub a b => RingExpr a ∧ RingExpr b ∧ (polyLeader a ≠ none → polyLeader b ≠ none)
  | .neg a => RingExpr a
  | .mul a b => RingExpr a ∧ RingExpr b
  | .pow a _ => RingExpr a ∧ (polyLeader a ≠ none → polyMeaning a ≠ 0)
  | .powerBinary a k => RingExpr a ∧ polyLeader a ≠ none ∧ k ≠ 0
  | .call a b => RingExpr a ∧ RingExpr b ∧ polyLeader a ≠ none
  | _ => False

private def Rep (v : Val) (p : ℤ[X]) (l : Option (Cls × String)) : Prop :=
  match v with
  | .num c => p = C c ∧ l = none
  | .obj o => Reduced o.coeffs ∧ toPoly o.coeffs = p ∧ l = some (o.cls, o.name)

private theorem toPoly_mapIdx (L : List Int) : toPoly L = (L.mapIdx (fun i c => C c * X ^ i)).sum := by
  have key : ∀ (L : List Int) (n : Nat),
      (L.mapIdx (fun i c => C c * X ^ (i + n))).sum = X ^ n * toPoly L := by
    intro L
    induction L with
    | nil => intro n; simp [toPoly]
    | cons a L ih =>
      intro n
      rw [List.mapIdx_cons, List.sum_cons]
      have := ih (n + 1)
      simp only [toPoly]
      rw [show (fun (i : Nat) (c : Int) => (C c * X ^ (i + 1 + n) : ℤ[X])) =
        fun i c => C c * X ^ (i + (n + 1)) by funext i c; rw [add_assoc, add_comm 1 n], this]
      ring
  have := key L 0
  simpa using this.symm

private theorem toPoly_mkScalar (c : Int) : toPoly (mkScalar c) = C c := by simp [mkScalar, toPoly]

private theorem reduced_mkScalar (c : Int) : Reduced (mkScalar c) := ⟨by simp [mkScalar], by simp [mkScalar]⟩

private theorem rep_add {x y : Val} {p q : ℤ[X]} {l m : Option (Cls × String)} (hx : Rep x p l)
    (hy : Rep y q m) : Rep (addV x y) (p + q) (l.or m) := by
  match x, y, hx, hy with
  | .num a, .num b, ⟨h1, h2⟩, ⟨h3, h4⟩ => exact ⟨by rw [h1, h3, C_add], by rw [h2, h4]; rfl⟩
  | .num c, .obj f, ⟨h1, h2⟩, ⟨h3, h4, h5⟩ =>
    refine ⟨reduced_mk _, ?_, by rw [h2, h5]; rfl⟩
    change toPoly (mk (listAdd f.coeffs (mkScalar c))) = p + q
    rw [toPoly_mk, toPoly_listAdd, toPoly_mkScalar, h4, h1, add_comm]
  | .obj f, .num c, ⟨h3, h4, h5⟩, ⟨h1, h2⟩ =>
    refine ⟨reduced_mk _, ?_, by rw [h2, h5]; rfl⟩
    change toPoly (mk (listAdd f.coeffs (mkScalar c))) = p + q
    rw [toPoly_mk, toPoly_listAdd, toPoly_mkScalar, h4, h1]
  | .obj f, .obj g, ⟨h1, h2, h3⟩, ⟨h4, h5, h6⟩ =>
    refine ⟨reduced_mk _, ?_, by rw [h3, h6]; rfl⟩
    change toPoly (mk (listAdd f.coeffs g.coeffs)) = p + q
    rw [toPoly_mk, toPoly_listAdd, h2, h5]

private theorem rep_neg {x : Val} {p : ℤ[X]} {l : Option (Cls × String)} (hx : Rep x p l) :
    Rep (negV x) (-p) l := by
  match x, hx with
  | .num a, ⟨h1, h2⟩ => exact ⟨by rw [h1, C_neg], h2⟩
  | .obj f, ⟨h1, h2, h3⟩ =>
    refine ⟨reduced_mk _, ?_, h3⟩
    change toPoly (mk (f.coeffs.map (fun e => -e))) = -p
    rw [toPoly_mk, toPoly_map_neg, h2]

private theorem rep_sub {x y : Val} {p q : ℤ[X]} {l m : Option (Cls × String)} (hx : Rep x p l)
    (hy : Rep y q m) (h : l ≠ none → m ≠ none) : Rep (subV x y) (p - q) (l.or m) := by
  match x, y, hx, hy with
  | .num a, .num b, ⟨h1, h2⟩, ⟨h3, h4⟩ => exact ⟨by rw [h1, h3, C_sub], by rw [h2, h4]; rfl⟩
  | .num c, .obj f, hx, hy =>
    have h1 := rep_add (rep_neg hy) hx
    have hl : l = none := hx.2
    rw [hl, Option.or_none, ← Option.none_or (o := m), ← hl] at h1
    rw [show p - q = -q + p by ring]
    exact h1
  | .obj f, .num c, hx, hy => exact absurd hy.2 (h (by rw [hx.2.2]; simp))
  | .obj f, .obj g, ⟨h1, h2, h3⟩, ⟨h4, h5, h6⟩ =>
    refine ⟨reduced_mk _, ?_, by rw [h3, h6]; rfl⟩
    change toPoly (mk (listSubtract f.coeffs g.coeffs)) = p - q
    rw [toPoly_mk, toPoly_listSubtract, h2, h5]

private theorem rep_mul {x y : Val} {p q : ℤ[X]} {l m : Option (Cls × String)} (hx : Rep x p l)
    (hy : Rep y q m) : Rep (mulV x y) (p * q) (l.or m) := by
  match x, y, hx, hy with
  | .num a, .num b, ⟨h1, h2⟩, ⟨h3, h4⟩ => exact ⟨by rw [h1, h3, C_mul], by rw [h2, h4]; rfl⟩
  | .num c, .obj f, ⟨h1, h2⟩, ⟨h3, h4, h5⟩ =>
    refine ⟨reduced_mk _, ?_, by rw [h2, h5]; rfl⟩
    change toPoly (mk (f.coeffs.map (fun e => c * e))) = p * q
    rw [toPoly_mk, toPoly_map_mul, h4, h1]
  | .obj f, .num c, ⟨h3, h4, h5⟩, ⟨h1, h2⟩ =>
    refine ⟨reduced_mk _, ?_, by rw [h2, h5]; rfl⟩
    change toPoly (mk (f.coeffs.map (fun e => c * e))) = p * q
    rw [toPoly_mk, toPoly_map_mul, h4, h1, mul_comm]
  | .obj f, .obj g, ⟨h1, h2, h3⟩, ⟨h4, h5, h6⟩ =>
    refine ⟨reduced_mk _, ?_, by rw [h3, h6]; rfl⟩
    change toPoly (mul f.coeffs g.coeffs) = p * q
    rw [toPoly_mul, h2, h5]

private theorem powerBinaryLoopO_spec (z y : Obj) (k : Nat) (hk : k ≠ 0) :
    (powerBinaryLoopO z y k).coeffs = powerBinaryLoop z.coeffs y.coeffs k ∧
    (powerBinaryLoopO z y k).cls = z.cls ∧ (powerBinaryLoopO z y k).name = z.name ∧
    Reduced (powerBinaryLoopO z y k).coeffs := by
  induction z, y, k using powerBinaryLoopO.induct with
  | case1 z y k h =>
    rw [powerBinaryLoopO, powerBinaryLoop]
    rw [dif_pos h, dif_pos h]
    have : k % 2 = 1 := by omega
    rw [if_pos this, if_pos this]
    exact ⟨rfl, rfl, rfl, reduced_mk _⟩
  | case2 z y k y' h ih =>
    rw [powerBinaryLoopO, powerBinaryLoop]
    rw [dif_neg h, dif_neg h]
    obtain ⟨h1, h2, h3, h4⟩ := ih h
    refine ⟨h1.trans ?_, h2, h3, h4⟩
    congr 1
    change (if k % 2 = 1 then mulO z y else y).coeffs = _
    split <;> rfl

private theorem rep_call {f : Obj} {y : Val} {q : ℤ[X]} {m : Option (Cls × String)}
    (hf : f.coeffs ≠ []) (hy : Rep y q m) :
    Rep (f.coeffs.reverse.foldl (fun value coeff => addV (mulV value y) (.num coeff)) (.num 0))
      ((toPoly f.coeffs).comp q) m := by
  have key : ∀ L : List Int, ∃ l : Option (Cls × String),
      Rep (L.reverse.foldl (fun value coeff => addV (mulV value y) (.num coeff)) (.num 0))
        ((toPoly L).comp q) l ∧ (l = none ∨ l = m) ∧ (L ≠ [] → l = m) := by
    intro L
    induction L with
    | nil => exact ⟨none, ⟨by simp [toPoly], rfl⟩, .inl rfl, fun h => absurd rfl h⟩
    | cons a L ih =>
      obtain ⟨l, h1, h2, -⟩ := ih
      have h3 := rep_add (rep_mul h1 hy) (show Rep (.num a) (C a) none from ⟨rfl, rfl⟩)
      have hl : (l.or m).or none = m := by
        rw [Option.or_none]
        rcases h2 with h | h
        · rw [h]; rfl
        · rw [h]; cases m <;> rfl
      rw [hl] at h3
      refine ⟨m, ?_, .inr rfl, fun _ => rfl⟩
      rw [List.reverse_cons, List.foldl_append]
      simp only [toPoly, List.foldl_cons, List.foldl_nil, add_comp, C_comp, mul_comp, X_comp]
      rw [add_comm, mul_comm q]
      exact h3
  obtain ⟨l, h1, -, h2⟩ := key f.coeffs
  rw [← h2 hf]
  exact h1

private theorem eval_rep (e : Expr) (h : RingExpr e) :
    ∃ v, evalE e = .ok v ∧ Rep v (polyMeaning e) (polyLeader e) := by
  induction e with
  | num c => exact ⟨_, rfl, rfl, rfl⟩
  | list cls L name => exact ⟨_, rfl, reduced_mk _, by rw [toPoly_mk, toPoly_mapIdx]; rfl, rfl⟩
  | const cls c name => exact ⟨_, rfl, reduced_mkScalar c, toPoly_mkScalar c, rfl⟩
  | var cls name =>
    exact ⟨_, rfl, ⟨by simp [mkX], by simp [mkX]⟩, by simp [mkX, toPoly, polyMeaning], rfl⟩
  | add a b iha ihb =>
    obtain ⟨x, hx, rx⟩ := iha h.1
    obtain ⟨y, hy, ry⟩ := ihb h.2
    exact ⟨_, by rw [evalE, hx, hy]; rfl, rep_add rx ry⟩
  | sub a b iha ihb =>
    obtain ⟨x, hx, rx⟩ := iha h.1
    obtain ⟨y, hy, ry⟩ := ihb h.2.1
    exact ⟨_, by rw [evalE, hx, hy]; rfl, rep_sub rx ry h.2.2⟩
  | neg a iha =>
    obtain ⟨x, hx, rx⟩ := iha h
    exact ⟨_, by rw [evalE, hx]; rfl, rep_neg rx⟩
  | mul a b iha ihb =>
    obtain ⟨x, hx, rx⟩ := iha h.1
    obtain ⟨y, hy, ry⟩ := ihb h.2
    exact ⟨_, by rw [evalE, hx, hy]; rfl, rep_mul rx ry⟩
  | pow a k iha =>
    obtain ⟨x, hx, rx⟩ := iha h.1
    match x, hx, rx with
    | .num c, hx, ⟨h1, h2⟩ =>
      exact ⟨.num (c ^ k), by rw [evalE, hx]; rfl, by rw [polyMeaning, h1, C_pow], h2⟩
    | .obj f, hx, ⟨h1, h2, h3⟩ =>
      have h0 := h.2 (by rw [h3]; simp)
      have hne : ∃ c ∈ f.coeffs, c ≠ 0 := by
        by_contra hc
        push Not at hc
        exact h0 (by rw [← h2]; exact toPoly_eq_zero hc)
      obtain ⟨P, e1, e2, e3⟩ := (C47_polynomial_pow f.coeffs k).2.1 hne
      refine ⟨.obj ⟨f.cls, P, f.name⟩, ?_, e3, by rw [e2, h2]; rfl, h3⟩
      rw [evalE, hx]
      change powV (.obj f) k = _
      rw [powV, e1]
  | powerBinary a k iha =>
    obtain ⟨x, hx, rx⟩ := iha h.1
    match x, hx, rx with
    | .num c, hx, ⟨h1, h2⟩ => exact absurd h2 h.2.1
    | .obj f, hx, ⟨h1, h2, h3⟩ =>
      have h0 := h.2.2
      obtain ⟨e1, e2, e3, e5⟩ := powerBinaryLoopO_spec f ⟨.base, mk [1], f.name⟩ k h0
      have e4 : (powerBinaryLoopO f ⟨.base, mk [1], f.name⟩ k).coeffs = powerBinary f.coeffs k := by
        rw [e1, powerBinary, if_neg h0]
      refine ⟨.obj (powerBinaryLoopO f ⟨.base, mk [1], f.name⟩ k), ?_, ?_, ?_, ?_⟩
      · rw [evalE, hx]
        change powerBinaryV (.obj f) k = _
        rw [powerBinaryV, if_neg h0]
      · exact e5
      · rw [e4, powerBinary_spec, h2]; rfl
      · rw [e2, e3]; exact h3
  | call a b iha ihb =>
    obtain ⟨x, hx, rx⟩ := iha h.1
    obtain ⟨y, hy, ry⟩ := ihb h.2.1
    match x, hx, rx with
    | .num c, hx, ⟨h1, h2⟩ => exact absurd h2 h.2.2
    | .obj f, hx, ⟨h1, h2, h3⟩ =>
      refine ⟨_, by rw [evalE, hx, hy]; rfl, ?_⟩
      have := rep_call h1.1 ry
      rw [h2] at this
      exact this
  | _ => exact h.elim

/-- C171: every expression of ring operations and substitutions evaluates without an exception.  If no
polynomial occurs in it the value is the number meant.  Otherwise it is a polynomial of the class and
the variable of the leftmost one, `degree` and `lead_coeff` are the degree and the leading coefficient
of the polynomial meant, and reading the coefficients gives its coefficients, from the leading one down
for negative indices, `IndexError` beyond the degree.  Partial: see the violations below for what `RingExpr` excludes. -/
theorem C171_ring_partial (e : Expr) (h : RingExpr e) :
    (polyLeader e = none → ∃ c, evalE e = .ok (.num c) ∧ polyMeaning e = C c) ∧
    (∀ cls name, polyLeader e = some (cls, name) →
      ∃ o, evalE e = .ok (.obj o) ∧ o.cls = cls ∧ o.name = name ∧
        PolyObj.degree o = (polyMeaning e).natDegree ∧ PolyObj.leadCoeff o = (polyMeaning e).leadingCoeff ∧
        (∀ i : Nat, i ≤ (polyMeaning e).natDegree → itemV (.obj o) i = .ok (.num ((polyMeaning e).coeff i))) ∧
        (∀ i : Nat, (polyMeaning e).natDegree < i → itemV (.obj o) i = .error .indexError) ∧
        (∀ i : Nat, i ≤ (polyMeaning e).natDegree →
          itemV (.obj o) (-(i + 1 : Int)) = .ok (.num ((polyMeaning e).coeff ((polyMeaning e).natDegree - i)))) ∧
        ∀ i : Nat, (polyMeaning e).natDegree < i → itemV (.obj o) (-(i + 1 : Int)) = .error .indexError) := by
  obtain ⟨v, hv, rv⟩ := eval_rep e h
  refine ⟨fun hn => ?_, fun cls name hs => ?_⟩
  · match v, hv, rv with
    | .num c, hv, ⟨h1, h2⟩ => exact ⟨c, hv, h1⟩
    | .obj o, hv, ⟨h1, h2, h3⟩ => rw [hn] at h3; exact absurd h3 (by simp)
  · match v, hv, rv with
    | .num c, hv, ⟨h1, h2⟩ => rw [hs] at h2; exact absurd h2 (by simp)
    | .obj o, hv, ⟨h1, h2, h3⟩ =>
      rw [hs] at h3
      injection h3 with h3
      injection h3 with h3 h4
      have hlen : 1 ≤ o.coeffs.length := List.length_pos_iff.mpr h1.1
      have hdeg : o.coeffs.length = (polyMeaning e).natDegree + 1 := by
        rw [← h2]
        by_cases h0 : toPoly o.coeffs = 0
        · have : o.coeffs = mkScalar 0 := h1.inj (reduced_mkScalar 0) (by rw [h0, toPoly_mkScalar, C_0])
          rw [h0, this]; rfl
        · have := natDegree_toPoly h1 h0
          omega
      refine ⟨o, hv, h3.symm, h4.symm, ?_, ?_, ?_, ?_, ?_, ?_⟩
      · rw [PolyObj.degree, hdeg]; push_cast; ring
      · rw [PolyObj.leadCoeff, ← coeff_toPoly, h2, leadingCoeff, hdeg, Nat.add_sub_cancel]
      · intro i hi
        have hi' : i < o.coeffs.length := by omega
        simp only [itemV, if_neg (show ¬ (i : Int) < 0 by omega), Int.toNat_natCast,
          List.getElem?_eq_getElem hi']
        rw [← h2, coeff_toPoly, List.getD_eq_getElem?_getD, List.getElem?_eq_getElem hi', Option.getD_some]
      · intro i hi
        have hi' : o.coeffs.length ≤ i := by omega
        simp only [itemV, if_neg (show ¬ (i : Int) < 0 by omega), Int.toNat_natCast,
          List.getElem?_eq_none hi']
      · intro i hi
        have hi' : (polyMeaning e).natDegree - i < o.coeffs.length := by omega
        have hj : (-(i + 1 : Int)) + o.coeffs.length = ((polyMeaning e).natDegree - i : Nat) := by omega
        simp only [itemV, if_pos (show (-(i + 1 : Int)) < 0 by omega), hj]
        have hc : (polyMeaning e).coeff ((polyMeaning e).natDegree - i) = o.coeffs[(polyMeaning e).natDegree - i] := by
          rw [show (polyMeaning e).coeff ((polyMeaning e).natDegree - i) =
            (toPoly o.coeffs).coeff ((polyMeaning e).natDegree - i) by rw [h2], coeff_toPoly,
            List.getD_eq_getElem?_getD, List.getElem?_eq_getElem hi', Option.getD_some]
        rw [if_neg (by omega), Int.toNat_natCast, List.getElem?_eq_getElem hi', hc]
      · intro i hi
        simp only [itemV, if_pos (show (-(i + 1 : Int)) < 0 by omega)]
        rw [if_pos (by omega)]

/-- C171: `==` between the values of two such expressions, numbers or polynomials of any class and
variable, is equality of what they mean. -/
theorem C171_equality_partial (a b : Expr) (ha : RingExpr a) (hb : RingExpr b) :
    ∃ x y, evalE a = .ok x ∧ evalE b = .ok y ∧ (eqV x y = true ↔ polyMeaning a = polyMeaning b) := by
  obtain ⟨x, hx, rx⟩ := eval_rep a ha
  obtain ⟨y, hy, ry⟩ := eval_rep b hb
  refine ⟨x, y, hx, hy, ?_⟩
  match x, y, rx, ry with
  | .num c, .num d, ⟨h1, _⟩, ⟨h2, _⟩ => rw [h1, h2, C_inj, eqV, beq_iff_eq]
  | .num c, .obj f, ⟨h1, _⟩, ⟨h2, h3, _⟩ =>
    rw [eqV, beq_iff_eq, h1, ← h3, ← toPoly_mkScalar]
    exact ⟨fun h => by rw [h], fun h => (reduced_mkScalar c).inj h2 h⟩
  | .obj f, .num c, ⟨h2, h3, _⟩, ⟨h1, _⟩ =>
    rw [eqV, beq_iff_eq, h1, ← h3, ← toPoly_mkScalar]
    exact ⟨fun h => by rw [h], fun h => (h2.inj (reduced_mkScalar c) h).symm⟩
  | .obj f, .obj g, ⟨h1, h2, _⟩, ⟨h3, h4, _⟩ =>
    rw [eqV, beq_iff_eq, ← h2, ← h4]
    exact ⟨fun h => by rw [h], fun h => h1.inj h3 h⟩

private theorem bind_ok {α β : Type} {x : Except PyErr α} {f : α → Except PyErr β} {b : β}
    (h : x >>= f = .ok b) : ∃ a, x = .ok a ∧ f a = .ok b := by
  cases x with
  | error e => cases h
  | ok a => exact ⟨a, rfl, h⟩

/-- C171: `content` and `primitive_part` of the value of such an expression.  They are methods of `PolyZZ` only.  The
primitive part is a `PolyZZ` with the same variable and of the same degree, primitive, and a multiple of it is the
polynomial meant; the zero polynomial has none and raises ZeroDivisionError. -/
theorem C171_primitive_part (e : Expr) (h : RingExpr e) (cls : Cls) (name : String)
    (hl : polyLeader e = some (cls, name)) :
    (cls ≠ .zz → evalE (.primitive e) = .error .attributeError ∧ evalE (.content e) = .error .attributeError) ∧
    (cls = .zz → polyMeaning e = 0 →
      evalE (.primitive e) = .error .zeroDivisionError ∧ evalE (.content e) = .ok (.num 0)) ∧
    (cls = .zz → polyMeaning e ≠ 0 → ∃ c L, evalE (.content e) = .ok (.num c) ∧
      evalE (.primitive e) = .ok (.obj ⟨.zz, L, name⟩) ∧ L.length = (polyMeaning e).natDegree + 1 ∧
      (polyMeaning (.list .zz L name)).IsPrimitive ∧
      (polyMeaning e = C c * polyMeaning (.list .zz L name) ∨ polyMeaning e = -(C c * polyMeaning (.list .zz L name)))) := by
  obtain ⟨v, hv, rv⟩ := eval_rep e h
  match v, hv, rv with
  | .num c, hv, ⟨_, h2⟩ => rw [hl] at h2; exact absurd h2 (by simp)
  | .obj o, hv, ⟨h1, h2, h3⟩ =>
    rw [hl] at h3
    injection h3 with h3
    injection h3 with h3 h4
    have e1 : evalE (.primitive e) = primitiveV (.obj o) := by rw [evalE, hv]; rfl
    have e2 : evalE (.content e) = contentV (.obj o) := by rw [evalE, hv]; rfl
    rw [e1, e2]
    refine ⟨fun hc => ?_, fun hc hz => ?_, fun hc hz => ?_⟩
    · rw [h3] at hc
      rw [primitiveV, contentV]
      revert hc
      cases o.cls <;> simp
    · have ho : o.coeffs = [0] := by
        have : o.coeffs = mkScalar 0 := h1.inj (reduced_mkScalar 0) (by rw [h2, hz, toPoly_mkScalar, C_0])
        rw [this]; rfl
      have hcls : o.cls = .zz := by rw [← h3, hc]
      simp only [primitiveV, contentV, hcls, ho]
      exact ⟨by rw [show primitivePart [0] = .error .zeroDivisionError by decide +kernel],
        by rw [show content [0] = .ok 0 by decide +kernel]⟩
    · have hcls : o.cls = .zz := by rw [← h3, hc]
      obtain ⟨c, c', P, k1, k2, k3, k4, k5, k6, k7, k8, k9⟩ := primitivePart_spec h1 (by rw [h2]; exact hz)
      have hP : polyMeaning (.list .zz P name) = toPoly P := (toPoly_mapIdx P).symm
      refine ⟨c, P, ?_, ?_, ?_, by rw [hP]; exact k8, ?_⟩
      · simp only [contentV, hcls]
        rw [show content o.coeffs = .ok c from k1]
      · simp only [primitiveV, hcls, k3]
        rw [h4]
      · rw [k9, ← h2]
        have := natDegree_toPoly h1 (by rw [h2]; exact hz)
        have hlen : 1 ≤ o.coeffs.length := List.length_pos_iff.mpr h1.1
        omega
      · rw [hP, ← h2, k6, k2]
        split_ifs
        · right; rw [C_neg, neg_mul]
        · exact Or.inl rfl

example : evalE (.primitive (.mul (.list .zz [2, 4] "t") (.num 3))) = .ok (.obj ⟨.zz, [1, 2], "t"⟩) ∧
    evalE (.primitive (.list .qq [2, 4] "t")) = .error .attributeError := by
  constructor <;> decide +kernel

private theorem canon_add {x y : Val} {o : Obj} (h : addV x y = .obj o) : Reduced o.coeffs := by
  match x, y, h with
  | .num c, .obj f, h => injection h with h; subst h; exact reduced_mk _
  | .obj f, .num c, h => injection h with h; subst h; exact reduced_mk _
  | .obj f, .obj g, h => injection h with h; subst h; exact reduced_mk _

private theorem canon_foldl {y : Val} {L : List Int} {v : Val} (hv : ∀ o, v = .obj o → Reduced o.coeffs) {o : Obj}
    (h : L.foldl (fun value coeff => addV (mulV value y) (.num coeff)) v = .obj o) : Reduced o.coeffs := by
  induction L generalizing v with
  | nil => exact hv o h
  | cons a L ih => exact ih (fun o ho => canon_add ho) h

private theorem canon_pseudo {u v : List Int} (hu : Reduced u) :
    Reduced (pseudoQuoRem u v).1 ∧ Reduced (pseudoQuoRem u v).2 := by
  unfold pseudoQuoRem
  dsimp only
  split
  · exact ⟨reduced_mk [0], hu⟩
  · dsimp only
    exact ⟨reduced_mk _, reduced_mk _⟩

private theorem canon_quo {a b : List Int} {r : List Int × List Int} (h : quoRem a b = .ok r) :
    Reduced r.1 ∧ Reduced r.2 := by
  unfold quoRem at h
  dsimp only at h
  split at h
  · injection h with h; subst h; dsimp only; exact ⟨reduced_mk _, reduced_mk _⟩
  · split at h
    · cases h
    · split at h
      · cases h
      · injection h with h; subst h; dsimp only; exact ⟨reduced_mk _, reduced_mk _⟩

private theorem canon_quoV {x y : Val} {r : Obj × Obj} (h : quoV x y = .ok r) :
    Reduced r.1.coeffs ∧ Reduced r.2.coeffs ∧ r.1.cls = .base ∧ r.2.cls = .base := by
  match x, y, h with
  | .obj a, .num c, h =>
    rw [quoV] at h
    split at h
    · cases h
    · rename_i q hq
      injection h with h; subst h
      exact ⟨(canon_quo hq).1, (canon_quo hq).2, rfl, rfl⟩
  | .obj a, .obj b, h =>
    rw [quoV] at h
    split at h
    · cases h
    · rename_i q hq
      injection h with h; subst h
      exact ⟨(canon_quo hq).1, (canon_quo hq).2, rfl, rfl⟩

private theorem canon_pseudoV {x y : Val} {r : Obj × Obj} (hx : ∀ o, x = .obj o → Reduced o.coeffs)
    (h : pseudoV x y = .ok r) :
    Reduced r.1.coeffs ∧ Reduced r.2.coeffs ∧ r.1.cls = .base ∧ (r.2.cls = .base ∨ x = .obj r.2) := by
  match x, hx, h with
  | .obj u, hx, h =>
    simp only [pseudoV] at h
    split at h
    · injection h with h; subst h
      exact ⟨(canon_pseudo (hx u rfl)).1, hx u rfl, rfl, .inr rfl⟩
    · injection h with h; subst h
      exact ⟨(canon_pseudo (hx u rfl)).1, (canon_pseudo (hx u rfl)).2, rfl, .inl rfl⟩

/-- C171: whatever methods made it, a polynomial has at least one coefficient, and the last one is not
zero unless it is the only one. -/
theorem C171_canonical (e : Expr) (o : Obj) (h : evalE e = .ok (.obj o)) :
    o.coeffs ≠ [] ∧ (1 < o.coeffs.length → o.coeffs.getLast? ≠ some 0) := by
  have key : ∀ (e : Expr) (o : Obj), evalE e = .ok (.obj o) → Reduced o.coeffs := by
    intro e
    induction e with
    | num c => intro o h; cases h
    | list cls L name => intro o h; cases h; exact reduced_mk _
    | const cls c name => intro o h; cases h; exact reduced_mkScalar c
    | var cls name => intro o h; cases h; exact ⟨by simp [mkX], by simp [mkX]⟩
    | add a b iha ihb =>
      intro o h
      obtain ⟨x, hx, h⟩ := bind_ok h
      obtain ⟨y, hy, h⟩ := bind_ok h
      injection h with h
      exact canon_add h
    | sub a b iha ihb =>
      intro o h
      obtain ⟨x, hx, h⟩ := bind_ok h
      obtain ⟨y, hy, h⟩ := bind_ok h
      injection h with h
      match x, y, h with
      | .num c, .obj f, h => exact canon_add (x := negV (.obj f)) (y := .num c) h
      | .obj f, .num c, h => injection h with h; subst h; exact reduced_mk _
      | .obj f, .obj g, h => injection h with h; subst h; exact reduced_mk _
    | neg a iha =>
      intro o h
      obtain ⟨x, hx, h⟩ := bind_ok h
      injection h with h
      match x, h with
      | .obj f, h => injection h with h; subst h; exact reduced_mk _
    | mul a b iha ihb =>
      intro o h
      obtain ⟨x, hx, h⟩ := bind_ok h
      obtain ⟨y, hy, h⟩ := bind_ok h
      injection h with h
      match x, y, h with
      | .num c, .obj f, h => injection h with h; subst h; exact reduced_mk _
      | .obj f, .num c, h => injection h with h; subst h; exact reduced_mk _
      | .obj f, .obj g, h => injection h with h; subst h; exact reduced_mk _
    | pow a k iha =>
      intro o h
      obtain ⟨x, hx, h⟩ := bind_ok h
      match x, h with
      | .num c, h => cases h
      | .obj f, h =>
        simp only [powV] at h
        split at h
        · cases h
        · rename_i L hL
          injection h with h; injection h with h; subst h
          unfold Polys.pow at hL
          split at hL
          · cases hL
          · injection hL with hL; subst hL; exact reduced_mk _
    | powerBinary a k iha =>
      intro o h
      obtain ⟨x, hx, h⟩ := bind_ok h
      match x, h with
      | .num c, h => cases h
      | .obj f, h =>
        simp only [powerBinaryV] at h
        split at h
        · cases h; exact reduced_mk [1]
        · rename_i hk
          injection h with h; injection h with h; subst h
          exact (powerBinaryLoopO_spec f _ k hk).2.2.2
    | call a b iha ihb =>
      intro o h
      obtain ⟨x, hx, h⟩ := bind_ok h
      obtain ⟨y, hy, h⟩ := bind_ok h
      match x, h with
      | .num c, h => cases h
      | .obj f, h =>
        injection h with h
        exact canon_foldl (fun o ho => by cases ho) h
    | pquo a b iha ihb =>
      intro o h
      obtain ⟨x, hx, h⟩ := bind_ok h
      obtain ⟨y, hy, h⟩ := bind_ok h
      obtain ⟨r, hr, h⟩ := bind_ok h
      injection h with h; injection h with h; subst h
      exact (canon_pseudoV (fun o ho => iha o (by rw [hx, ho])) hr).1
    | prem a b iha ihb =>
      intro o h
      obtain ⟨x, hx, h⟩ := bind_ok h
      obtain ⟨y, hy, h⟩ := bind_ok h
      obtain ⟨r, hr, h⟩ := bind_ok h
      injection h with h; injection h with h; subst h
      exact (canon_pseudoV (fun o ho => iha o (by rw [hx, ho])) hr).2.1
    | quo a b iha ihb =>
      intro o h
      obtain ⟨x, hx, h⟩ := bind_ok h
      obtain ⟨y, hy, h⟩ := bind_ok h
      obtain ⟨r, hr, h⟩ := bind_ok h
      injection h with h; injection h with h; subst h
      exact (canon_quoV hr).1
    | rem a b iha ihb =>
      intro o h
      obtain ⟨x, hx, h⟩ := bind_ok h
      obtain ⟨y, hy, h⟩ := bind_ok h
      obtain ⟨r, hr, h⟩ := bind_ok h
      injection h with h; injection h with h; subst h
      exact (canon_quoV hr).2.1
    | content a iha =>
      intro o h
      obtain ⟨x, hx, h⟩ := bind_ok h
      match x, h with
      | .num c, h => cases h
      | .obj f, h =>
        simp only [contentV] at h
        split at h
        · split at h <;> cases h
        · cases h
    | primitive a iha =>
      intro o h
      obtain ⟨x, hx, h⟩ := bind_ok h
      match x, h with
      | .num c, h => cases h
      | .obj f, h =>
        simp only [primitiveV] at h
        split at h
        · split at h
          · cases h
          · rename_i P hP
            injection h with h; injection h with h; subst h
            simp only [primitivePart] at hP
            split at hP
            · cases hP
            · split at hP <;> split at hP
              all_goals first
                | (cases hP; done)
                | (injection hP with hP; subst hP; exact reduced_mk _)
        · cases h
    | item a i iha =>
      intro o h
      obtain ⟨x, hx, h⟩ := bind_ok h
      match x, h with
      | .num c, h => cases h
      | .obj f, h =>
        simp only [itemV] at h
        (repeat' split at h) <;> cases h
  have hr := key e o h
  refine ⟨hr.1, fun hl hc => hr.2 hl ?_⟩
  rw [List.getLast?_eq_getElem?] at hc
  rw [List.getD_eq_getElem?_getD, hc, Option.getD_some]

/-- C171: quotients, pseudo quotients and remainders do not keep the class: whatever the class of the
operands they are plain `Polynomial` objects, so that `content` and `primitive_part` never return for
them.  Only the pseudo remainder of an operand of smaller degree than the divisor is the operand. -/
theorem C171_division_class_violation (a b : Expr) (o : Obj) :
    (evalE (.quo a b) = .ok (.obj o) ∨ evalE (.rem a b) = .ok (.obj o) ∨ evalE (.pquo a b) = .ok (.obj o) →
      o.cls = .base) ∧
    (evalE (.prem a b) = .ok (.obj o) → o.cls = .base ∨ evalE a = .ok (.obj o)) ∧
    (∀ v, evalE (.content (.quo a b)) ≠ .ok v ∧ evalE (.primitive (.quo a b)) ≠ .ok v ∧
      evalE (.content (.rem a b)) ≠ .ok v ∧ evalE (.primitive (.rem a b)) ≠ .ok v ∧
      evalE (.content (.pquo a b)) ≠ .ok v ∧ evalE (.primitive (.pquo a b)) ≠ .ok v) ∧
    evalE (.content (.quo (.list .zz [0, 2] "x") (.num 1))) = .error .attributeError := by
  have red : ∀ {x o}, evalE a = .ok x → x = .obj o → Reduced o.coeffs := by
    intro x o hx ho
    rw [ho] at hx
    obtain ⟨h1, h2⟩ := C171_canonical a o hx
    refine ⟨h1, fun hl hc => h2 hl ?_⟩
    rw [List.getLast?_eq_getElem?]
    rw [List.getD_eq_getElem?_getD] at hc
    rw [List.getElem?_eq_getElem (by omega)] at hc ⊢
    rw [Option.getD_some] at hc
    rw [hc]
  have hq : ∀ o, evalE (.quo a b) = .ok (.obj o) → o.cls = .base := by
    intro o h
    obtain ⟨x, hx, h⟩ := bind_ok h
    obtain ⟨y, hy, h⟩ := bind_ok h
    obtain ⟨r, hr, h⟩ := bind_ok h
    injection h with h; injection h with h; subst h
    exact (canon_quoV hr).2.2.1
  have hm : ∀ o, evalE (.rem a b) = .ok (.obj o) → o.cls = .base := by
    intro o h
    obtain ⟨x, hx, h⟩ := bind_ok h
    obtain ⟨y, hy, h⟩ := bind_ok h
    obtain ⟨r, hr, h⟩ := bind_ok h
    injection h with h; injection h with h; subst h
    exact (canon_quoV hr).2.2.2
  have hp : ∀ o, evalE (.pquo a b) = .ok (.obj o) → o.cls = .base := by
    intro o h
    obtain ⟨x, hx, h⟩ := bind_ok h
    obtain ⟨y, hy, h⟩ := bind_ok h
    obtain ⟨r, hr, h⟩ := bind_ok h
    injection h with h; injection h with h; subst h
    exact (canon_pseudoV (fun o ho => red hx ho) hr).2.2.1
  have hcont : ∀ (e : Expr), (∀ o, evalE e = .ok (.obj o) → o.cls = .base) → ∀ v,
      evalE (.content e) ≠ .ok v ∧ evalE (.primitive e) ≠ .ok v := by
    intro e he v
    constructor
    · intro h
      obtain ⟨x, hx, h⟩ := bind_ok h
      match x, hx, h with
      | .num c, hx, h => cases h
      | .obj f, hx, h =>
        have := he f hx
        simp only [contentV, this] at h
        cases h
    · intro h
      obtain ⟨x, hx, h⟩ := bind_ok h
      match x, hx, h with
      | .num c, hx, h => cases h
      | .obj f, hx, h =>
        have := he f hx
        simp only [primitiveV, this] at h
        cases h
  refine ⟨?_, ?_, fun v => ⟨(hcont _ hq v).1, (hcont _ hq v).2, (hcont _ hm v).1, (hcont _ hm v).2,
    (hcont _ hp v).1, (hcont _ hp v).2⟩, by decide +kernel⟩
  · rintro (h | h | h)
    · exact hq o h
    · exact hm o h
    · exact hp o h
  · intro h
    obtain ⟨x, hx, h⟩ := bind_ok h
    obtain ⟨y, hy, h⟩ := bind_ok h
    obtain ⟨r, hr, h⟩ := bind_ok h
    injection h with h; injection h with h; subst h
    rcases (canon_pseudoV (fun o ho => red hx ho) hr).2.2.2 with h | h
    · exact .inl h
    · exact .inr (by rw [hx, h])

/-- C171: what `RingExpr` excludes is not right: a polynomial minus a number adds it, a power of the
zero polynomial raises `IndexError`, `power_binary(0)` loses the class; and division by the number 0
raises another exception than division by the polynomial 0. -/
theorem C171_ring_violation :
    evalE (.sub (.var .zz "x") (.num 1)) = .ok (.obj ⟨.zz, [1, 1], "x"⟩) ∧
    (∀ cls name k, evalE (.pow (.const cls 0 name) k) = .error .indexError) ∧
    evalE (.powerBinary (.var .zz "x") 0) = .ok (.obj ⟨.base, [1], "x"⟩) ∧
    evalE (.content (.powerBinary (.var .zz "x") 0)) = .error .attributeError ∧
    evalE (.quo (.var .zz "x") (.num 0)) = .error .valueError ∧
    evalE (.quo (.var .zz "x") (.const .zz 0 "x")) = .error .zeroDivisionError := by
  refine ⟨by decide +kernel, ?_, by decide +kernel, by decide +kernel, by decide +kernel, by decide +kernel⟩
  intro cls name k
  have := (C47_polynomial_pow (mkScalar 0) k).2.2 (by simp [mkScalar])
  change powV (.obj ⟨cls, mkScalar 0, name⟩) k = _
  simp only [powV, this]

-- substituting t + 1 into x^2 - 3x, and a product with operands of two classes
example : evalE (.call (.sub (.pow (.var .base "x") 2) (.mul (.num 3) (.var .base "x")))
    (.add (.var .zz "t") (.num 1))) = .ok (.obj ⟨.zz, [-2, -1, 1], "t"⟩) := by decide +kernel
example : evalE (.mul (.num 2) (.mul (.var .zz "t") (.list .qq [1, 1, 0] "x"))) =
    .ok (.obj ⟨.zz, [0, 2, 2], "t"⟩) := by decide +kernel
example : RingExpr (.call (.sub (.pow (.var .base "x") 2) (.mul (.num 3) (.var .base "x")))
    (.add (.var .zz "t") (.num 1))) := by
  simp [RingExpr, polyLeader, polyMeaning, X_ne_zero]

end Rosemary.Props
