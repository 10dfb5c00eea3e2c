import Verif.Props.Cliques
import Mathlib.Tactic.Linarith
import Mathlib.Tactic.Ring
import Mathlib.Tactic.IntervalCases

/-!
# How many maximal cliques there are and how long `tomita` takes (C154)

Graphs are those that any sequence of `Graph` operations builds.  The order of iteration of Python sets is a parameter.
-/

namespace Rosemary.Props

open Rosemary.Graph Rosemary.Cliques Rosemary.Spec
open Rosemary.Traversal (E)

private theorem cube_le (s : ℕ) : s ^ 3 ≤ 3 ^ s := by
  rcases Nat.lt_or_ge s 3 with h | h
  · interval_cases s <;> decide
  · induction s, h using Nat.le_induction with
    | base => decide
    | succ n hn ih =>
      rw [pow_succ 3]
      have : (n + 1) ^ 3 ≤ n ^ 3 * 3 := by nlinarith [mul_le_mul hn hn (by omega) (by omega)]
      exact this.trans (Nat.mul_le_mul_right 3 ih)

private theorem yields_step {m k y : ℕ} (hk : k ≤ m) (h : y ^ 3 ≤ 3 ^ (m - k)) : (k * y) ^ 3 ≤ 3 ^ m := by
  rw [mul_pow]
  calc k ^ 3 * y ^ 3 ≤ 3 ^ k * 3 ^ (m - k) := Nat.mul_le_mul (cube_le k) h
    _ = 3 ^ m := by rw [← pow_add]; congr 1; omega

private theorem rounds_step {m k r : ℕ} (hk : 1 ≤ k) (hkm : k ≤ m) (h : (2 * r + 1) ^ 3 ≤ 64 * 3 ^ (m - k)) :
    (2 * (1 + k * r) + 1) ^ 3 ≤ 64 * 3 ^ m := by
  have hm : 3 ^ m = 3 ^ k * 3 ^ (m - k) := by rw [← pow_add]; congr 1; omega
  rcases Nat.lt_or_ge k 3 with hk3 | hk3
  · obtain ⟨j, rfl⟩ : ∃ j, m = k + j := ⟨m - k, by omega⟩
    rw [Nat.add_sub_cancel_left] at h hm
    rw [hm]
    rcases Nat.lt_or_ge j 4 with hj | hj
    · have hr : r < 6 := by
        by_contra hc
        have h1 : (2 * 6 + 1) ^ 3 ≤ (2 * r + 1) ^ 3 := Nat.pow_le_pow_left (by omega) 3
        have h2 : 3 ^ j ≤ 3 ^ 3 := Nat.pow_le_pow_right (by decide) (by omega)
        omega
      interval_cases k <;> interval_cases j <;> interval_cases r <;> simp_all
    · have h2 : 3 ^ 4 ≤ 3 ^ j := Nat.pow_le_pow_right (by decide) (by omega)
      generalize 3 ^ j = x at h h2
      interval_cases k
      · by_cases hr : r ≤ 5
        · have : (2 * (1 + 1 * r) + 1) ^ 3 ≤ 13 ^ 3 := Nat.pow_le_pow_left (by omega) 3
          omega
        · nlinarith [mul_le_mul (by omega : 6 ≤ r) (by omega : 6 ≤ r) (by omega) (by omega)]
      · by_cases hr : r ≤ 6
        · have : (2 * (1 + 2 * r) + 1) ^ 3 ≤ 27 ^ 3 := Nat.pow_le_pow_left (by omega) 3
          omega
        · have h7 : 13 ≤ 2 * r + 1 := by omega
          have : 2 * (1 + 2 * r) + 1 = 2 * (2 * r + 1) + 1 := by ring
          rw [this]
          generalize 2 * r + 1 = y at h h7
          have : (2 * y + 1) ^ 3 ≤ 9 * y ^ 3 := by nlinarith [mul_le_mul h7 h7 (by omega) (by omega)]
          omega
  · have h1 : 2 * (1 + k * r) + 1 ≤ k * (2 * r + 1) := by nlinarith
    calc (2 * (1 + k * r) + 1) ^ 3 ≤ (k * (2 * r + 1)) ^ 3 := Nat.pow_le_pow_left h1 3
      _ = k ^ 3 * (2 * r + 1) ^ 3 := mul_pow _ _ _
      _ ≤ 3 ^ k * (64 * 3 ^ (m - k)) := Nat.mul_le_mul (cube_le k) h
      _ = 64 * 3 ^ m := by rw [hm]; ring

section Rounds

variable {V W : Type} [DecidableEq V]

private theorem pivotLoop_max (g : Graph V W) (C : Finset V) (vs : List V) : ∀ b n, n = (nb g b ∩ C).card →
    ∀ w ∈ b :: vs, (nb g w ∩ C).card ≤ (nb g (pivotLoop g C vs b n) ∩ C).card := by
  induction vs with
  | nil => intro b n _ w hw; rw [List.mem_singleton.1 hw, pivotLoop]
  | cons v vs ih =>
    intro b n hn w hw
    rw [pivotLoop]
    by_cases h : n < (nb g v ∩ C).card
    · rw [if_pos h]
      rcases List.mem_cons.1 hw with rfl | hw
      · have := ih v _ rfl v List.mem_cons_self
        omega
      · exact ih v _ rfl w hw
    · rw [if_neg h]
      rcases List.mem_cons.1 hw with rfl | hw
      · exact ih w n hn w List.mem_cons_self
      · rcases List.mem_cons.1 hw with rfl | hw
        · have := ih b n hn b List.mem_cons_self
          omega
        · exact ih b n hn w (List.mem_cons_of_mem _ hw)

private theorem children_size (g : Graph V W) (S : Finset V) (used : List V) (qs : List V) : ∀ C : Finset V, C ⊆ S →
    (children g S used C qs).length = qs.length ∧
    ∀ e ∈ children g S used C qs, e.2.1 ⊆ e.1 ∧ ∃ q ∈ qs, e.2.1.card ≤ (nb g q ∩ C).card := by
  induction qs with
  | nil => intro C _; simp [children]
  | cons q qs ih =>
    intro C hC
    obtain ⟨h1, h2⟩ := ih (C.erase q) ((Finset.erase_subset _ _).trans hC)
    rw [children]
    refine ⟨by rw [List.length_cons, List.length_cons, h1], ?_⟩
    intro e he
    rcases List.mem_cons.1 he with rfl | he
    · exact ⟨Finset.inter_subset_inter_right hC, q, List.mem_cons_self, by dsimp only; rw [Finset.inter_comm]⟩
    · obtain ⟨h3, p, hp, h4⟩ := h2 e he
      refine ⟨h3, p, List.mem_cons_of_mem _ hp, h4.trans (Finset.card_le_card ?_)⟩
      exact Finset.inter_subset_inter_left (Finset.erase_subset _ _)

/-- One entry of the stack with `m` candidates. -/
private theorem entry_rounds {ord : Finset V → List V} (hord : ∀ S, (ord S).Nodup ∧ ∀ x, x ∈ ord S ↔ x ∈ S)
    (g : Graph V W) (m : ℕ) : ∀ e : Finset V × Finset V × List V, e.2.1 ⊆ e.1 → e.2.1.card ≤ m →
    ∃ r out, (∀ n stack, tomitaLoopN ord g (r + n) (e :: stack) = (tomitaLoopN ord g n stack).map (out ++ ·)) ∧
      (2 * r + 1) ^ 3 ≤ 64 * 3 ^ m ∧ out.length ^ 3 ≤ 3 ^ m := by
  induction m using Nat.strong_induction_on with
  | _ m ih =>
    rintro ⟨S, C, used⟩ hCS hm
    dsimp only at hCS hm
    have hpos : 1 ≤ 3 ^ m := Nat.one_le_pow _ _ (by decide)
    cases ho : ord S with
    | nil =>
      refine ⟨1, [used], ?_, by omega, by simpa using hpos⟩
      intro n stack
      rw [Nat.add_comm 1 n, tomitaLoopN, ho]
      rfl
    | cons v vs =>
      obtain ⟨u, hu⟩ : ∃ u, pivotLoop g C vs v (nb g v ∩ C).card = u := ⟨_, rfl⟩
      have hmax : ∀ w ∈ S, (nb g w ∩ C).card ≤ (nb g u ∩ C).card := by
        intro w hw
        rw [← hu]
        refine pivotLoop_max g C vs v _ rfl w ?_
        rw [← ho]; exact ((hord S).2 w).2 hw
      obtain ⟨c1, c2⟩ := children_size g S used (ord (C \ nb g u)) C hCS
      have hlen : (ord (C \ nb g u)).length = (C \ nb g u).card := by
        rw [← List.toFinset_card_of_nodup (hord _).1]
        congr 1
        ext x; rw [List.mem_toFinset, (hord _).2]
      have hsplit : (C \ nb g u).card + (nb g u ∩ C).card = C.card := by
        rw [Finset.inter_comm]; exact Finset.card_sdiff_add_card_inter _ _
      have hstep : ∀ n stack, tomitaLoopN ord g (n + 1) ((S, C, used) :: stack) =
          tomitaLoopN ord g n ((children g S used C (ord (C \ nb g u))).reverse ++ stack) := by
        intro n stack
        rw [tomitaLoopN, ho]
        dsimp only
        rw [hu]
      obtain ⟨k, hk⟩ : ∃ k, k = (C \ nb g u).card := ⟨_, rfl⟩
      rcases Nat.eq_zero_or_pos k with h0 | h0
      · refine ⟨1, [], ?_, by omega, by simp⟩
        intro n stack
        have : children g S used C (ord (C \ nb g u)) = [] := by
          rw [← List.length_eq_zero_iff, c1, hlen, ← hk, h0]
        rw [Nat.add_comm 1 n, hstep, this, List.reverse_nil, List.nil_append]
        cases tomitaLoopN ord g n stack <;> rfl
      · have hk1 : k ≤ m := by omega
        -- common bounds for all children
        have bnd : ∃ R Y : ℕ, (2 * R + 1) ^ 3 ≤ 64 * 3 ^ (m - k) ∧ Y ^ 3 ≤ 3 ^ (m - k) ∧
            (∀ r, (2 * r + 1) ^ 3 ≤ 64 * 3 ^ (m - k) → r ≤ R) ∧ ∀ y, y ^ 3 ≤ 3 ^ (m - k) → y ≤ Y := by
          have hp : 1 ≤ 3 ^ (m - k) := Nat.one_le_pow _ _ (by decide)
          generalize 3 ^ (m - k) = x at hp
          refine ⟨Nat.findGreatest (fun r => (2 * r + 1) ^ 3 ≤ 64 * x) (64 * x), Nat.findGreatest (fun y => y ^ 3 ≤ x) x,
            ?_, ?_, ?_, ?_⟩
          · exact Nat.findGreatest_spec (P := fun r => (2 * r + 1) ^ 3 ≤ 64 * x) (m := 0) (by omega) (by omega)
          · exact Nat.findGreatest_spec (P := fun y => y ^ 3 ≤ x) (m := 0) (by omega) (by omega)
          · intro r hr
            refine Nat.le_findGreatest ?_ hr
            have : r ≤ (2 * r + 1) ^ 3 := by
              have := Nat.le_self_pow (n := 3) (by decide) (2 * r + 1)
              omega
            omega
          · intro y hy
            exact Nat.le_findGreatest ((Nat.le_self_pow (by decide) y).trans hy) hy
        obtain ⟨R, Y, b1, b2, b3, b4⟩ := bnd
        have key : ∀ ch : List (Finset V × Finset V × List V), (∀ e ∈ ch, e.2.1 ⊆ e.1 ∧ e.2.1.card ≤ m - k) →
            ∃ r out, (∀ n stack, tomitaLoopN ord g (r + n) (ch ++ stack) =
              (tomitaLoopN ord g n stack).map (out ++ ·)) ∧ r ≤ ch.length * R ∧ out.length ≤ ch.length * Y := by
          intro ch
          induction ch with
          | nil => intro _; exact ⟨0, [], by intro n stack; simp, by simp, by simp⟩
          | cons e ch ihc =>
            intro h
            obtain ⟨r1, o1, x1, x2, x3⟩ := ih (m - k) (by omega) e (h e List.mem_cons_self).1 (h e List.mem_cons_self).2
            obtain ⟨r2, o2, y1, y2, y3⟩ := ihc (fun f hf => h f (List.mem_cons_of_mem _ hf))
            refine ⟨r1 + r2, o1 ++ o2, ?_, ?_, ?_⟩
            · intro n stack
              rw [List.cons_append, Nat.add_assoc, x1, y1]
              cases tomitaLoopN ord g n stack <;> simp
            · have := b3 r1 x2
              rw [List.length_cons, Nat.succ_mul]; omega
            · have := b4 _ x3
              rw [List.length_cons, Nat.succ_mul, List.length_append]; omega
        obtain ⟨r, out, d1, d2, d3⟩ := key (children g S used C (ord (C \ nb g u))).reverse (by
          intro e he
          obtain ⟨h1, q, hq, h2⟩ := c2 e (List.mem_reverse.1 he)
          have hqC := (Finset.mem_sdiff.1 (((hord _).2 q).1 hq)).1
          have := hmax q (hCS hqC)
          exact ⟨h1, by omega⟩)
        rw [List.length_reverse, c1, hlen, ← hk] at d2 d3
        refine ⟨r + 1, out, ?_, ?_, ?_⟩
        · intro n stack
          rw [Nat.add_right_comm, hstep]
          exact d1 n stack
        · refine le_trans (Nat.pow_le_pow_left ?_ 3) (rounds_step h0 hk1 b1)
          omega
        · exact (Nat.pow_le_pow_left d3 3).trans (yields_step hk1 b2)

/-- C154: for a graph with `n` vertices the loop of `tomita` runs at most `2 * 3^(n/3)` times: with a number `r` of
rounds such that `(2 r + 1)^3 ≤ 64 * 3^n` everything is given that `tomita` gives. -/
theorem C154_tomita_rounds (ord : Finset V → List V) (hord : ∀ S, (ord S).Nodup ∧ ∀ x, x ∈ ord S ↔ x ∈ S)
    (ops : List (Op V W)) : ∃ r l, (2 * r + 1) ^ 3 ≤ 64 * 3 ^ (vertexSet (history ops)).card ∧
      tomita ord (history ops) = some l ∧
      tomitaLoopN ord (history ops) (r + 1) [(vertexSet (history ops), vertexSet (history ops), [])] = some l := by
  obtain ⟨r, out, h1, h2, -⟩ := entry_rounds hord (history ops) _
    (vertexSet (history ops), vertexSet (history ops), []) (Finset.Subset.refl _) le_rfl
  have h3 : tomitaLoopN ord (history ops) (r + 1) [(vertexSet (history ops), vertexSet (history ops), [])] = some out := by
    rw [h1, tomitaLoopN]; simp
  exact ⟨r, out, h2, tomitaLoop_of_fuel ord _ _ _ _ h3, h3⟩

/-- C154: at most `3^(n/3)` cliques are given for a graph with `n` vertices. -/
theorem C154_tomita_count (ord : Finset V → List V) (hord : ∀ S, (ord S).Nodup ∧ ∀ x, x ∈ ord S ↔ x ∈ S)
    (ops : List (Op V W)) : ∃ l, tomita ord (history ops) = some l ∧
      l.length ^ 3 ≤ 3 ^ (vertexSet (history ops)).card := by
  obtain ⟨r, out, h1, -, h2⟩ := entry_rounds hord (history ops) _
    (vertexSet (history ops), vertexSet (history ops), []) (Finset.Subset.refl _) le_rfl
  refine ⟨out, tomitaLoop_of_fuel ord _ (r + 1) _ _ ?_, h2⟩
  rw [h1, tomitaLoopN]; simp

/-- C154 (theorem of Moon and Moser): a graph with `n` vertices and without loops has at most `3^(n/3)` maximal cliques. -/
theorem C154_maximal_cliques_count (ops : List (Op V W)) (hloop : ∀ v, ¬ Linked (history ops) v v)
    (F : Finset (Finset V)) (hF : ∀ S ∈ F, IsMaximalClique (toAbs (history ops)).verts (Linked (history ops)) S) :
    F.card ^ 3 ≤ 3 ^ (vertexSet (history ops)).card := by
  obtain ⟨l, h1, h2⟩ := C154_tomita_count (fun S => S.toList) (fun S => ⟨S.nodup_toList, fun x => Finset.mem_toList⟩) ops
  obtain ⟨l', h3, -, -, h4⟩ := C72_tomita (fun S => S.toList) (fun S => ⟨S.nodup_toList, fun x => Finset.mem_toList⟩)
    ops hloop
  rw [h1] at h3
  cases h3
  refine le_trans (Nat.pow_le_pow_left ?_ 3) h2
  calc F.card ≤ (l.map List.toFinset).toFinset.card := by
        refine Finset.card_le_card fun S hS => ?_
        rw [List.mem_toFinset]
        exact (h4 S).2 (hF S hS)
    _ ≤ (l.map List.toFinset).length := List.toFinset_card_le _
    _ = l.length := List.length_map _

end Rounds

/-! ## Graphs with many maximal cliques -/

/-- The numbers below `3 k`, two of them adjacent if they lie in different groups of three. -/
def moonMoserOps (k : ℕ) : List (Op ℕ ℕ) :=
  [.addVertices (List.range (3 * k)), .addEdges ((List.range (3 * k)).flatMap fun a =>
    ((List.range (3 * k)).filter fun b => a / 3 ≠ b / 3).map fun b => (a, b, 1))]

private theorem foldl_link (es : List (ℕ × ℕ × ℕ)) : ∀ A : Abs ℕ ℕ,
    (∀ x, x ∈ (es.foldl (fun A e => A.link e.1 e.2.1 e.2.2) A).verts ↔
      x ∈ A.verts ∨ ∃ e ∈ es, x = e.1 ∨ x = e.2.1) ∧
    ∀ u v, (∃ w, (es.foldl (fun A e => A.link e.1 e.2.1 e.2.2) A).weight u v = some w) ↔
      (∃ w, A.weight u v = some w) ∨ ∃ e ∈ es, s(e.1, e.2.1) = s(u, v) := by
  induction es with
  | nil => intro A; simp
  | cons e es ih =>
    intro A
    obtain ⟨h1, h2⟩ := ih (A.link e.1 e.2.1 e.2.2)
    rw [List.foldl_cons]
    refine ⟨fun x => ?_, fun u v => ?_⟩
    · rw [h1, List.exists_mem_cons_iff]
      simp only [Abs.link, Set.mem_union, Set.mem_insert_iff, Set.mem_singleton_iff]
      exact or_assoc
    · rw [h2, List.exists_mem_cons_iff]
      simp only [Abs.link]
      by_cases h : s(e.1, e.2.1) = s(u, v)
      · simp [h]
      · simp [h]

theorem moonMoser_abs (k : ℕ) : (∀ v, v ∈ (toAbs (history (moonMoserOps k))).verts ↔ v < 3 * k) ∧
    ∀ u v, Linked (history (moonMoserOps k)) u v ↔ u < 3 * k ∧ v < 3 * k ∧ u / 3 ≠ v / 3 := by
  rw [show Linked (history (moonMoserOps k)) = fun u v => ∃ w, (toAbs (history (moonMoserOps k))).weight u v = some w
    from rfl, (history_spec (moonMoserOps k)).2]
  simp only [moonMoserOps, List.foldl_cons, List.foldl_nil, Op.meaning]
  obtain ⟨h1, h2⟩ := foldl_link ((List.range (3 * k)).flatMap fun a =>
    ((List.range (3 * k)).filter fun b => a / 3 ≠ b / 3).map fun b => (a, b, 1))
    ⟨∅ ∪ {v | v ∈ List.range (3 * k)}, fun _ _ => none⟩
  refine ⟨fun v => ?_, fun u v => ?_⟩
  · rw [h1]
    simp only [Set.empty_union, Set.mem_setOf_eq, List.mem_range, List.mem_flatMap, List.mem_map, List.mem_filter]
    constructor
    · rintro (h | ⟨e, ⟨a, ha, b, ⟨hb, -⟩, rfl⟩, rfl | rfl⟩)
      · exact h
      · exact ha
      · exact hb
    · exact fun h => Or.inl h
  · rw [h2]
    simp only [reduceCtorEq, exists_false, false_or, List.mem_flatMap, List.mem_map, List.mem_filter, List.mem_range,
      decide_eq_true_eq]
    constructor
    · rintro ⟨e, ⟨a, ha, b, ⟨hb, hne⟩, rfl⟩, h⟩
      rcases Sym2.eq_iff.1 h with ⟨rfl, rfl⟩ | ⟨rfl, rfl⟩
      · exact ⟨ha, hb, hne⟩
      · exact ⟨hb, ha, Ne.symm hne⟩
    · rintro ⟨h1, h2, h3⟩
      exact ⟨(u, v, 1), ⟨u, h1, v, ⟨h2, h3⟩, rfl⟩, rfl⟩

/-- C154, the bound is attained: for every `k` there is a graph with `3 k` vertices for which `tomita` gives `3^k`
cliques. -/
theorem C154_optimal (k : ℕ) (ord : Finset ℕ → List ℕ) (hord : ∀ S, (ord S).Nodup ∧ ∀ x, x ∈ ord S ↔ x ∈ S) :
    (vertexSet (history (moonMoserOps k))).card = 3 * k ∧
    (∀ v, ¬ Linked (history (moonMoserOps k)) v v) ∧
    ∃ l, tomita ord (history (moonMoserOps k)) = some l ∧ l.length = 3 ^ k := by
  obtain ⟨hv, hl⟩ := moonMoser_abs k
  have hcard : (vertexSet (history (moonMoserOps k))).card = 3 * k := by
    have : vertexSet (history (moonMoserOps k)) = Finset.range (3 * k) := by
      ext v
      rw [Graph.mem_vertexSet, Finset.mem_range, ← hv]
      exact Iff.rfl
    rw [this, Finset.card_range]
  have hloop : ∀ v, ¬ Linked (history (moonMoserOps k)) v v := by
    intro v h; exact ((hl v v).1 h).2.2 rfl
  refine ⟨hcard, hloop, ?_⟩
  obtain ⟨l, h1, h2⟩ := C154_tomita_count ord hord (moonMoserOps k)
  obtain ⟨l', h3, -, -, h4⟩ := C72_tomita ord hord (moonMoserOps k) hloop
  rw [h1] at h3
  cases h3
  refine ⟨l, h1, le_antisymm ?_ ?_⟩
  · rw [hcard, pow_mul, show (3 ^ 3) ^ k = (3 ^ k) ^ 3 by rw [← pow_mul, ← pow_mul, mul_comm]] at h2
    exact (Nat.pow_le_pow_iff_left (by decide)).1 h2
  · -- every choice of one vertex from each group is a maximal clique
    let T : (Fin k → Fin 3) → Finset ℕ := fun f => Finset.univ.image fun i : Fin k => 3 * i.val + (f i).val
    have hmem : ∀ f x, x ∈ T f ↔ ∃ i : Fin k, 3 * i.val + (f i).val = x := by
      intro f x; simp [T]
    have hT : ∀ f, T f ∈ l.map List.toFinset := by
      intro f
      rw [h4]
      refine ⟨⟨?_, ?_⟩, ?_⟩
      · intro x hx
        obtain ⟨i, rfl⟩ := (hmem f x).1 hx
        rw [hv]
        have := i.isLt; have := (f i).isLt
        omega
      · intro x hx y hy hne
        obtain ⟨i, rfl⟩ := (hmem f x).1 hx
        obtain ⟨j, rfl⟩ := (hmem f y).1 hy
        rw [hl]
        have := i.isLt; have := (f i).isLt; have := j.isLt; have := (f j).isLt
        have hij : i.val ≠ j.val := by
          intro h
          exact hne (by rw [Fin.ext h])
        omega
      · intro D hD hs
        refine (Finset.Subset.antisymm hs fun y hy => ?_).symm
        have hy3 := (hv y).1 (hD.1 y hy)
        rw [hmem]
        have hlt : y / 3 < k := by omega
        refine ⟨⟨y / 3, hlt⟩, ?_⟩
        by_contra hne
        have hx : 3 * (y / 3) + (f ⟨y / 3, hlt⟩).val ∈ D := hs ((hmem f _).2 ⟨⟨y / 3, hlt⟩, rfl⟩)
        have := ((hl _ _).1 (hD.2 _ hx y hy hne)).2.2
        have := (f ⟨y / 3, hlt⟩).isLt
        omega
    have hinj : Function.Injective T := by
      intro f f' h
      funext i
      have : 3 * i.val + (f i).val ∈ T f' := by rw [← h, hmem]; exact ⟨i, rfl⟩
      obtain ⟨j, hj⟩ := (hmem f' _).1 this
      have h1 := (f i).isLt; have h2 := (f' j).isLt
      have hij : i = j := Fin.ext (by omega)
      subst hij
      exact Fin.ext (by omega)
    calc 3 ^ k = (Finset.univ : Finset (Fin k → Fin 3)).card := by simp
      _ = (Finset.univ.image T).card := (Finset.card_image_of_injective _ hinj).symm
      _ ≤ (l.map List.toFinset).toFinset.card := by
        refine Finset.card_le_card fun S hS => ?_
        obtain ⟨f, -, rfl⟩ := Finset.mem_image.1 hS
        rw [List.mem_toFinset]
        exact hT f
      _ ≤ (l.map List.toFinset).length := List.toFinset_card_le _
      _ = l.length := List.length_map _

/-- For two groups the nine cliques of two vertices are given, within 16 rounds. -/
example : ((tomitaLoopN (fun S => (List.range 6).filter (· ∈ S)) (history (moonMoserOps 2)) 17
    [(vertexSet (history (moonMoserOps 2)), vertexSet (history (moonMoserOps 2)), [])]).map List.length) = some 9 := by
  decide +kernel

end Rosemary.Props
