import Verif.Props.UnionFind
import Verif.Lemmas.UnionFindCosts
import Verif.Lemmas.Kruskal
import Verif.Props.Graph
import Mathlib.Tactic.Ring

/-!
# C159: the work done by the disjoint set structures
-/

namespace Rosemary.Props

open Rosemary.UnionFind

variable {α : Type} [DecidableEq α]

/-! ## UnionFind -/

/-- The calls made, with the number of pointers followed. -/
def Call.execC (s : UF α) : Call α → Option (Except PyErr (UF α × ℕ))
  | .find x =>
    match s.findC x with
    | none => none
    | some (.error e) => some (.error e)
    | some (.ok (_, s, k)) => some (.ok (s, k))
  | .link x y =>
    match s.findC x with
    | none => none
    | some (.error e) => some (.error e)
    | some (.ok (_, s, k)) =>
      match s.findC y with
      | none => none
      | some (.error e) => some (.error e)
      | some (.ok (_, s, j)) =>
        match s.union x y with
        | .error e => some (.error e)
        | .ok s => some (.ok (s, k + j))
  | .join x y =>
    match s.findC x with
    | none => none
    | some (.error e) => some (.error e)
    | some (.ok (a, s, k)) =>
      match s.findC y with
      | none => none
      | some (.error e) => some (.error e)
      | some (.ok (b, s, j)) =>
        match s.union a b with
        | .error e => some (.error e)
        | .ok s => some (.ok (s, k + j))

/-- A sequence of uses, with the number of pointers followed in all of them. -/
def Call.execAllC (s : UF α) : List (Call α) → Option (Except PyErr (UF α × ℕ))
  | [] => some (.ok (s, 0))
  | c :: cs =>
    match c.execC s with
    | none => none
    | some (.error e) => some (.error e)
    | some (.ok (s, k)) =>
      match Call.execAllC s cs with
      | none => none
      | some (.error e) => some (.error e)
      | some (.ok (s, j)) => some (.ok (s, k + j))

/-- The number of `find`s made. -/
def Call.finds : Call α → ℕ
  | .find _ => 1
  | .link _ _ => 2
  | .join _ _ => 2

/-- The number of `union`s made. -/
def Call.unions : Call α → ℕ
  | .find _ => 0
  | .link _ _ => 1
  | .join _ _ => 1

/-- One `find`. -/
theorem findC_inv {E : List α} {s : UF α} {l : List (α × α)} (h : Inv E s l) (hW : Within s.parent E) {x : α} (hx : x ∈ E) :
    ∃ r s' k, s.findC x = some (.ok (r, s', k)) ∧ s.find x = some (.ok (r, s')) ∧ r ∈ E ∧ Leads s.parent x r ∧ Inv E s' l ∧
      (∀ z t, Leads s'.parent z t ↔ Leads s.parent z t) ∧ s'.parent x = some r ∧
      (∀ z t, Leads s.parent z t → s.parent z = some t → s'.parent z = some t) ∧
      Within s'.parent E ∧ k + pot s'.parent E ≤ pot s.parent E + Nat.log 2 E.toFinset.card + 1 := by
  obtain ⟨r, s', h1, h2, h3, h4, h5, h6, h7⟩ := h.find hx
  obtain ⟨path, hp⟩ := h3.path
  obtain ⟨f1, f2⟩ := findC_path hp
  rw [h1] at f2
  simp only [Option.some.injEq, Except.ok.injEq, Prod.mk.injEq, true_and] at f2
  subst f2
  exact ⟨r, _, _, f1, h1, h2, h3, h4, h5, h6, h7, within_find hp h2 hW, pot_find hp hW⟩

/-- One `union` of elements pointing at their roots. -/
theorem union_pot {E : List α} {s : UF α} {l : List (α × α)} (h : Inv E s l) (hW : Within s.parent E) {x y a b : α}
    (hx : x ∈ E) (hy : y ∈ E) (hxa : s.parent x = some a) (ha : s.parent a = some a)
    (hyb : s.parent y = some b) (hb : s.parent b = some b) :
    ∃ s', s.union x y = .ok s' ∧ Inv E s' ((x, y) :: l) ∧ Within s'.parent E ∧
      pot s'.parent E ≤ pot s.parent E + Nat.log 2 E.toFinset.card := by
  obtain ⟨s', h1, h2⟩ := h.union hx hy hxa ha hyb hb
  have hs : s'.parent = put s.parent a b := by
    unfold UF.union at h1
    rw [hxa, hyb] at h1
    dsimp only at h1
    split at h1
    · injection h1 with h1
      rw [← h1]
    · simp at h1
  exact ⟨s', h1, h2, hs ▸ within_put (hW _ _ hxa).2 (hW _ _ hyb).2 hW, hs ▸ pot_union hb E⟩

private theorem execC_inv {E : List α} {s : UF α} {l : List (α × α)} (h : Inv E s l) (hW : Within s.parent E) (c : Call α)
    (hc : ∀ x ∈ c.args, x ∈ E) :
    ∃ s' k l', c.execC s = some (.ok (s', k)) ∧ c.exec s = some (.ok s') ∧ Inv E s' l' ∧ Within s'.parent E ∧
      k + pot s'.parent E ≤ pot s.parent E + c.finds * (Nat.log 2 E.toFinset.card + 1) +
        c.unions * Nat.log 2 E.toFinset.card := by
  cases c with
  | find x =>
    obtain ⟨r, s', k, h0, h1, -, -, h2, -, -, -, h3, h4⟩ := findC_inv h hW (hc x (by simp [Call.args]))
    refine ⟨s', k, l, ?_, ?_, h2, h3, ?_⟩
    · simp only [Call.execC, h0]
    · simp only [Call.exec, UF.run, UF.step, h1]
    · simp only [Call.finds, Call.unions]; omega
  | link x y =>
    have hx := hc x (by simp [Call.args])
    have hy := hc y (by simp [Call.args])
    obtain ⟨r, s1, n1, c1, h1, hrE, hL1, i1, e1, p1, k1, w1, q1⟩ := findC_inv h hW hx
    obtain ⟨t, s2, n2, c2, h2, htE, hL2, i2, e2, p2, k2, w2, q2⟩ := findC_inv i1 w1 hy
    have hL1' : Leads s1.parent x r := (e1 x r).2 hL1
    have hxr : s2.parent x = some r := k2 x r hL1' p1
    have hrr : s2.parent r = some r := ((e2 x r).2 hL1').isRoot
    have htt : s2.parent t = some t := ((e2 y t).2 hL2).isRoot
    obtain ⟨s3, h3, i3, w3, q3⟩ := union_pot i2 w2 hx hy hxr hrr p2 htt
    refine ⟨s3, n1 + n2, _, ?_, ?_, i3, w3, ?_⟩
    · simp only [Call.execC, c1, c2, h3]
    · simp only [Call.exec, UF.run, UF.step, h1, h2, h3]
    · simp only [Call.finds, Call.unions]; omega
  | join x y =>
    have hx := hc x (by simp [Call.args])
    have hy := hc y (by simp [Call.args])
    obtain ⟨r, s1, n1, c1, h1, hrE, hL1, i1, e1, p1, k1, w1, q1⟩ := findC_inv h hW hx
    obtain ⟨t, s2, n2, c2, h2, htE, hL2, i2, e2, p2, k2, w2, q2⟩ := findC_inv i1 w1 hy
    have hL1' : Leads s2.parent x r := (e2 x r).2 ((e1 x r).2 hL1)
    have hL2' : Leads s2.parent y t := (e2 y t).2 hL2
    have hrr : s2.parent r = some r := hL1'.isRoot
    have htt : s2.parent t = some t := hL2'.isRoot
    obtain ⟨s3, h3, i3, w3, q3⟩ := union_pot i2 w2 hrE htE hrr hrr htt htt
    refine ⟨s3, n1 + n2, _, ?_, ?_, i3, w3, ?_⟩
    · simp only [Call.execC, c1, c2, h3]
    · simp only [Call.exec, h1, h2, h3]
    · simp only [Call.finds, Call.unions]; omega

private theorem execAllC_inv {E : List α} (cs : List (Call α)) {s : UF α} {l : List (α × α)}
    (h : Inv E s l) (hW : Within s.parent E) (hc : ∀ c ∈ cs, ∀ x ∈ c.args, x ∈ E) :
    ∃ s' k, Call.execAllC s cs = some (.ok (s', k)) ∧ Call.execAll s cs = some (.ok s') ∧
      k + pot s'.parent E ≤ pot s.parent E + (cs.map Call.finds).sum * (Nat.log 2 E.toFinset.card + 1) +
        (cs.map Call.unions).sum * Nat.log 2 E.toFinset.card := by
  induction cs generalizing s l with
  | nil => exact ⟨s, 0, rfl, rfl, by simp⟩
  | cons c cs ih =>
    obtain ⟨s1, k1, l1, h1, g1, i1, w1, q1⟩ := execC_inv h hW c (hc c (by simp))
    obtain ⟨s2, k2, h2, g2, q2⟩ := ih i1 w1 (fun c hc' => hc c (by simp [hc']))
    refine ⟨s2, k1 + k2, ?_, ?_, ?_⟩
    · unfold Call.execAllC; rw [h1]; dsimp only; rw [h2]
    · unfold Call.execAll; rw [g1]; exact g2
    · simp only [List.map_cons, List.sum_cons, Nat.add_mul]
      omega

/-- C159: in any sequence of documented uses of a `UnionFind` object with `n` elements, all the `find`s together follow at most
`log2 n + 1` pointers per `find` and `log2 n` pointers per `union`. -/
theorem C159_unionfind_amortized (E : List α) (cs : List (Call α)) (hc : ∀ c ∈ cs, ∀ x ∈ c.args, x ∈ E) :
    ∃ s k, Call.execAllC (UF.init E) cs = some (.ok (s, k)) ∧ Call.execAll (UF.init E) cs = some (.ok s) ∧
      k ≤ (cs.map Call.finds).sum * (Nat.log 2 E.toFinset.card + 1) +
        (cs.map Call.unions).sum * Nat.log 2 E.toFinset.card := by
  obtain ⟨s, k, h1, h2, h3⟩ := execAllC_inv cs (Inv.init E) (within_init E) hc
  rw [pot_init] at h3
  exact ⟨s, k, h1, h2, by omega⟩

omit [DecidableEq α] in
private theorem execAll_append [DecidableEq α] (cs ds : List (Call α)) {s t : UF α} (h : Call.execAll s cs = some (.ok t)) :
    Call.execAll s (cs ++ ds) = Call.execAll t ds := by
  induction cs generalizing s with
  | nil =>
    simp only [Call.execAll, Option.some.injEq, Except.ok.injEq] at h
    rw [h, List.nil_append]
  | cons c cs ih =>
    rw [List.cons_append]
    rw [Call.execAll] at h ⊢
    split at h
    · simp at h
    · simp at h
    · exact ih h

/-- The unions `union(find(0), find(1))`, `union(find(1), find(2))`, ... -/
def chainCalls (n : ℕ) : List (Call ℕ) := (List.range n).map (fun i => Call.join i (i + 1))

private theorem chain_state (n : ℕ) : ∀ k ≤ n, ∃ s, Call.execAll (UF.init (List.range (n + 1))) (chainCalls k) = some (.ok s) ∧
    (∀ i ≤ n, s.parent i = some (if i < k then i + 1 else i)) ∧ (∃ ρ ≤ 1, s.rank k = some ρ) ∧
    (∀ j, k < j → j ≤ n → s.rank j = some 0) := by
  intro k
  induction k with
  | zero =>
    intro _
    refine ⟨_, rfl, fun i hi => ?_, ⟨0, by omega, ?_⟩, fun j _ hj => ?_⟩
    · rw [(init_apply _ i).1, if_pos (List.mem_range.2 (by omega)), if_neg (by omega)]
    · rw [(init_apply _ 0).2, if_pos (List.mem_range.2 (by omega))]
    · rw [(init_apply _ j).2, if_pos (List.mem_range.2 (by omega))]
  | succ k ih =>
    intro hk
    obtain ⟨s, h1, h2, ⟨ρ, hρ, h3⟩, h4⟩ := ih (by omega)
    have r1 : s.parent k = some k := by rw [h2 k (by omega), if_neg (by omega)]
    have r2 : s.parent (k + 1) = some (k + 1) := by rw [h2 _ (by omega), if_neg (by omega)]
    have f1 := (findC_path (Path.root r1)).2
    have f2 := (findC_path (Path.root r2)).2
    have e : ∀ r : ℕ, ({ s with parent := putAll s.parent [] r } : UF ℕ) = s := fun r => rfl
    rw [e] at f1 f2
    have hc : chainCalls (k + 1) = chainCalls k ++ [Call.join k (k + 1)] := by
      unfold chainCalls
      rw [List.range_succ, List.map_append]; rfl
    refine ⟨⟨if ρ = 0 then put s.rank (k + 1) 1 else s.rank, put s.parent k (k + 1)⟩, ?_, fun i hi => ?_, ?_, fun j hj hj' => ?_⟩
    · rw [hc, execAll_append _ _ h1]
      simp only [Call.execAll, Call.exec, f1, f2, UF.union, r1, r2, h3, h4 (k + 1) (by omega) (by omega), Nat.zero_add]
    · show put s.parent k (k + 1) i = _
      unfold put
      by_cases hik : i = k
      · rw [if_pos hik, if_pos (by omega), hik]
      · rw [if_neg hik, h2 i hi]
        by_cases hlt : i < k
        · rw [if_pos hlt, if_pos (by omega)]
        · rw [if_neg hlt, if_neg (by omega)]
    · show ∃ ρ' ≤ 1, (if ρ = 0 then put s.rank (k + 1) 1 else s.rank) (k + 1) = some ρ'
      split
      · exact ⟨1, le_refl _, by simp [put]⟩
      · exact ⟨0, by omega, h4 _ (by omega) (by omega)⟩
    · show (if ρ = 0 then put s.rank (k + 1) 1 else s.rank) j = some 0
      split
      · unfold put
        rw [if_neg (by omega)]; exact h4 j (by omega) hj'
      · exact h4 j (by omega) hj'

/-- C159 (violation): the unions are not made by rank.  After `union(find(i), find(i + 1))` for `i < n` the `n + 1` elements
form one path: the next `find(0)` follows `n` pointers, although the rank of the root, documented as an upper bound on its
height, is 0 or 1. -/
theorem C159_rank_violation (n : ℕ) :
    ∃ s s', Call.execAll (UF.init (List.range (n + 1))) (chainCalls n) = some (.ok s) ∧
      s.findC 0 = some (.ok (n, s', n)) ∧ ∃ ρ ≤ 1, s.rank n = some ρ := by
  obtain ⟨s, h1, h2, h3, -⟩ := chain_state n n (le_refl _)
  have hp : ∀ d, d ≤ n → ∃ l, Path s.parent (n - d) l n ∧ l.length = d := by
    intro d
    induction d with
    | zero =>
      intro _
      exact ⟨[], .root (r := n) (by rw [h2 n (le_refl _), if_neg (by omega)]), rfl⟩
    | succ d ih =>
      intro hd
      obtain ⟨l, hl, hl'⟩ := ih (by omega)
      refine ⟨_, .step (y := n - d) ?_ (by omega) hl, by rw [List.length_cons, hl']⟩
      rw [h2 _ (by omega), if_pos (by omega)]
      congr 1
      omega
  obtain ⟨l, hl, hl'⟩ := hp n (le_refl _)
  rw [Nat.sub_self] at hl
  have := (findC_path hl).1
  rw [hl'] at this
  exact ⟨s, _, h1, this, h3⟩

example : (∀ c ∈ chainCalls 3, ∀ x ∈ c.args, x ∈ [0, 1, 2, 3]) ∧ ((chainCalls 3).map Call.finds).sum = 6 ∧
    ((chainCalls 3).map Call.unions).sum = 3 ∧ Nat.log 2 ([0, 1, 2, 3] : List ℕ).toFinset.card = 2 := by
  refine ⟨by decide, by decide, by decide, by decide +kernel⟩

/-! ## NamedUnionFind -/

/-- Following the pointers from `x` one meets the elements of `l` and arrives at the root `r`. -/
inductive NPath (p : α → Option (Option α)) : α → List α → α → Prop
  | root {r} (h : p r = some none) : NPath p r [] r
  | step {x y l r} (h : p x = some (some y)) (ht : NPath p y l r) : NPath p x (x :: l) r

omit [DecidableEq α] in
theorem NPath.leads {p : α → Option (Option α)} {x r : α} {l : List α} (h : NPath p x l r) : NLeads p x r := by
  induction h with
  | root h => exact .root h
  | step h _ ih => exact .step h ih

theorem nwalkC_path {p : α → Option (Option α)} {x r : α} {l : List α} (h : NPath p x l r) (path : List α) (k : ℕ) :
    nwalkC p x path k = some (.ok (r, path ++ l, k + l.length)) ∧ nwalk p x path = some (.ok (r, path ++ l)) := by
  induction h generalizing path k with
  | root h =>
    rw [nwalkC.eq_def, nwalk.eq_def, h]
    simp
  | @step x y l r h ht ih =>
    rw [nwalkC.eq_def, nwalk.eq_def, h]
    dsimp only
    obtain ⟨h1, h2⟩ := ih (path ++ [x]) (k + 1)
    rw [h1, h2]
    simp only [List.append_assoc, List.singleton_append, List.length_cons, and_true]
    rw [show k + 1 + l.length = k + (l.length + 1) by omega]

omit [DecidableEq α] in
theorem NPath.mem {p : α → Option (Option α)} {x r : α} {l : List α} (h : NPath p x l r) :
    ∀ v ∈ l, NLeads p v r ∧ v ≠ r := by
  induction h with
  | root h => simp
  | @step x y l r h ht ih =>
    intro v hv
    rcases List.mem_cons.1 hv with rfl | hv
    · refine ⟨.step h ht.leads, ?_⟩
      rintro rfl
      have := ht.leads.isRoot
      rw [h] at this
      simp at this
    · exact ih v hv

/-- Path compression does not make paths longer. -/
theorem npath_putAll {p : α → Option (Option α)} {r : α} {path : List α} (hr : p r = some none)
    (hp : ∀ v ∈ path, NLeads p v r ∧ v ≠ r) {z s : α} {l : List α} (h : NPath p z l s) :
    ∃ l', NPath (putAll p path (some r)) z l' s ∧ l'.length ≤ l.length := by
  have hrq : putAll p path (some r) r = some none := by
    rw [putAll_apply, if_neg (fun h => (hp r h).2 rfl)]; exact hr
  induction h with
  | @root s h =>
    refine ⟨[], .root ?_, le_refl _⟩
    rw [putAll_apply, if_neg]
    · exact h
    · intro hm
      exact (hp s hm).2 ((NLeads.root h).unique (hp s hm).1)
  | @step x y l s h ht ih =>
    by_cases hm : x ∈ path
    · have hs : s = r := (NLeads.step h ht.leads).unique (hp x hm).1
      subst hs
      exact ⟨[x], .step (by rw [putAll_apply, if_pos hm]) (.root hrq), by simp⟩
    · obtain ⟨l', h1, h2⟩ := ih
      exact ⟨x :: l', .step (by rw [putAll_apply, if_neg hm]; exact h) h1, by simpa using h2⟩

/-- Linking the root `a` below the root `b` makes the paths to `a` longer by one. -/
theorem npath_put {p : α → Option (Option α)} {a b : α} (hab : a ≠ b) (ha : p a = some none)
    (hb : p b = some none) {z s : α} {l : List α} (h : NPath p z l s) :
    ∃ l', NPath (put p a (some b)) z l' (if s = a then b else s) ∧ l'.length = l.length + (if s = a then 1 else 0) := by
  have hbq : put p a (some b) b = some none := by
    unfold put; rw [if_neg hab.symm]; exact hb
  induction h with
  | @root s h =>
    by_cases hs : s = a
    · rw [if_pos hs, if_pos hs]
      exact ⟨[s], .step (by unfold put; rw [if_pos hs]) (.root hbq), rfl⟩
    · rw [if_neg hs, if_neg hs]
      exact ⟨[], .root (by unfold put; rw [if_neg hs]; exact h), rfl⟩
  | @step x y l s h ht ih =>
    have hxa : x ≠ a := by
      rintro rfl
      rw [ha] at h
      simp at h
    obtain ⟨l', h1, h2⟩ := ih
    exact ⟨x :: l', .step (by unfold put; rw [if_neg hxa]; exact h) h1, by simp only [List.length_cons, h2]; omega⟩

/-- The elements of the tree of `r`. -/
noncomputable def ntree (p : α → Option (Option α)) (E : List α) (r : α) : Finset α :=
  haveI : DecidablePred (fun y => NLeads p y r) := fun _ => Classical.propDecidable _
  E.toFinset.filter (fun y => NLeads p y r)

theorem mem_ntree {p : α → Option (Option α)} {E : List α} {r y : α} : y ∈ ntree p E r ↔ y ∈ E ∧ NLeads p y r := by
  classical
  unfold ntree
  simp only [Finset.mem_filter, List.mem_toFinset]

/-- Trees are shallow, and `count` does not exceed the number of elements. -/
def NDeep (E : List α) (s : NUF α) : Prop :=
  ∀ x ∈ E, ∃ r l c, NPath s.father x l r ∧ s.count r = some c ∧ 2 ^ l.length ≤ c ∧ c ≤ (ntree s.father E r).card

private theorem ndeep_init (E : List α) : NDeep E (NUF.init E) := by
  intro x hx
  obtain ⟨h1, -, -, h4⟩ := ninit_apply E x
  rw [if_pos hx] at h1 h4
  exact ⟨x, [], 1, .root h1, h4, by simp, Finset.card_pos.2 ⟨x, mem_ntree.2 ⟨hx, .root h1⟩⟩⟩

private theorem ndeep_find {E : List α} {s : NUF α} {f : α → α} (h : NInv E s f) (hd : NDeep E s) {x : α} (hx : x ∈ E) :
    ∃ s' k, s.findC x = some (.ok (f x, s', k)) ∧ s.find x = some (.ok (f x, s')) ∧ NInv E s' f ∧ NDeep E s' ∧
      k ≤ Nat.log 2 E.toFinset.card := by
  obtain ⟨s', h1, h2⟩ := nfind_inv h hx
  obtain ⟨r, l, c, p1, p2, p3, p4⟩ := hd x hx
  obtain ⟨r', -, hL, hn, -, -⟩ := h x hx
  obtain rfl : r = r' := p1.leads.unique hL
  obtain ⟨w1, w2⟩ := nwalkC_path p1 [] 0
  have hs' : s' = { s with father := putAll s.father l (some r) } := by
    unfold NUF.find at h1
    rw [w2] at h1
    simp [hn] at h1
    exact h1.symm
  refine ⟨s', l.length, ?_, h1, h2, ?_, ?_⟩
  · unfold NUF.findC
    rw [w1]
    simp [hn, hs']
  · intro z hz
    obtain ⟨t, m, d, q1, q2, q3, q4⟩ := hd z hz
    obtain ⟨m', q5, q6⟩ := npath_putAll p1.leads.isRoot p1.mem q1
    refine ⟨t, m', d, hs' ▸ q5, hs' ▸ q2, le_trans (Nat.pow_le_pow_right (by decide) q6) q3, q4.trans ?_⟩
    refine Finset.card_le_card fun y hy => ?_
    rw [mem_ntree] at hy ⊢
    exact ⟨hy.1, hs' ▸ nleads_putAll p1.leads.isRoot p1.mem hy.2⟩
  · have hle : (ntree s.father E r).card ≤ E.toFinset.card :=
      Finset.card_le_card fun y hy => List.mem_toFinset.2 (mem_ntree.1 hy).1
    have hne : E.toFinset.card ≠ 0 := Finset.card_ne_zero_of_mem (List.mem_toFinset.2 hx)
    exact (Nat.le_log_iff_pow_le (by decide) hne).2 (p3.trans (p4.trans hle))

private theorem ndeep_union {E : List α} {s : NUF α} {f : α → α} (h : NInv E s f) (hd : NDeep E s) {u v w : α}
    (huv : u ≠ v) (hu : ∃ a ∈ E, f a = u) (hv : ∃ b ∈ E, f b = v)
    (hw : w = u ∨ w = v ∨ ∀ a ∈ E, f a ≠ w) :
    ∃ s', s.union u v w = .ok s' ∧ NInv E s' (fun x => if f x = u ∨ f x = v then w else f x) ∧ NDeep E s' := by
  obtain ⟨s', h1, h2⟩ := nunion_inv h huv hu hv hw
  refine ⟨s', h1, h2, ?_⟩
  obtain ⟨a, haE, rfl⟩ := hu
  obtain ⟨b, hbE, rfl⟩ := hv
  obtain ⟨ru, hruE, hLu, hnu, hrou, -⟩ := h a haE
  obtain ⟨rv, hrvE, hLv, hnv, hrov, -⟩ := h b hbE
  obtain ⟨ru', lu, cu, a1, a2, -, a4⟩ := hd a haE
  obtain rfl : ru = ru' := hLu.unique a1.leads
  obtain ⟨rv', lv, cv, b1, b2, -, b4⟩ := hd b hbE
  obtain rfl : rv = rv' := hLv.unique b1.leads
  have hne : ru ≠ rv := by
    rintro rfl
    rw [hnu] at hnv
    injection hnv with hnv
    exact huv hnv
  have key : ∀ large small : α, ∀ cl cs : ℕ, large ≠ small → s.father large = some none → s.father small = some none →
      s.count large = some cl → s.count small = some cs → cs ≤ cl → cl ≤ (ntree s.father E large).card →
      cs ≤ (ntree s.father E small).card →
      NDeep E ⟨put s.count large (cl + cs), put s.name large w, put s.father small (some large), put s.root w large⟩ := by
    intro large small cl cs hls f1 f2 n1 n2 hcc t1 t2 x hx
    obtain ⟨r, l, c, q1, q2, q3, q4⟩ := hd x hx
    obtain ⟨l', q5, q6⟩ := npath_put hls.symm f2 f1 q1
    have hlead : ∀ y r, NLeads s.father y r → NLeads (put s.father small (some large)) y (if r = small then large else r) :=
      fun y r hy => nleads_put hls.symm f2 f1 hy
    by_cases hin : r = small ∨ r = large
    · have hr' : (if r = small then large else r) = large := by
        split
        · rfl
        · rcases hin with e | e
          · contradiction
          · exact e
      rw [hr'] at q5
      refine ⟨large, l', cl + cs, q5, by simp [put], ?_, ?_⟩
      · rw [q6]
        rcases hin with e | e
        · rw [if_pos e, pow_succ]
          rw [e, n2] at q2
          injection q2 with q2
          omega
        · rw [if_neg (fun e' => hls (e.symm.trans e')), Nat.add_zero]
          rw [e, n1] at q2
          injection q2 with q2
          omega
      · refine le_trans (Nat.add_le_add t1 t2) ?_
        rw [← Finset.card_union_of_disjoint]
        · refine Finset.card_le_card fun y hy => ?_
          rw [Finset.mem_union, mem_ntree, mem_ntree] at hy
          rw [mem_ntree]
          rcases hy with ⟨h3, h4⟩ | ⟨h3, h4⟩
          · have := hlead y large h4
            rw [if_neg hls] at this
            exact ⟨h3, this⟩
          · have := hlead y small h4
            rw [if_pos rfl] at this
            exact ⟨h3, this⟩
        · rw [Finset.disjoint_left]
          intro y h3 h4
          exact hls ((mem_ntree.1 h3).2.unique (mem_ntree.1 h4).2)
    · have hrs : r ≠ small := fun e => hin (.inl e)
      have hrl : r ≠ large := fun e => hin (.inr e)
      rw [if_neg hrs] at q5 q6
      refine ⟨r, l', c, q5, by simp [put, hrl, q2], by rw [q6]; exact q3, q4.trans ?_⟩
      refine Finset.card_le_card fun y hy => ?_
      rw [mem_ntree] at hy ⊢
      have := hlead y r hy.2
      rw [if_neg hrs] at this
      exact ⟨hy.1, this⟩
  unfold NUF.union at h1
  rw [hrou, hrov] at h1
  dsimp only at h1
  rw [a2, b2] at h1
  injection h1 with h1
  rw [← h1]
  by_cases hc : cu > cv
  · simp only [if_pos hc]
    exact key ru rv cu cv hne hLu.isRoot hLv.isRoot a2 b2 (by omega) a4 b4
  · simp only [if_neg hc]
    exact key rv ru cv cu hne.symm hLv.isRoot hLu.isRoot b2 a2 (by omega) b4 a4

private theorem ndeep_exec {E : List α} (cs : List (NCall α)) {s : NUF α} {f : α → α}
    (h : NInv E s f) (hd : NDeep E s) (hp : Proper E f cs) :
    ∃ s', NCall.execAll s cs = some (.ok s') ∧ NInv E s' (renamed f cs) ∧ NDeep E s' := by
  induction cs generalizing s f with
  | nil => exact ⟨s, rfl, h, hd⟩
  | cons c cs ih =>
    cases c with
    | find u =>
      obtain ⟨s1, k, -, h1, i1, d1, -⟩ := ndeep_find h hd hp.1
      obtain ⟨s2, h2, i2, d2⟩ := ih i1 d1 hp.2
      exact ⟨s2, by unfold NCall.execAll; rw [h1]; exact h2, i2, d2⟩
    | union u v w =>
      obtain ⟨p1, p2, p3, p4, p5⟩ := hp
      obtain ⟨s1, h1, i1, d1⟩ := ndeep_union h hd p1 p2 p3 p4
      obtain ⟨s2, h2, i2, d2⟩ := ih i1 d1 p5
      exact ⟨s2, by unfold NCall.execAll; rw [h1]; exact h2, i2, d2⟩

/-- C159: `NamedUnionFind` unites by size, hence after any proper sequence of calls each single `find` follows at most `log2 n`
pointers. -/
theorem C159_named (E : List α) (cs : List (NCall α)) (hp : Proper E id cs) :
    ∃ s, NCall.execAll (NUF.init E) cs = some (.ok s) ∧ ∀ x ∈ E, ∃ s' k,
      s.findC x = some (.ok (renamed id cs x, s', k)) ∧ s.find x = some (.ok (renamed id cs x, s')) ∧
      k ≤ Nat.log 2 E.toFinset.card := by
  obtain ⟨s, h1, h2, h3⟩ := ndeep_exec cs (NInv.init E) (ndeep_init E) hp
  refine ⟨s, h1, fun x hx => ?_⟩
  obtain ⟨s', k, f1, f2, -, -, f3⟩ := ndeep_find h2 h3 hx
  exact ⟨s', k, f1, f2, f3⟩

example : Proper [1, 2, 3, 4] id [NCall.union 1 2 2, .union 3 4 7, .find 1, .union 2 7 1] := by
  refine ⟨by decide, ⟨1, by decide, rfl⟩, ⟨2, by decide, rfl⟩, .inr (.inl rfl), by decide, ⟨3, by decide, by decide⟩,
    ⟨4, by decide, by decide⟩, .inr (.inr (by decide)), by decide, by decide, ⟨1, by decide, by decide⟩, ⟨4, by decide, by decide⟩,
    .inr (.inr (by decide)), trivial⟩

end Rosemary.Props

namespace Rosemary.Props

open Graph Paths Spec SpanningTrees

variable {V W : Type} [LinearOrder V] [AddCommMonoid W] [LinearOrder W]

private theorem kruskalLoopC_spec {g : Graph V W} (hg : Good g) : ∀ (m : ℕ) (H : List (W × V × V)) (X : UnionFind.UF V)
    (L : List (V × V)) (total : W) (tree : List (V × V)) (num k : ℕ), UnionFind.Inv (Dict.keys g) X L →
    UnionFind.Within X.parent (Dict.keys g) → (∀ e ∈ H, adj g e.2.1 e.2.2 = some e.1) → H.length ≤ m →
    ∃ res k', kruskalLoopC (vertexSet g).card H X total tree num k = some (res, k') ∧
      kruskalLoop (vertexSet g).card H X total tree num = some res ∧
      k' ≤ k + UnionFind.pot X.parent (Dict.keys g) + m * (2 * (Nat.log 2 (vertexSet g).card + 1)) +
        ((vertexSet g).card - 1 - num) * Nat.log 2 (vertexSet g).card := by
  have hcard : (Dict.keys g).toFinset.card = (vertexSet g).card := rfl
  intro m
  induction m with
  | zero =>
    intro H X L total tree num k _ _ _ hm
    obtain rfl : H = [] := List.eq_nil_of_length_eq_zero (by omega)
    rw [kruskalLoopC.eq_def, kruskalLoop.eq_def]
    by_cases hn : num + 1 < (vertexSet g).card
    · rw [if_pos hn, if_pos hn]
      exact ⟨_, k, rfl, rfl, by omega⟩
    · rw [if_neg hn, if_neg hn]
      exact ⟨_, k, rfl, rfl, by omega⟩
  | succ m ih =>
    intro H X L total tree num k hI hW hH hm
    rw [kruskalLoopC.eq_def, kruskalLoop.eq_def]
    by_cases hn : num + 1 < (vertexSet g).card
    · rw [if_pos hn, if_pos hn]
      cases hp : popMin keyE H with
      | none => exact ⟨_, k, rfl, rfl, by omega⟩
      | some e =>
        obtain ⟨⟨w, u, v⟩, H'⟩ := e
        obtain ⟨p1, p2⟩ := popMin_some keyE hp
        have hl := p1.length_eq
        rw [List.length_cons] at hl
        have hw : adj g u v = some w := hH _ (p1.mem_iff.2 List.mem_cons_self)
        have hH' : ∀ e ∈ H', adj g e.2.1 e.2.2 = some e.1 := fun e he => hH e (p1.mem_iff.2 (List.mem_cons_of_mem _ he))
        have hu : u ∈ Dict.keys g := mem_of_adj hw
        have hv : v ∈ Dict.keys g := hg.mem_right hw
        obtain ⟨a, X1, k1, c1, f1, f2, f3, f4, f5, f6, f7, w1, q1⟩ := findC_inv hI hW hu
        obtain ⟨b, X2, k2, c2, g1, g2, g3, g4, g5, g6, g7, w2, q2⟩ := findC_inv f4 w1 hv
        rw [hcard] at q1 q2
        have hLu : UnionFind.Leads X1.parent u a := (f5 u a).2 f3
        dsimp only
        rw [c1, f1]
        dsimp only
        rw [c2, g1]
        dsimp only
        by_cases e : a = b
        · rw [if_neg (fun h' => h' e), if_neg (fun h' => h' e)]
          obtain ⟨res, k', r1, r2, r3⟩ := ih H' X2 L total tree num (k + k1 + k2) g4 w2 hH' (by omega)
          refine ⟨res, k', r1, r2, ?_⟩
          rw [Nat.add_mul]
          omega
        · rw [if_pos e, if_pos e]
          have e1 : X2.parent u = some a := g7 u a hLu f6
          have e2 : X2.parent a = some a := ((g5 u a).2 hLu).isRoot
          have e3 : X2.parent b = some b := ((g5 v b).2 g3).isRoot
          obtain ⟨X3, u1, u2, u3, u4⟩ := union_pot g4 w2 hu hv e1 e2 g6 e3
          rw [hcard] at u4
          rw [u1]
          dsimp only
          obtain ⟨res, k', r1, r2, r3⟩ := ih H' X3 ((u, v) :: L) (total + w) (tree ++ [pair u v]) (num + 1) (k + k1 + k2) u2 u3 hH'
            (by omega)
          refine ⟨res, k', r1, r2, ?_⟩
          rw [show (vertexSet g).card - 1 - num = ((vertexSet g).card - 1 - (num + 1)) + 1 by omega, Nat.add_mul, Nat.add_mul]
          omega
    · rw [if_neg hn, if_neg hn]
      exact ⟨_, k, rfl, rfl, by omega⟩

/-- C159: whatever the weights are, the `find`s made by one call of `kruskal` on a graph with `n` vertices and `m` adjacency entries
follow at most `2 m (log2 n + 1) + (n - 1) log2 n` pointers, also if the call ends with an exception. -/
theorem C159_kruskal (ops : List (Op V W)) :
    ∃ res k, kruskalC (history ops) = some (res, k) ∧ kruskal (history ops) = some res ∧
      k ≤ 2 * ((history ops).map (fun e => e.2.length)).sum * (Nat.log 2 (vertexSet (history ops)).card + 1) +
        ((vertexSet (history ops)).card - 1) * Nat.log 2 (vertexSet (history ops)).card := by
  have hg := (history_spec ops).1
  obtain ⟨res, k, h1, h2, h3⟩ := kruskalLoopC_spec hg (edgeTuples (history ops)).length (edgeTuples (history ops)) _ [] 0 [] 0 0
    (UnionFind.Inv.init (Dict.keys (history ops))) (UnionFind.within_init _) (fun e he => (mem_edgeTuples hg).1 he) (le_refl _)
  refine ⟨res, k, h1, h2, ?_⟩
  have hlen : (edgeTuples (history ops)).length = ((history ops).map (fun e => e.2.length)).sum := by
    rw [edgeTuples, List.length_flatMap]
    simp
  rw [UnionFind.pot_init, hlen, Nat.sub_zero] at h3
  calc k ≤ _ := h3
    _ = _ := by ring

example : ((history [Op.addEdge 0 1 (2 : ℤ), .addEdge 1 2 3, .addEdge 0 2 1]).map (fun e => e.2.length)).sum = 6 ∧
    (vertexSet (history [Op.addEdge 0 1 (2 : ℤ), .addEdge 1 2 3, .addEdge 0 2 1])).card = 3 := by
  decide +kernel

end Rosemary.Props
