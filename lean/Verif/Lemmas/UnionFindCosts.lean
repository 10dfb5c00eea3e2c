import Verif.Model.UnionFindCosts
import Verif.Lemmas.UnionFind
import Mathlib.Data.Nat.Log
import Mathlib.Algebra.BigOperators.Group.Finset.Basic
import Mathlib.Algebra.Order.BigOperators.Group.Finset

/-!
# The potential of a pointer forest

Path compression without a rule for linking: every `find` follows, up to a potential, at most `log2 n + 1` pointers, and every
link adds at most `log2 n` to the potential.
-/

namespace Rosemary.UnionFind

/-- Following the pointers one gets from the first to the second element. -/
def Below {α : Type} (p : α → Option α) : α → α → Prop :=
  Relation.ReflTransGen (fun x y => p x = some y ∧ x ≠ y)

variable {α : Type} [DecidableEq α]

/-- Following the pointers from `x` one meets the elements of `l` and arrives at the root `r`. -/
inductive Path (p : α → Option α) : α → List α → α → Prop
  | root {r} (h : p r = some r) : Path p r [] r
  | step {x y l r} (h : p x = some y) (hne : x ≠ y) (ht : Path p y l r) : Path p x (x :: l) r

omit [DecidableEq α] in
theorem Path.leads {p : α → Option α} {x r : α} {l : List α} (h : Path p x l r) : Leads p x r := by
  induction h with
  | root h => exact .root h
  | step h hne _ ih => exact .step h hne ih

omit [DecidableEq α] in
theorem Leads.path {p : α → Option α} {x r : α} (h : Leads p x r) : ∃ l, Path p x l r := by
  induction h with
  | root h => exact ⟨[], .root h⟩
  | step h hne _ ih =>
    obtain ⟨l, hl⟩ := ih
    exact ⟨_, .step h hne hl⟩

omit [DecidableEq α] in
theorem Path.unique {p : α → Option α} {x r s : α} {l m : List α} (h : Path p x l r) (h' : Path p x m s) :
    l = m ∧ r = s := by
  induction h generalizing m with
  | root h =>
    cases h' with
    | root _ => exact ⟨rfl, rfl⟩
    | step h1 hne _ => rw [h] at h1; injection h1 with h1; exact absurd h1 hne
  | step h hne ht ih =>
    cases h' with
    | root h1 => rw [h] at h1; injection h1 with h1; exact absurd h1.symm hne
    | step h1 hne1 ht1 =>
      rw [h] at h1; injection h1 with h1; subst h1
      obtain ⟨e1, e2⟩ := ih ht1
      exact ⟨by rw [e1], e2⟩

theorem walkC_path {p : α → Option α} {x r : α} {l : List α} (h : Path p x l r) (path : List α) (k : ℕ) :
    walkC p x path k = some (.ok (r, path ++ l, k + l.length)) ∧ walk p x path = some (.ok (r, path ++ l)) := by
  induction h generalizing path k with
  | root h =>
    rw [walkC.eq_def, walk.eq_def, h]
    simp
  | @step x y l r h hne ht ih =>
    rw [walkC.eq_def, walk.eq_def, h]
    simp only [if_neg hne]
    obtain ⟨h1, h2⟩ := ih (path ++ [x]) (k + 1)
    rw [h1, h2]
    simp only [List.append_assoc, List.singleton_append, List.length_cons, and_true]
    rw [show k + 1 + l.length = k + (l.length + 1) by omega]

theorem findC_path {s : UF α} {x r : α} {l : List α} (h : Path s.parent x l r) :
    s.findC x = some (.ok (r, { s with parent := putAll s.parent l r }, l.length)) ∧
    s.find x = some (.ok (r, { s with parent := putAll s.parent l r })) := by
  obtain ⟨h1, h2⟩ := walkC_path h [] 0
  unfold UF.findC UF.find
  rw [h1, h2]
  simp

omit [DecidableEq α] in
theorem Path.suffix {p : α → Option α} {x r : α} {l : List α} (h : Path p x l r) {v : α} (hv : Below p x v) :
    ∃ m, Path p v m r ∧ m.length ≤ l.length := by
  induction hv using Relation.ReflTransGen.head_induction_on generalizing l with
  | refl => exact ⟨l, h, le_refl _⟩
  | head h1 _ ih =>
    cases h with
    | root h2 => rw [h2] at h1; exact absurd (Option.some.inj h1.1) h1.2
    | step h2 hne ht =>
      rw [h1.1] at h2; injection h2 with h2; subst h2
      obtain ⟨m, hm, hl⟩ := ih ht
      exact ⟨m, hm, by rw [List.length_cons]; omega⟩

omit [DecidableEq α] in
theorem Path.acyclic {p : α → Option α} {a b r : α} {l : List α} (h : Path p b l r) (hab : p a = some b) (hne : a ≠ b)
    (hb : Below p b a) : False := by
  obtain ⟨m, hm, hl⟩ := h.suffix hb
  obtain ⟨e, -⟩ := hm.unique (.step hab hne h)
  rw [e, List.length_cons] at hl
  omega

theorem Path.mem {p : α → Option α} {x r : α} {l : List α} (h : Path p x l r) :
    ∀ v ∈ l, Below p x v ∧ Below p v r ∧ v ≠ r ∧ ∃ m, Path p v m r := by
  induction h with
  | root h => simp
  | @step x y l r h hne ht ih =>
    have hyr : Below p y r := by
      clear ih h hne
      induction ht with
      | root _ => exact .refl
      | step h hne _ ih => exact .head ⟨h, hne⟩ ih
    intro v hv
    rcases List.mem_cons.1 hv with rfl | hv
    · refine ⟨.refl, .head ⟨h, hne⟩ hyr, ?_, _, .step h hne ht⟩
      rintro rfl
      have := ht.leads.isRoot
      rw [h] at this
      exact hne (Option.some.inj this).symm
    · obtain ⟨h1, h2⟩ := ih v hv
      exact ⟨.head ⟨h, hne⟩ h1, h2⟩

theorem Path.nodup {p : α → Option α} {x r : α} {l : List α} (h : Path p x l r) : l.Nodup := by
  induction h with
  | root h => simp
  | @step x y l r h hne ht ih =>
    refine List.nodup_cons.2 ⟨fun hx => ?_, ih⟩
    exact ht.acyclic h hne (ht.mem x hx).1

/-! ## Sizes -/

/-- The number of elements below `v` (with `v`). -/
noncomputable def size (p : α → Option α) (E : List α) (v : α) : ℕ :=
  haveI : DecidablePred (fun u => Below p u v) := fun _ => Classical.propDecidable _
  (E.toFinset.filter (fun u => Below p u v)).card

/-- The potential. -/
noncomputable def pot (p : α → Option α) (E : List α) : ℕ := ∑ v ∈ E.toFinset, Nat.log 2 (size p E v)

theorem size_le (p : α → Option α) (E : List α) (v : α) : size p E v ≤ E.toFinset.card := by
  classical
  exact Finset.card_le_card (Finset.filter_subset _ _)

theorem size_pos {p : α → Option α} {E : List α} {v : α} (hv : v ∈ E) : 0 < size p E v := by
  classical
  exact Finset.card_pos.2 ⟨v, Finset.mem_filter.2 ⟨List.mem_toFinset.2 hv, .refl⟩⟩

/-- All pointers start and end in `E`. -/
def Within (p : α → Option α) (E : List α) : Prop := ∀ x y, p x = some y → x ∈ E ∧ y ∈ E

section Compress

variable {p : α → Option α} {x r : α} {l : List α}

theorem below_compress (h : Path p x l r) {u v : α} (hu : Below (putAll p l r) u v) : Below p u v := by
  induction hu using Relation.ReflTransGen.head_induction_on with
  | refl => exact .refl
  | head h1 _ ih =>
    obtain ⟨h1, hne⟩ := h1
    rw [putAll_apply] at h1
    split at h1
    · rename_i hm
      injection h1 with h1
      subst h1
      exact (h.mem _ hm).2.1.trans ih
    · exact .head ⟨h1, hne⟩ ih

theorem compress_disjoint (h : Path p x l r) {a b : α} (ha : a ∈ l) (hb : b ∈ l) (hab : p a = some b) (hne : a ≠ b)
    {u : α} (hu : Below (putAll p l r) u b) : ¬ Below p u a := by
  induction hu using Relation.ReflTransGen.head_induction_on with
  | refl =>
    obtain ⟨-, -, -, m, hm⟩ := h.mem b hb
    exact hm.acyclic hab hne
  | @head u w h1 h2 ih =>
    intro hua
    obtain ⟨h1, hne1⟩ := h1
    rw [putAll_apply] at h1
    split at h1
    · rename_i hm
      injection h1 with h1
      subst h1
      -- the root has no way out
      have hr : putAll p l r r = some r := by
        rw [putAll_apply, if_neg (fun hm => (h.mem r hm).2.2.1 rfl)]
        exact h.leads.isRoot
      rcases Relation.ReflTransGen.cases_head h2 with e | ⟨c, hc, -⟩
      · exact (h.mem b hb).2.2.1 e.symm
      · rw [hr] at hc
        exact hc.2 (Option.some.inj hc.1)
    · rename_i hm
      rcases Relation.ReflTransGen.cases_head hua with e | ⟨c, hc, hca⟩
      · exact hm (e ▸ ha)
      · rw [h1] at hc
        have e := Option.some.inj hc.1
        subst e
        exact ih hca

theorem size_compress (h : Path p x l r) (E : List α) (v : α) : size (putAll p l r) E v ≤ size p E v := by
  classical
  refine Finset.card_le_card fun u hu => ?_
  rw [Finset.mem_filter] at hu ⊢
  exact ⟨hu.1, below_compress h hu.2⟩

theorem size_compress_add (h : Path p x l r) (E : List α) {a b : α} (ha : a ∈ l) (hb : b ∈ l) (hab : p a = some b)
    (hne : a ≠ b) : size (putAll p l r) E b + size p E a ≤ size p E b := by
  classical
  unfold size
  rw [← Finset.card_union_of_disjoint]
  · refine Finset.card_le_card fun u hu => ?_
    rw [Finset.mem_union, Finset.mem_filter, Finset.mem_filter] at hu
    rw [Finset.mem_filter]
    rcases hu with ⟨h1, h2⟩ | ⟨h1, h2⟩
    · exact ⟨h1, below_compress h h2⟩
    · exact ⟨h1, h2.tail ⟨hab, hne⟩⟩
  · rw [Finset.disjoint_left]
    intro u hu hu'
    exact compress_disjoint h ha hb hab hne (Finset.mem_filter.1 hu).2 (Finset.mem_filter.1 hu').2

theorem log_add {s t : ℕ} (hs : 0 < s) (ht : 0 < t) {n : ℕ} (h : s + t ≤ n) :
    1 + Nat.log 2 s + Nat.log 2 t ≤ 2 * Nat.log 2 n := by
  have h1 : Nat.log 2 s ≤ Nat.log 2 n := Nat.log_mono_right (by omega)
  have h2 : Nat.log 2 t ≤ Nat.log 2 n := Nat.log_mono_right (by omega)
  have key : ∀ m, 0 < m → 2 * m ≤ n → Nat.log 2 m + 1 ≤ Nat.log 2 n := by
    intro m hm hmn
    rw [← Nat.log_mul_base (by decide) (by omega)]
    exact Nat.log_mono_right (by omega)
  rcases Nat.le_total s t with hst | hst
  · have := key s hs (by omega); omega
  · have := key t ht (by omega); omega

/-- The telescoping sum along a path. -/
theorem pot_along (h : Path p x l r) (E : List α) (hE : ∀ v ∈ l, v ∈ E) : ∀ {y : α} {m : List α} {n : ℕ},
    Path p y (y :: m) r → y ∈ l → (∀ v ∈ m, v ∈ l) → (∀ v ∈ E, size p E v ≤ n) →
    m.length + (m.map (fun v => Nat.log 2 (size (putAll p l r) E v))).sum + Nat.log 2 (size p E y) ≤
      (m.map (fun v => Nat.log 2 (size p E v))).sum + Nat.log 2 n := by
  intro y m n
  induction m generalizing y with
  | nil =>
    intro _ hy _ hn
    simp only [List.length_nil, List.map_nil, List.sum_nil, zero_add]
    exact Nat.log_mono_right (hn y (hE y hy))
  | cons z m ih =>
    intro hp hy hm hn
    cases hp with
    | @step _ z' _ _ h1 hne ht =>
      have e : z' = z := by cases ht; rfl
      subst e
      have := ih ht (hm z' (by simp)) (fun v hv => hm v (by simp [hv])) hn
      have h2 := size_compress_add h E hy (hm z' (by simp)) h1 hne
      have h3 := log_add (size_pos (hE z' (hm z' (by simp)))) (size_pos (hE y hy)) h2
      simp only [List.length_cons, List.map_cons, List.sum_cons]
      omega

/-- **Path compression**: the pointers followed are paid for by the potential, up to `log2 n + 1`. -/
theorem pot_find (h : Path p x l r) {E : List α} (hW : Within p E) :
    l.length + pot (putAll p l r) E ≤ pot p E + Nat.log 2 E.toFinset.card + 1 := by
  have hmono : ∀ v, Nat.log 2 (size (putAll p l r) E v) ≤ Nat.log 2 (size p E v) := fun v =>
    Nat.log_mono_right (size_compress h E v)
  have hE : ∀ v ∈ l, v ∈ E := by
    intro v hv
    obtain ⟨-, -, hne, m, hm⟩ := h.mem v hv
    cases hm with
    | root _ => exact absurd rfl hne
    | step h1 _ _ => exact (hW _ _ h1).1
  cases l with
  | nil =>
    have : pot (putAll p [] r) E ≤ pot p E := Finset.sum_le_sum fun v _ => hmono v
    rw [List.length_nil]
    omega
  | cons y m =>
    have hxy : x = y := by cases h; rfl
    subst hxy
    have h1 := pot_along h E hE h (by simp) (fun v hv => by simp [hv]) (fun v _ => size_le p E v)
    have hnd : m.Nodup := (List.nodup_cons.1 h.nodup).2
    have hsub : m.toFinset ⊆ E.toFinset := fun v hv => List.mem_toFinset.2 (hE v (by simp [List.mem_toFinset.1 hv]))
    unfold pot
    rw [← Finset.sum_sdiff hsub, ← Finset.sum_sdiff (f := fun v => Nat.log 2 (size p E v)) hsub,
      List.sum_toFinset _ hnd, List.sum_toFinset _ hnd]
    have h2 : ∑ v ∈ E.toFinset \ m.toFinset, Nat.log 2 (size (putAll p (x :: m) r) E v) ≤
        ∑ v ∈ E.toFinset \ m.toFinset, Nat.log 2 (size p E v) := Finset.sum_le_sum fun v _ => hmono v
    rw [List.length_cons]
    omega

theorem within_find (h : Path p x l r) {E : List α} (hr : r ∈ E) (hW : Within p E) : Within (putAll p l r) E := by
  intro u v huv
  rw [putAll_apply] at huv
  split at huv
  · rename_i hm
    injection huv with huv
    subst huv
    obtain ⟨-, -, hne, m, hm'⟩ := h.mem u hm
    cases hm' with
    | root _ => exact absurd rfl hne
    | step h1 _ _ => exact ⟨(hW _ _ h1).1, hr⟩
  · exact hW u v huv

end Compress

/-! ## Links -/

theorem below_put {p : α → Option α} {a b : α} (hb : p b = some b) {u v : α}
    (h : Below (put p a b) u v) : Below p u v ∨ v = b := by
  induction h with
  | refl => exact .inl .refl
  | @tail w v _ h1 ih =>
    obtain ⟨h1, hne⟩ := h1
    unfold put at h1
    split at h1
    · right
      exact (Option.some.inj h1).symm
    · rcases ih with ih | ih
      · exact .inl (ih.tail ⟨h1, hne⟩)
      · subst ih
        rw [hb] at h1
        exact absurd (Option.some.inj h1) hne

theorem pot_union {p : α → Option α} {a b : α} (hb : p b = some b) (E : List α) :
    pot (put p a b) E ≤ pot p E + Nat.log 2 E.toFinset.card := by
  classical
  have hmono : ∀ v, v ≠ b → size (put p a b) E v ≤ size p E v := by
    intro v hv
    refine Finset.card_le_card fun u hu => ?_
    rw [Finset.mem_filter] at hu ⊢
    refine ⟨hu.1, ?_⟩
    rcases below_put hb hu.2 with h | h
    · exact h
    · exact absurd h hv
  unfold pot
  by_cases hbE : b ∈ E.toFinset
  · rw [← Finset.add_sum_erase _ _ hbE, ← Finset.add_sum_erase (f := fun v => Nat.log 2 (size p E v)) _ hbE]
    have h1 : ∑ v ∈ E.toFinset.erase b, Nat.log 2 (size (put p a b) E v) ≤
        ∑ v ∈ E.toFinset.erase b, Nat.log 2 (size p E v) :=
      Finset.sum_le_sum fun v hv => Nat.log_mono_right (hmono v (Finset.ne_of_mem_erase hv))
    have h2 : Nat.log 2 (size (put p a b) E b) ≤ Nat.log 2 E.toFinset.card := Nat.log_mono_right (size_le _ _ _)
    omega
  · have h1 : ∑ v ∈ E.toFinset, Nat.log 2 (size (put p a b) E v) ≤ ∑ v ∈ E.toFinset, Nat.log 2 (size p E v) :=
      Finset.sum_le_sum fun v hv => Nat.log_mono_right (hmono v (fun e => hbE (e ▸ hv)))
    omega

theorem within_put {p : α → Option α} {a b : α} {E : List α} (ha : a ∈ E) (hb : b ∈ E) (hW : Within p E) :
    Within (put p a b) E := by
  intro u v huv
  unfold put at huv
  split at huv
  · rename_i e
    rw [e, ← Option.some.inj huv]
    exact ⟨ha, hb⟩
  · exact hW u v huv

theorem within_init (E : List α) : Within (UF.init E).parent E := by
  intro x y h
  rw [(init_apply E x).1] at h
  split at h
  · rename_i hx
    rw [← Option.some.inj h]
    exact ⟨hx, hx⟩
  · simp at h

theorem pot_init (E : List α) : pot (UF.init E).parent E = 0 := by
  classical
  refine Finset.sum_eq_zero fun v _ => ?_
  have : size (UF.init E).parent E v ≤ 1 := by
    refine Finset.card_le_one.2 fun a ha b hb => ?_
    have key : ∀ u, Below (UF.init E).parent u v → u = v := by
      intro u hu
      rcases Relation.ReflTransGen.cases_head hu with e | ⟨c, hc, -⟩
      · exact e
      · rw [(init_apply E u).1] at hc
        split at hc
        · exact absurd (Option.some.inj hc.1) hc.2
        · simp at hc
    rw [key a (Finset.mem_filter.1 ha).2, key b (Finset.mem_filter.1 hb).2]
  exact Nat.log_eq_zero_iff.2 (.inl (by omega))

end Rosemary.UnionFind
