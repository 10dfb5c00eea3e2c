import Verif.Model.UnionFind
import Mathlib.Logic.Relation
import Mathlib.Data.List.Basic

/-!
# Pointer forests with path compression
-/

namespace Rosemary.UnionFind

variable {α : Type} [DecidableEq α]

/-- Following the pointers `p` from `x` one arrives at the root `r`. -/
inductive Leads (p : α → Option α) : α → α → Prop
  | root {r} (h : p r = some r) : Leads p r r
  | step {x y r} (h : p x = some y) (hne : x ≠ y) (ht : Leads p y r) : Leads p x r

theorem Leads.isRoot {p : α → Option α} {x r : α} (h : Leads p x r) : p r = some r := by
  induction h with
  | root h => exact h
  | step _ _ _ ih => exact ih

theorem Leads.unique {p : α → Option α} {x r s : α} (h : Leads p x r) (h' : Leads p x s) : r = s := by
  induction h with
  | root h =>
    cases h' with
    | root _ => rfl
    | step h1 hne _ => rw [h] at h1; injection h1 with h1; exact absurd h1 hne
  | step h hne ht ih =>
    cases h' with
    | root h1 => rw [h] at h1; injection h1 with h1; exact absurd h1.symm hne
    | step h1 hne1 ht1 => rw [h] at h1; injection h1 with h1; subst h1; exact ih ht1

omit [DecidableEq α] in
theorem leads_of_parent {p : α → Option α} {x r : α} (h : p x = some r) (hr : p r = some r) :
    Leads p x r := by
  by_cases hx : x = r
  · subst hx; exact .root hr
  · exact .step h hx (.root hr)

theorem walk_spec {p : α → Option α} {x r : α} (h : Leads p x r) (path : List α) :
    ∃ path', walk p x path = some (.ok (r, path ++ path')) ∧
      (∀ v ∈ path', Leads p v r ∧ v ≠ r) ∧ (x ∈ path' ∨ x = r) := by
  induction h generalizing path with
  | root h =>
    rw [walk.eq_def, h]
    exact ⟨[], by simp, by simp, .inr rfl⟩
  | @step x y r h hne ht ih =>
    rw [walk.eq_def, h]
    simp only [if_neg hne]
    obtain ⟨path', h1, h2, -⟩ := ih (path ++ [x])
    refine ⟨x :: path', by rw [h1]; simp, ?_, .inl (by simp)⟩
    intro v hv
    rcases List.mem_cons.1 hv with rfl | hv
    · refine ⟨.step h hne ht, ?_⟩
      rintro rfl
      have h3 := ht.isRoot
      rw [h] at h3
      injection h3 with h3
      exact hne h3.symm
    · exact h2 v hv

theorem putAll_apply {β : Type} (d : α → Option β) (path : List α) (x : β) (j : α) :
    putAll d path x j = if j ∈ path then some x else d j := by
  unfold putAll
  induction path generalizing d with
  | nil => simp
  | cons v path ih =>
    rw [List.foldl_cons, ih]
    unfold put
    by_cases h1 : j ∈ path
    · simp [h1]
    · by_cases h2 : j = v
      · simp [h2]
      · simp [h1, h2]

/-- Path compression does not change where pointers lead. -/
theorem leads_putAll {p : α → Option α} {r : α} {path : List α} (hr : p r = some r)
    (hp : ∀ v ∈ path, Leads p v r ∧ v ≠ r) (z s : α) :
    Leads (putAll p path r) z s ↔ Leads p z s := by
  have hrq : putAll p path r r = some r := by
    rw [putAll_apply, if_neg (fun h => (hp r h).2 rfl)]; exact hr
  constructor
  · intro h
    induction h with
    | @root s h =>
      rw [putAll_apply] at h
      split at h
      · rename_i hm
        injection h with h
        exact absurd h.symm (hp s hm).2
      · exact .root h
    | @step x y s h hne ht ih =>
      rw [putAll_apply] at h
      split at h
      · rename_i hm
        injection h with h
        subst h
        have := ih.unique (.root hr)
        rw [this]
        exact (hp x hm).1
      · exact .step h hne ih
  · intro h
    induction h with
    | @root s h =>
      refine .root ?_
      rw [putAll_apply]
      split
      · rename_i hm
        have := (hp s hm).1.unique (.root h)
        rw [this]
      · exact h
    | @step x y s h hne ht ih =>
      by_cases hm : x ∈ path
      · have hs : s = r := (Leads.step h hne ht).unique (hp x hm).1
        subst hs
        exact .step (by rw [putAll_apply, if_pos hm]) (hp x hm).2 (.root hrq)
      · exact .step (by rw [putAll_apply, if_neg hm]; exact h) hne ih

theorem find_of_leads {s : UF α} {x r : α} (h : Leads s.parent x r) :
    ∃ s', s.find x = some (.ok (r, s')) ∧ ∀ z t, Leads s'.parent z t ↔ Leads s.parent z t := by
  obtain ⟨path, h1, h2, -⟩ := walk_spec h []
  refine ⟨{ s with parent := putAll s.parent path r }, ?_, leads_putAll h.isRoot h2⟩
  unfold UF.find
  rw [h1]; simp

/-- Linking the root `a` below the root `b`. -/
theorem leads_put {p : α → Option α} {a b : α} (ha : p a = some a) (hb : p b = some b) {z s : α}
    (h : Leads p z s) : Leads (put p a b) z (if s = a then b else s) := by
  have hbq : put p a b b = some b := by
    unfold put; split
    · rfl
    · exact hb
  induction h with
  | @root s h =>
    by_cases hs : s = a
    · rw [if_pos hs]
      exact leads_of_parent (by unfold put; rw [if_pos hs]) hbq
    · rw [if_neg hs]
      exact .root (by unfold put; rw [if_neg hs]; exact h)
  | @step x y s h hne ht ih =>
    have hxa : x ≠ a := by
      rintro rfl
      rw [ha] at h
      injection h with h
      exact hne h
    exact .step (by unfold put; rw [if_neg hxa]; exact h) hne ih

/-! ## Equivalence closures -/

/-- The equivalence relation generated by the pairs of `l`. -/
def Linked (l : List (α × α)) : α → α → Prop := Relation.EqvGen (fun a b => (a, b) ∈ l)

omit [DecidableEq α] in
theorem linked_cons {l : List (α × α)} {x y a b : α} :
    Linked ((x, y) :: l) a b ↔ Linked l a b ∨ (Linked l a x ∧ Linked l y b) ∨
      (Linked l a y ∧ Linked l x b) := by
  have mono : ∀ {a b}, Linked l a b → Linked ((x, y) :: l) a b := by
    intro a b h
    exact Relation.EqvGen.mono (r := fun a b => (a, b) ∈ l) (fun a b h => List.mem_cons_of_mem _ h) _ _ h
  have hxy : Linked ((x, y) :: l) x y := .rel _ _ (by simp)
  constructor
  · intro h
    induction h with
    | rel a b h =>
      rcases List.mem_cons.1 h with h | h
      · injection h with h1 h2
        subst h1; subst h2
        exact .inr (.inl ⟨.refl _, .refl _⟩)
      · exact .inl (.rel _ _ h)
    | refl a => exact .inl (.refl _)
    | symm a b _ ih =>
      rcases ih with h | ⟨h1, h2⟩ | ⟨h1, h2⟩
      · exact .inl (.symm _ _ h)
      · exact .inr (.inr ⟨.symm _ _ h2, .symm _ _ h1⟩)
      · exact .inr (.inl ⟨.symm _ _ h2, .symm _ _ h1⟩)
    | trans a b c _ _ ih1 ih2 =>
      rcases ih1 with h | ⟨h1, h2⟩ | ⟨h1, h2⟩ <;> rcases ih2 with g | ⟨g1, g2⟩ | ⟨g1, g2⟩
      · exact .inl (.trans _ _ _ h g)
      · exact .inr (.inl ⟨.trans _ _ _ h g1, g2⟩)
      · exact .inr (.inr ⟨.trans _ _ _ h g1, g2⟩)
      · exact .inr (.inl ⟨h1, .trans _ _ _ h2 g⟩)
      · exact .inr (.inl ⟨h1, g2⟩)
      · exact .inl (.trans _ _ _ h1 g2)
      · exact .inr (.inr ⟨h1, .trans _ _ _ h2 g⟩)
      · exact .inl (.trans _ _ _ h1 g2)
      · exact .inr (.inr ⟨h1, g2⟩)
  · rintro (h | ⟨h1, h2⟩ | ⟨h1, h2⟩)
    · exact mono h
    · exact .trans _ _ _ (mono h1) (.trans _ _ _ hxy (mono h2))
    · exact .trans _ _ _ (mono h1) (.trans _ _ _ (.symm _ _ hxy) (mono h2))

/-! ## The invariant of `UnionFind` -/

/-- The state `s` on the elements `E` represents the partition generated by the pairs `l`. -/
structure Inv (E : List α) (s : UF α) (l : List (α × α)) : Prop where
  dom : ∀ x ∈ E, ∃ r ∈ E, Leads s.parent x r
  rel : ∀ x ∈ E, ∀ y ∈ E, ∀ r t, Leads s.parent x r → Leads s.parent y t → (r = t ↔ Linked l x y)
  rank : ∀ x ∈ E, (s.rank x).isSome

theorem init_apply (E : List α) (x : α) :
    (UF.init E).parent x = (if x ∈ E then some x else none) ∧
    (UF.init E).rank x = (if x ∈ E then some 0 else none) := by
  unfold UF.init
  have : ∀ (E : List α) (s : UF α),
      (E.foldl (fun s u => (⟨put s.rank u 0, put s.parent u u⟩ : UF α)) s).parent x =
        (if x ∈ E then some x else s.parent x) ∧
      (E.foldl (fun s u => (⟨put s.rank u 0, put s.parent u u⟩ : UF α)) s).rank x =
        (if x ∈ E then some 0 else s.rank x) := by
    intro E
    induction E with
    | nil => intro s; simp
    | cons a E ih =>
      intro s
      rw [List.foldl_cons, (ih _).1, (ih _).2]
      unfold put
      by_cases h1 : x ∈ E
      · simp [h1]
      · by_cases h2 : x = a
        · subst h2; simp
        · simp [h1, h2]
  simpa using this E ⟨fun _ => none, fun _ => none⟩

theorem Inv.init (E : List α) : Inv E (UF.init E) [] := by
  have hp : ∀ x ∈ E, (UF.init E).parent x = some x := fun x hx => by
    rw [(init_apply E x).1, if_pos hx]
  refine ⟨fun x hx => ⟨x, hx, .root (hp x hx)⟩, ?_, fun x hx => by
    rw [(init_apply E x).2, if_pos hx]; rfl⟩
  intro x hx y hy r t h1 h2
  have e1 := h1.unique (.root (hp x hx))
  have e2 := h2.unique (.root (hp y hy))
  subst e1; subst e2
  constructor
  · rintro rfl; exact .refl _
  · intro h
    have : ∀ a b, Linked ([] : List (α × α)) a b → a = b := by
      intro a b h
      induction h with
      | rel a b h => simp at h
      | refl a => rfl
      | symm a b _ ih => exact ih.symm
      | trans a b c _ _ ih1 ih2 => exact ih1.trans ih2
    exact this _ _ h

/-- `find` keeps the invariant, returns the root, and leaves the argument (and every element that
already was there) pointing directly at its root. -/
theorem Inv.find {E : List α} {s : UF α} {l : List (α × α)} (h : Inv E s l) {x : α} (hx : x ∈ E) :
    ∃ r s', s.find x = some (.ok (r, s')) ∧ r ∈ E ∧ Leads s.parent x r ∧ Inv E s' l ∧
      (∀ z t, Leads s'.parent z t ↔ Leads s.parent z t) ∧ s'.parent x = some r ∧
      (∀ z t, Leads s.parent z t → s.parent z = some t → s'.parent z = some t) := by
  obtain ⟨r, hr, hL⟩ := h.dom x hx
  obtain ⟨path, h1, h2, h3⟩ := walk_spec hL []
  have hleads := leads_putAll hL.isRoot h2
  refine ⟨r, { s with parent := putAll s.parent path r }, ?_, hr, hL, ?_, hleads, ?_, ?_⟩
  · unfold UF.find
    rw [h1]; simp
  · refine ⟨fun z hz => ?_, fun z hz y hy a b ha hb => ?_, h.rank⟩
    · obtain ⟨t, ht, hzt⟩ := h.dom z hz
      exact ⟨t, ht, (hleads z t).2 hzt⟩
    · exact h.rel z hz y hy a b ((hleads z a).1 ha) ((hleads y b).1 hb)
  · show putAll s.parent path r x = some r
    rw [putAll_apply]
    rcases h3 with h3 | rfl
    · rw [if_pos h3]
    · split
      · rfl
      · exact hL.isRoot
  · intro z t hz hzt
    show putAll s.parent path r z = some t
    rw [putAll_apply]
    split
    · rename_i hm
      rw [hz.unique (h2 z hm).1]
    · exact hzt

/-- `union` on elements that point directly at their roots. -/
theorem Inv.union {E : List α} {s : UF α} {l : List (α × α)} (h : Inv E s l) {x y a b : α}
    (hx : x ∈ E) (hy : y ∈ E) (hxa : s.parent x = some a) (ha : s.parent a = some a)
    (hyb : s.parent y = some b) (hb : s.parent b = some b) :
    ∃ s', s.union x y = .ok s' ∧ Inv E s' ((x, y) :: l) := by
  have hLx : Leads s.parent x a := leads_of_parent hxa ha
  have hLy : Leads s.parent y b := leads_of_parent hyb hb
  have haE : a ∈ E := by
    obtain ⟨t, ht, h1⟩ := h.dom x hx
    rw [hLx.unique h1]; exact ht
  have hbE : b ∈ E := by
    obtain ⟨t, ht, h1⟩ := h.dom y hy
    rw [hLy.unique h1]; exact ht
  obtain ⟨rx, hrx⟩ := Option.isSome_iff_exists.1 (h.rank a haE)
  obtain ⟨ry, hry⟩ := Option.isSome_iff_exists.1 (h.rank b hbE)
  refine ⟨⟨if rx = ry then put s.rank b (ry + 1) else s.rank, put s.parent a b⟩, ?_, ?_, ?_, ?_⟩
  · unfold UF.union
    rw [hxa, hyb]
    dsimp only
    rw [hrx, hry]
  · intro z hz
    obtain ⟨t, ht, h1⟩ := h.dom z hz
    refine ⟨_, ?_, leads_put ha hb h1⟩
    split
    · exact hbE
    · exact ht
  · intro z hz w hw r t h1 h2
    obtain ⟨r', -, hr'⟩ := h.dom z hz
    obtain ⟨t', -, ht'⟩ := h.dom w hw
    have e1 := h1.unique (leads_put ha hb hr')
    have e2 := h2.unique (leads_put ha hb ht')
    rw [linked_cons, ← h.rel z hz w hw r' t' hr' ht', ← h.rel z hz x hx r' a hr' hLx,
      ← h.rel z hz y hy r' b hr' hLy, ← h.rel x hx w hw a t' hLx ht', ← h.rel y hy w hw b t' hLy ht',
      e1, e2]
    constructor
    · intro h5
      split at h5 <;> split at h5
      · rename_i p q; exact .inl (p.trans q.symm)
      · rename_i p q; exact .inr (.inl ⟨p, h5⟩)
      · rename_i p q; exact .inr (.inr ⟨h5, q.symm⟩)
      · exact .inl h5
    · rintro (rfl | ⟨rfl, rfl⟩ | ⟨rfl, rfl⟩)
      · rfl
      · rw [if_pos rfl]; split <;> rfl
      · rw [if_pos rfl]; split <;> rfl
  · intro z hz
    show ((if rx = ry then put s.rank b (ry + 1) else s.rank) z).isSome
    split
    · unfold put; split
      · rfl
      · exact h.rank z hz
    · exact h.rank z hz

/-! ## NamedUnionFind -/

/-- Following the pointers `p` from `x` one arrives at the root `r`. -/
inductive NLeads (p : α → Option (Option α)) : α → α → Prop
  | root {r} (h : p r = some none) : NLeads p r r
  | step {x y r} (h : p x = some (some y)) (ht : NLeads p y r) : NLeads p x r

omit [DecidableEq α] in
theorem NLeads.isRoot {p : α → Option (Option α)} {x r : α} (h : NLeads p x r) : p r = some none := by
  induction h with
  | root h => exact h
  | step _ _ ih => exact ih

omit [DecidableEq α] in
theorem NLeads.unique {p : α → Option (Option α)} {x r s : α} (h : NLeads p x r)
    (h' : NLeads p x s) : r = s := by
  induction h with
  | root h =>
    cases h' with
    | root _ => rfl
    | step h1 _ => rw [h] at h1; injection h1 with h1; simp at h1
  | step h ht ih =>
    cases h' with
    | root h1 => rw [h] at h1; injection h1 with h1; simp at h1
    | step h1 ht1 => rw [h] at h1; injection h1 with h1; injection h1 with h1; subst h1; exact ih ht1

theorem nwalk_spec {p : α → Option (Option α)} {x r : α} (h : NLeads p x r) (path : List α) :
    ∃ path', nwalk p x path = some (.ok (r, path ++ path')) ∧
      (∀ v ∈ path', NLeads p v r ∧ v ≠ r) ∧ (x ∈ path' ∨ x = r) := by
  induction h generalizing path with
  | root h =>
    rw [nwalk.eq_def, h]
    exact ⟨[], by simp, by simp, .inr rfl⟩
  | @step x y r h ht ih =>
    rw [nwalk.eq_def, h]
    dsimp only
    obtain ⟨path', h1, h2, -⟩ := ih (path ++ [x])
    refine ⟨x :: path', by rw [h1]; simp, ?_, .inl (by simp)⟩
    intro v hv
    rcases List.mem_cons.1 hv with rfl | hv
    · refine ⟨.step h ht, ?_⟩
      rintro rfl
      have h3 := ht.isRoot
      rw [h] at h3
      simp at h3
    · exact h2 v hv

theorem nleads_putAll {p : α → Option (Option α)} {r : α} {path : List α} (hr : p r = some none)
    (hp : ∀ v ∈ path, NLeads p v r ∧ v ≠ r) {z s : α} (h : NLeads p z s) :
    NLeads (putAll p path (some r)) z s := by
  have hrq : putAll p path (some r) r = some none := by
    rw [putAll_apply, if_neg (fun h => (hp r h).2 rfl)]; exact hr
  induction h with
  | @root s h =>
    refine .root ?_
    rw [putAll_apply, if_neg]
    · exact h
    · intro hm
      exact (hp s hm).2 ((NLeads.root h).unique (hp s hm).1)
  | @step x y s h ht ih =>
    by_cases hm : x ∈ path
    · have hs : s = r := (NLeads.step h ht).unique (hp x hm).1
      subst hs
      exact .step (by rw [putAll_apply, if_pos hm]) (.root hrq)
    · exact .step (by rw [putAll_apply, if_neg hm]; exact h) ih

theorem nleads_put {p : α → Option (Option α)} {a b : α} (hab : a ≠ b) (ha : p a = some none)
    (hb : p b = some none) {z s : α} (h : NLeads p z s) :
    NLeads (put p a (some b)) z (if s = a then b else s) := by
  have hbq : put p a (some b) b = some none := by
    unfold put; rw [if_neg hab.symm]; exact hb
  induction h with
  | @root s h =>
    by_cases hs : s = a
    · rw [if_pos hs]
      exact .step (by unfold put; rw [if_pos hs]) (.root hbq)
    · rw [if_neg hs]
      exact .root (by unfold put; rw [if_neg hs]; exact h)
  | @step x y s h ht ih =>
    have hxa : x ≠ a := by
      rintro rfl
      rw [ha] at h
      simp at h
    exact .step (by unfold put; rw [if_neg hxa]; exact h) ih

/-- The set of `x` has the name `f x`. -/
def NInv (E : List α) (s : NUF α) (f : α → α) : Prop :=
  ∀ x ∈ E, ∃ r ∈ E, NLeads s.father x r ∧ s.name r = some (f x) ∧ s.root (f x) = some r ∧
    (s.count r).isSome

theorem ninit_apply (E : List α) (x : α) :
    (NUF.init E).father x = (if x ∈ E then some none else none) ∧
    (NUF.init E).name x = (if x ∈ E then some x else none) ∧
    (NUF.init E).root x = (if x ∈ E then some x else none) ∧
    (NUF.init E).count x = (if x ∈ E then some 1 else none) := by
  unfold NUF.init
  have : ∀ (E : List α) (s : NUF α),
      let t := (E.foldl (fun s u => (⟨put s.count u 1, put s.name u u, put s.father u none,
        put s.root u u⟩ : NUF α)) s)
      t.father x = (if x ∈ E then some none else s.father x) ∧
      t.name x = (if x ∈ E then some x else s.name x) ∧
      t.root x = (if x ∈ E then some x else s.root x) ∧
      t.count x = (if x ∈ E then some 1 else s.count x) := by
    intro E
    induction E with
    | nil => intro s; simp
    | cons a E ih =>
      intro s
      dsimp only at ih ⊢
      rw [List.foldl_cons, (ih _).1, (ih _).2.1, (ih _).2.2.1, (ih _).2.2.2]
      unfold put
      by_cases h1 : x ∈ E
      · simp [h1]
      · by_cases h2 : x = a
        · subst h2; simp
        · simp [h1, h2]
  simpa using this E ⟨fun _ => none, fun _ => none, fun _ => none, fun _ => none⟩

theorem NInv.init (E : List α) : NInv E (NUF.init E) id := by
  intro x hx
  obtain ⟨h1, h2, h3, h4⟩ := ninit_apply E x
  rw [if_pos hx] at h1 h2 h3 h4
  exact ⟨x, hx, .root h1, h2, h3, by rw [h4]; rfl⟩

/-- `find` returns the name. -/
theorem nfind_inv {E : List α} {s : NUF α} {f : α → α} (h : NInv E s f) {x : α} (hx : x ∈ E) :
    ∃ s', s.find x = some (.ok (f x, s')) ∧ NInv E s' f := by
  obtain ⟨r, hrE, hL, hn, hro, hc⟩ := h x hx
  obtain ⟨path, h1, h2, h3⟩ := nwalk_spec hL []
  refine ⟨{ s with father := putAll s.father path (some r) }, ?_, ?_⟩
  · unfold NUF.find
    rw [h1]
    simp [hn]
  · intro z hz
    obtain ⟨t, htE, hLt, hn', hro', hc'⟩ := h z hz
    exact ⟨t, htE, nleads_putAll hL.isRoot h2 hLt, hn', hro', hc'⟩

/-- `union` of two sets given by their names. -/
theorem nunion_inv {E : List α} {s : NUF α} {f : α → α} (h : NInv E s f) {u v w : α}
    (huv : u ≠ v) (hu : ∃ a ∈ E, f a = u) (hv : ∃ b ∈ E, f b = v)
    (hw : w = u ∨ w = v ∨ ∀ a ∈ E, f a ≠ w) :
    ∃ s', s.union u v w = .ok s' ∧ NInv E s' (fun x => if f x = u ∨ f x = v then w else f x) := by
  obtain ⟨a, haE, rfl⟩ := hu
  obtain ⟨b, hbE, rfl⟩ := hv
  obtain ⟨ru, hruE, hLu, hnu, hrou, hcu⟩ := h a haE
  obtain ⟨rv, hrvE, hLv, hnv, hrov, hcv⟩ := h b hbE
  obtain ⟨cu, hcu⟩ := Option.isSome_iff_exists.1 hcu
  obtain ⟨cv, hcv⟩ := Option.isSome_iff_exists.1 hcv
  have hne : ru ≠ rv := by
    rintro rfl
    rw [hnu] at hnv
    injection hnv with hnv
    exact huv hnv
  have key : ∀ large small : α, ∀ c : Nat,
      (large = ru ∧ small = rv ∨ large = rv ∧ small = ru) →
      NInv E ⟨put s.count large c, put s.name large w, put s.father small (some large),
        put s.root w large⟩ (fun x => if f x = f a ∨ f x = f b then w else f x) := by
    intro large small c hls x hx
    obtain ⟨r, hrE, hL, hn, hro, hc⟩ := h x hx
    have hsl : small ≠ large := by
      rcases hls with ⟨rfl, rfl⟩ | ⟨rfl, rfl⟩
      · exact hne.symm
      · exact hne
    have hrs : s.father small = some none := by
      rcases hls with ⟨rfl, rfl⟩ | ⟨rfl, rfl⟩
      · exact hLv.isRoot
      · exact hLu.isRoot
    have hrl : s.father large = some none := by
      rcases hls with ⟨rfl, rfl⟩ | ⟨rfl, rfl⟩
      · exact hLu.isRoot
      · exact hLv.isRoot
    have hlE : large ∈ E := by
      rcases hls with ⟨rfl, rfl⟩ | ⟨rfl, rfl⟩ <;> assumption
    have hnl := nleads_put hsl hrs hrl hL
    by_cases hin : r = ru ∨ r = rv
    · have hf : f x = f a ∨ f x = f b := by
        rcases hin with rfl | rfl
        · left; rw [hn] at hnu; injection hnu
        · right; rw [hn] at hnv; injection hnv
      have hr' : (if r = small then large else r) = large := by
        split
        · rfl
        · rcases hls with ⟨rfl, rfl⟩ | ⟨rfl, rfl⟩ <;> rcases hin with h | h <;> tauto
      rw [hr'] at hnl
      refine ⟨large, hlE, hnl, ?_, ?_, ?_⟩
      · simp [put, hf]
      · simp [put, hf]
      · simp [put]
    · have hr' : r ≠ small := by rcases hls with ⟨rfl, rfl⟩ | ⟨rfl, rfl⟩ <;> tauto
      have hr'' : r ≠ large := by rcases hls with ⟨rfl, rfl⟩ | ⟨rfl, rfl⟩ <;> tauto
      rw [if_neg hr'] at hnl
      have hfa : f x ≠ f a := by
        intro he
        rw [he, hrou] at hro
        injection hro with hro
        exact hin (.inl hro.symm)
      have hfb : f x ≠ f b := by
        intro he
        rw [he, hrov] at hro
        injection hro with hro
        exact hin (.inr hro.symm)
      have hfw : f x ≠ w := by
        rcases hw with rfl | rfl | hw
        · exact hfa
        · exact hfb
        · exact hw x hx
      refine ⟨r, hrE, hnl, ?_, ?_, ?_⟩
      · simp [put, hfa, hfb, hr'', hn]
      · simp [put, hfa, hfb, hfw, hro]
      · simp [put, hr'', hc]
  unfold NUF.union
  rw [hrou, hrov]
  dsimp only
  rw [hcu, hcv]
  dsimp only
  refine ⟨_, rfl, key _ _ _ ?_⟩
  by_cases hc : cu > cv
  · rw [if_pos hc, if_pos hc]; exact .inl ⟨rfl, rfl⟩
  · rw [if_neg hc, if_neg hc]; exact .inr ⟨rfl, rfl⟩

end Rosemary.UnionFind
