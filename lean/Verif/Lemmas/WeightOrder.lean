import Verif.Model.SpanningTrees
import Verif.Props.Graph
import Verif.Props.LeftistHeap
import Mathlib.Data.List.Forall2
import Mathlib.Data.Option.Basic
import Mathlib.Data.Prod.Lex

/-!
# Two graphs with the same structure and weights in the same order

`ρ` relates the weights of the first graph to those of the second one.
-/

namespace Rosemary.WeightOrder

open Graph Paths UnionFind SpanningTrees

variable {V W W' : Type}

/-- Related weights are in the same order. -/
def Ordered [LT W] [LT W'] (ρ : W → W' → Prop) : Prop := ∀ a a' b b', ρ a a' → ρ b b' → (a < b ↔ a' < b')

/-- Related dictionaries of weights. -/
def RN (ρ : W → W' → Prop) : Dict V W → Dict V W' → Prop := List.Forall₂ (fun e f => e.1 = f.1 ∧ ρ e.2 f.2)

/-- Related graphs. -/
def RG (ρ : W → W' → Prop) : Graph V W → Graph V W' → Prop := List.Forall₂ (fun e f => e.1 = f.1 ∧ RN ρ e.2 f.2)

theorem RN.flip {ρ : W → W' → Prop} {N : Dict V W} {N' : Dict V W'} (h : RN ρ N N') : RN (fun a b => ρ b a) N' N :=
  List.Forall₂.flip (List.Forall₂.imp (fun _ _ h => ⟨h.1.symm, h.2⟩) h)

theorem RG.flip {ρ : W → W' → Prop} {N : Graph V W} {N' : Graph V W'} (h : RG ρ N N') : RG (fun a b => ρ b a) N' N :=
  List.Forall₂.flip (List.Forall₂.imp (fun _ _ h => ⟨h.1.symm, h.2.flip⟩) h)

theorem Ordered.flip [LT W] [LT W'] {ρ : W → W' → Prop} (h : Ordered ρ) : Ordered (fun a b => ρ b a) :=
  fun _ _ _ _ h1 h2 => (h _ _ _ _ h1 h2).symm

section Dicts

variable {β β' : Type} [DecidableEq V] {R : β → β' → Prop}

theorem rel_get {d : Dict V β} {d' : Dict V β'} (h : List.Forall₂ (fun e f => e.1 = f.1 ∧ R e.2 f.2) d d') (k : V) :
    Option.Rel R (Dict.get? d k) (Dict.get? d' k) := by
  induction h with
  | nil => exact .none
  | @cons a b l l' hab _ ih =>
    obtain ⟨a1, a2⟩ := a
    obtain ⟨b1, b2⟩ := b
    obtain ⟨h1, h2⟩ := hab
    simp only at h1
    subst h1
    rw [Dict.get?, Dict.get?]
    by_cases h : a1 = k
    · rw [if_pos h, if_pos h]; exact .some h2
    · rw [if_neg h, if_neg h]; exact ih

theorem rel_set {d : Dict V β} {d' : Dict V β'} (h : List.Forall₂ (fun e f => e.1 = f.1 ∧ R e.2 f.2) d d') (k : V)
    {x : β} {x' : β'} (hx : R x x') :
    List.Forall₂ (fun e f => e.1 = f.1 ∧ R e.2 f.2) (Dict.set d k x) (Dict.set d' k x') := by
  induction h with
  | nil => exact .cons ⟨rfl, hx⟩ .nil
  | @cons a b l l' hab hl ih =>
    obtain ⟨a1, a2⟩ := a
    obtain ⟨b1, b2⟩ := b
    obtain ⟨h1, h2⟩ := hab
    simp only at h1
    subst h1
    rw [Dict.set, Dict.set]
    by_cases h : a1 = k
    · rw [if_pos h, if_pos h]; exact .cons ⟨rfl, hx⟩ hl
    · rw [if_neg h, if_neg h]; exact .cons ⟨rfl, h2⟩ ih

theorem rel_erase {d : Dict V β} {d' : Dict V β'} (h : List.Forall₂ (fun e f => e.1 = f.1 ∧ R e.2 f.2) d d') (k : V) :
    List.Forall₂ (fun e f => e.1 = f.1 ∧ R e.2 f.2) (Dict.erase d k) (Dict.erase d' k) := by
  induction h with
  | nil => exact .nil
  | @cons a b l l' hab hl ih =>
    obtain ⟨a1, a2⟩ := a
    obtain ⟨b1, b2⟩ := b
    obtain ⟨h1, h2⟩ := hab
    simp only at h1
    subst h1
    rw [Dict.erase, Dict.erase]
    by_cases h : a1 = k
    · rw [if_pos h, if_pos h]; exact hl
    · rw [if_neg h, if_neg h]; exact .cons ⟨rfl, h2⟩ ih

theorem rel_keys {d : Dict V β} {d' : Dict V β'} (h : List.Forall₂ (fun e f => e.1 = f.1 ∧ R e.2 f.2) d d') :
    Dict.keys d = Dict.keys d' := by
  induction h with
  | nil => rfl
  | cons hab _ ih =>
    show _ :: _ = _ :: _
    rw [hab.1]
    congr 1

end Dicts

/-! ### The calls -/

section Calls

variable [DecidableEq V] {ρ : W → W' → Prop}

theorem rg_addVertex {g : Graph V W} {g' : Graph V W'} (h : RG ρ g g') (u : V) :
    RG ρ (addVertex g u) (addVertex g' u) := by
  have := rel_get h u
  rw [addVertex, addVertex]
  cases h1 : Dict.get? g u <;> cases h2 : Dict.get? g' u <;> rw [h1, h2] at this
  · exact rel_set h u .nil
  · cases this
  · cases this
  · exact h

theorem rg_deleteVertex {g : Graph V W} {g' : Graph V W'} (h : RG ρ g g') (u : V) :
    RG ρ (deleteVertex g u) (deleteVertex g' u) := by
  have := rel_get h u
  rw [deleteVertex, deleteVertex]
  cases h1 : Dict.get? g u <;> cases h2 : Dict.get? g' u <;> rw [h1, h2] at this
  · exact h
  · cases this
  · cases this
  · simp only [RG, List.forall₂_map_left_iff, List.forall₂_map_right_iff]
    refine List.Forall₂.imp ?_ (rel_erase h u)
    rintro ⟨a, N⟩ ⟨b, N'⟩ ⟨hab, hN⟩
    refine ⟨hab, ?_⟩
    have hk := rel_get hN u
    simp only at hk hN ⊢
    cases h3 : Dict.get? N u <;> cases h4 : Dict.get? N' u <;> rw [h3, h4] at hk
    · exact hN
    · cases hk
    · cases hk
    · exact rel_erase hN u

theorem rg_addHalf {g : Graph V W} {g' : Graph V W'} (h : RG ρ g g') (a b : V) {w : W} {w' : W'} (hw : ρ w w') :
    RG ρ (addHalf g a b w) (addHalf g' a b w') := by
  have := rel_get h a
  rw [addHalf, addHalf]
  cases h1 : Dict.get? g a <;> cases h2 : Dict.get? g' a <;> rw [h1, h2] at this
  · exact rel_set h a (.cons ⟨rfl, hw⟩ .nil)
  · cases this
  · cases this
  · cases this with
    | some this => exact rel_set h a (rel_set this b hw)

theorem rg_deleteHalf {g : Graph V W} {g' : Graph V W'} (h : RG ρ g g') (a b : V) :
    RG ρ (deleteHalf g a b) (deleteHalf g' a b) := by
  have := rel_get h a
  rw [deleteHalf, deleteHalf]
  cases h1 : Dict.get? g a <;> cases h2 : Dict.get? g' a <;> rw [h1, h2] at this
  · exact h
  · cases this
  · cases this
  · rename_i N N'
    cases this with
    | some this =>
      have hk := rel_get this b
      simp only
      cases h3 : Dict.get? N b <;> cases h4 : Dict.get? N' b <;> rw [h3, h4] at hk
      · exact h
      · cases hk
      · cases hk
      · exact rel_set h a (rel_erase this b)

end Calls

/-! ### The heap -/

section Heap

theorem rel_popMin {α α' β β' : Type} [LinearOrder β] [LinearOrder β'] {k : α → β} {k' : α' → β'} {R : α → α' → Prop}
    (hR : ∀ a a' b b', R a a' → R b b' → (k a < k b ↔ k' a' < k' b')) {l : List α} {l' : List α'}
    (h : List.Forall₂ R l l') :
    Option.Rel (fun x y => R x.1 y.1 ∧ List.Forall₂ R x.2 y.2) (popMin k l) (popMin k' l') := by
  induction h with
  | nil => exact .none
  | @cons a a' l l' hab hl ih =>
    rw [popMin, popMin]
    cases h1 : popMin k l <;> cases h2 : popMin k' l' <;> rw [h1, h2] at ih
    · exact .some ⟨hab, .nil⟩
    · cases ih
    · cases ih
    · rename_i x y
      cases ih with
      | some ih =>
        obtain ⟨b, r⟩ := x
        obtain ⟨b', r'⟩ := y
        simp only at ih ⊢
        have := hR _ _ _ _ ih.1 hab
        by_cases hlt : k b < k a
        · rw [if_pos hlt, if_pos (this.1 hlt)]
          exact .some ⟨ih.1, .cons hab ih.2⟩
        · rw [if_neg hlt, if_neg (fun h => hlt (this.2 h))]
          exact .some ⟨hab, hl⟩

variable [LinearOrder W] [LinearOrder W'] {ρ : W → W' → Prop}

theorem Ordered.eq_iff (h : Ordered ρ) {a b : W} {a' b' : W'} (h1 : ρ a a') (h2 : ρ b b') : a = b ↔ a' = b' := by
  rw [le_antisymm_iff, le_antisymm_iff, ← not_lt, ← not_lt, h _ _ _ _ h1 h2, h _ _ _ _ h2 h1, not_lt, not_lt]

/-- Related entries of a heap. -/
def RE {α : Type} (ρ : W → W' → Prop) (e : W × α) (f : W' × α) : Prop := ρ e.1 f.1 ∧ e.2 = f.2

theorem lex_iff {α : Type} [LinearOrder α] (h : Ordered ρ) {a b : W} {a' b' : W'} (h1 : ρ a a') (h2 : ρ b b') (x y : α) :
    toLex (a, x) < toLex (b, y) ↔ toLex (a', x) < toLex (b', y) := by
  rw [Prod.Lex.toLex_lt_toLex, Prod.Lex.toLex_lt_toLex, h _ _ _ _ h1 h2, h.eq_iff h1 h2]

theorem key2_iff [LinearOrder V] (h : Ordered ρ) (a : W × V) (a' : W' × V) (b : W × V) (b' : W' × V) (h1 : RE ρ a a')
    (h2 : RE ρ b b') : key2 a < key2 b ↔ key2 a' < key2 b' := by
  obtain ⟨a, x⟩ := a
  obtain ⟨b, y⟩ := b
  obtain ⟨a', x'⟩ := a'
  obtain ⟨b', y'⟩ := b'
  obtain ⟨h1, rfl⟩ := h1
  obtain ⟨h2, rfl⟩ := h2
  exact lex_iff h h1 h2 _ _

theorem keyE_iff [LinearOrder V] (h : Ordered ρ) (a : W × V × V) (a' : W' × V × V) (b : W × V × V) (b' : W' × V × V)
    (h1 : RE ρ a a') (h2 : RE ρ b b') : keyE a < keyE b ↔ keyE a' < keyE b' := by
  obtain ⟨a, x⟩ := a
  obtain ⟨b, y⟩ := b
  obtain ⟨a', x'⟩ := a'
  obtain ⟨b', y'⟩ := b'
  obtain ⟨h1, h⟩ := h1
  simp only at h
  subst h
  obtain ⟨h2, h⟩ := h2
  simp only at h
  subst h
  exact lex_iff h h1 h2 _ _

end Heap

/-! ### `prim` -/

section Prim

variable [LinearOrder V] [LinearOrder W] [LinearOrder W'] {ρ : W → W' → Prop}

/-- Related values of the dictionary `cost`. -/
def RT (ρ : W → W' → Prop) (c : WithTop W) (c' : WithTop W') : Prop :=
  (c = ⊤ ∧ c' = ⊤) ∨ ∃ (a : W) (a' : W'), c = (a : WithTop W) ∧ c' = (a' : WithTop W') ∧ ρ a a'

/-- Related dictionaries `cost` outside of the visited vertices. -/
def RD (ρ : W → W' → Prop) (vis : Finset V) (D : Dict V (WithTop W)) (D' : Dict V (WithTop W')) : Prop :=
  ∀ v, v ∉ vis → Option.Rel (RT ρ) (Dict.get? D v) (Dict.get? D' v)

theorem RT.flip {c : WithTop W} {c' : WithTop W'} (h : RT ρ c c') : RT (fun a b => ρ b a) c' c := by
  rcases h with h | ⟨a, a', h1, h2, h3⟩
  · exact .inl h.symm
  · exact .inr ⟨a', a, h2, h1, h3⟩

theorem RD.flip {vis : Finset V} {D : Dict V (WithTop W)} {D' : Dict V (WithTop W')} (h : RD ρ vis D D') :
    RD (fun a b => ρ b a) vis D' D := by
  intro v hv
  cases h1 : Dict.get? D v <;> cases h2 : Dict.get? D' v <;> have := h v hv <;> rw [h1, h2] at this
  · exact .none
  · cases this
  · cases this
  · cases this with
    | some this => exact .some this.flip

/-- The result of `primRelax` on related arguments. -/
inductive RelaxRel (ρ : W → W' → Prop) (vis : Finset V) :
    Except PyErr (Dict V (WithTop W) × Dict V (Option V) × List (W × V)) →
    Except PyErr (Dict V (WithTop W') × Dict V (Option V) × List (W' × V)) → Prop
  | error (e) : RelaxRel ρ vis (.error e) (.error e)
  | ok (D D' P H H') : RD ρ vis D D' → List.Forall₂ (RE ρ) H H' → RelaxRel ρ vis (.ok (D, P, H)) (.ok (D', P, H'))

theorem rel_primRelax (hρ : Ordered ρ) (u : V) (vis : Finset V) {N : Dict V W} {N' : Dict V W'} (hN : RN ρ N N') :
    ∀ {D : Dict V (WithTop W)} {D' : Dict V (WithTop W')} (P : Dict V (Option V)) {H : List (W × V)} {H' : List (W' × V)},
      RD ρ vis D D' → List.Forall₂ (RE ρ) H H' →
        RelaxRel ρ vis (primRelax u vis N D P H) (primRelax u vis N' D' P H') := by
  induction hN with
  | nil => intro D D' P H H' hD hH; exact .ok _ _ _ _ _ hD hH
  | @cons e f N N' he _ ih =>
    intro D D' P H H' hD hH
    obtain ⟨v, x⟩ := e
    obtain ⟨v', x'⟩ := f
    obtain ⟨h1, h2⟩ := he
    simp only at h1 h2
    subst h1
    rw [primRelax, primRelax]
    by_cases hv : v ∈ vis
    · rw [if_pos hv, if_pos hv]; exact ih P hD hH
    · rw [if_neg hv, if_neg hv]
      have hg := hD v hv
      cases h3 : Dict.get? D v <;> cases h4 : Dict.get? D' v <;> rw [h3, h4] at hg
      · exact .error _
      · cases hg
      · cases hg
      · rename_i c c'
        cases hg with
        | some hg =>
          simp only
          have hlt : (x : WithTop W) < c ↔ (x' : WithTop W') < c' := by
            rcases hg with ⟨rfl, rfl⟩ | ⟨a, a', rfl, rfl, ha⟩
            · simp
            · rw [WithTop.coe_lt_coe, WithTop.coe_lt_coe, hρ _ _ _ _ h2 ha]
          by_cases hc : (x : WithTop W) < c
          · rw [if_pos hc, if_pos (hlt.1 hc)]
            refine ih _ (fun w hw => ?_) (.cons ⟨h2, rfl⟩ hH)
            rw [Dict.get?_set, Dict.get?_set]
            by_cases hvw : v = w
            · rw [if_pos hvw, if_pos hvw]; exact .some (.inr ⟨_, _, rfl, rfl, h2⟩)
            · rw [if_neg hvw, if_neg hvw]; exact hD w hw
          · rw [if_neg hc, if_neg (fun h => hc (hlt.2 h))]
            exact ih P hD hH

theorem RD.mono {vis vis' : Finset V} (hs : vis ⊆ vis') {D : Dict V (WithTop W)} {D' : Dict V (WithTop W')} (h : RD ρ vis D D') :
    RD ρ vis' D D' := fun v hv => h v (fun h => hv (hs h))

theorem primLoop_imp (hρ : Ordered ρ) {g : Graph V W} {g' : Graph V W'} (hg : RG ρ g g')
    {D : Dict V (WithTop W)} {D' : Dict V (WithTop W')} {P : Dict V (Option V)} {H : List (W × V)} {H' : List (W' × V)}
    {vis : Finset V} {r : Except PyErr (Dict V (Option V))} (hD : RD ρ vis D D') (hH : List.Forall₂ (RE ρ) H H')
    (h : primLoop g D P H vis = some r) : primLoop g' D' P H' vis = some r := by
  refine primLoop.partial_correctness g (motive := fun D P H vis r => ∀ D' H', RD ρ vis D D' → List.Forall₂ (RE ρ) H H' →
    primLoop g' D' P H' vis = some r) ?_ D P H vis r h D' H' hD hH
  clear h hD hH D D' P H H' vis r
  intro loop ih D P H vis r h D' H' hD hH
  have hp := rel_popMin (key2_iff hρ) hH
  rw [primLoop]
  cases h1 : popMin key2 H <;> cases h2 : popMin key2 H' <;> rw [h1, h2] at hp
  · rw [h1] at h
    exact h
  · cases hp
  · cases hp
  · rename_i x y
    obtain ⟨⟨w, u⟩, K⟩ := x
    obtain ⟨⟨w', u'⟩, K'⟩ := y
    cases hp with
    | some hp =>
      obtain ⟨⟨-, hu⟩, hK⟩ := hp
      simp only at hu hK
      subst hu
      rw [h1] at h
      simp only at h ⊢
      by_cases hv : u ∈ vis
      · rw [if_pos hv] at h ⊢
        exact ih _ _ _ _ _ h _ _ hD hK
      · rw [if_neg hv] at h ⊢
        have hu := rel_get hg u
        cases h3 : Dict.get? g u <;> cases h4 : Dict.get? g' u <;> rw [h3, h4] at hu
        · rw [h3] at h
          exact h
        · cases hu
        · cases hu
        · rename_i N N'
          cases hu with
          | some hu =>
            rw [h3] at h
            simp only at h ⊢
            have hr := rel_primRelax hρ u (insert u vis) hu P (hD.mono (Finset.subset_insert u vis)) hK
            generalize primRelax u (insert u vis) N D P K = s at h hr
            generalize primRelax u (insert u vis) N' D' P K' = s' at hr
            cases hr with
            | error e => exact h
            | ok D D' P H H' hD hH => exact ih _ _ _ _ _ h _ _ hD hH

theorem primLoop_eq (hρ : Ordered ρ) {g : Graph V W} {g' : Graph V W'} (hg : RG ρ g g')
    {D : Dict V (WithTop W)} {D' : Dict V (WithTop W')} (P : Dict V (Option V)) {H : List (W × V)} {H' : List (W' × V)}
    {vis : Finset V} (hD : RD ρ vis D D') (hH : List.Forall₂ (RE ρ) H H') :
    primLoop g D P H vis = primLoop g' D' P H' vis := by
  cases h : primLoop g D P H vis with
  | some r => exact (primLoop_imp hρ hg hD hH h).symm
  | none =>
    cases h' : primLoop g' D' P H' vis with
    | none => rfl
    | some r =>
      rw [primLoop_imp hρ.flip hg.flip hD.flip (hH.flip.imp fun _ _ h => ⟨h.1, h.2.symm⟩) h'] at h
      cases h

variable [Add W] [Zero W] [Add W'] [Zero W']

theorem primStart_eq (hρ : Ordered ρ) {g : Graph V W} {g' : Graph V W'} (hg : RG ρ g g') (root : V) (P : Dict V (Option V)) :
    primLoop g (Dict.set (g.map (fun e => (e.1, ⊤))) root ((0 : W) : WithTop W)) P [(0, root)] ∅ =
      primLoop g' (Dict.set (g'.map (fun e => (e.1, ⊤))) root ((0 : W') : WithTop W')) P [(0, root)] ∅ := by
  have hD : RD ρ {root} (Dict.set (g.map (fun e => (e.1, ⊤))) root ((0 : W) : WithTop W))
      (Dict.set (g'.map (fun e => (e.1, ⊤))) root ((0 : W') : WithTop W')) := by
    intro v hv
    rw [Finset.mem_singleton] at hv
    rw [Dict.get?_set, Dict.get?_set, if_neg (Ne.symm hv), if_neg (Ne.symm hv)]
    refine rel_get ?_ v
    simp only [List.forall₂_map_left_iff, List.forall₂_map_right_iff]
    exact List.Forall₂.imp (fun _ _ h => ⟨h.1, .inl ⟨rfl, rfl⟩⟩) hg
  rw [primLoop, primLoop]
  simp only [popMin, Finset.notMem_empty, if_false, insert_empty_eq]
  have hu := rel_get hg root
  cases h3 : Dict.get? g root <;> cases h4 : Dict.get? g' root <;> rw [h3, h4] at hu
  · cases hu
  · cases hu
  · rename_i N N'
    cases hu with
    | some hu =>
      simp only
      have hr := rel_primRelax hρ root {root} hu P hD List.Forall₂.nil
      generalize primRelax root {root} N _ P [] = s at hr ⊢
      generalize primRelax root {root} N' _ P [] = s' at hr ⊢
      cases hr with
      | error e => rfl
      | ok D D' P H H' hD hH => exact primLoop_eq hρ hg P hD hH

/-- The results: the same error, or the same list of edges, with related sums. -/
inductive RR {α : Type} (I : ℕ → W → W' → Prop) (len : α → ℕ) : Except PyErr (W × α) → Except PyErr (W' × α) → Prop
  | error (e) : RR I len (.error e) (.error e)
  | ok (t t' l) : I (len l) t t' → RR I len (.ok (t, l)) (.ok (t', l))

theorem rel_collect {I : ℕ → W → W' → Prop} (hI : ∀ k t t' w w', I k t t' → ρ w w' → I (k + 1) (t + w) (t' + w'))
    {g : Graph V W} {g' : Graph V W'} (hg : RG ρ g g') (P : Dict V (Option V)) :
    ∀ (t : W) (t' : W') (edges : List (V × V)), I edges.length t t' →
      RR I List.length (collect g P t edges) (collect g' P t' edges) := by
  induction P with
  | nil => intro t t' edges h; exact .ok _ _ _ h
  | cons e P ih =>
    intro t t' edges h
    obtain ⟨u, o⟩ := e
    cases o with
    | none => rw [collect, collect]; exact ih _ _ _ h
    | some v =>
      rw [collect, collect]
      have hu := rel_get hg u
      cases h3 : Dict.get? g u <;> cases h4 : Dict.get? g' u <;> rw [h3, h4] at hu
      · exact .error _
      · cases hu
      · cases hu
      · rename_i N N'
        cases hu with
        | some hu =>
          have hv := rel_get hu v
          simp only [Option.bind_some]
          cases h5 : Dict.get? N v <;> cases h6 : Dict.get? N' v <;> rw [h5, h6] at hv
          · exact .error _
          · cases hv
          · cases hv
          · cases hv with
            | some hv => exact ih _ _ _ (by rw [List.length_append]; exact hI _ _ _ _ _ h hv)

theorem rel_primCore {I : ℕ → W → W' → Prop} (hI : ∀ k t t' w w', I k t t' → ρ w w' → I (k + 1) (t + w) (t' + w'))
    (h0 : I 0 0 0) (hρ : Ordered ρ) {g : Graph V W} {g' : Graph V W'} (hg : RG ρ g g') (root : Option V) :
    Option.Rel (RR I (fun x => x.1.length)) (primCore g root) (primCore g' root) := by
  have hr : primRoot g root = primRoot g' root := by
    cases root with
    | some r => rfl
    | none => rw [primRoot, primRoot, rel_keys hg]
  rw [primCore, primCore, hr]
  cases primRoot g' root with
  | error e => exact .some (.error _)
  | ok root =>
    have hP : (g.map (fun e => (e.1, none)) : Dict V (Option V)) = g'.map (fun e => (e.1, none)) := by
      have := rel_keys hg
      rw [Dict.keys, Dict.keys] at this
      have := congrArg (List.map fun v => (v, (none : Option V))) this
      rw [List.map_map, List.map_map] at this
      exact this
    simp only
    rw [primStart_eq hρ hg, hP]
    cases primLoop g' _ _ _ _ with
    | none => exact .none
    | some r =>
      cases r with
      | error e => exact .some (.error _)
      | ok P =>
        simp only
        have := rel_collect hI hg P 0 0 [] h0
        generalize collect g P 0 [] = s at this ⊢
        generalize collect g' P 0 [] = s' at this ⊢
        cases this with
        | error e => exact .some (.error _)
        | ok t t' l hl => exact .some (.ok _ _ _ hl)

theorem sortPairs_length (l : List (V × V)) : (sortPairs l).length = l.length := by
  exact (pySort_perm _ _).length_eq

theorem rel_prim {I : ℕ → W → W' → Prop} (hI : ∀ k t t' w w', I k t t' → ρ w w' → I (k + 1) (t + w) (t' + w'))
    (h0 : I 0 0 0) (hρ : Ordered ρ) {g : Graph V W} {g' : Graph V W'} (hg : RG ρ g g') (root : Option V) :
    Option.Rel (RR I List.length) (prim g root) (prim g' root) := by
  have := rel_primCore hI h0 hρ hg root
  rw [prim, prim]
  generalize primCore g root = s at this ⊢
  generalize primCore g' root = s' at this ⊢
  cases this with
  | none => exact .none
  | some h =>
    cases h with
    | error e => exact .some (.error _)
    | ok t t' l hl => exact .some (.ok _ _ _ (by rw [sortPairs_length]; exact hl))

theorem rel_primLinks {I : ℕ → W → W' → Prop} (hI : ∀ k t t' w w', I k t t' → ρ w w' → I (k + 1) (t + w) (t' + w'))
    (h0 : I 0 0 0) (hρ : Ordered ρ) {g : Graph V W} {g' : Graph V W'} (hg : RG ρ g g') (root : Option V) :
    Option.Rel (RR (fun _ _ _ => True) List.length) (primLinks g root) (primLinks g' root) := by
  have := rel_primCore hI h0 hρ hg root
  rw [primLinks, primLinks]
  generalize primCore g root = s at this ⊢
  generalize primCore g' root = s' at this ⊢
  cases this with
  | none => exact .none
  | some h =>
    cases h with
    | error e => exact .some (.error _)
    | ok t t' l hl => exact .some (.ok _ _ _ trivial)

/-! ### `kruskal` -/

theorem rel_edgeTuples {g : Graph V W} {g' : Graph V W'} (hg : RG ρ g g') :
    List.Forall₂ (RE ρ) (edgeTuples g) (edgeTuples g') := by
  induction hg with
  | nil => exact .nil
  | @cons e f g g' he _ ih =>
    rw [edgeTuples, edgeTuples, List.flatMap_cons, List.flatMap_cons]
    refine List.rel_append ?_ ih
    simp only [List.forall₂_map_left_iff, List.forall₂_map_right_iff]
    exact List.Forall₂.imp (fun a b h => ⟨h.2, by rw [he.1, h.1]⟩) he.2

theorem kruskalLoop_imp {I : ℕ → W → W' → Prop} (hI : ∀ k t t' w w', I k t t' → ρ w w' → I (k + 1) (t + w) (t' + w'))
    (hρ : Ordered ρ) {n : ℕ} {H : List (W × V × V)} {H' : List (W' × V × V)} {X : UF V} {t : W} {t' : W'}
    {tree : List (V × V)} {num : ℕ} {r : Except PyErr (W × List (V × V))} (hH : List.Forall₂ (RE ρ) H H')
    (ht : I tree.length t t') (h : kruskalLoop n H X t tree num = some r) :
    ∃ r', kruskalLoop n H' X t' tree num = some r' ∧ RR I List.length r r' := by
  refine kruskalLoop.partial_correctness n (motive := fun H X t tree num r => ∀ H' t', List.Forall₂ (RE ρ) H H' →
    I tree.length t t' → ∃ r', kruskalLoop n H' X t' tree num = some r' ∧ RR I List.length r r') ?_ H X t tree num r h H' t' hH ht
  clear h hH ht H H' X t t' tree num r
  intro loop ih H X t tree num r h H' t' hH ht
  rw [kruskalLoop]
  by_cases hn : num + 1 < n
  · rw [if_pos hn] at h ⊢
    have hp := rel_popMin (keyE_iff hρ) hH
    cases h1 : popMin keyE H <;> cases h2 : popMin keyE H' <;> rw [h1, h2] at hp
    · rw [h1] at h
      simp only [Option.some.injEq] at h
      subst h
      exact ⟨_, rfl, .error _⟩
    · cases hp
    · cases hp
    · rename_i x y
      obtain ⟨⟨w, u, v⟩, K⟩ := x
      obtain ⟨⟨w', uv⟩, K'⟩ := y
      cases hp with
      | some hp =>
        obtain ⟨⟨hw, hu⟩, hK⟩ := hp
        simp only at hu hK hw
        subst hu
        rw [h1] at h
        simp only at h ⊢
        cases hf : X.find u with
        | none => rw [hf] at h; cases h
        | some s =>
          rw [hf] at h
          cases s with
          | error e => cases h; exact ⟨_, rfl, .error _⟩
          | ok s =>
            obtain ⟨a, X⟩ := s
            simp only at h ⊢
            cases hf' : X.find v with
            | none => rw [hf'] at h; cases h
            | some s =>
              rw [hf'] at h
              cases s with
              | error e => cases h; exact ⟨_, rfl, .error _⟩
              | ok s =>
                obtain ⟨b, X⟩ := s
                simp only at h ⊢
                by_cases hab : a ≠ b
                · rw [if_pos hab] at h ⊢
                  cases hu : X.union u v with
                  | error e => rw [hu] at h; cases h; exact ⟨_, rfl, .error _⟩
                  | ok X =>
                    rw [hu] at h
                    exact ih _ _ _ _ _ _ h _ _ hK (by rw [List.length_append]; exact hI _ _ _ _ _ ht hw)
                · rw [if_neg hab] at h ⊢
                  exact ih _ _ _ _ _ _ h _ _ hK ht
  · rw [if_neg hn] at h ⊢
    cases h
    exact ⟨_, rfl, .ok _ _ _ (by rw [sortPairs_length]; exact ht)⟩

theorem rel_kruskal {I : ℕ → W → W' → Prop} (hI : ∀ k t t' w w', I k t t' → ρ w w' → I (k + 1) (t + w) (t' + w'))
    (h0 : I 0 0 0) (hρ : Ordered ρ) {g : Graph V W} {g' : Graph V W'} (hg : RG ρ g g') :
    Option.Rel (RR I List.length) (kruskal g) (kruskal g') := by
  have hk : Dict.keys g = Dict.keys g' := rel_keys hg
  rw [kruskal, kruskal, vertexSet, vertexSet, ← hk]
  have hH := rel_edgeTuples hg
  cases h : kruskalLoop (Dict.keys g).toFinset.card (edgeTuples g) (UF.init (Dict.keys g)) 0 [] 0 with
  | some r =>
    obtain ⟨r', h1, h2⟩ := kruskalLoop_imp (tree := []) hI hρ hH h0 h
    rw [h1]
    exact .some h2
  | none =>
    cases h' : kruskalLoop (Dict.keys g).toFinset.card (edgeTuples g') (UF.init (Dict.keys g)) 0 [] 0 with
    | none => exact .none
    | some r =>
      obtain ⟨r', h1, -⟩ := kruskalLoop_imp (I := fun k a b => I k b a) (tree := []) (fun k t t' w w' h1 h2 => hI k t' t w' w h1 h2)
        hρ.flip (hH.flip.imp fun _ _ h => ⟨h.1, h.2.symm⟩) h0 h'
      rw [h1] at h
      cases h

end Prim

/-! ### `cheriton_tarjan` -/

section Queues

open LeftistHeap

variable {α α' : Type} [LinearOrder α] [LinearOrder α'] {R : α → α' → Prop}

/-- Related trees. -/
inductive RTree {α α' : Type} (R : α → α' → Prop) : Tree α → Tree α' → Prop
  | leaf : RTree R .leaf .leaf
  | node {v v' k l l' r r'} : R v v' → RTree R l l' → RTree R r r' → RTree R (.node v k l r) (.node v' k l' r')

omit [LinearOrder α] [LinearOrder α'] in
theorem RTree.flip {t : Tree α} {t' : Tree α'} (h : RTree R t t') : RTree (fun a b => R b a) t' t := by
  induction h with
  | leaf => exact .leaf
  | node h _ _ h1 h2 => exact .node h h1 h2

omit [LinearOrder α] [LinearOrder α'] in
theorem RTree.rank {t : Tree α} {t' : Tree α'} (h : RTree R t t') : t.rank = t'.rank := by
  cases h <;> rfl

omit [LinearOrder α] [LinearOrder α'] in
theorem rel_attach {a : α} {a' : α'} (ha : R a a') {l c : Tree α} {l' c' : Tree α'} (hl : RTree R l l') (hc : RTree R c c') :
    RTree R (attach a l c) (attach a' l' c') := by
  have h2 := hc.rank
  cases hl with
  | leaf => exact .node ha hc .leaf
  | @node v v' k x x' y y' h3 h4 h5 =>
    rw [attach, attach, h2]
    · by_cases h : c'.rank ≤ k
      · rw [if_pos (show c'.rank ≤ (Tree.node v k x y).rank from h), if_pos (show c'.rank ≤ (Tree.node v' k x' y').rank from h)]
        exact .node ha (.node h3 h4 h5) hc
      · rw [if_neg (show ¬ c'.rank ≤ (Tree.node v k x y).rank from h), if_neg (show ¬ c'.rank ≤ (Tree.node v' k x' y').rank from h)]
        exact .node ha hc (.node h3 h4 h5)
    · intro h; cases h
    · intro h; cases h

theorem rel_merge (hR : ∀ a a' b b', R a a' → R b b' → (a < b ↔ a' < b')) :
    ∀ (n : ℕ) {s t : Tree α} {s' t' : Tree α'}, s.size + t.size ≤ n → RTree R s s' → RTree R t t' →
      RTree R (merge s t) (merge s' t') := by
  intro n
  induction n with
  | zero =>
    intro s t s' t' hn hs ht
    cases hs with
    | leaf => rw [merge, merge]; exact ht
    | node => simp [Tree.size] at hn
  | succ n ih =>
    intro s t s' t' hn hs ht
    cases hs with
    | leaf => rw [merge, merge]; exact ht
    | @node x x' kx lx lx' rx rx' hx hlx hrx =>
      cases ht with
      | leaf =>
        rw [merge.eq_def, merge.eq_def]
        exact .node hx hlx hrx
      | @node y y' ky ly ly' ry ry' hy hly hry =>
        have hxy := hR _ _ _ _ hy hx
        simp only [Tree.size] at hn
        rw [merge_node, merge_node]
        by_cases h : x > y
        · rw [if_pos h, if_pos (show x' > y' from hxy.1 h)]
          refine rel_attach hy hly (ih ?_ hry (.node hx hlx hrx))
          simp only [Tree.size]; omega
        · rw [if_neg h, if_neg (fun h' => h (hxy.2 h'))]
          refine rel_attach hx hlx (ih ?_ hrx (.node hy hly hry))
          simp only [Tree.size]; omega

/-- Related heaps. -/
def RHeap {α α' : Type} (R : α → α' → Prop) (h : Heap α) (h' : Heap α') : Prop := RTree R h.root h'.root ∧ h.size = h'.size

/-- Related results of `LeftistHeap.__init__`. -/
inductive RInit {β β' : Type} (S : β → β' → Prop) : Except PyErr β → Except PyErr β' → Prop
  | error (e) : RInit S (.error e) (.error e)
  | ok {x x'} : S x x' → RInit S (.ok x) (.ok x')

theorem rel_build (hR : ∀ a a' b b', R a a' → R b b' → (a < b ↔ a' < b')) (n : ℕ) :
    ∀ {nodes : List (Tree α)} {nodes' : List (Tree α')} (size : ℕ) {last : Option (Tree α)} {last' : Option (Tree α')},
      List.Forall₂ (RTree R) nodes nodes' → Option.Rel (RTree R) last last' →
      RInit (fun x y => Option.Rel (RTree R) x.1 y.1 ∧ x.2 = y.2) (build n nodes size last) (build n nodes' size last') := by
  induction n with
  | zero =>
    intro nodes nodes' size last last' _ hl
    rw [build.eq_def, build.eq_def]
    exact .ok ⟨hl, rfl⟩
  | succ n ih =>
    intro nodes nodes' size last last' hn hl
    rw [build.eq_def, build.eq_def]
    simp only
    by_cases h : n + 1 > 1
    · rw [dif_pos h, dif_pos h]
      cases hn with
      | nil => exact .error _
      | cons h1 hn =>
        cases hn with
        | nil => exact .error _
        | cons h2 hn =>
          simp only [Nat.add_sub_cancel]
          have hm := rel_merge hR _ le_rfl h1 h2
          exact ih _ (List.rel_append hn (.cons hm .nil)) (.some hm)
    · rw [dif_neg h, dif_neg h]
      exact .ok ⟨hl, rfl⟩

theorem rel_init (hR : ∀ a a' b b', R a a' → R b b' → (a < b ↔ a' < b')) {l : List α} {l' : List α'}
    (h : List.Forall₂ R l l') : RInit (RHeap R) (init l) (init l') := by
  have hb := rel_build hR l.length (nodes := l.map Tree.single) (nodes' := l'.map Tree.single) 0 (last := none) (last' := none)
    (by
      simp only [List.forall₂_map_left_iff, List.forall₂_map_right_iff]
      exact h.imp fun a b hab => .node hab .leaf .leaf) .none
  rw [LeftistHeap.init, LeftistHeap.init, ← h.length_eq]
  generalize build l.length (l.map Tree.single) 0 none = s at hb ⊢
  generalize build l.length (l'.map Tree.single) 0 none = s' at hb ⊢
  cases hb with
  | error e => exact .error _
  | @ok x x' hx =>
    obtain ⟨x, m⟩ := x
    obtain ⟨x', m'⟩ := x'
    obtain ⟨h1, h2⟩ := hx
    simp only at h1 h2
    subst h2
    cases h1 with
    | none => exact .error _
    | some h1 => exact .ok ⟨h1, rfl⟩

theorem rel_deleteMin (hR : ∀ a a' b b', R a a' → R b b' → (a < b ↔ a' < b')) {h : Heap α} {h' : Heap α'} (hh : RHeap R h h') :
    Option.Rel R h.deleteMin.1 h'.deleteMin.1 ∧ RHeap R h.deleteMin.2 h'.deleteMin.2 := by
  obtain ⟨t, n⟩ := h
  obtain ⟨t', n'⟩ := h'
  obtain ⟨h1, h2⟩ := hh
  simp only at h1 h2
  subst h2
  cases h1 with
  | leaf => exact ⟨.none, .leaf, rfl⟩
  | node hv hl hr => exact ⟨.some hv, rel_merge hR _ le_rfl hl hr, rfl⟩

end Queues

section Ct

variable [LinearOrder V] [LinearOrder W] [LinearOrder W'] {ρ : W → W' → Prop}

/-- Related entries `(weight, u, v)`. -/
def RK (ρ : W → W' → Prop) (x : W ×ₗ V ×ₗ V) (y : W' ×ₗ V ×ₗ V) : Prop := ρ (ofLex x).1 (ofLex y).1 ∧ (ofLex x).2 = (ofLex y).2

theorem rk_iff (hρ : Ordered ρ) (a : W ×ₗ V ×ₗ V) (a' : W' ×ₗ V ×ₗ V) (b : W ×ₗ V ×ₗ V) (b' : W' ×ₗ V ×ₗ V) (h1 : RK ρ a a')
    (h2 : RK ρ b b') : a < b ↔ a' < b' := by
  obtain ⟨h1, e1⟩ := h1
  obtain ⟨h2, e2⟩ := h2
  have := lex_iff hρ h1 h2 (ofLex a).2 (ofLex b).2
  conv at this => rhs; rw [e1, e2]
  exact this

/-- Related dictionaries `PQ`. -/
def RQ (ρ : W → W' → Prop) : Dict V (EdgeHeap V W) → Dict V (EdgeHeap V W') → Prop :=
  List.Forall₂ (fun e f => e.1 = f.1 ∧ RHeap (RK ρ) e.2 f.2)

theorem rel_ctQueues (hρ : Ordered ρ) {g : Graph V W} {g' : Graph V W'} (hg : RG ρ g g') (us : List V) :
    ∀ {Q : Dict V (EdgeHeap V W)} {Q' : Dict V (EdgeHeap V W')}, RQ ρ Q Q' → RInit (RQ ρ) (ctQueues g us Q) (ctQueues g' us Q') := by
  induction us with
  | nil => intro Q Q' h; exact .ok h
  | cons u us ih =>
    intro Q Q' hQ
    rw [ctQueues, ctQueues]
    have hu := rel_get hg u
    cases h3 : Dict.get? g u <;> cases h4 : Dict.get? g' u <;> rw [h3, h4] at hu
    · exact .error _
    · cases hu
    · cases hu
    · rename_i N N'
      cases hu with
      | some hu =>
        simp only
        have hi := rel_init (rk_iff hρ) (l := N.map (fun f => keyE (f.2, u, f.1))) (l' := N'.map (fun f => keyE (f.2, u, f.1)))
          (by
            simp only [List.forall₂_map_left_iff, List.forall₂_map_right_iff]
            refine List.Forall₂.imp (fun a b h => ⟨h.2, ?_⟩) hu
            simp only [keyE, ofLex_toLex, h.1])
        generalize LeftistHeap.init (N.map (fun f => keyE (f.2, u, f.1))) = s at hi ⊢
        generalize LeftistHeap.init (N'.map (fun f => keyE (f.2, u, f.1))) = s' at hi ⊢
        cases hi with
        | error e => exact .error _
        | ok hx => exact ih (rel_set hQ u hx)

/-- Related results of the loop `while True`. -/
def RInner (ρ : W → W' → Prop) (x : V × V × V × EdgeHeap V W × UF V) (y : V × V × V × EdgeHeap V W' × UF V) : Prop :=
  x.1 = y.1 ∧ x.2.1 = y.2.1 ∧ x.2.2.1 = y.2.2.1 ∧ RHeap (RK ρ) x.2.2.2.1 y.2.2.2.1 ∧ x.2.2.2.2 = y.2.2.2.2

theorem ctInner_imp (hρ : Ordered ρ) {Tu : V} {h : EdgeHeap V W} {h' : EdgeHeap V W'} {X : UF V}
    {r : Except PyErr (V × V × V × EdgeHeap V W × UF V)} (hh : RHeap (RK ρ) h h') (he : ctInner Tu h X = some r) :
    ∃ r', ctInner Tu h' X = some r' ∧ RInit (RInner ρ) r r' := by
  refine ctInner.partial_correctness Tu (motive := fun h X r => ∀ h', RHeap (RK ρ) h h' →
    ∃ r', ctInner Tu h' X = some r' ∧ RInit (RInner ρ) r r') ?_ h X r he h' hh
  clear he hh h h' X r
  intro loop ih h X r he h' hh
  rw [ctInner]
  obtain ⟨hd1, hd2⟩ := rel_deleteMin (rk_iff hρ) hh
  generalize h.deleteMin = d at hd1 hd2 he
  generalize h'.deleteMin = d' at hd1 hd2 ⊢
  obtain ⟨o, k⟩ := d
  obtain ⟨o', k'⟩ := d'
  simp only at hd1 hd2
  cases hd1 with
  | none => cases he; exact ⟨_, rfl, .error _⟩
  | @some a b hab =>
    simp only at he ⊢
    rw [← hab.2]
    cases hf : X.find (ofLex (ofLex a).2).1 with
    | none => rw [hf] at he; cases he
    | some s =>
      rw [hf] at he
      cases s with
      | error e => cases he; exact ⟨_, rfl, .error _⟩
      | ok s =>
        obtain ⟨Tx, X⟩ := s
        simp only at he ⊢
        cases hf' : X.find (ofLex (ofLex a).2).2 with
        | none => rw [hf'] at he; cases he
        | some s =>
          rw [hf'] at he
          cases s with
          | error e => cases he; exact ⟨_, rfl, .error _⟩
          | ok s =>
            obtain ⟨Ty, X⟩ := s
            simp only at he ⊢
            by_cases hxy : Tx = Ty
            · rw [if_pos hxy] at he ⊢
              exact ih _ _ _ he _ hd2
            · rw [if_neg hxy] at he ⊢
              cases he
              exact ⟨_, rfl, .ok ⟨rfl, rfl, rfl, hd2, rfl⟩⟩

theorem rel_ctUnite (hρ : Ordered ρ) (Tu Tv : V) {h : EdgeHeap V W} {h' : EdgeHeap V W'} (hh : RHeap (RK ρ) h h')
    {Q : Dict V (EdgeHeap V W)} {Q' : Dict V (EdgeHeap V W')} (hQ : RQ ρ Q Q') (X : UF V) :
    Option.Rel (RInit (fun x y => RQ ρ x.1 y.1 ∧ x.2 = y.2)) (ctUnite Tu Tv h Q X) (ctUnite Tu Tv h' Q' X) := by
  rw [ctUnite, ctUnite]
  cases X.union Tu Tv with
  | error e => exact .some (.error _)
  | ok X =>
    simp only
    cases X.find Tu with
    | none => exact .none
    | some s =>
      cases s with
      | error e => exact .some (.error _)
      | ok s =>
        obtain ⟨u, X⟩ := s
        simp only
        have hQ2 := rel_set hQ Tu hh
        generalize (if u ≠ Tu then u else Tu) = a
        generalize (if u ≠ Tu then Tu else Tv) = b
        have ha := rel_get hQ2 a
        have hb := rel_get hQ2 b
        cases h1 : Dict.get? (Dict.set Q Tu h) a <;> cases h2 : Dict.get? (Dict.set Q' Tu h') a <;> rw [h1, h2] at ha
        · exact .some (.error _)
        · cases ha
        · cases ha
        · cases h3 : Dict.get? (Dict.set Q Tu h) b <;> cases h4 : Dict.get? (Dict.set Q' Tu h') b <;> rw [h3, h4] at hb
          · exact .some (.error _)
          · cases hb
          · cases hb
          · cases ha with
            | some ha =>
              cases hb with
              | some hb =>
                exact .some (.ok ⟨rel_erase (rel_set hQ2 a ⟨rel_merge (rk_iff hρ) _ le_rfl ha.1 hb.1, by
                  simp only [LeftistHeap.Heap.mergeWith, ha.2, hb.2]⟩) b, rfl⟩)

theorem ctLoop_imp (hρ : Ordered ρ) {ch : ℕ → List V → V} {n : ℕ} {Q : Dict V (EdgeHeap V W)} {Q' : Dict V (EdgeHeap V W')}
    {X : UF V} {tree : List (V × V)} {num : ℕ} {r : Except PyErr (List (V × V))} (hQ : RQ ρ Q Q')
    (h : ctLoop ch n Q X tree num = some r) : ctLoop ch n Q' X tree num = some r := by
  refine ctLoop.partial_correctness ch n (motive := fun Q X tree num r => ∀ Q', RQ ρ Q Q' →
    ctLoop ch n Q' X tree num = some r) ?_ Q X tree num r h Q' hQ
  clear h hQ Q Q' X tree num r
  intro loop ih Q X tree num r h Q' hQ
  rw [ctLoop.eq_def]
  by_cases hn : num + 1 < n
  · rw [if_pos hn] at h ⊢
    rw [← rel_keys hQ]
    cases hk : Dict.keys Q with
    | nil => rw [hk] at h; exact h
    | cons k ks =>
      rw [hk] at h
      simp only at h ⊢
      cases hf : X.find (ch num (k :: ks)) with
      | none => rw [hf] at h; cases h
      | some s =>
        rw [hf] at h
        cases s with
        | error e => exact h
        | ok s =>
          obtain ⟨Tu, X⟩ := s
          simp only at h ⊢
          have hu := rel_get hQ Tu
          cases h3 : Dict.get? Q Tu <;> cases h4 : Dict.get? Q' Tu <;> rw [h3, h4] at hu
          · rw [h3] at h
            exact h
          · cases hu
          · cases hu
          · rename_i p p'
            cases hu with
            | some hu =>
              rw [h3] at h
              simp only at h ⊢
              cases hi : ctInner Tu p X with
              | none => rw [hi] at h; cases h
              | some s =>
                rw [hi] at h
                obtain ⟨s', hi', hs⟩ := ctInner_imp hρ hu hi
                rw [hi']
                cases hs with
                | error e => exact h
                | @ok z z' hxy =>
                  obtain ⟨x, y, Tv, p, X⟩ := z
                  obtain ⟨x', y', Tv', p', X'⟩ := z'
                  obtain ⟨e1, e2, e3, e4, e5⟩ := hxy
                  simp only at e1 e2 e3 e4 e5
                  subst e1 e2 e3 e5
                  simp only at h ⊢
                  have hu := rel_ctUnite hρ Tu Tv e4 hQ X
                  generalize ctUnite Tu Tv p Q X = s at h hu
                  generalize ctUnite Tu Tv p' Q' X = s' at hu ⊢
                  cases hu with
                  | none => cases h
                  | some hu =>
                    cases hu with
                    | error e => exact h
                    | @ok x y hxy =>
                      obtain ⟨Q, X⟩ := x
                      obtain ⟨Q', X'⟩ := y
                      obtain ⟨e1, e2⟩ := hxy
                      simp only at e1 e2
                      subst e2
                      exact ih _ _ _ _ _ h _ e1
  · rw [if_neg hn] at h ⊢
    exact h

theorem RQ.flip {Q : Dict V (EdgeHeap V W)} {Q' : Dict V (EdgeHeap V W')} (h : RQ ρ Q Q') : RQ (fun a b => ρ b a) Q' Q := by
  refine List.Forall₂.flip (List.Forall₂.imp (fun a b h => ⟨h.1.symm, ?_, h.2.2.symm⟩) h)
  have h1 := h.2.1.flip
  have : (fun (a : W' ×ₗ V ×ₗ V) (b : W ×ₗ V ×ₗ V) => RK ρ b a) = RK (fun a b => ρ b a) := by
    funext x y
    exact propext ⟨fun h => ⟨h.1, h.2.symm⟩, fun h => ⟨h.1, h.2.symm⟩⟩
  rw [this] at h1
  exact h1

theorem ctLoop_eq (hρ : Ordered ρ) (ch : ℕ → List V → V) (n : ℕ) {Q : Dict V (EdgeHeap V W)} {Q' : Dict V (EdgeHeap V W')}
    (X : UF V) (tree : List (V × V)) (num : ℕ) (hQ : RQ ρ Q Q') : ctLoop ch n Q X tree num = ctLoop ch n Q' X tree num := by
  cases h : ctLoop ch n Q X tree num with
  | some r => exact (ctLoop_imp hρ hQ h).symm
  | none =>
    cases h' : ctLoop ch n Q' X tree num with
    | none => rfl
    | some r => rw [ctLoop_imp hρ.flip hQ.flip h'] at h; cases h

variable [Add W] [Zero W] [Add W'] [Zero W']

theorem rel_ctTotal {I : ℕ → W → W' → Prop} (hI : ∀ k t t' w w', I k t t' → ρ w w' → I (k + 1) (t + w) (t' + w'))
    {g : Graph V W} {g' : Graph V W'} (hg : RG ρ g g') (l : List (V × V)) :
    ∀ (k : ℕ) (t : W) (t' : W'), I k t t' → RInit (I (k + l.length)) (ctTotal g l t) (ctTotal g' l t') := by
  induction l with
  | nil => intro k t t' h; exact .ok h
  | cons e l ih =>
    intro k t t' h
    rw [ctTotal, ctTotal]
    have hu := rel_get hg e.1
    cases h3 : Dict.get? g e.1 <;> cases h4 : Dict.get? g' e.1 <;> rw [h3, h4] at hu
    · exact .error _
    · cases hu
    · cases hu
    · rename_i N N'
      cases hu with
      | some hu =>
        have hv := rel_get hu e.2
        simp only [Option.bind_some]
        cases h5 : Dict.get? N e.2 <;> cases h6 : Dict.get? N' e.2 <;> rw [h5, h6] at hv
        · exact .error _
        · cases hv
        · cases hv
        · cases hv with
          | some hv =>
            have := ih (k + 1) _ _ (hI _ _ _ _ _ h hv)
            rw [List.length_cons, show k + (l.length + 1) = k + 1 + l.length by omega]
            exact this

theorem rel_cheritonTarjan {I : ℕ → W → W' → Prop} (hI : ∀ k t t' w w', I k t t' → ρ w w' → I (k + 1) (t + w) (t' + w'))
    (h0 : I 0 0 0) (hρ : Ordered ρ) {g : Graph V W} {g' : Graph V W'} (hg : RG ρ g g') (ch : ℕ → List V → V) :
    Option.Rel (RR I List.length) (cheritonTarjan ch g) (cheritonTarjan ch g') := by
  have hv : vertices g = vertices g' := by rw [vertices, vertices, rel_keys hg]
  rw [cheritonTarjan, cheritonTarjan, ← hv]
  have hq := rel_ctQueues hρ hg (vertices g) (Q := []) (Q' := []) .nil
  generalize ctQueues g (vertices g) [] = s at hq ⊢
  generalize ctQueues g' (vertices g) [] = s' at hq ⊢
  cases hq with
  | error e => exact .some (.error _)
  | @ok Q Q' hQ =>
    simp only
    rw [ctLoop_eq hρ ch _ _ _ _ hQ]
    generalize ctLoop ch (vertices g).length Q' (UF.init (vertices g)) [] 0 = r
    cases r with
    | none => exact .none
    | some r =>
      cases r with
      | error e => exact .some (.error _)
      | ok tree =>
        simp only
        have ht := rel_ctTotal hI hg tree 0 0 0 h0
        generalize ctTotal g tree 0 = s at ht ⊢
        generalize ctTotal g' tree 0 = s' at ht ⊢
        cases ht with
        | error e => exact .some (.error _)
        | ok ht => exact .some (.ok _ _ _ (by rw [sortPairs_length, ← Nat.zero_add tree.length]; exact ht))

end Ct

end Rosemary.WeightOrder
