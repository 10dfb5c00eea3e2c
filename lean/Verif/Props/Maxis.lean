import Verif.Model.Maxis
import Verif.Spec.Peeling
import Verif.Props.Korman
import Verif.Props.MaxCliques

/-!
# Properties of `maxis` (C109)

Graphs are those that any sequence of `Graph` operations builds.  The order of iteration of Python sets is the parameter
`ord`, the random choices are the parameter `pick`.
-/

namespace Rosemary.Props

open Rosemary.Graph Rosemary.Coloring Rosemary.Spec
open Rosemary.Traversal (E)

variable {V W : Type} [LinearOrder V]

/-- What `maxis` promises of the class `c` that it takes from the vertices `S`: there are still more than `color_limit`
vertices; the class is a nonempty independent set; it is a maximum one if at most `mis_limit` vertices are left, and
otherwise a maximal one if `use_greedy` is set. -/
def Allowed (L : V → V → Prop) (colorLimit misLimit : ℤ) (useGreedy : Bool) (S : Set V) (c : List V) : Prop :=
  colorLimit < S.ncard ∧ c.Nodup ∧ c ≠ [] ∧ IsIndependent S L c.toFinset ∧
    ((S.ncard : ℤ) ≤ misLimit → IsMaximumIndependent S L c.toFinset) ∧
    (misLimit < S.ncard → useGreedy = true → IsMaximalIndependent S L c.toFinset)

theorem independent_congr {S : Set V} {L L' : V → V → Prop} (h : ∀ u v, L' u v ↔ u ∈ S ∧ v ∈ S ∧ L u v) (C : Finset V) :
    IsIndependent S L' C ↔ IsIndependent S L C := by
  constructor
  · rintro ⟨h1, h2⟩
    exact ⟨h1, fun u hu v hv hne hl => h2 u hu v hv hne ((h u v).2 ⟨h1 u hu, h1 v hv, hl⟩)⟩
  · rintro ⟨h1, h2⟩
    exact ⟨h1, fun u hu v hv hne hl => h2 u hu v hv hne ((h u v).1 hl).2.2⟩

theorem finite_verts (ops : List (Op V W)) : (toAbs (history ops)).verts.Finite := by
  have : (toAbs (history ops)).verts = ((vertices (history ops)).toFinset : Set V) := by
    ext v
    rw [Finset.mem_coe, List.mem_toFinset, (vertices_spec (history_spec ops).1).2]
    rfl
  rw [this]
  exact Finset.finite_toSet _

theorem delete_spec (ops : List (Op V W)) (c : List V) :
    deleteVertices (history ops) c = history (ops ++ [Op.deleteVertices c]) ∧
    (toAbs (history (ops ++ [Op.deleteVertices c]))).verts = (toAbs (history ops)).verts \ {v | v ∈ c} ∧
    ∀ u v, Linked (history (ops ++ [Op.deleteVertices c])) u v ↔ u ∉ c ∧ v ∉ c ∧ Linked (history ops) u v := by
  have h0 : deleteVertices (history ops) c = history (ops ++ [Op.deleteVertices c]) := by
    rw [history, history, List.foldl_append]; rfl
  have h1 := toAbs_run (history_spec ops).1 (Op.deleteVertices c)
  have h2 : toAbs (history (ops ++ [Op.deleteVertices c])) = Op.meaning (toAbs (history ops)) (Op.deleteVertices c) := by
    rw [← h1, ← h0]; rfl
  refine ⟨h0, by rw [h2]; rfl, fun u v => ?_⟩
  rw [Linked, h2]
  show (∃ w, (if u ∈ c ∨ v ∈ c then none else (toAbs (history ops)).weight u v) = some w) ↔ _
  by_cases h : u ∈ c ∨ v ∈ c
  · rw [if_pos h]
    constructor
    · rintro ⟨w, hw⟩; cases hw
    · rintro ⟨h3, h4, -⟩; exact absurd h (by tauto)
  · rw [if_neg h]
    push Not at h
    exact ⟨fun hl => ⟨h.1, h.2, hl⟩, fun hl => hl.2.2⟩

/-- If `culberson` finds nothing, it finds nothing ever after. -/
theorem maxis_stuck {ord : Finset V → List V} {pick : ℕ → List V → List V → V} {colorLimit misLimit : ℤ}
    {useGreedy : Bool} {g : Graph V W} {n : ℤ} (hn : colorLimit < n)
    (h : ∀ i, Maxis.extract ord (pick i) misLimit useGreedy g n = .ok (0, [])) (cl : List (List V)) :
    Maxis.loop ord pick colorLimit misLimit useGreedy g n cl = none := by
  cases hl : Maxis.loop ord pick colorLimit misLimit useGreedy g n cl with
  | none => rfl
  | some r =>
    exfalso
    refine Maxis.loop.partial_correctness ord pick colorLimit misLimit useGreedy (fun g' n' _ _ => ¬ (g' = g ∧ n' = n)) ?_
      g n cl r hl ⟨rfl, rfl⟩
    rintro f ih g' n' cl' r' hr ⟨rfl, rfl⟩
    rw [if_pos hn, h] at hr
    refine ih _ _ _ _ hr ⟨rfl, ?_⟩
    simp

theorem extract_spec {ord : Finset V → List V} (hord : ∀ S, (ord S).Nodup ∧ ∀ x, x ∈ ord S ↔ x ∈ S)
    {pick : List V → List V → V} (hpick : ∀ acc l, l ≠ [] → pick acc l ∈ l) {colorLimit misLimit : ℤ}
    (hcl : 0 ≤ colorLimit) (useGreedy : Bool) (ops : List (Op V W))
    (hn : colorLimit < (toAbs (history ops)).verts.ncard) :
    (useGreedy = false ∧ misLimit < (toAbs (history ops)).verts.ncard ∧ (∀ u v, ¬ Linked (history ops) u v) ∧
      Maxis.extract ord pick misLimit useGreedy (history ops) (toAbs (history ops)).verts.ncard = .ok (0, [])) ∨
    ∃ c, Maxis.extract ord pick misLimit useGreedy (history ops) (toAbs (history ops)).verts.ncard = .ok (c.length, c) ∧
      Allowed (Linked (history ops)) colorLimit misLimit useGreedy (toAbs (history ops)).verts c := by
  obtain ⟨x, hx⟩ : (toAbs (history ops)).verts.Nonempty := by
    rw [Set.nonempty_iff_ne_empty]
    intro h
    rw [h, Set.ncard_empty] at hn
    exact absurd hn (by simpa using hcl)
  have hsingle : IsIndependent (toAbs (history ops)).verts (Linked (history ops)) {x} :=
    ⟨by simpa using hx, by
      intro u hu v hv hne
      rw [Finset.mem_singleton] at hu hv
      exact absurd (hu.trans hv.symm) hne⟩
  rw [Maxis.extract]
  by_cases hm : misLimit < ((toAbs (history ops)).verts.ncard : ℤ)
  · rw [if_pos hm]
    cases useGreedy with
    | true =>
      right
      rw [if_pos rfl]
      obtain ⟨l, h1, h2, h3⟩ := C93_greedy ord hord pick hpick ops
      refine ⟨l, h1, hn, h2.imp (fun h => ne_of_lt h), ?_, h3.1, fun h => absurd h (by omega), fun _ _ => h3⟩
      rintro rfl
      have := h3.2 {x} hsingle (by simp)
      simp at this
    | false =>
      rw [if_neg (by simp)]
      obtain ⟨l, h1, h2, h3, h4⟩ := C93_culberson_partial ord hord ops
      by_cases hl : l = []
      · left
        refine ⟨rfl, hm, fun u v h => h4.2 ⟨u, v, h⟩ hl, ?_⟩
        rw [h1, hl]; rfl
      · right
        exact ⟨l, h1, hn, h2, hl, h3, fun h => absurd h (by omega), fun _ h => by cases h⟩
  · rw [if_neg hm]
    right
    obtain ⟨⟨k, l⟩, h1, h2, h3, h4⟩ := C73_branch_and_bound ops
    dsimp only at h2 h3 h4
    subst h3
    refine ⟨l, h1, hn, h2, ?_, h4.1, fun _ => h4, fun h => absurd h hm⟩
    rintro rfl
    have := h4.2 {x} hsingle
    simp at this

theorem maxis_loop_spec {ord : Finset V → List V} (hord : ∀ S, (ord S).Nodup ∧ ∀ x, x ∈ ord S ↔ x ∈ S)
    {pick : ℕ → List V → List V → V} (hpick : ∀ i acc l, l ≠ [] → pick i acc l ∈ l) {colorLimit misLimit : ℤ}
    (hcl : 0 ≤ colorLimit) (useGreedy : Bool) (L : V → V → Prop) (N : ℕ) :
    ∀ (ops : List (Op V W)) (cl : List (List V)), (toAbs (history ops)).verts.ncard = N →
      (∀ u v, Linked (history ops) u v ↔ u ∈ (toAbs (history ops)).verts ∧ v ∈ (toAbs (history ops)).verts ∧ L u v) →
      ∃ cs R, Peels (Allowed L colorLimit misLimit useGreedy) (toAbs (history ops)).verts cs R ∧
        ((Maxis.loop ord pick colorLimit misLimit useGreedy (history ops) (toAbs (history ops)).verts.ncard cl = none ∧
          useGreedy = false ∧ colorLimit < R.ncard ∧ misLimit < R.ncard ∧ ∀ u ∈ R, ∀ v ∈ R, ¬ L u v) ∨
        ((R.ncard : ℤ) ≤ colorLimit ∧ ∃ ops', Maxis.loop ord pick colorLimit misLimit useGreedy (history ops)
            (toAbs (history ops)).verts.ncard cl = some (.ok (history ops', R.ncard, cl ++ cs)) ∧
          (toAbs (history ops')).verts = R ∧ ∀ u v, Linked (history ops') u v ↔ u ∈ R ∧ v ∈ R ∧ L u v)) := by
  induction N using Nat.strong_induction_on with
  | _ N ih =>
    intro ops cl hN hL
    by_cases hn : colorLimit < ((toAbs (history ops)).verts.ncard : ℤ)
    · rcases extract_spec hord (hpick cl.length) hcl useGreedy (misLimit := misLimit) ops hn with
        ⟨h1, h2, h3, -⟩ | ⟨c, h1, h2⟩
      · refine ⟨[], _, .done _, Or.inl ⟨maxis_stuck hn (fun i => ?_) cl, h1, hn, h2, ?_⟩⟩
        · rcases extract_spec hord (hpick i) hcl useGreedy (misLimit := misLimit) ops hn with h | ⟨c, h4, h5⟩
          · exact h.2.2.2
          · obtain ⟨l, k1, -, -, k2⟩ := C93_culberson_partial ord hord ops
            have hl : l = [] := by
              by_contra hl
              obtain ⟨u, v, h⟩ := k2.1 hl
              exact h3 u v h
            rw [Maxis.extract, if_pos h2, h1, if_neg (by simp), k1, hl]
            rfl
        · intro u hu v hv h
          exact h3 u v ((hL u v).2 ⟨hu, hv, h⟩)
      · obtain ⟨d1, d2, d3⟩ := delete_spec ops c
        have hcongr := independent_congr hL
        have hall : Allowed L colorLimit misLimit useGreedy (toAbs (history ops)).verts c := by
          obtain ⟨a1, a2, a3, a4, a5, a6⟩ := h2
          refine ⟨a1, a2, a3, (hcongr _).1 a4, fun h => ?_, fun h h' => ?_⟩
          · obtain ⟨b1, b2⟩ := a5 h
            exact ⟨(hcongr _).1 b1, fun D hD => b2 D ((hcongr _).2 hD)⟩
          · obtain ⟨b1, b2⟩ := a6 h h'
            exact ⟨(hcongr _).1 b1, fun D hD => b2 D ((hcongr _).2 hD)⟩
        have hsub : (c.toFinset : Set V) ⊆ (toAbs (history ops)).verts := fun v hv => hall.2.2.2.1.1 v hv
        have hset : {v | v ∈ c} = (c.toFinset : Set V) := by ext v; simp
        have hcard : (toAbs (history (ops ++ [Op.deleteVertices c]))).verts.ncard + c.length =
            (toAbs (history ops)).verts.ncard := by
          rw [d2, hset, ← List.toFinset_card_of_nodup hall.2.1, ← Set.ncard_coe_finset]
          exact Set.ncard_diff_add_ncard_of_subset hsub (finite_verts ops)
        have hpos : 0 < c.length := List.length_pos_of_ne_nil hall.2.2.1
        obtain ⟨cs, R, r1, r2⟩ := ih _ (by omega) (ops ++ [Op.deleteVertices c]) (cl ++ [c]) rfl (by
          intro u v
          rw [d3, hL, d2]
          simp only [Set.mem_diff, Set.mem_setOf_eq]
          tauto)
        have hstep : Maxis.loop ord pick colorLimit misLimit useGreedy (history ops)
            (toAbs (history ops)).verts.ncard cl = Maxis.loop ord pick colorLimit misLimit useGreedy
            (history (ops ++ [Op.deleteVertices c])) (toAbs (history (ops ++ [Op.deleteVertices c]))).verts.ncard
            (cl ++ [c]) := by
          conv_lhs => rw [Maxis.loop]
          rw [if_pos hn, h1]
          dsimp only
          rw [d1]
          congr 1
          omega
        rw [d2] at r1
        refine ⟨c :: cs, R, .step _ _ _ _ hall r1, ?_⟩
        rw [hstep]
        rcases r2 with r2 | ⟨r3, ops', r4, r5⟩
        · exact Or.inl r2
        · exact Or.inr ⟨r3, ops', by rw [r4, List.append_assoc]; rfl, r5⟩
    · refine ⟨[], _, .done _, Or.inr ⟨by omega, ops, ?_, rfl, hL⟩⟩
      rw [Maxis.loop, if_neg hn, List.append_nil]

/-! ## Putting the classes together -/

theorem peels_partition {L : V → V → Prop} {colorLimit misLimit : ℤ} {useGreedy : Bool} {S R : Set V}
    {cs : List (List V)} (h : Peels (Allowed L colorLimit misLimit useGreedy) S cs R) :
    R ⊆ S ∧ ∀ {k cl}, IsPartition R L k cl → IsPartition S L (cs.length + k) (cs ++ cl) := by
  induction h with
  | done S =>
    refine ⟨subset_rfl, fun {k cl} h => ?_⟩
    simpa using h
  | step S c cs R hc _ ih =>
    obtain ⟨-, a2, a3, ⟨a4, a5⟩, -⟩ := hc
    refine ⟨ih.1.trans Set.diff_subset, fun {k cl} h => ?_⟩
    have hi := ih.2 h
    have hverts : ∀ v, v ∈ (cs ++ cl).flatten ↔ v ∈ S ∧ v ∉ c := by
      intro v
      rw [hi.verts]
      simp
    refine ⟨?_, ?_, ?_, ?_, ?_⟩
    · have := hi.length
      rw [List.cons_append, List.length_cons, List.length_cons, this]
      omega
    · rw [List.cons_append, List.flatten_cons]
      exact List.nodup_append'.2 ⟨a2, hi.nodup, fun v hv hv' => ((hverts v).1 hv').2 hv⟩
    · intro v
      rw [List.cons_append, List.flatten_cons, List.mem_append, hverts]
      constructor
      · rintro (hv | hv)
        · exact a4 v (List.mem_toFinset.2 hv)
        · exact hv.1
      · intro hv
        by_cases hvc : v ∈ c
        · exact Or.inl hvc
        · exact Or.inr ⟨hv, hvc⟩
    · intro l hl
      rcases List.mem_cons.1 hl with rfl | hl
      · exact a3
      · exact hi.nonempty l hl
    · intro l hl u hu v hv hL
      rcases List.mem_cons.1 hl with rfl | hl
      · by_contra hne
        exact a5 u (List.mem_toFinset.2 hu) v (List.mem_toFinset.2 hv) hne hL
      · exact hi.independent l hl u hu v hv hL

/-- The entries of a color map made from a list of vertices with one color. -/
theorem fold_color (i : ℕ) (c : List V) : ∀ (m : Dict V ℕ), Dict.WF m → c.Nodup → (∀ v ∈ c, v ∉ Dict.keys m) →
    c.foldl (fun m u => Dict.set m u i) m = m ++ c.map (fun u => (u, i)) := by
  induction c with
  | nil => intro m _ _ _; simp
  | cons u c ih =>
    intro m hm hnd hk
    rw [List.foldl_cons]
    have hset : ∀ (m : Dict V ℕ), u ∉ Dict.keys m → Dict.set m u i = m ++ [(u, i)] := by
      intro m
      induction m with
      | nil => intro _; rfl
      | cons e m ihm =>
        intro h
        obtain ⟨a, b⟩ := e
        simp only [Dict.keys, List.map_cons, List.mem_cons, not_or] at h
        rw [Dict.set, if_neg (Ne.symm h.1), ihm h.2]
        rfl
    rw [ih _ (hm.set _ _) (List.nodup_cons.1 hnd).2, hset m (hk u List.mem_cons_self)]
    · simp
    · intro v hv h
      rcases Dict.mem_keys_set.1 h with rfl | h
      · exact (List.nodup_cons.1 hnd).1 hv
      · exact hk v (List.mem_cons_of_mem _ hv) h

theorem colorMap_spec (cl : List (List V)) : ∀ (i : ℕ) (m : Dict V ℕ), Dict.WF m → cl.flatten.Nodup →
    (∀ v ∈ cl.flatten, v ∉ Dict.keys m) →
    ∃ m', Maxis.colorMap cl i m = m ++ m' ∧ m'.map Prod.fst = cl.flatten ∧
      ∀ v j, (v, j) ∈ m' ↔ ∃ h : j - i < cl.length, i ≤ j ∧ v ∈ cl[j - i] := by
  induction cl with
  | nil =>
    intro i m _ _ _
    exact ⟨[], by simp [Maxis.colorMap], rfl, by simp⟩
  | cons c cl ih =>
    intro i m hm hnd hk
    rw [List.flatten_cons] at hnd hk
    obtain ⟨n1, n2, n3⟩ := List.nodup_append'.1 hnd
    have hf := fold_color i c m hm n1 (fun v hv => hk v (List.mem_append_left _ hv))
    have hwf : ∀ (c : List V) (m : Dict V ℕ), Dict.WF m → Dict.WF (c.foldl (fun m u => Dict.set m u i) m) := by
      intro c
      induction c with
      | nil => intro m h; exact h
      | cons u c ihc => intro m h; exact ihc _ (h.set _ _)
    obtain ⟨m', h1, h2, h3⟩ := ih (i + 1) _ (hwf c m hm) n2 (by
      intro v hv h
      rw [hf, Dict.keys, List.map_append, List.mem_append] at h
      rcases h with h | h
      · exact hk v (List.mem_append_right _ hv) h
      · rw [List.map_map] at h
        obtain ⟨u, hu, rfl⟩ := List.mem_map.1 h
        exact n3 hu hv)
    refine ⟨c.map (fun u => (u, i)) ++ m', ?_, ?_, ?_⟩
    · rw [Maxis.colorMap, h1, hf, List.append_assoc]
    · rw [List.map_append, h2, List.map_map, List.flatten_cons]
      congr 1
      simp [Function.comp_def]
    · intro v j
      rw [List.mem_append, h3, List.mem_map]
      constructor
      · rintro (⟨u, hu, he⟩ | ⟨h4, h5, h6⟩)
        · obtain ⟨rfl, rfl⟩ := Prod.mk.inj he
          exact ⟨by simp, le_rfl, by simpa using hu⟩
        · have e : j - i = (j - (i + 1)) + 1 := by omega
          refine ⟨by rw [e, List.length_cons]; omega, by omega, ?_⟩
          simp only [e, List.getElem_cons_succ]
          exact h6
      · rintro ⟨h4, h5, h6⟩
        rcases eq_or_lt_of_le h5 with rfl | h5
        · left
          exact ⟨v, by simpa using h6, rfl⟩
        · right
          have e : j - i = (j - (i + 1)) + 1 := by omega
          simp only [e, List.getElem_cons_succ, List.length_cons] at h4 h6
          exact ⟨by omega, h5, h6⟩

/-- The color map of a partition is a coloring. -/
theorem colorMap_coloring {S : Set V} {L : V → V → Prop} {k : ℕ} {cl : List (List V)} (h : IsPartition S L k cl) :
    IsColoring S L 0 k (Maxis.colorMap cl 0 []) ∧
      ∀ i (hi : i < cl.length) v, v ∈ cl[i] ↔ (v, i) ∈ Maxis.colorMap cl 0 [] := by
  obtain ⟨m, h1, h2, h3⟩ := colorMap_spec cl 0 [] (by simp [Dict.WF, Dict.keys]) h.nodup (by simp [Dict.keys])
  rw [List.nil_append] at h1
  rw [h1]
  simp only [Nat.sub_zero, Nat.zero_le, true_and] at h3
  refine ⟨⟨by rw [h2]; exact h.nodup, fun v => by rw [h2, h.verts], ?_, ?_, ?_⟩, ?_⟩
  · intro v c hc
    obtain ⟨hl, -⟩ := (h3 v c).1 hc
    have := h.length
    omega
  · intro c _ hc
    have hl : c < cl.length := by have := h.length; omega
    obtain ⟨v, hv⟩ := List.exists_mem_of_ne_nil _ (h.nonempty cl[c] (List.getElem_mem hl))
    exact ⟨v, (h3 v c).2 ⟨hl, hv⟩⟩
  · rintro u c v d hu hv hL hne rfl
    obtain ⟨hl, hu⟩ := (h3 u c).1 hu
    obtain ⟨_, hv⟩ := (h3 v c).1 hv
    exact hne (h.independent _ (List.getElem_mem hl) u hu v hv hL)
  · intro i hi v
    rw [h3]
    exact ⟨fun hv => ⟨hi, hv⟩, fun hv => hv.2⟩

/-- C109: `maxis` with a `color_limit` that is not negative takes classes from the graph as long as more than
`color_limit` vertices are left.  Each class is a nonempty independent set of the vertices that are left, a maximum one
if there are at most `mis_limit` of them, and otherwise a maximal one if `use_greedy` is set.

If no vertex is left, or if the vertices that are left have all a neighbor among them, or are pairwise adjacent, then
`maxis` returns these classes, followed by as many classes as the chromatic number of what is left, and this is a
partition of all vertices into independent sets; `classes=False` gives the corresponding color map.

It can also happen that the call does not end, but only if `use_greedy` is not set and there are left more than
`color_limit` and more than `mis_limit` vertices without any edges.

What is missing of C109 is false: see the theorems below.  Graphs with loops are not treated. -/
theorem C109_maxis_partial (ord : Finset V → List V) (hord : ∀ S, (ord S).Nodup ∧ ∀ x, x ∈ ord S ↔ x ∈ S)
    (pick : ℕ → List V → List V → V) (hpick : ∀ i acc l, l ≠ [] → pick i acc l ∈ l) (colorLimit misLimit : ℤ)
    (hcl : 0 ≤ colorLimit) (useGreedy : Bool) (ops : List (Op V W)) (hloop : ∀ v, ¬ Linked (history ops) v v) :
    ∃ cs R, Peels (Allowed (Linked (history ops)) colorLimit misLimit useGreedy) (toAbs (history ops)).verts cs R ∧
      ((useGreedy = false ∧ colorLimit < R.ncard ∧ misLimit < R.ncard ∧ (∀ u ∈ R, ∀ v ∈ R, ¬ Linked (history ops) u v) ∧
        ∀ classes, maxis ord pick (history ops) classes colorLimit misLimit useGreedy = none) ∨
      ((R.ncard : ℤ) ≤ colorLimit ∧
        ((∀ u ∈ R, ∃ v ∈ R, Linked (history ops) u v) ∨
          (∀ u ∈ R, ∀ v ∈ R, u ≠ v → Linked (history ops) u v) →
        ∃ k rest m, maxis ord pick (history ops) true colorLimit misLimit useGreedy =
            some (.ok (cs.length + k, .classes (cs ++ rest))) ∧
          maxis ord pick (history ops) false colorLimit misLimit useGreedy =
            some (.ok (cs.length + k, .colorMap m)) ∧
          IsPartition R (Linked (history ops)) k rest ∧
          (∀ f : V → ℕ, (∀ u ∈ R, ∀ v ∈ R, Linked (history ops) u v → f u ≠ f v) → k ≤ (f '' R).ncard) ∧
          IsPartition (toAbs (history ops)).verts (Linked (history ops)) (cs.length + k) (cs ++ rest) ∧
          IsColoring (toAbs (history ops)).verts (Linked (history ops)) 0 (cs.length + k) m ∧
          ∀ i (h : i < (cs ++ rest).length) v, v ∈ (cs ++ rest)[i] ↔ (v, i) ∈ m))) := by
  have hcard : ((vertexSet (history ops)).card : ℤ) = (toAbs (history ops)).verts.ncard := by
    rw [← Set.ncard_coe_finset]
    congr 2
    ext v
    simp [vertexSet, toAbs]
  obtain ⟨cs, R, h1, h2⟩ := maxis_loop_spec hord hpick hcl useGreedy (misLimit := misLimit) (Linked (history ops)) _ ops []
    rfl (by
      intro u v
      refine ⟨fun h => ⟨?_, ?_, h⟩, fun h => h.2.2⟩
      · have := linked_symm ops u v h
        rw [← E_eq] at this
        exact mem_of_mem_nbrs (history_spec ops).1 this
      · rw [← E_eq] at h
        exact mem_of_mem_nbrs (history_spec ops).1 h)
  obtain ⟨hRS, hpart⟩ := peels_partition h1
  refine ⟨cs, R, h1, ?_⟩
  rcases h2 with ⟨h2, h3, h4, h5, h6⟩ | ⟨h2, ops', h3, h4, h5⟩
  · refine Or.inl ⟨h3, h4, h5, h6, fun classes => ?_⟩
    rw [maxis, hcard, h2]
  · refine Or.inr ⟨h2, fun hR => ?_⟩
    have hmain : ∃ k rest, IsPartition R (Linked (history ops)) k rest ∧
        (∀ f : V → ℕ, (∀ u ∈ R, ∀ v ∈ R, Linked (history ops) u v → f u ≠ f v) → k ≤ (f '' R).ncard) ∧
        ∀ classes, maxis ord pick (history ops) classes colorLimit misLimit useGreedy =
          some (.ok (Maxis.result classes (cs.length + k) (cs ++ rest))) := by
      by_cases hn : R.ncard = 0
      · have hfin : R.Finite := (finite_verts ops).subset hRS
        have hem : R = ∅ := (Set.ncard_eq_zero hfin).1 hn
        refine ⟨0, [], ⟨rfl, by simp, by simp [hem], by simp, by simp⟩, by simp, fun classes => ?_⟩
        rw [maxis, hcard, h3]
        dsimp only
        rw [if_neg (by simp [hn]), List.nil_append, List.append_nil, Nat.add_zero]
      · have hne : R.Nonempty := by
          rw [Set.nonempty_iff_ne_empty]
          rintro rfl
          exact hn (Set.ncard_empty _)
        obtain ⟨k, m, cl, k1, k2, k3, k4, k5, -⟩ := C108_exact_coloring_partial ord hord ops' (by rw [h4]; exact hne)
          (fun v h => hloop v ((h5 v v).1 h).2.2) (by
            rw [h4]
            rcases hR with hR | hR
            · left
              intro u hu
              obtain ⟨v, hv, hl⟩ := hR u hu
              exact ⟨v, (h5 u v).2 ⟨hu, hv, hl⟩⟩
            · right
              intro u hu v hv huv
              exact (h5 u v).2 ⟨hu, hv, hR u hu v hv huv⟩)
        rw [h4] at k5
        refine ⟨k, cl, ⟨k5.length, k5.nodup, k5.verts, k5.nonempty, ?_⟩, ?_, fun classes => ?_⟩
        · intro l hl u hu v hv hL
          have hmem : ∀ w ∈ l, w ∈ R := fun w hw => (k5.verts w).1 (List.mem_flatten.2 ⟨l, hl, hw⟩)
          exact k5.independent l hl u hu v hv ((h5 u v).2 ⟨hmem u hu, hmem v hv, hL⟩)
        · intro f hf
          rw [← h4]
          refine k3.2 f ?_
          intro u hu v hv hL _
          rw [h5] at hL
          exact hf u hL.1 v hL.2.1 hL.2.2
        · rw [maxis, hcard, h3]
          dsimp only
          rw [if_pos (by simpa using hn), k2]
          dsimp only
          rw [List.nil_append]
    obtain ⟨k, rest, k1, k2, k3⟩ := hmain
    have hp := hpart k1
    obtain ⟨c1, c2⟩ := colorMap_coloring hp
    exact ⟨k, rest, _, k3 true, k3 false, k1, k2, hp, c1, c2⟩

/-- C109: with `color_limit=0`, and either `use_greedy` or at most `mis_limit` vertices, `maxis` always ends and returns
a partition of the vertices into independent sets, and the corresponding color map. -/
theorem C109_maxis_zero_limit (ord : Finset V → List V) (hord : ∀ S, (ord S).Nodup ∧ ∀ x, x ∈ ord S ↔ x ∈ S)
    (pick : ℕ → List V → List V → V) (hpick : ∀ i acc l, l ≠ [] → pick i acc l ∈ l) (misLimit : ℤ) (useGreedy : Bool)
    (ops : List (Op V W)) (hloop : ∀ v, ¬ Linked (history ops) v v)
    (hlim : useGreedy = true ∨ ((toAbs (history ops)).verts.ncard : ℤ) ≤ misLimit) :
    ∃ k cl m, maxis ord pick (history ops) true 0 misLimit useGreedy = some (.ok (k, .classes cl)) ∧
      maxis ord pick (history ops) false 0 misLimit useGreedy = some (.ok (k, .colorMap m)) ∧
      IsPartition (toAbs (history ops)).verts (Linked (history ops)) k cl ∧
      IsColoring (toAbs (history ops)).verts (Linked (history ops)) 0 k m ∧
      ∀ i (h : i < cl.length) v, v ∈ cl[i] ↔ (v, i) ∈ m := by
  obtain ⟨cs, R, h1, h2⟩ := C109_maxis_partial ord hord pick hpick 0 misLimit le_rfl useGreedy ops hloop
  have hsub := (peels_partition h1).1
  rcases h2 with ⟨h2, -, h3, -⟩ | ⟨h2, h3⟩
  · exfalso
    rcases hlim with h | h
    · rw [h2] at h; cases h
    · have := Set.ncard_le_ncard hsub (finite_verts ops)
      omega
  · have hem : R = ∅ := (Set.ncard_eq_zero ((finite_verts ops).subset hsub)).1 (by omega)
    obtain ⟨k, rest, m, k1, k2, -, -, k3, k4, k5⟩ := h3 (Or.inl (by simp [hem]))
    exact ⟨_, _, _, k1, k2, k3, k4, k5⟩

/-- C109 fails for graphs without edges, with the default `color_limit=58`: between 2 and `color_limit` vertices, `maxis`
raises UnboundLocalError. -/
theorem C109_edgeless_error_violation (ord : Finset V → List V)
    (hord : ∀ S, (ord S).Nodup ∧ ∀ x, x ∈ ord S ↔ x ∈ S) (pick : ℕ → List V → List V → V) (colorLimit misLimit : ℤ)
    (useGreedy classes : Bool) (ops : List (Op V W)) (he : ∀ u v, ¬ Linked (history ops) u v)
    (h2 : 2 ≤ (toAbs (history ops)).verts.ncard) (hc : ((toAbs (history ops)).verts.ncard : ℤ) ≤ colorLimit) :
    maxis ord pick (history ops) classes colorLimit misLimit useGreedy = some (.error .unboundLocalError) := by
  have hcard : ((vertexSet (history ops)).card : ℤ) = (toAbs (history ops)).verts.ncard := by
    rw [← Set.ncard_coe_finset]
    congr 2
    ext v
    simp [vertexSet, toAbs]
  obtain ⟨w, hw, x, hx, hwx⟩ := (Set.one_lt_ncard (hs := finite_verts ops)).1 h2
  rw [maxis, hcard, Maxis.loop, if_neg (by omega)]
  dsimp only
  rw [if_pos (by omega), C108_isolated_error_violation ord hord ops (fun v => he v v) w x hw hx hwx (he w)
    (fun u _ v _ _ h => absurd h.choose_spec (he u _))]

/-- C109 fails for graphs without edges that have more than `mis_limit` and more than `color_limit` vertices: without
`use_greedy` the call does not end, because `culberson` finds the empty set again and again. -/
theorem C109_edgeless_endless_violation (ord : Finset V → List V)
    (hord : ∀ S, (ord S).Nodup ∧ ∀ x, x ∈ ord S ↔ x ∈ S) (pick : ℕ → List V → List V → V) (colorLimit misLimit : ℤ)
    (classes : Bool) (ops : List (Op V W)) (he : ∀ u v, ¬ Linked (history ops) u v)
    (h1 : misLimit < ((toAbs (history ops)).verts.ncard : ℤ)) (hc : colorLimit < ((toAbs (history ops)).verts.ncard : ℤ)) :
    maxis ord pick (history ops) classes colorLimit misLimit false = none := by
  have hcard : ((vertexSet (history ops)).card : ℤ) = (toAbs (history ops)).verts.ncard := by
    rw [← Set.ncard_coe_finset]
    congr 2
    ext v
    simp [vertexSet, toAbs]
  rw [maxis, hcard, maxis_stuck hc]
  intro i
  obtain ⟨l, k1, -, -, k2⟩ := C93_culberson_partial ord hord ops
  have hl : l = [] := by
    by_contra hl
    obtain ⟨u, v, h⟩ := k2.1 hl
    exact he u v h
  rw [Maxis.extract, if_pos h1, if_neg (by simp), k1, hl]
  rfl

/-- C109 fails for a negative `color_limit`: on the graph without vertices the call does not end. -/
theorem C109_negative_limit_violation (ord : Finset V → List V) (pick : ℕ → List V → List V → V)
    (colorLimit misLimit : ℤ) (hc : colorLimit < 0) (useGreedy classes : Bool) :
    maxis ord pick ([] : Graph V W) classes colorLimit misLimit useGreedy = none := by
  have h0 : ((vertexSet ([] : Graph V W)).card : ℤ) = 0 := rfl
  rw [maxis, h0, maxis_stuck hc]
  intro i
  rw [Maxis.extract]
  split_ifs <;> rfl

/-- The wheel with the center 5 and the rim 0, ..., 4. -/
def wheelOps : List (Op ℕ ℤ) := [Op.addEdges [(0, 1, 1), (1, 2, 1), (2, 3, 1), (3, 4, 1), (4, 0, 1), (5, 0, 1), (5, 1, 1),
  (5, 2, 1), (5, 3, 1), (5, 4, 1)]]

example : IndependentSets.branchAndBound (history wheelOps) = .ok (2, [0, 2]) := by decide +kernel

example : maxis (fun S => (List.range 8).filter (· ∈ S)) (fun _ _ l => l.headD 0) (history wheelOps) false 0 100 false =
    some (.ok (4, .colorMap [(0, 0), (2, 0), (3, 1), (1, 1), (4, 2), (5, 3)])) := by
  rw [maxis, Maxis.loop, if_pos (by decide)]
  rw [show Maxis.extract _ _ _ _ (history wheelOps) _ = .ok (2, [0, 2]) by rfl]
  dsimp only
  rw [Maxis.loop, if_pos (by decide)]
  rw [show Maxis.extract _ _ _ _ _ _ = .ok (2, [3, 1]) by rfl]
  dsimp only
  rw [Maxis.loop, if_pos (by decide)]
  rw [show Maxis.extract _ _ _ _ _ _ = .ok (1, [4]) by rfl]
  dsimp only
  rw [Maxis.loop, if_pos (by decide)]
  rw [show Maxis.extract _ _ _ _ _ _ = .ok (1, [5]) by rfl]
  dsimp only
  rw [Maxis.loop, if_neg (by decide)]
  rfl

end Rosemary.Props
