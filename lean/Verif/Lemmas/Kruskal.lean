import Verif.Lemmas.Prim
import Verif.Lemmas.UnionFind

/-!
# Lemmas on `kruskal`
-/

namespace Rosemary.SpanningTrees

open Graph Paths Spec

variable {V W : Type} [LinearOrder V] [AddCommMonoid W] [LinearOrder W] [IsOrderedCancelAddMonoid W]

/-- What holds between the rounds of `kruskal`. -/
structure KInv (g : Graph V W) (H : List (W × V × V)) (X : UnionFind.UF V) (L : List (V × V)) (total : W) (tree : List (V × V))
    (num : ℕ) : Prop where
  uf : UnionFind.Inv (Dict.keys g) X L
  iff : ∀ a b, UnionFind.Linked L a b ↔ Joined tree.toFinset a b
  nodup : tree.Nodup
  len : tree.length = num
  edge : ∀ a b, (a, b) ∈ tree.toFinset → a < b ∧ a ∈ vertexSet g ∧ b ∈ vertexSet g ∧ ∃ w, adj g a b = some w
  total : total = totalWeight (adj g) tree.toFinset
  safe : Safe (adj g) (vertexSet g) tree.toFinset
  classes : ∃ R ⊆ vertexSet g, R.card + num = (vertexSet g).card ∧ ∀ v ∈ vertexSet g, ∃ r ∈ R, Joined tree.toFinset v r
  heap : ∀ e ∈ H, adj g e.2.1 e.2.2 = some e.1
  rest : ∀ u v w, adj g u v = some w → (w, u, v) ∈ H ∨ Joined tree.toFinset u v

omit [AddCommMonoid W] [LinearOrder W] [IsOrderedCancelAddMonoid W] in
theorem mem_vertexSet {g : Graph V W} {u : V} : u ∈ vertexSet g ↔ Mem g u := List.mem_toFinset

/-- The class of a vertex. -/
def cls (T : Finset (V × V)) (v : V) : Set V := {x | Joined T v x}

theorem cls_eq {T : Finset (V × V)} {a b : V} : cls T a = cls T b ↔ Joined T a b := by
  constructor
  · intro h
    have : b ∈ cls T a := by rw [h]; exact Joined.refl _ _
    exact this
  · intro h
    ext x
    exact ⟨fun h' => h.symm.trans h', fun h' => h.trans h'⟩

theorem KInv.skip {g : Graph V W} {H H' : List (W × V × V)} {X X' : UnionFind.UF V} {L : List (V × V)} {total : W}
    {tree : List (V × V)} {num : ℕ} (h : KInv g H X L total tree num) {w : W} {u v : V} (hp : H.Perm ((w, u, v) :: H'))
    (hX : UnionFind.Inv (Dict.keys g) X' L) (huv : Joined tree.toFinset u v) : KInv g H' X' L total tree num := by
  refine ⟨hX, h.iff, h.nodup, h.len, h.edge, h.total, h.safe, h.classes,
    fun e he => h.heap e (hp.mem_iff.2 (List.mem_cons_of_mem _ he)), fun a b w' hw' => ?_⟩
  rcases h.rest a b w' hw' with h1 | h1
  · rcases List.mem_cons.1 (hp.mem_iff.1 h1) with e | h1
    · simp only [Prod.mk.injEq] at e
      rw [e.2.1, e.2.2]
      exact Or.inr huv
    · exact Or.inl h1
  · exact Or.inr h1

theorem KInv.add {g : Graph V W} (hg : Good g) {H H' : List (W × V × V)} {X X' : UnionFind.UF V} {L : List (V × V)} {total : W}
    {tree : List (V × V)} {num : ℕ} (h : KInv g H X L total tree num) {w : W} {u v : V} (hp : H.Perm ((w, u, v) :: H'))
    (hmin : ∀ e ∈ H, keyE (w, u, v) ≤ keyE e)
    (hX : UnionFind.Inv (Dict.keys g) X' ((u, v) :: L)) (huv : ¬ Joined tree.toFinset u v) :
    KInv g H' X' ((u, v) :: L) (total + w) (tree ++ [pair u v]) (num + 1) := by
  have hne : u ≠ v := fun e => huv (e ▸ Joined.refl _ _)
  have hw : adj g u v = some w := h.heap _ (hp.mem_iff.2 List.mem_cons_self)
  have huC : u ∈ vertexSet g := mem_vertexSet.2 (mem_of_adj hw)
  have hvC : v ∈ vertexSet g := mem_vertexSet.2 (hg.mem_right hw)
  have hins : (tree ++ [pair u v]).toFinset = insert (pair u v) tree.toFinset := by
    ext x; simp [or_comm]
  have hnew : pair u v ∉ tree.toFinset := by
    intro hmem
    rcases pair_cases hne with ⟨-, h2⟩ | ⟨-, h2⟩ <;> rw [h2] at hmem
    · exact huv (Joined.of_mem hmem)
    · exact huv (Joined.of_mem hmem).symm
  have hj : ∀ a b, Joined (insert (pair u v) tree.toFinset) a b ↔ Joined tree.toFinset a b ∨
      (Joined tree.toFinset a u ∧ Joined tree.toFinset v b) ∨ (Joined tree.toFinset a v ∧ Joined tree.toFinset u b) := by
    intro a b
    rcases pair_cases hne with ⟨-, h2⟩ | ⟨-, h2⟩ <;> rw [h2, joined_insert]
    rw [or_congr_right or_comm]
  have hle : ∀ e ∈ H, w ≤ e.1 := by
    intro e he
    have := hmin e he
    rw [keyE, keyE, Prod.Lex.toLex_le_toLex] at this
    rcases this with h | ⟨h, -⟩
    · exact h.le
    · exact h.le
  have hsub : tree.toFinset ⊆ insert (pair u v) tree.toFinset := Finset.subset_insert _ _
  refine ⟨hX, ?_, ?_, by rw [List.length_append, h.len]; rfl, ?_, ?_, ?_, ?_,
    fun e he => h.heap e (hp.mem_iff.2 (List.mem_cons_of_mem _ he)), ?_⟩
  · intro a b
    rw [UnionFind.linked_cons, hins, hj, h.iff, h.iff, h.iff, h.iff, h.iff]
  · rw [List.nodup_append]
    refine ⟨h.nodup, List.nodup_singleton _, ?_⟩
    rintro a ha b hb rfl
    rw [List.mem_singleton] at hb
    exact hnew (hb ▸ List.mem_toFinset.2 ha)
  · intro a b hab
    rw [hins] at hab
    rcases Finset.mem_insert.1 hab with e | hab
    · rcases pair_cases hne with ⟨h1, h2⟩ | ⟨h1, h2⟩ <;> rw [h2] at e <;> injection e with e1 e2 <;> subst e1 e2
      · exact ⟨h1, huC, hvC, w, hw⟩
      · exact ⟨h1, hvC, huC, w, by rw [hg.symm]; exact hw⟩
    · exact h.edge a b hab
  · rw [hins, totalWeight, Finset.sum_insert hnew, weight_pair hg, hw, Option.getD_some, h.total, add_comm]
    rfl
  · rw [hins]
    have hc : ∀ a b, (a, b) ∈ tree.toFinset → cls tree.toFinset a = cls tree.toFinset b := fun a b hab => cls_eq.2 (Joined.of_mem hab)
    have hm : ∀ a b w', a < b → adj g a b = some w' → cls tree.toFinset a ≠ cls tree.toFinset b → w ≤ w' := by
      intro a b w' _ hw' hne
      rcases h.rest a b w' hw' with h1 | h1
      · exact hle _ h1
      · exact absurd (cls_eq.2 h1) hne
    have hne' : cls tree.toFinset u ≠ cls tree.toFinset v := fun e => huv (cls_eq.1 e)
    rcases pair_cases hne with ⟨h1, h2⟩ | ⟨h1, h2⟩ <;> rw [h2]
    · exact h.safe.add (cls tree.toFinset) hc h1 huC hvC hw hne' hm
    · exact h.safe.add (cls tree.toFinset) hc h1 hvC huC (by rw [hg.symm]; exact hw) hne'.symm hm
  · obtain ⟨R, hR, hcard, hrep⟩ := h.classes
    obtain ⟨r, hr, hur⟩ := hrep u huC
    obtain ⟨r', hr', hvr⟩ := hrep v hvC
    have hrr : r' ≠ r := by
      rintro rfl
      exact huv (hur.trans hvr.symm)
    refine ⟨R.erase r, (Finset.erase_subset _ _).trans hR, ?_, fun x hx => ?_⟩
    · have := Finset.card_erase_add_one hr
      omega
    · obtain ⟨t, ht, hxt⟩ := hrep x hx
      rw [hins]
      by_cases e : t = r
      · refine ⟨r', Finset.mem_erase.2 ⟨hrr, hr'⟩, (hj x r').2 (Or.inr (Or.inl ⟨?_, hvr⟩))⟩
        rw [e] at hxt
        exact hxt.trans hur.symm
      · exact ⟨t, Finset.mem_erase.2 ⟨e, ht⟩, hxt.mono hsub⟩
  · intro a b w' hw'
    rw [hins]
    rcases h.rest a b w' hw' with h1 | h1
    · rcases List.mem_cons.1 (hp.mem_iff.1 h1) with e | h1
      · simp only [Prod.mk.injEq] at e
        rw [e.2.1, e.2.2]
        exact Or.inr ((hj u v).2 (Or.inr (Or.inl ⟨Joined.refl _ _, Joined.refl _ _⟩)))
      · exact Or.inl h1
    · exact Or.inr (h1.mono hsub)

/-- All vertices can be reached from each other. -/
def IsConnected (g : Graph V W) : Prop :=
  ∀ u v, Mem g u → Mem g v → Reach (fun a b => ∃ w, adj g a b = some w) u v

theorem kruskalLoop_spec {g : Graph V W} (hg : Good g) : ∀ (m : ℕ) (H : List (W × V × V)) (X : UnionFind.UF V) (L : List (V × V)) (total : W)
    (tree : List (V × V)) (num : ℕ), KInv g H X L total tree num → H.length ≤ m →
    (∃ t, kruskalLoop (vertexSet g).card H X total tree num = some (.ok (totalWeight (adj g) t.toFinset, sortPairs t)) ∧ t.Nodup ∧
      ((vertexSet g = ∅ ∧ t.toFinset = ∅) ∨ MinSpanningTree (adj g) (vertexSet g) t.toFinset)) ∨
    (kruskalLoop (vertexSet g).card H X total tree num = some (.error .indexError) ∧ ¬ IsConnected g) := by
  intro m
  induction m with
  | zero =>
    intro H X L total tree num h hm
    obtain rfl : H = [] := List.eq_nil_of_length_eq_zero (by omega)
    exact kruskal_end h
  | succ m ih =>
    intro H X L total tree num h hm
    by_cases hn : num + 1 < (vertexSet g).card
    · cases hp : popMin keyE H with
      | none =>
        rw [popMin_none] at hp
        subst hp
        exact kruskal_end h
      | some e =>
        obtain ⟨⟨w, u, v⟩, H'⟩ := e
        obtain ⟨p1, p2⟩ := popMin_some keyE hp
        have hl := p1.length_eq
        rw [List.length_cons] at hl
        have hw : adj g u v = some w := h.heap _ (p1.mem_iff.2 List.mem_cons_self)
        have hu : u ∈ Dict.keys g := mem_of_adj hw
        have hv : v ∈ Dict.keys g := hg.mem_right hw
        obtain ⟨a, X1, f1, f2, f3, f4, f5, f6, f7⟩ := h.uf.find hu
        obtain ⟨b, X2, g1, g2, g3, g4, g5, g6, g7⟩ := f4.find hv
        have hLu : UnionFind.Leads X1.parent u a := (f5 u a).2 f3
        have hab : a = b ↔ Joined tree.toFinset u v := by
          rw [← h.iff]; exact f4.rel u hu v hv a b hLu g3
        rw [kruskalLoop.eq_def, if_pos hn, hp]
        dsimp only
        rw [f1]
        dsimp only
        rw [g1]
        dsimp only
        by_cases e : a = b
        · rw [if_neg (fun h' => h' e)]
          exact ih H' X2 L total tree num (h.skip p1 g4 (hab.1 e)) (by omega)
        · rw [if_pos e]
          have k1 : X2.parent u = some a := g7 u a hLu f6
          have k2 : X2.parent a = some a := ((g5 u a).2 hLu).isRoot
          have k3 : X2.parent b = some b := ((g5 v b).2 g3).isRoot
          obtain ⟨X3, u1, u2⟩ := g4.union hu hv k1 k2 g6 k3
          rw [u1]
          exact ih H' X3 ((u, v) :: L) (total + w) (tree ++ [pair u v]) (num + 1) (h.add hg p1 p2 u2 (fun hj => e (hab.2 hj))) (by omega)
    · exact kruskal_done h hn
where
  kruskal_done {g : Graph V W} {H : List (W × V × V)} {X : UnionFind.UF V} {L : List (V × V)} {total : W}
      {tree : List (V × V)} {num : ℕ} (h : KInv g H X L total tree num) (hn : ¬ num + 1 < (vertexSet g).card) :
      (∃ t, kruskalLoop (vertexSet g).card H X total tree num = some (.ok (totalWeight (adj g) t.toFinset, sortPairs t)) ∧ t.Nodup ∧
        ((vertexSet g = ∅ ∧ t.toFinset = ∅) ∨ MinSpanningTree (adj g) (vertexSet g) t.toFinset)) ∨
      (kruskalLoop (vertexSet g).card H X total tree num = some (.error .indexError) ∧ ¬ IsConnected g) := by
    refine Or.inl ⟨tree, by rw [kruskalLoop.eq_def, if_neg hn, h.total], h.nodup, ?_⟩
    obtain ⟨R, hR, hcard, hrep⟩ := h.classes
    have hlen : tree.toFinset.card = num := by rw [List.toFinset_card_of_nodup h.nodup, h.len]
    by_cases hE : vertexSet g = ∅
    · refine Or.inl ⟨hE, ?_⟩
      rw [hE, Finset.card_empty] at hcard
      rw [← Finset.card_eq_zero, hlen]; omega
    · obtain ⟨v, hv⟩ := Finset.nonempty_iff_ne_empty.2 hE
      obtain ⟨r, hr, -⟩ := hrep v hv
      have h1 : 0 < R.card := Finset.card_pos.2 ⟨r, hr⟩
      have hone : R.card ≤ 1 := by omega
      refine Or.inr (h.safe.final ⟨h.edge, fun a ha b hb => ?_, by rw [hlen]; omega⟩)
      obtain ⟨x, hx, hax⟩ := hrep a ha
      obtain ⟨y, hy, hby⟩ := hrep b hb
      rw [Finset.card_le_one.1 hone x hx y hy] at hax
      exact hax.trans hby.symm
  kruskal_end {g : Graph V W} {X : UnionFind.UF V} {L : List (V × V)} {total : W}
      {tree : List (V × V)} {num : ℕ} (h : KInv g [] X L total tree num) :
      (∃ t, kruskalLoop (vertexSet g).card [] X total tree num = some (.ok (totalWeight (adj g) t.toFinset, sortPairs t)) ∧ t.Nodup ∧
        ((vertexSet g = ∅ ∧ t.toFinset = ∅) ∨ MinSpanningTree (adj g) (vertexSet g) t.toFinset)) ∨
      (kruskalLoop (vertexSet g).card [] X total tree num = some (.error .indexError) ∧ ¬ IsConnected g) := by
    by_cases hn : num + 1 < (vertexSet g).card
    · refine Or.inr ⟨by rw [kruskalLoop.eq_def, if_pos hn]; rfl, fun hc => ?_⟩
      have hall : ∀ u ∈ vertexSet g, ∀ v ∈ vertexSet g, Joined tree.toFinset u v := by
        intro u hu v hv
        obtain ⟨n, hs⟩ := hc u v (mem_vertexSet.1 hu) (mem_vertexSet.1 hv)
        clear hu hv
        induction hs with
        | zero => exact Joined.refl _ _
        | succ _ he ih =>
          obtain ⟨w, hw⟩ := he
          rcases h.rest _ _ w hw with h1 | h1
          · simp at h1
          · exact ih.trans h1
      have := card_le_of_joined hall
      rw [List.toFinset_card_of_nodup h.nodup, h.len] at this
      omega
    · exact kruskal_done h hn

omit [AddCommMonoid W] [LinearOrder W] [IsOrderedCancelAddMonoid W] in
theorem mem_edgeTuples {g : Graph V W} (hg : Good g) {u v : V} {w : W} : (w, u, v) ∈ edgeTuples g ↔ adj g u v = some w := by
  rw [edgeTuples, List.mem_flatMap]
  constructor
  · rintro ⟨⟨a, N⟩, h1, h2⟩
    obtain ⟨⟨b, x⟩, h3, h4⟩ := List.mem_map.1 h2
    simp only [Prod.mk.injEq] at h4
    obtain ⟨rfl, rfl, rfl⟩ := h4
    have hN := Dict.get?_of_mem hg.wf h1
    rw [adj, hN]
    exact Dict.get?_of_mem (hg.inner a N hN) h3
  · intro h
    rw [adj, Option.bind_eq_some_iff] at h
    obtain ⟨N, h1, h2⟩ := h
    exact ⟨(u, N), Dict.mem_of_get? h1, List.mem_map.2 ⟨(v, w), Dict.mem_of_get? h2, rfl⟩⟩

theorem kruskal_spec {g : Graph V W} (hg : Good g) :
    (∃ t, kruskal g = some (.ok (totalWeight (adj g) t.toFinset, sortPairs t)) ∧ t.Nodup ∧
      ((vertexSet g = ∅ ∧ t.toFinset = ∅) ∨ MinSpanningTree (adj g) (vertexSet g) t.toFinset)) ∨
    (kruskal g = some (.error .indexError) ∧ ¬ IsConnected g) := by
  refine kruskalLoop_spec hg (edgeTuples g).length (edgeTuples g) _ [] 0 [] 0 ⟨UnionFind.Inv.init _, ?_, List.nodup_nil, rfl,
    by simp, by simp [totalWeight], safe_empty _ _, ⟨vertexSet g, Finset.Subset.refl _, rfl, fun v hv => ⟨v, hv, Joined.refl _ _⟩⟩,
    fun e he => (mem_edgeTuples hg).1 he, fun u v w hw => Or.inl ((mem_edgeTuples hg).2 hw)⟩ (le_refl _)
  intro a b
  constructor <;> exact Relation.EqvGen.mono (fun _ _ h => by simp at h) _ _

end Rosemary.SpanningTrees
