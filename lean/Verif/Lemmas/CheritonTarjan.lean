import Verif.Lemmas.Kruskal
import Verif.Props.LeftistHeap

/-!
# Lemmas on `cheriton_tarjan`
-/

theorem Rosemary.LeftistHeap.Holds.min_rest {α : Type} [LinearOrder α] {h : Heap α} {l : List α} (hl : Holds h l) (hne : l ≠ []) :
    ∃ v g m, h.deleteMin = (some v, g) ∧ v ∈ l ∧ (∀ x ∈ l, v ≤ x) ∧ Holds g m ∧ m.length + 1 = l.length ∧ (∀ x ∈ m, x ∈ l) ∧
      ∀ x ∈ l, x = v ∨ x ∈ m := by
  obtain ⟨v, g, -, h1, h2, h3, h4⟩ := hl.min hne
  refine ⟨v, g, _, h1, h2, h3, h4, ?_, fun x hx => List.mem_of_mem_erase hx, fun x hx => ?_⟩
  · rw [List.length_erase_of_mem h2]
    have := List.length_pos_of_mem h2
    omega
  · by_cases e : x = v
    · exact Or.inl e
    · exact Or.inr ((List.mem_erase_of_ne e).2 hx)

namespace Rosemary.SpanningTrees

open Graph Paths Spec

variable {V W : Type} [LinearOrder V] [AddCommMonoid W] [LinearOrder W] [IsOrderedCancelAddMonoid W]

/-- The edges `tree` are a forest that may be completed to a minimum spanning tree. -/
structure Forest (g : Graph V W) (tree : List (V × V)) : Prop where
  nodup : tree.Nodup
  edge : ∀ a b, (a, b) ∈ tree.toFinset → a < b ∧ a ∈ vertexSet g ∧ b ∈ vertexSet g ∧ ∃ w, adj g a b = some w
  safe : Safe (adj g) (vertexSet g) tree.toFinset
  classes : ∃ R ⊆ vertexSet g, R.card + tree.length = (vertexSet g).card ∧ ∀ v ∈ vertexSet g, ∃ r ∈ R, Joined tree.toFinset v r

theorem joined_pair {T : Finset (V × V)} {u v : V} (hne : u ≠ v) (a b : V) : Joined (insert (pair u v) T) a b ↔ Joined T a b ∨
    (Joined T a u ∧ Joined T v b) ∨ (Joined T a v ∧ Joined T u b) := by
  rcases pair_cases hne with ⟨-, h2⟩ | ⟨-, h2⟩ <;> rw [h2, joined_insert]
  rw [or_congr_right or_comm]

omit [LinearOrder V] in
theorem toFinset_snoc [DecidableEq V] (t : List (V × V)) (e : V × V) : (t ++ [e]).toFinset = insert e t.toFinset := by
  ext x; simp [or_comm]

theorem Forest.add {g : Graph V W} (hg : Good g) {tree : List (V × V)} (h : Forest g tree) {w : W} {u v : V}
    (hw : adj g u v = some w) (huv : ¬ Joined tree.toFinset u v)
    (hmin : ∀ a b w', adj g a b = some w' → Joined tree.toFinset u a → ¬ Joined tree.toFinset a b → w ≤ w') :
    Forest g (tree ++ [pair u v]) := by
  have hne : u ≠ v := fun e => huv (e ▸ Joined.refl _ _)
  have huC : u ∈ vertexSet g := mem_vertexSet.2 (mem_of_adj hw)
  have hvC : v ∈ vertexSet g := mem_vertexSet.2 (hg.mem_right hw)
  have hnew : pair u v ∉ tree.toFinset := by
    intro hmem
    rcases pair_cases hne with ⟨-, h2⟩ | ⟨-, h2⟩ <;> rw [h2] at hmem
    · exact huv (Joined.of_mem hmem)
    · exact huv (Joined.of_mem hmem).symm
  refine ⟨?_, ?_, ?_, ?_⟩
  · rw [List.nodup_append]
    refine ⟨h.nodup, List.nodup_singleton _, ?_⟩
    rintro a ha b hb rfl
    rw [List.mem_singleton] at hb
    exact hnew (hb ▸ List.mem_toFinset.2 ha)
  · intro a b hab
    rw [toFinset_snoc] at hab
    rcases Finset.mem_insert.1 hab with e | hab
    · rcases pair_cases hne with ⟨h1, h2⟩ | ⟨h1, h2⟩ <;> rw [h2] at e <;> injection e with e1 e2 <;> subst e1 e2
      · exact ⟨h1, huC, hvC, w, hw⟩
      · exact ⟨h1, hvC, huC, w, by rw [hg.symm]; exact hw⟩
    · exact h.edge a b hab
  · rw [toFinset_snoc]
    have hc : ∀ a b, (a, b) ∈ tree.toFinset → (Joined tree.toFinset u a) = (Joined tree.toFinset u b) := fun a b hab =>
      propext ⟨fun h => h.trans (Joined.of_mem hab), fun h => h.trans (Joined.of_mem hab).symm⟩
    have hm : ∀ a b w', a < b → adj g a b = some w' → (Joined tree.toFinset u a) ≠ (Joined tree.toFinset u b) → w ≤ w' := by
      intro a b w' _ hw' hne
      by_cases ha : Joined tree.toFinset u a
      · exact hmin a b w' hw' ha (fun hab => hne (propext ⟨fun _ => ha.trans hab, fun _ => ha⟩))
      · have hb : Joined tree.toFinset u b := by
          by_contra hb
          exact hne (propext ⟨fun h => absurd h ha, fun h => absurd h hb⟩)
        exact hmin b a w' (by rw [hg.symm]; exact hw') hb (fun hab => ha (hb.trans hab))
    have hne' : (Joined tree.toFinset u u) ≠ (Joined tree.toFinset u v) := fun e => huv (e ▸ Joined.refl _ _)
    rcases pair_cases hne with ⟨h1, h2⟩ | ⟨h1, h2⟩ <;> rw [h2]
    · exact h.safe.add (Joined tree.toFinset u) hc h1 huC hvC hw hne' hm
    · exact h.safe.add (Joined tree.toFinset u) hc h1 hvC huC (by rw [hg.symm]; exact hw) hne'.symm hm
  · obtain ⟨R, hR, hcard, hrep⟩ := h.classes
    obtain ⟨r, hr, hur⟩ := hrep u huC
    obtain ⟨r', hr', hvr⟩ := hrep v hvC
    have hrr : r' ≠ r := by
      rintro rfl
      exact huv (hur.trans hvr.symm)
    refine ⟨R.erase r, (Finset.erase_subset _ _).trans hR, ?_, fun x hx => ?_⟩
    · have := Finset.card_erase_add_one hr
      rw [List.length_append, List.length_singleton]
      omega
    · obtain ⟨t, ht, hxt⟩ := hrep x hx
      rw [toFinset_snoc]
      by_cases e : t = r
      · refine ⟨r', Finset.mem_erase.2 ⟨hrr, hr'⟩, (joined_pair hne x r').2 (Or.inr (Or.inl ⟨?_, hvr⟩))⟩
        rw [e] at hxt
        exact hxt.trans hur.symm
      · exact ⟨t, Finset.mem_erase.2 ⟨e, ht⟩, hxt.mono (Finset.subset_insert _ _)⟩

/-- What holds of the heap `h` of the class of `r`. -/
def HeapOf (g : Graph V W) (T : Finset (V × V)) (r : V) (h : EdgeHeap V W) (l : List (W ×ₗ V ×ₗ V)) : Prop :=
  LeftistHeap.Holds h l ∧ (∀ w x y, keyE (w, x, y) ∈ l → adj g x y = some w ∧ Joined T r x) ∧
    ∀ w x y, adj g x y = some w → Joined T r x → Joined T x y ∨ keyE (w, x, y) ∈ l

/-- `X` represents the classes of the forest. -/
structure Sets (g : Graph V W) (T : Finset (V × V)) (X : UnionFind.UF V) : Prop where
  uf : ∃ L, UnionFind.Inv (vertices g) X L ∧ ∀ a b, UnionFind.Linked L a b ↔ Joined T a b

/-- The names of the sets. -/
def IsName (g : Graph V W) (X : UnionFind.UF V) (r : V) : Prop := r ∈ vertices g ∧ X.parent r = some r

theorem Sets.find {g : Graph V W} {T : Finset (V × V)} {X : UnionFind.UF V} (h : Sets g T X) {x : V} (hx : x ∈ vertices g) :
    ∃ r X', X.find x = some (.ok (r, X')) ∧ Sets g T X' ∧ IsName g X' r ∧ Joined T r x ∧ ∀ z, IsName g X' z ↔ IsName g X z := by
  obtain ⟨L, hL, hiff⟩ := h.uf
  obtain ⟨r, X', h1, h2, h3, h4, h5, h6, h7⟩ := hL.find hx
  have hn : ∀ z, IsName g X' z ↔ IsName g X z := by
    intro z
    refine and_congr_right (fun _ => ⟨fun hz => ?_, fun hz => ?_⟩)
    · exact ((h5 z z).1 (.root hz)).isRoot
    · exact ((h5 z z).2 (.root hz)).isRoot
  refine ⟨r, X', h1, ⟨L, h4, hiff⟩, ⟨h2, ((h5 x r).2 h3).isRoot⟩, ?_, hn⟩
  rw [← hiff]
  exact (hL.rel r h2 x hx r r (.root h3.isRoot) h3).1 rfl

theorem Sets.name {g : Graph V W} {T : Finset (V × V)} {X : UnionFind.UF V} (h : Sets g T X) {r s : V} (hr : IsName g X r)
    (hs : IsName g X s) (hj : Joined T r s) : r = s := by
  obtain ⟨L, hL, hiff⟩ := h.uf
  exact (hL.rel r hr.1 s hs.1 r s (.root hr.2) (.root hs.2)).2 ((hiff r s).2 hj)

theorem Sets.union {g : Graph V W} {T : Finset (V × V)} {X : UnionFind.UF V} (h : Sets g T X) {r s u v : V} (hr : IsName g X r)
    (hs : IsName g X s) (hne : r ≠ s) (huv : u ≠ v) (hu : Joined T r u) (hv : Joined T s v) :
    ∃ X', X.union r s = .ok X' ∧ Sets g (insert (pair u v) T) X' ∧ ∀ z, IsName g X' z ↔ IsName g X z ∧ z ≠ r := by
  obtain ⟨L, hL, hiff⟩ := h.uf
  obtain ⟨X', h1, h2⟩ := hL.union hr.1 hs.1 hr.2 hr.2 hs.2 hs.2
  have hp : X'.parent = UnionFind.put X.parent r s := by
    rw [UnionFind.UF.union, hr.2, hs.2] at h1
    dsimp only at h1
    split at h1
    · injection h1 with h1; rw [← h1]
    · simp at h1
  refine ⟨X', h1, ⟨(r, s) :: L, h2, fun a b => ?_⟩, fun z => ?_⟩
  · rw [UnionFind.linked_cons, joined_pair huv, hiff, hiff, hiff, hiff, hiff]
    refine or_congr_right (or_congr (and_congr ?_ ?_) (and_congr ?_ ?_))
    · exact ⟨fun h => h.trans hu, fun h => h.trans hu.symm⟩
    · exact ⟨fun h => hv.symm.trans h, fun h => hv.trans h⟩
    · exact ⟨fun h => h.trans hv, fun h => h.trans hv.symm⟩
    · exact ⟨fun h => hu.symm.trans h, fun h => hu.trans h⟩
  · rw [IsName, hp, UnionFind.put]
    by_cases hz : z = r
    · rw [if_pos hz]
      refine ⟨fun h => ?_, fun h => absurd hz h.2⟩
      have := h.2
      injection this with e
      exact absurd (hz ▸ e).symm hne
    · rw [if_neg hz]
      exact ⟨fun h => ⟨h, hz⟩, fun h => h.1⟩

omit [AddCommMonoid W] [LinearOrder W] [IsOrderedCancelAddMonoid W] in
theorem mem_vertices {g : Graph V W} {u : V} : u ∈ vertices g ↔ Mem g u := by
  rw [vertices, mem_pySort]; exact Iff.rfl

theorem ctInner_spec {g : Graph V W} (hg : Good g) {T : Finset (V × V)} {r : V} : ∀ (n : ℕ) (l : List (W ×ₗ V ×ₗ V)) (h : EdgeHeap V W)
    (X : UnionFind.UF V), l.length = n → HeapOf g T r h l → Sets g T X → IsName g X r →
    (ctInner r h X = some (.error .typeError) ∧ ∀ w x y, adj g x y = some w → Joined T r x → Joined T x y) ∨
    ∃ x y s h' X' l' w, ctInner r h X = some (.ok (x, y, s, h', X')) ∧ adj g x y = some w ∧ Joined T r x ∧ Joined T s y ∧
      ¬ Joined T x y ∧ Sets g T X' ∧ IsName g X' s ∧ (∀ z, IsName g X' z ↔ IsName g X z) ∧
      LeftistHeap.Holds h' l' ∧ (∀ w x y, keyE (w, x, y) ∈ l' → adj g x y = some w ∧ Joined T r x) ∧
      (∀ w' a b, adj g a b = some w' → Joined T r a → Joined T a b ∨ (a = x ∧ b = y) ∨ keyE (w', a, b) ∈ l') ∧
      (∀ w' a b, adj g a b = some w' → Joined T r a → ¬ Joined T a b → w ≤ w') := by
  intro n
  induction n with
  | zero =>
    intro l h X hn hh hX hr
    obtain rfl : l = [] := List.eq_nil_of_length_eq_zero hn
    left
    refine ⟨?_, fun w x y hw hx => ?_⟩
    · rw [ctInner.eq_def, hh.1.empty.2]
    · rcases hh.2.2 w x y hw hx with h | h
      · exact h
      · simp at h
  | succ n ih =>
    intro l h X hn hh hX hr
    obtain ⟨e, h', m, k1, k2, k3, k4, k5, k6, k7⟩ := hh.1.min_rest (by rintro rfl; simp at hn)
    obtain ⟨w, x, y, rfl⟩ : ∃ w x y, e = keyE (w, x, y) := ⟨_, _, _, rfl⟩
    obtain ⟨hw, hx⟩ := hh.2.1 w x y k2
    obtain ⟨a, X1, f1, f2, f3, f4, f5⟩ := hX.find (mem_vertices.2 (mem_of_adj hw))
    obtain ⟨b, X2, g1, g2, g3, g4, g5⟩ := f2.find (mem_vertices.2 (hg.mem_right hw))
    have ha : a = r := (f2.name f3 ((f5 r).2 hr) (f4.trans hx.symm))
    subst ha
    have hab : a = b ↔ Joined T x y :=
      ⟨fun e => f4.symm.trans (e ▸ g4), fun hj => g2.name ((g5 a).2 f3) g3 (f4.trans (hj.trans g4.symm))⟩
    have hsub : ∀ w' a' b', adj g a' b' = some w' → Joined T a a' → Joined T a' b' ∨ (a' = x ∧ b' = y) ∨
        keyE (w', a', b') ∈ m := by
      intro w' a' b' h1 h2
      rcases hh.2.2 w' a' b' h1 h2 with h3 | h3
      · exact Or.inl h3
      · rcases k7 _ h3 with e | e
        · refine Or.inr (Or.inl ?_)
          have e1 : a' = x := congrArg (fun e : W ×ₗ V ×ₗ V => (ofLex (ofLex e).2).1) e
          have e2 : b' = y := congrArg (fun e : W ×ₗ V ×ₗ V => (ofLex (ofLex e).2).2) e
          exact ⟨e1, e2⟩
        · exact Or.inr (Or.inr e)
    have hmem : ∀ w' a' b', keyE (w', a', b') ∈ m → adj g a' b' = some w' ∧ Joined T a a' :=
      fun w' a' b' h => hh.2.1 w' a' b' (k6 _ h)
    rw [ctInner.eq_def, k1]
    dsimp only
    rw [show X.find (ofLex (ofLex (keyE (w, x, y))).2).1 = _ from f1]
    dsimp only
    rw [show X1.find (ofLex (ofLex (keyE (w, x, y))).2).2 = _ from g1]
    dsimp only
    by_cases e : a = b
    · rw [if_pos e]
      have hxy := hab.1 e
      rcases ih m h' X2 (by omega)
        ⟨k4, hmem, fun w' a' b' h1 h2 => by
          rcases hsub w' a' b' h1 h2 with h3 | ⟨rfl, rfl⟩ | h3
          · exact Or.inl h3
          · exact Or.inl hxy
          · exact Or.inr h3⟩ g2 ((g5 a).2 f3) with h1 | ⟨x', y', s, h'', X', l', w', i1, i2, i3, i4, i5, i6, i7, i8, i9⟩
      · exact Or.inl h1
      · exact Or.inr ⟨x', y', s, h'', X', l', w', i1, i2, i3, i4, i5, i6, i7, fun z => (i8 z).trans ((g5 z).trans (f5 z)), i9⟩
    · rw [if_neg e, if_pos rfl]
      refine Or.inr ⟨x, y, b, h', X2, m, w, rfl, hw, hx, g4, fun h => e (hab.2 h), g2, g3,
        fun z => (g5 z).trans (f5 z), k4, hmem, hsub, fun w' a' b' h1 h2 h3 => ?_⟩
      rcases hh.2.2 w' a' b' h1 h2 with h4 | h4
      · exact absurd h4 h3
      · have := k3 _ h4
        rw [keyE, keyE, Prod.Lex.toLex_le_toLex] at this
        rcases this with h | ⟨h, -⟩
        · exact h.le
        · exact h.le

/-- What holds between the rounds. -/
structure CInv (g : Graph V W) (PQ : Dict V (EdgeHeap V W)) (X : UnionFind.UF V) (tree : List (V × V)) : Prop where
  forest : Forest g tree
  sets : Sets g tree.toFinset X
  wf : Dict.WF PQ
  keys : ∀ r, r ∈ Dict.keys PQ ↔ IsName g X r
  heap : ∀ r h, Dict.get? PQ r = some h → ∃ l, HeapOf g tree.toFinset r h l

theorem ctUnite_spec {g : Graph V W} (hg : Good g) {PQ : Dict V (EdgeHeap V W)} {X : UnionFind.UF V} {tree : List (V × V)}
    (hF : Forest g tree) (hX : Sets g tree.toFinset X) (hwf : Dict.WF PQ) (hk : ∀ r, r ∈ Dict.keys PQ ↔ IsName g X r)
    (hh : ∀ r h, Dict.get? PQ r = some h → ∃ l, HeapOf g tree.toFinset r h l) {r s x y : V} {w : W} {h : EdgeHeap V W}
    {l : List (W ×ₗ V ×ₗ V)} (hw : adj g x y = some w) (hr : IsName g X r) (hs : IsName g X s) (hx : Joined tree.toFinset r x)
    (hy : Joined tree.toFinset s y) (hxy : ¬ Joined tree.toFinset x y) (h1 : LeftistHeap.Holds h l)
    (h2 : ∀ w x y, keyE (w, x, y) ∈ l → adj g x y = some w ∧ Joined tree.toFinset r x)
    (h3 : ∀ w' a b, adj g a b = some w' → Joined tree.toFinset r a → Joined tree.toFinset a b ∨ (a = x ∧ b = y) ∨ keyE (w', a, b) ∈ l)
    (hmin : ∀ w' a b, adj g a b = some w' → Joined tree.toFinset r a → ¬ Joined tree.toFinset a b → w ≤ w') :
    ∃ PQ' X', ctUnite r s h PQ X = some (.ok (PQ', X')) ∧ CInv g PQ' X' (tree ++ [pair x y]) := by
  have hne : r ≠ s := by
    rintro rfl
    exact hxy (hx.symm.trans hy)
  have hxne : x ≠ y := fun e => hxy (e ▸ Joined.refl _ _)
  obtain ⟨X1, u1, u2, u3⟩ := hX.union hr hs hne hxne hx hy
  obtain ⟨t, X2, f1, f2, f3, f4, f5⟩ := u2.find hr.1
  have hjoin := joined_pair (T := tree.toFinset) hxne
  have hts : t = s := by
    refine f2.name f3 ((f5 s).2 ((u3 s).2 ⟨hs, hne.symm⟩)) (f4.trans ?_)
    rw [hjoin]
    exact Or.inr (Or.inl ⟨hx, hy.symm⟩)
  subst hts
  obtain ⟨hs', hgs⟩ := Dict.get?_isSome.2 ((hk t).2 hs)
  obtain ⟨l', hl'⟩ := hh t hs' hgs
  have hwf1 := hwf.set r h
  refine ⟨Dict.erase (Dict.set (Dict.set PQ r h) t (hs'.mergeWith h)) r, X2, ?_, ?_, ?_, (hwf1.set _ _).erase _, ?_, ?_⟩
  · rw [ctUnite, u1]
    dsimp only
    rw [f1]
    dsimp only
    rw [if_pos hne.symm, if_pos hne.symm, Dict.get?_set, if_neg hne, hgs, Dict.get?_set, if_pos rfl]
  · exact hF.add hg hw hxy (fun a b w' h4 h5 h6 => hmin w' a b h4 (hx.trans h5) h6)
  · rw [toFinset_snoc]; exact f2
  · intro z
    rw [Dict.mem_keys_erase (hwf1.set _ _), Dict.mem_keys_set, Dict.mem_keys_set, f5, u3, ← hk]
    constructor
    · rintro ⟨h4, rfl | rfl | h5⟩
      · exact ⟨(hk _).2 hs, h4⟩
      · exact absurd rfl h4
      · exact ⟨h5, h4⟩
    · rintro ⟨h4, h5⟩
      exact ⟨h5, Or.inr (Or.inr h4)⟩
  · intro z hz hgz
    rw [Dict.get?_erase (hwf1.set _ _)] at hgz
    rw [toFinset_snoc]
    by_cases hzr : r = z
    · rw [if_pos hzr] at hgz; simp at hgz
    · rw [if_neg hzr, Dict.get?_set] at hgz
      have hmono : ∀ {a b}, Joined tree.toFinset a b → Joined (insert (pair x y) tree.toFinset) a b :=
        fun h => h.mono (Finset.subset_insert _ _)
      by_cases hzt : t = z
      · rw [if_pos hzt] at hgz
        injection hgz with hgz
        subst hgz hzt
        have hjr : Joined (insert (pair x y) tree.toFinset) t r := (hjoin t r).2 (Or.inr (Or.inr ⟨hy, hx.symm⟩))
        refine ⟨l' ++ l, hl'.1.mergeWith h1, fun w' a b hab => ?_, fun w' a b hab hta => ?_⟩
        · rcases List.mem_append.1 hab with h4 | h4
          · exact ⟨(hl'.2.1 w' a b h4).1, hmono (hl'.2.1 w' a b h4).2⟩
          · exact ⟨(h2 w' a b h4).1, hjr.trans (hmono (h2 w' a b h4).2)⟩
        · have hcase : Joined tree.toFinset t a ∨ Joined tree.toFinset r a := by
            rcases (hjoin t a).1 hta with h4 | ⟨h4, h5⟩ | ⟨h4, h5⟩
            · exact Or.inl h4
            · exact Or.inl (hy.trans h5)
            · exact Or.inr (hx.trans h5)
          rcases hcase with h4 | h4
          · rcases hl'.2.2 w' a b hab h4 with h5 | h5
            · exact Or.inl (hmono h5)
            · exact Or.inr (List.mem_append_left _ h5)
          · rcases h3 w' a b hab h4 with h5 | ⟨rfl, rfl⟩ | h5
            · exact Or.inl (hmono h5)
            · exact Or.inl ((hjoin _ _).2 (Or.inr (Or.inl ⟨Joined.refl _ _, Joined.refl _ _⟩)))
            · exact Or.inr (List.mem_append_right _ h5)
      · rw [if_neg hzt, Dict.get?_set, if_neg hzr] at hgz
        obtain ⟨lz, hlz⟩ := hh z hz hgz
        have hzn : IsName g X z := (hk z).1 (Dict.get?_isSome.1 ⟨_, hgz⟩)
        refine ⟨lz, hlz.1, fun w' a b hab => ⟨(hlz.2.1 w' a b hab).1, hmono (hlz.2.1 w' a b hab).2⟩, fun w' a b hab hza => ?_⟩
        have hza' : Joined tree.toFinset z a := by
          rcases (hjoin z a).1 hza with h4 | ⟨h4, -⟩ | ⟨h4, -⟩
          · exact h4
          · exact absurd (hX.name hr hzn (hx.trans h4.symm)) hzr
          · exact absurd (hX.name hs hzn (hy.trans h4.symm)) hzt
        rcases hlz.2.2 w' a b hab hza' with h5 | h5
        · exact Or.inl (hmono h5)
        · exact Or.inr h5

theorem ctLoop_spec {g : Graph V W} (hg : Good g) {ch : ℕ → List V → V} (hch : ∀ i l, l ≠ [] → ch i l ∈ l) (hne : vertexSet g ≠ ∅) :
    ∀ (n : ℕ) (PQ : Dict V (EdgeHeap V W)) (X : UnionFind.UF V) (tree : List (V × V)), CInv g PQ X tree →
    (vertexSet g).card = tree.length + 1 + n →
    (∃ t, ctLoop ch (vertexSet g).card PQ X tree tree.length = some (.ok t) ∧ t.Nodup ∧ MinSpanningTree (adj g) (vertexSet g) t.toFinset) ∨
    (ctLoop ch (vertexSet g).card PQ X tree tree.length = some (.error .typeError) ∧ ¬ IsConnected g) := by
  intro n
  induction n with
  | zero =>
    intro PQ X tree h hn
    left
    refine ⟨tree, by rw [ctLoop.eq_def, if_neg (by omega)], h.forest.nodup, ?_⟩
    obtain ⟨R, hR, hcard, hrep⟩ := h.forest.classes
    have hone : R.card ≤ 1 := by omega
    refine h.forest.safe.final ⟨h.forest.edge, fun a ha b hb => ?_, by rw [List.toFinset_card_of_nodup h.forest.nodup]; omega⟩
    obtain ⟨x, hx, hax⟩ := hrep a ha
    obtain ⟨y, hy, hby⟩ := hrep b hb
    rw [Finset.card_le_one.1 hone x hx y hy] at hax
    exact hax.trans hby.symm
  | succ n ih =>
    intro PQ X tree h hn
    have hkne : Dict.keys PQ ≠ [] := by
      obtain ⟨v, hv⟩ := Finset.nonempty_iff_ne_empty.2 hne
      obtain ⟨r, X', -, -, k1, -, k2⟩ := h.sets.find (mem_vertices.2 (mem_vertexSet.1 hv))
      intro e
      have := (h.keys r).2 ((k2 r).1 k1)
      rw [e] at this
      simp at this
    rw [ctLoop.eq_def, if_pos (by omega)]
    obtain ⟨k, ks, hks⟩ := List.exists_cons_of_ne_nil hkne
    have hcm := hch tree.length _ hkne
    rw [hks]
    rw [hks] at hcm
    dsimp only
    have hcn : IsName g X (ch tree.length (k :: ks)) := (h.keys _).1 (by rw [hks]; exact hcm)
    obtain ⟨r, X1, f1, f2, f3, f4, f5⟩ := h.sets.find hcn.1
    have hrk : r ∈ Dict.keys PQ := (h.keys r).2 ((f5 r).1 f3)
    obtain ⟨hr, hgr⟩ := Dict.get?_isSome.2 hrk
    obtain ⟨l, hl⟩ := h.heap r hr hgr
    rw [f1]
    dsimp only
    rw [hgr]
    dsimp only
    rcases ctInner_spec hg l.length l hr X1 rfl hl f2 f3 with ⟨i1, i2⟩ |
      ⟨x, y, s, h', X', l', w, i1, i2, i3, i4, i5, i6, i7, i8, i9, i10, i11, i12⟩
    · right
      rw [i1]
      refine ⟨rfl, fun hc => ?_⟩
      have hall : ∀ v ∈ vertexSet g, Joined tree.toFinset r v := by
        intro v hv
        obtain ⟨m, hs⟩ := hc r v (mem_vertices.1 f3.1) (mem_vertexSet.1 hv)
        clear hv i1 hl hgr hrk f4 f3 f1
        induction hs with
        | zero => exact Joined.refl _ _
        | succ _ he ih =>
          obtain ⟨w, hw⟩ := he
          exact (ih i2).trans (i2 w _ _ hw (ih i2))
      have := card_le_of_joined (fun u hu v hv => (hall u hu).symm.trans (hall v hv))
      rw [List.toFinset_card_of_nodup h.forest.nodup] at this
      omega
    · rw [i1]
      dsimp only
      obtain ⟨PQ', X'', c1, c2⟩ := ctUnite_spec hg h.forest i6 h.wf (fun z => (h.keys z).trans ((f5 z).symm.trans (i8 z).symm)) h.heap i2
        ((i8 r).2 f3) i7 i3 i4 i5 i9 i10 i11 i12
      rw [c1]
      dsimp only
      have hlen : (tree ++ [pair x y]).length = tree.length + 1 := by rw [List.length_append]; rfl
      rw [← hlen]
      exact ih PQ' X'' _ c2 (by rw [hlen]; omega)

theorem ctQueues_spec {g : Graph V W} (hg : Good g) (hdeg : ∀ u N, Dict.get? g u = some N → 2 ≤ N.length) :
    ∀ (us : List V) (PQ : Dict V (EdgeHeap V W)), (∀ u ∈ us, Mem g u) → Dict.WF PQ →
    (∀ r h, Dict.get? PQ r = some h → ∃ l, HeapOf g ∅ r h l) →
    ∃ PQ', ctQueues g us PQ = .ok PQ' ∧ Dict.WF PQ' ∧ (∀ r, r ∈ Dict.keys PQ' ↔ r ∈ us ∨ r ∈ Dict.keys PQ) ∧
      ∀ r h, Dict.get? PQ' r = some h → ∃ l, HeapOf g ∅ r h l := by
  intro us
  induction us with
  | nil => intro PQ _ hwf hh; exact ⟨PQ, rfl, hwf, by simp, hh⟩
  | cons u us ih =>
    intro PQ hus hwf hh
    obtain ⟨N, hN⟩ := Dict.get?_isSome.2 (hus u List.mem_cons_self)
    obtain ⟨h, h1, h2⟩ := LeftistHeap.init_spec (N.map (fun f => keyE (f.2, u, f.1))) (by rw [List.length_map]; exact hdeg u N hN)
    have hjoin : ∀ a b, Joined (∅ : Finset (V × V)) a b → a = b := fun a b hj => Joined.const id (fun a b h => by simp at h) hj
    obtain ⟨PQ', p1, p2, p3, p4⟩ := ih (Dict.set PQ u h) (fun v hv => hus v (List.mem_cons_of_mem _ hv)) (hwf.set u h) (by
      intro r h' hr
      rw [Dict.get?_set] at hr
      by_cases e : u = r
      · rw [if_pos e] at hr
        injection hr with hr
        subst hr e
        refine ⟨_, h2, fun w x y hm => ?_, fun w x y hw hj => Or.inr ?_⟩
        · obtain ⟨⟨v, w'⟩, hv, he⟩ := List.mem_map.1 hm
          have e1 : w' = w := congrArg (fun e : W ×ₗ V ×ₗ V => (ofLex e).1) he
          have e2 : u = x := congrArg (fun e : W ×ₗ V ×ₗ V => (ofLex (ofLex e).2).1) he
          have e3 : v = y := congrArg (fun e : W ×ₗ V ×ₗ V => (ofLex (ofLex e).2).2) he
          subst e1 e2 e3
          refine ⟨?_, Joined.refl _ _⟩
          rw [adj, hN]
          exact Dict.get?_of_mem (hg.inner u N hN) hv
        · obtain rfl := hjoin _ _ hj
          rw [adj, hN] at hw
          exact List.mem_map.2 ⟨(y, w), Dict.mem_of_get? hw, rfl⟩
      · rw [if_neg e] at hr
        exact hh r h' hr)
    refine ⟨PQ', ?_, p2, fun r => ?_, p4⟩
    · rw [ctQueues, hN]
      dsimp only
      rw [h1]
      exact p1
    · rw [p3, Dict.mem_keys_set, List.mem_cons]
      tauto

theorem ctQueues_error {g : Graph V W} (us : List V) (PQ : Dict V (EdgeHeap V W)) (hus : ∀ u ∈ us, Mem g u) {v : V} (hv : v ∈ us) {N : Dict V W}
    (hN : Dict.get? g v = some N) (hd : N.length < 2) : ctQueues g us PQ = .error .unboundLocalError := by
  have herr : ∀ (u : V) (M : Dict V W), LeftistHeap.init (M.map (fun f => keyE (f.2, u, f.1))) = .error .unboundLocalError ∨
      ∃ h, LeftistHeap.init (M.map (fun f => keyE (f.2, u, f.1))) = .ok h := by
    intro u M
    by_cases h : 2 ≤ M.length
    · obtain ⟨h, h1, -⟩ := LeftistHeap.init_spec (M.map (fun f => keyE (f.2, u, f.1))) (by rw [List.length_map]; exact h)
      exact Or.inr ⟨h, h1⟩
    · exact Or.inl (Props.C43_leftist_init_violation _ (by rw [List.length_map]; omega))
  induction us generalizing PQ with
  | nil => simp at hv
  | cons u us ih =>
    obtain ⟨M, hM⟩ := Dict.get?_isSome.2 (hus u List.mem_cons_self)
    rw [ctQueues, hM]
    dsimp only
    rcases List.mem_cons.1 hv with rfl | hv
    · rw [hN] at hM
      injection hM with hM
      subst hM
      rw [Props.C43_leftist_init_violation _ (by rw [List.length_map]; omega)]
    · rcases herr u M with h | ⟨h, h1⟩
      · rw [h]
      · rw [h1]
        exact ih _ (fun v hv => hus v (List.mem_cons_of_mem _ hv)) hv

omit [IsOrderedCancelAddMonoid W] [LinearOrder W] in
theorem ctTotal_spec {g : Graph V W} : ∀ (t : List (V × V)) (total : W), (∀ e ∈ t, ∃ w, adj g e.1 e.2 = some w) → t.Nodup →
    ctTotal g t total = .ok (total + totalWeight (adj g) t.toFinset) := by
  intro t
  induction t with
  | nil => intro total _ _; rw [ctTotal, List.toFinset_nil, totalWeight, Finset.sum_empty, add_zero]
  | cons e t ih =>
    intro total he hnd
    obtain ⟨w, hw⟩ := he e List.mem_cons_self
    rw [ctTotal, show (Dict.get? g e.1).bind (fun N => Dict.get? N e.2) = some w from hw]
    dsimp only
    rw [ih _ (fun f hf => he f (List.mem_cons_of_mem _ hf)) (List.nodup_cons.1 hnd).2, List.toFinset_cons, totalWeight, totalWeight,
      Finset.sum_insert (by rw [List.mem_toFinset]; exact (List.nodup_cons.1 hnd).1), hw, Option.getD_some, add_assoc]

theorem cheritonTarjan_spec {g : Graph V W} (hg : Good g) {ch : ℕ → List V → V} (hch : ∀ i l, l ≠ [] → ch i l ∈ l)
    (hne : vertexSet g ≠ ∅) (hdeg : ∀ u N, Dict.get? g u = some N → 2 ≤ N.length) :
    (∃ t, cheritonTarjan ch g = some (.ok (totalWeight (adj g) t.toFinset, sortPairs t)) ∧ t.Nodup ∧
      MinSpanningTree (adj g) (vertexSet g) t.toFinset) ∨
    (cheritonTarjan ch g = some (.error .typeError) ∧ ¬ IsConnected g) := by
  obtain ⟨PQ, p1, p2, p3, p4⟩ := ctQueues_spec hg hdeg (vertices g) [] (fun u hu => mem_vertices.1 hu) List.nodup_nil
    (fun r h hr => by simp [Dict.get?] at hr)
  have hlen : (vertices g).length = (vertexSet g).card := by
    rw [vertices, (pySort_perm _ _).length_eq, vertexSet, List.toFinset_card_of_nodup hg.wf]
  have hpos := Finset.card_pos.2 (Finset.nonempty_iff_ne_empty.2 hne)
  have hinit : CInv g PQ (UnionFind.UF.init (vertices g)) [] := by
    refine ⟨⟨List.nodup_nil, by simp, by rw [List.toFinset_nil]; exact safe_empty _ _,
      ⟨vertexSet g, Finset.Subset.refl _, rfl, fun v hv => ⟨v, hv, Joined.refl _ _⟩⟩⟩,
      ⟨[], UnionFind.Inv.init _, fun a b => ?_⟩, p2, fun r => ?_, by rw [List.toFinset_nil]; exact p4⟩
    · constructor <;> exact Relation.EqvGen.mono (fun _ _ h => by simp at h) _ _
    · rw [p3, IsName, (UnionFind.init_apply _ _).1]
      constructor
      · rintro (h | h)
        · exact ⟨h, by rw [if_pos h]⟩
        · simp [Dict.keys] at h
      · exact fun h => Or.inl h.1
  rcases ctLoop_spec hg hch hne ((vertexSet g).card - 1) PQ _ [] hinit (by rw [List.length_nil]; omega) with ⟨t, h1, h2, h3⟩ | ⟨h1, h2⟩
  · left
    refine ⟨t, ?_, h2, h3⟩
    rw [cheritonTarjan, p1]
    dsimp only
    rw [hlen]
    rw [List.length_nil] at h1
    rw [h1]
    dsimp only
    rw [ctTotal_spec t 0 (fun e he => (h3.tree.edge e.1 e.2 (List.mem_toFinset.2 he)).2.2.2) h2, zero_add]
  · right
    refine ⟨?_, h2⟩
    rw [cheritonTarjan, p1]
    dsimp only
    rw [hlen]
    rw [List.length_nil] at h1
    rw [h1]

end Rosemary.SpanningTrees
