import Verif.Lemmas.GabowTree
import Verif.Lemmas.Heapq
import Mathlib.Data.Finset.Powerset

/-!
# The loop of `gabow`

The entries of the heap partition the spanning trees into families, given by the edges that must and must not be used.
The tree of an entry is a lightest one of its family, and has been yielded; the weight is that of the second best.
-/

namespace Rosemary.Gabow

open Graph UnionFind SpanningTrees Spec Heapq

variable {V W : Type} [LinearOrder V] [AddCommGroup W] [LinearOrder W]

/-- The trees of an entry. -/
def Fam (g : Graph V W) (C : Finset V) (entry : Entry V W) (S : Finset (V × V)) : Prop :=
  InFamily (adj g) C (edgesOf entry.included) (edgesOf entry.excluded) S

/-- The entry is as it should be. -/
structure EntryOK (g : Graph V W) (C : Finset V) (root : V) (edges : List (V × V)) (entry : Entry V W) : Prop where
  tree : IsTree g C root (treeOf C root entry.father) entry.father
  inc : ∀ p ∈ entry.included, norm p ∈ treeOf C root entry.father
  nodup : (entry.included.map norm).Nodup
  exc : ∀ p ∈ entry.excluded, norm p ∈ edges
  fam : Fam g C entry (treeOf C root entry.father)
  min : ∀ S, Fam g C entry S → totalWeight (adj g) (treeOf C root entry.father) ≤ totalWeight (adj g) S
  second : Second (adj g) C (edgesOf entry.included) (edgesOf entry.excluded) (treeOf C root entry.father) entry.weight entry.e entry.f

variable {g : Graph V W} {C : Finset V} {root : V} {edges : List (V × V)}

/-- A new entry. -/
theorem entry_mk [IsOrderedAddMonoid W] (hg : Good g) (hC : ∀ v, v ∈ C ↔ Mem g v) (hE : EdgeList g edges) {T : Finset (V × V)} {father : Links V}
    (h : IsTree g C root T father) {included excluded : List (V × V)} (hi : ∀ p ∈ included, norm p ∈ T) (hnd : (included.map norm).Nodup)
    (hx : ∀ p ∈ excluded, norm p ∈ edges) (hfam : InFamily (adj g) C (edgesOf included) (edgesOf excluded) T)
    (hmin : ∀ S, InFamily (adj g) C (edgesOf included) (edgesOf excluded) S → totalWeight (adj g) T ≤ totalWeight (adj g) S) :
    ∃ best : Best V W, findExchange g edges father included excluded ∅ = pure (best, ∅) ∧
      EntryOK g C root edges ⟨((totalWeight (adj g) T : W) : WithTop W) + best.1, best.2.1, best.2.2, father, included, excluded⟩ := by
  obtain ⟨best, h1, h2⟩ := findExchange_spec hg hC h hE hi hnd hx
  have he := h.eq
  subst he
  exact ⟨best, h1, h, hi, hnd, hx, hfam, hmin, second_spec hg hC h hE hfam hmin h2⟩

omit [AddCommGroup W] [LinearOrder W] in
theorem edgesOf_append (l : List (V × V)) (e : V × V) : edgesOf (l ++ [e]) = insert (norm e) (edgesOf l) := by
  ext p
  simp [edgesOf, or_comm]

/-- A tree of the family that is not its lightest one is not lighter than the second best. -/
theorem EntryOK.le {entry : Entry V W} (h : EntryOK g C root edges entry) {S : Finset (V × V)} (hS : Fam g C entry S)
    (hne : S ≠ treeOf C root entry.father) : entry.weight ≤ ((totalWeight (adj g) S : W) : WithTop W) := by
  rcases h.second with ⟨-, -, -, h1⟩ | ⟨a, b, p, -, -, -, -, -, -, -, h1, h2⟩
  · exact absurd (h1 S hS) hne
  · rw [h1, WithTop.coe_le_coe]; exact h2 S hS hne

/-- A lower bound for the second best tree. -/
theorem EntryOK.bound {entry : Entry V W} (h : EntryOK g C root edges entry) {c : W}
    (hc : ∀ S, Fam g C entry S → S ≠ treeOf C root entry.father → c ≤ totalWeight (adj g) S) : (c : WithTop W) ≤ entry.weight := by
  rcases h.second with ⟨h1, -⟩ | ⟨a, b, p, -, -, -, -, h3, -, h4, h1, -⟩
  · rw [h1]; exact le_top
  · rw [h1, WithTop.coe_le_coe]
    refine hc _ h4 (fun he => h3 ?_)
    rw [← he]; exact Finset.mem_insert_self _ _

/-- One round of the loop. -/
theorem round_spec [IsOrderedAddMonoid W] (hg : Good g) (hC : ∀ v, v ∈ C ↔ Mem g v) (hE : EdgeList g edges) {entry : Entry V W}
    (h : EntryOK g C root edges entry) (hw : entry.weight ≠ ⊤) :
    ∃ w e f tree father', nextTree root entry = pure (some (w, e, f, tree, father')) ∧ entry.weight = (w : WithTop W) ∧
      tree.Pairwise (fun a b => toLex a < toLex b) ∧ SpanningTree (adj g) C tree.toFinset ∧ w = totalWeight (adj g) tree.toFinset ∧
      Fam g C entry tree.toFinset ∧ tree.toFinset ≠ treeOf C root entry.father ∧
      ∃ e1 e2, EntryOK g C root edges e1 ∧ EntryOK g C root edges e2 ∧ treeOf C root e1.father = treeOf C root entry.father ∧
        treeOf C root e2.father = tree.toFinset ∧ (∀ S, Fam g C entry S ↔ Fam g C e1 S ∨ Fam g C e2 S) ∧
        (∀ S, Fam g C e1 S → ¬ Fam g C e2 S) ∧ (w : WithTop W) ≤ e1.weight ∧ (w : WithTop W) ≤ e2.weight ∧
        ∀ lt heap, afterYield lt g edges entry w e f father' heap ∅ =
          ofExcept (heappush lt heap e1) >>= fun heap => ofExcept (heappush lt heap e2) >>= fun heap => pure (heap, ∅) := by
  obtain ⟨weight, eo, fo, father, included, excluded⟩ := entry
  rcases h.second with ⟨h1, -⟩ | ⟨a, b, p, s1, s2, s3, s4, s5, s6, s7, s8, s9⟩
  · exact absurd h1 hw
  dsimp only at s1 s2 s3 s4 s5 s6 s7 s8 s9
  subst s1 s2
  set T := treeOf C root father with hT
  set T' := insert p (T.erase (pair a b)) with hT'
  have htree : IsTree g C root T father := h.tree
  have hpT' : p ∈ T' := Finset.mem_insert_self _ _
  obtain ⟨hp1, hp2, hp3, wp, hwp⟩ := s7.tree.edge p.1 p.2 hpT'
  obtain ⟨father', f1, f2⟩ := newFather_spec hg hC htree s3 hp1 ⟨hp2, hp3⟩ s7.tree
  obtain ⟨tree, t1, t2, t3⟩ := treeEdges_spec f2
  have hne : T' ≠ T := fun he => s5 (he ▸ hpT')
  obtain ⟨k1, k2, k3, wa, hwa⟩ := htree.given.rooted.tree.edge _ _ s3
  have hab : adj g a b = some wa := by
    rcases le_total a b with hle | hle
    · rw [min_eq_left hle, max_eq_right hle] at hwa; exact hwa
    · rw [min_eq_right hle, max_eq_left hle] at hwa; rw [hg.symm]; exact hwa
  have hfam : InFamily (adj g) C (edgesOf included) (edgesOf excluded) T := h.fam
  have hnT' : pair a b ∉ T' := by
    rw [hT', Finset.mem_insert, not_or]
    exact ⟨fun he => s5 (he ▸ s3), Finset.notMem_erase _ _⟩
  have habE : pair a b ∈ edges := (hE.mem _).2 ⟨k1.le, wa, hwa⟩
  -- the families
  have hf1 : ∀ S, InFamily (adj g) C (edgesOf (included ++ [(a, b)])) (edgesOf excluded) S ↔
      InFamily (adj g) C (edgesOf included) (edgesOf excluded) S ∧ pair a b ∈ S := by
    intro S
    rw [edgesOf_append]
    constructor
    · intro hS
      exact ⟨⟨hS.tree, (Finset.subset_insert _ _).trans hS.inc, hS.exc⟩, hS.inc (Finset.mem_insert_self _ _)⟩
    · rintro ⟨hS, hm⟩
      exact ⟨hS.tree, Finset.insert_subset hm hS.inc, hS.exc⟩
  have hf2 : ∀ S, InFamily (adj g) C (edgesOf included) (edgesOf (excluded ++ [(a, b)])) S ↔
      InFamily (adj g) C (edgesOf included) (edgesOf excluded) S ∧ pair a b ∉ S := by
    intro S
    rw [edgesOf_append]
    constructor
    · intro hS
      exact ⟨⟨hS.tree, hS.inc, fun q hq => hS.exc q (Finset.mem_insert_of_mem hq)⟩, hS.exc _ (Finset.mem_insert_self _ _)⟩
    · rintro ⟨hS, hm⟩
      refine ⟨hS.tree, hS.inc, fun q hq => ?_⟩
      rcases Finset.mem_insert.1 hq with rfl | hq
      · exact hm
      · exact hS.exc q hq
  obtain ⟨b1, c1, c2⟩ := entry_mk hg hC hE htree (included := included ++ [(a, b)]) (excluded := excluded) (by
      intro q hq
      rcases List.mem_append.1 hq with hq | hq
      · exact h.inc q hq
      · rw [List.mem_singleton] at hq
        rw [hq]; exact s3) (by
      rw [List.map_append, List.nodup_append]
      refine ⟨h.nodup, List.nodup_singleton _, ?_⟩
      rintro x hx y hy rfl
      rw [List.map_singleton, List.mem_singleton] at hy
      subst hy
      exact s4 (List.mem_toFinset.2 hx)) h.exc ((hf1 T).2 ⟨hfam, s3⟩) (fun S hS => h.min S ((hf1 S).1 hS).1)
  obtain ⟨b2, d1, d2⟩ := entry_mk hg hC hE f2 (included := included) (excluded := excluded ++ [(a, b)]) (by
      intro q hq
      have := h.inc q hq
      refine Finset.mem_insert_of_mem (Finset.mem_erase.2 ⟨fun he => s4 ?_, this⟩)
      rw [← he]
      exact List.mem_toFinset.2 (List.mem_map.2 ⟨q, hq, rfl⟩)) h.nodup (by
      intro q hq
      rcases List.mem_append.1 hq with hq | hq
      · exact h.exc q hq
      · rw [List.mem_singleton] at hq
        rw [hq]; exact habE) ((hf2 T').2 ⟨s7, hnT'⟩) (fun S hS => by
      obtain ⟨hS1, hS2⟩ := (hf2 S).1 hS
      exact s9 S hS1 (fun he => hS2 (he ▸ s3)))
  have htw : totalWeight (adj g) T' - wp + wa = totalWeight (adj g) T := by
    have hpn : p ∉ T.erase (pair a b) := fun hp => s5 (Finset.mem_of_mem_erase hp)
    have := totalWeight_swap (A := adj g) s3 hpn
    rw [hT', this, edgeWeight, edgeWeight, hwp]
    rw [show adj g (pair a b).1 (pair a b).2 = some wa from hwa]
    simp only [Option.getD_some]
    abel
  refine ⟨totalWeight (adj g) T', (a, b), p, tree, father', ?_, s8, t2, by rw [t3]; exact s7.tree, by rw [t3], by rw [t3]; exact s7, by rw [t3]; exact hne,
    _, _, c2, d2, rfl, ?_, ?_, ?_, ?_, ?_, ?_⟩
  · rw [nextTree]
    simp only [s8, f1, pure_bind, t1]
    rfl
  · rw [t3]; exact f2.eq
  · intro S
    show InFamily _ _ _ _ _ ↔ InFamily _ _ _ _ _ ∨ InFamily _ _ _ _ _
    rw [hf1, hf2]
    by_cases hm : pair a b ∈ S
    · exact ⟨fun hS => Or.inl ⟨hS, hm⟩, fun hS => hS.elim (fun x => x.1) (fun x => x.1)⟩
    · exact ⟨fun hS => Or.inr ⟨hS, hm⟩, fun hS => hS.elim (fun x => x.1) (fun x => x.1)⟩
  · intro S h1 h2
    exact ((hf2 S).1 h2).2 ((hf1 S).1 h1).2
  · exact c2.bound (fun S hS hne => s9 S ((hf1 S).1 hS).1 hne)
  · refine d2.bound (fun S hS _ => s9 S ((hf2 S).1 hS).1 (fun he => ((hf2 S).1 hS).2 (he ▸ s3)))
  · intro lt heap
    rw [afterYield]
    simp only [weightOf_eq hwp, weightOf_eq hab, pure_bind, c1, d1, htw]
    rfl

/-- The invariant: `Ys` are the trees yielded so far, the last one of weight `c`. -/
structure GInv (g : Graph V W) (C : Finset V) (root : V) (edges : List (V × V)) (heap : List (Entry V W)) (Ys : List (Finset (V × V)))
    (c : W) : Prop where
  ok : ∀ e ∈ heap, EntryOK g C root edges e
  isHeap : IsHeap Entry.weight heap
  disj : heap.Pairwise (fun a b => ∀ S, Fam g C a S → ¬ Fam g C b S)
  cover : ∀ S, SpanningTree (adj g) C S → ∃ e ∈ heap, Fam g C e S
  trees : (heap.map (fun e => treeOf C root e.father)).Perm Ys
  low : ∀ e ∈ heap, (c : WithTop W) ≤ e.weight

theorem GInv.tree {heap : List (Entry V W)} {Ys : List (Finset (V × V))} {c : W} (h : GInv g C root edges heap Ys c) {S : Finset (V × V)}
    (hS : S ∈ Ys) : SpanningTree (adj g) C S := by
  obtain ⟨e, he, rfl⟩ := List.mem_map.1 (h.trees.mem_iff.2 hS)
  exact (h.ok e he).fam.tree

theorem GInv.nodup {heap : List (Entry V W)} {Ys : List (Finset (V × V))} {c : W} (h : GInv g C root edges heap Ys c) : Ys.Nodup := by
  rw [← h.trees.nodup_iff, List.Nodup, List.pairwise_map]
  refine h.disj.imp_of_mem (fun {a b} ha hb hd he => hd _ (h.ok a ha).fam ?_)
  rw [he]
  exact (h.ok b hb).fam

theorem GInv.length_le (hg : Good g) {heap : List (Entry V W)} {Ys : List (Finset (V × V))} {c : W} (h : GInv g C root edges heap Ys c) :
    Ys.length ≤ (edgeSet g).powerset.card := by
  rw [← List.toFinset_card_of_nodup h.nodup]
  refine Finset.card_le_card (fun S hS => Finset.mem_powerset.2 (fun p hp => ?_))
  obtain ⟨h1, -, -, h2⟩ := (h.tree (List.mem_toFinset.1 hS)).edge p.1 p.2 hp
  exact (mem_edgeSet hg).2 ⟨h1.le, h2⟩

/-- A tree that has not been yielded is not lighter than the lightest entry. -/
theorem GInv.le {heap : List (Entry V W)} {Ys : List (Finset (V × V))} {c : W} (h : GInv g C root edges heap Ys c) {d : W}
    (hd : ∀ e ∈ heap, (d : WithTop W) ≤ e.weight) {S : Finset (V × V)} (hS : SpanningTree (adj g) C S) (hn : S ∉ Ys) :
    d ≤ totalWeight (adj g) S := by
  obtain ⟨e, he, hf⟩ := h.cover S hS
  have := (hd e he).trans ((h.ok e he).le hf (fun heq => hn (h.trees.mem_iff.1 (List.mem_map.2 ⟨e, he, heq.symm⟩))))
  exact WithTop.coe_le_coe.1 this

/-- At the end all trees have been yielded. -/
theorem GInv.complete {heap : List (Entry V W)} {Ys : List (Finset (V × V))} {c : W} (h : GInv g C root edges heap Ys c)
    (ht : ∀ e ∈ heap, e.weight = ⊤) {S : Finset (V × V)} (hS : SpanningTree (adj g) C S) : S ∈ Ys := by
  by_contra hn
  obtain ⟨e, he, hf⟩ := h.cover S hS
  have := (h.ok e he).le hf (fun heq => hn (h.trees.mem_iff.1 (List.mem_map.2 ⟨e, he, heq.symm⟩)))
  rw [ht e he] at this
  exact absurd this (by simp)

/-- What the loop yields, after the trees `Ys`, the last one of weight `c`; `err` is the exception at the end. -/
structure Yields (lt : Entry V W → Entry V W → Except PyErr Bool) (g : Graph V W) (C : Finset V) (root : V) (edges : List (V × V)) (k : Option ℕ)
    (Ys : List (Finset (V × V))) (c : W) (ys : List (W × List (V × V))) (err : Option PyErr) : Prop where
  tree : ∀ y ∈ ys, SpanningTree (adj g) C y.2.toFinset ∧ y.1 = totalWeight (adj g) y.2.toFinset ∧ y.2.Pairwise (fun a b => toLex a < toLex b)
  nodup : (Ys ++ ys.map (fun y => y.2.toFinset)).Nodup
  sorted : (c :: ys.map Prod.fst).Pairwise (· ≤ ·)
  light : ∀ S, SpanningTree (adj g) C S → S ∉ Ys ++ ys.map (fun y => y.2.toFinset) → ∀ y ∈ ys, y.1 ≤ totalWeight (adj g) S
  length : ∀ m, k = some m → ys.length ≤ m
  ends : err = none → k = some ys.length ∨ ∃ heap x d, heappop lt heap = .ok x ∧ GInv g C root edges heap (Ys ++ ys.map (fun y => y.2.toFinset)) d ∧
    ∀ e ∈ heap, e.weight = ⊤
  error : ∀ er, err = some er → ∃ a b, lt a b = .error er

/-- The end of the generator. -/
theorem yields_nil {lt : Entry V W → Entry V W → Except PyErr Bool} {k : Option ℕ} {heap : List (Entry V W)} {Ys : List (Finset (V × V))} {c : W}
    {err : Option PyErr} (hI : GInv g C root edges heap Ys c)
    (hends : err = none → k = some 0 ∨ ∃ x, heappop lt heap = .ok x ∧ ∀ e ∈ heap, e.weight = ⊤)
    (herr : ∀ er, err = some er → ∃ a b, lt a b = .error er) : Yields lt g C root edges k Ys c [] err := by
  refine ⟨by simp, by simpa using hI.nodup, by simp, by simp, by simp, fun he => ?_, herr⟩
  rcases hends he with h | ⟨x, h1, h2⟩
  · left; simpa using h
  · right; exact ⟨heap, x, c, h1, by simpa using hI, h2⟩

theorem gabowLoop_spec [IsOrderedAddMonoid W] (hg : Good g) (hC : ∀ v, v ∈ C ↔ Mem g v) (hE : EdgeList g edges)
    {lt : Entry V W → Entry V W → Except PyErr Bool} (hlt : Respects lt Entry.weight) :
    ∀ (n : ℕ) (k : Option ℕ) (heap : List (Entry V W)) (Ys : List (Finset (V × V))) (c : W), GInv g C root edges heap Ys c → Ys ≠ [] →
      (edgeSet g).powerset.card < n + Ys.length →
      ∃ ys err, gabowLoop lt g edges root k heap ∅ = some (ys, err) ∧ Yields lt g C root edges k Ys c ys err := by
  intro n
  induction n with
  | zero =>
    intro k heap Ys c hI hne hn
    have := hI.length_le hg
    omega
  | succ n ih =>
    intro k heap Ys c hI hne hn
    have hhe : heap ≠ [] := by
      rintro rfl
      exact hne (List.Perm.eq_nil hI.trees.symm)
    rw [gabowLoop]
    by_cases hk : k = some 0
    · rw [if_pos hk]
      exact ⟨[], none, rfl, yields_nil hI (fun _ => Or.inl hk) (by simp)⟩
    rw [if_neg hk]
    rcases hpop : heappop lt heap with er | ⟨entry, rest⟩
    · exact ⟨[], some er, rfl, yields_nil hI (by simp) (fun er' he => by
        injection he with he
        rw [← he]
        exact heappop_error hhe hpop)⟩
    obtain ⟨p1, p2, p3⟩ := heappop_spec hlt hI.isHeap hpop
    have hent : entry ∈ heap := p2.mem_iff.2 List.mem_cons_self
    have hok := hI.ok entry hent
    by_cases hw : entry.weight = ⊤
    · have hnt : nextTree root entry = pure none := by
        obtain ⟨weight, eo, fo, father, included, excluded⟩ := entry
        dsimp only at hw
        rw [nextTree]
        simp only [hw]
      dsimp only
      rw [hnt]
      refine ⟨[], none, rfl, yields_nil hI (fun _ => Or.inr ⟨_, hpop, fun e he => ?_⟩) (by simp)⟩
      have := p3 e he
      rw [hw] at this
      exact top_le_iff.1 this
    obtain ⟨w, e, f, tree, father', n1, n2, n3, n4, n5, n6, n7, e1, e2, r1, r2, r3, r4, r5, r6, r7, r8, r9⟩ := round_spec hg hC hE hok hw
    have hcw : c ≤ w := by
      have := hI.low entry hent
      rw [n2] at this
      exact WithTop.coe_le_coe.1 this
    have hlow : ∀ e ∈ heap, (w : WithTop W) ≤ e.weight := fun e he => by
      have := p3 e he
      rw [n2] at this
      exact this
    have hdisj : (entry :: rest).Pairwise (fun a b => ∀ S, Fam g C a S → ¬ Fam g C b S) :=
      (p2.pairwise_iff (fun {a b} h S h1 h2 => h S h2 h1)).1 hI.disj
    rw [List.pairwise_cons] at hdisj
    have hnew : tree.toFinset ∉ Ys := by
      intro hm
      obtain ⟨e0, he0, h0⟩ := List.mem_map.1 (hI.trees.mem_iff.2 hm)
      rcases List.mem_cons.1 (p2.mem_iff.1 he0) with rfl | hr
      · exact n7 h0.symm
      · refine hdisj.1 e0 hr _ n6 ?_
        rw [← h0]
        exact (hI.ok e0 he0).fam
    have hlight : ∀ S, SpanningTree (adj g) C S → S ∉ Ys → w ≤ totalWeight (adj g) S := fun S hS hn => hI.le hlow hS hn
    have hnd : (Ys ++ [tree.toFinset]).Nodup := by
      rw [List.nodup_append]
      refine ⟨hI.nodup, List.nodup_singleton _, ?_⟩
      rintro a ha b hb rfl
      rw [List.mem_singleton] at hb
      exact hnew (hb ▸ ha)
    have hlen : ∀ m, k = some m → 1 ≤ m := by
      rintro m rfl
      by_contra h0
      exact hk (by congr 1; omega)
    have hone : ∀ er, (∃ a b, lt a b = .error er) → Yields lt g C root edges k Ys c [(w, tree)] (some er) := by
      intro er her
      refine ⟨?_, by simpa using hnd, by simpa using hcw, ?_, by simpa using hlen, by simp, ?_⟩
      · intro y hy
        rw [List.mem_singleton] at hy
        subst hy
        exact ⟨n4, n5, n3⟩
      · intro S hS hn y hy
        rw [List.mem_singleton] at hy
        subst hy
        exact hlight S hS (fun hm => hn (List.mem_append_left _ hm))
      · intro er' he
        injection he with he
        rw [← he]; exact her
    dsimp only
    rw [n1]
    show ∃ ys err, (match (afterYield lt g edges entry w e f father' rest ∅).run with
        | none => none
        | some (.error e) => some ([(w, tree)], some e)
        | some (.ok (heap, marked)) => do
          let r ← gabowLoop lt g edges root (k.map (· - 1)) heap marked
          some ((w, tree) :: r.1, r.2)) = some (ys, err) ∧ _
    rw [r9]
    rcases h1 : heappush lt rest e1 with er | heap1
    · exact ⟨_, some er, rfl, hone er (heappush_error h1)⟩
    rcases h2 : heappush lt heap1 e2 with er | heap2
    · refine ⟨[(w, tree)], some er, ?_, hone er (heappush_error h2)⟩
      show (match (ofExcept (heappush lt heap1 e2) >>= fun heap => pure (heap, (∅ : Finset (V × V)))).run with
        | none => none
        | some (.error e) => some ([(w, tree)], some e)
        | some (.ok (heap, marked)) => do
          let r ← gabowLoop lt g edges root (k.map (· - 1)) heap marked
          some ((w, tree) :: r.1, r.2)) = some ([(w, tree)], some er)
      rw [h2]
      rfl
    obtain ⟨q1, q2⟩ := heappush_spec hlt p1 e1 h1
    obtain ⟨q3, q4⟩ := heappush_spec hlt q1 e2 h2
    have hperm : heap2.Perm (e2 :: e1 :: rest) := q4.trans (q2.cons e2)
    have hI' : GInv g C root edges heap2 (Ys ++ [tree.toFinset]) w := by
      refine ⟨?_, q3, ?_, ?_, ?_, ?_⟩
      · intro e he
        rcases List.mem_cons.1 (hperm.mem_iff.1 he) with rfl | he
        · exact r2
        · rcases List.mem_cons.1 he with rfl | he
          · exact r1
          · exact hI.ok e (p2.mem_iff.2 (List.mem_cons_of_mem _ he))
      · refine (hperm.pairwise_iff (fun {a b} h S h1 h2 => h S h2 h1)).2 ?_
        rw [List.pairwise_cons, List.pairwise_cons]
        refine ⟨?_, ?_, hdisj.2⟩
        · intro b hb S hS hS'
          rcases List.mem_cons.1 hb with rfl | hb
          · exact r6 S hS' hS
          · exact hdisj.1 b hb S ((r5 S).2 (Or.inr hS)) hS'
        · intro b hb S hS
          exact hdisj.1 b hb S ((r5 S).2 (Or.inl hS))
      · intro S hS
        obtain ⟨e0, he0, h0⟩ := hI.cover S hS
        rcases List.mem_cons.1 (p2.mem_iff.1 he0) with rfl | hr
        · rcases (r5 S).1 h0 with h3 | h3
          · exact ⟨e1, hperm.mem_iff.2 (by simp), h3⟩
          · exact ⟨e2, hperm.mem_iff.2 (by simp), h3⟩
        · exact ⟨e0, hperm.mem_iff.2 (by simp [hr]), h0⟩
      · refine (hperm.map _).trans ?_
        rw [List.map_cons, List.map_cons, r3, r4]
        refine List.Perm.trans ?_ (List.perm_append_singleton _ _).symm
        refine List.Perm.cons _ ?_
        have := (p2.map (fun e : Entry V W => treeOf C root e.father)).symm.trans hI.trees
        rw [List.map_cons] at this
        exact this
      · intro e he
        rcases List.mem_cons.1 (hperm.mem_iff.1 he) with rfl | he
        · exact r8
        · rcases List.mem_cons.1 he with rfl | he
          · exact r7
          · exact hlow e (p2.mem_iff.2 (List.mem_cons_of_mem _ he))
    obtain ⟨ys, err, g1, g2⟩ := ih (k.map (· - 1)) heap2 (Ys ++ [tree.toFinset]) w hI' (by simp) (by
      rw [List.length_append, List.length_singleton]; omega)
    refine ⟨(w, tree) :: ys, err, ?_, ?_, ?_, ?_, ?_, ?_, ?_, g2.error⟩
    · show (match (ofExcept (heappush lt heap1 e2) >>= fun heap => pure (heap, (∅ : Finset (V × V)))).run with
        | none => none
        | some (.error e) => some ([(w, tree)], some e)
        | some (.ok (heap, marked)) => do
          let r ← gabowLoop lt g edges root (k.map (· - 1)) heap marked
          some ((w, tree) :: r.1, r.2)) = some ((w, tree) :: ys, err)
      rw [h2]
      show (do
          let r ← gabowLoop lt g edges root (k.map (· - 1)) heap2 ∅
          some ((w, tree) :: r.1, r.2)) = some ((w, tree) :: ys, err)
      rw [g1]
      rfl
    · intro y hy
      rcases List.mem_cons.1 hy with rfl | hy
      · exact ⟨n4, n5, n3⟩
      · exact g2.tree y hy
    · have := g2.nodup
      rw [List.append_assoc] at this
      exact this
    · have := g2.sorted
      rw [List.map_cons, List.pairwise_cons]
      refine ⟨?_, this⟩
      intro x hx
      rcases List.mem_cons.1 hx with rfl | hx
      · exact hcw
      · exact hcw.trans ((List.pairwise_cons.1 this).1 x hx)
    · intro S hS hn y hy
      have hn' : S ∉ (Ys ++ [tree.toFinset]) ++ ys.map (fun y => y.2.toFinset) := by
        rw [List.append_assoc]; exact hn
      rcases List.mem_cons.1 hy with rfl | hy
      · exact hlight S hS (fun hm => hn (List.mem_append_left _ hm))
      · exact g2.light S hS hn' y hy
    · rintro m rfl
      have h3 := g2.length (m - 1) rfl
      have h4 := hlen m rfl
      rw [List.length_cons]; omega
    · intro he
      rcases g2.ends he with h3 | ⟨heap', x, d, h3, h4, h5⟩
      · left
        cases k with
        | none => simp at h3
        | some m =>
          have h4 := hlen m rfl
          simp only [Option.map_some, Option.some.injEq] at h3
          rw [List.length_cons, Option.some.injEq]
          omega
      · right
        refine ⟨heap', x, d, h3, ?_, h5⟩
        rw [List.append_assoc] at h4
        exact h4

end Rosemary.Gabow
