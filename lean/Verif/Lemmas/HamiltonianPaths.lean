import Verif.Lemmas.MaxCliqueMasks
import Verif.Model.HamiltonianPaths
import Verif.Spec.Hamiltonian
import Mathlib.Data.Set.Card
import Mathlib.Data.List.TakeWhile

/-!
# Lemmas on Hamiltonian paths
-/

namespace Rosemary.HamiltonianPaths

open Rosemary.Graph Rosemary.Spec Rosemary.Cliques
open Rosemary.Traversal (E)

variable {V W : Type} [DecidableEq V]

/-- `s` continues a path from `last` through exactly the vertices of `U`. -/
def PathsFrom (g : Graph V W) (last : V) (U : Finset V) (s : List V) : Prop :=
  s.Nodup ∧ (∀ v, v ∈ s ↔ v ∈ U) ∧ (last :: s).IsChain (E g)

theorem pathsFrom_empty (g : Graph V W) (last : V) (s : List V) : PathsFrom g last ∅ s ↔ s = [] := by
  constructor
  · rintro ⟨-, h, -⟩
    rw [List.eq_nil_iff_forall_not_mem]
    intro v hv
    simpa using (h v).1 hv
  · rintro rfl
    exact ⟨by simp, by simp, by simp⟩

theorem pathsFrom_step (g : Graph V W) (last : V) {U : Finset V} (hU : U ≠ ∅) (s : List V) :
    PathsFrom g last U s ↔ ∃ v ∈ nb g last ∩ U, ∃ t, s = v :: t ∧ PathsFrom g v (U.erase v) t := by
  constructor
  · rintro ⟨h1, h2, h3⟩
    cases s with
    | nil =>
      exfalso; apply hU
      rw [Finset.eq_empty_iff_forall_notMem]
      intro v hv
      simpa using (h2 v).2 hv
    | cons v t =>
      rw [List.isChain_cons_cons] at h3
      rw [List.nodup_cons] at h1
      refine ⟨v, Finset.mem_inter.2 ⟨mem_nb.2 h3.1, (h2 v).1 List.mem_cons_self⟩, t, rfl, h1.2, ?_, h3.2⟩
      intro w
      rw [Finset.mem_erase, ← h2 w, List.mem_cons]
      constructor
      · intro hw; exact ⟨by rintro rfl; exact h1.1 hw, Or.inr hw⟩
      · rintro ⟨h, h' | h'⟩
        · exact absurd h' h
        · exact h'
  · rintro ⟨v, hv, t, rfl, h1, h2, h3⟩
    rw [Finset.mem_inter, mem_nb] at hv
    have hvt : v ∉ t := fun h => (Finset.mem_erase.1 ((h2 v).1 h)).1 rfl
    refine ⟨List.nodup_cons.2 ⟨hvt, h1⟩, ?_, List.isChain_cons_cons.2 ⟨hv.1, h3⟩⟩
    intro w
    rw [List.mem_cons, h2, Finset.mem_erase]
    constructor
    · rintro (rfl | h)
      · exact hv.2
      · exact h.2
    · intro h
      by_cases hw : w = v
      · exact Or.inl hw
      · exact Or.inr ⟨hw, h⟩

theorem extend_spec {ord : List V → Finset V → List V}
    (hord : ∀ c S, (ord c S).Nodup ∧ ∀ x, x ∈ ord c S ↔ x ∈ S) (g : Graph V W) (n : ℕ) :
    ∀ (used : List V) (last : V) (U : Finset V), U.card ≤ n →
    (extend ord g n used last U).Nodup ∧
      ∀ l, l ∈ extend ord g n used last U ↔ ∃ s, l = used ++ s ∧ PathsFrom g last U s := by
  have h0 : ∀ (used : List V) (last : V), ([used] : List (List V)).Nodup ∧
      ∀ l, l ∈ [used] ↔ ∃ s, l = used ++ s ∧ PathsFrom g last ∅ s := by
    intro used last
    refine ⟨by simp, fun l => ?_⟩
    rw [List.mem_singleton]
    constructor
    · rintro rfl; exact ⟨[], by simp, (pathsFrom_empty g last []).2 rfl⟩
    · rintro ⟨s, rfl, hs⟩
      rw [(pathsFrom_empty g last s).1 hs, List.append_nil]
  induction n with
  | zero =>
    intro used last U hU
    have : U = ∅ := Finset.card_eq_zero.1 (by omega)
    subst this
    rw [extend, if_pos rfl]
    exact h0 used last
  | succ n ih =>
    intro used last U hU
    rw [extend]
    by_cases he : U = ∅
    · subst he
      rw [if_pos rfl]
      exact h0 used last
    · rw [if_neg he]
      have hcard : ∀ v ∈ ord used (nb g last ∩ U), (U.erase v).card ≤ n := by
        intro v hv
        have := (Finset.mem_inter.1 (((hord _ _).2 v).1 hv)).2
        rw [Finset.card_erase_of_mem this]; omega
      refine ⟨?_, ?_⟩
      · rw [List.nodup_flatMap]
        refine ⟨fun v hv => (ih _ v _ (hcard v hv)).1, ?_⟩
        refine List.Pairwise.imp_of_mem ?_ (hord used (nb g last ∩ U)).1
        intro a b ha hb hne
        rw [Function.onFun, List.disjoint_left]
        intro l h1 h2
        obtain ⟨s, e1, -⟩ := ((ih _ a _ (hcard a ha)).2 l).1 h1
        obtain ⟨t, e2, -⟩ := ((ih _ b _ (hcard b hb)).2 l).1 h2
        rw [e1, List.append_assoc, List.append_assoc] at e2
        have := List.append_cancel_left e2
        simp only [List.cons_append, List.nil_append, List.cons.injEq] at this
        exact hne this.1
      · intro l
        rw [List.mem_flatMap]
        constructor
        · rintro ⟨v, hv, hl⟩
          obtain ⟨s, rfl, hs⟩ := ((ih _ v _ (hcard v hv)).2 l).1 hl
          exact ⟨v :: s, by simp, (pathsFrom_step g last he _).2 ⟨v, ((hord _ _).2 v).1 hv, s, rfl, hs⟩⟩
        · rintro ⟨s, rfl, hs⟩
          obtain ⟨v, hv, t, rfl, ht⟩ := (pathsFrom_step g last he _).1 hs
          have hv' := ((hord used (nb g last ∩ U)).2 v).2 hv
          exact ⟨v, hv', ((ih _ v _ (hcard v hv')).2 _).2 ⟨t, by simp, ht⟩⟩

/-- The number of continuations. -/
noncomputable def cnt (g : Graph V W) (last : V) (U : Finset V) : ℕ := {s | PathsFrom g last U s}.ncard

theorem ncard_of_list {α : Type} [DecidableEq α] {S : Set α} {l : List α} (hnd : l.Nodup) (h : ∀ x, x ∈ l ↔ x ∈ S) :
    S.ncard = l.length := by
  have : S = (l.toFinset : Set α) := by
    ext x
    rw [← h]; simp
  rw [this, Set.ncard_coe_finset, List.toFinset_card_of_nodup hnd]

theorem extend_length {ord : List V → Finset V → List V}
    (hord : ∀ c S, (ord c S).Nodup ∧ ∀ x, x ∈ ord c S ↔ x ∈ S) (g : Graph V W) (n : ℕ) (used : List V) (last : V)
    (U : Finset V) (hU : U.card ≤ n) : (extend ord g n used last U).length = cnt g last U := by
  obtain ⟨h1, h2⟩ := extend_spec hord g n used last U hU
  rw [cnt, ← Set.ncard_image_of_injective _ (List.append_right_injective used)]
  rw [ncard_of_list h1]
  intro l
  rw [h2, Set.mem_image]
  constructor
  · rintro ⟨s, rfl, hs⟩; exact ⟨s, hs, rfl⟩
  · rintro ⟨s, hs, rfl⟩; exact ⟨s, rfl, hs⟩

theorem cnt_empty (g : Graph V W) (last : V) : cnt g last ∅ = 1 := by
  rw [cnt]
  have : {s | PathsFrom g last ∅ s} = {[]} := by
    ext s; rw [Set.mem_setOf_eq, pathsFrom_empty]; rfl
  rw [this, Set.ncard_singleton]

theorem cnt_step (g : Graph V W) (last : V) {U : Finset V} (hU : U ≠ ∅) :
    cnt g last U = ∑ v ∈ nb g last ∩ U, cnt g v (U.erase v) := by
  have hord : ∀ (c : List V) (S : Finset V), ((fun _ S => S.toList : List V → Finset V → List V) c S).Nodup ∧
      ∀ x, x ∈ (fun _ S => S.toList : List V → Finset V → List V) c S ↔ x ∈ S :=
    fun _ S => ⟨S.nodup_toList, fun x => Finset.mem_toList⟩
  obtain ⟨n, hn⟩ : ∃ n, U.card = n + 1 := ⟨U.card - 1, by
    have := Finset.card_pos.2 (Finset.nonempty_iff_ne_empty.2 hU); omega⟩
  rw [← extend_length hord g U.card [] last U le_rfl, hn, extend, if_neg hU, List.length_flatMap]
  rw [← Finset.sum_map_toList]
  congr 1
  refine List.map_congr_left ?_
  intro v hv
  refine extend_length hord g n _ v _ ?_
  rw [Finset.card_erase_of_mem (Finset.mem_inter.1 (Finset.mem_toList.1 hv)).2]; omega

/-! ## Connectivity -/

/-- A search from `start`: the members of `T` have been reached, the neighbors of the members of `visited` too. -/
structure Search (N : V → Finset V) (start : V) (visited T : Finset V) : Prop where
  start_mem : start ∈ T
  sub : visited ⊆ T
  closed : ∀ u ∈ visited, N u ⊆ T
  reach : ∀ v ∈ T, Relation.ReflTransGen (fun a b => b ∈ N a) start v

theorem Search.step {N : V → Finset V} {start : V} {visited T T' : Finset V} (h : Search N start visited T) {u : V}
    (hu : u ∈ T) (hT : T' = T ∪ N u) : Search N start (insert u visited) T' := by
  subst hT
  refine ⟨Finset.mem_union_left _ h.start_mem, ?_, ?_, ?_⟩
  · intro v hv
    rcases Finset.mem_insert.1 hv with rfl | hv
    · exact Finset.mem_union_left _ hu
    · exact Finset.mem_union_left _ (h.sub hv)
  · intro v hv
    rcases Finset.mem_insert.1 hv with rfl | hv
    · exact Finset.subset_union_right
    · exact (h.closed v hv).trans Finset.subset_union_left
  · intro v hv
    rcases Finset.mem_union.1 hv with hv | hv
    · exact h.reach v hv
    · exact (h.reach u hu).tail hv

theorem Search.init (N : V → Finset V) (start : V) : Search N start ∅ {start} :=
  ⟨by simp, by simp, by simp, by intro v hv; rw [Finset.mem_singleton.1 hv]⟩

/-- At the end exactly the reachable vertices are visited. -/
theorem Search.done {N : V → Finset V} {start : V} {R : Finset V} (h : Search N start R R) (v : V) :
    v ∈ R ↔ Relation.ReflTransGen (fun a b => b ∈ N a) start v := by
  refine ⟨h.reach v, fun hr => ?_⟩
  induction hr with
  | refl => exact h.start_mem
  | tail _ hb ih => exact h.closed _ ih hb

theorem conLoop_spec {ord : Finset V → List V} (hord : ∀ S, (ord S).Nodup ∧ ∀ x, x ∈ ord S ↔ x ∈ S) {g : Graph V W}
    {allowed : Finset V} {start : V} (n : ℕ) : ∀ (stack : List V) (visited : Finset V),
    (∀ v ∈ stack, v ∈ allowed) → visited ⊆ allowed → (allowed \ visited).card ≤ n →
    Search (fun u => nb g u ∩ allowed) start visited (visited ∪ stack.toFinset) →
    conLoop ord g allowed n stack visited ⊆ allowed ∧
    Search (fun u => nb g u ∩ allowed) start (conLoop ord g allowed n stack visited)
      (conLoop ord g allowed n stack visited) := by
  induction n with
  | zero =>
    intro stack visited hs hv hc h
    rw [conLoop]
    refine ⟨hv, ?_⟩
    have h0 : allowed \ visited = ∅ := Finset.card_eq_zero.1 (by omega)
    have h1 : visited ∪ stack.toFinset = visited := by
      rw [Finset.union_eq_left]
      intro v hv'
      exact Finset.sdiff_eq_empty_iff_subset.1 h0 (hs v (List.mem_toFinset.1 hv'))
    rwa [h1] at h
  | succ n ih =>
    intro stack visited hs hv hc h
    rw [conLoop]
    have htd := List.takeWhile_append_dropWhile (p := fun v => decide (v ∈ visited)) (l := stack)
    have htake : ∀ v ∈ stack.takeWhile (fun v => decide (v ∈ visited)), v ∈ visited := by
      intro v hv'
      simpa using List.mem_takeWhile_imp hv'
    cases hd : stack.dropWhile (fun v => decide (v ∈ visited)) with
    | nil =>
      dsimp only
      refine ⟨hv, ?_⟩
      have h1 : visited ∪ stack.toFinset = visited := by
        rw [Finset.union_eq_left]
        intro v hv'
        rw [hd, List.append_nil] at htd
        rw [← htd, List.mem_toFinset] at hv'
        exact htake v hv'
      rwa [h1] at h
    | cons u rest =>
      dsimp only
      rw [hd] at htd
      have hu : u ∉ visited := by
        have := List.head_dropWhile_not (l := stack) (fun v => decide (v ∈ visited)) (by rw [hd]; simp)
        simpa [hd] using this
      have hust : u ∈ stack := by rw [← htd]; simp
      have hrest : ∀ v ∈ rest, v ∈ stack := by intro v hv'; rw [← htd]; simp [hv']
      refine ih _ _ ?_ ?_ ?_ ?_
      · intro v hv'
        rcases List.mem_append.1 hv' with h' | h'
        · rw [List.mem_reverse, List.mem_filter, (hord _).2] at h'
          exact (Finset.mem_inter.1 h'.1).2
        · exact hs v (hrest v h')
      · exact Finset.insert_subset (hs u hust) hv
      · have : (allowed \ insert u visited).card < (allowed \ visited).card := by
          refine Finset.card_lt_card ⟨?_, fun hsub => ?_⟩
          · exact Finset.sdiff_subset_sdiff (le_refl _) (Finset.subset_insert _ _)
          · have := hsub (Finset.mem_sdiff.2 ⟨hs u hust, hu⟩)
            simp at this
        omega
      · refine h.step (u := u) (by simp [hust]) ?_
        ext v
        simp only [Finset.mem_union, Finset.mem_insert, List.mem_toFinset, List.mem_append, List.mem_reverse,
          List.mem_filter, (hord _).2, Finset.mem_inter, decide_eq_true_eq]
        have hst : v ∈ stack → v ∈ visited ∨ v = u ∨ v ∈ rest := by
          intro hv'
          rw [← htd, List.mem_append, List.mem_cons] at hv'
          rcases hv' with h' | h' | h'
          · exact Or.inl (htake v h')
          · exact Or.inr (Or.inl h')
          · exact Or.inr (Or.inr h')
        have hr := hrest v
        by_cases hvv : v ∈ visited
        · simp [hvv]
        · by_cases hvu : v = u
          · subst hvu; simp [hust]
          · constructor
            · rintro ((rfl | h') | ⟨h', -⟩ | h')
              · exact absurd rfl hvu
              · exact absurd h' hvv
              · exact Or.inr h'
              · exact Or.inl (Or.inr (hr h'))
            · rintro ((h' | h') | h')
              · exact absurd h' hvv
              · rcases hst h' with h' | h' | h'
                · exact absurd h' hvv
                · exact absurd h' hvu
                · exact Or.inr (Or.inr h')
              · exact Or.inr (Or.inl ⟨h', hvv⟩)

theorem isConnected2_spec {ord : Finset V → List V} (hord : ∀ S, (ord S).Nodup ∧ ∀ x, x ∈ ord S ↔ x ∈ S)
    (g : Graph V W) {allowed : Finset V} (hne : allowed ≠ ∅) : ∃ start ∈ allowed, ∃ R ⊆ allowed,
      Search (fun u => nb g u ∩ allowed) start R R ∧ (isConnected2 ord g allowed = true ↔ R = allowed) := by
  rw [isConnected2]
  cases ho : ord allowed with
  | nil =>
    exfalso; apply hne
    rw [Finset.eq_empty_iff_forall_notMem]
    intro v hv
    have := ((hord allowed).2 v).2 hv
    rw [ho] at this; simp at this
  | cons u t =>
    dsimp only
    have hu : u ∈ allowed := ((hord allowed).2 u).1 (by rw [ho]; simp)
    obtain ⟨h1, h2⟩ := conLoop_spec hord (g := g) (allowed := allowed) (start := u) allowed.card [u] ∅ (by simpa using hu)
      (by simp) (by simp) (by simpa using Search.init (fun u => nb g u ∩ allowed) u)
    exact ⟨u, hu, _, h1, h2, by simp⟩

theorem chain_closed {g : Graph V W} (hg : Good g) {C : Finset V} {s : List V} (hs : s.IsChain (E g))
    (hC : ∀ a ∈ C, ∀ b ∈ s, E g a b → b ∈ C) (hne : ∃ a ∈ s, a ∈ C) : ∀ b ∈ s, b ∈ C := by
  induction s with
  | nil => simp
  | cons x t ih =>
    cases t with
    | nil =>
      obtain ⟨a, ha, haC⟩ := hne
      intro b hb
      rw [List.mem_singleton.1 hb, ← List.mem_singleton.1 ha]; exact haC
    | cons y t =>
      rw [List.isChain_cons_cons] at hs
      have hC' : ∀ a ∈ C, ∀ b ∈ y :: t, E g a b → b ∈ C := fun a ha b hb => hC a ha b (List.mem_cons_of_mem _ hb)
      have hyx : y ∈ C → x ∈ C := fun h => hC y h x List.mem_cons_self ((E_symm hg).1 hs.1)
      have hxy : x ∈ C → y ∈ C := fun h => hC x h y (List.mem_cons_of_mem _ List.mem_cons_self) hs.1
      have hyt : ∃ a ∈ y :: t, a ∈ C := by
        obtain ⟨a, ha, haC⟩ := hne
        rcases List.mem_cons.1 ha with rfl | ha
        · exact ⟨y, List.mem_cons_self, hxy haC⟩
        · exact ⟨a, ha, haC⟩
      have hall := ih hs.2 hC' hyt
      intro b hb
      rcases List.mem_cons.1 hb with rfl | hb
      · exact hyx (hall y List.mem_cons_self)
      · exact hall b hb

/-- A set of vertices with a path through it is visited completely. -/
theorem search_path {g : Graph V W} (hg : Good g) {last : V} {U : Finset V} {s : List V} (hs : PathsFrom g last U s)
    {start : V} (hst : start ∈ U) {R : Finset V} (hR : R ⊆ U) (h : Search (fun u => nb g u ∩ U) start R R) : R = U := by
  refine Finset.Subset.antisymm hR (fun v hv => ?_)
  obtain ⟨-, h2, h3⟩ := hs
  refine chain_closed hg (List.IsChain.tail h3) (C := R) ?_ ⟨start, (h2 start).2 hst, h.start_mem⟩ v ((h2 v).2 hv)
  intro a ha b hb he
  exact h.closed a ha (Finset.mem_inter.2 ⟨mem_nb.2 he, (h2 b).1 hb⟩)

theorem extendCon_eq {ord : List V → Finset V → List V}
    (hord : ∀ c S, (ord c S).Nodup ∧ ∀ x, x ∈ ord c S ↔ x ∈ S) {g : Graph V W} (hg : Good g) (n : ℕ) :
    ∀ (used : List V) (last : V) (U : Finset V), U.card ≤ n →
    extendCon ord g n used last U = extend ord g n used last U := by
  induction n with
  | zero => intro used last U _; rw [extendCon, extend]
  | succ n ih =>
    intro used last U hU
    rw [extendCon]
    by_cases he : U = ∅
    · rw [if_pos he, extend, if_pos he]
    · rw [if_neg he]
      obtain ⟨start, h1, R, h2, h3, h4⟩ := isConnected2_spec (hord used) g he
      by_cases hc : isConnected2 (ord used) g U = true
      · rw [if_pos hc, extend, if_neg he]
        have : ∀ (l : List V), (∀ v ∈ l, v ∈ U) →
            l.flatMap (fun v => extendCon ord g n (used ++ [v]) v (U.erase v)) =
              l.flatMap (fun v => extend ord g n (used ++ [v]) v (U.erase v)) := by
          intro l hl
          rw [List.flatMap_def, List.flatMap_def]
          congr 1
          refine List.map_congr_left (fun v hv => ih _ _ _ ?_)
          rw [Finset.card_erase_of_mem (hl v hv)]; omega
        exact this _ (fun v hv => (Finset.mem_inter.1 (((hord _ _).2 v).1 hv)).2)
      · rw [if_neg hc]
        symm
        rw [List.eq_nil_iff_forall_not_mem]
        intro l hl
        obtain ⟨s, -, hs⟩ := ((extend_spec hord g (n + 1) used last U hU).2 l).1 hl
        exact hc (h4.2 (search_path hg hs h1 h2 h3))

/-! ## `number_of_hamiltonian_paths` -/

theorem foldl_add {α : Type} (f : α → ℕ) (l : List α) : ∀ t, l.foldl (fun t u => t + f u) t = t + (l.map f).sum := by
  induction l with
  | nil => simp
  | cons a l ih => intro t; rw [List.foldl_cons, ih, List.map_cons, List.sum_cons]; omega

theorem ord_sum {ord : Finset V → List V} (hord : ∀ S, (ord S).Nodup ∧ ∀ x, x ∈ ord S ↔ x ∈ S) (S : Finset V)
    (f : V → ℕ) : ((ord S).map f).sum = ∑ v ∈ S, f v := by
  rw [← List.sum_toFinset f (hord S).1]
  congr 1
  ext v
  rw [List.mem_toFinset, (hord S).2]

theorem count_eq {ord : Finset V → List V} (hord : ∀ S, (ord S).Nodup ∧ ∀ x, x ∈ ord S ↔ x ∈ S) (g : Graph V W)
    (n : ℕ) : ∀ (last : V) (U : Finset V), U.card ≤ n → count ord g n last U = cnt g last U := by
  induction n with
  | zero =>
    intro last U hU
    have : U = ∅ := Finset.card_eq_zero.1 (by omega)
    subst this
    rw [count, if_pos rfl, cnt_empty]
  | succ n ih =>
    intro last U hU
    rw [count]
    by_cases he : U = ∅
    · subst he; rw [if_pos rfl, cnt_empty]
    · rw [if_neg he, foldl_add, Nat.zero_add, ord_sum hord, cnt_step g last he]
      refine Finset.sum_congr rfl (fun v hv => ih v _ ?_)
      rw [Finset.card_erase_of_mem (Finset.mem_inter.1 hv).2]; omega

/-- All Hamiltonian paths, by their first vertices. -/
theorem hamiltonian_iff (g : Graph V W) (l : List V) : IsHamiltonianPath {v | Mem g v} (E g) l ↔
    ∃ v ∈ vertexSet g, ∃ s, l = v :: s ∧ PathsFrom g v ((vertexSet g).erase v) s := by
  constructor
  · rintro ⟨h1, h2, h3, h4⟩
    cases l with
    | nil => exact absurd rfl h1
    | cons v s =>
      refine ⟨v, Graph.mem_vertexSet.2 ((h3 v).1 List.mem_cons_self), s, rfl, (List.nodup_cons.1 h2).2, ?_, h4⟩
      intro w
      rw [Finset.mem_erase, Graph.mem_vertexSet]
      constructor
      · intro hw; exact ⟨by rintro rfl; exact (List.nodup_cons.1 h2).1 hw, (h3 w).1 (List.mem_cons_of_mem _ hw)⟩
      · rintro ⟨hne, hw⟩
        rcases List.mem_cons.1 ((h3 w).2 hw) with h | h
        · exact absurd h hne
        · exact h
  · rintro ⟨v, hv, s, rfl, h1, h2, h3⟩
    have hvs : v ∉ s := fun h => (Finset.mem_erase.1 ((h2 v).1 h)).1 rfl
    refine ⟨by simp, List.nodup_cons.2 ⟨hvs, h1⟩, ?_, h3⟩
    intro w
    rw [List.mem_cons, h2, Finset.mem_erase, Graph.mem_vertexSet]
    rw [Graph.mem_vertexSet] at hv
    constructor
    · rintro (rfl | h)
      · exact hv
      · exact h.2
    · intro h
      by_cases hw : w = v
      · exact Or.inl hw
      · exact Or.inr ⟨hw, h⟩

theorem card_vertexSet_le (g : Graph V W) : (vertexSet g).card ≤ numVertices g :=
  (List.toFinset_card_le _).trans (by simp [numVertices, Dict.keys])

theorem hamiltonianPaths_spec {ord : List V → Finset V → List V}
    (hord : ∀ c S, (ord c S).Nodup ∧ ∀ x, x ∈ ord c S ↔ x ∈ S) (g : Graph V W) :
    (hamiltonianPaths ord g).Nodup ∧
      ∀ l, l ∈ hamiltonianPaths ord g ↔ IsHamiltonianPath {v | Mem g v} (E g) l := by
  have hcard : ∀ v, ((vertexSet g).erase v).card ≤ numVertices g := fun v =>
    (Finset.card_le_card (Finset.erase_subset _ _)).trans (card_vertexSet_le g)
  rw [hamiltonianPaths]
  refine ⟨?_, fun l => ?_⟩
  · rw [List.nodup_flatMap]
    refine ⟨fun v _ => (extend_spec hord g _ _ v _ (hcard v)).1, ?_⟩
    refine List.Pairwise.imp ?_ (hord [] (vertexSet g)).1
    intro a b hne
    rw [Function.onFun, List.disjoint_left]
    intro l h1 h2
    obtain ⟨s, e1, -⟩ := ((extend_spec hord g _ _ a _ (hcard a)).2 l).1 h1
    obtain ⟨t, e2, -⟩ := ((extend_spec hord g _ _ b _ (hcard b)).2 l).1 h2
    rw [e1] at e2
    simp only [List.cons_append, List.nil_append, List.cons.injEq] at e2
    exact hne e2.1
  · rw [List.mem_flatMap, hamiltonian_iff]
    constructor
    · rintro ⟨v, hv, hl⟩
      obtain ⟨s, rfl, hs⟩ := ((extend_spec hord g _ _ v _ (hcard v)).2 l).1 hl
      exact ⟨v, ((hord _ _).2 v).1 hv, s, rfl, hs⟩
    · rintro ⟨v, hv, s, rfl, hs⟩
      exact ⟨v, ((hord _ _).2 v).2 hv, ((extend_spec hord g _ _ v _ (hcard v)).2 _).2 ⟨s, rfl, hs⟩⟩

theorem total_eq (g : Graph V W) : {l | IsHamiltonianPath {v | Mem g v} (E g) l}.ncard =
    ∑ v ∈ vertexSet g, cnt g v ((vertexSet g).erase v) := by
  have hord : ∀ (c : List V) (S : Finset V), ((fun _ S => S.toList : List V → Finset V → List V) c S).Nodup ∧
      ∀ x, x ∈ (fun _ S => S.toList : List V → Finset V → List V) c S ↔ x ∈ S :=
    fun _ S => ⟨S.nodup_toList, fun x => Finset.mem_toList⟩
  obtain ⟨h1, h2⟩ := hamiltonianPaths_spec hord g
  rw [ncard_of_list (S := {l | IsHamiltonianPath {v | Mem g v} (E g) l}) h1 h2, hamiltonianPaths, List.length_flatMap, ← Finset.sum_map_toList]
  congr 1
  refine List.map_congr_left (fun v _ => extend_length hord g _ _ v _ ?_)
  exact (Finset.card_le_card (Finset.erase_subset _ _)).trans (card_vertexSet_le g)

end Rosemary.HamiltonianPaths
