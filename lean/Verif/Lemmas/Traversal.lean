import Verif.Lemmas.Graph
import Verif.Model.Traversal
import Verif.Spec.Walk

/-!
# Lemmas on breadth-first and depth-first search
-/

namespace Rosemary.Traversal

open Graph Spec

variable {V W : Type} [DecidableEq V]

/-- Adjacency as a relation. -/
def E (g : Graph V W) (u v : V) : Prop := v ∈ nbrs g u

theorem below_mono {md : Option ℤ} {a b : ℤ} (h : a ≤ b) (hb : below md b = true) : below md a = true := by
  cases md with
  | none => rfl
  | some m =>
    simp only [below, decide_eq_true_eq] at *
    omega

theorem bfsScan_spec (ks : List V) (hks : ks.Nodup) (vis : Finset V) :
    (bfsScan ks vis).1 = ks.filter (· ∉ vis) ∧ ∀ x, x ∈ (bfsScan ks vis).2 ↔ x ∈ vis ∨ x ∈ ks := by
  induction ks generalizing vis with
  | nil => simp [bfsScan]
  | cons v vs ih =>
    obtain ⟨h1, h2⟩ := List.nodup_cons.1 hks
    rw [bfsScan]
    by_cases hv : v ∈ vis
    · obtain ⟨i1, i2⟩ := ih h2 vis
      rw [if_pos hv, i1, List.filter_cons_of_neg (by simpa using hv)]
      refine ⟨rfl, fun x => ?_⟩
      rw [i2, List.mem_cons]
      constructor
      · tauto
      · rintro (h | rfl | h)
        · exact Or.inl h
        · exact Or.inl hv
        · exact Or.inr h
    · obtain ⟨i1, i2⟩ := ih h2 (insert v vis)
      rw [if_neg hv, List.filter_cons_of_pos (by simpa using hv)]
      dsimp only
      refine ⟨?_, fun x => ?_⟩
      · rw [i1]
        congr 1
        apply List.filter_congr
        intro x hx
        have : x ≠ v := fun e => h1 (e ▸ hx)
        simp [this]
      · rw [i2, Finset.mem_insert, List.mem_cons]; tauto

theorem treeScan_spec (u : V) (ks : List V) (hks : ks.Nodup) (prev : Dict V (Option V)) :
    (treeScan u ks prev).1 = ks.filter (· ∉ Dict.keys prev) ∧
      Dict.keys (treeScan u ks prev).2 = Dict.keys prev ++ ks.filter (· ∉ Dict.keys prev) ∧
      ∀ x, Dict.get? (treeScan u ks prev).2 x =
        if x ∈ ks ∧ x ∉ Dict.keys prev then some (some u) else Dict.get? prev x := by
  induction ks generalizing prev with
  | nil => simp [treeScan]
  | cons v vs ih =>
    obtain ⟨h1, h2⟩ := List.nodup_cons.1 hks
    rw [treeScan]
    by_cases hv : v ∈ Dict.keys prev
    · obtain ⟨i1, i2, i3⟩ := ih h2 prev
      rw [if_pos hv, i1, i2, List.filter_cons_of_neg (by simpa using hv)]
      refine ⟨rfl, rfl, fun x => ?_⟩
      rw [i3]
      by_cases hx : x = v
      · subst hx
        rw [if_neg (by tauto), if_neg (by tauto)]
      · have : x ∈ v :: vs ↔ x ∈ vs := by simp [hx]
        simp only [this]
    · obtain ⟨i1, i2, i3⟩ := ih h2 (Dict.set prev v (some u))
      have hk : Dict.keys (Dict.set prev v (some u)) = Dict.keys prev ++ [v] := by rw [Dict.keys_set, if_neg hv]
      have hf : vs.filter (· ∉ Dict.keys (Dict.set prev v (some u))) = vs.filter (· ∉ Dict.keys prev) := by
        apply List.filter_congr
        intro x hx
        have : x ≠ v := fun e => h1 (e ▸ hx)
        rw [hk]; simp [this]
      rw [if_neg hv, List.filter_cons_of_pos (by simpa using hv)]
      dsimp only
      refine ⟨by rw [i1, hf], by rw [i2, hf, hk, List.append_assoc]; rfl, fun x => ?_⟩
      rw [i3, Dict.get?_set]
      by_cases hx : x = v
      · subst hx
        rw [if_neg (by tauto), if_pos rfl, if_pos ⟨List.mem_cons_self, hv⟩]
      · rw [if_neg (fun e : v = x => hx e.symm)]
        have e1 : (x ∈ vs ∧ x ∉ Dict.keys (Dict.set prev v (some u))) ↔ (x ∈ v :: vs ∧ x ∉ Dict.keys prev) := by
          rw [hk]; simp [hx]
        simp only [e1]

/-- What holds whenever breadth-first search looks at its queue: `l` are the vertices yielded so far, of which `done`
have been taken from the queue `q`. -/
structure BInv (g : Graph V W) (s : V) (md : Option ℤ) (l : List V) (q : List (V × ℤ)) (done : List V)
    (prev : Dict V (Option V)) : Prop where
  split : l = done ++ q.map Prod.fst
  nodup : l.Nodup
  start : s ∈ l
  mem : ∀ x ∈ l, Mem g x
  queue : ∀ e ∈ q, ∃ n : ℕ, e.2 = n ∧ IsDist (E g) s e.1 n ∧ (n = 0 ∨ below md (n - 1 : ℤ) = true)
  inc : q.Pairwise (fun e f => e.2 ≤ f.2)
  spread : ∀ e ∈ q, ∀ f ∈ q, f.2 ≤ e.2 + 1
  fin : ∀ x ∈ done, ∃ n : ℕ, IsDist (E g) s x n ∧ (n = 0 ∨ below md (n - 1 : ℤ) = true) ∧ (∀ e ∈ q, (n : ℤ) ≤ e.2) ∧
    (below md n = true → ∀ y ∈ nbrs g x, y ∈ l)
  sorted : l.Pairwise (fun x y => ∀ n m, IsDist (E g) s x n → IsDist (E g) s y m → n ≤ m)
  par : ∀ v ∈ l, v = s ∨ ∃ d ∈ done, v ∈ nbrs g d
  order : md = none → ∀ l1 a l2, done = l1 ++ a :: l2 → ∃ m, m <+: l ∧ (∀ y ∈ nbrs g a, y ∈ m) ∧
    ∀ v ∈ m, v = s ∨ ∃ d ∈ l1 ++ [a], v ∈ nbrs g d
  keys : Dict.keys prev = l
  root : Dict.get? prev s = some none
  link : ∀ v p, Dict.get? prev v = some p → v ≠ s → ∃ u, p = some u ∧ u ∈ done ∧ v ∈ nbrs g u ∧
    ∃ n, IsDist (E g) s u n ∧ IsDist (E g) s v (n + 1)

theorem BInv.complete {g : Graph V W} {s : V} {md : Option ℤ} {l : List V} {u : V} {d : ℤ} {q : List (V × ℤ)}
    {done : List V} {prev : Dict V (Option V)} (h : BInv g s md l ((u, d) :: q) done prev) :
    ∀ (n : ℕ) (x : V), IsDist (E g) s x n → (n : ℤ) ≤ d → x ∈ l := by
  intro n
  induction n with
  | zero => intro x hx _; rw [isDist_zero_iff] at hx; subst hx; exact h.start
  | succ n ih =>
    intro x hx hn
    obtain ⟨y, hy, he⟩ := hx.pred
    have hyl := ih y hy (by push_cast at hn; omega)
    push_cast at hn
    rw [h.split, List.mem_append] at hyl
    rcases hyl with hyl | hyl
    · obtain ⟨n', h1, -, -, h3⟩ := h.fin y hyl
      obtain rfl := h1.unique hy
      refine h3 ?_ x he
      obtain ⟨k, hk, -, hk'⟩ := h.queue _ List.mem_cons_self
      dsimp only at hk
      rcases hk' with hk' | hk'
      · omega
      · exact below_mono (by omega) hk'
    · obtain ⟨e, he', rfl⟩ := List.mem_map.1 hyl
      obtain ⟨k, hk, hk2, -⟩ := h.queue e he'
      obtain rfl := hk2.unique hy
      rcases List.mem_cons.1 he' with rfl | h'
      · dsimp only at hk; omega
      · have := (List.pairwise_cons.1 h.inc).1 e h'
        dsimp only at this
        omega

theorem BInv.complete' {g : Graph V W} {s : V} {md : Option ℤ} {l : List V}
    {done : List V} {prev : Dict V (Option V)} (h : BInv g s md l [] done prev) :
    ∀ (n : ℕ) (x : V), IsDist (E g) s x n → (n = 0 ∨ below md (n - 1 : ℤ) = true) → x ∈ l := by
  intro n
  induction n with
  | zero => intro x hx _; rw [isDist_zero_iff] at hx; subst hx; exact h.start
  | succ n ih =>
    intro x hx hn
    obtain ⟨y, hy, he⟩ := hx.pred
    have hb : below md n = true := by
      rcases hn with hn | hn
      · omega
      · exact below_mono (by push_cast; omega) hn
    have hyl := ih y hy (by
      rcases Nat.eq_zero_or_pos n with h | h
      · exact Or.inl h
      · exact Or.inr (below_mono (by omega) hb))
    rw [h.split, List.map_nil, List.append_nil] at hyl
    obtain ⟨n', h1, -, -, h3⟩ := h.fin y hyl
    obtain rfl := h1.unique hy
    exact h3 hb x he

theorem BInv.skip {g : Graph V W} {s : V} {md : Option ℤ} {l : List V} {u : V} {d : ℤ} {q : List (V × ℤ)}
    {done : List V} {prev : Dict V (Option V)} (h : BInv g s md l ((u, d) :: q) done prev) (hb : ¬ below md d = true) :
    BInv g s md l q (done ++ [u]) prev := by
  refine ⟨by rw [h.split]; simp, h.nodup, h.start, h.mem, fun e he => h.queue e (List.mem_cons_of_mem _ he),
    (List.pairwise_cons.1 h.inc).2, fun e he f hf => h.spread e (List.mem_cons_of_mem _ he) f (List.mem_cons_of_mem _ hf),
    fun x hx => ?_, h.sorted, fun v hv => ?_, fun hmd => absurd (by rw [hmd]; rfl) hb, h.keys, h.root, fun v p hv hs => ?_⟩
  · rcases List.mem_append.1 hx with hx | hx
    · obtain ⟨n, h1, h2, h3, h4⟩ := h.fin x hx
      exact ⟨n, h1, h2, fun e he => h3 e (List.mem_cons_of_mem _ he), h4⟩
    · rw [List.mem_singleton] at hx
      subst hx
      obtain ⟨n, h1, h2, h3⟩ := h.queue _ List.mem_cons_self
      dsimp only at h1 h2
      refine ⟨n, h2, h3, fun e he => ?_, fun hb' => absurd (h1 ▸ hb') hb⟩
      rw [← h1]
      exact (List.pairwise_cons.1 h.inc).1 e he
  · rcases h.par v hv with h' | ⟨x, hx, h'⟩
    · exact Or.inl h'
    · exact Or.inr ⟨x, List.mem_append_left _ hx, h'⟩
  · obtain ⟨x, h1, h2, h3⟩ := h.link v p hv hs
    exact ⟨x, h1, List.mem_append_left _ h2, h3⟩

theorem BInv.expand {g : Graph V W} (hg : Good g) {s : V} {md : Option ℤ} {l : List V} {u : V} {d : ℤ} {q : List (V × ℤ)}
    {done : List V} {prev : Dict V (Option V)} (h : BInv g s md l ((u, d) :: q) done prev) (hb : below md d = true) :
    BInv g s md (l ++ (nbrs g u).filter (· ∉ l)) (q ++ ((nbrs g u).filter (· ∉ l)).map (fun v => (v, d + 1)))
      (done ++ [u]) (treeScan u (nbrs g u) prev).2 := by
  obtain ⟨k, hk, hu, hu'⟩ := h.queue _ List.mem_cons_self
  dsimp only at hk hu
  obtain ⟨hq1, hq2⟩ := List.pairwise_cons.1 h.inc
  have hnew : ∀ v ∈ (nbrs g u).filter (· ∉ l), v ∈ nbrs g u ∧ v ∉ l ∧ IsDist (E g) s v (k + 1) := by
    intro v hv
    rw [List.mem_filter, decide_eq_true_eq] at hv
    refine ⟨hv.1, hv.2, hu.1.succ hv.1, fun m hm => ?_⟩
    by_contra hlt
    obtain ⟨n, hn⟩ := Reach.isDist ⟨m, hm⟩
    exact hv.2 (h.complete n v hn (by have := hn.2 m hm; omega))
  have hlast : ∀ x ∈ l, ∀ n, IsDist (E g) s x n → n ≤ k + 1 := by
    intro x hx n hn
    rw [h.split, List.mem_append] at hx
    rcases hx with hx | hx
    · obtain ⟨n', h1, -, h2, -⟩ := h.fin x hx
      obtain rfl := h1.unique hn
      have := h2 _ List.mem_cons_self
      dsimp only at this
      omega
    · obtain ⟨e, he, rfl⟩ := List.mem_map.1 hx
      obtain ⟨n', h1, h2, -⟩ := h.queue e he
      obtain rfl := h2.unique hn
      have := h.spread _ List.mem_cons_self e he
      dsimp only at this
      omega
  have hne : s ∉ (nbrs g u).filter (· ∉ l) := by
    intro hs
    exact (hnew s hs).2.1 h.start
  obtain ⟨t1, t2, t3⟩ := treeScan_spec u (nbrs g u) (nodup_nbrs hg u) prev
  have ekeys := h.keys
  have hall : ∀ y ∈ nbrs g u, y ∈ l ++ (nbrs g u).filter (· ∉ l) := by
    intro y hy
    rw [List.mem_append, List.mem_filter, decide_eq_true_eq]
    tauto
  have hpar : ∀ v ∈ l ++ (nbrs g u).filter (· ∉ l), v = s ∨ ∃ d ∈ done ++ [u], v ∈ nbrs g d := by
    intro v hv
    rcases List.mem_append.1 hv with hv | hv
    · rcases h.par v hv with h' | ⟨x, hx, h'⟩
      · exact Or.inl h'
      · exact Or.inr ⟨x, List.mem_append_left _ hx, h'⟩
    · exact Or.inr ⟨u, List.mem_append_right _ List.mem_cons_self, (hnew v hv).1⟩
  refine ⟨?_, ?_, List.mem_append_left _ h.start, ?_, ?_, ?_, ?_, ?_, ?_, hpar, ?_, ?_, ?_, ?_⟩
  · rw [List.map_append, List.map_map]
    have : (Prod.fst ∘ fun v : V => (v, d + 1)) = id := rfl
    rw [this, List.map_id, ← List.append_assoc]
    congr 1
    rw [h.split]; simp
  · exact List.Nodup.append h.nodup ((nodup_nbrs hg u).filter _) (fun x hx hx' => (hnew x hx').2.1 hx)
  · intro x hx
    rcases List.mem_append.1 hx with hx | hx
    · exact h.mem x hx
    · exact mem_of_mem_nbrs hg (hnew x hx).1
  · intro e he
    rcases List.mem_append.1 he with he | he
    · exact h.queue e (List.mem_cons_of_mem _ he)
    · obtain ⟨v, hv, rfl⟩ := List.mem_map.1 he
      refine ⟨k + 1, by rw [hk]; push_cast; rfl, (hnew v hv).2.2, Or.inr ?_⟩
      rw [show ((k + 1 : ℕ) : ℤ) - 1 = d by rw [hk]; push_cast; omega]
      exact hb
  · rw [List.pairwise_append]
    refine ⟨hq2, ?_, fun e he f hf => ?_⟩
    · rw [List.pairwise_map]
      exact List.pairwise_of_forall (fun _ _ => le_refl _)
    · obtain ⟨v, hv, rfl⟩ := List.mem_map.1 hf
      exact h.spread _ List.mem_cons_self e (List.mem_cons_of_mem _ he)
  · intro e he f hf
    have he' : d ≤ e.2 := by
      rcases List.mem_append.1 he with he | he
      · exact hq1 e he
      · obtain ⟨v, hv, rfl⟩ := List.mem_map.1 he; dsimp only; omega
    have hf' : f.2 ≤ d + 1 := by
      rcases List.mem_append.1 hf with hf | hf
      · exact h.spread _ List.mem_cons_self f (List.mem_cons_of_mem _ hf)
      · obtain ⟨v, hv, rfl⟩ := List.mem_map.1 hf; exact le_refl _
    omega
  · intro x hx
    rcases List.mem_append.1 hx with hx | hx
    · obtain ⟨n, h1, h2, h3, h4⟩ := h.fin x hx
      refine ⟨n, h1, h2, fun e he => ?_, fun hb' y hy => List.mem_append_left _ (h4 hb' y hy)⟩
      rcases List.mem_append.1 he with he | he
      · exact h3 e (List.mem_cons_of_mem _ he)
      · obtain ⟨v, hv, rfl⟩ := List.mem_map.1 he
        have := h3 _ List.mem_cons_self
        dsimp only at this ⊢
        omega
    · rw [List.mem_singleton] at hx
      subst hx
      refine ⟨k, hu, hu', fun e he => ?_, fun _ => hall⟩
      rcases List.mem_append.1 he with he | he
      · have := hq1 e he
        dsimp only at this
        omega
      · obtain ⟨v, hv, rfl⟩ := List.mem_map.1 he; dsimp only; omega
  · rw [List.pairwise_append]
    refine ⟨h.sorted, ?_, fun x hx y hy n m hn hm => ?_⟩
    · refine List.Pairwise.imp_of_mem (R := fun _ _ => True) ?_ (List.pairwise_of_forall (fun _ _ => trivial))
      intro x y hx hy _ n m hn hm
      rw [hn.unique (hnew x hx).2.2, hm.unique (hnew y hy).2.2]
    · rw [hm.unique (hnew y hy).2.2]
      exact hlast x hx n hn
  · intro hmd l1 a l2 e
    rcases List.eq_nil_or_concat l2 with rfl | ⟨l2', b, rfl⟩
    · obtain ⟨e1, e2⟩ := List.append_inj' e rfl
      simp only [List.cons.injEq, and_true] at e2
      subst e1 e2
      exact ⟨_, List.prefix_rfl, hall, hpar⟩
    · have e' : done ++ [u] = (l1 ++ a :: l2') ++ [b] := by rw [e]; simp
      obtain ⟨e1, e2⟩ := List.append_inj' e' rfl
      obtain ⟨m, h1, h2, h3⟩ := h.order hmd l1 a l2' e1
      exact ⟨m, h1.trans (List.prefix_append _ _), h2, h3⟩
  · rw [t2, ekeys]
  · rw [t3, if_neg, h.root]
    rw [ekeys]
    exact fun h' => h'.2 h.start
  · intro v p hv hs
    rw [t3, ekeys] at hv
    split_ifs at hv with hc
    · injection hv with hv
      subst hv
      refine ⟨u, rfl, List.mem_append_right _ List.mem_cons_self, hc.1, k, hu, (hnew v ?_).2.2⟩
      rw [List.mem_filter, decide_eq_true_eq]; exact hc
    · obtain ⟨x, h1, h2, h3⟩ := h.link v p hv hs
      exact ⟨x, h1, List.mem_append_left _ h2, h3⟩

theorem bfs_main {g : Graph V W} (hg : Good g) (s : V) (md : Option ℤ) :
    ∀ (k : ℕ) (l : List V) (q : List (V × ℤ)) (done : List V) (prev : Dict V (Option V)) (vis : Finset V),
      BInv g s md l q done prev → (∀ x, x ∈ vis ↔ x ∈ l) → g.length + q.length ≤ k + l.length →
      ∃ r prev', bfsLoop g md q vis = some (r, none) ∧
        (md = none → treeLoop g (q.map Prod.fst) prev = some (.ok prev')) ∧
        BInv g s md (l ++ r) [] (l ++ r) prev' := by
  intro k
  induction k with
  | zero =>
    intro l q done prev vis h hv hk
    have hlen : l.length ≤ g.length := by
      have := (List.subperm_of_subset h.nodup (fun x hx => h.mem x hx)).length_le
      rwa [Dict.keys, List.length_map] at this
    have hq : q = [] := List.eq_nil_of_length_eq_zero (by omega)
    subst hq
    have e := h.split
    rw [List.map_nil, List.append_nil] at e
    subst e
    exact ⟨[], prev, by rw [bfsLoop.eq_def], fun _ => by rw [List.map_nil, treeLoop.eq_def], by rw [List.append_nil]; exact h⟩
  | succ k ih =>
    intro l q done prev vis h hv hk
    cases q with
    | nil =>
      have e := h.split
      rw [List.map_nil, List.append_nil] at e
      subst e
      exact ⟨[], prev, by rw [bfsLoop.eq_def], fun _ => by rw [List.map_nil, treeLoop.eq_def], by rw [List.append_nil]; exact h⟩
    | cons e q =>
      obtain ⟨u, d⟩ := e
      rw [List.length_cons] at hk
      have hu : Mem g u := h.mem u (by rw [h.split]; simp)
      by_cases hb : below md d = true
      · have h' := h.expand hg hb
        obtain ⟨N, hget⟩ := mem_iff.1 hu
        have hN : nbrs g u = Dict.keys N := by rw [nbrs, hget, Option.getD_some]
        obtain ⟨b1, b2⟩ := bfsScan_spec (nbrs g u) (nodup_nbrs hg u) vis
        obtain ⟨t1, -, -⟩ := treeScan_spec u (nbrs g u) (nodup_nbrs hg u) prev
        have hf : (nbrs g u).filter (· ∉ vis) = (nbrs g u).filter (· ∉ l) := by
          apply List.filter_congr; intro x _; simp [hv]
        rw [hf] at b1
        rw [h.keys] at t1
        obtain ⟨r, prev', r1, r2, r3⟩ := ih _ _ _ _ (bfsScan (nbrs g u) vis).2 h' (fun x => by
          rw [b2, hv, List.mem_append, List.mem_filter, decide_eq_true_eq]; tauto) (by
          simp only [List.length_append, List.length_map]; omega)
        refine ⟨(nbrs g u).filter (· ∉ l) ++ r, prev', ?_, fun hmd => ?_, ?_⟩
        · rw [bfsLoop.eq_def]
          simp only [hb, if_true, hget, ← hN]
          change (bfsLoop g md (q ++ (bfsScan (nbrs g u) vis).1.map (fun v => (v, d + 1))) (bfsScan (nbrs g u) vis).2).bind
            (fun r => some ((bfsScan (nbrs g u) vis).1 ++ r.1, r.2)) = _
          rw [b1, r1]; rfl
        · rw [List.map_cons, treeLoop.eq_def]
          simp only [hget, ← hN]
          have := r2 hmd
          rw [List.map_append, List.map_map] at this
          have e1 : (Prod.fst ∘ fun v : V => (v, d + 1)) = id := rfl
          rw [e1, List.map_id] at this
          change treeLoop g (q.map Prod.fst ++ (treeScan u (nbrs g u) prev).1) (treeScan u (nbrs g u) prev).2 = _
          rw [t1]; exact this
        · rw [← List.append_assoc]; exact r3
      · have h' := h.skip hb
        obtain ⟨r, prev', r1, r2, r3⟩ := ih _ _ _ _ vis h' hv (by omega)
        refine ⟨r, prev', ?_, fun hmd => absurd (by rw [hmd]; rfl) hb, r3⟩
        rw [bfsLoop.eq_def]
        simp only [hb]
        exact r1

theorem bfs_spec {g : Graph V W} (hg : Good g) {s : V} (hs : Mem g s) (md : Option ℤ) :
    ∃ r prev, breadthFirstSearch g s md = some (s :: r, none) ∧
      (md = none → breadthFirstSearchTree g s = some (.ok prev)) ∧ BInv g s md (s :: r) [] (s :: r) prev := by
  have h0 : BInv g s md [s] [(s, 0)] [] [(s, none)] := by
    refine ⟨rfl, List.nodup_singleton s, List.mem_singleton_self s, ?_, ?_, List.pairwise_singleton _ _, ?_, ?_,
      List.pairwise_singleton _ _, ?_, ?_, rfl, ?_, ?_⟩
    · intro x hx; rw [List.mem_singleton] at hx; subst hx; exact hs
    · intro e he
      rw [List.mem_singleton] at he; subst he
      exact ⟨0, rfl, isDist_zero _ _, Or.inl rfl⟩
    · intro e he f hf
      rw [List.mem_singleton] at he hf
      subst he hf
      dsimp only; omega
    · intro x hx; simp at hx
    · intro v hv; rw [List.mem_singleton] at hv; exact Or.inl hv
    · intro _ l1 a l2 e
      have := congrArg List.length e
      simp at this
    · simp [Dict.get?]
    · intro v p hv hne
      simp [Dict.get?, Ne.symm hne] at hv
  obtain ⟨r, prev, h1, h2, h3⟩ := bfs_main hg s md (g.length) [s] [(s, 0)] [] _ {s} h0 (by simp) (le_refl _)
  refine ⟨r, prev, ?_, h2, h3⟩
  rw [breadthFirstSearch, h1]; rfl

theorem dfsPush_eq (d : ℤ) (vis : Finset V) (ks : List V) (st : List (V × ℤ)) :
    dfsPush d vis ks st = ((ks.filter (· ∉ vis)).map (fun v => (v, d + 1))).reverse ++ st := by
  induction ks generalizing st with
  | nil => rfl
  | cons v vs ih =>
    rw [dfsPush, ih]
    by_cases hv : v ∈ vis
    · rw [if_pos hv, List.filter_cons_of_neg (by simpa using hv)]
    · rw [if_neg hv, List.filter_cons_of_pos (by simpa using hv)]
      simp

omit [DecidableEq V] in
theorem dfsTreePush_eq (v : V) (ks : List V) (st : List (Option V × V)) :
    dfsTreePush v ks st = (ks.map (fun w => (some v, w))).reverse ++ st := by
  induction ks generalizing st with
  | nil => rfl
  | cons w vs ih => rw [dfsTreePush, ih]; simp

/-- What holds whenever depth-first search looks at its stack: `l` are the vertices yielded so far. -/
structure DInv (g : Graph V W) (s : V) (md : Option ℤ) (l : List V) (st : List (V × ℤ)) : Prop where
  nodup : l.Nodup
  mem : ∀ x ∈ l, Mem g x
  smem : ∀ e ∈ st, Mem g e.1
  start : (l = [] ∧ st = [(s, 0)]) ∨ ∃ l', l = s :: l'
  sound : ∀ x ∈ l, ∃ n : ℕ, Steps (E g) n s x ∧ (n = 0 ∨ below md (n - 1 : ℤ) = true)
  stack : ∀ e ∈ st, ∃ n : ℕ, e.2 = n ∧ Steps (E g) n s e.1 ∧ (n = 0 ∨ below md (n - 1 : ℤ) = true)
  pend : md = none → ∀ l1 a l2, l = l1 ++ a :: l2 → ∀ c, c ∉ l → c ∈ nbrs g a →
    ∃ A e B, st = A ++ e :: B ∧ e.1 = c ∧ ∀ f ∈ A, ∃ d ∈ a :: l2, f.1 ∈ nbrs g d
  order : md = none → ∀ l1 a l2 b l3, l = l1 ++ a :: l2 ++ b :: l3 → ∀ c, c ∉ l1 ++ a :: l2 → c ≠ b → c ∈ nbrs g a →
    ∃ d ∈ a :: l2, b ∈ nbrs g d

theorem DInv.skip {g : Graph V W} {s : V} {md : Option ℤ} {l : List V} {u : V} {d : ℤ} {st : List (V × ℤ)}
    (h : DInv g s md l ((u, d) :: st)) (hu : u ∈ l) : DInv g s md l st := by
  refine ⟨h.nodup, h.mem, fun e he => h.smem e (List.mem_cons_of_mem _ he), Or.inr ?_, h.sound,
    fun e he => h.stack e (List.mem_cons_of_mem _ he), fun hmd l1 a l2 e c hc hca => ?_, h.order⟩
  · rcases h.start with h' | h'
    · rw [h'.1] at hu; simp at hu
    · exact h'
  · obtain ⟨A, x, B, h1, h2, h3⟩ := h.pend hmd l1 a l2 e c hc hca
    cases A with
    | nil =>
      rw [List.nil_append, List.cons.injEq] at h1
      rw [← h1.1] at h2
      exact absurd (h2 ▸ hu) hc
    | cons f A =>
      rw [List.cons_append, List.cons.injEq] at h1
      exact ⟨A, x, B, h1.2, h2, fun f hf => h3 f (List.mem_cons_of_mem _ hf)⟩

theorem append_singleton_split {α : Type} {l : List α} {u : α} {l1 l2 : List α} {a : α} (e : l ++ [u] = l1 ++ a :: l2) :
    (l2 = [] ∧ l1 = l ∧ a = u) ∨ ∃ l2', l2 = l2' ++ [u] ∧ l = l1 ++ a :: l2' := by
  rcases List.eq_nil_or_concat l2 with rfl | ⟨l2', b, rfl⟩
  · obtain ⟨e1, e2⟩ := List.append_inj' e rfl
    simp only [List.cons.injEq, and_true] at e2
    exact Or.inl ⟨rfl, e1.symm, e2.symm⟩
  · have e' : l ++ [u] = (l1 ++ a :: l2') ++ [b] := by rw [e]; simp
    obtain ⟨e1, e2⟩ := List.append_inj' e' rfl
    simp only [List.cons.injEq, and_true] at e2
    exact Or.inr ⟨l2', by rw [e2, List.concat_eq_append], e1⟩

theorem DInv.visit {g : Graph V W} (hg : Good g) {s : V} {md : Option ℤ} {l : List V} {u : V} {d : ℤ} {st : List (V × ℤ)}
    (h : DInv g s md l ((u, d) :: st)) (hu : u ∉ l) (new : List V)
    (hnew : new = if below md d = true then (nbrs g u).filter (· ∉ l ++ [u]) else []) :
    DInv g s md (l ++ [u]) ((new.map (fun v => (v, d + 1))).reverse ++ st) := by
  have hn : ∀ v ∈ new, v ∈ nbrs g u ∧ below md d = true := by
    intro v hv
    rw [hnew] at hv
    split_ifs at hv with hb
    · exact ⟨(List.mem_filter.1 hv).1, hb⟩
    · simp at hv
  have hent : ∀ e ∈ (new.map (fun v => (v, d + 1))).reverse, ∃ v ∈ new, e = (v, d + 1) := by
    intro e he
    rw [List.mem_reverse] at he
    obtain ⟨v, hv, rfl⟩ := List.mem_map.1 he
    exact ⟨v, hv, rfl⟩
  obtain ⟨k, hk, hsteps, hdep⟩ := h.stack _ List.mem_cons_self
  dsimp only at hk hsteps
  have hum : Mem g u := h.smem _ List.mem_cons_self
  refine ⟨?_, ?_, ?_, Or.inr ?_, ?_, ?_, ?_, ?_⟩
  · exact List.Nodup.append h.nodup (List.nodup_singleton u) (by simpa using hu)
  · intro x hx
    rcases List.mem_append.1 hx with hx | hx
    · exact h.mem x hx
    · rw [List.mem_singleton] at hx; subst hx; exact hum
  · intro e he
    rcases List.mem_append.1 he with he | he
    · obtain ⟨v, hv, rfl⟩ := hent e he
      exact mem_of_mem_nbrs hg (hn v hv).1
    · exact h.smem e (List.mem_cons_of_mem _ he)
  · rcases h.start with ⟨h1, h2⟩ | ⟨l', h1⟩
    · rw [List.cons.injEq, Prod.mk.injEq] at h2
      exact ⟨[], by rw [h1, h2.1.1]; rfl⟩
    · exact ⟨l' ++ [u], by rw [h1]; rfl⟩
  · intro x hx
    rcases List.mem_append.1 hx with hx | hx
    · exact h.sound x hx
    · rw [List.mem_singleton] at hx; subst hx; exact ⟨k, hsteps, hdep⟩
  · intro e he
    rcases List.mem_append.1 he with he | he
    · obtain ⟨v, hv, rfl⟩ := hent e he
      refine ⟨k + 1, by rw [hk]; push_cast; rfl, hsteps.succ (hn v hv).1, Or.inr ?_⟩
      rw [show ((k + 1 : ℕ) : ℤ) - 1 = d by rw [hk]; push_cast; omega]
      exact (hn v hv).2
    · exact h.stack e (List.mem_cons_of_mem _ he)
  · intro hmd l1 a l2 e c hc hca
    have hbd : below md d = true := by rw [hmd]; rfl
    rcases append_singleton_split e with ⟨rfl, rfl, rfl⟩ | ⟨l2', rfl, e'⟩
    · have hcn : c ∈ new := by
        rw [hnew, if_pos hbd, List.mem_filter, decide_eq_true_eq]
        exact ⟨hca, hc⟩
      have hcm : (c, d + 1) ∈ (new.map (fun v => (v, d + 1))).reverse := by
        rw [List.mem_reverse]; exact List.mem_map_of_mem hcn
      obtain ⟨A, B, e1⟩ := List.append_of_mem hcm
      refine ⟨A, (c, d + 1), B ++ st, by rw [e1]; simp, rfl, fun f hf => ?_⟩
      obtain ⟨v, hv, rfl⟩ := hent f (by rw [e1]; exact List.mem_append_left _ hf)
      exact ⟨a, List.mem_cons_self, (hn v hv).1⟩
    · rw [List.mem_append, not_or] at hc
      obtain ⟨A, x, B, h1, h2, h3⟩ := h.pend hmd l1 a l2' e' c hc.1 hca
      cases A with
      | nil =>
        rw [List.nil_append, List.cons.injEq] at h1
        rw [← h1.1] at h2
        exact absurd (List.mem_singleton.2 h2.symm) hc.2
      | cons f A =>
        rw [List.cons_append, List.cons.injEq] at h1
        refine ⟨(new.map (fun v => (v, d + 1))).reverse ++ A, x, B, by rw [h1.2]; simp, h2, fun f hf => ?_⟩
        rcases List.mem_append.1 hf with hf | hf
        · obtain ⟨v, hv, rfl⟩ := hent f hf
          exact ⟨u, by simp, (hn v hv).1⟩
        · obtain ⟨y, hy, hy'⟩ := h3 f (List.mem_cons_of_mem _ hf)
          refine ⟨y, ?_, hy'⟩
          rw [← List.cons_append]; exact List.mem_append_left _ hy
  · intro hmd l1 a l2 b l3 e c hc hcb hca
    rcases append_singleton_split e with ⟨rfl, e1, rfl⟩ | ⟨l3', rfl, e'⟩
    · obtain ⟨A, x, B, h1, h2, h3⟩ := h.pend hmd l1 a l2 e1.symm c (by rw [← e1]; exact hc) hca
      cases A with
      | nil =>
        rw [List.nil_append, List.cons.injEq] at h1
        rw [← h1.1] at h2
        exact absurd h2.symm hcb
      | cons f A =>
        rw [List.cons_append, List.cons.injEq] at h1
        have := h3 f List.mem_cons_self
        rwa [← h1.1] at this
    · exact h.order hmd l1 a l2 b l3' e' c hc hcb hca

theorem dfs_main {g : Graph V W} (hg : Good g) (s : V) (md : Option ℤ) :
    ∀ (k : ℕ) (st : List (V × ℤ)) (l : List V) (vis : Finset V),
      DInv g s md l st → (∀ x, x ∈ vis ↔ x ∈ l) → g.length ≤ k + l.length →
      ∃ r, dfsLoop g md st vis = some (r, none) ∧ DInv g s md (l ++ r) [] := by
  intro k
  induction k with
  | zero =>
    intro st l vis h hv hk
    have hall : ∀ x, Mem g x → x ∈ l := by
      have h1 := List.subperm_of_subset h.nodup (fun x hx => h.mem x hx)
      have h2 := h1.perm_of_length_le (by rw [Dict.keys, List.length_map]; omega)
      intro x hx
      exact h2.mem_iff.2 hx
    induction st with
    | nil => exact ⟨[], by rw [dfsLoop.eq_def], by rw [List.append_nil]; exact h⟩
    | cons e st ih =>
      obtain ⟨u, d⟩ := e
      have hu := hall u (h.smem _ List.mem_cons_self)
      obtain ⟨r, h1, h2⟩ := ih (h.skip hu)
      refine ⟨r, ?_, h2⟩
      rw [dfsLoop.eq_def]
      dsimp only
      rw [if_pos ((hv u).2 hu)]
      exact h1
  | succ k ih =>
    intro st l vis h hv hk
    induction st with
    | nil => exact ⟨[], by rw [dfsLoop.eq_def], by rw [List.append_nil]; exact h⟩
    | cons e st ih' =>
      obtain ⟨u, d⟩ := e
      by_cases hu : u ∈ l
      · obtain ⟨r, h1, h2⟩ := ih' (h.skip hu)
        refine ⟨r, ?_, h2⟩
        rw [dfsLoop.eq_def]
        dsimp only
        rw [if_pos ((hv u).2 hu)]
        exact h1
      · have hum : Mem g u := h.smem _ List.mem_cons_self
        have hv' : ∀ x, x ∈ insert u vis ↔ x ∈ l ++ [u] := by
          intro x
          rw [Finset.mem_insert, hv, List.mem_append, List.mem_singleton, or_comm]
        have hlen : g.length ≤ k + (l ++ [u]).length := by rw [List.length_append, List.length_singleton]; omega
        obtain ⟨N, hN⟩ := mem_iff.1 hum
        have hNk : nbrs g u = Dict.keys N := by rw [nbrs, hN, Option.getD_some]
        by_cases hb : below md d = true
        · have h' := h.visit hg hu _ rfl
          rw [if_pos hb] at h'
          obtain ⟨r, h1, h2⟩ := ih _ _ (insert u vis) h' hv' hlen
          refine ⟨u :: r, ?_, by rw [List.append_assoc] at h2; exact h2⟩
          have hf : (nbrs g u).filter (· ∉ insert u vis) = (nbrs g u).filter (· ∉ l ++ [u]) := by
            apply List.filter_congr; intro x _; simp only [hv']
          rw [dfsLoop.eq_def]
          dsimp only
          rw [if_neg (fun h => hu ((hv u).1 h)), if_pos hb, hN]
          dsimp only
          rw [dfsPush_eq, ← hNk, hf, h1]
          rfl
        · have h' := h.visit hg hu _ rfl
          rw [if_neg hb] at h'
          obtain ⟨r, h1, h2⟩ := ih _ _ (insert u vis) h' hv' hlen
          refine ⟨u :: r, ?_, by rw [List.append_assoc] at h2; exact h2⟩
          rw [dfsLoop.eq_def]
          dsimp only
          rw [if_neg (fun h => hu ((hv u).1 h)), if_neg hb]
          rw [show st = ((([] : List V).map (fun v => (v, d + 1))).reverse ++ st) from rfl, h1]
          rfl

theorem dfs_spec {g : Graph V W} (hg : Good g) {s : V} (hs : Mem g s) (md : Option ℤ) :
    ∃ r, depthFirstSearch g s md = some (s :: r, none) ∧ DInv g s md (s :: r) [] := by
  have h0 : DInv g s md [] [(s, 0)] := by
    refine ⟨List.nodup_nil, fun x hx => by simp at hx, ?_, Or.inl ⟨rfl, rfl⟩, fun x hx => by simp at hx, ?_, ?_, ?_⟩
    · intro e he; rw [List.mem_singleton] at he; subst he; exact hs
    · intro e he; rw [List.mem_singleton] at he; subst he; exact ⟨0, rfl, Steps.zero _, Or.inl rfl⟩
    · intro _ l1 a l2 e; simp at e
    · intro _ l1 a l2 b l3 e; simp at e
  obtain ⟨r, h1, h2⟩ := dfs_main hg s md g.length [(s, 0)] [] ∅ h0 (by simp) (by simp)
  rw [List.nil_append] at h2
  rcases h2.start with h | ⟨l', rfl⟩
  · simp at h
  · exact ⟨l', h1, h2⟩

theorem DInv.complete {g : Graph V W} {s : V} {l : List V} (h : DInv g s none l []) {x : V} (hx : Reach (E g) s x) :
    x ∈ l := by
  obtain ⟨n, hn⟩ := hx
  rcases h.start with h' | ⟨l', rfl⟩
  · simp at h'
  induction hn with
  | zero => exact List.mem_cons_self
  | succ _ he ih =>
    by_contra hc
    obtain ⟨l1, l2, e⟩ := List.append_of_mem (ih h)
    obtain ⟨A, x, B, h1, -⟩ := h.pend rfl l1 _ l2 e _ hc he
    simp at h1

/-- The same for `depth_first_search_tree`. -/
structure TInv (g : Graph V W) (s : V) (l : List V) (st : List (Option V × V)) (prev : Dict V (Option V)) : Prop where
  nodup : l.Nodup
  mem : ∀ x ∈ l, Mem g x
  smem : ∀ e ∈ st, Mem g e.2
  start : (l = [] ∧ st = [(none, s)]) ∨ ∃ l', l = s :: l'
  sound : ∀ x ∈ l, Reach (E g) s x
  stack : ∀ e ∈ st, e = (none, s) ∨ ∃ p, e.1 = some p ∧ p ∈ l ∧ e.2 ∈ nbrs g p
  pend : ∀ l1 a l2, l = l1 ++ a :: l2 → ∀ c, c ∉ l → c ∈ nbrs g a →
    ∃ A B, st = A ++ (some a, c) :: B ∧ ∀ f ∈ A, ∃ d ∈ a :: l2, f.1 = some d ∧ f.2 ∈ nbrs g d
  order : ∀ l1 a l2 b l3, l = l1 ++ a :: l2 ++ b :: l3 → ∀ c, c ∉ l1 ++ a :: l2 → c ≠ b → c ∈ nbrs g a →
    ∃ d ∈ a :: l2, b ∈ nbrs g d
  keys : Dict.keys prev = l
  root : l ≠ [] → Dict.get? prev s = some none
  link : ∀ v p, Dict.get? prev v = some p → v ≠ s → ∃ u l1 l2 l3, p = some u ∧ l = l1 ++ u :: l2 ++ v :: l3 ∧
    v ∈ nbrs g u ∧ ∀ x ∈ l2, v ∉ nbrs g x

theorem TInv.skip {g : Graph V W} {s : V} {l : List V} {o : Option V} {u : V} {st : List (Option V × V)}
    {prev : Dict V (Option V)} (h : TInv g s l ((o, u) :: st) prev) (hu : u ∈ l) : TInv g s l st prev := by
  refine ⟨h.nodup, h.mem, fun e he => h.smem e (List.mem_cons_of_mem _ he), Or.inr ?_, h.sound,
    fun e he => h.stack e (List.mem_cons_of_mem _ he), fun l1 a l2 e c hc hca => ?_, h.order, h.keys, h.root, h.link⟩
  · rcases h.start with h' | h'
    · rw [h'.1] at hu; simp at hu
    · exact h'
  · obtain ⟨A, B, h1, h3⟩ := h.pend l1 a l2 e c hc hca
    cases A with
    | nil =>
      rw [List.nil_append, List.cons.injEq, Prod.mk.injEq] at h1
      exact absurd (h1.1.2 ▸ hu) hc
    | cons f A =>
      rw [List.cons_append, List.cons.injEq] at h1
      exact ⟨A, B, h1.2, fun f hf => h3 f (List.mem_cons_of_mem _ hf)⟩

theorem TInv.visit {g : Graph V W} (hg : Good g) {s : V} {l : List V} {o : Option V} {u : V} {st : List (Option V × V)}
    {prev : Dict V (Option V)} (h : TInv g s l ((o, u) :: st) prev) (hu : u ∉ l) :
    TInv g s (l ++ [u]) (((nbrs g u).map (fun w => (some u, w))).reverse ++ st) (Dict.set prev u o) := by
  have hent : ∀ e ∈ ((nbrs g u).map (fun w => (some u, w))).reverse, ∃ v ∈ nbrs g u, e = (some u, v) := by
    intro e he
    rw [List.mem_reverse] at he
    obtain ⟨v, hv, rfl⟩ := List.mem_map.1 he
    exact ⟨v, hv, rfl⟩
  have hum : Mem g u := h.smem _ List.mem_cons_self
  have htop := h.stack _ List.mem_cons_self
  have hus : Reach (E g) s u := by
    rcases htop with h' | ⟨p, h1, h2, h3⟩
    · rw [Prod.mk.injEq] at h'; rw [h'.2]; exact Reach.refl _ _
    · exact (h.sound p h2).step h3
  have hkey : u ∉ Dict.keys prev := by rw [h.keys]; exact hu
  have hsu : l = [] → u = s ∧ o = none := by
    intro hl
    rcases h.start with ⟨-, h2⟩ | ⟨l', h1⟩
    · rw [List.cons.injEq, Prod.mk.injEq] at h2; exact ⟨h2.1.2, h2.1.1⟩
    · rw [h1] at hl; simp at hl
  refine ⟨?_, ?_, ?_, Or.inr ?_, ?_, ?_, ?_, ?_, ?_, ?_, ?_⟩
  · exact List.Nodup.append h.nodup (List.nodup_singleton u) (by simpa using hu)
  · intro x hx
    rcases List.mem_append.1 hx with hx | hx
    · exact h.mem x hx
    · rw [List.mem_singleton] at hx; subst hx; exact hum
  · intro e he
    rcases List.mem_append.1 he with he | he
    · obtain ⟨v, hv, rfl⟩ := hent e he
      exact mem_of_mem_nbrs hg hv
    · exact h.smem e (List.mem_cons_of_mem _ he)
  · rcases h.start with ⟨h1, h2⟩ | ⟨l', h1⟩
    · exact ⟨[], by rw [h1, (hsu h1).1]; rfl⟩
    · exact ⟨l' ++ [u], by rw [h1]; rfl⟩
  · intro x hx
    rcases List.mem_append.1 hx with hx | hx
    · exact h.sound x hx
    · rw [List.mem_singleton] at hx; subst hx; exact hus
  · intro e he
    rcases List.mem_append.1 he with he | he
    · obtain ⟨v, hv, rfl⟩ := hent e he
      exact Or.inr ⟨u, rfl, by simp, hv⟩
    · rcases h.stack e (List.mem_cons_of_mem _ he) with h' | ⟨p, h1, h2, h3⟩
      · exact Or.inl h'
      · exact Or.inr ⟨p, h1, List.mem_append_left _ h2, h3⟩
  · intro l1 a l2 e c hc hca
    rcases append_singleton_split e with ⟨rfl, rfl, rfl⟩ | ⟨l2', rfl, e'⟩
    · have hcm : (some a, c) ∈ ((nbrs g a).map (fun w => (some a, w))).reverse := by
        rw [List.mem_reverse]; exact List.mem_map_of_mem hca
      obtain ⟨A, B, e1⟩ := List.append_of_mem hcm
      refine ⟨A, B ++ st, by rw [e1]; simp, fun f hf => ?_⟩
      obtain ⟨v, hv, rfl⟩ := hent f (by rw [e1]; exact List.mem_append_left _ hf)
      exact ⟨a, List.mem_cons_self, rfl, hv⟩
    · rw [List.mem_append, not_or] at hc
      obtain ⟨A, B, h1, h3⟩ := h.pend l1 a l2' e' c hc.1 hca
      cases A with
      | nil =>
        rw [List.nil_append, List.cons.injEq, Prod.mk.injEq] at h1
        exact absurd (List.mem_singleton.2 h1.1.2.symm) hc.2
      | cons f A =>
        rw [List.cons_append, List.cons.injEq] at h1
        refine ⟨((nbrs g u).map (fun w => (some u, w))).reverse ++ A, B, by rw [h1.2]; simp, fun f hf => ?_⟩
        rcases List.mem_append.1 hf with hf | hf
        · obtain ⟨v, hv, rfl⟩ := hent f hf
          exact ⟨u, by simp, rfl, hv⟩
        · obtain ⟨y, hy, hy'⟩ := h3 f (List.mem_cons_of_mem _ hf)
          refine ⟨y, ?_, hy'⟩
          rw [← List.cons_append]; exact List.mem_append_left _ hy
  · intro l1 a l2 b l3 e c hc hcb hca
    rcases append_singleton_split e with ⟨rfl, e1, rfl⟩ | ⟨l3', rfl, e'⟩
    · obtain ⟨A, B, h1, h3⟩ := h.pend l1 a l2 e1.symm c (by rw [← e1]; exact hc) hca
      cases A with
      | nil =>
        rw [List.nil_append, List.cons.injEq, Prod.mk.injEq] at h1
        exact absurd h1.1.2.symm hcb
      | cons f A =>
        rw [List.cons_append, List.cons.injEq] at h1
        obtain ⟨d, hd, -, hd'⟩ := h3 f List.mem_cons_self
        rw [← h1.1] at hd'
        exact ⟨d, hd, hd'⟩
    · exact h.order l1 a l2 b l3' e' c hc hcb hca
  · rw [Dict.keys_set, if_neg hkey, h.keys]
  · intro _
    rw [Dict.get?_set]
    by_cases hl : l = []
    · rw [if_pos (hsu hl).1, (hsu hl).2]
    · have hsl : s ∈ l := by
        rcases h.start with ⟨h1, -⟩ | ⟨l', rfl⟩
        · exact absurd h1 hl
        · exact List.mem_cons_self
      rw [if_neg (fun e : u = s => hu (e ▸ hsl)), h.root hl]
  · intro v p hv hvs
    rw [Dict.get?_set] at hv
    split_ifs at hv with huv
    · subst huv
      injection hv with hv
      subst hv
      rcases htop with h' | ⟨p, h1, h2, h3⟩
      · rw [Prod.mk.injEq] at h'; exact absurd h'.2 hvs
      · dsimp only at h1 h3
        obtain ⟨l1, l2, e⟩ := List.append_of_mem h2
        refine ⟨p, l1, l2, [], h1, by rw [e], h3, fun x hx hxu => ?_⟩
        obtain ⟨m1, m2, e2⟩ := List.append_of_mem hx
        have e3 : l = (l1 ++ p :: m1) ++ x :: m2 := by rw [e, e2]; simp
        obtain ⟨A, B, k1, k2⟩ := h.pend _ x m2 e3 u hu hxu
        have hpx : p ∈ x :: m2 := by
          cases A with
          | nil =>
            rw [List.nil_append, List.cons.injEq, Prod.mk.injEq, h1, Option.some.injEq] at k1
            rw [k1.1.1]; exact List.mem_cons_self
          | cons f A =>
            rw [List.cons_append, List.cons.injEq] at k1
            obtain ⟨d, hd, hd', -⟩ := k2 f List.mem_cons_self
            rw [← k1.1, h1, Option.some.injEq] at hd'
            rw [hd']; exact hd
        have hnd := h.nodup
        rw [e3, List.nodup_append] at hnd
        exact hnd.2.2 p (by simp) p hpx rfl
    · obtain ⟨y, l1, l2, l3, h1, h2, h3⟩ := h.link v p hv hvs
      exact ⟨y, l1, l2, l3 ++ [u], h1, by rw [h2]; simp, h3⟩

theorem dfsTree_main {g : Graph V W} (hg : Good g) (s : V) :
    ∀ (k : ℕ) (st : List (Option V × V)) (l : List V) (prev : Dict V (Option V)),
      TInv g s l st prev → g.length ≤ k + l.length →
      ∃ l' prev', dfsTreeLoop g st prev = some (.ok prev') ∧ TInv g s l' [] prev' := by
  intro k
  induction k with
  | zero =>
    intro st l prev h hk
    have hall : ∀ x, Mem g x → x ∈ l := by
      have h1 := List.subperm_of_subset h.nodup (fun x hx => h.mem x hx)
      have h2 := h1.perm_of_length_le (by rw [Dict.keys, List.length_map]; omega)
      intro x hx
      exact h2.mem_iff.2 hx
    induction st with
    | nil => exact ⟨l, prev, by rw [dfsTreeLoop.eq_def], h⟩
    | cons e st ih =>
      obtain ⟨o, u⟩ := e
      have hu := hall u (h.smem _ List.mem_cons_self)
      obtain ⟨l', p', h1, h2⟩ := ih (h.skip hu)
      refine ⟨l', p', ?_, h2⟩
      rw [dfsTreeLoop.eq_def]
      dsimp only
      rw [if_pos (by rw [h.keys]; exact hu)]
      exact h1
  | succ k ih =>
    intro st l prev h hk
    induction st with
    | nil => exact ⟨l, prev, by rw [dfsTreeLoop.eq_def], h⟩
    | cons e st ih' =>
      obtain ⟨o, u⟩ := e
      by_cases hu : u ∈ l
      · obtain ⟨l', p', h1, h2⟩ := ih' (h.skip hu)
        refine ⟨l', p', ?_, h2⟩
        rw [dfsTreeLoop.eq_def]
        dsimp only
        rw [if_pos (by rw [h.keys]; exact hu)]
        exact h1
      · have hum : Mem g u := h.smem _ List.mem_cons_self
        obtain ⟨N, hN⟩ := mem_iff.1 hum
        have hNk : nbrs g u = Dict.keys N := by rw [nbrs, hN, Option.getD_some]
        obtain ⟨l', p', h1, h2⟩ := ih _ _ _ (h.visit hg hu) (by rw [List.length_append, List.length_singleton]; omega)
        refine ⟨l', p', ?_, h2⟩
        rw [dfsTreeLoop.eq_def]
        dsimp only
        rw [if_neg (by rw [h.keys]; exact hu), hN]
        dsimp only
        rw [dfsTreePush_eq, ← hNk, h1]

theorem dfsTree_spec {g : Graph V W} (hg : Good g) {s : V} (hs : Mem g s) :
    ∃ l prev, depthFirstSearchTree g s = some (.ok prev) ∧ TInv g s (s :: l) [] prev := by
  have h0 : TInv g s [] [(none, s)] [] := by
    refine ⟨List.nodup_nil, fun x hx => by simp at hx, ?_, Or.inl ⟨rfl, rfl⟩, fun x hx => by simp at hx, ?_, ?_, ?_, rfl,
      fun h => absurd rfl h, fun v p h => by simp [Dict.get?] at h⟩
    · intro e he; rw [List.mem_singleton] at he; subst he; exact hs
    · intro e he; rw [List.mem_singleton] at he; exact Or.inl he
    · intro l1 a l2 e; simp at e
    · intro l1 a l2 b l3 e; simp at e
  obtain ⟨l, prev, h1, h2⟩ := dfsTree_main hg s g.length _ _ _ h0 (by simp)
  rcases h2.start with h | ⟨l', rfl⟩
  · simp at h
  · exact ⟨l', prev, h1, h2⟩

theorem TInv.complete {g : Graph V W} {s : V} {l : List V} {prev : Dict V (Option V)} (h : TInv g s l [] prev) {x : V}
    (hx : Reach (E g) s x) : x ∈ l := by
  obtain ⟨n, hn⟩ := hx
  rcases h.start with h' | ⟨l', rfl⟩
  · simp at h'
  induction hn with
  | zero => exact List.mem_cons_self
  | succ _ he ih =>
    by_contra hc
    obtain ⟨l1, l2, e⟩ := List.append_of_mem (ih h)
    obtain ⟨A, B, h1, -⟩ := h.pend l1 _ l2 e _ hc he
    simp at h1

end Rosemary.Traversal
