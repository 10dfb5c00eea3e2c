import Verif.Lemmas.Paths

/-!
# Lemmas on `dijkstra_bidirectional`
-/

namespace Rosemary.Paths

open Graph Spec

section weak

variable {V W : Type} [LinearOrder V] [Add W] [Zero W] [LinearOrder W] [PathAdd W]

theorem set_of_not_mem {κ β : Type} [DecidableEq κ] (d : Dict κ β) (k : κ) (v : β) (h : k ∉ Dict.keys d) :
    Dict.set d k v = d ++ [(k, v)] := by
  induction d with
  | nil => rfl
  | cons e d ih =>
    obtain ⟨a, b⟩ := e
    have h1 : a ≠ k := fun e => h (by rw [← e]; exact List.mem_cons_self)
    rw [Dict.set, if_neg h1, ih (fun h' => h (List.mem_cons_of_mem _ h'))]
    rfl

/-- What `meet` returns: prefixes of what the two generators yield. -/
theorem meet_spec (turn : Bool) (f2 b2 f1 b1 : List (V × W × List V))
    (hf : ((f1 ++ f2).map Prod.fst).Nodup) (hb : ((b1 ++ b2).map Prod.fst).Nodup)
    (hd : List.Disjoint (f1.map Prod.fst) (b1.map Prod.fst))
    (hlen : f1.length = if turn = true then b1.length else b1.length + 1) :
    (meet turn f2 b2 f1 b1 = none → ∃ f b, f <+: f1 ++ f2 ∧ b <+: b1 ++ b2 ∧ List.Disjoint (f.map Prod.fst) (b.map Prod.fst) ∧
      ((f = f1 ++ f2 ∧ b.length = f.length) ∨ (b = b1 ++ b2 ∧ f.length = b.length + 1))) ∧
    ∀ F B, meet turn f2 b2 f1 b1 = some (F, B) → F <+: f1 ++ f2 ∧ B <+: b1 ++ b2 ∧ ∃ m, m ∈ F.map Prod.fst ∧ m ∈ B.map Prod.fst := by
  induction turn, f2, b2, f1, b1 using meet.induct with
  | case1 b2 f1 b1 =>
    rw [meet]
    refine ⟨fun _ => ⟨f1, b1, by simp, by simp, hd, Or.inl ⟨by simp, ?_⟩⟩, fun F B h => by simp at h⟩
    simpa using hlen.symm
  | case2 v d p fwd bwd F0 B0 hv =>
    rw [meet, if_pos hv]
    have hn : v ∉ Dict.keys F0 := by
      rw [List.map_append, List.nodup_append] at hf
      exact fun h => hf.2.2 v h v (by simp) rfl
    refine ⟨fun h => by simp at h, fun F B h => ?_⟩
    simp only [Option.some.injEq, Prod.mk.injEq] at h
    rw [← h.1, ← h.2, set_of_not_mem _ _ _ hn]
    refine ⟨⟨fwd, by simp⟩, by simp, v, by simp, hv⟩
  | case3 v d p fwd bwd F0 B0 hv ih =>
    rw [meet, if_neg hv]
    have hn : v ∉ Dict.keys F0 := by
      rw [List.map_append, List.nodup_append] at hf
      exact fun h => hf.2.2 v h v (by simp) rfl
    have e : F0 ++ (v, d, p) :: fwd = (F0 ++ [(v, d, p)]) ++ fwd := by simp
    rw [set_of_not_mem _ _ _ hn] at ih ⊢
    rw [e] at hf ⊢
    refine ih hf hb ?_ ?_
    · intro x hx hx'
      rw [List.map_append, List.mem_append] at hx
      rcases hx with hx | hx
      · exact hd hx hx'
      · rw [List.map_singleton, List.mem_singleton] at hx
        subst hx
        exact hv hx'
    · simpa using hlen
  | case4 fwd f1 b1 =>
    rw [meet]
    refine ⟨fun _ => ⟨f1, b1, by simp, by simp, hd, Or.inr ⟨by simp, ?_⟩⟩, fun F B h => by simp at h⟩
    simpa using hlen
  | case5 fwd v d p bwd F0 B0 hv =>
    rw [meet, if_pos hv]
    have hn : v ∉ Dict.keys B0 := by
      rw [List.map_append, List.nodup_append] at hb
      exact fun h => hb.2.2 v h v (by simp) rfl
    refine ⟨fun h => by simp at h, fun F B h => ?_⟩
    simp only [Option.some.injEq, Prod.mk.injEq] at h
    rw [← h.1, ← h.2, set_of_not_mem _ _ _ hn]
    refine ⟨by simp, ⟨bwd, by simp⟩, v, hv, by simp⟩
  | case6 fwd v d p bwd F0 B0 hv ih =>
    rw [meet, if_neg hv]
    have hn : v ∉ Dict.keys B0 := by
      rw [List.map_append, List.nodup_append] at hb
      exact fun h => hb.2.2 v h v (by simp) rfl
    have e : B0 ++ (v, d, p) :: bwd = (B0 ++ [(v, d, p)]) ++ bwd := by simp
    rw [set_of_not_mem _ _ _ hn] at ih ⊢
    rw [e] at hb ⊢
    refine ih hf hb ?_ ?_
    · intro x hx hx'
      rw [List.map_append, List.mem_append] at hx'
      rcases hx' with hx' | hx'
      · exact hd hx hx'
      · rw [List.map_singleton, List.mem_singleton] at hx'
        subst hx'
        exact hv hx
    · simpa using hlen

/-- A candidate: forward entry, edge, backward entry. -/
def Cand (g : Graph V W) (t : V) (F B : Dict V (W × List V)) (r : WithTop W × List V) : Prop :=
  ∃ u e v b x, (u, e) ∈ F ∧ Dict.get? B v = some b ∧ adj g u v = some x ∧ r.1 = ((e.1 + x + b.1 : W) : WithTop W) ∧
    r.2 = e.2 ++ (b.2.drop 1).reverse ++ [t]

omit [Zero W] [PathAdd W] in
theorem bestInner_spec (t : V) (e : W × List V) (B : Dict V (W × List V)) (N : Dict V W) (best : WithTop W × List V) :
    (bestInner t e B N best = best ∨ ∃ v b x, (v, x) ∈ N ∧ Dict.get? B v = some b ∧
        (bestInner t e B N best).1 = ((e.1 + x + b.1 : W) : WithTop W) ∧
        (bestInner t e B N best).2 = e.2 ++ (b.2.drop 1).reverse ++ [t]) ∧
      (bestInner t e B N best).1 ≤ best.1 ∧
      ∀ v x b, (v, x) ∈ N → Dict.get? B v = some b → (bestInner t e B N best).1 ≤ ((e.1 + x + b.1 : W) : WithTop W) := by
  induction N generalizing best with
  | nil => exact ⟨Or.inl rfl, le_refl _, fun v x b h => by simp at h⟩
  | cons a N ih =>
    obtain ⟨v, x⟩ := a
    rw [bestInner]
    cases hB : Dict.get? B v with
    | none =>
      dsimp only
      obtain ⟨h1, h2, h3⟩ := ih best
      refine ⟨h1.imp id ?_, h2, fun v' x' b hm hb => ?_⟩
      · rintro ⟨v', b, x', hm, h⟩; exact ⟨v', b, x', List.mem_cons_of_mem _ hm, h⟩
      · rcases List.mem_cons.1 hm with hm | hm
        · rw [Prod.mk.injEq] at hm; rw [hm.1, hB] at hb; simp at hb
        · exact h3 v' x' b hm hb
    | some b0 =>
      dsimp only
      by_cases hc : ((e.1 + x + b0.1 : W) : WithTop W) < best.1
      · rw [if_pos hc]
        obtain ⟨h1, h2, h3⟩ := ih (((e.1 + x + b0.1 : W) : WithTop W), e.2 ++ (b0.2.drop 1).reverse ++ [t])
        refine ⟨Or.inr ?_, h2.trans hc.le, fun v' x' b hm hb => ?_⟩
        · rcases h1 with h1 | ⟨v', b, x', hm, h⟩
          · exact ⟨v, b0, x, List.mem_cons_self, hB, by rw [h1], by rw [h1]⟩
          · exact ⟨v', b, x', List.mem_cons_of_mem _ hm, h⟩
        · rcases List.mem_cons.1 hm with hm | hm
          · rw [Prod.mk.injEq] at hm
            rw [hm.1, hB] at hb
            injection hb with hb
            rw [hm.2, ← hb]
            exact h2
          · exact h3 v' x' b hm hb
      · rw [if_neg hc]
        obtain ⟨h1, h2, h3⟩ := ih best
        refine ⟨h1.imp id ?_, h2, fun v' x' b hm hb => ?_⟩
        · rintro ⟨v', b, x', hm, h⟩; exact ⟨v', b, x', List.mem_cons_of_mem _ hm, h⟩
        · rcases List.mem_cons.1 hm with hm | hm
          · rw [Prod.mk.injEq] at hm
            rw [hm.1, hB] at hb
            injection hb with hb
            rw [hm.2, ← hb]
            exact h2.trans (not_lt.1 hc)
          · exact h3 v' x' b hm hb

theorem bestOuter_spec {g : Graph V W} (hg : Good g) (t : V) (B F : Dict V (W × List V)) (best : WithTop W × List V)
    (hF : ∀ e ∈ F, Mem g e.1) : ∃ r, bestOuter g t B F best = .ok r ∧ (r = best ∨ Cand g t F B r) ∧ r.1 ≤ best.1 ∧
      ∀ u e v b x, (u, e) ∈ F → Dict.get? B v = some b → adj g u v = some x → r.1 ≤ ((e.1 + x + b.1 : W) : WithTop W) := by
  induction F generalizing best with
  | nil => exact ⟨best, rfl, Or.inl rfl, le_refl _, fun u e v b x h => by simp at h⟩
  | cons a F ih =>
    obtain ⟨u, e⟩ := a
    obtain ⟨N, hN⟩ := mem_iff.1 (hF _ List.mem_cons_self)
    dsimp only at hN
    rw [bestOuter, hN]
    dsimp only
    obtain ⟨i1, i2, i3⟩ := bestInner_spec t e B N best
    obtain ⟨r, h1, h2, h3, h4⟩ := ih (bestInner t e B N best) (fun x hx => hF x (List.mem_cons_of_mem _ hx))
    refine ⟨r, h1, ?_, h3.trans i2, fun u' e' v b x hm hb hx => ?_⟩
    · rcases h2 with h2 | ⟨u', e', v, b, x, hm, h⟩
      · rcases i1 with i1 | ⟨v, b, x, hm, hb, e1, e2⟩
        · exact Or.inl (h2.trans i1)
        · refine Or.inr ⟨u, e, v, b, x, List.mem_cons_self, hb, ?_, by rw [h2]; exact e1, by rw [h2]; exact e2⟩
          rw [adj_eq hN]; exact Dict.get?_of_mem (hg.inner u N hN) hm
      · exact Or.inr ⟨u', e', v, b, x, List.mem_cons_of_mem _ hm, h⟩
    · rcases List.mem_cons.1 hm with hm | hm
      · rw [Prod.mk.injEq] at hm
        rw [hm.1, adj_eq hN] at hx
        rw [hm.2]
        exact h3.trans (i3 v x b (Dict.mem_of_get? hx) hb)
      · exact h4 u' e' v b x hm hb hx

theorem walk_head {V W : Type} [Add W] [Zero W] {A : V → V → Option W} {t : V} {q : List V} {m : V} {d : W} (h : WalkOf A t q m d) : ∃ r, q = t :: r := by
  induction h with
  | start => exact ⟨[], rfl⟩
  | step _ _ ih => obtain ⟨q, hq⟩ := ih; exact ⟨_, by rw [hq, List.cons_append]⟩

theorem ItInv.head {g : Graph V W} {s : V} {D : Dict V (WithTop W)} {vis : Finset V} {l : List (V × W × List V)}
    (h : ItInv g s D [] vis l) : ∃ l', l = (s, 0, [s]) :: l' := by
  cases l with
  | nil =>
    obtain ⟨e, he, -⟩ := h.reached WalkOf.start
    simp at he
  | cons e l =>
    rcases h.tree [] e l rfl with ⟨h1, h2, h3⟩ | ⟨f, hf, -⟩
    · obtain ⟨a, b, c⟩ := e
      dsimp only at h1 h2 h3
      exact ⟨l, by rw [h1, h2, h3]⟩
    · simp at hf

theorem ItInv.beyond {g : Graph V W} {s : V} {D : Dict V (WithTop W)} {vis : Finset V} {l f : List (V × W × List V)}
    (h : ItInv g s D [] vis l) (hf : f <+: l) {e : V × W × List V} (he : e ∈ f) {p : List V} {v : V} {c : W}
    (hp : WalkOf (adj g) s p v c) (hv : v ∉ f.map Prod.fst) : e.2.1 ≤ c := by
  obtain ⟨r, hr⟩ := hf
  obtain ⟨e', he', rfl⟩ := h.reached hp
  have hs := h.sorted
  rw [← hr] at he' hs
  rcases List.mem_append.1 he' with h' | h'
  · exact absurd (List.mem_map_of_mem h') hv
  · refine ((List.pairwise_append.1 hs).2.2 e he e' h').trans ?_
    exact (h.shortest (by rw [← hr]; exact he')).2 p c hp

theorem ItInv.parent {g : Graph V W} {s : V} {D : Dict V (WithTop W)} {vis : Finset V} {l f : List (V × W × List V)}
    (h : ItInv g s D [] vis l) (hf : f <+: l) {e : V × W × List V} (he : e ∈ f) (hs : e.1 ≠ s) :
    ∃ k ∈ f, ∃ x, adj g k.1 e.1 = some x ∧ e.2.1 = k.2.1 + x := by
  obtain ⟨r, hr⟩ := hf
  obtain ⟨a, b, e1⟩ := List.append_of_mem he
  rcases h.tree a e (b ++ r) (by rw [← hr, e1]; simp) with h' | ⟨k, hk, x, h1, h2, -⟩
  · exact absurd h'.1 hs
  · exact ⟨k, by rw [e1]; exact List.mem_append_left _ hk, x, h1, h2⟩

theorem wf_prefix {l f : List (V × W × List V)} (h : (l.map Prod.fst).Nodup) (hf : f <+: l) : Dict.WF f := by
  obtain ⟨r, hr⟩ := hf
  rw [← hr, List.map_append, List.nodup_append] at h
  exact h.1

omit [LinearOrder V] [LinearOrder W] [PathAdd W] in
/-- Two walks to the same vertex can be joined. -/
theorem walk_meet {A : V → V → Option W} (hA : ∀ u v, A u v = A v u) {s m t : V} {q : List V} {d : W}
    (h2 : WalkOf A t q m d) {p : List V} {c : W} (h1 : WalkOf A s p m c) : ∃ p c, WalkOf A s p t c := by
  induction h2 generalizing p c with
  | start => exact ⟨_, _, h1⟩
  | step hq hx ih => exact ih (WalkOf.step h1 (by rw [hA]; exact hx))

theorem ItInv.verts {g : Graph V W} {s : V} {D : Dict V (WithTop W)} {vis : Finset V} {l : List (V × W × List V)}
    (h : ItInv g s D [] vis l) : ∀ (n : ℕ) (o1 : List (V × W × List V)) e o2, l = o1 ++ e :: o2 → o1.length ≤ n →
      e.2.2.Nodup ∧ ∀ w ∈ e.2.2, w ∈ (o1 ++ [e]).map Prod.fst := by
  intro n
  induction n with
  | zero =>
    intro o1 e o2 hl hn
    obtain rfl := List.length_eq_zero_iff.1 (Nat.le_zero.1 hn)
    rcases h.tree [] e o2 hl with ⟨h1, -, h3⟩ | ⟨f, hf, -⟩
    · rw [h3]; simp [h1]
    · simp at hf
  | succ n ih =>
    intro o1 e o2 hl hn
    rcases h.tree o1 e o2 hl with ⟨h1, -, h3⟩ | ⟨f, hf, x, -, -, h3⟩
    · rw [h3]; simp [h1]
    · obtain ⟨a, b, rfl⟩ := List.append_of_mem hf
      obtain ⟨k1, k2⟩ := ih a f (b ++ e :: o2) (by rw [hl]; simp) (by
        rw [List.length_append, List.length_cons] at hn; omega)
      have hsub : ∀ w ∈ f.2.2, w ∈ (a ++ f :: b).map Prod.fst := by
        intro w hw
        have := k2 w hw
        simp only [List.map_append, List.map_cons, List.mem_append, List.mem_cons, List.map_nil, List.not_mem_nil, or_false] at this ⊢
        tauto
      have hnd := h.nodup
      rw [hl, List.map_append, List.nodup_append] at hnd
      rw [h3]
      constructor
      · rw [List.nodup_append]
        refine ⟨k1, by simp, fun w hw w' hw' => ?_⟩
        rw [List.mem_singleton] at hw'
        exact hnd.2.2 w (hsub w hw) w' (by rw [hw']; simp)
      · intro w hw
        rw [List.map_append, List.mem_append]
        rcases List.mem_append.1 hw with hw | hw
        · exact Or.inl (hsub w hw)
        · right; simpa using hw

theorem ItInv.verts' {g : Graph V W} {s : V} {D : Dict V (WithTop W)} {vis : Finset V} {l : List (V × W × List V)}
    (h : ItInv g s D [] vis l) {e : V × W × List V} (he : e ∈ l) : e.2.2.Nodup := by
  obtain ⟨a, b, e1⟩ := List.append_of_mem he
  exact (h.verts _ a e b e1 le_rfl).1

/-- What `dijkstra_bidirectional` computes if addition is only commutative and monotone, and exact for 0: the two
generators yield computed distances, the sum of two of them and an edge between them is returned, and for an edge from
the vertices of the forward search to another vertex it is not more than what the two searches compute for it. -/
theorem bidirectional_weak {g : Graph V W} (hg : Good g) (hA : ∀ u v x, adj g u v = some x → 0 ≤ x)
    (hc : ∀ a b : W, a + b = b + a) (hz : ∀ a : W, a + 0 = a) {s t : V} (hs : Mem g s) (ht : Mem g t) (hst : s ≠ t) :
    (∃ (c : W) (p : List V), dijkstraBidirectional g s t = some (.ok (.pair (c : WithTop W) p)) ∧
      (∃ u v q q' a b x, WalkOf (adj g) s q u a ∧ WalkOf (adj g) t q' v b ∧ q.Nodup ∧ q'.Nodup ∧ adj g u v = some x ∧
        c = a + x + b ∧ p = q ++ q'.reverse) ∧
      ∃ F : V → Prop, F s ∧ (F t → ∃ a, IsShortest (adj g) s t a ∧ c ≤ a) ∧
        ∀ x y w q d, F x → ¬ F y → adj g x y = some w → WalkOf (adj g) t q y d → ∃ a b,
          (IsShortest (adj g) s x a ∧ IsShortest (adj g) t y b ∧ c ≤ a + w + b) ∨
          (IsShortest (adj g) s y a ∧ IsShortest (adj g) t y b ∧ c ≤ a + b)) ∨
    (dijkstraBidirectional g s t = some (.ok .bareInf) ∧ ∀ p c, ¬ WalkOf (adj g) s p t c) := by
  obtain ⟨l, D, vis, e1, hl⟩ := iterator_spec hg hA hs
  obtain ⟨l', D', vis', e2, hl'⟩ := iterator_spec hg hA ht
  have hm := meet_spec true l l' [] [] (by simpa using hl.nodup) (by simpa using hl'.nodup) (by simp) (by simp)
  rw [List.nil_append, List.nil_append] at hm
  rw [dijkstraBidirectional, if_neg (fun h : s ∉ Dict.keys g => h hs), if_neg (fun h : t ∉ Dict.keys g => h ht), e1, e2]
  simp only [Option.bind_eq_bind, Option.bind_some]
  cases hmt : meet true l l' [] [] with
  | none =>
    dsimp only
    refine Or.inr ⟨rfl, fun p c hp => ?_⟩
    obtain ⟨f, b, hf, hb, hd, h⟩ := hm.1 hmt
    obtain ⟨k, hk⟩ := hl.head
    obtain ⟨k', hk'⟩ := hl'.head
    rcases h with ⟨h1, h2⟩ | ⟨h1, h2⟩
    · subst h1
      obtain ⟨e, he, het⟩ := hl.reached hp
      obtain ⟨r, hr⟩ := hb
      cases b with
      | nil => rw [hk] at h2; simp at h2
      | cons b0 b =>
        rw [hk', List.cons_append, List.cons.injEq] at hr
        exact hd (List.mem_map_of_mem (f := Prod.fst) he) (by rw [het, hr.1]; simp)
    · subst h1
      obtain ⟨q, c', hq⟩ := walk_meet hg.symm hp (WalkOf.start (A := adj g) (s := t))
      obtain ⟨e, he, hes⟩ := hl'.reached hq
      obtain ⟨r, hr⟩ := hf
      cases f with
      | nil => simp at h2
      | cons f0 f =>
        rw [hk, List.cons_append, List.cons.injEq] at hr
        exact hd (a := s) (by rw [hr.1]; simp) (by rw [← hes]; exact List.mem_map_of_mem (f := Prod.fst) he)
  | some FB =>
    obtain ⟨F, B⟩ := FB
    obtain ⟨hF, hB, m, hmF, hmB⟩ := hm.2 F B hmt
    dsimp only
    have hFm : ∀ e ∈ F, Mem g e.1 := fun e he => hl.mem _ ((hl.visout _).2 (List.mem_map_of_mem (f := Prod.fst) (hF.subset he)))
    obtain ⟨r, h1, h2, -, hr⟩ := bestOuter_spec hg t B F (⊤, []) hFm
    rw [h1]
    dsimp only
    left
    have hwB : Dict.WF B := wf_prefix hl'.nodup hB
    have hsub : ∀ e ∈ F, e ∈ l := fun e he => hF.subset he
    have hsub' : ∀ e ∈ B, e ∈ l' := fun e he => hB.subset he
    have hFs : (s, 0, [s]) ∈ F := by
      obtain ⟨k, hk⟩ := hl.head
      obtain ⟨y, hy⟩ := hF
      cases F with
      | nil => simp at hmF
      | cons e F =>
        rw [hk, List.cons_append, List.cons.injEq] at hy
        rw [hy.1]; exact List.mem_cons_self
    have hBt : (t, 0, [t]) ∈ B := by
      obtain ⟨k, hk⟩ := hl'.head
      obtain ⟨y, hy⟩ := hB
      cases B with
      | nil => simp at hmB
      | cons e B =>
        rw [hk, List.cons_append, List.cons.injEq] at hy
        rw [hy.1]; exact List.mem_cons_self
    have key : ∀ e ∈ F, ∀ b ∈ B, e.1 = b.1 → r.1 ≤ ((e.2.1 + b.2.1 : W) : WithTop W) := by
      intro e he b hb heb
      by_cases hes : e.1 = s
      · have h0 : e.2.1 = 0 := by
          have h1 := hl.shortest (hsub e he)
          rw [hes] at h1
          have h2 := hl.shortest (hsub _ hFs)
          exact le_antisymm (h1.2 _ _ WalkOf.start) (h2.2 _ _ (hes ▸ hl.path' (hsub e he)))
        obtain ⟨k, hk, x, k1, k2⟩ := hl'.parent hB hb (by rw [← heb, hes]; exact hst)
        have := hr s (0, [s]) k.1 k.2 x hFs (Dict.get?_of_mem hwB hk) (by rw [hg.symm, ← hes, heb]; exact k1)
        rw [h0, k2, hc 0, hz]
        dsimp only at this
        rwa [hc 0, hz, hc x] at this
      · obtain ⟨k, hk, x, k1, k2⟩ := hl.parent hF he hes
        have := hr k.1 k.2 b.1 b.2 x hk (Dict.get?_of_mem hwB hb) (by rw [← heb]; exact k1)
        rw [k2]
        exact this
    obtain ⟨e1, he1, rfl⟩ := List.mem_map.1 hmF
    obtain ⟨b1, hb1, hbm⟩ := List.mem_map.1 hmB
    have key1 := key e1 he1 b1 hb1 hbm.symm
    rcases h2 with h2 | ⟨u, e, v, b, x, hu, hb, hx, r1, r2⟩
    · rw [h2] at key1
      exact absurd key1 (by simp)
    · have w1 := hl.path' (hF.subset hu)
      have w2 := hl'.path' (hB.subset (Dict.mem_of_get? hb))
      have hp2 : r.2 = e.2 ++ b.2.reverse := by
        obtain ⟨q, hq⟩ := walk_head w2
        dsimp only at hq
        rw [r2, hq]
        simp
      rw [r1] at key key1 hr
      refine ⟨e.1 + x + b.1, r.2, congrArg (fun z => some (Except.ok (Bi.pair z r.2))) r1,
        ⟨u, v, e.2, b.2, e.1, b.1, x, w1, w2, hl.verts' (hF.subset hu), hl'.verts' (hB.subset (Dict.mem_of_get? hb)), hx, rfl, hp2⟩,
        fun v => v ∈ F.map Prod.fst, List.mem_map_of_mem (f := Prod.fst) hFs, fun htF => ?_, fun x y w q d hxF hyF hw hq => ?_⟩
      · obtain ⟨f, hf, hft⟩ := List.mem_map.1 htF
        have h1 := WithTop.coe_le_coe.1 (key f hf _ hBt hft)
        dsimp only at h1
        rw [hz] at h1
        exact ⟨_, hft ▸ hl.shortest (hsub f hf), h1⟩
      · obtain ⟨f, hf, rfl⟩ := List.mem_map.1 hxF
        have wf := hl.path' (hsub f hf)
        by_cases hyB : y ∈ B.map Prod.fst
        · obtain ⟨k, hk, rfl⟩ := List.mem_map.1 hyB
          exact ⟨_, _, Or.inl ⟨hl.shortest (hsub f hf), hl'.shortest (hsub' k hk),
            WithTop.coe_le_coe.1 (hr f.1 f.2 k.1 k.2 w hf (Dict.get?_of_mem hwB hk) hw)⟩⟩
        · obtain ⟨f', hf', k1⟩ := hl.reached (WalkOf.step wf hw)
          obtain ⟨b', hb', k2⟩ := hl'.reached hq
          refine ⟨f'.2.1, b'.2.1, Or.inr ⟨k1 ▸ hl.shortest hf', k2 ▸ hl'.shortest hb', ?_⟩⟩
          have m1 := hl.beyond hF he1 (k1 ▸ hl.path' hf' : WalkOf (adj g) s f'.2.2 y f'.2.1) hyF
          have m2 := hl'.beyond hB hb1 (k2 ▸ hl'.path' hb' : WalkOf (adj g) t b'.2.2 y b'.2.1) hyB
          refine (WithTop.coe_le_coe.1 key1).trans ((PathAdd.mono _ _ _ m1).trans ?_)
          rw [hc f'.2.1, hc f'.2.1]
          exact PathAdd.mono _ _ _ m2

/-- The case `s = t` without a loop at `s`. -/
theorem bidirectional_same {g : Graph V W} (hg : Good g) (hA : ∀ u v x, adj g u v = some x → 0 ≤ x) {s : V} (hs : Mem g s)
    (h0 : adj g s s = none) : dijkstraBidirectional g s s = some (.ok (.pair ⊤ [])) := by
  obtain ⟨l, D, vis, e1, hl⟩ := iterator_spec hg hA hs
  rw [dijkstraBidirectional, if_neg (fun h : s ∉ Dict.keys g => h hs), if_neg (fun h : s ∉ Dict.keys g => h hs), e1]
  simp only [Option.bind_eq_bind, Option.bind_some]
  obtain ⟨k, hk⟩ := hl.head
  rw [hk, meet, if_neg (by simp [Dict.keys]), meet, if_pos (by simp [Dict.keys, Dict.set])]
  dsimp only
  obtain ⟨r, h1, h2, -, -⟩ := bestOuter_spec hg s (Dict.set [] s ((0 : W), [s])) (Dict.set [] s ((0 : W), [s])) (⊤, [])
    (fun e he => by simp [Dict.set] at he; rw [he]; exact hs)
  rw [h1]
  dsimp only
  rcases h2 with h2 | ⟨u, e, v, b, x, hu, hb, hx, -⟩
  · rw [h2]
  · exfalso
    simp [Dict.set] at hu
    have hv := Dict.mem_of_get? hb
    simp [Dict.set] at hv
    rw [hu.1, hv.1, h0] at hx
    simp at hx

end weak

variable {V W : Type} [LinearOrder V] [AddCommMonoid W] [LinearOrder W] [IsOrderedCancelAddMonoid W]

/-! ### Walks -/

omit [LinearOrder V] [LinearOrder W] [IsOrderedCancelAddMonoid W] in
theorem walk_append {A : V → V → Option W} (hA : ∀ u v, A u v = A v u) {t : V} {q : List V} {v : V} {d : W}
    (hq : WalkOf A t q v d) {s : V} {p : List V} {u : V} {c x : W} (hp : WalkOf A s p u c) (hx : A u v = some x) :
    WalkOf A s (p ++ q.reverse) t (c + x + d) := by
  induction hq generalizing p u c x with
  | start =>
    rw [List.reverse_singleton, add_zero]
    exact WalkOf.step hp hx
  | step hq hy ih =>
    rename_i q' v' w' c' y
    have h1 := WalkOf.step hp hx
    have h2 := ih h1 (x := y) (by rw [hA]; exact hy)
    rw [List.reverse_append, List.reverse_singleton, List.singleton_append]
    rw [List.append_assoc, List.singleton_append] at h2
    rw [show c + x + (c' + y) = c + x + y + c' by abel]
    exact h2

omit [LinearOrder V] [LinearOrder W] [IsOrderedCancelAddMonoid W] in
theorem walk_cons {A : V → V → Option W} {w v : V} {x : W} (hx : A w v = some x) {q : List V} {y : V} {c : W}
    (h : WalkOf A v q y c) : WalkOf A w (w :: q) y (x + c) := by
  induction h with
  | start =>
    have := WalkOf.step (WalkOf.start (A := A) (s := w)) hx
    rw [add_zero]
    rwa [zero_add] at this
  | step _ hy ih =>
    have := WalkOf.step ih hy
    rw [← add_assoc]
    exact this

omit [LinearOrder V] [LinearOrder W] [IsOrderedCancelAddMonoid W] in
theorem walk_join {A : V → V → Option W} (hA : ∀ u v, A u v = A v u) {s m t : V} {p q : List V} {c d : W}
    (h1 : WalkOf A s p m c) (h2 : WalkOf A t q m d) : ∃ p c, WalkOf A s p t c := by
  cases h2 with
  | start => exact ⟨_, _, h1⟩
  | step w2 hx => exact ⟨_, _, walk_append hA w2 h1 (by rw [hA]; exact hx)⟩

omit [LinearOrder V] [LinearOrder W] [IsOrderedCancelAddMonoid W] in
/-- A walk that leaves the set `F` has a first edge out of it. -/
theorem walk_leave {A : V → V → Option W} (hA : ∀ u v, A u v = A v u) {s : V} {F : V → Prop} (hs : F s) {p : List V} {v : V} {c : W}
    (hp : WalkOf A s p v c) (hv : ¬ F v) : ∃ p1 x c1 w y q c2, WalkOf A s p1 x c1 ∧ F x ∧ A x y = some w ∧ ¬ F y ∧
      WalkOf A v q y c2 ∧ c1 + w + c2 = c := by
  induction hp with
  | start => exact absurd hs hv
  | step hp hx ih =>
    rename_i p' v' w' c' x'
    by_cases hF : F v'
    · exact ⟨p', v', c', x', w', [w'], 0, hp, hF, hx, hv, WalkOf.start, by rw [add_zero]⟩
    · obtain ⟨p1, x, c1, w, y, q, c2, h1, h2, h3, h4, h5, h6⟩ := ih hF
      refine ⟨p1, x, c1, w, y, _, x' + c2, h1, h2, h3, h4, walk_cons (by rw [hA]; exact hx) h5, ?_⟩
      rw [← h6]; abel

/-- The two searches have met: the best candidate is a shortest path. -/
theorem best_optimal {g : Graph V W} (hg : Good g) {s t : V} (hst : s ≠ t)
    {D D' : Dict V (WithTop W)} {vis vis' : Finset V} {l l' F B : List (V × W × List V)} (hl : ItInv g s D [] vis l)
    (hl' : ItInv g t D' [] vis' l') (hF : F <+: l) (hB : B <+: l') {m : V} (hmF : m ∈ F.map Prod.fst)
    (hmB : m ∈ B.map Prod.fst) {r : WithTop W × List V}
    (hr : ∀ u e v b x, (u, e) ∈ F → Dict.get? B v = some b → adj g u v = some x → r.1 ≤ ((e.1 + x + b.1 : W) : WithTop W))
    {p : List V} {c : W} (hp : WalkOf (adj g) s p t c) : r.1 ≤ (c : WithTop W) := by
  have hwB : Dict.WF B := wf_prefix hl'.nodup hB
  have hsub : ∀ e ∈ F, e ∈ l := fun e he => hF.subset he
  have hsub' : ∀ e ∈ B, e ∈ l' := fun e he => hB.subset he
  have hFs : (s, 0, [s]) ∈ F := by
    obtain ⟨k, hk⟩ := hl.head
    obtain ⟨y, hy⟩ := hF
    cases F with
    | nil => simp at hmF
    | cons e F =>
      rw [hk, List.cons_append, List.cons.injEq] at hy
      rw [hy.1]; exact List.mem_cons_self
  have hBt : (t, 0, [t]) ∈ B := by
    obtain ⟨k, hk⟩ := hl'.head
    obtain ⟨y, hy⟩ := hB
    cases B with
    | nil => simp at hmB
    | cons e B =>
      rw [hk, List.cons_append, List.cons.injEq] at hy
      rw [hy.1]; exact List.mem_cons_self
  -- a common vertex gives a candidate
  have key : ∀ e ∈ F, ∀ b ∈ B, e.1 = b.1 → r.1 ≤ ((e.2.1 + b.2.1 : W) : WithTop W) := by
    intro e he b hb heb
    by_cases hes : e.1 = s
    · have h0 : e.2.1 = 0 := by
        have h1 := hl.shortest (hsub e he)
        rw [hes] at h1
        have h2 := hl.shortest (hsub _ hFs)
        exact le_antisymm (h1.2 _ _ WalkOf.start) (h2.2 _ _ (hes ▸ hl.path' (hsub e he)))
      obtain ⟨k, hk, x, k1, k2⟩ := hl'.parent hB hb (by rw [← heb, hes]; exact hst)
      have := hr s (0, [s]) k.1 k.2 x hFs (Dict.get?_of_mem hwB hk) (by rw [hg.symm, ← hes, heb]; exact k1)
      rw [h0, k2, zero_add]
      dsimp only at this
      rwa [zero_add, add_comm x] at this
    · obtain ⟨k, hk, x, k1, k2⟩ := hl.parent hF he hes
      have := hr k.1 k.2 b.1 b.2 x hk (Dict.get?_of_mem hwB hb) (by rw [← heb]; exact k1)
      rw [k2]
      exact this
  obtain ⟨e1, he1, rfl⟩ := List.mem_map.1 hmF
  obtain ⟨b1, hb1, hbm⟩ := List.mem_map.1 hmB
  by_cases htF : t ∈ F.map Prod.fst
  · obtain ⟨e, he, het⟩ := List.mem_map.1 htF
    have h1 := key e he _ hBt het
    rw [add_zero] at h1
    refine h1.trans (WithTop.coe_le_coe.2 ?_)
    exact (hl.shortest (hsub e he)).2 p c (by rw [het]; exact hp)
  · obtain ⟨p1, x, c1, w, y, q, c2, h1, h2, h3, h4, h5, h6⟩ :=
      walk_leave hg.symm (F := fun v => v ∈ F.map Prod.fst) (List.mem_map_of_mem (f := Prod.fst) hFs) hp htF
    obtain ⟨e, he, rfl⟩ := List.mem_map.1 h2
    by_cases hyB : y ∈ B.map Prod.fst
    · obtain ⟨b, hb, rfl⟩ := List.mem_map.1 hyB
      refine (hr e.1 e.2 b.1 b.2 w he (Dict.get?_of_mem hwB hb) h3).trans (WithTop.coe_le_coe.2 ?_)
      rw [← h6]
      have k1 := (hl.shortest (hsub e he)).2 _ _ h1
      have k2 := (hl'.shortest (hsub' b hb)).2 _ _ h5
      exact add_le_add (add_le_add k1 (le_refl _)) k2
    · have k1 := hl.beyond hF he1 (WalkOf.step h1 h3) h4
      have k2 := hl'.beyond hB hb1 h5 hyB
      refine (key e1 he1 b1 hb1 hbm.symm).trans (WithTop.coe_le_coe.2 ?_)
      rw [← h6]
      exact add_le_add k1 k2

theorem bidirectional_spec {g : Graph V W} (hg : Good g) (hA : ∀ u v x, adj g u v = some x → 0 ≤ x) {s t : V} (hs : Mem g s)
    (ht : Mem g t) (hst : s ≠ t) :
    (∃ (c : W) (p : List V), dijkstraBidirectional g s t = some (.ok (.pair (c : WithTop W) p)) ∧ WalkOf (adj g) s p t c ∧ IsShortest (adj g) s t c) ∨
    (dijkstraBidirectional g s t = some (.ok .bareInf) ∧ ∀ p c, ¬ WalkOf (adj g) s p t c) := by
  obtain ⟨l, D, vis, e1, hl⟩ := iterator_spec hg hA hs
  obtain ⟨l', D', vis', e2, hl'⟩ := iterator_spec hg hA ht
  have hm := meet_spec true l l' [] [] (by simpa using hl.nodup) (by simpa using hl'.nodup) (by simp) (by simp)
  rw [List.nil_append, List.nil_append] at hm
  rw [dijkstraBidirectional, if_neg (fun h : s ∉ Dict.keys g => h hs), if_neg (fun h : t ∉ Dict.keys g => h ht), e1, e2]
  simp only [Option.bind_eq_bind, Option.bind_some]
  cases hmt : meet true l l' [] [] with
  | none =>
    dsimp only
    refine Or.inr ⟨rfl, fun p c hp => ?_⟩
    obtain ⟨f, b, hf, hb, hd, h⟩ := hm.1 hmt
    obtain ⟨k, hk⟩ := hl.head
    obtain ⟨k', hk'⟩ := hl'.head
    rcases h with ⟨h1, h2⟩ | ⟨h1, h2⟩
    · subst h1
      obtain ⟨e, he, het⟩ := hl.reached hp
      obtain ⟨r, hr⟩ := hb
      cases b with
      | nil => rw [hk] at h2; simp at h2
      | cons b0 b =>
        rw [hk', List.cons_append, List.cons.injEq] at hr
        exact hd (List.mem_map_of_mem (f := Prod.fst) he) (by rw [het, hr.1]; simp)
    · subst h1
      obtain ⟨q, hq⟩ : ∃ q, WalkOf (adj g) t q s c := by
        clear h2 hd hb hf e1 e2 hmt hm
        cases hp with
        | start => exact absurd rfl hst
        | step hp hx =>
          rename_i p' v c' x
          have := walk_append hg.symm hp (WalkOf.start (A := adj g) (s := t)) (by rw [hg.symm]; exact hx)
          rw [zero_add, add_comm] at this
          exact ⟨_, this⟩
      obtain ⟨e, he, hes⟩ := hl'.reached hq
      obtain ⟨r, hr⟩ := hf
      cases f with
      | nil => simp at h2
      | cons f0 f =>
        rw [hk, List.cons_append, List.cons.injEq] at hr
        exact hd (a := s) (by rw [hr.1]; simp) (by rw [← hes]; exact List.mem_map_of_mem (f := Prod.fst) he)
  | some FB =>
    obtain ⟨F, B⟩ := FB
    obtain ⟨hF, hB, m, hmF, hmB⟩ := hm.2 F B hmt
    dsimp only
    have hFm : ∀ e ∈ F, Mem g e.1 := fun e he => hl.mem _ ((hl.visout _).2 (List.mem_map_of_mem (f := Prod.fst) (hF.subset he)))
    obtain ⟨r, h1, h2, -, h4⟩ := bestOuter_spec hg t B F (⊤, []) hFm
    rw [h1]
    dsimp only
    left
    have hopt := fun p c hp => best_optimal hg hst hl hl' hF hB hmF hmB h4 (p := p) (c := c) hp
    rcases h2 with h2 | ⟨u, e, v, b, x, hu, hb, hx, r1, r2⟩
    · exfalso
      obtain ⟨e, he, hem⟩ := List.mem_map.1 hmF
      obtain ⟨b, hb, hbm⟩ := List.mem_map.1 hmB
      have w1 := hl.path' (hF.subset he)
      have w2 := hl'.path' (hB.subset hb)
      rw [hbm] at w2
      rw [hem] at w1
      rw [h2] at hopt
      obtain ⟨p, c, hp⟩ := walk_join hg.symm w1 w2
      exact absurd (hopt p c hp) (by simp)
    · have w1 := hl.path' (hF.subset hu)
      have w2 := hl'.path' (hB.subset (Dict.mem_of_get? hb))
      have w := walk_append hg.symm w2 w1 hx
      dsimp only at w
      have hp2 : r.2 = e.2 ++ b.2.reverse := by
        obtain ⟨q, hq⟩ := walk_head w2
        dsimp only at hq
        rw [r2, hq]
        simp
      refine ⟨e.1 + x + b.1, r.2, congrArg (fun z => some (Except.ok (Bi.pair z r.2))) r1, by rw [hp2]; exact w, ⟨_, w⟩, fun p c hp => ?_⟩
      have := hopt p c hp
      rw [r1] at this
      exact WithTop.coe_le_coe.1 this

end Rosemary.Paths
