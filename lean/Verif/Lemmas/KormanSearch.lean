import Verif.Lemmas.ExactColoring

/-!
# The search tree of `korman`
-/

namespace Rosemary.Coloring.Korman

open Rosemary.Graph Rosemary.Spec Rosemary.Coloring
open Rosemary.Traversal (E)

variable {V W : Type} [LinearOrder V]

/-- Every prefix of the colored positions uses the colors `1, ..., k` for some `k`. -/
def Chain (g : Graph V W) (L : Dict V ℕ) : Prop := ∀ p, p <+: L → ∃ k, Part g k p

/-- The largest color. -/
def top (p : List (V × ℕ)) : ℕ := (p.map Prod.snd).foldr max 0

theorem le_top {p : List (V × ℕ)} {x : V × ℕ} (h : x ∈ p) : x.2 ≤ top p := by
  induction p with
  | nil => simp at h
  | cons a p ih =>
    rw [top, List.map_cons, List.foldr_cons]
    rcases List.mem_cons.1 h with rfl | h
    · exact le_max_left _ _
    · exact (ih h).trans (le_max_right _ _)

theorem top_le {p : List (V × ℕ)} {m : ℕ} (h : ∀ x ∈ p, x.2 ≤ m) : top p ≤ m := by
  induction p with
  | nil => simp [top]
  | cons a p ih =>
    rw [top, List.map_cons, List.foldr_cons]
    exact max_le (h a List.mem_cons_self) (ih (fun x hx => h x (List.mem_cons_of_mem _ hx)))

theorem top_concat (p : List (V × ℕ)) (x : V × ℕ) : top (p ++ [x]) = max (top p) x.2 := by
  apply le_antisymm
  · apply top_le
    intro y hy
    rcases List.mem_append.1 hy with hy | hy
    · exact (le_top hy).trans (le_max_left _ _)
    · rw [List.mem_singleton.1 hy]; exact le_max_right _ _
  · exact max_le (top_le fun y hy => le_top (List.mem_append_left _ hy)) (le_top (by simp))

theorem _root_.Rosemary.Coloring.Part.top_eq {g : Graph V W} {k : ℕ} {p : Dict V ℕ} (h : Part g k p) : top p = k := by
  apply le_antisymm
  · apply top_le
    intro x hx
    have := h.range x.1 x.2 hx
    omega
  · by_cases hk : k = 0
    · omega
    · obtain ⟨v, hv⟩ := h.all k (by omega) (by omega)
      exact le_top hv

theorem _root_.Rosemary.Coloring.Part.le_length {g : Graph V W} {k : ℕ} {p : Dict V ℕ} (h : Part g k p) : k ≤ p.length := by
  have hsub : Finset.Ico 1 (1 + k) ⊆ (p.map Prod.snd).toFinset := by
    intro c hc
    rw [Finset.mem_Ico] at hc
    obtain ⟨v, hv⟩ := h.all c hc.1 hc.2
    exact List.mem_toFinset.2 (List.mem_map.2 ⟨_, hv, rfl⟩)
  have h1 := Finset.card_le_card hsub
  have h2 := List.toFinset_card_le (p.map Prod.snd)
  rw [List.length_map] at h2
  simp at h1
  omega

theorem Chain.part {g : Graph V W} {L : Dict V ℕ} (h : Chain g L) : Part g (top L) L := by
  obtain ⟨k, hk⟩ := h L (List.prefix_refl _)
  rw [hk.top_eq]; exact hk

theorem Chain.prefix {g : Graph V W} {L p : Dict V ℕ} (h : Chain g L) (hp : p <+: L) : Chain g p :=
  fun r hr => h r (hr.trans hp)

theorem set_concat {L : Dict V ℕ} {s : V} {j : ℕ} (h : s ∉ Dict.keys L) : Dict.set L s j = L ++ [(s, j)] :=
  Rosemary.Paths.set_of_not_mem _ _ _ h

theorem Chain.concat {g : Graph V W} (hg : Good g) {L : Dict V ℕ} (h : Chain g L) {s : V} (hs : Mem g s)
    (hn : s ∉ Dict.keys L) {j : ℕ} (h1 : 1 ≤ j) (h2 : j ≤ top L + 1) (hfree : ∀ v, E g s v → (v, j) ∉ L) :
    Chain g (L ++ [(s, j)]) := by
  intro p hp
  rcases List.prefix_concat_iff.1 hp with rfl | hp
  · refine ⟨max (top L) j, ?_⟩
    rw [← set_concat hn]
    refine h.part.snoc hg hs hn ⟨h1, ?_⟩ (le_max_left _ _) ?_ hfree
    · have := le_max_right (top L) j; omega
    · intro c hc hc'
      rcases le_max_iff.1 hc' with h3 | h3 <;> omega
  · exact h p hp

/-- A branch of the search tree that is not closed and that contains `f`. -/
def Open (q : ℕ) (S : List (V × ℕ)) (f : V → ℕ) : Prop :=
  ∃ p v c, p ++ [(v, c)] <+: S ∧ q ≤ p.length ∧ Extends p f ∧ c < f v ∧ f v ≤ top p + 1

/-- A better coloring is still to be found in an open branch. -/
def Cov (g : Graph V W) (q best : ℕ) (S : List (V × ℕ)) : Prop :=
  ∀ f, ProperOn g f → count g f < best → ∃ f', ProperOn g f' ∧ count g f' ≤ count g f ∧ Open q S f'

/-- A better coloring is still to be found above the colored positions or in an open branch. -/
def Feas (g : Graph V W) (q best : ℕ) (L : List (V × ℕ)) : Prop :=
  ∀ f, ProperOn g f → count g f < best →
    ∃ f', ProperOn g f' ∧ count g f' ≤ count g f ∧ (Extends L f' ∨ Open q L f')

theorem Open.mono {q : ℕ} {S S' : List (V × ℕ)} {f : V → ℕ} (h : Open q S f) (hs : S <+: S') : Open q S' f := by
  obtain ⟨p, v, c, h1, h2⟩ := h
  exact ⟨p, v, c, h1.trans hs, h2⟩

/-- The colors can be renamed. -/
theorem exists_swap {g : Graph V W} {k : ℕ} {L : Dict V ℕ} (h : Part g k L) (u : V) {f : V → ℕ} (hp : ProperOn g f)
    (hf : Extends L f) : ∃ f', ProperOn g f' ∧ count g f' = count g f ∧ Extends L f' ∧ 1 ≤ f' u ∧ f' u ≤ k + 1 ∧
      (¬ (1 ≤ f u ∧ f u < 1 + k) → f' u = k + 1) := by
  by_cases hfu : 1 ≤ f u ∧ f u < 1 + k
  · exact ⟨f, hp, rfl, hf, hfu.1, by omega, fun h => absurd hfu h⟩
  · have he : Equiv.swap (f u) (k + 1) (f u) = k + 1 := Equiv.swap_apply_left _ _
    refine ⟨fun v => Equiv.swap (f u) (k + 1) (f v), ?_, count_comp _ f, ?_, ?_, ?_, fun _ => he⟩
    · intro a b ha hb he hne hc
      exact hp a b ha hb he hne ((Equiv.swap (f u) (k + 1)).injective hc)
    · intro v c hc
      dsimp only
      rw [hf v c hc]
      have := h.range v c hc
      apply Equiv.swap_apply_of_ne_of_ne
      · rintro rfl; exact hfu this
      · omega
    · dsimp only; rw [he]; omega
    · dsimp only; rw [he]

theorem Feas.pick {g : Graph V W} {q best : ℕ} {L : Dict V ℕ} (h : Feas g q best L) (hc : Chain g L) (hq : q ≤ L.length)
    (s : V) : Cov g q best (L ++ [(s, 0)]) := by
  intro f hf hb
  obtain ⟨f', h1, h2, h3⟩ := h f hf hb
  rcases h3 with h3 | h3
  · obtain ⟨f2, k1, k2, k3, k4, k5, -⟩ := exists_swap hc.part s h1 h3
    exact ⟨f2, k1, k2.trans_le h2, L, s, 0, List.prefix_refl _, hq, k3, k4, k5⟩
  · exact ⟨f', h1, h2, h3.mono (List.prefix_append _ _)⟩

theorem open_concat {q : ℕ} {L : List (V × ℕ)} {s : V} {c : ℕ} {f : V → ℕ} (h : Open q (L ++ [(s, c)]) f) :
    Open q L f ∨ q ≤ L.length ∧ Extends L f ∧ c < f s ∧ f s ≤ top L + 1 := by
  obtain ⟨p, v, d, h1, h2, h3, h4, h5⟩ := h
  rcases List.prefix_concat_iff.1 h1 with h1 | h1
  · have := List.append_inj' h1 rfl
    obtain ⟨rfl, h6⟩ := this
    simp only [List.cons.injEq, Prod.mk.injEq, and_true] at h6
    obtain ⟨rfl, rfl⟩ := h6
    exact Or.inr ⟨h2, h3, h4, h5⟩
  · exact Or.inl ⟨p, v, d, h1, h2, h3, h4, h5⟩

theorem free_of_proper {g : Graph V W} {L : Dict V ℕ} (hc : Chain g L) {s : V} (hs : Mem g s) (hn : s ∉ Dict.keys L)
    {f : V → ℕ} (hp : ProperOn g f) (hf : Extends L f) : ∀ v, E g s v → (v, f s) ∉ L := by
  intro v hv hm
  have hk : v ∈ Dict.keys L := List.mem_map.2 ⟨_, hm, rfl⟩
  exact hp s v hs (hc.part.mem v hk) hv (by rintro rfl; exact hn hk) (hf v _ hm).symm

theorem Cov.reject {g : Graph V W} {q best : ℕ} {L : Dict V ℕ} {s : V} {c j : ℕ} (h : Cov g q best (L ++ [(s, c)]))
    (hc : Chain g L) (hs : Mem g s) (hn : s ∉ Dict.keys L)
    (hj : ∀ d, c < d → (∀ v, E g s v → (v, d) ∉ L) → j ≤ d) (hno : ¬ (j < best ∧ j ≤ top L + 1)) : Cov g q best L := by
  intro f hf hb
  obtain ⟨f', h1, h2, h3⟩ := h f hf hb
  rcases open_concat h3 with h3 | ⟨h3, h4, h5, h6⟩
  · exact ⟨f', h1, h2, h3⟩
  · exfalso
    have h7 := hj (f' s) h5 (free_of_proper hc hs hn h1 h4)
    apply hno
    refine ⟨?_, h7.trans h6⟩
    have : f' s ≤ count g f' := by
      by_cases h8 : f' s ≤ top L
      · exact h8.trans (hc.part.le_count h4)
      · have := hc.part.lt_count h4 hs (by omega)
        omega
    omega

theorem Cov.accept {g : Graph V W} {q best : ℕ} {L : Dict V ℕ} {s : V} {c j : ℕ} (h : Cov g q best (L ++ [(s, c)]))
    (hc : Chain g L) (hs : Mem g s) (hn : s ∉ Dict.keys L)
    (hj : ∀ d, c < d → (∀ v, E g s v → (v, d) ∉ L) → j ≤ d) : Feas g q best (L ++ [(s, j)]) := by
  intro f hf hb
  obtain ⟨f', h1, h2, h3⟩ := h f hf hb
  refine ⟨f', h1, h2, ?_⟩
  rcases open_concat h3 with h3 | ⟨h3, h4, h5, h6⟩
  · exact Or.inr (h3.mono (List.prefix_append _ _))
  · have h7 := hj (f' s) h5 (free_of_proper hc hs hn h1 h4)
    rcases Nat.eq_or_lt_of_le h7 with h8 | h8
    · left
      rw [← set_concat hn]
      exact extends_set hn h4 h8.symm
    · exact Or.inr ⟨L, s, j, List.prefix_refl _, h3, h4, h8, h6⟩

/-- All vertices are colored with `m` colors: go back to the first vertex with the color `m`. -/
theorem Feas.complete {g : Graph V W} {q best m : ℕ} {L : Dict V ℕ} (h : Feas g q best L) (hc : Chain g L)
    (hm : top L = m) (hb : m ≤ best) {i : ℕ} (hi : i < L.length) (hlt : ∀ x ∈ L.take i, x.2 < m) (hat : (L[i]).2 = m) :
    Cov g q m (L.take i) := by
  intro f hf hfm
  obtain ⟨f', h1, h2, h3⟩ := h f hf (hfm.trans_le hb)
  refine ⟨f', h1, h2, ?_⟩
  rcases h3 with h3 | ⟨p, v, c, k1, k2, k3, k4, k5⟩
  · have := hc.part.le_count h3
    omega
  · refine ⟨p, v, c, ?_, k2, k3, k4, k5⟩
    have hp : p <+: L := (List.prefix_append _ _).trans k1
    have hcp := hc.prefix hp
    have hlen := k1.length_le
    rw [List.length_append, List.length_singleton] at hlen
    have hple : top p ≤ count g f' := hcp.part.le_count k3
    by_cases hlt' : p.length < i
    · rw [List.prefix_take_iff]
      exact ⟨k1, by rw [List.length_append, List.length_singleton]; omega⟩
    · exfalso
      rcases Nat.lt_or_ge i p.length with h4 | h4
      · have : L[i] ∈ p := by
          rw [List.prefix_iff_eq_take.1 hp]
          exact List.mem_take_iff_getElem.2 ⟨i, by omega, rfl⟩
        have := le_top this
        omega
      · have hpi : p.length = i := by omega
        have hpt : p = L.take i := by rw [← hpi]; exact List.prefix_iff_eq_take.1 hp
        have hvc : L[i] = (v, c) := by
          obtain ⟨t, ht⟩ := k1
          have : L[i]? = some (v, c) := by
            rw [← ht, ← hpi]
            simp
          rw [List.getElem?_eq_getElem hi] at this
          exact Option.some.inj this
        have hm0 : 0 < m := by
          have := (hc.part.range (L[i]).1 (L[i]).2 (List.getElem_mem hi)).1
          omega
        have htop : top p ≤ m - 1 := top_le (fun x hx => by
          have := hlt x (hpt ▸ hx)
          omega)
        rw [hvc] at hat
        dsimp only at hat
        omega

/-! ## The measure -/

/-- The positions read as digits. -/
def phi (n : ℕ) : ℕ → List ℕ → ℕ
  | 0, _ => 0
  | _ + 1, [] => 0
  | d + 1, c :: cs => (n + 1 - c) * (n + 2) ^ d + phi n d cs

theorem phi_append_le (n : ℕ) : ∀ (d : ℕ) (a b : List ℕ), phi n d a ≤ phi n d (a ++ b)
  | 0, _, _ => by simp [phi]
  | _ + 1, [], _ => by simp [phi]
  | d + 1, c :: cs, b => by
    rw [List.cons_append, phi, phi]
    exact Nat.add_le_add_left (phi_append_le n d cs b) _

theorem phi_prefix_le (n d : ℕ) {a b : List ℕ} (h : a <+: b) : phi n d a ≤ phi n d b := by
  obtain ⟨t, rfl⟩ := h
  exact phi_append_le n d a t

theorem phi_lt_concat (n : ℕ) : ∀ (d : ℕ) (a : List ℕ) (c : ℕ), a.length < d → c ≤ n → phi n d a < phi n d (a ++ [c])
  | 0, _, _, h, _ => by omega
  | d + 1, [], c, _, hc => by
    rw [List.nil_append, phi, phi]
    have h1 : 0 < (n + 1 - c) * (n + 2) ^ d := Nat.mul_pos (by omega) (pow_pos (by omega) _)
    omega
  | d + 1, x :: xs, c, h, hc => by
    rw [List.cons_append, phi, phi]
    have := phi_lt_concat n d xs c (by simpa using h) hc
    omega

theorem phi_next_lt (n : ℕ) : ∀ (d : ℕ) (a : List ℕ) (c j : ℕ), a.length < d → c < j → j ≤ n →
    phi n d (a ++ [j, 0]) < phi n d (a ++ [c])
  | 0, _, _, _, h, _, _ => by omega
  | d + 1, [], c, j, _, hc, hj => by
    rw [List.nil_append, List.nil_append, phi, phi]
    have h1 : phi n d [0] < (n + 2) ^ d := by
      cases d with
      | zero => simp [phi]
      | succ d =>
        rw [phi]
        have h2 : phi n d [] = 0 := by cases d <;> rfl
        rw [h2, pow_succ, mul_comm ((n + 2) ^ d)]
        have : 0 < (n + 2) ^ d := pow_pos (by omega) _
        rw [add_zero]
        exact Nat.mul_lt_mul_of_pos_right (by omega) this
    have h3 : (n + 1 - j) * (n + 2) ^ d + (n + 2) ^ d ≤ (n + 1 - c) * (n + 2) ^ d := by
      rw [← Nat.succ_mul]
      exact Nat.mul_le_mul_right _ (by omega)
    omega
  | d + 1, x :: xs, c, j, h, hc, hj => by
    rw [List.cons_append, List.cons_append, phi, phi]
    have := phi_next_lt n d xs c j (by simpa using h) hc hj
    omega

/-! ## The clique -/

/-- The colors of the clique. -/
def cliqueColors : List V → ℕ → List (V × ℕ)
  | [], _ => []
  | u :: us, i => (u, i + 1) :: cliqueColors us (i + 1)

theorem cliqueColors_concat (l : List V) (u : V) : ∀ i, cliqueColors (l ++ [u]) i = cliqueColors l i ++ [(u, i + l.length + 1)] := by
  induction l with
  | nil => intro i; rfl
  | cons a l ih =>
    intro i
    rw [List.cons_append, cliqueColors, ih, cliqueColors, List.cons_append, List.length_cons]
    congr 4
    omega

theorem keys_cliqueColors (l : List V) : ∀ i, (cliqueColors l i).map Prod.fst = l := by
  induction l with
  | nil => intro i; rfl
  | cons a l ih => intro i; rw [cliqueColors, List.map_cons, ih]

theorem length_cliqueColors (l : List V) (i : ℕ) : (cliqueColors l i).length = l.length := by
  conv_rhs => rw [← keys_cliqueColors l i]
  rw [List.length_map]

theorem clique_spec {g : Graph V W} (hg : Good g) (l : List V) (hnd : l.Nodup) (hm : ∀ v ∈ l, Mem g v)
    (hadj : ∀ u ∈ l, ∀ v ∈ l, u ≠ v → E g u v) :
    Chain g (cliqueColors l 0) ∧ top (cliqueColors l 0) = l.length ∧
      ∀ f, ProperOn g f → ∃ f', ProperOn g f' ∧ count g f' = count g f ∧ Extends (cliqueColors l 0) f' := by
  induction l using List.reverseRecOn with
  | nil =>
    refine ⟨?_, rfl, fun f hf => ⟨f, hf, rfl, by intro v c h; simp [cliqueColors] at h⟩⟩
    intro p hp
    rw [List.prefix_nil.1 hp]
    exact ⟨0, by simp [Dict.WF, Dict.keys], by simp [Dict.keys], by simp, by intro c; omega, by simp⟩
  | append_singleton l u ih =>
    rw [List.nodup_append] at hnd
    obtain ⟨h1, h2, h3⟩ := ih hnd.1 (fun v hv => hm v (by simp [hv]))
      (fun a ha b hb => hadj a (by simp [ha]) b (by simp [hb]))
    have hul : u ∉ l := fun h => hnd.2.2 u h u (by simp) rfl
    have hu : u ∉ Dict.keys (cliqueColors l 0) := by rw [Dict.keys, keys_cliqueColors]; exact hul
    have hmu : Mem g u := hm u (by simp)
    rw [cliqueColors_concat, zero_add]
    refine ⟨h1.concat hg hmu hu (by omega) (by omega) ?_, ?_, ?_⟩
    · intro v _ hv
      have := le_top hv
      dsimp only at this
      omega
    · rw [top_concat, h2, List.length_append, List.length_singleton]
      exact max_eq_right (Nat.le_succ _)
    · intro f hf
      obtain ⟨f1, k1, k2, k3⟩ := h3 f hf
      obtain ⟨f2, e1, e2, e3, -, -, e4⟩ := exists_swap h1.part u k1 k3
      refine ⟨f2, e1, e2.trans k2, ?_⟩
      rw [← set_concat hu]
      apply extends_set hu e3
      rw [e4, h2]
      rintro ⟨e5, e6⟩
      obtain ⟨v, hv⟩ := h1.part.all _ e5 e6
      have hvl : v ∈ l := by
        rw [← keys_cliqueColors l 0]
        exact List.mem_map.2 ⟨_, hv, rfl⟩
      have hne : u ≠ v := by rintro rfl; exact hul hvl
      exact k1 u v hmu (hm v (by simp [hvl])) (hadj u (by simp) v (by simp [hvl]) hne) hne (k3 v _ hv).symm

end Rosemary.Coloring.Korman
