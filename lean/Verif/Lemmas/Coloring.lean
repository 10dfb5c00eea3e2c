import Verif.Model.Coloring
import Verif.Spec.Coloring
import Verif.Props.Traversal
import Verif.Lemmas.Bidirectional
import Mathlib.Data.List.Nodup
import Mathlib.Data.Finset.Card
import Mathlib.Data.Set.Card

/-!
# Lemmas on colorings
-/

namespace Rosemary.Coloring

open Rosemary.Graph Rosemary.Spec
open Rosemary.Traversal (E)

variable {V W : Type}

/-! ## Rules on the entries of a list -/

/-- Every entry satisfies `P` with respect to the entries before it. -/
def Rule (P : List (V × ℕ) → V → ℕ → Prop) (m : List (V × ℕ)) : Prop :=
  ∀ pre v c post, m = pre ++ (v, c) :: post → P pre v c

theorem split_snoc {α : Type} {m : List α} {a x : α} {pre post : List α} (h : m ++ [a] = pre ++ x :: post) :
    (pre = m ∧ x = a) ∨ ∃ post', m = pre ++ x :: post' := by
  rcases List.eq_nil_or_concat post with rfl | ⟨post', y, rfl⟩
  · left
    have := List.append_inj' h rfl
    simp at this
    exact ⟨this.1.symm, this.2.symm⟩
  · right
    refine ⟨post', ?_⟩
    have h' : m ++ [a] = (pre ++ x :: post') ++ [y] := by rw [h]; simp
    exact (List.append_inj' h' rfl).1

theorem Rule.nil (P : List (V × ℕ) → V → ℕ → Prop) : Rule P [] := by
  intro pre v c post h
  simp at h

theorem Rule.snoc {P : List (V × ℕ) → V → ℕ → Prop} {m : List (V × ℕ)} {v : V} {c : ℕ} (h : Rule P m) (hp : P m v c) :
    Rule P (m ++ [(v, c)]) := by
  intro pre v' c' post e
  rcases split_snoc e with ⟨rfl, e'⟩ | ⟨post', e'⟩
  · simp only [Prod.mk.injEq] at e'
    rw [e'.1, e'.2]; exact hp
  · exact h _ _ _ _ e'

theorem Rule.single {P : List (V × ℕ) → V → ℕ → Prop} {v : V} {c : ℕ} (hp : P [] v c) : Rule P [(v, c)] :=
  Rule.snoc (Rule.nil P) hp

/-- The invariant of the greedy algorithms. -/
structure Inv (E : V → V → Prop) (m : List (V × ℕ)) (k : ℕ) : Prop where
  wf : Dict.WF m
  rule : Rule (FirstFit E) m
  bound : ∀ v c, (v, c) ∈ m → c < k
  all : ∀ d < k, ∃ v, (v, d) ∈ m

theorem Inv.single (E : V → V → Prop) (v : V) : Inv E [(v, 0)] 1 where
  wf := by simp [Dict.WF, Dict.keys]
  rule := Rule.single ⟨by simp, by simp⟩
  bound := by simp
  all := by intro d hd; exact ⟨v, by simp; omega⟩

section

variable [DecidableEq V]

theorem mem_colorsOf {cm : Dict V ℕ} {l : List V} {c : ℕ} : c ∈ colorsOf cm l ↔ ∃ v ∈ l, Dict.get? cm v = some c := by
  induction l with
  | nil => simp [colorsOf]
  | cons v l ih =>
    rw [colorsOf]
    cases h : Dict.get? cm v with
    | none =>
      dsimp only
      rw [ih]
      constructor
      · rintro ⟨u, h1, h2⟩; exact ⟨u, List.mem_cons_of_mem _ h1, h2⟩
      · rintro ⟨u, h1, h2⟩
        rcases List.mem_cons.1 h1 with rfl | h1
        · rw [h] at h2; exact absurd h2 (by simp)
        · exact ⟨u, h1, h2⟩
    | some d =>
      dsimp only
      rw [Finset.mem_insert, ih]
      constructor
      · rintro (rfl | ⟨u, h1, h2⟩)
        · exact ⟨v, List.mem_cons_self, h⟩
        · exact ⟨u, List.mem_cons_of_mem _ h1, h2⟩
      · rintro ⟨u, h1, h2⟩
        rcases List.mem_cons.1 h1 with rfl | h1
        · rw [h] at h2; left; exact (Option.some.inj h2).symm
        · exact Or.inr ⟨u, h1, h2⟩

theorem uncoloredIn_eq (cm : Dict V ℕ) (l : List V) :
    uncoloredIn cm l = (l.filter (fun v => v ∉ Dict.keys cm)).length := by
  induction l with
  | nil => rfl
  | cons v l ih =>
    rw [uncoloredIn]
    cases h : Dict.get? cm v with
    | none =>
      have := Dict.get?_eq_none.1 h
      rw [List.filter_cons_of_pos (by simpa using this)]
      simp [ih]
    | some d =>
      have := Dict.get?_isSome.1 ⟨d, h⟩
      rw [List.filter_cons_of_neg (by simpa using this)]
      exact ih

theorem mem_iff_get? {m : Dict V ℕ} (h : Dict.WF m) {v : V} {c : ℕ} : (v, c) ∈ m ↔ Dict.get? m v = some c :=
  ⟨fun h' => Dict.get?_of_mem h h', fun h' => Dict.mem_of_get? h'⟩

theorem paint_spec {cm : Dict V ℕ} {k : ℕ} {u : V} {used : Finset ℕ} (hu : ∀ c ∈ used, c < k) (hk : u ∉ Dict.keys cm) :
    ∃ c, c ≤ k ∧ c ∉ used ∧ (∀ d < c, d ∈ used) ∧
      paint cm k u used = (cm ++ [(u, c)], if c = k then k + 1 else k) := by
  have hex : ∃ c, c ∉ used := ⟨k, fun h => lt_irrefl _ (hu k h)⟩
  have hc := Nat.find_spec hex
  have hm : ∀ d < Nat.find hex, d ∈ used := fun d hd => by
    by_contra h; exact Nat.find_min hex hd h
  have hle : Nat.find hex ≤ k := Nat.find_min' hex (fun h => lt_irrefl _ (hu k h))
  refine ⟨Nat.find hex, hle, hc, hm, ?_⟩
  have hf : (List.range (k + 1)).find? (fun c => decide (c ∉ used)) = some (Nat.find hex) := by
    rw [List.find?_range_eq_some]
    refine ⟨by simpa using hc, List.mem_range.2 (by omega), ?_⟩
    intro j hj
    simpa using hm j hj
  rw [paint, hf]
  dsimp only
  rw [Rosemary.Paths.set_of_not_mem _ _ _ hk]

theorem Inv.step {E : V → V → Prop} {m : Dict V ℕ} {k : ℕ} (h : Inv E m k) {v : V} (hv : v ∉ Dict.keys m)
    {l : List V} (hl : ∀ u, u ∈ l ↔ E v u) :
    ∃ c, FirstFit E m v c ∧ (paint m k v (colorsOf m l)).1 = m ++ [(v, c)] ∧
      Inv E (m ++ [(v, c)]) (paint m k v (colorsOf m l)).2 := by
  have hmem : ∀ d, d ∈ colorsOf m l ↔ ∃ u, E v u ∧ (u, d) ∈ m := by
    intro d
    rw [mem_colorsOf]
    constructor
    · rintro ⟨u, h1, h2⟩; exact ⟨u, (hl u).1 h1, (mem_iff_get? h.wf).2 h2⟩
    · rintro ⟨u, h1, h2⟩; exact ⟨u, (hl u).2 h1, (mem_iff_get? h.wf).1 h2⟩
  obtain ⟨c, h1, h2, h3, h4⟩ := paint_spec (cm := m) (k := k) (u := v) (used := colorsOf m l)
    (by intro d hd; obtain ⟨u, -, hu⟩ := (hmem d).1 hd; exact h.bound _ _ hu) hv
  have hff : FirstFit E m v c := by
    refine ⟨fun u hu hc => h2 ((hmem c).2 ⟨u, hu, hc⟩), fun d hd => (hmem d).1 (h3 d hd)⟩
  rw [h4]
  refine ⟨c, hff, rfl, ?_, h.rule.snoc hff, ?_, ?_⟩
  · have := h.wf
    rw [Dict.WF, Dict.keys, List.map_append, List.nodup_append]
    refine ⟨this, by simp, ?_⟩
    intro a ha b hb
    simp only [List.map_cons, List.map_nil, List.mem_singleton] at hb
    rintro rfl
    exact hv (hb ▸ ha)
  · intro u d hd
    dsimp only
    rw [List.mem_append] at hd
    rcases hd with hd | hd
    · have := h.bound _ _ hd
      split_ifs <;> omega
    · simp only [List.mem_singleton, Prod.mk.injEq] at hd
      split_ifs <;> omega
  · intro d hd
    dsimp only at hd
    by_cases hdk : d < k
    · obtain ⟨u, hu⟩ := h.all d hdk
      exact ⟨u, List.mem_append_left _ hu⟩
    · refine ⟨v, List.mem_append_right _ ?_⟩
      split_ifs at hd with hck
      · have : d = c := by omega
        simp [this]
      · omega

/-! ## Consequences of the first fit rule -/

theorem Rule.proper {E : V → V → Prop} (hs : ∀ u v, E u v → E v u) {m : List (V × ℕ)} (h : Rule (FirstFit E) m)
    {u v : V} {c d : ℕ} (hu : (u, c) ∈ m) (hv : (v, d) ∈ m) (he : E u v) (hne : u ≠ v) : c ≠ d := by
  obtain ⟨pre, post, rfl⟩ := List.append_of_mem hu
  rintro rfl
  rcases List.mem_append.1 hv with hv | hv
  · exact (h _ _ _ _ rfl).1 v he hv
  · rcases List.mem_cons.1 hv with hv | hv
    · simp only [Prod.mk.injEq] at hv; exact hne hv.1.symm
    · obtain ⟨p2, q2, rfl⟩ := List.append_of_mem hv
      refine (h (pre ++ (u, c) :: p2) v c q2 (by simp)).1 u (hs _ _ he) (by simp)

/-- The color of a vertex is at most the number of its neighbors other than itself. -/
theorem Rule.le_degree {E : V → V → Prop} {m : List (V × ℕ)} (hw : Dict.WF m) (h : Rule (FirstFit E) m)
    {v : V} {c : ℕ} (hv : (v, c) ∈ m) (S : Finset V) (hS : ∀ u, E v u → u ≠ v → u ∈ S) : c ≤ S.card := by
  obtain ⟨pre, post, rfl⟩ := List.append_of_mem hv
  have hwp : Dict.WF pre := by
    rw [Dict.WF, Dict.keys, List.map_append] at hw
    exact (List.nodup_append.1 hw).1
  have hvp : v ∉ Dict.keys pre := by
    rw [Dict.WF, Dict.keys, List.map_append, List.nodup_append] at hw
    intro hc
    exact hw.2.2 v hc v (by simp) rfl
  have h2 := (h _ _ _ _ rfl).2
  choose f hf using h2
  have hinj : Set.InjOn (fun d => if hd : d < c then f d hd else v) (Finset.range c : Set ℕ) := by
    intro a ha b hb hab
    have ha' : a < c := by simpa using ha
    have hb' : b < c := by simpa using hb
    simp only [ha', hb', dif_pos] at hab
    have k1 := (mem_iff_get? hwp).1 (hf a ha').2
    have k2 := (mem_iff_get? hwp).1 (hf b hb').2
    rw [hab, k2] at k1
    exact (Option.some.inj k1).symm
  have := Finset.card_le_card_of_injOn (s := Finset.range c) (t := S) (fun d => if hd : d < c then f d hd else v) (by
    intro d hd
    have hd' : d < c := by simpa using hd
    simp only [hd', dif_pos]
    refine hS _ (hf d hd').1 ?_
    rintro e
    exact hvp (e ▸ List.mem_map.2 ⟨_, (hf d hd').2, rfl⟩)) hinj
  simpa using this

/-! ## The color classes -/

theorem fillClasses_spec (m : List (V × ℕ)) : ∀ cl : List (List V), (∀ v c, (v, c) ∈ m → c < cl.length) →
    ∃ cl', fillClasses m cl = .ok cl' ∧ cl'.length = cl.length ∧ ∀ i (h : i < cl.length) (h' : i < cl'.length),
      cl'[i] = cl[i] ++ (m.filter (fun e => e.2 = i)).map Prod.fst := by
  induction m with
  | nil => intro cl _; exact ⟨cl, rfl, rfl, by simp⟩
  | cons e m ih =>
    obtain ⟨u, c⟩ := e
    intro cl hb
    have hc : c < cl.length := hb u c List.mem_cons_self
    obtain ⟨cl', h1, h2, h3⟩ := ih (cl.set c (cl[c] ++ [u])) (by
      intro v d hd; rw [List.length_set]; exact hb v d (List.mem_cons_of_mem _ hd))
    rw [List.length_set] at h2
    refine ⟨cl', ?_, h2, ?_⟩
    · rw [fillClasses, List.getElem?_eq_getElem hc]
      exact h1
    · intro i hi hi'
      rw [h3 i (by rw [List.length_set]; exact hi) hi', List.getElem_set]
      by_cases hci : c = i
      · subst hci
        simp
      · rw [if_neg hci, List.filter_cons_of_neg (by simpa using hci)]

theorem classesOf_spec {m : List (V × ℕ)} {k : ℕ} (hb : ∀ v c, (v, c) ∈ m → c < k) :
    classesOf k m = .ok ((List.range k).map (fun i => (m.filter (fun e => e.2 = i)).map Prod.fst)) := by
  obtain ⟨cl, h1, h2, h3⟩ := fillClasses_spec m (List.replicate k []) (by simpa using hb)
  rw [classesOf, h1]
  congr 1
  rw [List.length_replicate] at h2
  apply List.ext_getElem
  · simp [h2]
  · intro i hi hi'
    rw [h3 i (by rw [List.length_replicate]; omega) hi]
    simp


theorem Inv.coloring {E : V → V → Prop} (hs : ∀ u v, E u v → E v u) {m : List (V × ℕ)} {k : ℕ} (h : Inv E m k)
    {S : Set V} (hS : ∀ v, v ∈ Dict.keys m ↔ v ∈ S) : IsColoring S E 0 k m where
  nodup := h.wf
  verts := hS
  range := fun v c hc => ⟨Nat.zero_le _, by rw [Nat.zero_add]; exact h.bound v c hc⟩
  all := fun c _ hc => h.all c (by omega)
  proper := fun u c v d hu hv he hne => h.rule.proper hs hu hv he hne

/-- The list of classes of a coloring is a partition. -/
theorem partition_of_coloring {S : Set V} {E : V → V → Prop} {k : ℕ} {m : List (V × ℕ)} (h : IsColoring S E 0 k m) :
    IsPartition S E k ((List.range k).map (fun i => (m.filter (fun e => e.2 = i)).map Prod.fst)) := by
  have hmem : ∀ i v, v ∈ (m.filter (fun e => e.2 = i)).map Prod.fst ↔ (v, i) ∈ m := by
    intro i v
    rw [List.mem_map]
    constructor
    · rintro ⟨⟨a, b⟩, h1, rfl⟩
      rw [List.mem_filter] at h1
      have : b = i := by simpa using h1.2
      rw [← this]; exact h1.1
    · intro h1; exact ⟨(v, i), List.mem_filter.2 ⟨h1, by simp⟩, rfl⟩
  refine ⟨by simp, ?_, ?_, ?_, ?_⟩
  · rw [List.nodup_flatten]
    constructor
    · intro l hl
      obtain ⟨i, -, rfl⟩ := List.mem_map.1 hl
      exact h.nodup.sublist (List.filter_sublist.map _)
    · rw [List.pairwise_map]
      refine List.pairwise_lt_range.imp ?_
      intro i j hij v hv hv'
      rw [hmem] at hv hv'
      have k1 := (mem_iff_get? h.nodup).1 hv
      have k2 := (mem_iff_get? h.nodup).1 hv'
      rw [k1] at k2
      have := Option.some.inj k2
      omega
  · intro v
    rw [List.mem_flatten, ← h.verts]
    constructor
    · rintro ⟨l, hl, hv⟩
      obtain ⟨i, -, rfl⟩ := List.mem_map.1 hl
      rw [hmem] at hv
      exact List.mem_map.2 ⟨_, hv, rfl⟩
    · intro hv
      obtain ⟨⟨v', c⟩, h1, rfl⟩ := List.mem_map.1 hv
      refine ⟨_, List.mem_map.2 ⟨c, List.mem_range.2 ?_, rfl⟩, (hmem c v').2 h1⟩
      have := (h.range _ _ h1).2; omega
  · intro l hl
    obtain ⟨i, hi, rfl⟩ := List.mem_map.1 hl
    obtain ⟨v, hv⟩ := h.all i (Nat.zero_le _) (by have := List.mem_range.1 hi; omega)
    exact List.ne_nil_of_mem ((hmem i v).2 hv)
  · intro l hl u hu v hv he
    obtain ⟨i, -, rfl⟩ := List.mem_map.1 hl
    rw [hmem] at hu hv
    by_contra hne
    exact h.proper _ _ _ _ hu hv he hne rfl

/-! ## `greedy_sequential` -/

theorem greedyLoop_spec {g : Graph V W} (l : List V) : ∀ (m : Dict V ℕ) (k : ℕ), Inv (E g) m k → l.Nodup →
    (∀ v ∈ l, Mem g v ∧ v ∉ Dict.keys m) →
    ∃ m' k', greedyLoop g l m k = .ok (m', k') ∧ Inv (E g) m' k' ∧ Dict.keys m' = Dict.keys m ++ l := by
  induction l with
  | nil => intro m k h _ _; exact ⟨m, k, rfl, h, by simp⟩
  | cons v l ih =>
    intro m k h hnd hl
    obtain ⟨hv1, hv2⟩ := hl v List.mem_cons_self
    obtain ⟨c, -, h2, h3⟩ := h.step hv2 (l := nbrs g v) (fun u => Iff.rfl)
    obtain ⟨m', k', e1, e2, e3⟩ := ih _ _ h3 (List.nodup_cons.1 hnd).2 (by
      intro u hu
      refine ⟨(hl u (List.mem_cons_of_mem _ hu)).1, ?_⟩
      rw [Dict.keys, List.map_append, List.mem_append]
      rintro (hc | hc)
      · exact (hl u (List.mem_cons_of_mem _ hu)).2 hc
      · simp only [List.map_cons, List.map_nil, List.mem_singleton] at hc
        exact (List.nodup_cons.1 hnd).1 (hc ▸ hu))
    refine ⟨m', k', ?_, e2, ?_⟩
    · rw [greedyLoop]
      obtain ⟨N, hN⟩ := mem_iff.1 hv1
      rw [hN]
      have hnb : nbrs g v = Dict.keys N := by rw [nbrs, hN]; rfl
      dsimp only
      rw [← hnb, h2]; exact e1
    · rw [e3]; simp [Dict.keys]

theorem greedyMap_spec {g : Graph V W} {l : List V} (hne : l ≠ []) (hnd : l.Nodup) (hl : ∀ v ∈ l, Mem g v) :
    ∃ m k, greedyMap g l = .ok (m, k) ∧ Inv (E g) m k ∧ Dict.keys m = l := by
  cases l with
  | nil => exact absurd rfl hne
  | cons v l =>
    obtain ⟨m, k, h1, h2, h3⟩ := greedyLoop_spec (g := g) l [(v, 0)] 1 (Inv.single _ v) (List.nodup_cons.1 hnd).2 (by
      intro u hu
      refine ⟨hl u (List.mem_cons_of_mem _ hu), ?_⟩
      simp only [Dict.keys, List.map_cons, List.map_nil, List.mem_singleton]
      rintro rfl
      exact (List.nodup_cons.1 hnd).1 hu)
    exact ⟨m, k, h1, h2, h3⟩

/-- If the vertices come in blocks without inner edges, first fit uses at most as many colors as there are blocks. -/
theorem Rule.le_block {E : V → V → Prop} {m : List (V × ℕ)} (hw : Dict.WF m) (h : Rule (FirstFit E) m) (f : V → ℕ)
    (hf : (Dict.keys m).Pairwise (fun a b => f a ≤ f b)) (hp : ∀ u v, u ∈ Dict.keys m → v ∈ Dict.keys m →
      E u v → u ≠ v → f u ≠ f v) : ∀ n v c, f v = n → (v, c) ∈ m → c ≤ n := by
  intro n
  induction n using Nat.strong_induction_on with
  | _ n ih =>
    intro v c hn hv
    by_contra hlt
    have hv' := hv
    obtain ⟨pre, post, hm⟩ := List.append_of_mem hv
    obtain ⟨u, hu1, hu2⟩ := (h _ _ _ _ hm).2 n (by omega)
    have hum : (u, n) ∈ m := by rw [hm]; exact List.mem_append_left _ hu2
    have huk : u ∈ Dict.keys m := List.mem_map.2 ⟨_, hum, rfl⟩
    have hvk : v ∈ Dict.keys m := List.mem_map.2 ⟨_, hv, rfl⟩
    have hne : v ≠ u := by
      rintro rfl
      have k1 := (mem_iff_get? hw).1 hum
      have k2 := (mem_iff_get? hw).1 hv
      rw [k1] at k2
      have := Option.some.inj k2; omega
    have hle : f u ≤ f v := by
      rw [hm, Dict.keys, List.map_append, List.pairwise_append] at hf
      exact hf.2.2 u (List.mem_map.2 ⟨_, hu2, rfl⟩) v (by simp)
    have hneq := hp v u hvk huk hu1 hne
    have := ih (f u) (by omega) u n rfl hum
    omega

theorem pass_spec {E : V → V → Prop} {S : Set V} {m m' : List (V × ℕ)} {k k' : ℕ} (h : IsColoring S E 0 k m)
    (h' : Inv E m' k')
    (hk : Dict.keys m' = ((List.range k).map (fun i => (m.filter (fun e => e.2 = i)).map Prod.fst)).reverse.flatten) :
    k' ≤ k := by
  have hmem : ∀ i v, v ∈ (m.filter (fun e => e.2 = i)).map Prod.fst ↔ (v, i) ∈ m := by
    intro i v
    rw [List.mem_map]
    constructor
    · rintro ⟨⟨a, b⟩, h1, rfl⟩
      rw [List.mem_filter] at h1
      have : b = i := by simpa using h1.2
      rw [← this]; exact h1.1
    · intro h1; exact ⟨(v, i), List.mem_filter.2 ⟨h1, by simp⟩, rfl⟩
  have hget : ∀ v c, (v, c) ∈ m → Dict.get? m v = some c := fun v c hc => (mem_iff_get? h.nodup).1 hc
  by_contra hlt
  obtain ⟨v, hv⟩ := h'.all k (by omega)
  have hkey : ∀ u, u ∈ Dict.keys m' → ∃ i < k, (u, i) ∈ m := by
    intro u hu
    rw [hk, List.mem_flatten] at hu
    obtain ⟨l, hl, hu⟩ := hu
    rw [List.mem_reverse] at hl
    obtain ⟨i, hi, rfl⟩ := List.mem_map.1 hl
    exact ⟨i, List.mem_range.1 hi, (hmem i u).1 hu⟩
  have hkpos : 0 < k := by
    obtain ⟨i, hi, -⟩ := hkey v (List.mem_map.2 ⟨_, hv, rfl⟩); omega
  have := Rule.le_block h'.wf h'.rule (fun v => k - 1 - (Dict.get? m v).getD 0) (by
    rw [hk, List.pairwise_flatten]
    constructor
    · intro l hl
      rw [List.mem_reverse] at hl
      obtain ⟨i, -, rfl⟩ := List.mem_map.1 hl
      rw [List.pairwise_iff_forall_sublist]
      intro a b hab
      have ha := (hmem i a).1 (hab.subset List.mem_cons_self)
      have hb := (hmem i b).1 (hab.subset (List.mem_cons_of_mem _ List.mem_cons_self))
      rw [hget _ _ ha, hget _ _ hb]
    · rw [List.pairwise_reverse, List.pairwise_map]
      refine List.pairwise_lt_range.imp ?_
      intro i j hij a ha b hb
      rw [hget _ _ ((hmem j a).1 ha), hget _ _ ((hmem i b).1 hb)]
      simp only [Option.getD_some]
      omega) (by
    intro u w hu hw he hne
    obtain ⟨i, hi, hi'⟩ := hkey u hu
    obtain ⟨j, hj, hj'⟩ := hkey w hw
    rw [hget _ _ hi', hget _ _ hj']
    have := h.proper _ _ _ _ hi' hj' he hne
    simp only [Option.getD_some]
    omega) _ v k rfl hv
  omega

end

/-! ## `dsatur` -/

section

variable [LinearOrder V]

theorem tripleLt_iff (a b : ℕ × ℕ × V) : tripleLt a b ↔
    toLex (a.1, toLex (a.2.1, a.2.2)) < toLex (b.1, toLex (b.2.1, b.2.2)) := by
  rw [tripleLt, Prod.Lex.toLex_lt_toLex, Prod.Lex.toLex_lt_toLex]

theorem maxTriple_spec {l : List (ℕ × ℕ × V)} (hne : l ≠ []) : ∃ t ∈ l, maxTriple l = .ok t ∧ ∀ b ∈ l, ¬ tripleLt t b := by
  cases l with
  | nil => exact absurd rfl hne
  | cons a l =>
    rw [maxTriple]
    clear hne
    suffices h : ∀ a, (List.foldl (fun m b => if tripleLt m b then b else m) a l) ∈ a :: l ∧
        ∀ b ∈ a :: l, ¬ tripleLt (List.foldl (fun m b => if tripleLt m b then b else m) a l) b from
      ⟨_, (h a).1, rfl, (h a).2⟩
    induction l with
    | nil => intro a; simp [tripleLt_iff]
    | cons b l ih =>
      intro a
      rw [List.foldl_cons]
      obtain ⟨h1, h2⟩ := ih (if tripleLt a b then b else a)
      by_cases hab : tripleLt a b
      · rw [if_pos hab] at h1 h2 ⊢
        refine ⟨List.mem_cons_of_mem _ h1, ?_⟩
        intro x hx
        rcases List.mem_cons.1 hx with rfl | hx
        · have := h2 b List.mem_cons_self
          rw [tripleLt_iff] at this hab ⊢
          exact fun hc => this (hc.trans hab)
        · exact h2 x hx
      · rw [if_neg hab] at h1 h2 ⊢
        refine ⟨?_, ?_⟩
        · rcases List.mem_cons.1 h1 with h | h
          · rw [h]; exact List.mem_cons_self
          · exact List.mem_cons_of_mem _ (List.mem_cons_of_mem _ h)
        intro x hx
        rcases List.mem_cons.1 hx with rfl | hx
        · exact h2 x List.mem_cons_self
        · rcases List.mem_cons.1 hx with rfl | hx
          · have := h2 a List.mem_cons_self
            rw [tripleLt_iff] at this hab ⊢
            exact fun hc => this (hc.trans_le (not_lt.1 hab)) |>.elim
          · exact h2 x (List.mem_cons_of_mem _ hx)

theorem triples_spec {g : Graph V W} (cm : Dict V ℕ) (l : List V) (hl : ∀ u ∈ l, Mem g u) : triples g cm l =
    .ok (l.map (fun u => ((colorsOf cm (nbrs g u)).card, uncoloredIn cm (nbrs g u), u))) := by
  induction l with
  | nil => rfl
  | cons u l ih =>
    rw [triples]
    obtain ⟨N, hN⟩ := mem_iff.1 (hl u List.mem_cons_self)
    have hnb : nbrs g u = Dict.keys N := by rw [nbrs, hN]; rfl
    rw [hN, ih (fun v hv => hl v (List.mem_cons_of_mem _ hv))]
    simp [hnb]

theorem card_colorsOf {g : Graph V W} {m : Dict V ℕ} (hw : Dict.WF m) (v : V) :
    (colorsOf m (nbrs g v)).card = saturation (E g) m v := by
  rw [saturation, ← Set.ncard_coe_finset]
  congr 1
  ext d
  rw [Finset.mem_coe, mem_colorsOf]
  constructor
  · rintro ⟨u, h1, h2⟩; exact ⟨u, h1, (mem_iff_get? hw).2 h2⟩
  · rintro ⟨u, h1, h2⟩; exact ⟨u, h1, (mem_iff_get? hw).1 h2⟩

theorem uncoloredIn_outside {g : Graph V W} (hg : Good g) (m : Dict V ℕ) (v : V) :
    uncoloredIn m (nbrs g v) = outside (E g) m v := by
  rw [uncoloredIn_eq, outside, ← List.toFinset_card_of_nodup ((nodup_nbrs hg v).filter _), ← Set.ncard_coe_finset]
  congr 1
  ext u
  simp only [E, Dict.keys, List.coe_toFinset, List.mem_filter, Set.mem_setOf_eq]
  exact and_congr_right fun _ => decide_eq_true_iff

/-- The rule by which `dsatur` selects. -/
def Selects (g : Graph V W) (pre : List (V × ℕ)) (v : V) (_ : ℕ) : Prop :=
  (pre = [] → ∀ w, Mem g w → (nbrs g w).length ≤ (nbrs g v).length) ∧
  (pre ≠ [] → ∀ w, Mem g w → w ∉ Dict.keys pre →
    ¬ tripleLt (saturation (E g) pre v, outside (E g) pre v, v) (saturation (E g) pre w, outside (E g) pre w, w))

theorem dsaturLoop_spec {ord : Finset V → List V} (hord : ∀ S, (ord S).Nodup ∧ ∀ x, x ∈ ord S ↔ x ∈ S)
    {g : Graph V W} (hg : Good g) (n : ℕ) : ∀ (U : Finset V) (m : Dict V ℕ) (k : ℕ), U.card = n →
    (∀ v, v ∈ U ↔ Mem g v ∧ v ∉ Dict.keys m) → (∀ v ∈ Dict.keys m, Mem g v) → m ≠ [] → Inv (E g) m k →
    Rule (Selects g) m →
    ∃ m' k', dsaturLoop ord g n U m k = .ok (m', k') ∧ Inv (E g) m' k' ∧ (∀ v, v ∈ Dict.keys m' ↔ Mem g v) ∧
      Rule (Selects g) m' := by
  induction n with
  | zero =>
    intro U m k hU hUm hm hne hi hr
    refine ⟨m, k, rfl, hi, fun v => ⟨hm v, fun hv => ?_⟩, hr⟩
    by_contra hc
    have := (hUm v).2 ⟨hv, hc⟩
    rw [Finset.card_eq_zero.1 hU] at this
    simp at this
  | succ n ih =>
    intro U m k hU hUm hm hne hi hr
    rw [dsaturLoop, triples_spec m (ord U) (fun u hu => ((hUm u).1 (((hord U).2 u).1 hu)).1)]
    dsimp only
    obtain ⟨x, hx⟩ : U.Nonempty := Finset.card_pos.1 (by omega)
    obtain ⟨t, ht, h1, h2⟩ := maxTriple_spec (l := (ord U).map
      (fun u => ((colorsOf m (nbrs g u)).card, uncoloredIn m (nbrs g u), u))) (by
      simp only [ne_eq, List.map_eq_nil_iff]
      exact List.ne_nil_of_mem (((hord U).2 x).2 hx))
    obtain ⟨u, hu, rfl⟩ := List.mem_map.1 ht
    rw [h1]
    dsimp only
    have hu' := (hUm u).1 (((hord U).2 u).1 hu)
    obtain ⟨N, hN⟩ := mem_iff.1 hu'.1
    have hnb : nbrs g u = Dict.keys N := by rw [nbrs, hN]; rfl
    rw [hN]
    dsimp only
    rw [← hnb]
    obtain ⟨c, -, k2, k3⟩ := hi.step hu'.2 (l := nbrs g u) (fun _ => Iff.rfl)
    rw [k2]
    apply ih
    · rw [Finset.card_erase_of_mem (((hord U).2 u).1 hu), hU]; rfl
    · intro v
      rw [Finset.mem_erase, hUm]
      simp only [Dict.keys, List.map_append, List.map_cons, List.map_nil, List.mem_append, List.mem_singleton]
      tauto
    · intro v hv
      simp only [Dict.keys, List.map_append, List.map_cons, List.map_nil, List.mem_append, List.mem_singleton] at hv
      rcases hv with hv | rfl
      · exact hm v hv
      · exact hu'.1
    · simp
    · exact k3
    · refine hr.snoc ⟨fun h => absurd h hne, fun _ w hw hwm => ?_⟩
      have := h2 _ (List.mem_map.2 ⟨w, ((hord U).2 w).2 ((hUm w).2 ⟨hw, hwm⟩), rfl⟩)
      rwa [card_colorsOf hi.wf, card_colorsOf hi.wf, uncoloredIn_outside hg, uncoloredIn_outside hg] at this

theorem dsatur_spec {ord : Finset V → List V} (hord : ∀ S, (ord S).Nodup ∧ ∀ x, x ∈ ord S ↔ x ∈ S)
    {g : Graph V W} (hg : Good g) (hne : ∃ u, Mem g u) :
    ∃ m k, dsatur ord g false = .ok (k, .colorMap m) ∧
      dsatur ord g true = .ok (k, .classes ((List.range k).map (fun i => (m.filter (fun e => e.2 = i)).map Prod.fst))) ∧
      Inv (E g) m k ∧ (∀ v, v ∈ Dict.keys m ↔ Mem g v) ∧ Rule (Selects g) m := by
  obtain ⟨u, h1, h2, h3⟩ := maximumDegreeVertex_spec hord hne
  obtain ⟨m, k, e1, e2, e3, e4⟩ := dsaturLoop_spec hord hg ((vertexSet g).erase u).card ((vertexSet g).erase u)
    [(u, 0)] 1 rfl (by
      intro v
      rw [Finset.mem_erase, Graph.mem_vertexSet]
      simp only [Dict.keys, List.map_cons, List.map_nil, List.mem_singleton]
      tauto) (by
      intro v hv
      simp only [Dict.keys, List.map_cons, List.map_nil, List.mem_singleton] at hv
      rw [hv]; exact h2) (by simp) (Inv.single _ u) (Rule.single ⟨fun _ w hw => h3 w hw, fun h => absurd rfl h⟩)
  refine ⟨m, k, ?_, ?_, e2, e3, e4⟩
  · rw [dsatur, h1]
    dsimp only
    rw [e1]
    rfl
  · rw [dsatur, h1]
    dsimp only
    rw [e1]
    dsimp only
    rw [if_pos rfl, classesOf_spec e2.bound]

end

end Rosemary.Coloring
