import Verif.Model.Korman
import Verif.Lemmas.KormanSearch
import Verif.Lemmas.ClassOrder

/-!
# Lemmas on `korman`
-/

namespace Rosemary.Coloring.Korman

open Rosemary.Graph Rosemary.Spec Rosemary.Coloring
open Rosemary.Traversal (E)

variable {V W : Type} [LinearOrder V]

theorem adjColors_spec {color : Dict V ℕ} (vs : List V) (h : ∀ v ∈ vs, v ∈ Dict.keys color) :
    ∃ adj, adjColors color vs = .ok adj ∧ ∀ c, c ∈ adj ↔ ∃ v ∈ vs, Dict.get? color v = some c := by
  induction vs with
  | nil => exact ⟨∅, rfl, by simp⟩
  | cons v vs ih =>
    obtain ⟨adj, h1, h2⟩ := ih (fun u hu => h u (List.mem_cons_of_mem _ hu))
    obtain ⟨c, hc⟩ := Dict.get?_isSome.2 (h v List.mem_cons_self)
    refine ⟨insert c adj, by rw [adjColors, hc]; dsimp only; rw [h1], ?_⟩
    intro d
    rw [Finset.mem_insert, h2]
    constructor
    · rintro (rfl | ⟨u, hu, hd⟩)
      · exact ⟨v, List.mem_cons_self, hc⟩
      · exact ⟨u, List.mem_cons_of_mem _ hu, hd⟩
    · rintro ⟨u, hu, hd⟩
      rcases List.mem_cons.1 hu with rfl | hu
      · rw [hc] at hd; exact Or.inl (Option.some.inj hd).symm
      · exact Or.inr ⟨u, hu, hd⟩

theorem get?_mem_g {g : Graph V W} {u : V} (h : Mem g u) : ∃ N, Dict.get? g u = some N ∧ Dict.keys N = nbrs g u := by
  obtain ⟨N, hN⟩ := mem_iff.1 h
  exact ⟨N, hN, by rw [nbrs, hN]; rfl⟩

theorem select_mem {g : Graph V W} (hg : Good g) {color : Dict V ℕ} (hcol : ∀ v, Mem g v → v ∈ Dict.keys color)
    (us : List V) (hus : ∀ u ∈ us, Mem g u) : ∀ a d (s : Option V), ∃ s', select g color us a d s = .ok s' ∧
      (s' = s ∨ ∃ u ∈ us, s' = some u) := by
  induction us with
  | nil => intro a d s; exact ⟨s, rfl, Or.inl rfl⟩
  | cons u us ih =>
    intro a d s
    have ih' := ih (fun v hv => hus v (List.mem_cons_of_mem _ hv))
    have lift : ∀ a d, ∃ s', select g color us a d (some u) = .ok s' ∧ (s' = s ∨ ∃ v ∈ u :: us, s' = some v) := by
      intro a d
      obtain ⟨s', h1, h2⟩ := ih' a d (some u)
      refine ⟨s', h1, Or.inr ?_⟩
      rcases h2 with h2 | ⟨v, hv, h2⟩
      · exact ⟨u, List.mem_cons_self, h2⟩
      · exact ⟨v, List.mem_cons_of_mem _ hv, h2⟩
    have keep : ∀ a d, ∃ s', select g color us a d s = .ok s' ∧ (s' = s ∨ ∃ v ∈ u :: us, s' = some v) := by
      intro a d
      obtain ⟨s', h1, h2⟩ := ih' a d s
      refine ⟨s', h1, h2.imp id ?_⟩
      rintro ⟨v, hv, h2⟩
      exact ⟨v, List.mem_cons_of_mem _ hv, h2⟩
    obtain ⟨N, hN, hk⟩ := get?_mem_g (hus u List.mem_cons_self)
    obtain ⟨adj, ha, -⟩ := adjColors_spec (color := color) (Dict.keys N)
      (fun v hv => hcol v (mem_of_mem_nbrs hg (hk ▸ hv)))
    rw [select, hN]
    dsimp only
    rw [ha]
    dsimp only
    split_ifs
    · exact lift _ _
    · exact keep _ _
    · exact lift _ _
    · exact keep _ _

/-- If every vertex has a neighbor, a vertex is chosen. -/
theorem select_spec {g : Graph V W} (hg : Good g) {color : Dict V ℕ} (hcol : ∀ v, Mem g v → v ∈ Dict.keys color)
    (us : List V) (hne : us ≠ []) (hus : ∀ u ∈ us, Mem g u) (hdeg : ∀ u ∈ us, ∃ v, E g u v) (s : Option V) :
    ∃ u ∈ us, select g color us 0 0 s = .ok (some u) := by
  cases us with
  | nil => exact absurd rfl hne
  | cons u us =>
    obtain ⟨N, hN, hk⟩ := get?_mem_g (hus u List.mem_cons_self)
    obtain ⟨adj, ha, ha'⟩ := adjColors_spec (color := color) (Dict.keys N)
      (fun v hv => hcol v (mem_of_mem_nbrs hg (hk ▸ hv)))
    obtain ⟨v, hv⟩ := hdeg u List.mem_cons_self
    obtain ⟨c, hc⟩ := Dict.get?_isSome.2 (hcol v (mem_of_mem_nbrs hg hv))
    have hpos : 0 < adj.card := Finset.card_pos.2 ⟨c, (ha' c).2 ⟨v, by rw [hk]; exact hv, hc⟩⟩
    obtain ⟨s', h1, h2⟩ := select_mem hg hcol us (fun v hv => hus v (List.mem_cons_of_mem _ hv)) adj.card N.length (some u)
    rw [select, hN]
    dsimp only
    rw [ha]
    dsimp only
    rw [if_neg (by omega), if_pos hpos, h1]
    rcases h2 with rfl | ⟨w, hw, rfl⟩
    · exact ⟨u, List.mem_cons_self, rfl⟩
    · exact ⟨w, List.mem_cons_of_mem _ hw, rfl⟩

/-- The data of the state agree with the colored positions `L`. -/
structure Base (g : Graph V W) (L : Dict V ℕ) (st : State V) : Prop where
  keys : Dict.keys st.color = vertices g
  colored : ∀ v d, (v, d) ∈ L → Dict.get? st.color v = some d
  zero : ∀ v, Mem g v → v ∉ Dict.keys L → Dict.get? st.color v = some 0
  ordL : ∀ i (h : i < L.length), Dict.get? st.order i = some (L[i]).1
  unc : ∀ v, v ∈ st.uncolored ↔ Mem g v ∧ v ∉ Dict.keys L
  chain : Chain g L

/-- The vertex `s`, whose last color is `c`, is to get another color. -/
structure Trial (g : Graph V W) (L : Dict V ℕ) (s : V) (c : ℕ) (st : State V) : Prop where
  keys : Dict.keys st.color = vertices g
  colored : ∀ v d, (v, d) ∈ L → Dict.get? st.color v = some d
  cs : Dict.get? st.color s = some c
  zero : ∀ v, Mem g v → v ≠ s → v ∉ Dict.keys L → Dict.get? st.color v = some 0
  ordL : ∀ i (h : i < L.length), Dict.get? st.order i = some (L[i]).1
  ordS : Dict.get? st.order L.length = some s
  unc : ∀ v, v ≠ s → (v ∈ st.uncolored ↔ Mem g v ∧ v ∉ Dict.keys L)
  chain : Chain g L
  mem : Mem g s
  new : s ∉ Dict.keys L
  idx : st.idx = L.length
  hs : st.s = some s
  find : st.findNext = false
  lt : c < (vertices g).length

theorem mem_vertices {g : Graph V W} (hg : Good g) {v : V} : v ∈ vertices g ↔ Mem g v := (vertices_spec hg).2 v

theorem Chain.length_lt {g : Graph V W} (hg : Good g) {L : Dict V ℕ} (h : Chain g L) {s : V} (hs : Mem g s)
    (hn : s ∉ Dict.keys L) : L.length < (vertices g).length := by
  have hnd : (s :: Dict.keys L).Nodup := List.nodup_cons.2 ⟨hn, h.part.wf⟩
  have hsub : s :: Dict.keys L ⊆ vertices g := by
    intro v hv
    rw [mem_vertices hg]
    rcases List.mem_cons.1 hv with rfl | hv
    · exact hs
    · exact h.part.mem v hv
  have := (hnd.subperm hsub).length_le
  rw [List.length_cons, Dict.keys, List.length_map] at this
  omega

theorem Chain.full {g : Graph V W} (hg : Good g) {L : Dict V ℕ} (h : Chain g L) (hlen : L.length = (vertices g).length)
    {v : V} (hv : Mem g v) : v ∈ Dict.keys L := by
  by_contra hc
  have := h.length_lt hg hv hc
  omega

theorem Chain.exists_new {g : Graph V W} (hg : Good g) {L : Dict V ℕ} (hlen : L.length < (vertices g).length) :
    ∃ v, Mem g v ∧ v ∉ Dict.keys L := by
  by_contra hc
  push Not at hc
  have hsub : vertices g ⊆ Dict.keys L := fun v hv => hc v ((mem_vertices hg).1 hv)
  have := ((vertices_spec hg).1.subperm hsub).length_le
  rw [Dict.keys, List.length_map] at this
  omega

/-- One position back. -/
theorem back_spec {g : Graph V W} {L : Dict V ℕ} {s : V} {c : ℕ} {st : State V}
    (h : Base g (L ++ [(s, c)]) st) (hlen : L.length + 1 < (vertices g).length) (hi : st.idx = L.length + 1)
    (hf : st.findNext = false) : ∃ st', back st = .ok st' ∧ Trial g L s c st' ∧ st'.best = st.best ∧
      st'.bestColoring = st.bestColoring := by
  have hwf := h.chain.part.wf
  have hnew : s ∉ Dict.keys L := by
    rw [Dict.WF, Dict.keys, List.map_append, List.nodup_append] at hwf
    intro hc
    exact hwf.2.2 s hc s (by simp) rfl
  have hos : Dict.get? st.order L.length = some s := by
    have := h.ordL L.length (by simp)
    simpa using this
  have hkeys : ∀ v, v ∈ Dict.keys (L ++ [(s, c)]) ↔ v ∈ Dict.keys L ∨ v = s := by
    intro v
    simp [Dict.keys]
  have hb : back st = .ok { st with idx := L.length, s := some s } := by
    rw [back, hi]
    dsimp only
    rw [hos]
  refine ⟨_, hb, ⟨h.keys, ?_, ?_, ?_, ?_, hos, ?_, h.chain.prefix (List.prefix_append _ _), ?_, hnew, rfl, rfl, hf, ?_⟩,
    rfl, rfl⟩
  · intro v d hv
    exact h.colored v d (List.mem_append_left _ hv)
  · exact h.colored s c (by simp)
  · intro v hv hne hn
    exact h.zero v hv (by rw [hkeys]; tauto)
  · intro i hi
    have := h.ordL i (by rw [List.length_append]; omega)
    rw [List.getElem_append_left hi] at this
    exact this
  · intro v hne
    dsimp only
    rw [h.unc, hkeys]
    tauto
  · exact h.chain.part.mem s (by rw [hkeys]; exact Or.inr rfl)
  · have h1 := (h.chain.part.range s c (by simp)).2
    have h2 := h.chain.part.le_length
    rw [List.length_append, List.length_singleton] at h2
    omega

/-- The vertex gets the color `j`, or none for `j = 0`. -/
theorem Trial.accept_base {g : Graph V W} (hg : Good g) {L : Dict V ℕ} {s : V} {c : ℕ} {st : State V}
    (h : Trial g L s c st) {j : ℕ} (h1 : 1 ≤ j) (h2 : j ≤ top L + 1) (hfree : ∀ v, E g s v → (v, j) ∉ L) (sc : Option ℕ) :
    Base g (L ++ [(s, j)])
      { st with sColor := sc, color := Dict.set st.color s j, uncolored := st.uncolored.erase s } := by
  have hkeys : ∀ v, v ∈ Dict.keys (L ++ [(s, j)]) ↔ v ∈ Dict.keys L ∨ v = s := by
    intro v
    simp [Dict.keys]
  refine ⟨?_, ?_, ?_, ?_, ?_, h.chain.concat hg h.mem h.new h1 h2 hfree⟩
  · dsimp only
    rw [Dict.keys_set, if_pos (by rw [h.keys]; exact (mem_vertices hg).2 h.mem), h.keys]
  · intro v d hv
    dsimp only
    rw [Dict.get?_set]
    rcases List.mem_append.1 hv with hv | hv
    · rw [if_neg, h.colored v d hv]
      rintro rfl
      exact h.new (List.mem_map.2 ⟨_, hv, rfl⟩)
    · simp only [List.mem_singleton, Prod.mk.injEq] at hv
      rw [if_pos hv.1.symm, hv.2]
  · intro v hv hn
    rw [hkeys] at hn
    push Not at hn
    dsimp only
    rw [Dict.get?_set, if_neg (Ne.symm hn.2), h.zero v hv hn.2 hn.1]
  · intro i hi
    rw [List.length_append, List.length_singleton] at hi
    by_cases hi' : i < L.length
    · rw [List.getElem_append_left hi']
      exact h.ordL i hi'
    · have : i = L.length := by omega
      subst this
      simpa using h.ordS
  · intro v
    dsimp only
    rw [Finset.mem_erase, hkeys]
    by_cases hv : v = s
    · subst hv; simp
    · rw [h.unc v hv]; tauto

theorem Trial.reject_base {g : Graph V W} (hg : Good g) {L : Dict V ℕ} {s : V} {c : ℕ} {st : State V}
    (h : Trial g L s c st) (sc : Option ℕ) :
    Base g L { st with sColor := sc, color := Dict.set st.color s 0, uncolored := insert s st.uncolored } := by
  refine ⟨?_, ?_, ?_, h.ordL, ?_, h.chain⟩
  · dsimp only
    rw [Dict.keys_set, if_pos (by rw [h.keys]; exact (mem_vertices hg).2 h.mem), h.keys]
  · intro v d hv
    dsimp only
    rw [Dict.get?_set, if_neg, h.colored v d hv]
    rintro rfl
    exact h.new (List.mem_map.2 ⟨_, hv, rfl⟩)
  · intro v hv hn
    dsimp only
    rw [Dict.get?_set]
    by_cases he : s = v
    · rw [if_pos he]
    · rw [if_neg he, h.zero v hv (Ne.symm he) hn]
  · intro v
    dsimp only
    rw [Finset.mem_insert]
    by_cases hv : v = s
    · subst hv; simp [h.mem, h.new]
    · rw [h.unc v hv]; tauto

/-- The next vertex. -/
theorem pick_spec {ord : Finset V → List V} (hord : ∀ S, (ord S).Nodup ∧ ∀ x, x ∈ ord S ↔ x ∈ S) {g : Graph V W}
    (hg : Good g) (hdeg : ∀ u, Mem g u → ∃ v, E g u v) {L : Dict V ℕ} {st : State V} (h : Base g L st)
    (hi : st.idx = L.length) (hlen : L.length < (vertices g).length) (hf : st.findNext = true) :
    ∃ s st', pick ord g st = .ok st' ∧ pick ord g st' = .ok st' ∧ Trial g L s 0 st' ∧ st'.best = st.best ∧
      st'.bestColoring = st.bestColoring := by
  obtain ⟨x, hx1, hx2⟩ := Chain.exists_new hg hlen
  have hmem : ∀ u ∈ ord st.uncolored, Mem g u ∧ u ∉ Dict.keys L := fun u hu => (h.unc u).1 (((hord _).2 u).1 hu)
  obtain ⟨s, hs1, hs2⟩ := select_spec hg (color := st.color) (fun v hv => by rw [h.keys]; exact (mem_vertices hg).2 hv)
    (ord st.uncolored) (List.ne_nil_of_mem (((hord _).2 x).2 ((h.unc x).2 ⟨hx1, hx2⟩))) (fun u hu => (hmem u hu).1)
    (fun u hu => hdeg u (hmem u hu).1) st.s
  obtain ⟨hsm, hsn⟩ := hmem s hs1
  refine ⟨s, { st with s := some s, order := Dict.set st.order st.idx s, findNext := false }, ?_, rfl, ?_, rfl, rfl⟩
  · rw [pick, if_pos hf, hs2]
  · refine ⟨h.keys, h.colored, h.zero s hsm hsn, fun v hv _ hn => h.zero v hv hn, ?_, ?_, fun v _ => h.unc v, h.chain, hsm,
      hsn, hi, rfl, rfl, by omega⟩
    · intro i hi'
      dsimp only
      rw [Dict.get?_set, if_neg (by omega), h.ordL i hi']
    · dsimp only
      rw [Dict.get?_set, if_pos hi]

theorem limit_spec {color : Dict V ℕ} {order : Dict ℕ V} {L : Dict V ℕ}
    (h1 : ∀ v d, (v, d) ∈ L → Dict.get? color v = some d) (h2 : ∀ i (h : i < L.length), Dict.get? order i = some (L[i]).1) :
    ∀ i, i < L.length → limit color order (i + 1) = .ok (top (L.take (i + 1)) + 1) := by
  intro i
  induction i with
  | zero =>
    intro hi
    rw [limit, h2 0 hi]
    dsimp only
    rw [h1 (L[0]).1 (L[0]).2 (List.getElem_mem hi)]
    dsimp only
    rw [if_pos rfl]
    cases L with
    | nil => simp at hi
    | cons a L => simp [top]
  | succ i ih =>
    intro hi
    rw [limit, h2 (i + 1) hi]
    dsimp only
    rw [h1 (L[i + 1]).1 (L[i + 1]).2 (List.getElem_mem hi)]
    dsimp only
    rw [if_neg (by omega), ih (by omega)]
    dsimp only
    rw [← List.take_concat_get' L (i + 1) hi, top_concat]
    congr 1
    omega

theorem maxColor_spec {color : Dict V ℕ} (us : List V) (hne : us ≠ []) (h : ∀ v ∈ us, v ∈ Dict.keys color) :
    ∃ m, maxColor color us = .ok m ∧ (∀ v ∈ us, ∀ c, Dict.get? color v = some c → c ≤ m) ∧
      ∃ v ∈ us, Dict.get? color v = some m := by
  induction us with
  | nil => exact absurd rfl hne
  | cons u us ih =>
    obtain ⟨c, hc⟩ := Dict.get?_isSome.2 (h u List.mem_cons_self)
    rw [maxColor, hc]
    dsimp only
    by_cases hus : us = []
    · subst hus
      rw [if_pos rfl]
      refine ⟨c, rfl, ?_, u, List.mem_cons_self, hc⟩
      intro v hv d hd
      rw [List.mem_singleton.1 hv, hc] at hd
      exact (Option.some.inj hd).ge
    · rw [if_neg hus]
      obtain ⟨m, h1, h2, v, h3, h4⟩ := ih hus (fun v hv => h v (List.mem_cons_of_mem _ hv))
      rw [h1]
      dsimp only
      refine ⟨max c m, rfl, ?_, ?_⟩
      · intro w hw d hd
        rcases List.mem_cons.1 hw with rfl | hw
        · rw [hc] at hd; rw [← Option.some.inj hd]; exact le_max_left _ _
        · exact (h2 w hw d hd).trans (le_max_right _ _)
      · rcases le_total c m with hle | hle
        · rw [max_eq_right hle]; exact ⟨v, List.mem_cons_of_mem _ h3, h4⟩
        · rw [max_eq_left hle]; exact ⟨u, List.mem_cons_self, hc⟩

theorem firstBest_spec {color : Dict V ℕ} {order : Dict ℕ V} {L : Dict V ℕ} {m : ℕ}
    (h1 : ∀ v d, (v, d) ∈ L → Dict.get? color v = some d) (h2 : ∀ i (h : i < L.length), Dict.get? order i = some (L[i]).1)
    (hex : ∃ i, ∃ h : i < L.length, m ≤ (L[i]).2) : ∀ fuel i, (∀ x ∈ L.take i, x.2 < m) → L.length ≤ i + fuel →
    i ≤ L.length → ∃ r, ∃ hr : r < L.length, firstBest color order m fuel i = .ok r ∧ (∀ x ∈ L.take r, x.2 < m) ∧ m ≤ (L[r]).2 := by
  intro fuel
  induction fuel with
  | zero =>
    intro i hi hl hle
    exfalso
    obtain ⟨j, hj, hm⟩ := hex
    have := hi L[j] (List.mem_take_iff_getElem.2 ⟨j, by omega, rfl⟩)
    omega
  | succ fuel ih =>
    intro i hi hl hle
    have hlt : i < L.length := by
      by_contra hc
      obtain ⟨j, hj, hm⟩ := hex
      have := hi L[j] (List.mem_take_iff_getElem.2 ⟨j, by omega, rfl⟩)
      omega
    rw [firstBest, h2 i hlt]
    dsimp only
    rw [h1 (L[i]).1 (L[i]).2 (List.getElem_mem hlt)]
    dsimp only
    by_cases hc : (L[i]).2 < m
    · rw [if_pos hc]
      apply ih (i + 1) _ (by omega) (by omega)
      intro x hx
      rw [← List.take_concat_get' L i hlt] at hx
      rcases List.mem_append.1 hx with hx | hx
      · exact hi x hx
      · rw [List.mem_singleton.1 hx]; exact hc
    · rw [if_neg hc]
      exact ⟨i, hlt, rfl, hi, by omega⟩

theorem uncolor_spec {order : Dict ℕ V} (is : List ℕ) : ∀ (r : Dict V ℕ × Finset V),
    (∀ i ∈ is, ∃ u, Dict.get? order i = some u ∧ u ∈ Dict.keys r.1) →
    ∃ r', uncolor order is r = .ok r' ∧ Dict.keys r'.1 = Dict.keys r.1 ∧
      (∀ v, (∃ i ∈ is, Dict.get? order i = some v) → Dict.get? r'.1 v = some 0) ∧
      (∀ v, ¬ (∃ i ∈ is, Dict.get? order i = some v) → Dict.get? r'.1 v = Dict.get? r.1 v) ∧
      ∀ v, v ∈ r'.2 ↔ v ∈ r.2 ∨ ∃ i ∈ is, Dict.get? order i = some v := by
  induction is with
  | nil => intro r _; exact ⟨r, rfl, rfl, by simp, by simp, by simp⟩
  | cons i is ih =>
    intro r hr
    obtain ⟨u, hu, huk⟩ := hr i List.mem_cons_self
    have hkeys : Dict.keys (Dict.set r.1 u 0) = Dict.keys r.1 := by rw [Dict.keys_set, if_pos huk]
    obtain ⟨r', h1, h2, h3, h4, h5⟩ := ih (Dict.set r.1 u 0, insert u r.2) (by
      intro j hj
      dsimp only
      rw [hkeys]
      exact hr j (List.mem_cons_of_mem _ hj))
    refine ⟨r', by rw [uncolor, hu]; exact h1, h2.trans hkeys, ?_, ?_, ?_⟩
    · rintro v ⟨j, hj, hv⟩
      by_cases hin : ∃ i ∈ is, Dict.get? order i = some v
      · exact h3 v hin
      · rcases List.mem_cons.1 hj with rfl | hj
        · rw [h4 v hin]
          rw [hu] at hv
          rw [Dict.get?_set, if_pos (Option.some.inj hv)]
        · exact absurd ⟨j, hj, hv⟩ hin
    · intro v hv
      have hin : ¬ ∃ i ∈ is, Dict.get? order i = some v := fun ⟨j, hj, h⟩ => hv ⟨j, List.mem_cons_of_mem _ hj, h⟩
      rw [h4 v hin]
      rw [Dict.get?_set, if_neg]
      rintro rfl
      exact hv ⟨i, List.mem_cons_self, hu⟩
    · intro v
      rw [h5]
      dsimp only
      rw [Finset.mem_insert]
      constructor
      · rintro ((rfl | h) | ⟨j, hj, h⟩)
        · exact Or.inr ⟨i, List.mem_cons_self, hu⟩
        · exact Or.inl h
        · exact Or.inr ⟨j, List.mem_cons_of_mem _ hj, h⟩
      · rintro (h | ⟨j, hj, h⟩)
        · exact Or.inl (Or.inr h)
        · rcases List.mem_cons.1 hj with rfl | hj
          · rw [hu] at h; exact Or.inl (Or.inl (Option.some.inj h).symm)
          · exact Or.inr ⟨j, hj, h⟩

theorem length_order {order : Dict ℕ V} {L : Dict V ℕ} (h : ∀ i (h : i < L.length), Dict.get? order i = some (L[i]).1) :
    L.length ≤ order.length := by
  have hsub : List.range L.length ⊆ Dict.keys order := by
    intro i hi
    rw [List.mem_range] at hi
    exact Dict.get?_isSome.1 ⟨_, h i hi⟩
  have := (List.nodup_range.subperm hsub).length_le
  rwa [List.length_range, Dict.keys, List.length_map] at this

theorem Base.coloring {g : Graph V W} (hg : Good g) {L : Dict V ℕ} {st : State V} (h : Base g L st)
    (hlen : L.length = (vertices g).length) : IsColoring {v | Mem g v} (E g) 1 (top L) st.color := by
  have hwf : Dict.WF st.color := by rw [Dict.WF, h.keys]; exact (vertices_spec hg).1
  have hiff : ∀ v c, (v, c) ∈ st.color ↔ (v, c) ∈ L := by
    intro v c
    rw [mem_iff_get? hwf]
    constructor
    · intro hc
      have hm : Mem g v := (mem_vertices hg).1 (h.keys ▸ Dict.get?_isSome.1 ⟨c, hc⟩)
      obtain ⟨⟨v, d⟩, hd, rfl⟩ := List.mem_map.1 (h.chain.full hg hlen hm)
      have := h.colored v d hd
      dsimp only at hc
      rw [hc] at this
      rw [Option.some.inj this]; exact hd
    · exact h.colored v c
  have hp := h.chain.part
  refine ⟨hwf, ?_, ?_, ?_, ?_⟩
  · intro v
    show v ∈ Dict.keys st.color ↔ _
    rw [h.keys, mem_vertices hg]; rfl
  · intro v c hc; exact hp.range v c ((hiff v c).1 hc)
  · intro c h1 h2
    obtain ⟨v, hv⟩ := hp.all c h1 h2
    exact ⟨v, (hiff v c).2 hv⟩
  · intro u c v d hu hv
    exact hp.proper u c v d ((hiff _ _).1 hu) ((hiff _ _).1 hv)

/-- All vertices are colored. -/
theorem complete_spec {g : Graph V W} (hg : Good g) (hloop : ∀ v, ¬ E g v v) (hedge : ∃ u v, E g u v) {L : Dict V ℕ}
    {st : State V} (h : Base g L st) (hlen : L.length = (vertices g).length) (hf : st.findNext = false) :
    ∃ st' L1 s1 c1 i, ∃ hi : i < L.length, complete (vertices g) st = .ok st' ∧ Trial g L1 s1 c1 st' ∧
      L1 ++ [(s1, c1)] = L.take i ∧ (∀ x ∈ L.take i, x.2 < top L) ∧ (L[i]).2 = top L ∧ st'.best = top L ∧
      st'.bestColoring = some st.color := by
  obtain ⟨a, b, hab⟩ := hedge
  have ha : Mem g a := mem_of_mem_nbrs hg ((mem_nbrs_symm hg).1 hab)
  have hb : Mem g b := mem_of_mem_nbrs hg hab
  have hp := h.chain.part
  obtain ⟨m, m1, m2, v, m3, m4⟩ := maxColor_spec (color := st.color) (vertices g)
    (List.ne_nil_of_mem ((mem_vertices hg).2 ha)) (fun v hv => by rw [h.keys]; exact hv)
  have hvL : (v, m) ∈ L := by
    obtain ⟨⟨v, d⟩, hd, rfl⟩ := List.mem_map.1 (h.chain.full hg hlen ((mem_vertices hg).1 m3))
    have := h.colored v d hd
    dsimp only at m4
    rw [m4] at this
    rw [Option.some.inj this]; exact hd
  have hmt : m = top L := by
    apply le_antisymm (le_top hvL)
    apply top_le
    intro x hx
    exact m2 x.1 ((mem_vertices hg).2 (hp.mem x.1 (List.mem_map.2 ⟨_, hx, rfl⟩))) x.2 (h.colored x.1 x.2 hx)
  have hex : ∃ i, ∃ h : i < L.length, m ≤ (L[i]).2 := by
    obtain ⟨i, hi, he⟩ := List.mem_iff_getElem.1 hvL
    exact ⟨i, hi, by rw [he]⟩
  obtain ⟨i, hi, f1, f2, f3⟩ := firstBest_spec h.colored h.ordL hex (st.order.length + 1) 0 (by simp) (by
    have := length_order h.ordL; omega) (Nat.zero_le _)
  have hat : (L[i]).2 = top L := le_antisymm (le_top (List.getElem_mem hi)) (hmt ▸ f3)
  have hi0 : i ≠ 0 := by
    rintro rfl
    have h1 := (h.chain.prefix (List.take_prefix 1 L)).part.le_length
    have h2 : top (L.take 1) = (L[0]).2 := by
      cases L with
      | nil => simp at hi
      | cons x L => simp [top]
    rw [h2, hat, List.length_take] at h1
    obtain ⟨⟨a, c⟩, hc, rfl⟩ := List.mem_map.1 (h.chain.full hg hlen ha)
    obtain ⟨⟨b, d⟩, hd, rfl⟩ := List.mem_map.1 (h.chain.full hg hlen hb)
    have h3 := hp.range _ _ hc
    have h4 := hp.range _ _ hd
    exact hp.proper _ _ _ _ hc hd hab (by rintro e; rw [e] at hab; exact hloop _ hab) (by omega)
  have hpos : ∀ v, (∃ j ∈ List.range' i ((vertices g).length - i), Dict.get? st.order j = some v) ↔
      v ∈ Dict.keys (L.drop i) := by
    intro v
    constructor
    · rintro ⟨j, hj, hv⟩
      rw [List.mem_range'_1] at hj
      rw [h.ordL j (by omega)] at hv
      refine List.mem_map.2 ⟨L[j]'(by omega), ?_, Option.some.inj hv⟩
      exact List.mem_drop_iff_getElem.2 ⟨j - i, by omega, by congr 1; omega⟩
    · intro hv
      obtain ⟨x, hx, rfl⟩ := List.mem_map.1 hv
      obtain ⟨j, hj, rfl⟩ := List.mem_drop_iff_getElem.1 hx
      exact ⟨i + j, List.mem_range'_1.2 ⟨by omega, by omega⟩, h.ordL _ _⟩
  obtain ⟨r, r1, r2, r3, r4, r5⟩ := uncolor_spec (order := st.order) (List.range' i ((vertices g).length - i))
    (st.color, st.uncolored) (by
      intro j hj
      rw [List.mem_range'_1] at hj
      refine ⟨_, h.ordL j (by omega), ?_⟩
      rw [h.keys]
      exact (mem_vertices hg).2 (hp.mem _ (List.mem_map.2 ⟨_, List.getElem_mem _, rfl⟩)))
  have hsplit : ∀ v, v ∈ Dict.keys L ↔ v ∈ Dict.keys (L.take i) ∨ v ∈ Dict.keys (L.drop i) := by
    intro v
    conv_lhs => rw [← List.take_append_drop i L]
    rw [Dict.keys, List.map_append, List.mem_append]
    rfl
  have hdisj : ∀ v, v ∈ Dict.keys (L.take i) → v ∉ Dict.keys (L.drop i) := by
    have hwf := hp.wf
    rw [Dict.WF] at hwf
    conv at hwf => rw [← List.take_append_drop i L]
    rw [Dict.keys, List.map_append, List.nodup_append] at hwf
    intro v h1 h2
    exact hwf.2.2 v h1 v h2 rfl
  have hbase : Base g (L.take i)
      { st with color := r.1, uncolored := r.2, best := m, bestColoring := some st.color, idx := i } := by
    refine ⟨?_, ?_, ?_, ?_, ?_, h.chain.prefix (List.take_prefix _ _)⟩
    · dsimp only; rw [r2]; exact h.keys
    · intro v d hv
      dsimp only
      rw [r4 v (by rw [hpos]; exact hdisj v (List.mem_map.2 ⟨_, hv, rfl⟩))]
      exact h.colored v d (List.mem_of_mem_take hv)
    · intro v hv hn
      dsimp only
      apply r3
      rw [hpos]
      exact ((hsplit v).1 (h.chain.full hg hlen hv)).resolve_left hn
    · intro j hj
      rw [List.length_take] at hj
      dsimp only
      rw [h.ordL j (by omega)]
      simp
    · intro v
      dsimp only
      rw [r5, hpos, h.unc, hsplit]
      constructor
      · rintro (⟨h1, h2⟩ | h1)
        · exact ⟨h1, fun h3 => h2 (Or.inl h3)⟩
        · exact ⟨hp.mem v ((hsplit v).2 (Or.inr h1)), fun h3 => hdisj v h3 h1⟩
      · rintro ⟨h1, h2⟩
        exact Or.inr (((hsplit v).1 (h.chain.full hg hlen h1)).resolve_left h2)
  obtain ⟨k, rfl⟩ := Nat.exists_eq_succ_of_ne_zero hi0
  have htake := List.take_concat_get' L k (by omega)
  have htl : (L.take k).length = k := by rw [List.length_take]; omega
  rw [← htake] at hbase
  obtain ⟨st', b1, b2, b3, b4⟩ := back_spec (s := (L[k]'(by omega)).1) (c := (L[k]'(by omega)).2) hbase
    (by omega) (by dsimp only; omega) hf
  refine ⟨st', L.take k, (L[k]'(by omega)).1, (L[k]'(by omega)).2, k + 1, hi, ?_, b2, htake, ?_, hat, ?_, b4⟩
  · rw [complete, m1]
    dsimp only
    rw [f1]
    dsimp only
    rw [r1]
    exact b1
  · intro x hx; rw [← hmt]; exact f2 x hx
  · rw [b3]; exact hmt

/-- The best coloring that has been found. -/
def BestOK (g : Graph V W) (best0 : ℕ) (st : State V) : Prop :=
  (st.bestColoring = none ∧ st.best = best0) ∨
    ∃ m, st.bestColoring = some m ∧ IsColoring {v | Mem g v} (E g) 1 st.best m

/-- One step of the search: either the vertex gets a color and the next one is to be chosen, or an earlier vertex is to
get another color. -/
theorem attempt_spec {g : Graph V W} (hg : Good g) (hloop : ∀ v, ¬ E g v v) (hedge : ∃ u v, E g u v) {q best0 : ℕ}
    {L : Dict V ℕ} {s : V} {c : ℕ} {st : State V} (h : Trial g L s c st) (hL : 1 ≤ L.length)
    (hcov : Cov g q st.best (L ++ [(s, c)])) (hbest : BestOK g best0 st) (hb : ∀ x ∈ L, x.2 ≤ st.best) :
    ∃ st', attempt g (vertices g) st = .ok st' ∧ BestOK g best0 st' ∧
      ((∃ j, c < j ∧ j ≤ (vertices g).length ∧ Base g (L ++ [(s, j)]) st' ∧ st'.idx = L.length + 1 ∧ st'.findNext = true ∧
          L.length + 1 < (vertices g).length ∧ Feas g q st'.best (L ++ [(s, j)]) ∧
          ∀ x ∈ L ++ [(s, j)], x.2 ≤ st'.best) ∨
        ∃ L1 s1 c1, Trial g L1 s1 c1 st' ∧ L1 ++ [(s1, c1)] <+: L ∧ Cov g q st'.best (L1 ++ [(s1, c1)]) ∧
          ∀ x ∈ L1, x.2 ≤ st'.best) := by
  have hlt := h.chain.length_lt hg h.mem h.new
  have hp := h.chain.part
  have htop : top L ≤ L.length := hp.le_length
  obtain ⟨N, hN, hNk⟩ := get?_mem_g h.mem
  obtain ⟨adj, a1, a2⟩ := adjColors_spec (color := st.color) (Dict.keys N) (by
    intro v hv
    rw [hNk] at hv
    rw [h.keys]
    exact (mem_vertices hg).2 (mem_of_mem_nbrs hg hv))
  have hadj : ∀ d, 1 ≤ d → (d ∈ adj ↔ ∃ v, E g s v ∧ (v, d) ∈ L) := by
    intro d hd
    rw [a2]
    constructor
    · rintro ⟨v, hv, hc⟩
      rw [hNk] at hv
      have hne : v ≠ s := by rintro rfl; exact hloop _ hv
      refine ⟨v, hv, ?_⟩
      by_cases hk : v ∈ Dict.keys L
      · obtain ⟨⟨v, e⟩, he, rfl⟩ := List.mem_map.1 hk
        have := h.colored v e he
        dsimp only at hc
        rw [hc] at this
        rw [Option.some.inj this]; exact he
      · rw [h.zero v (mem_of_mem_nbrs hg hv) hne hk] at hc
        have := Option.some.inj hc
        omega
    · rintro ⟨v, hv, hc⟩
      exact ⟨v, by rw [hNk]; exact hv, h.colored v d hc⟩
  have hnfree : (vertices g).length ∉ adj := by
    rw [hadj _ (by omega)]
    rintro ⟨v, -, hc⟩
    have := le_top hc
    dsimp only at this
    omega
  have hcn := h.lt
  obtain ⟨j, hj⟩ : ∃ j, (List.range' (c + 1) ((vertices g).length - c)).find? (fun i => decide (i ∉ adj)) = some j := by
    cases hfind : (List.range' (c + 1) ((vertices g).length - c)).find? (fun i => decide (i ∉ adj)) with
    | some j => exact ⟨j, rfl⟩
    | none =>
      have := List.find?_eq_none.1 hfind (vertices g).length (List.mem_range'_1.2 ⟨by omega, by omega⟩)
      simp [hnfree] at this
  have hjr := List.mem_range'_1.1 (List.mem_of_find?_eq_some hj)
  have hjn : j ∉ adj := by simpa using List.find?_some hj
  have hjfree : ∀ v, E g s v → (v, j) ∉ L := fun v hv hm => hjn ((hadj j (by omega)).2 ⟨v, hv, hm⟩)
  have hjmin : ∀ d, c < d → (∀ v, E g s v → (v, d) ∉ L) → j ≤ d := by
    intro d hd hfree
    by_contra hc
    push Not at hc
    have hd' : d ∈ adj := by
      by_contra hd'
      rw [List.find?_range'_eq_some] at hj
      have := hj.2.2 d (by omega) hc
      simp [hd'] at this
    obtain ⟨v, hv, hm⟩ := (hadj d (by omega)).1 hd'
    exact hfree v hv hm
  obtain ⟨l, hl⟩ := Nat.exists_eq_add_of_le' hL
  have hlim : limit st.color st.order st.idx = .ok (top L + 1) := by
    have := limit_spec h.colored h.ordL l (by omega)
    rw [← hl, List.take_length, ← h.idx] at this
    exact this
  have hexp : attempt g (vertices g) st =
      if j < st.best ∧ j ≤ top L + 1 then accept (vertices g) s j { st with sColor := some j }
      else reject s { st with sColor := some j } := by
    rw [attempt, h.hs]
    dsimp only
    rw [hN]
    dsimp only
    rw [a1]
    dsimp only
    rw [h.cs]
    dsimp only
    rw [hj, Option.some_or]
    dsimp only
    rw [hlim]
    dsimp only
    by_cases h1 : j < st.best
    · by_cases h2 : j ≤ top L + 1
      · rw [if_pos h1, if_pos h2, if_pos ⟨h1, h2⟩]
      · rw [if_pos h1, if_neg h2, if_neg (fun h => h2 h.2)]
    · rw [if_neg h1, if_neg (fun h => h1 h.1)]
  rw [hexp]
  by_cases hacc : j < st.best ∧ j ≤ top L + 1
  · rw [if_pos hacc, accept]
    dsimp only
    have hbase := h.accept_base hg (by omega) hacc.2 hjfree (some j)
    have hfeas : Feas g q st.best (L ++ [(s, j)]) := hcov.accept h.chain h.mem h.new hjmin
    have hbound : ∀ x ∈ L ++ [(s, j)], x.2 ≤ st.best := by
      intro x hx
      rcases List.mem_append.1 hx with hx | hx
      · exact hb x hx
      · rw [List.mem_singleton.1 hx]; exact hacc.1.le
    by_cases hfull : st.idx + 1 = (vertices g).length
    · rw [if_pos hfull]
      have hlen : (L ++ [(s, j)]).length = (vertices g).length := by
        rw [List.length_append, List.length_singleton, ← h.idx]; exact hfull
      obtain ⟨st', L1, s1, c1, i, hi, e1, e2, e3, e4, e5, e6, e7⟩ := complete_spec hg hloop hedge hbase hlen h.find
      refine ⟨st', e1, Or.inr ⟨_, e7, ?_⟩, Or.inr ⟨L1, s1, c1, e2, ?_, ?_, ?_⟩⟩
      · rw [e6]; exact hbase.coloring hg hlen
      · rw [e3]
        have hi' : i ≤ L.length := by rw [List.length_append, List.length_singleton] at hi; omega
        rw [List.take_append_of_le_length hi']
        exact List.take_prefix _ _
      · rw [e3, e6]
        exact hfeas.complete hbase.chain rfl (top_le hbound) hi e4 e5
      · intro x hx
        rw [e6]
        apply (e4 x _).le
        rw [← e3]
        exact List.mem_append_left _ hx
    · rw [if_neg hfull]
      refine ⟨_, rfl, hbest, Or.inl ⟨j, by omega, by omega, ?_, ?_, rfl, ?_, hfeas, hbound⟩⟩
      · exact ⟨hbase.keys, hbase.colored, hbase.zero, hbase.ordL, hbase.unc, hbase.chain⟩
      · dsimp only; rw [h.idx]
      · rw [h.idx] at hfull; omega
  · rw [if_neg hacc, reject]
    dsimp only
    have hbase := h.reject_base hg (some j)
    have hcov' := hcov.reject h.chain h.mem h.new hjmin hacc
    have htake : L.take l ++ [L[l]'(by omega)] = L := by
      rw [List.take_concat_get' L l (by omega), ← hl, List.take_length]
    have htl : (L.take l).length = l := by rw [List.length_take]; omega
    have hbase' := hbase
    rw [← htake] at hbase'
    obtain ⟨st', b1, b2, b3, b4⟩ := back_spec (s := (L[l]'(by omega)).1) (c := (L[l]'(by omega)).2) hbase'
      (by omega) (by dsimp only; rw [h.idx]; omega) h.find
    refine ⟨st', b1, ?_, Or.inr ⟨L.take l, _, _, b2, ?_, ?_, ?_⟩⟩
    · rw [BestOK, b3, b4]; exact hbest
    · show L.take l ++ [L[l]'(by omega)] <+: L
      rw [htake]
    · show Cov g q st'.best (L.take l ++ [L[l]'(by omega)])
      rw [htake, b3]; exact hcov'
    · intro x hx
      rw [b3]
      exact hb x (List.mem_of_mem_take hx)

/-- The loop, from a state in which a vertex is to get another color. -/
theorem loop_spec {ord : Finset V → List V} (hord : ∀ S, (ord S).Nodup ∧ ∀ x, x ∈ ord S ↔ x ∈ S) {g : Graph V W}
    (hg : Good g) (hloop : ∀ v, ¬ E g v v) (hdeg : ∀ u, Mem g u → ∃ v, E g u v) (hedge : ∃ u v, E g u v) {q best0 : ℕ}
    (hq : 1 ≤ q) : ∀ (N : ℕ) (L : Dict V ℕ) (s : V) (c : ℕ) (st : State V), Trial g L s c st →
    phi (vertices g).length (vertices g).length ((L ++ [(s, c)]).map Prod.snd) < N →
    Cov g q st.best (L ++ [(s, c)]) → BestOK g best0 st → (∀ x ∈ L, x.2 ≤ st.best) →
    ∃ st', loop ord g (vertices g) q st = some (.ok st') ∧ BestOK g best0 st' ∧
      ∀ f, ProperOn g f → st'.best ≤ count g f := by
  intro N
  induction N with
  | zero => intro L s c st _ h; omega
  | succ N ih =>
    intro L s c st h hN hcov hbest hb
    rw [loop]
    by_cases hi : st.idx < q
    · rw [if_pos hi]
      refine ⟨st, rfl, hbest, fun f hf => ?_⟩
      by_contra hc
      push Not at hc
      obtain ⟨f', -, -, p, v, d, h1, h2, -⟩ := hcov f hf hc
      have := h1.length_le
      rw [List.length_append, List.length_append, List.length_singleton, List.length_singleton] at this
      rw [h.idx] at hi
      omega
    · rw [if_neg hi]
      have hpick : pick ord g st = .ok st := by rw [pick, h.find]; rfl
      rw [hpick]
      dsimp only
      have hidx := h.idx
      have hlen := h.chain.length_lt hg h.mem h.new
      obtain ⟨st', a1, a2, a3⟩ := attempt_spec hg hloop hedge h (by omega) hcov hbest hb
      rw [a1]
      dsimp only
      have hlm : (L.map Prod.snd).length < (vertices g).length := by rw [List.length_map]; exact hlen
      rcases a3 with ⟨j, b1, b2, b3, b4, b5, b6, b7, b8⟩ | ⟨L1, s1, c1, b1, b2, b3, b4⟩
      · obtain ⟨s2, st2, p1, p2, p3, p4, p5⟩ := pick_spec hord hg hdeg b3 (by rw [b4]; simp) (by simpa using b6) b5
        have hloopeq : loop ord g (vertices g) q st' = loop ord g (vertices g) q st2 := by
          rw [loop, loop, p1, p2, b4, p3.idx, if_neg (by omega), if_neg (by rw [List.length_append]; omega)]
        rw [hloopeq]
        refine ih _ s2 0 st2 p3 ?_ ?_ ?_ ?_
        · have := phi_next_lt (vertices g).length (vertices g).length (L.map Prod.snd) c j hlm b1 b2
          simp only [List.map_append, List.map_cons, List.map_nil, List.append_assoc, List.cons_append,
            List.nil_append] at hN ⊢
          omega
        · rw [p4]
          exact b7.pick b3.chain (by rw [List.length_append]; omega) s2
        · rw [BestOK, p4, p5]; exact a2
        · rw [p4]; exact b8
      · refine ih L1 s1 c1 st' b1 ?_ b3 a2 b4
        have h1 := phi_prefix_le (vertices g).length (vertices g).length (b2.map Prod.snd)
        have h2 := phi_lt_concat (vertices g).length (vertices g).length (L.map Prod.snd) c hlm h.lt.le
        rw [List.map_append, List.map_singleton] at hN
        dsimp only at hN
        omega

theorem Base.congr {g : Graph V W} {L : Dict V ℕ} {st st' : State V} (h : Base g L st) (h1 : st'.color = st.color)
    (h2 : st'.order = st.order) (h3 : st'.uncolored = st.uncolored) : Base g L st' :=
  ⟨by rw [h1]; exact h.keys, by rw [h1]; exact h.colored, by rw [h1]; exact h.zero, by rw [h2]; exact h.ordL,
    by rw [h3]; exact h.unc, h.chain⟩

/-- The colors of the clique. -/
theorem colorClique_spec {g : Graph V W} (hg : Good g) (us : List V) : ∀ (pre : List V) (st : State V),
    Base g (cliqueColors pre 0) st → (pre ++ us).Nodup → (∀ v ∈ pre ++ us, Mem g v) →
    (∀ u ∈ pre ++ us, ∀ v ∈ pre ++ us, u ≠ v → E g u v) → ∀ st' : State V,
    (st'.color, st'.order, st'.uncolored) = colorClique us pre.length (st.color, st.order, st.uncolored) →
    Base g (cliqueColors (pre ++ us) 0) st' := by
  induction us with
  | nil =>
    intro pre st h _ _ _ st' he
    rw [colorClique] at he
    simp only [Prod.mk.injEq] at he
    rw [List.append_nil]
    exact h.congr he.1 he.2.1 he.2.2
  | cons u us ih =>
    intro pre st h hnd hm hadj st' he
    have hsnd : (pre ++ [u]).Nodup ∧ pre ++ u :: us = (pre ++ [u]) ++ us := by
      refine ⟨hnd.sublist ?_, by simp⟩
      exact List.Sublist.append_left (by simp) pre
    have hu : u ∉ pre := by
      rw [List.nodup_append] at hnd
      exact fun hc => hnd.2.2 u hc u (by simp) rfl
    have hmu : Mem g u := hm u (by simp)
    have hnew : u ∉ Dict.keys (cliqueColors pre 0) := by rw [Dict.keys, keys_cliqueColors]; exact hu
    have hpre := clique_spec hg pre (hsnd.1.sublist (List.sublist_append_left _ _)) (fun v hv => hm v (by simp [hv]))
      (fun a ha b hb => hadj a (by simp [ha]) b (by simp [hb]))
    have ht : Trial g (cliqueColors pre 0) u 0 { st with
        order := Dict.set st.order pre.length u, idx := pre.length, s := some u, findNext := false } := by
      refine ⟨h.keys, h.colored, h.zero u hmu hnew, fun v hv _ hn => h.zero v hv hn, ?_, ?_, fun v _ => h.unc v, h.chain,
        hmu, hnew, ?_, rfl, rfl, List.length_pos_of_mem ((mem_vertices hg).2 hmu)⟩
      · intro i hi
        dsimp only
        rw [length_cliqueColors] at hi
        rw [Dict.get?_set, if_neg (by omega), h.ordL i (by rw [length_cliqueColors]; exact hi)]
      · dsimp only
        rw [length_cliqueColors, Dict.get?_set, if_pos rfl]
      · dsimp only
        rw [length_cliqueColors]
    have hb := ht.accept_base hg (j := pre.length + 1) (by omega) (by rw [hpre.2.1]) (by
      intro v _ hv
      have := le_top hv
      rw [hpre.2.1] at this
      dsimp only at this
      omega) none
    rw [hsnd.2]
    have hcc := cliqueColors_concat pre u 0
    rw [zero_add] at hcc
    rw [← hcc] at hb
    refine ih (pre ++ [u]) _ hb (hsnd.2 ▸ hnd) (hsnd.2 ▸ hm) (hsnd.2 ▸ hadj) st' ?_
    rw [he, colorClique, List.length_append, List.length_singleton]

/-- The start of the search. -/
theorem start_spec {g : Graph V W} (hg : Good g) (l : List V) (hnd : l.Nodup) (hm : ∀ v ∈ l, Mem g v)
    (hadj : ∀ u ∈ l, ∀ v ∈ l, u ≠ v → E g u v) (st : State V)
    (he : (st.color, st.order, st.uncolored) =
      colorClique l 0 ((vertices g).map (fun u => (u, 0)), [], (vertices g).toFinset)) :
    Base g (cliqueColors l 0) st := by
  have hkeys : Dict.keys ((vertices g).map (fun u => ((u, 0) : V × ℕ))) = vertices g := by
    rw [Dict.keys, List.map_map]
    exact List.map_id _
  refine colorClique_spec hg l [] ⟨(vertices g).map (fun u => (u, 0)), (vertices g).toFinset, [], 0, none, 0, true, none,
    none⟩ ⟨hkeys, ?_, ?_, ?_, ?_, ?_⟩ (by simpa using hnd) (by simpa using hm) (by simpa using hadj) st he
  · intro v d hv; simp [cliqueColors] at hv
  · intro v hv _
    dsimp only
    apply Dict.get?_of_mem
    · rw [Dict.WF, hkeys]; exact (vertices_spec hg).1
    · exact List.mem_map.2 ⟨v, (mem_vertices hg).2 hv, rfl⟩
  · intro i hi; simp [cliqueColors] at hi
  · intro v
    dsimp only
    rw [List.mem_toFinset, mem_vertices hg]
    simp [cliqueColors, Dict.keys]
  · exact (clique_spec hg [] List.nodup_nil (by simp) (by simp)).1

end Rosemary.Coloring.Korman

namespace Rosemary.Coloring

open Rosemary.Graph Rosemary.Spec Rosemary.Coloring.Korman
open Rosemary.Traversal (E)

variable {V W : Type} [LinearOrder V]

/-- The colors counted from 1. -/
theorem coloring_succ {S : Set V} {E : V → V → Prop} {k : ℕ} {m : List (V × ℕ)} (h : IsColoring S E 0 k m) :
    IsColoring S E 1 k (m.map (fun e => (e.1, e.2 + 1))) := by
  have hmem : ∀ v c, (v, c) ∈ m.map (fun e => (e.1, e.2 + 1)) ↔ 1 ≤ c ∧ (v, c - 1) ∈ m := by
    intro v c
    rw [List.mem_map]
    constructor
    · rintro ⟨⟨a, b⟩, hab, e⟩
      simp only [Prod.mk.injEq] at e
      obtain ⟨rfl, rfl⟩ := e
      exact ⟨by omega, by simpa using hab⟩
    · rintro ⟨h1, hc⟩
      refine ⟨_, hc, ?_⟩
      simp only [Prod.mk.injEq, true_and]
      omega
  have hk : (m.map (fun e => (e.1, e.2 + 1))).map Prod.fst = m.map Prod.fst := by rw [List.map_map]; rfl
  refine ⟨by rw [hk]; exact h.nodup, fun v => by rw [hk]; exact h.verts v, ?_, ?_, ?_⟩
  · intro v c hc
    obtain ⟨h1, h2⟩ := (hmem v c).1 hc
    have := h.range _ _ h2
    omega
  · intro c h1 h2
    obtain ⟨v, hv⟩ := h.all (c - 1) (by omega) (by omega)
    exact ⟨v, (hmem v c).2 ⟨h1, hv⟩⟩
  · intro u c v d hu hv he hne
    obtain ⟨h1, h2⟩ := (hmem u c).1 hu
    obtain ⟨h3, h4⟩ := (hmem v d).1 hv
    have := h.proper _ _ _ _ h2 h4 he hne
    omega

theorem card_le_of_coloring {g : Graph V W} (hg : Good g) {E' : V → V → Prop} {lo k : ℕ} {m : List (V × ℕ)}
    (h : IsColoring {v | Mem g v} E' lo k m) : k ≤ (vertices g).length := by
  have h1 : Finset.Ico lo (lo + k) ⊆ (m.map Prod.snd).toFinset := by
    intro c hc
    rw [Finset.mem_Ico] at hc
    obtain ⟨v, hv⟩ := h.all c hc.1 hc.2
    exact List.mem_toFinset.2 (List.mem_map.2 ⟨_, hv, rfl⟩)
  have h2 := (Finset.card_le_card h1).trans (List.toFinset_card_le _)
  have h3 : (m.map Prod.fst).Subperm (vertices g) :=
    h.nodup.subperm (fun v hv => (mem_vertices hg).2 ((h.verts v).1 hv))
  have h4 := h3.length_le
  rw [List.length_map] at h4
  rw [List.length_map] at h2
  simp at h2
  omega

/-- The function of a coloring. -/
theorem proper_of_coloring {g : Graph V W} {lo k : ℕ} {m : List (V × ℕ)}
    (h : IsColoring {v | Mem g v} (E g) lo k m) : ∃ f, ProperOn g f ∧ count g f ≤ k := by
  have hget : ∀ v c, (v, c) ∈ m → Dict.get? m v = some c := fun v c hc => (mem_iff_get? h.nodup).1 hc
  refine ⟨fun v => (Dict.get? m v).getD 0, ?_, ?_⟩
  · intro u v hu hv he hne
    obtain ⟨⟨u, c⟩, hu', rfl⟩ := List.mem_map.1 ((h.verts u).2 hu)
    obtain ⟨⟨v, d⟩, hv', rfl⟩ := List.mem_map.1 ((h.verts v).2 hv)
    dsimp only
    rw [hget _ _ hu', hget _ _ hv']
    exact h.proper _ _ _ _ hu' hv' he hne
  · have : (vertexSet g).image (fun v => (Dict.get? m v).getD 0) ⊆ Finset.Ico lo (lo + k) := by
      intro c hc
      obtain ⟨v, hv, rfl⟩ := Finset.mem_image.1 hc
      obtain ⟨⟨v, d⟩, hv', rfl⟩ := List.mem_map.1 ((h.verts v).2 (Graph.mem_vertexSet.1 hv))
      rw [Finset.mem_Ico]
      dsimp only
      rw [hget _ _ hv']
      exact h.range _ _ hv'
    have := Finset.card_le_card this
    rw [count]
    simpa using this

/-- The classes of the result. -/
theorem result_spec {S : Set V} {E' : V → V → Prop} (initial : Dict V ℕ) (best : ℕ) (bc : Option (Dict V ℕ)) (m : Dict V ℕ)
    (hm : m = match bc with
      | none => initial.map (fun e => (e.1, e.2 + 1))
      | some m => m) (h : IsColoring S E' 1 best m) :
    result initial false best bc = .ok (best, .colorMap m) ∧
      result initial true best bc = .ok (best, .classes ((List.range best).map
        (fun i => ((m.map (fun e => (e.1, e.2 - 1))).filter (fun e => e.2 = i)).map Prod.fst))) := by
  constructor
  · subst hm
    cases bc <;> rfl
  · have hres : result initial true best bc =
        match fillClasses (m.map (fun e => (e.1, if e.2 = 0 then best - 1 else e.2 - 1))) (List.replicate best []) with
        | .error e => .error e
        | .ok cl => .ok (best, .classes cl) := by
      subst hm
      cases bc <;> rfl
    rw [hres]
    have he : m.map (fun e => (e.1, if e.2 = 0 then best - 1 else e.2 - 1)) = m.map (fun e => (e.1, e.2 - 1)) := by
      apply List.map_congr_left
      rintro ⟨v, c⟩ hvc
      have := h.range v c hvc
      dsimp only
      rw [if_neg (by omega)]
    have h5 := classesOf_spec (m := m.map (fun e => (e.1, e.2 - 1))) (k := best) (by
      intro v c hc
      obtain ⟨⟨a, b⟩, hab, e⟩ := List.mem_map.1 hc
      have := h.range _ _ hab
      simp only [Prod.mk.injEq] at e
      omega)
    rw [classesOf] at h5
    rw [he, h5]

/-- `korman` on a graph without loops and without isolated vertices, or on a complete graph. -/
theorem korman_spec {ord : Finset V → List V} (hord : ∀ S, (ord S).Nodup ∧ ∀ x, x ∈ ord S ↔ x ∈ S) {g : Graph V W}
    (hg : Good g) (hloop : ∀ v, ¬ E g v v) (hne : ∃ v, Mem g v)
    (hdeg : (∀ u, Mem g u → ∃ v, E g u v) ∨ ∀ u v, Mem g u → Mem g v → u ≠ v → E g u v) :
    ∃ k m, korman ord g false = some (.ok (k, .colorMap m)) ∧
      korman ord g true = some (.ok (k, .classes ((List.range k).map
        (fun i => ((m.map (fun e => (e.1, e.2 - 1))).filter (fun e => e.2 = i)).map Prod.fst)))) ∧
      IsColoring {v | Mem g v} (E g) 1 k m ∧ ∀ f, ProperOn g f → k ≤ count g f := by
  obtain ⟨m0, k0, d1, -, d3, d4, -⟩ := dsatur_spec hord hg hne
  obtain ⟨q, l, o1, ⟨o2, o3, o4⟩, o5⟩ := Cliques.ostergard_spec hg hloop hne
  dsimp only at o2 o3 o4
  have hcol0 : IsColoring {v | Mem g v} (E g) 0 k0 m0 := d3.coloring (fun u v h => (mem_nbrs_symm hg).1 h) d4
  have hcol1 := coloring_succ hcol0
  have hlm : ∀ v ∈ l, Mem g v := fun v hv => o3.1 v (List.mem_toFinset.2 hv)
  have hladj : ∀ u ∈ l, ∀ v ∈ l, u ≠ v → E g u v := fun u hu v hv hne =>
    o3.2 u (List.mem_toFinset.2 hu) v (List.mem_toFinset.2 hv) hne
  obtain ⟨c1, c2, c3⟩ := clique_spec hg l o2 hlm hladj
  have hlow : ∀ f, ProperOn g f → q ≤ count g f := by
    intro f hf
    obtain ⟨f', e1, e2, e3⟩ := c3 f hf
    have := c1.part.le_count e3
    omega
  by_cases hqn : q = (vertices g).length
  · have hk : ∀ b, korman ord g b = some (result m0 b k0 none) := by
      intro b
      rw [korman, d1]
      dsimp only
      rw [o1]
      dsimp only
      rw [if_neg (by simp [hqn])]
    obtain ⟨r1, r2⟩ := result_spec m0 k0 none _ rfl hcol1
    refine ⟨k0, _, by rw [hk, r1], by rw [hk, r2], hcol1, fun f hf => ?_⟩
    exact (card_le_of_coloring hg hcol0).trans (hqn ▸ hlow f hf)
  · have hqlt : q < (vertices g).length := by
      have hsub : l ⊆ vertices g := fun v hv => (mem_vertices hg).2 (hlm v hv)
      have := (o2.subperm hsub).length_le
      omega
    have hdeg' : ∀ u, Mem g u → ∃ v, E g u v := by
      rcases hdeg with h | h
      · exact h
      · exfalso
        have h1 := o5 (vertices g).toFinset ⟨fun v hv => (mem_vertices hg).1 (List.mem_toFinset.1 hv), by
          intro u hu v hv hne
          exact h u v ((mem_vertices hg).1 (List.mem_toFinset.1 hu)) ((mem_vertices hg).1 (List.mem_toFinset.1 hv)) hne⟩
        rw [List.toFinset_card_of_nodup (vertices_spec hg).1] at h1
        omega
    obtain ⟨x, hx⟩ := hne
    obtain ⟨y, hxy⟩ := hdeg' x hx
    have hq1 : 1 ≤ q := by
      have := o5 {x} ⟨by intro v hv; rw [Finset.mem_singleton.1 hv]; exact hx, by
        intro u hu v hv hne
        rw [Finset.mem_singleton] at hu hv
        exact absurd (hu.trans hv.symm) hne⟩
      simpa using this
    obtain ⟨f0, f1, f2⟩ := proper_of_coloring hcol0
    have hqk : q ≤ k0 := (hlow f0 f1).trans f2
    generalize hr : colorClique l 0 ((vertices g).map (fun u => ((u, 0) : V × ℕ)), [], (vertices g).toFinset) = r
    have hbase := start_spec hg l o2 hlm hladj ⟨r.1, r.2.2, r.2.1, k0, none, q, true, none, none⟩ (by rw [hr])
    have hlen : (cliqueColors l 0).length = q := by rw [length_cliqueColors, o4]
    obtain ⟨s, st, p1, p2, p3, p4, p5⟩ := pick_spec hord hg hdeg' hbase (by dsimp only; omega) (by omega) rfl
    have hfeas : Feas g q k0 (cliqueColors l 0) := by
      intro f hf _
      obtain ⟨f', e1, e2, e3⟩ := c3 f hf
      exact ⟨f', e1, e2.le, Or.inl e3⟩
    obtain ⟨st', l1, l2, l3⟩ := loop_spec hord hg hloop hdeg' ⟨x, y, hxy⟩ (q := q) (best0 := k0) hq1 _ _ s 0 st p3
      (Nat.lt_succ_self _) (by rw [p4]; exact hfeas.pick c1 (by omega) s) (Or.inl ⟨p5, p4⟩) (by
        intro x hx
        rw [p4]
        have := le_top hx
        dsimp only
        omega)
    have hstart : loop ord g (vertices g) q ⟨r.1, r.2.2, r.2.1, k0, none, q, true, none, none⟩ = some (.ok st') := by
      rw [loop, if_neg (by dsimp only; omega), p1]
      rw [loop, if_neg (by rw [p3.idx]; omega), p2] at l1
      exact l1
    have hk : ∀ b, korman ord g b = some (result m0 b st'.best st'.bestColoring) := by
      intro b
      rw [korman, d1]
      dsimp only
      rw [o1]
      dsimp only
      rw [if_pos hqn, hr, hstart]
    rcases l2 with ⟨e1, e2⟩ | ⟨m, e1, e2⟩
    · rw [e1, e2] at hk
      obtain ⟨r1, r2⟩ := result_spec m0 k0 none _ rfl hcol1
      exact ⟨k0, _, by rw [hk, r1], by rw [hk, r2], hcol1, fun f hf => e2 ▸ l3 f hf⟩
    · rw [e1] at hk
      obtain ⟨r1, r2⟩ := result_spec m0 st'.best (some m) m rfl e2
      exact ⟨st'.best, m, by rw [hk, r1], by rw [hk, r2], e2, l3⟩

end Rosemary.Coloring
