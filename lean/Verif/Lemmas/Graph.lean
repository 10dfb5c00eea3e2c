import Verif.Model.Graph
import Mathlib.Data.Finset.Image
import Mathlib.Data.List.Dedup

/-!
# Lemmas about graphs
-/

namespace Rosemary.Graph

open Rosemary

variable {V W : Type}

section Basic

variable [DecidableEq V]

/-- The weight of the edge from `u` to `v`, if there is one. -/
def adj (g : Graph V W) (u v : V) : Option W := (Dict.get? g u).bind (fun N => Dict.get? N v)

/-- `u` is a vertex. -/
def Mem (g : Graph V W) (u : V) : Prop := u ∈ Dict.keys g

/-- The dictionaries have no repeated keys and the adjacency is symmetric. -/
structure Good (g : Graph V W) : Prop where
  wf : Dict.WF g
  inner : ∀ u N, Dict.get? g u = some N → Dict.WF N
  symm : ∀ u v, adj g u v = adj g v u

/-- The dictionaries have no repeated keys. -/
def WF2 (g : Graph V W) : Prop := Dict.WF g ∧ ∀ u N, Dict.get? g u = some N → Dict.WF N

omit [DecidableEq V] in
theorem mem_iff {g : Graph V W} {u : V} [DecidableEq V] : Mem g u ↔ ∃ N, Dict.get? g u = some N := Dict.get?_isSome.symm

theorem mem_of_adj {g : Graph V W} {u v : V} {w : W} (h : adj g u v = some w) : Mem g u := by
  rw [mem_iff]
  rw [adj, Option.bind_eq_some_iff] at h
  obtain ⟨N, hN, -⟩ := h
  exact ⟨N, hN⟩

theorem Good.mem_right {g : Graph V W} (hg : Good g) {u v : V} {w : W} (h : adj g u v = some w) : Mem g v :=
  mem_of_adj (by rw [hg.symm]; exact h)

theorem Good.wf2 {g : Graph V W} (hg : Good g) : WF2 g := ⟨hg.wf, hg.inner⟩

theorem adj_none {g : Graph V W} {u v : V} (h : ¬ Mem g u) : adj g u v = none := by
  rw [adj, Dict.get?_eq_none.2 h]; rfl

/-! ### One half of an edge -/

theorem addHalf_wf {g : Graph V W} (hg : WF2 g) (a b : V) (w : W) : WF2 (addHalf g a b w) := by
  rw [addHalf]
  cases h : Dict.get? g a with
  | none =>
    refine ⟨hg.1.set _ _, fun u N hN => ?_⟩
    rw [Dict.get?_set] at hN
    split_ifs at hN
    · injection hN with hN; subst hN; exact List.nodup_singleton b
    · exact hg.2 u N hN
  | some M =>
    refine ⟨hg.1.set _ _, fun u N hN => ?_⟩
    rw [Dict.get?_set] at hN
    split_ifs at hN
    · injection hN with hN; subst hN; exact (hg.2 a M h).set _ _
    · exact hg.2 u N hN

theorem adj_addHalf (g : Graph V W) (a b : V) (w : W) (u v : V) :
    adj (addHalf g a b w) u v = if a = u ∧ b = v then some w else adj g u v := by
  rw [addHalf]
  cases h : Dict.get? g a with
  | none =>
    rw [adj, Dict.get?_set]
    by_cases hu : a = u
    · subst hu
      rw [if_pos rfl, Option.bind_some, Dict.get?]
      by_cases hv : b = v
      · rw [if_pos hv, if_pos ⟨rfl, hv⟩]
      · rw [if_neg hv, if_neg (fun h => hv h.2), adj, h]; rfl
    · rw [if_neg hu, if_neg (fun h => hu h.1)]; rfl
  | some M =>
    rw [adj, Dict.get?_set]
    by_cases hu : a = u
    · subst hu
      rw [if_pos rfl, Option.bind_some, Dict.get?_set]
      by_cases hv : b = v
      · rw [if_pos hv, if_pos ⟨rfl, hv⟩]
      · rw [if_neg hv, if_neg (fun h => hv h.2), adj, h]; rfl
    · rw [if_neg hu, if_neg (fun h => hu h.1)]; rfl

theorem mem_addHalf (g : Graph V W) (a b : V) (w : W) (u : V) : Mem (addHalf g a b w) u ↔ u = a ∨ Mem g u := by
  rw [addHalf]
  cases h : Dict.get? g a with
  | none => exact Dict.mem_keys_set
  | some M => exact Dict.mem_keys_set

theorem deleteHalf_wf {g : Graph V W} (hg : WF2 g) (a b : V) : WF2 (deleteHalf g a b) := by
  rw [deleteHalf]
  cases h : Dict.get? g a with
  | none => exact hg
  | some M =>
    dsimp only
    cases h' : Dict.get? M b with
    | none => exact hg
    | some w =>
      refine ⟨hg.1.set _ _, fun u N hN => ?_⟩
      rw [Dict.get?_set] at hN
      split_ifs at hN
      · injection hN with hN; subst hN; exact (hg.2 a M h).erase _
      · exact hg.2 u N hN

theorem adj_deleteHalf {g : Graph V W} (hg : WF2 g) (a b : V) (u v : V) :
    adj (deleteHalf g a b) u v = if a = u ∧ b = v then none else adj g u v := by
  rw [deleteHalf]
  cases h : Dict.get? g a with
  | none =>
    dsimp only
    by_cases hu : a = u ∧ b = v
    · rw [if_pos hu, adj, ← hu.1, h]; rfl
    · rw [if_neg hu]
  | some M =>
    dsimp only
    cases h' : Dict.get? M b with
    | none =>
      dsimp only
      by_cases hu : a = u ∧ b = v
      · rw [if_pos hu, adj, ← hu.1, h, Option.bind_some, ← hu.2, h']
      · rw [if_neg hu]
    | some w =>
      dsimp only
      rw [adj, Dict.get?_set]
      by_cases hu : a = u
      · subst hu
        rw [if_pos rfl, Option.bind_some, Dict.get?_erase (hg.2 a M h)]
        by_cases hv : b = v
        · rw [if_pos hv, if_pos ⟨rfl, hv⟩]
        · rw [if_neg hv, if_neg (fun h => hv h.2), adj, h]; rfl
      · rw [if_neg hu, if_neg (fun h => hu h.1)]; rfl

theorem mem_deleteHalf (g : Graph V W) (a b : V) (u : V) : Mem (deleteHalf g a b) u ↔ Mem g u := by
  rw [deleteHalf]
  cases h : Dict.get? g a with
  | none => rfl
  | some M =>
    dsimp only
    cases h' : Dict.get? M b with
    | none => rfl
    | some w =>
      dsimp only
      rw [Mem, Dict.mem_keys_set, Mem]
      constructor
      · rintro (rfl | h'')
        · exact Dict.get?_isSome.1 ⟨M, h⟩
        · exact h''
      · exact Or.inr

/-! ### The operations -/

theorem good_empty : Good ([] : Graph V W) :=
  ⟨List.nodup_nil, fun u N h => by simp [Dict.get?] at h, fun u v => rfl⟩

theorem adj_empty (u v : V) : adj ([] : Graph V W) u v = none := rfl

theorem adj_addEdge (g : Graph V W) (a b : V) (w : W) (u v : V) :
    adj (addEdge g a b w) u v = if (a = u ∧ b = v) ∨ (b = u ∧ a = v) then some w else adj g u v := by
  rw [addEdge, adj_addHalf, adj_addHalf]
  by_cases h1 : b = u ∧ a = v
  · rw [if_pos h1, if_pos (Or.inr h1)]
  · rw [if_neg h1]
    by_cases h2 : a = u ∧ b = v
    · rw [if_pos h2, if_pos (Or.inl h2)]
    · rw [if_neg h2, if_neg (by tauto)]

theorem mem_addEdge (g : Graph V W) (a b : V) (w : W) (u : V) :
    Mem (addEdge g a b w) u ↔ u = a ∨ u = b ∨ Mem g u := by
  rw [addEdge, mem_addHalf, mem_addHalf]
  tauto

theorem Good.addEdge {g : Graph V W} (hg : Good g) (a b : V) (w : W) : Good (addEdge g a b w) := by
  have h := addHalf_wf (addHalf_wf hg.wf2 a b w) b a w
  refine ⟨h.1, h.2, fun u v => ?_⟩
  rw [adj_addEdge, adj_addEdge, hg.symm u v]
  by_cases h : (a = u ∧ b = v) ∨ (b = u ∧ a = v)
  · rw [if_pos h, if_pos (by tauto)]
  · rw [if_neg h, if_neg (by tauto)]

theorem adj_deleteEdge {g : Graph V W} (hg : Good g) (a b : V) (u v : V) :
    adj (deleteEdge g a b) u v = if (a = u ∧ b = v) ∨ (b = u ∧ a = v) then none else adj g u v := by
  rw [deleteEdge, adj_deleteHalf (deleteHalf_wf hg.wf2 b a), adj_deleteHalf hg.wf2]
  by_cases h1 : a = u ∧ b = v
  · rw [if_pos h1, if_pos (Or.inl h1)]
  · rw [if_neg h1]
    by_cases h2 : b = u ∧ a = v
    · rw [if_pos h2, if_pos (Or.inr h2)]
    · rw [if_neg h2, if_neg (by tauto)]

theorem mem_deleteEdge (g : Graph V W) (a b : V) (u : V) : Mem (deleteEdge g a b) u ↔ Mem g u := by
  rw [deleteEdge, mem_deleteHalf, mem_deleteHalf]

theorem Good.deleteEdge {g : Graph V W} (hg : Good g) (a b : V) : Good (deleteEdge g a b) := by
  have h := deleteHalf_wf (deleteHalf_wf hg.wf2 b a) a b
  refine ⟨h.1, h.2, fun u v => ?_⟩
  rw [adj_deleteEdge hg, adj_deleteEdge hg, hg.symm u v]
  by_cases h : (a = u ∧ b = v) ∨ (b = u ∧ a = v)
  · rw [if_pos h, if_pos (by tauto)]
  · rw [if_neg h, if_neg (by tauto)]

theorem mem_addVertex (g : Graph V W) (a u : V) : Mem (addVertex g a) u ↔ u = a ∨ Mem g u := by
  rw [addVertex]
  cases h : Dict.get? g a with
  | none => exact Dict.mem_keys_set
  | some M =>
    dsimp only
    constructor
    · exact Or.inr
    · rintro (rfl | h')
      · exact Dict.get?_isSome.1 ⟨M, h⟩
      · exact h'

theorem adj_addVertex (g : Graph V W) (a u v : V) : adj (addVertex g a) u v = adj g u v := by
  rw [addVertex]
  cases h : Dict.get? g a with
  | none =>
    dsimp only
    rw [adj, Dict.get?_set]
    by_cases hu : a = u
    · rw [if_pos hu, adj, ← hu, h]; rfl
    · rw [if_neg hu]; rfl
  | some M => rfl

theorem Good.addVertex {g : Graph V W} (hg : Good g) (a : V) : Good (addVertex g a) := by
  refine ⟨?_, ?_, fun u v => by rw [adj_addVertex, adj_addVertex, hg.symm]⟩
  · rw [Graph.addVertex]
    cases h : Dict.get? g a with
    | none => exact hg.wf.set _ _
    | some M => exact hg.wf
  · intro u N hN
    rw [Graph.addVertex] at hN
    cases h : Dict.get? g a with
    | none =>
      rw [h] at hN
      dsimp only at hN
      rw [Dict.get?_set] at hN
      split_ifs at hN
      · injection hN with hN; subst hN; exact List.nodup_nil
      · exact hg.inner u N hN
    | some M => rw [h] at hN; exact hg.inner u N hN

theorem get?_mapVal {β γ : Type} (f : V × β → γ) (d : Dict V β) (u : V) :
    Dict.get? (d.map (fun e => (e.1, f e))) u = (Dict.get? d u).map (fun x => f (u, x)) := by
  induction d with
  | nil => rfl
  | cons e d ih =>
    obtain ⟨a, b⟩ := e
    rw [List.map_cons, Dict.get?, Dict.get?]
    by_cases h : a = u
    · subst h; rw [if_pos rfl, if_pos rfl]; rfl
    · rw [if_neg h, if_neg h, ih]

omit [DecidableEq V] in
theorem keys_mapVal {β γ : Type} (f : V × β → γ) (d : Dict V β) :
    Dict.keys (d.map (fun e => (e.1, f e))) = Dict.keys d := by
  rw [Dict.keys, List.map_map]; rfl

theorem mem_deleteVertex {g : Graph V W} (hg : Good g) (a u : V) : Mem (deleteVertex g a) u ↔ u ≠ a ∧ Mem g u := by
  rw [deleteVertex]
  cases h : Dict.get? g a with
  | none =>
    dsimp only
    constructor
    · intro h'
      refine ⟨?_, h'⟩
      rintro rfl
      exact (Dict.get?_eq_none.1 h) h'
    · exact fun h' => h'.2
  | some M =>
    dsimp only
    rw [Mem, keys_mapVal, Dict.mem_keys_erase hg.wf, Mem]

theorem adj_deleteVertex {g : Graph V W} (hg : Good g) (a u v : V) :
    adj (deleteVertex g a) u v = if u = a ∨ v = a then none else adj g u v := by
  rw [deleteVertex]
  cases h : Dict.get? g a with
  | none =>
    dsimp only
    by_cases hu : u = a ∨ v = a
    · rw [if_pos hu]
      have hm : ¬ Mem g a := Dict.get?_eq_none.1 h
      rcases hu with rfl | rfl
      · exact adj_none hm
      · rw [hg.symm]; exact adj_none hm
    · rw [if_neg hu]
  | some M =>
    dsimp only
    rw [adj, get?_mapVal, Dict.get?_erase hg.wf]
    by_cases hu : a = u
    · rw [if_pos hu, if_pos (Or.inl hu.symm)]; rfl
    · rw [if_neg hu, adj]
      cases hN : Dict.get? g u with
      | none => simp
      | some N =>
        simp only [Option.map_some, Option.bind_some]
        cases hNa : Dict.get? N a with
        | none =>
          dsimp only
          by_cases hv : v = a
          · rw [if_pos (Or.inr hv), hv, hNa]
          · rw [if_neg (by tauto)]
        | some w =>
          dsimp only
          rw [Dict.get?_erase (hg.inner u N hN)]
          by_cases hv : v = a
          · rw [if_pos (Or.inr hv), if_pos hv.symm]
          · rw [if_neg (Ne.symm hv), if_neg (by tauto)]

theorem Good.deleteVertex {g : Graph V W} (hg : Good g) (a : V) : Good (deleteVertex g a) := by
  refine ⟨?_, ?_, fun u v => by
    rw [adj_deleteVertex hg, adj_deleteVertex hg, hg.symm u v]; simp only [or_comm]⟩
  · rw [Graph.deleteVertex]
    cases h : Dict.get? g a with
    | none => exact hg.wf
    | some M =>
      dsimp only
      rw [Dict.WF, keys_mapVal]
      exact hg.wf.erase a
  · intro u N hN
    rw [Graph.deleteVertex] at hN
    cases h : Dict.get? g a with
    | none => rw [h] at hN; exact hg.inner u N hN
    | some M =>
      rw [h] at hN
      dsimp only at hN
      rw [get?_mapVal, Dict.get?_erase hg.wf] at hN
      by_cases hu : a = u
      · rw [if_pos hu] at hN; simp at hN
      · rw [if_neg hu, Option.map_eq_some_iff] at hN
        obtain ⟨N', hN', hN⟩ := hN
        cases hNa : Dict.get? N' a with
        | none => rw [hNa] at hN; dsimp only at hN; subst hN; exact hg.inner u _ hN'
        | some w => rw [hNa] at hN; dsimp only at hN; subst hN; exact (hg.inner u _ hN').erase a

/-! ### Lists of operations -/

theorem Good.addEdges {g : Graph V W} (hg : Good g) (es : List (V × V × W)) : Good (addEdges g es) := by
  induction es generalizing g with
  | nil => exact hg
  | cons e es ih => obtain ⟨a, b, w⟩ := e; exact ih (hg.addEdge a b w)

theorem Good.addVertices {g : Graph V W} (hg : Good g) (us : List V) : Good (addVertices g us) := by
  induction us generalizing g with
  | nil => exact hg
  | cons e es ih => exact ih (hg.addVertex e)

theorem mem_addVertices (g : Graph V W) (us : List V) (u : V) : Mem (addVertices g us) u ↔ u ∈ us ∨ Mem g u := by
  induction us generalizing g with
  | nil => simp [addVertices]
  | cons e es ih => rw [addVertices, ih, mem_addVertex, List.mem_cons]; tauto

theorem adj_addVertices (g : Graph V W) (us : List V) (u v : V) : adj (addVertices g us) u v = adj g u v := by
  induction us generalizing g with
  | nil => rfl
  | cons e es ih => rw [addVertices, ih, adj_addVertex]

theorem Good.deleteVertices {g : Graph V W} (hg : Good g) (us : List V) : Good (deleteVertices g us) := by
  induction us generalizing g with
  | nil => exact hg
  | cons e es ih => exact ih (hg.deleteVertex e)

theorem mem_deleteVertices {g : Graph V W} (hg : Good g) (us : List V) (u : V) :
    Mem (deleteVertices g us) u ↔ u ∉ us ∧ Mem g u := by
  induction us generalizing g with
  | nil => simp [deleteVertices]
  | cons e es ih => rw [deleteVertices, ih (hg.deleteVertex e), mem_deleteVertex hg, List.mem_cons]; tauto

theorem adj_deleteVertices {g : Graph V W} (hg : Good g) (us : List V) (u v : V) :
    adj (deleteVertices g us) u v = if u ∈ us ∨ v ∈ us then none else adj g u v := by
  induction us generalizing g with
  | nil => simp [deleteVertices]
  | cons e es ih =>
    rw [deleteVertices, ih (hg.deleteVertex e), adj_deleteVertex hg]
    by_cases h1 : u ∈ es ∨ v ∈ es
    · rw [if_pos h1, if_pos (by simp only [List.mem_cons]; tauto)]
    · rw [if_neg h1]
      by_cases h2 : u = e ∨ v = e
      · rw [if_pos h2, if_pos (by simp only [List.mem_cons]; tauto)]
      · rw [if_neg h2, if_neg (by simp only [List.mem_cons]; tauto)]

theorem mem_addEdges (g : Graph V W) (es : List (V × V × W)) (u : V) :
    Mem (addEdges g es) u ↔ (∃ e ∈ es, u = e.1 ∨ u = e.2.1) ∨ Mem g u := by
  induction es generalizing g with
  | nil => simp [addEdges]
  | cons e es ih =>
    obtain ⟨a, b, w⟩ := e
    rw [addEdges, ih, mem_addEdge]
    simp only [List.mem_cons, exists_eq_or_imp]
    generalize (∃ e ∈ es, u = e.1 ∨ u = e.2.1) = P
    generalize Mem g u = Q
    tauto

/-- If all new edges have the same weight. -/
theorem adj_addEdges_const [DecidableEq W] (g : Graph V W) (es : List (V × V × W)) (w : W) (hw : ∀ e ∈ es, e.2.2 = w) (u v : V) :
    adj (addEdges g es) u v = if (u, v, w) ∈ es ∨ (v, u, w) ∈ es then some w else adj g u v := by
  induction es generalizing g with
  | nil => simp [addEdges]
  | cons e es ih =>
    obtain ⟨a, b, w'⟩ := e
    have hw' : w' = w := hw _ List.mem_cons_self
    subst hw'
    rw [addEdges, ih _ (fun e he => hw e (List.mem_cons_of_mem _ he)), adj_addEdge]
    by_cases h1 : (u, v, w') ∈ es ∨ (v, u, w') ∈ es
    · rw [if_pos h1, if_pos (by simp only [List.mem_cons]; tauto)]
    · rw [if_neg h1]
      by_cases h2 : (a = u ∧ b = v) ∨ (b = u ∧ a = v)
      · rw [if_pos h2, if_pos]
        simp only [List.mem_cons, Prod.mk.injEq]
        rcases h2 with ⟨rfl, rfl⟩ | ⟨rfl, rfl⟩ <;> simp
      · rw [if_neg h2, if_neg]
        simp only [List.mem_cons, Prod.mk.injEq]
        rintro ((⟨rfl, rfl, -⟩ | h) | (⟨rfl, rfl, -⟩ | h)) <;> simp_all

/-! ### Neighbour lists -/

/-- The neighbours in the order of iteration. -/
def nbrs (g : Graph V W) (u : V) : List V := Dict.keys ((Dict.get? g u).getD [])

theorem get?_eq_of_mem {g : Graph V W} {u : V} (h : Mem g u) :
    Dict.get? g u = some ((Dict.get? g u).getD []) := by
  obtain ⟨N, hN⟩ := mem_iff.1 h
  rw [hN]; rfl

theorem mem_nbrs {g : Graph V W} {u v : V} : v ∈ nbrs g u ↔ ∃ w, adj g u v = some w := by
  rw [nbrs, adj]
  cases h : Dict.get? g u with
  | none => simp [Dict.keys]
  | some N => rw [Option.getD_some, ← Dict.get?_isSome]; rfl

theorem nodup_nbrs {g : Graph V W} (hg : Good g) (u : V) : (nbrs g u).Nodup := by
  rw [nbrs]
  cases h : Dict.get? g u with
  | none => exact List.nodup_nil
  | some N => exact hg.inner u N h

theorem mem_nbrs_symm {g : Graph V W} (hg : Good g) {u v : V} : v ∈ nbrs g u ↔ u ∈ nbrs g v := by
  rw [mem_nbrs, mem_nbrs, hg.symm]

theorem mem_of_mem_nbrs {g : Graph V W} (hg : Good g) {u v : V} (h : v ∈ nbrs g u) : Mem g v := by
  obtain ⟨w, hw⟩ := mem_nbrs.1 h
  exact hg.mem_right hw

theorem degree_eq {g : Graph V W} {u : V} (h : Mem g u) : degree g u = .ok (nbrs g u).length := by
  obtain ⟨N, hN⟩ := mem_iff.1 h
  rw [degree, nbrs, hN, Option.getD_some, Dict.keys, List.length_map]

theorem neighbors_eq {g : Graph V W} {u : V} (h : Mem g u) : neighbors g u = .ok (nbrs g u).toFinset := by
  obtain ⟨N, hN⟩ := mem_iff.1 h
  rw [neighbors, nbrs, hN, Option.getD_some]

theorem degrees_eq {g : Graph V W} (us : List V) (h : ∀ u ∈ us, Mem g u) :
    degrees g us = .ok (us.map (fun u => (nbrs g u).length)) := by
  induction us with
  | nil => rfl
  | cons u us ih =>
    rw [degrees, degree_eq (h u List.mem_cons_self), ih (fun v hv => h v (List.mem_cons_of_mem _ hv))]
    rfl

end Basic

end Rosemary.Graph
