import Verif.Model.PairingHeap
import Mathlib.Tactic.Basic
import Mathlib.Order.Basic
import Mathlib.Data.List.Perm.Basic
import Mathlib.Data.List.Nodup

/-!
# The trees of a pairing heap
-/

namespace Rosemary.PairingHeap

variable {κ ν : Type}

/-- A list of siblings with their children. -/
inductive Forest where
  | nil
  | node (i : ℕ) (kids rest : Forest)

namespace Forest

/-- The nodes of a forest. -/
def ids : Forest → List ℕ
  | nil => []
  | node i l r => i :: (l.ids ++ r.ids)

end Forest

open Forest

/-- The pointer `o` leads to the forest `t`, whose first node has the predecessor `p`. -/
def Rep (m : Mem κ ν) : ℕ → Option ℕ → Forest → Prop
  | _, o, .nil => o = none
  | p, o, .node i l r => o = some i ∧ (m i).prev = some p ∧ Rep m i (m i).leftChild l ∧ Rep m i (m i).nextSibling r

/-- Two nodes with the same pointers. -/
def SamePtr (a b : Node κ ν) : Prop := a.nextSibling = b.nextSibling ∧ a.leftChild = b.leftChild ∧ a.prev = b.prev

theorem Rep.congr {m m' : Mem κ ν} {p : ℕ} {o : Option ℕ} {t : Forest} (h : Rep m p o t)
    (he : ∀ i ∈ t.ids, SamePtr (m' i) (m i)) : Rep m' p o t := by
  induction t generalizing p o with
  | nil => exact h
  | node i l r ihl ihr =>
    obtain ⟨h1, h2, h3, h4⟩ := h
    obtain ⟨e1, e2, e3⟩ := he i (by simp [ids])
    refine ⟨h1, e3.trans h2, ?_, ?_⟩
    · rw [e2]; exact ihl h3 (fun j hj => he j (by simp [ids, hj]))
    · rw [e1]; exact ihr h4 (fun j hj => he j (by simp [ids, hj]))

theorem Rep.congr' {m m' : Mem κ ν} {p : ℕ} {o : Option ℕ} {t : Forest} (h : Rep m p o t)
    (he : ∀ i ∈ t.ids, m' i = m i) : Rep m' p o t :=
  h.congr (fun i hi => by rw [he i hi]; exact ⟨rfl, rfl, rfl⟩)

theorem Rep.head_mem {m : Mem κ ν} {p i : ℕ} {o : Option ℕ} {t : Forest} (h : Rep m p o t) (ho : o = some i) : i ∈ t.ids := by
  cases t with
  | nil => rw [Rep] at h; rw [h] at ho; simp at ho
  | node j l r =>
    obtain ⟨h1, -⟩ := h
    rw [h1] at ho
    cases ho
    simp [ids]

/-! ### Writing attributes -/

theorem setPrev_ne {m : Mem κ ν} {i j : ℕ} {o : Option ℕ} (h : j ≠ i) : setPrev m i o j = m j := Function.update_of_ne h _ _
theorem setNext_ne {m : Mem κ ν} {i j : ℕ} {o : Option ℕ} (h : j ≠ i) : setNext m i o j = m j := Function.update_of_ne h _ _
theorem setLeft_ne {m : Mem κ ν} {i j : ℕ} {o : Option ℕ} (h : j ≠ i) : setLeft m i o j = m j := Function.update_of_ne h _ _
theorem setKey_ne {m : Mem κ ν} {i j : ℕ} {k : κ} (h : j ≠ i) : setKey m i k j = m j := Function.update_of_ne h _ _
theorem setPrev_eq (m : Mem κ ν) (i : ℕ) (o : Option ℕ) : setPrev m i o i = { m i with prev := o } := Function.update_self _ _ _
theorem setNext_eq (m : Mem κ ν) (i : ℕ) (o : Option ℕ) : setNext m i o i = { m i with nextSibling := o } := Function.update_self _ _ _
theorem setLeft_eq (m : Mem κ ν) (i : ℕ) (o : Option ℕ) : setLeft m i o i = { m i with leftChild := o } := Function.update_self _ _ _
theorem setKey_eq (m : Mem κ ν) (i : ℕ) (k : κ) : setKey m i k i = { m i with key := k } := Function.update_self _ _ _

/-- Nothing but pointers was written. -/
def SameData (m m' : Mem κ ν) : Prop := ∀ i, (m' i).key = (m i).key ∧ (m' i).value = (m i).value

theorem SameData.refl (m : Mem κ ν) : SameData m m := fun _ => ⟨rfl, rfl⟩
theorem SameData.trans {m m' m'' : Mem κ ν} (h : SameData m m') (h' : SameData m' m'') : SameData m m'' :=
  fun i => ⟨(h' i).1.trans (h i).1, (h' i).2.trans (h i).2⟩

theorem sameData_setPrev (m : Mem κ ν) (i : ℕ) (o : Option ℕ) : SameData m (setPrev m i o) := by
  intro j
  by_cases h : j = i
  · subst h; rw [setPrev_eq]; exact ⟨rfl, rfl⟩
  · rw [setPrev_ne h]; exact ⟨rfl, rfl⟩
theorem sameData_setNext (m : Mem κ ν) (i : ℕ) (o : Option ℕ) : SameData m (setNext m i o) := by
  intro j
  by_cases h : j = i
  · subst h; rw [setNext_eq]; exact ⟨rfl, rfl⟩
  · rw [setNext_ne h]; exact ⟨rfl, rfl⟩
theorem sameData_setLeft (m : Mem κ ν) (i : ℕ) (o : Option ℕ) : SameData m (setLeft m i o) := by
  intro j
  by_cases h : j = i
  · subst h; rw [setLeft_eq]; exact ⟨rfl, rfl⟩
  · rw [setLeft_ne h]; exact ⟨rfl, rfl⟩
theorem sameData_setPrev? (m : Mem κ ν) (c : Option ℕ) (o : Option ℕ) : SameData m (setPrev? m c o) := by
  cases c with
  | none => exact SameData.refl m
  | some i => exact sameData_setPrev m i o

theorem setPrev?_ne {m : Mem κ ν} {c : Option ℕ} {j : ℕ} {o : Option ℕ} (h : c ≠ some j) : setPrev? m c o j = m j := by
  cases c with
  | none => rfl
  | some i => exact setPrev_ne (fun e => h (by rw [e]))

/-- Giving a forest a new predecessor. -/
theorem Rep.fix {m : Mem κ ν} {p : ℕ} {o : Option ℕ} {t : Forest} (h : Rep m p o t) (hn : t.ids.Nodup) (q : ℕ) :
    Rep (setPrev? m o (some q)) q o t := by
  cases t with
  | nil => exact h
  | node i l r =>
    obtain ⟨h1, h2, h3, h4⟩ := h
    subst h1
    simp only [ids, List.nodup_cons, List.mem_append, not_or] at hn
    refine ⟨rfl, ?_, ?_, ?_⟩
    · simp only [setPrev?, setPrev_eq]
    · simp only [setPrev?, setPrev_eq]
      exact h3.congr' (fun j hj => setPrev_ne (fun e => hn.1.1 (e ▸ hj)))
    · simp only [setPrev?, setPrev_eq]
      exact h4.congr' (fun j hj => setPrev_ne (fun e => hn.1.2 (e ▸ hj)))

/-! ### The order -/

section Order

variable [LinearOrder κ]

/-- Heap order: children have no smaller keys than their parents. -/
def Ordered (m : Mem κ ν) : κ → Forest → Prop
  | _, .nil => True
  | k, .node i l r => k ≤ (m i).key ∧ Ordered m (m i).key l ∧ Ordered m k r

theorem Ordered.congr {m m' : Mem κ ν} {k : κ} {t : Forest} (h : Ordered m k t) (he : ∀ i ∈ t.ids, (m' i).key = (m i).key) :
    Ordered m' k t := by
  induction t generalizing k with
  | nil => trivial
  | node i l r ihl ihr =>
    obtain ⟨h1, h2, h3⟩ := h
    rw [Ordered, he i (by simp [ids])]
    exact ⟨h1, ihl h2 (fun j hj => he j (by simp [ids, hj])), ihr h3 (fun j hj => he j (by simp [ids, hj]))⟩

theorem Ordered.mono {m : Mem κ ν} {k k' : κ} {t : Forest} (h : Ordered m k t) (hk : k' ≤ k) : Ordered m k' t := by
  induction t with
  | nil => trivial
  | node i l r ihl ihr =>
    obtain ⟨h1, h2, h3⟩ := h
    exact ⟨hk.trans h1, h2, ihr h3⟩

theorem Ordered.le {m : Mem κ ν} {k : κ} {t : Forest} (h : Ordered m k t) : ∀ i ∈ t.ids, k ≤ (m i).key := by
  induction t generalizing k with
  | nil => intro i hi; simp [ids] at hi
  | node i l r ihl ihr =>
    obtain ⟨h1, h2, h3⟩ := h
    intro j hj
    simp only [ids, List.mem_cons, List.mem_append] at hj
    rcases hj with rfl | hj | hj
    · exact h1
    · exact h1.trans (ihl h2 j hj)
    · exact ihr h3 j hj

/-- A heap-ordered tree with root `i` and the children `l`. -/
structure IsTree (m : Mem κ ν) (i : ℕ) (l : Forest) : Prop where
  next : (m i).nextSibling = none
  rep : Rep m i (m i).leftChild l
  nodup : (i :: l.ids).Nodup
  ord : Ordered m (m i).key l

theorem IsTree.congr {m m' : Mem κ ν} {i : ℕ} {l : Forest} (h : IsTree m i l) (he : ∀ j ∈ i :: l.ids, m' j = m j) :
    IsTree m' i l := by
  have h0 := he i (by simp)
  refine ⟨by rw [h0]; exact h.next, ?_, h.nodup, ?_⟩
  · rw [h0]; exact h.rep.congr' (fun j hj => he j (by simp [hj]))
  · rw [h0]; exact h.ord.congr (fun j hj => by rw [he j (by simp [hj])])

/-- Linking two trees. -/
theorem link_spec {m : Mem κ ν} {a b : ℕ} {la lb : Forest} (ha : IsTree m a la) (hb : IsTree m b lb)
    (hd : List.Disjoint (a :: la.ids) (b :: lb.ids)) :
    SameData m (link m a b).1 ∧ (∀ j, j ∉ a :: la.ids → j ∉ b :: lb.ids → (link m a b).1 j = m j) ∧
      ∃ l, IsTree (link m a b).1 (link m a b).2 l ∧
        ((link m a b).2 :: l.ids).Perm ((a :: la.ids) ++ (b :: lb.ids)) := by
  have hab : a ≠ b := fun e => hd (a := a) (by simp) (by simp [e])
  have hala : a ∉ la.ids := (List.nodup_cons.1 ha.nodup).1
  have hblb : b ∉ lb.ids := (List.nodup_cons.1 hb.nodup).1
  have halb : a ∉ lb.ids := fun h => hd (a := a) (by simp) (by simp [h])
  have hbla : b ∉ la.ids := fun h => hd (a := b) (by simp [h]) (by simp)
  have hdl : ∀ j, j ∈ la.ids → j ∉ lb.ids := fun j h h' => hd (a := j) (by simp [h]) (by simp [h'])
  have hna : la.ids.Nodup := (List.nodup_cons.1 ha.nodup).2
  have hnb : lb.ids.Nodup := (List.nodup_cons.1 hb.nodup).2
  rw [link]
  split_ifs with hlt
  · dsimp only
    set m1 := setPrev m b (m a).prev with hm1
    set m2 := setPrev m1 a (some b) with hm2
    set m3 := setNext m2 a (m2 b).leftChild with hm3
    set m4 := setPrev? m3 (m3 a).nextSibling (some a) with hm4
    set m5 := setLeft m4 b (some a) with hm5
    have d1 : SameData m m1 := sameData_setPrev _ _ _
    have d2 : SameData m m2 := d1.trans (sameData_setPrev _ _ _)
    have d3 : SameData m m3 := d2.trans (sameData_setNext _ _ _)
    have d4 : SameData m m4 := d3.trans (sameData_setPrev? _ _ _)
    have d5 : SameData m m5 := d4.trans (sameData_setLeft _ _ _)
    have e2b : (m2 b).leftChild = (m b).leftChild := by
      rw [hm2, setPrev_ne hab.symm, hm1, setPrev_eq]
    have e3a : (m3 a).nextSibling = (m b).leftChild := by
      rw [hm3, setNext_eq]; exact e2b
    have e3 : ∀ j, j ≠ a → j ≠ b → m3 j = m j := by
      intro j h1 h2
      rw [hm3, setNext_ne h1, hm2, setPrev_ne h1, hm1, setPrev_ne h2]
    have hh : ∀ j, (m b).leftChild = some j → j ∈ lb.ids := fun j => hb.rep.head_mem
    have e5 : ∀ j, j ≠ a → j ∉ b :: lb.ids → m5 j = m j := by
      intro j h1 h2
      rw [List.mem_cons, not_or] at h2
      rw [hm5, setLeft_ne h2.1, hm4, e3a, setPrev?_ne (fun e => h2.2 (hh j e)), e3 j h1 h2.1]
    have e5a : m5 a = { m a with prev := some b, nextSibling := (m b).leftChild } := by
      rw [hm5, setLeft_ne hab, hm4, e3a, setPrev?_ne (fun e => halb (hh a e)), hm3, setNext_eq, e2b, hm2, setPrev_eq, hm1,
        setPrev_ne hab]
    have e5b : m5 b = { m b with prev := (m a).prev, leftChild := some a } := by
      rw [hm5, setLeft_eq, hm4, e3a, setPrev?_ne (fun e => hblb (hh b e)), hm3, setNext_ne hab.symm, hm2,
        setPrev_ne hab.symm, hm1, setPrev_eq]
    refine ⟨d5, fun j h1 h2 => e5 j (by simp at h1; exact h1.1) h2, .node a la lb, ⟨?_, ?_, ?_, ?_⟩, ?_⟩
    · rw [e5b]; exact hb.next
    · refine ⟨by rw [e5b], by rw [e5a], ?_, ?_⟩
      · rw [e5a]
        exact ha.rep.congr' (fun j hj => e5 j (fun e => hala (e ▸ hj)) (by
          rw [List.mem_cons, not_or]; exact ⟨fun e => hbla (e ▸ hj), hdl j hj⟩))
      · rw [e5a]
        have h3 : Rep m3 b (m b).leftChild lb := hb.rep.congr' (fun j hj =>
          e3 j (fun e => halb (e ▸ hj)) (fun e => hblb (e ▸ hj)))
        have h4 : Rep m4 a (m b).leftChild lb := by
          rw [hm4, e3a]; exact h3.fix hnb a
        exact h4.congr' (fun j hj => setLeft_ne (fun e => hblb (e ▸ hj)))
    · rw [ids, List.nodup_cons, List.nodup_cons]
      refine ⟨?_, ?_, ?_⟩
      · simp only [List.mem_cons, List.mem_append, not_or]; exact ⟨hab.symm, hbla, hblb⟩
      · simp only [List.mem_append, not_or]; exact ⟨hala, halb⟩
      · exact hna.append hnb (fun j h h' => hdl j h h')
    · refine ⟨?_, ?_, ?_⟩
      · rw [(d5 b).1, (d5 a).1]; exact hlt.le
      · rw [(d5 a).1]; exact ha.ord.congr (fun j _ => (d5 j).1)
      · rw [(d5 b).1]; exact hb.ord.congr (fun j _ => (d5 j).1)
    · rw [ids]
      have : (b :: a :: (la.ids ++ lb.ids)).Perm (a :: b :: (la.ids ++ lb.ids)) := List.Perm.swap _ _ _
      refine this.trans ?_
      rw [List.cons_append]
      exact List.Perm.cons _ List.perm_middle.symm
  · dsimp only
    set m1 := setPrev m b (some a) with hm1
    set m2 := setNext m1 a (m1 b).nextSibling with hm2
    have e1b : (m1 b).nextSibling = none := by rw [hm1, setPrev_eq]; exact hb.next
    have e2a : (m2 a).nextSibling = none := by rw [hm2, setNext_eq]; exact e1b
    set m3 := setPrev? m2 (m2 a).nextSibling (some a) with hm3
    have e23 : m3 = m2 := by rw [hm3, e2a]; rfl
    set m4 := setNext m3 b (m3 a).leftChild with hm4
    set m5 := setPrev? m4 (m4 b).nextSibling (some b) with hm5
    set m6 := setLeft m5 a (some b) with hm6
    have d1 : SameData m m1 := sameData_setPrev _ _ _
    have d2 : SameData m m2 := d1.trans (sameData_setNext _ _ _)
    have d3 : SameData m m3 := d2.trans (sameData_setPrev? _ _ _)
    have d4 : SameData m m4 := d3.trans (sameData_setNext _ _ _)
    have d5 : SameData m m5 := d4.trans (sameData_setPrev? _ _ _)
    have d6 : SameData m m6 := d5.trans (sameData_setLeft _ _ _)
    have e3a : (m3 a).leftChild = (m a).leftChild := by
      rw [e23, hm2, setNext_eq, hm1, setPrev_ne hab]
    have e4b : (m4 b).nextSibling = (m a).leftChild := by
      rw [hm4, setNext_eq]; exact e3a
    have e4 : ∀ j, j ≠ a → j ≠ b → m4 j = m j := by
      intro j h1 h2
      rw [hm4, setNext_ne h2, e23, hm2, setNext_ne h1, hm1, setPrev_ne h2]
    have hh : ∀ j, (m a).leftChild = some j → j ∈ la.ids := fun j => ha.rep.head_mem
    have e6 : ∀ j, j ∉ a :: la.ids → j ≠ b → m6 j = m j := by
      intro j h1 h2
      rw [List.mem_cons, not_or] at h1
      rw [hm6, setLeft_ne h1.1, hm5, e4b, setPrev?_ne (fun e => h1.2 (hh j e)), e4 j h1.1 h2]
    have e6b : m6 b = { m b with prev := some a, nextSibling := (m a).leftChild } := by
      rw [hm6, setLeft_ne hab.symm, hm5, e4b, setPrev?_ne (fun e => hbla (hh b e)), hm4, setNext_eq, e3a, e23, hm2,
        setNext_ne hab.symm, hm1, setPrev_eq]
    have e6a : m6 a = { m a with nextSibling := none, leftChild := some b } := by
      rw [hm6, setLeft_eq, hm5, e4b, setPrev?_ne (fun e => hala (hh a e)), hm4, setNext_ne hab, e23, hm2, setNext_eq, e1b,
        hm1, setPrev_ne hab]
    refine ⟨d6, fun j h1 h2 => e6 j h1 (by simp at h2; exact h2.1), .node b lb la, ⟨?_, ?_, ?_, ?_⟩, ?_⟩
    · rw [e6a]
    · refine ⟨by rw [e6a], by rw [e6b], ?_, ?_⟩
      · rw [e6b]
        exact hb.rep.congr' (fun j hj => e6 j (by
          rw [List.mem_cons, not_or]; exact ⟨fun e => halb (e ▸ hj), fun h => hdl j h hj⟩) (fun e => hblb (e ▸ hj)))
      · rw [e6b]
        have h3 : Rep m4 a (m a).leftChild la := ha.rep.congr' (fun j hj =>
          e4 j (fun e => hala (e ▸ hj)) (fun e => hbla (e ▸ hj)))
        have h4 : Rep m5 b (m a).leftChild la := by
          rw [hm5, e4b]; exact h3.fix hna b
        exact h4.congr' (fun j hj => setLeft_ne (fun e => hala (e ▸ hj)))
    · rw [ids, List.nodup_cons, List.nodup_cons]
      refine ⟨?_, ?_, ?_⟩
      · simp only [List.mem_cons, List.mem_append, not_or]; exact ⟨hab, halb, hala⟩
      · simp only [List.mem_append, not_or]; exact ⟨hblb, hbla⟩
      · exact hnb.append hna (fun j h h' => hdl j h' h)
    · refine ⟨?_, ?_, ?_⟩
      · rw [(d6 b).1, (d6 a).1]; exact not_lt.1 hlt
      · rw [(d6 b).1]; exact hb.ord.congr (fun j _ => (d6 j).1)
      · rw [(d6 a).1]; exact ha.ord.congr (fun j _ => (d6 j).1)
    · rw [ids, List.cons_append]
      refine List.Perm.cons _ ?_
      have : (b :: (lb.ids ++ la.ids)).Perm (b :: (la.ids ++ lb.ids)) := List.Perm.cons _ List.perm_append_comm
      exact this.trans List.perm_middle.symm

/-! ### Lists of trees -/

/-- The trees of a forest. -/
def roots : Forest → List (ℕ × Forest)
  | .nil => []
  | .node i l r => (i, l) :: roots r

/-- The nodes of a list of trees. -/
def allIds (ts : List (ℕ × Forest)) : List ℕ := ts.flatMap (fun e => e.1 :: e.2.ids)

theorem allIds_roots (t : Forest) : allIds (roots t) = t.ids := by
  induction t with
  | nil => rfl
  | node i l r _ ihr =>
    rw [roots, allIds, List.flatMap_cons]
    rw [allIds] at ihr
    rw [ihr, ids]; rfl

/-- A list of disjoint trees. -/
structure Trees (m : Mem κ ν) (ts : List (ℕ × Forest)) : Prop where
  tree : ∀ e ∈ ts, IsTree m e.1 e.2
  nodup : (allIds ts).Nodup

theorem allIds_perm {ts ts' : List (ℕ × Forest)} (h : ts.Perm ts') : (allIds ts).Perm (allIds ts') := h.flatMap_right _

theorem Trees.perm {m : Mem κ ν} {ts ts' : List (ℕ × Forest)} (h : Trees m ts) (hp : ts.Perm ts') : Trees m ts' :=
  ⟨fun e he => h.tree e (hp.mem_iff.2 he), (allIds_perm hp).nodup_iff.1 h.nodup⟩

theorem Trees.link {m : Mem κ ν} {a b : ℕ} {la lb : Forest} {ts : List (ℕ × Forest)}
    (h : Trees m ((a, la) :: (b, lb) :: ts)) :
    SameData m (link m a b).1 ∧ (∀ j, j ∉ allIds ((a, la) :: (b, lb) :: ts) → (link m a b).1 j = m j) ∧
      ∃ l, Trees (PairingHeap.link m a b).1 (((PairingHeap.link m a b).2, l) :: ts) ∧
        (allIds (((PairingHeap.link m a b).2, l) :: ts)).Perm (allIds ((a, la) :: (b, lb) :: ts)) := by
  have e1 : allIds ((a, la) :: (b, lb) :: ts) = (a :: la.ids) ++ ((b :: lb.ids) ++ allIds ts) := rfl
  have hn := h.nodup
  rw [e1] at hn ⊢
  rw [List.nodup_append', List.nodup_append', List.disjoint_append_right] at hn
  obtain ⟨n1, ⟨n2, n3, n4⟩, n5, n6⟩ := hn
  obtain ⟨d, f, l, t, p⟩ := link_spec (h.tree (a, la) (by simp)) (h.tree (b, lb) (by simp)) n5
  have hp : (allIds (((PairingHeap.link m a b).2, l) :: ts)).Perm ((a :: la.ids) ++ ((b :: lb.ids) ++ allIds ts)) := by
    rw [← List.append_assoc]
    exact p.append_right (allIds ts)
  refine ⟨d, fun j hj => ?_, l, ⟨fun e he => ?_, ?_⟩, hp⟩
  · rw [List.mem_append, List.mem_append, not_or, not_or] at hj
    exact f j hj.1 hj.2.1
  · rcases List.mem_cons.1 he with rfl | he
    · exact t
    · refine (h.tree e (by simp [he])).congr (fun j hj => ?_)
      have hj' : j ∈ allIds ts := List.mem_flatMap.2 ⟨e, he, hj⟩
      exact f j (fun h => n6 h hj') (fun h => n4 h hj')
  · rw [hp.nodup_iff, ← e1]; exact h.nodup

theorem pairUp_spec (m : Mem κ ν) (l p : List ℕ) (ts ps : List (ℕ × Forest)) (h1 : l = ts.map Prod.fst)
    (h2 : p = ps.map Prod.fst) (h : Trees m (ts ++ ps)) :
    SameData m (pairUp m l p).1 ∧ (∀ j, j ∉ allIds (ts ++ ps) → (pairUp m l p).1 j = m j) ∧
      ∃ ts' ps', (pairUp m l p).2.1 = ts'.map Prod.fst ∧ (pairUp m l p).2.2 = ps'.map Prod.fst ∧ ts'.length ≤ 1 ∧
        Trees (pairUp m l p).1 (ts' ++ ps') ∧ (allIds (ts' ++ ps')).Perm (allIds (ts ++ ps)) := by
  induction m, l, p using pairUp.induct generalizing ts ps with
  | case1 m a b l p ih =>
    obtain ⟨⟨a', la⟩, ts, rfl⟩ : ∃ x y, ts = x :: y := by
      cases ts with
      | nil => simp at h1
      | cons x y => exact ⟨x, y, rfl⟩
    obtain ⟨⟨b', lb⟩, ts, rfl⟩ : ∃ x y, ts = x :: y := by
      cases ts with
      | nil => simp at h1
      | cons x y => exact ⟨x, y, rfl⟩
    simp only [List.map_cons, List.cons.injEq] at h1
    obtain ⟨rfl, rfl, rfl⟩ := h1
    obtain ⟨d, f, c, t, pe⟩ := Trees.link (ts := ts ++ ps) h
    have hpm : (((PairingHeap.link m a b).2, c) :: (ts ++ ps)).Perm (ts ++ ((PairingHeap.link m a b).2, c) :: ps) :=
      List.perm_middle.symm
    obtain ⟨d', f', ts', ps', r1, r2, r3, r4, r5⟩ := ih ts (((PairingHeap.link m a b).2, c) :: ps) rfl (by rw [h2]; rfl)
      (t.perm hpm)
    have hall := (allIds_perm hpm).symm.trans pe
    rw [pairUp]
    refine ⟨d.trans d', fun j hj => ?_, ts', ps', r1, r2, r3, r4, r5.trans hall⟩
    rw [f' j (fun hc => hj (hall.mem_iff.1 hc)), f j hj]
  | case2 m l p hne =>
    have : pairUp m l p = (m, l, p) := by
      rw [pairUp.eq_def]
      split
      · exact absurd rfl (hne _ _ _)
      · rfl
    rw [this]
    refine ⟨SameData.refl m, fun j _ => rfl, ts, ps, h1, h2, ?_, h, List.Perm.refl _⟩
    match ts, h1 with
    | [], _ => simp
    | [a], _ => simp
    | a :: b :: ts, h1 => exact absurd h1 (hne a.1 b.1 (ts.map Prod.fst))

theorem linkAll_spec (m : Mem κ ν) (a : ℕ) (la : Forest) (ps : List (ℕ × Forest)) (h : Trees m ((a, la) :: ps)) :
    SameData m (linkAll m a (ps.map Prod.fst)).1 ∧
      (∀ j, j ∉ allIds ((a, la) :: ps) → (linkAll m a (ps.map Prod.fst)).1 j = m j) ∧
      ∃ l, IsTree (linkAll m a (ps.map Prod.fst)).1 (linkAll m a (ps.map Prod.fst)).2 l ∧
        ((linkAll m a (ps.map Prod.fst)).2 :: l.ids).Perm (allIds ((a, la) :: ps)) := by
  induction ps generalizing m a la with
  | nil =>
    refine ⟨SameData.refl m, fun j _ => rfl, la, h.tree (a, la) (by simp), ?_⟩
    simp [allIds, linkAll]
  | cons e ps ih =>
    obtain ⟨b, lb⟩ := e
    obtain ⟨d, f, l, t, pe⟩ := h.link
    obtain ⟨d', f', l', t', pe'⟩ := ih _ _ l t
    rw [List.map_cons, linkAll]
    refine ⟨d.trans d', fun j hj => ?_, l', t', pe'.trans pe⟩
    rw [f' j (fun hc => hj (pe.mem_iff.1 hc)), f j hj]

theorem collect_spec {k : κ} (t : Forest) (m : Mem κ ν) (p : ℕ) (o : Option ℕ) (arr : List ℕ) (h : Rep m p o t)
    (hp : p ∉ t.ids) (hn : t.ids.Nodup) (ho : Ordered m k t) :
    ∃ m', collect m o arr = some (.ok (m', ((roots t).map Prod.fst).reverse ++ arr)) ∧ SameData m m' ∧
      (∀ j, j ∉ t.ids → j ≠ p → m' j = m j) ∧ (m' p).leftChild = (m p).leftChild ∧ (t ≠ .nil → (m' p).nextSibling = none) ∧
      (t = .nil → m' = m) ∧ ∀ e ∈ roots t, IsTree m' e.1 e.2 := by
  induction t generalizing m p o arr with
  | nil =>
    rw [Rep] at h
    subst h
    rw [collect.eq_def]
    exact ⟨m, rfl, SameData.refl m, fun _ _ _ => rfl, rfl, fun h => absurd rfl h, fun _ => rfl, by simp [roots]⟩
  | node i l r _ ihr =>
    obtain ⟨h1, h2, h3, h4⟩ := h
    subst h1
    simp only [ids, List.mem_cons, List.mem_append, not_or] at hp
    obtain ⟨hpi, hpl, hpr⟩ := hp
    simp only [ids, List.nodup_cons, List.mem_append, not_or, List.nodup_append'] at hn
    obtain ⟨⟨hil, hir⟩, hnl, hnr, hdis⟩ := hn
    obtain ⟨o1, o2, o3⟩ := ho
    rw [collect.eq_def]
    simp only [h2]
    have e1 : ∀ j, j ≠ p → setNext m p none j = m j := fun j hj => setNext_ne hj
    have e1i : setNext m p none i = m i := e1 i (Ne.symm hpi)
    have dk : SameData m (setNext m p none) := sameData_setNext _ _ _
    obtain ⟨m', c1, c2, c3, c4, c5, c6, c7⟩ := ihr (setNext m p none) i (setNext m p none i).nextSibling (i :: arr)
      (by rw [e1i]; exact h4.congr' (fun j hj => e1 j (fun e => hpr (e ▸ hj)))) hir hnr
      (o3.congr (fun j _ => (dk j).1))
    have ei : (m' i).nextSibling = none := by
      by_cases hr : r = .nil
      · rw [c6 hr, e1i]
        rw [hr] at h4
        exact h4
      · exact c5 hr
    have ef : ∀ j, j ∉ r.ids → j ≠ i → j ≠ p → m' j = m j := fun j a b c => by rw [c3 j a b, e1 j c]
    have ep : m' p = { m p with nextSibling := none } := by rw [c3 p hpr hpi, setNext_eq]
    refine ⟨m', ?_, dk.trans c2, ?_, by simp only [ep], fun _ => by simp only [ep], fun h => absurd h (by simp), ?_⟩
    · rw [c1, roots]; simp
    · intro j hj hjp
      simp only [ids, List.mem_cons, List.mem_append, not_or] at hj
      exact ef j hj.2.2 hj.1 hjp
    · intro e he
      rw [roots] at he
      rcases List.mem_cons.1 he with rfl | he
      · refine ⟨ei, ?_, List.nodup_cons.2 ⟨hil, hnl⟩, ?_⟩
        · show Rep m' i (m' i).leftChild l
          rw [c4, e1i]
          exact h3.congr' (fun j hj => ef j (fun h => hdis hj h) (fun e => hil (e ▸ hj)) (fun e => hpl (e ▸ hj)))
        · show Ordered m' (m' i).key l
          rw [((dk.trans c2) i).1]
          exact o2.congr (fun j _ => ((dk.trans c2) j).1)
      · exact c7 e he

/-- The children of a deleted root become one tree. -/
theorem combineSiblings_spec {k : κ} {t : Forest} {m : Mem κ ν} {p c : ℕ} (h : Rep m p (some c) t) (hp : p ∉ t.ids)
    (hn : t.ids.Nodup) (ho : Ordered m k t) :
    ∃ m' c' l, combineSiblings m c = some (.ok (m', c')) ∧ SameData m m' ∧ IsTree m' c' l ∧ (c' :: l.ids).Perm t.ids := by
  rw [combineSiblings]
  split_ifs with h0
  · match t, h with
    | .node i l r, ⟨h1, h2, h3, h4⟩ =>
      cases h1
      rw [h0] at h4
      match r, h4 with
      | .nil, _ =>
        simp only [ids, List.append_nil] at hn
        exact ⟨m, c, l, rfl, SameData.refl m, ⟨h0, h3, hn, ho.2.1⟩, by simp [ids]⟩
      | .node j _ _, h4 => exact absurd h4.1 (by simp)
  · obtain ⟨m1, c1, c2, c3, -, -, -, c7⟩ := collect_spec (k := k) t m p (some c) [] h hp hn ho
    have hne : roots t ≠ [] := by
      match t, h with
      | .node i l r, _ => simp [roots]
    rw [c1]
    show ∃ m' c' l, (match pairUp m1 (((roots t).map Prod.fst).reverse ++ []) [] with
      | (m, last :: _, paired) => some (.ok (linkAll m last paired))
      | (m, [], last :: paired) => some (.ok (linkAll m last paired))
      | (_, [], []) => some (.error .indexError) : Option (Except PyErr (Mem κ ν × ℕ))) = _ ∧ _
    have hT : Trees m1 ((roots t).reverse ++ []) := by
      refine Trees.perm (ts := roots t) ⟨c7, by rw [allIds_roots]; exact hn⟩ ?_
      rw [List.append_nil]; exact (List.reverse_perm _).symm
    obtain ⟨d, -, ts', ps', r1, r2, r3, r4, r5⟩ := pairUp_spec m1 (((roots t).map Prod.fst).reverse ++ []) []
      (roots t).reverse [] (by simp) rfl hT
    have hall : (allIds (ts' ++ ps')).Perm t.ids := by
      refine r5.trans ?_
      rw [← allIds_roots t, List.append_nil]
      exact allIds_perm (List.reverse_perm _)
    rcases hq : pairUp m1 (((roots t).map Prod.fst).reverse ++ []) [] with ⟨m2, rest, paired⟩
    rw [hq] at d r1 r2 r4
    dsimp only at d r1 r2 r4
    match ts', r3 with
    | [(a, la)], _ =>
      simp only [List.map_cons, List.map_nil] at r1
      subst r1 r2
      obtain ⟨d', -, l', t', p'⟩ := linkAll_spec m2 a la ps' r4
      exact ⟨_, _, l', rfl, (c2.trans d).trans d', t', p'.trans hall⟩
    | [], _ =>
      simp only [List.map_nil] at r1
      match ps' with
      | [] =>
        exfalso
        have := hall.length_eq
        match t, hne with
        | .node i l r, _ => simp [ids, allIds] at this
      | (a, la) :: ps' =>
        simp only [List.map_cons] at r2
        subst r1 r2
        obtain ⟨d', -, l', t', p'⟩ := linkAll_spec m2 a la ps' r4
        exact ⟨_, _, l', rfl, (c2.trans d).trans d', t', p'.trans hall⟩

/-! ### Cutting a tree off -/

/-- heaps.py:316-325 with `p` the predecessor of the node `i`. -/
def cut (m : Mem κ ν) (i p : ℕ) : Mem κ ν :=
  let m := setPrev? m (m i).nextSibling (some p)
  let m := if (m p).leftChild = some i then setLeft m p (m i).nextSibling else setNext m p (m i).nextSibling
  setNext m i none

theorem sameData_cut (m : Mem κ ν) (i p : ℕ) : SameData m (cut m i p) := by
  rw [cut]
  refine (sameData_setPrev? m (m i).nextSibling (some p)).trans ?_
  split_ifs
  · exact (sameData_setLeft _ _ _).trans (sameData_setNext _ _ _)
  · exact (sameData_setNext _ _ _).trans (sameData_setNext _ _ _)

theorem prev_exists {m : Mem κ ν} {i q : ℕ} {o : Option ℕ} {t : Forest} (h : Rep m q o t) (hi : i ∈ t.ids) :
    ∃ p, (m i).prev = some p := by
  induction t generalizing q o with
  | nil => simp [ids] at hi
  | node j l r ihl ihr =>
    obtain ⟨h1, h2, h3, h4⟩ := h
    simp only [ids, List.mem_cons, List.mem_append] at hi
    rcases hi with rfl | hi | hi
    · exact ⟨q, h2⟩
    · exact ihl h3 hi
    · exact ihr h4 hi

/-- Removing the node `i` with its children from the forest `t`, which is reached from the node `q` as its children
(`left`) or as its next siblings. -/
theorem cut_spec {i p : ℕ} (t : Forest) (m : Mem κ ν) (q : ℕ) (left : Bool) (k : κ)
    (h : Rep m q (if left then (m q).leftChild else (m q).nextSibling) t)
    (hside : left = false → (m q).leftChild ≠ some i) (hq : q ∉ t.ids) (hn : t.ids.Nodup) (hi : i ∈ t.ids)
    (hp : (m i).prev = some p) (ho : Ordered m k t) :
    ∃ s t', t.ids.Perm ((i :: s.ids) ++ t'.ids) ∧ IsTree (cut m i p) i s ∧
      Rep (cut m i p) q (if left then (cut m i p q).leftChild else (cut m i p q).nextSibling) t' ∧
      Ordered (cut m i p) k t' ∧ (∀ j, j ∉ t.ids → j ≠ q → cut m i p j = m j) ∧
      (cut m i p q).prev = (m q).prev ∧ (left = true → (cut m i p q).nextSibling = (m q).nextSibling) ∧
      (left = false → (cut m i p q).leftChild = (m q).leftChild) := by
  have dc := sameData_cut m i p
  induction t generalizing q left k with
  | nil => simp [ids] at hi
  | node j l r ihl ihr =>
    obtain ⟨h1, h2, h3, h4⟩ := h
    simp only [ids, List.mem_cons, List.mem_append, not_or] at hq
    obtain ⟨hqj, hql, hqr⟩ := hq
    simp only [ids, List.nodup_cons, List.mem_append, not_or, List.nodup_append'] at hn
    obtain ⟨⟨hjl, hjr⟩, hnl, hnr, hdis⟩ := hn
    obtain ⟨o1, o2, o3⟩ := ho
    by_cases hji : j = i
    · subst hji
      have hpq : p = q := by rw [hp] at h2; exact Option.some.inj h2
      subst hpq
      set m1 := setPrev? m (m j).nextSibling (some p) with hm1
      have hh : ∀ x, (m j).nextSibling = some x → x ∈ r.ids := fun x => h4.head_mem
      have e1p : m1 p = m p := setPrev?_ne (fun e => hqr (hh p e))
      have e1j : m1 j = m j := setPrev?_ne (fun e => hjr (hh j e))
      have hc : cut m j p = setNext (if (m1 p).leftChild = some j then setLeft m1 p (m1 j).nextSibling
          else setNext m1 p (m1 j).nextSibling) j none := rfl
      set m2 := (if (m1 p).leftChild = some j then setLeft m1 p (m1 j).nextSibling else setNext m1 p (m1 j).nextSibling) with hm2
      have e2 : ∀ x, x ≠ p → m2 x = m1 x := by
        intro x hx
        rw [hm2]
        split_ifs
        · exact setLeft_ne hx
        · exact setNext_ne hx
      have ecp : cut m j p p = m2 p := by rw [hc]; exact setNext_ne hqj
      have ecj : cut m j p j = { m j with nextSibling := none } := by
        rw [hc, setNext_eq, e2 j (Ne.symm hqj), e1j]
      have ec : ∀ x, x ≠ p → x ≠ j → cut m j p x = m1 x := by
        intro x h1 h2
        rw [hc, setNext_ne h2, e2 x h1]
      have ecm : ∀ x, x ≠ p → x ≠ j → x ∉ r.ids → cut m j p x = m x := by
        intro x h1 h2 h3
        rw [ec x h1 h2, hm1, setPrev?_ne (fun e => h3 (hh x e))]
      have hslot : (if left then (cut m j p p).leftChild else (cut m j p p).nextSibling) = (m j).nextSibling ∧
          (cut m j p p).prev = (m p).prev ∧ (left = true → (cut m j p p).nextSibling = (m p).nextSibling) ∧
          (left = false → (cut m j p p).leftChild = (m p).leftChild) := by
        rw [ecp, hm2]
        cases left with
        | true =>
          simp only [if_true] at h1 ⊢
          rw [e1p, h1, if_pos rfl, setLeft_eq, e1p, e1j]
          exact ⟨rfl, rfl, fun _ => rfl, fun h => by simp at h⟩
        | false =>
          rw [e1p, if_neg (hside rfl), setNext_eq, e1p, e1j]
          exact ⟨rfl, rfl, fun h => by simp at h, fun _ => rfl⟩
      refine ⟨l, r, by rw [ids]; rfl, ⟨by rw [ecj], ?_, List.nodup_cons.2 ⟨hjl, hnl⟩, ?_⟩, ?_, ?_, ?_, hslot.2⟩
      · rw [ecj]
        exact h3.congr' (fun x hx => ecm x (fun e => hql (e ▸ hx)) (fun e => hjl (e ▸ hx)) (fun h => hdis hx h))
      · rw [(dc j).1]; exact o2.congr (fun x _ => (dc x).1)
      · rw [hslot.1]
        exact (h4.fix hnr p).congr' (fun x hx => ec x (fun e => hqr (e ▸ hx)) (fun e => hjr (e ▸ hx)))
      · exact o3.congr (fun x _ => (dc x).1)
      · intro x hx hxq
        simp only [ids, List.mem_cons, List.mem_append, not_or] at hx
        exact ecm x hxq hx.1 hx.2.2
    · simp only [ids, List.mem_cons, List.mem_append] at hi
      rcases hi with hi | hi | hi
      · exact absurd hi.symm hji
      · obtain ⟨s, t', a1, a2, a3, a4, a5, a6, a7, -⟩ := ihl j true (m j).key h3 (by simp) hjl hnl hi o2
        have eq : cut m i p q = m q := a5 q hql hqj
        refine ⟨s, .node j t' r, ?_, a2, ⟨?_, ?_, ?_, ?_⟩, ⟨?_, ?_, ?_⟩, ?_, by rw [eq], fun _ => by rw [eq], fun _ => by rw [eq]⟩
        · rw [ids, ids]
          have := (a1.append_right r.ids).cons j
          refine this.trans ?_
          rw [List.append_assoc]
          exact List.perm_middle.symm
        · rw [eq]; exact h1
        · rw [a6]; exact h2
        · exact a3
        · rw [a7 rfl]
          exact h4.congr' (fun x hx => a5 x (fun h => hdis h hx) (fun e => hjr (e ▸ hx)))
        · rw [(dc j).1]; exact o1
        · rw [(dc j).1]; exact a4
        · exact o3.congr (fun x _ => (dc x).1)
        · intro x hx hxq
          simp only [ids, List.mem_cons, List.mem_append, not_or] at hx
          exact a5 x hx.2.1 hx.1
      · obtain ⟨s, t', a1, a2, a3, a4, a5, a6, -, a8⟩ := ihr j false k h4
          (fun _ e => hdis (h3.head_mem e) hi) hjr hnr hi o3
        have eq : cut m i p q = m q := a5 q hqr hqj
        refine ⟨s, .node j l t', ?_, a2, ⟨?_, ?_, ?_, ?_⟩, ⟨?_, ?_, ?_⟩, ?_, by rw [eq], fun _ => by rw [eq], fun _ => by rw [eq]⟩
        · rw [ids, ids]
          have e1 := (a1.append_left l.ids).cons j
          refine e1.trans ?_
          have e2 : (l.ids ++ ((i :: s.ids) ++ t'.ids)).Perm ((i :: s.ids) ++ (l.ids ++ t'.ids)) := by
            rw [← List.append_assoc, ← List.append_assoc]
            exact List.perm_append_comm.append_right _
          exact (e2.cons j).trans List.perm_middle.symm
        · rw [eq]; exact h1
        · rw [a6]; exact h2
        · rw [a8 rfl]
          exact h3.congr' (fun x hx => a5 x (fun h => hdis hx h) (fun e => hjl (e ▸ hx)))
        · exact a3
        · rw [(dc j).1]; exact o1
        · rw [(dc j).1]; exact o2.congr (fun x _ => (dc x).1)
        · exact a4
        · intro x hx hxq
          simp only [ids, List.mem_cons, List.mem_append, not_or] at hx
          exact a5 x hx.2.2 hx.1

end Order

end Rosemary.PairingHeap
