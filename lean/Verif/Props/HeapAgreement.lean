import Verif.Props.LeftistHeap
import Verif.Props.PairingHeap

/-!
# Property C193: the two heaps give the same answers

The same sequence of insertions and `delete_min` is run with a `LeftistHeap` of keys and with a `PairingHeap` of keys and
values.
-/

namespace Rosemary.Props

variable {κ ν : Type} [LinearOrder κ] [DecidableEq ν] [Inhabited κ] [Inhabited ν]

/-- A step of a program: insert a key with a value, or `delete_min`. -/
inductive QueueStep (κ ν : Type)
  | push (k : κ) (v : ν)
  | pop

/-- The answers of a `LeftistHeap`, which holds the keys alone. -/
def runLeftist : List (QueueStep κ ν) → LeftistHeap.Heap κ → List (Option κ)
  | [], _ => []
  | .push k _ :: prog, h => runLeftist prog (h.insert k)
  | .pop :: prog, h => h.deleteMin.1 :: runLeftist prog h.deleteMin.2

/-- The answers of a `PairingHeap`; `none` if a call does not end. -/
def runPairing : List (QueueStep κ ν) → PairingHeap.Heap κ ν → Option (Except PyErr (List (Option (κ × ν))))
  | [], _ => some (.ok [])
  | .push k v :: prog, h => runPairing prog (PairingHeap.insert h k v)
  | .pop :: prog, h =>
    match PairingHeap.deleteMin h with
    | none => none
    | some (.error e) => some (.error e)
    | some (.ok (h', e)) =>
      match runPairing prog h' with
      | none => none
      | some (.error er) => some (.error er)
      | some (.ok out) => some (.ok (e :: out))

/-- The values inserted by a program. -/
def pushed : List (QueueStep κ ν) → List ν
  | [] => []
  | .push _ v :: prog => v :: pushed prog
  | .pop :: prog => pushed prog

theorem keys_filter {l : List (κ × ν)} (hn : (l.map Prod.snd).Nodup) {k : κ} {v : ν} (h : (k, v) ∈ l) :
    ((l.filter fun e => e.2 ≠ v).map Prod.fst).Perm ((l.map Prod.fst).erase k) := by
  induction l with
  | nil => cases h
  | cons e l ih =>
    rw [List.map_cons, List.nodup_cons] at hn
    by_cases he : e.2 = v
    · have hk : e = (k, v) := by
        rcases List.mem_cons.1 h with h | h
        · exact h.symm
        · exact absurd (List.mem_map.2 ⟨(k, v), h, he.symm⟩) hn.1
      subst hk
      rw [List.filter_cons_of_neg (by simp), List.map_cons, List.erase_cons_head, List.filter_eq_self.2]
      intro f hf
      simp only [ne_eq, decide_eq_true_eq]
      intro hc
      exact hn.1 (List.mem_map.2 ⟨f, hf, hc⟩)
    · have h' : (k, v) ∈ l := by
        rcases List.mem_cons.1 h with h | h
        · exact absurd (by rw [← h]) he
        · exact h
      rw [List.filter_cons_of_pos (by simpa using he), List.map_cons, List.map_cons]
      have ih := ih hn.2 h'
      by_cases hke : e.1 = k
      · rw [hke, List.erase_cons_head]
        have hk : k ∈ l.map Prod.fst := List.mem_map.2 ⟨(k, v), h', rfl⟩
        exact (ih.cons k).trans (List.perm_cons_erase hk).symm
      · rw [List.erase_cons_tail (by simpa using hke)]
        exact ih.cons _

theorem run_agree (prog : List (QueueStep κ ν)) (H : LeftistHeap.History κ) (hp : H.proper) (h : LeftistHeap.Heap κ) (hH : H.exec = .ok h)
    (p : PairingHeap.Heap κ ν) (hr : Reachable p) (hperm : H.content.Perm ((PairingHeap.listElements p).map Prod.fst))
    (hv : ((PairingHeap.listElements p).map Prod.snd ++ pushed prog).Nodup) :
    ∃ out, runPairing prog p = some (.ok out) ∧ out.map (Option.map Prod.fst) = runLeftist prog h := by
  induction prog generalizing H h p with
  | nil => exact ⟨[], rfl, rfl⟩
  | cons s prog ih =>
    cases s with
    | push k v =>
      rw [pushed] at hv
      have hfresh : v ∉ (PairingHeap.listElements p).map Prod.snd := fun hc =>
        (List.nodup_append.1 hv).2.2 v hc v List.mem_cons_self rfl
      have hins := C44_insert p hr k v hfresh
      refine ih (.insert H k) hp _ (by unfold LeftistHeap.History.exec; rw [hH]) _ (.insert p k v hr hfresh) ?_ ?_
      · rw [hins, List.map_append]
        exact (hperm.cons k).trans (List.perm_append_singleton k _).symm
      · rw [hins, List.map_append, List.append_assoc]
        exact hv
    | pop =>
      rw [pushed] at hv
      obtain ⟨h', e1, -, e3, e4, -⟩ := C43_leftist_heap_partial H hp
      rw [hH] at e1
      injection e1 with e1
      subst e1
      have hnext : (LeftistHeap.History.deleteMin H).exec = .ok h.deleteMin.2 := by unfold LeftistHeap.History.exec; rw [hH]
      rcases C44_delete_min p hr with ⟨p1, p2⟩ | ⟨p', k, v, p1, p2, p3, p4⟩
      · have hc : H.content = [] := by rw [p1] at hperm; exact hperm.eq_nil
        have hd := (e3 hc).2
        obtain ⟨out, o1, o2⟩ := ih (.deleteMin H) hp _ hnext p hr (by
          rw [LeftistHeap.History.content, hc, p1]; exact List.Perm.refl _) hv
        refine ⟨none :: out, by rw [runPairing, p2]; simp only [o1], ?_⟩
        rw [runLeftist, List.map_cons, o2, hd]
        rfl
      · have hne : H.content ≠ [] := by
          intro hc
          rw [hc] at hperm
          have := hperm.symm.eq_nil
          rw [List.map_eq_nil_iff] at this
          rw [this] at p2
          cases p2
        obtain ⟨w, g, -, hd, hw, hmin⟩ := e4 hne
        have hkw : k = w := by
          refine le_antisymm ?_ (hmin k (hperm.mem_iff.2 (List.mem_map.2 ⟨_, p2, rfl⟩)))
          obtain ⟨e, he, hew⟩ := List.mem_map.1 (hperm.mem_iff.1 hw)
          rw [← hew]
          exact p3 e he
        subst hkw
        have hmin? : H.content.min? = some k := List.min?_eq_some_iff.2 ⟨hw, fun b hb => hmin b hb⟩
        obtain ⟨hv1, hv2, hv3⟩ := List.nodup_append.1 hv
        have hsub : ((PairingHeap.listElements p').map Prod.snd).Sublist ((PairingHeap.listElements p).map Prod.snd) := by
          rw [p4]; exact List.Sublist.map _ List.filter_sublist
        obtain ⟨out, o1, o2⟩ := ih (.deleteMin H) hp _ hnext p' (.deleteMin p p' _ hr p1) (by
          rw [LeftistHeap.History.content, hmin?, p4]
          exact (hperm.erase k).trans (keys_filter hv1 p2).symm)
          (List.nodup_append.2 ⟨hv1.sublist hsub, hv2, fun a ha b hb => hv3 a (hsub.subset ha) b hb⟩)
        refine ⟨some (k, v) :: out, by rw [runPairing, p1]; simp only [o1], ?_⟩
        rw [runLeftist, List.map_cons, o2, hd]
        rfl

/-- C193: started with the same two or more keys, the heaps return the same keys for every sequence of insertions and
`delete_min` (with different values in the pairing heap), also when they run empty. -/
theorem C193_same_answers (start : List (κ × ν)) (h2 : 2 ≤ start.length) (prog : List (QueueStep κ ν))
    (hv : (start.map Prod.snd ++ pushed prog).Nodup) : ∃ h out, LeftistHeap.init (start.map Prod.fst) = .ok h ∧
    runPairing prog (PairingHeap.insertValues PairingHeap.new start) = some (.ok out) ∧
    out.map (Option.map Prod.fst) = runLeftist prog h := by
  have hp : (LeftistHeap.History.new (start.map Prod.fst)).proper := by
    rw [LeftistHeap.History.proper, List.length_map]; exact h2
  obtain ⟨h, e1, -⟩ := C43_leftist_heap_partial _ hp
  obtain ⟨r1, r2⟩ := C44_insert_values (PairingHeap.new : PairingHeap.Heap κ ν) .new start (by
    rw [show PairingHeap.listElements (PairingHeap.new : PairingHeap.Heap κ ν) = [] from rfl, List.nil_append]
    exact (List.nodup_append.1 hv).1)
  rw [show PairingHeap.listElements (PairingHeap.new : PairingHeap.Heap κ ν) = [] from rfl, List.nil_append] at r2
  obtain ⟨out, o1, o2⟩ := run_agree prog _ hp h e1 _ r1 (by rw [r2]; exact List.Perm.refl _) (by rw [r2]; exact hv)
  exact ⟨h, out, e1, o1, o2⟩

theorem runLeftist_pops (n : ℕ) (h : LeftistHeap.Heap κ) :
    runLeftist (List.replicate n (QueueStep.pop : QueueStep κ ν)) h = (LeftistHeap.iterLoop n h).1 := by
  induction n generalizing h with
  | zero => rfl
  | succ n ih =>
    rw [List.replicate_succ, runLeftist, ih]
    rfl

/-- C193: emptied by `delete_min`, or by iteration in the case of the leftist heap, both return the keys in increasing order. -/
theorem C193_sorted (start : List (κ × ν)) (h2 : 2 ≤ start.length) (hv : (start.map Prod.snd).Nodup) :
    ∃ h g out, ∃ sorted : List κ, LeftistHeap.init (start.map Prod.fst) = .ok h ∧
    runPairing (List.replicate start.length .pop) (PairingHeap.insertValues PairingHeap.new start) = some (.ok out) ∧
    sorted.Perm (start.map Prod.fst) ∧ sorted.Pairwise (· ≤ ·) ∧
    h.iter = (sorted.map some, g) ∧ out.map (Option.map Prod.fst) = sorted.map some := by
  have hpu : ∀ n, pushed (List.replicate n (QueueStep.pop : QueueStep κ ν)) = [] := fun n => by
    induction n with
    | zero => rfl
    | succ n ih => rw [List.replicate_succ, pushed, ih]
  obtain ⟨h, out, e1, e2, e3⟩ := C193_same_answers start h2 (List.replicate start.length .pop) (by rw [hpu, List.append_nil]; exact hv)
  obtain ⟨h', f1, f2, -, -, sorted, g, f3, f4, f5⟩ := C43_leftist_heap_partial (LeftistHeap.History.new (start.map Prod.fst)) (by
    rw [LeftistHeap.History.proper, List.length_map]; exact h2)
  rw [LeftistHeap.History.exec, e1] at f1
  injection f1 with f1
  subst f1
  refine ⟨h, g, out, sorted, e1, e2, f4, f5, f3, ?_⟩
  rw [e3, runLeftist_pops]
  rw [LeftistHeap.Heap.iter, f2, LeftistHeap.History.content, List.length_map] at f3
  rw [f3]

/-- Three keys, one more inserted after the first `delete_min`, and one `delete_min` too many. -/
example : (LeftistHeap.init [5, 3, (4 : ℤ)]).map (runLeftist [QueueStep.pop, .push 1 (9 : ℕ), .pop, .pop, .pop, .pop]) =
    .ok [some 3, some 1, some 4, some 5, none] := by decide +kernel

/-- The pairing heap with the same keys. -/
example : ∃ out, runPairing [QueueStep.pop, .push (1 : ℤ) (9 : ℕ), .pop, .pop, .pop, .pop]
    (PairingHeap.insertValues PairingHeap.new [(5, 0), (3, 1), (4, 2)]) = some (.ok out) ∧
    out.map (Option.map Prod.fst) = [some 3, some 1, some 4, some 5, none] := by
  obtain ⟨h, out, h1, h2, h3⟩ := C193_same_answers [((5 : ℤ), 0), (3, 1), (4, 2)] (by decide)
    [QueueStep.pop, .push (1 : ℤ) (9 : ℕ), .pop, .pop, .pop, .pop] (by decide)
  refine ⟨out, h2, h3.trans ?_⟩
  have : (LeftistHeap.init [5, 3, (4 : ℤ)]).map (runLeftist [QueueStep.pop, .push 1 (9 : ℕ), .pop, .pop, .pop, .pop]) =
    .ok [some 3, some 1, some 4, some 5, none] := by decide +kernel
  rw [show LeftistHeap.init [5, 3, (4 : ℤ)] = .ok h from h1] at this
  injection this

end Rosemary.Props
