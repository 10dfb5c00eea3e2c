import Verif.Lemmas.PairingHeap

/-!
# The operations of a pairing heap
-/

namespace Rosemary.PairingHeap

open Forest

variable {κ ν : Type} [LinearOrder κ] [DecidableEq ν]

omit [LinearOrder κ] [DecidableEq ν] in
theorem setKey_ptr (m : Mem κ ν) (i : ℕ) (k : κ) (j : ℕ) : SamePtr (setKey m i k j) (m j) := by
  by_cases h : j = i
  · subst h; rw [setKey_eq]; exact ⟨rfl, rfl, rfl⟩
  · rw [setKey_ne h]; exact ⟨rfl, rfl, rfl⟩

omit [LinearOrder κ] [DecidableEq ν] in
theorem setNext_setKey (m : Mem κ ν) (i j : ℕ) (k : κ) (o : Option ℕ) :
    setNext (setKey m i k) j o = setKey (setNext m j o) i k := by
  funext x
  simp only [setNext, setKey]
  by_cases hij : j = i
  · subst hij
    by_cases hx : x = j
    · subst hx; simp only [Function.update_self]
    · simp only [Function.update_of_ne hx]
  · have hji : i ≠ j := fun e => hij e.symm
    by_cases hx : x = j
    · subst hx; simp only [Function.update_self, Function.update_of_ne hij]
    · by_cases hx' : x = i
      · subst hx'; simp only [Function.update_self, Function.update_of_ne hji]
      · simp only [Function.update_of_ne hx, Function.update_of_ne hx']

omit [LinearOrder κ] [DecidableEq ν] in
theorem setLeft_setKey (m : Mem κ ν) (i j : ℕ) (k : κ) (o : Option ℕ) :
    setLeft (setKey m i k) j o = setKey (setLeft m j o) i k := by
  funext x
  simp only [setLeft, setKey]
  by_cases hij : j = i
  · subst hij
    by_cases hx : x = j
    · subst hx; simp only [Function.update_self]
    · simp only [Function.update_of_ne hx]
  · have hji : i ≠ j := fun e => hij e.symm
    by_cases hx : x = j
    · subst hx; simp only [Function.update_self, Function.update_of_ne hij]
    · by_cases hx' : x = i
      · subst hx'; simp only [Function.update_self, Function.update_of_ne hji]
      · simp only [Function.update_of_ne hx, Function.update_of_ne hx']

omit [LinearOrder κ] [DecidableEq ν] in
theorem setPrev?_setKey (m : Mem κ ν) (i : ℕ) (c : Option ℕ) (k : κ) (o : Option ℕ) :
    setPrev? (setKey m i k) c o = setKey (setPrev? m c o) i k := by
  cases c with
  | none => rfl
  | some j =>
    funext x
    simp only [setPrev?, setPrev, setKey]
    by_cases hij : j = i
    · subst hij
      by_cases hx : x = j
      · subst hx; simp only [Function.update_self]
      · simp only [Function.update_of_ne hx]
    · have hji : i ≠ j := fun e => hij e.symm
      by_cases hx : x = j
      · subst hx; simp only [Function.update_self, Function.update_of_ne hij]
      · by_cases hx' : x = i
        · subst hx'; simp only [Function.update_self, Function.update_of_ne hji]
        · simp only [Function.update_of_ne hx, Function.update_of_ne hx']

omit [LinearOrder κ] [DecidableEq ν] in
theorem cut_setKey (m : Mem κ ν) (i p : ℕ) (k : κ) : cut (setKey m i k) i p = setKey (cut m i p) i k := by
  rw [cut, cut]
  rw [(setKey_ptr m i k i).1, setPrev?_setKey, (setKey_ptr _ i k p).2.1, (setKey_ptr _ i k i).1]
  split_ifs
  · rw [setLeft_setKey, setNext_setKey]
  · rw [setNext_setKey, setNext_setKey]

omit [LinearOrder κ] [DecidableEq ν] in
theorem next_ne {m : Mem κ ν} {i q : ℕ} {o : Option ℕ} {t : Forest} (h : Rep m q o t) (hn : t.ids.Nodup) (hi : i ∈ t.ids) :
    (m i).nextSibling ≠ some i := by
  induction t generalizing q o with
  | nil => simp [ids] at hi
  | node j l r ihl ihr =>
    obtain ⟨h1, h2, h3, h4⟩ := h
    simp only [ids, List.nodup_cons, List.mem_append, not_or, List.nodup_append'] at hn
    simp only [ids, List.mem_cons, List.mem_append] at hi
    rcases hi with rfl | hi | hi
    · intro e; exact hn.1.2 (h4.head_mem e)
    · exact ihl h3 hn.2.1 hi
    · exact ihr h4 hn.2.2.1 hi

/-- The invariant of a heap. -/
structure Inv (h : Heap κ ν) : Prop where
  wf : Dict.WF h.lookup
  vals : ∀ e ∈ h.lookup, (h.mem e.2).value = e.1
  lt : ∀ e ∈ h.lookup, e.2 < h.size
  tree : (h.root = none ∧ h.lookup = []) ∨
    ∃ r l, h.root = some r ∧ IsTree h.mem r l ∧ (h.lookup.map Prod.snd).Perm (r :: l.ids)

theorem set_of_not_mem {β : Type} {d : Dict ν β} {k : ν} {v : β} (h : k ∉ Dict.keys d) : Dict.set d k v = d ++ [(k, v)] := by
  induction d with
  | nil => rfl
  | cons e d ih =>
    obtain ⟨a, b⟩ := e
    simp only [Dict.keys, List.map_cons, List.mem_cons, not_or] at h
    rw [Dict.set, if_neg (fun e => h.1 e.symm), ih h.2]; rfl

theorem erase_eq_filter {β : Type} {d : Dict ν β} (h : Dict.WF d) (k : ν) : Dict.erase d k = d.filter (fun e => e.1 ≠ k) := by
  induction d with
  | nil => rfl
  | cons e d ih =>
    obtain ⟨a, b⟩ := e
    rw [Dict.WF, Dict.keys, List.map_cons, List.nodup_cons] at h
    rw [Dict.erase]
    by_cases hk : a = k
    · subst hk
      rw [if_pos rfl, List.filter_cons_of_neg (by simp), List.filter_eq_self.2]
      intro e he
      have : e.1 ≠ a := fun e' => h.1 (List.mem_map.2 ⟨e, he, e'⟩)
      simpa using this
    · rw [if_neg hk, ih h.2, List.filter_cons_of_pos (by simpa using hk)]

theorem values_eq (h : Heap κ ν) : (listElements h).map Prod.snd = Dict.keys h.lookup := by
  rw [listElements, List.map_map, Dict.keys]; rfl

theorem inv_new [Inhabited κ] [Inhabited ν] : Inv (new : Heap κ ν) :=
  ⟨by simp [Dict.WF, new, Dict.keys], by simp [new], by simp [new], Or.inl ⟨rfl, rfl⟩⟩

theorem insert_spec {h : Heap κ ν} (hI : Inv h) (k : κ) (v : ν) (hv : v ∉ Dict.keys h.lookup) :
    Inv (insert h k v) ∧ listElements (insert h k v) = listElements h ++ [(k, v)] := by
  set m := Function.update h.mem h.size ⟨k, v, none, none, none⟩ with hm
  have hms : m h.size = ⟨k, v, none, none, none⟩ := Function.update_self _ _ _
  have hmn : ∀ j, j ≠ h.size → m j = h.mem j := fun j hj => Function.update_of_ne hj _ _
  have hnew : IsTree m h.size .nil := ⟨by rw [hms], by rw [hms]; rfl, by simp [ids], trivial⟩
  -- what the result has in common with `m`
  have key : ∀ m' root, SameData m m' → ((∃ r l, root = some r ∧ IsTree m' r l ∧
        ((h.lookup ++ [(v, h.size)]).map Prod.snd).Perm (r :: l.ids))) →
      insert h k v = ⟨m', h.size + 1, root, Dict.set h.lookup v h.size⟩ →
      Inv (insert h k v) ∧ listElements (insert h k v) = listElements h ++ [(k, v)] := by
    intro m' root hd ht he
    rw [he]
    have hl := set_of_not_mem (v := h.size) hv
    refine ⟨⟨hI.wf.set _ _, ?_, ?_, Or.inr ?_⟩, ?_⟩
    · intro e he'
      dsimp only at he' ⊢
      rw [hl, List.mem_append] at he'
      rw [(hd e.2).2]
      rcases he' with he' | he'
      · rw [hmn _ (Nat.ne_of_lt (hI.lt e he'))]; exact hI.vals e he'
      · rw [List.mem_singleton] at he'
        rw [he', hms]
    · intro e he'
      dsimp only at he' ⊢
      rw [hl, List.mem_append] at he'
      rcases he' with he' | he'
      · exact Nat.lt_succ_of_lt (hI.lt e he')
      · rw [List.mem_singleton] at he'
        rw [he']; exact Nat.lt_succ_self _
    · dsimp only; rw [hl]; exact ht
    · rw [listElements, listElements]
      dsimp only
      rw [hl, List.map_append]
      congr 1
      · refine List.map_congr_left (fun e he' => ?_)
        rw [(hd e.2).1, hmn _ (Nat.ne_of_lt (hI.lt e he'))]
      · simp [(hd h.size).1, hms]
  rcases hI.tree with ⟨t1, t2⟩ | ⟨r, l, t1, t2, t3⟩
  · refine key m (some h.size) (SameData.refl m) ⟨h.size, .nil, rfl, hnew, ?_⟩ (by rw [insert, t1])
    rw [t2]; simp [ids]
  · have hlt : ∀ j ∈ r :: l.ids, j ≠ h.size := by
      intro j hj
      obtain ⟨e, he, rfl⟩ := List.mem_map.1 (t3.mem_iff.2 hj)
      exact Nat.ne_of_lt (hI.lt e he)
    obtain ⟨d, -, l', a1, a2⟩ := link_spec (t2.congr (fun j hj => hmn j (hlt j hj))) hnew (by
      intro j h1 h2
      simp only [ids, List.mem_singleton] at h2
      exact hlt j h1 h2)
    refine key _ _ d ⟨_, l', rfl, a1, ?_⟩ (by rw [insert, t1]; rfl)
    rw [List.map_append]
    exact (t3.append_right _).trans a2.symm

theorem deleteMin_spec {h : Heap κ ν} (hI : Inv h) :
    (listElements h = [] ∧ deleteMin h = some (.ok (h, none))) ∨
    ∃ h' k v, deleteMin h = some (.ok (h', some (k, v))) ∧ Inv h' ∧ (k, v) ∈ listElements h ∧
      (∀ e ∈ listElements h, k ≤ e.1) ∧ listElements h' = (listElements h).filter (fun e => e.2 ≠ v) := by
  rcases hI.tree with ⟨t1, t2⟩ | ⟨r, l, t1, t2, t3⟩
  · left
    rw [listElements, t2, deleteMin, t1]
    exact ⟨rfl, rfl⟩
  · right
    obtain ⟨e0, he0, her⟩ := List.mem_map.1 (t3.mem_iff.2 (List.mem_cons_self (a := r) (l := l.ids)))
    have hv0 : e0.1 = (h.mem r).value := by rw [← her]; exact (hI.vals e0 he0).symm
    have hmem : ((h.mem r).key, (h.mem r).value) ∈ listElements h :=
      List.mem_map.2 ⟨e0, he0, by rw [her, hv0]⟩
    have hmin : ∀ e ∈ listElements h, (h.mem r).key ≤ e.1 := by
      intro e he
      obtain ⟨f, hf, rfl⟩ := List.mem_map.1 he
      have : f.2 ∈ r :: l.ids := t3.mem_iff.1 (List.mem_map_of_mem hf)
      rcases List.mem_cons.1 this with e | hl
      · rw [e]
      · exact t2.ord.le _ hl
    have hkey : (h.mem r).value ∈ Dict.keys h.lookup := by
      rw [← hv0]; exact List.mem_map_of_mem he0
    -- the ids that are left
    have hleft : ((h.lookup.filter (fun e => e.1 ≠ (h.mem r).value)).map Prod.snd).Perm l.ids := by
      have hp : h.lookup.Perm ((e0 :: h.lookup.filter (fun e => e.1 ≠ (h.mem r).value))) := by
        rw [List.perm_ext_iff_of_nodup hI.wf.of_map (by
          refine List.nodup_cons.2 ⟨?_, hI.wf.of_map.filter _⟩
          simp [hv0])]
        intro e
        rw [List.mem_cons, List.mem_filter]
        constructor
        · intro he
          by_cases hc : e.1 = (h.mem r).value
          · left
            exact List.inj_on_of_nodup_map hI.wf he he0 (hc.trans hv0.symm)
          · right; exact ⟨he, by simpa using hc⟩
        · rintro (rfl | he)
          · exact he0
          · exact he.1
      have := (hp.map Prod.snd).symm.trans t3
      rw [List.map_cons, her] at this
      exact this.cons_inv
    -- the rest of the work, for the memory and the root that result
    have fin : ∀ m' root, SameData h.mem m' →
        ((root = none ∧ l.ids = []) ∨ ∃ c s, root = some c ∧ IsTree m' c s ∧ (c :: s.ids).Perm l.ids) →
        (deleteMin h = if (m' r).value ∈ Dict.keys h.lookup then
          some (.ok (⟨m', h.size, root, Dict.erase h.lookup (m' r).value⟩, some ((m' r).key, (m' r).value)))
          else some (.error .keyError)) →
        ∃ h' k v, deleteMin h = some (.ok (h', some (k, v))) ∧ Inv h' ∧ (k, v) ∈ listElements h ∧
          (∀ e ∈ listElements h, k ≤ e.1) ∧ listElements h' = (listElements h).filter (fun e => e.2 ≠ v) := by
      intro m' root hd ht he
      rw [(hd r).1, (hd r).2, if_pos hkey] at he
      refine ⟨_, _, _, he, ⟨?_, ?_, ?_, ?_⟩, hmem, hmin, ?_⟩
      · exact hI.wf.erase _
      · intro e he
        dsimp only at he ⊢
        rw [erase_eq_filter hI.wf, List.mem_filter] at he
        rw [(hd e.2).2]; exact hI.vals e he.1
      · intro e he
        dsimp only at he ⊢
        rw [erase_eq_filter hI.wf, List.mem_filter] at he
        exact hI.lt e he.1
      · dsimp only
        rw [erase_eq_filter hI.wf]
        rcases ht with ⟨h1, h2⟩ | ⟨c, s, h1, h2, h3⟩
        · left
          refine ⟨h1, ?_⟩
          rw [h2] at hleft
          exact List.map_eq_nil_iff.1 (List.perm_nil.1 hleft)
        · right
          exact ⟨c, s, h1, h2, hleft.trans h3.symm⟩
      · rw [listElements, listElements]
        dsimp only
        rw [erase_eq_filter hI.wf, List.filter_map]
        have : ((fun e : κ × ν => decide (e.2 ≠ (h.mem r).value)) ∘ fun e : ν × ℕ => ((h.mem e.2).key, e.1)) =
            fun e : ν × ℕ => decide (e.1 ≠ (h.mem r).value) := rfl
        rw [this]
        refine List.map_congr_left (fun e _ => ?_)
        rw [(hd e.2).1]
    rcases hc : (h.mem r).leftChild with - | c
    · have hrep := t2.rep
      rw [hc] at hrep
      refine fin h.mem none (SameData.refl _) (Or.inl ⟨rfl, ?_⟩) ?_
      · match l, hrep with
        | .nil, _ => rfl
        | .node _ _ _, hr => exact absurd hr.1 (by simp)
      · rw [deleteMin, t1]
        dsimp only
        rw [hc]
        rfl
    · have hrep := t2.rep
      rw [hc] at hrep
      have hn := List.nodup_cons.1 t2.nodup
      obtain ⟨m', c', s, a1, a2, a3, a4⟩ := combineSiblings_spec hrep hn.1 hn.2 t2.ord
      refine fin m' (some c') a2 (Or.inr ⟨c', s, rfl, a3, a4⟩) ?_
      rw [deleteMin, t1]
      dsimp only
      rw [hc]
      dsimp only
      rw [a1]
      rfl

theorem decreaseKey_spec {h : Heap κ ν} (hI : Inv h) (v : ν) (k k0 : κ) (hv : (k0, v) ∈ listElements h) (hk : k ≤ k0) :
    ∃ h', decreaseKey h v k = .ok h' ∧ Inv h' ∧
      listElements h' = (listElements h).map (fun e => if e.2 = v then (k, v) else e) := by
  obtain ⟨⟨v', i⟩, hei, hev⟩ := List.mem_map.1 hv
  simp only [Prod.mk.injEq] at hev
  obtain ⟨hk0, rfl⟩ := hev
  have hget := Dict.get?_of_mem hI.wf hei
  set m := setKey h.mem i k with hm
  have hmi : m i = { h.mem i with key := k } := setKey_eq _ _ _
  have hmn : ∀ j, j ≠ i → m j = h.mem j := fun j hj => setKey_ne hj
  have hptr : ∀ j, SamePtr (m j) (h.mem j) := by
    intro j
    by_cases hj : j = i
    · subst hj; rw [hmi]; exact ⟨rfl, rfl, rfl⟩
    · rw [hmn j hj]; exact ⟨rfl, rfl, rfl⟩
  have hval : ∀ j, (m j).value = (h.mem j).value := by
    intro j
    by_cases hj : j = i
    · subst hj; rw [hmi]
    · rw [hmn j hj]
  rcases hI.tree with ⟨-, t2⟩ | ⟨r, l, t1, t2, t3⟩
  · rw [t2] at hei; simp at hei
  have hnd : (h.lookup.map Prod.snd).Nodup := t3.nodup_iff.2 t2.nodup
  have fin : ∀ m' root, SameData m m' →
      (∃ c s, root = some c ∧ IsTree m' c s ∧ (c :: s.ids).Perm (r :: l.ids)) →
      decreaseKey h v' k = .ok ⟨m', h.size, root, h.lookup⟩ →
      ∃ h', decreaseKey h v' k = .ok h' ∧ Inv h' ∧
        listElements h' = (listElements h).map (fun e => if e.2 = v' then (k, v') else e) := by
    intro m' root hd ht he
    refine ⟨_, he, ⟨hI.wf, fun e he' => ?_, hI.lt, Or.inr ?_⟩, ?_⟩
    · dsimp only; rw [(hd e.2).2, hval]; exact hI.vals e he'
    · obtain ⟨c, s, h1, h2, h3⟩ := ht
      exact ⟨c, s, h1, h2, t3.trans h3.symm⟩
    · rw [listElements, listElements, List.map_map]
      refine List.map_congr_left (fun e he' => ?_)
      simp only [Function.comp]
      rw [(hd e.2).1]
      by_cases hc : e.1 = v'
      · have : e = (v', i) := List.inj_on_of_nodup_map hI.wf he' hei hc
        rw [if_pos hc, this, hmi]
      · have : e.2 ≠ i := fun h2 => hc (congrArg Prod.fst (List.inj_on_of_nodup_map hnd he' hei h2))
        rw [if_neg hc, hmn _ this]
  by_cases hir : i = r
  · subst hir
    refine fin m (some i) (SameData.refl m) ⟨i, l, rfl, ⟨?_, ?_, t2.nodup, ?_⟩, List.Perm.refl _⟩ ?_
    · rw [(hptr i).1]; exact t2.next
    · rw [(hptr i).2.1]; exact t2.rep.congr (fun j _ => hptr j)
    · have : Ordered h.mem k l := t2.ord.mono (by rw [hk0]; exact hk)
      rw [hmi]
      exact this.congr (fun j hj => by rw [hmn j (fun e => (List.nodup_cons.1 t2.nodup).1 (e ▸ hj))])
    · rw [decreaseKey, hget]
      dsimp only
      rw [if_neg (by rw [t1]; simp), ← hm, ← t1]
  · have hil : i ∈ l.ids := by
      have : i ∈ r :: l.ids := t3.mem_iff.1 (List.mem_map.2 ⟨_, hei, rfl⟩)
      rcases List.mem_cons.1 this with e | e
      · exact absurd e hir
      · exact e
    obtain ⟨hrl, hnl⟩ := List.nodup_cons.1 t2.nodup
    obtain ⟨p, hp⟩ := prev_exists t2.rep hil
    -- cut with the old key, which keeps the order
    obtain ⟨s, t', a1, a2, a3, a4, a5, -, a7, -⟩ := cut_spec l h.mem r true (h.mem r).key (by simpa using t2.rep) (by simp)
      hrl hnl hil hp t2.ord
    simp only [if_true] at a3
    have dc := sameData_cut h.mem i p
    -- the key does not matter for the pointers
    have hcut : cut m i p = setKey (cut h.mem i p) i k := by
      rw [hm, cut_setKey]
    set c := cut m i p with hcdef
    have hci : c i = { cut h.mem i p i with key := k } := by rw [hcut, setKey_eq]
    have hcn : ∀ j, j ≠ i → c j = cut h.mem i p j := fun j hj => by rw [hcut, setKey_ne hj]
    have hcp : ∀ j, SamePtr (c j) (cut h.mem i p j) := by
      intro j
      by_cases hj : j = i
      · subst hj; rw [hci]; exact ⟨rfl, rfl, rfl⟩
      · rw [hcn j hj]; exact ⟨rfl, rfl, rfl⟩
    have hnod : ((i :: s.ids) ++ t'.ids).Nodup := a1.nodup_iff.1 hnl
    rw [List.nodup_append'] at hnod
    obtain ⟨n1, n2, n3⟩ := hnod
    have his : i ∉ s.ids := (List.nodup_cons.1 n1).1
    have hit : i ∉ t'.ids := fun h => n3 (a := i) (by simp) h
    have hrt : r ∉ t'.ids := fun hc => hrl (a1.mem_iff.2 (by simp [hc]))
    have hrs : r ∉ i :: s.ids := fun hc => hrl (a1.mem_iff.2 (List.mem_append_left _ hc))
    have T1 : IsTree c i s := by
      refine ⟨by rw [(hcp i).1]; exact a2.next, by rw [(hcp i).2.1]; exact a2.rep.congr (fun j _ => hcp j), n1, ?_⟩
      have : Ordered (cut h.mem i p) k s := a2.ord.mono (by rw [(dc i).1, hk0]; exact hk)
      rw [hci]
      exact this.congr (fun j hj => by rw [hcn j (fun e => his (e ▸ hj))])
    have T2 : IsTree c r t' := by
      have hri : r ≠ i := fun e => hir e.symm
      refine ⟨by rw [hcn r hri, a7 rfl]; exact t2.next, by rw [hcn r hri]; exact a3.congr (fun j _ => hcp j),
        List.nodup_cons.2 ⟨hrt, n2⟩, ?_⟩
      rw [hcn r hri, (dc r).1]
      exact a4.congr (fun j hj => by rw [hcn j (fun e => hit (e ▸ hj))])
    obtain ⟨d, -, l', b1, b2⟩ := link_spec T2 T1 (by
      intro j h1 h2
      rcases List.mem_cons.1 h1 with rfl | h1
      · exact hrs h2
      · exact n3 h2 h1)
    have dm : SameData m c := sameData_cut m i p
    refine fin _ _ (dm.trans d) ⟨_, l', rfl, b1, ?_⟩ ?_
    · refine b2.trans ?_
      rw [List.cons_append]
      exact (List.perm_append_comm.trans a1.symm).cons r
    · have hpm : (m i).prev = some p := by rw [(hptr i).2.2]; exact hp
      have hnx : (m i).nextSibling ≠ some i := by
        rw [(hptr i).1]; exact next_ne t2.rep hnl hil
      rw [decreaseKey, hget]
      dsimp only
      rw [if_pos (by rw [t1]; simpa using hir), ← hm, setPrev?_ne hnx, hpm, t1]
      dsimp only
      have : (setPrev? m (m i).nextSibling (some p) i) = m i := setPrev?_ne hnx
      rw [linkNodes, hcdef, cut]
      dsimp only
      rw [this]

end Rosemary.PairingHeap
