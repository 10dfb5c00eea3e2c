import Verif.Model.ExactCover
import Mathlib.Data.Finset.Lattice.Basic
import Mathlib.Data.Finset.SDiff

/-!
# Exact covers
-/

namespace Rosemary.ExactCover

open Finset

variable {κ : Type} [DecidableEq κ]

/-- `S` is a set of numbers of nonempty rows that cover every element of `C` exactly once and nothing else. -/
def IsCover (n : ℕ) (Y : ℕ → Finset κ) (C : Finset κ) (S : Finset ℕ) : Prop :=
  (∀ i ∈ S, i < n ∧ (Y i).Nonempty ∧ Y i ⊆ C) ∧ ∀ x ∈ C, ∃! i, i ∈ S ∧ x ∈ Y i

theorem isCover_empty {n : ℕ} {Y : ℕ → Finset κ} {S : Finset ℕ} : IsCover n Y ∅ S ↔ S = ∅ := by
  constructor
  · rintro ⟨h, -⟩
    rw [eq_empty_iff_forall_notMem]
    intro i hi
    obtain ⟨-, ⟨x, hx⟩, h3⟩ := h i hi
    exact absurd (h3 hx) (by simp)
  · rintro rfl
    exact ⟨by simp, by simp⟩

theorem isCover_erase {n : ℕ} {Y : ℕ → Finset κ} {C : Finset κ} {S : Finset ℕ} {r : ℕ} (hr : r ∈ S)
    (h : IsCover n Y C S) : IsCover n Y (C \ Y r) (S.erase r) := by
  constructor
  · intro i hi
    obtain ⟨h1, h2, h3⟩ := h.1 i (mem_of_mem_erase hi)
    refine ⟨h1, h2, fun x hx => mem_sdiff.2 ⟨h3 hx, fun hxr => ?_⟩⟩
    exact ne_of_mem_erase hi ((h.2 x (h3 hx)).unique ⟨mem_of_mem_erase hi, hx⟩ ⟨hr, hxr⟩)
  · intro x hx
    obtain ⟨hxC, hxr⟩ := mem_sdiff.1 hx
    obtain ⟨i, ⟨hi, hxi⟩, huniq⟩ := h.2 x hxC
    refine ⟨i, ⟨mem_erase.2 ⟨fun e => hxr (e ▸ hxi), hi⟩, hxi⟩, ?_⟩
    rintro k ⟨hk, hxk⟩
    exact huniq k ⟨mem_of_mem_erase hk, hxk⟩

theorem isCover_insert {n : ℕ} {Y : ℕ → Finset κ} {C : Finset κ} {S : Finset ℕ} {r : ℕ} (hr : r < n)
    (hne : (Y r).Nonempty) (hC : Y r ⊆ C) (h : IsCover n Y (C \ Y r) S) : r ∉ S ∧ IsCover n Y C (insert r S) := by
  have hdis : ∀ i ∈ S, ∀ x ∈ Y i, x ∉ Y r := fun i hi x hx => (mem_sdiff.1 ((h.1 i hi).2.2 hx)).2
  refine ⟨?_, ?_, ?_⟩
  · intro hrS
    obtain ⟨x, hx⟩ := hne
    exact hdis r hrS x hx hx
  · intro i hi
    rcases mem_insert.1 hi with rfl | hi
    · exact ⟨hr, hne, hC⟩
    · obtain ⟨h1, h2, h3⟩ := h.1 i hi
      exact ⟨h1, h2, h3.trans sdiff_subset⟩
  · intro x hx
    by_cases hxr : x ∈ Y r
    · refine ⟨r, ⟨mem_insert_self _ _, hxr⟩, ?_⟩
      rintro k ⟨hk, hxk⟩
      rcases mem_insert.1 hk with rfl | hk
      · rfl
      · exact absurd hxr (hdis k hk x hxk)
    · obtain ⟨i, ⟨hi, hxi⟩, huniq⟩ := h.2 x (mem_sdiff.2 ⟨hx, hxr⟩)
      refine ⟨i, ⟨mem_insert_of_mem hi, hxi⟩, ?_⟩
      rintro k ⟨hk, hxk⟩
      rcases mem_insert.1 hk with rfl | hk
      · exact absurd hxk hxr
      · exact huniq k ⟨hk, hxk⟩

/-- `L` lists the covers satisfying `P`, each once. -/
def Lists (n : ℕ) (Y : ℕ → Finset κ) (C : Finset κ) (P : Finset ℕ → Prop) (L : List (List ℕ)) : Prop :=
  (∀ l ∈ L, l.Nodup) ∧ (L.map List.toFinset).Nodup ∧ ∀ S, S ∈ L.map List.toFinset ↔ IsCover n Y C S ∧ P S

theorem lists_empty (n : ℕ) (Y : ℕ → Finset κ) : Lists n Y ∅ (fun _ => True) [[]] := by
  refine ⟨by simp, by simp, fun S => ?_⟩
  rw [isCover_empty]
  simp

theorem lists_cons {n : ℕ} {Y : ℕ → Finset κ} {C : Finset κ} {c : κ} (hc : c ∈ C) {r : ℕ} {rs : List ℕ}
    (hnd : (r :: rs).Nodup) (hrow : ∀ i ∈ r :: rs, i < n ∧ c ∈ Y i ∧ Y i ⊆ C) {L L' : List (List ℕ)}
    (hL : Lists n Y (C \ Y r) (fun _ => True) L) (hL' : Lists n Y C (fun S => ∃ i ∈ rs, i ∈ S) L') :
    Lists n Y C (fun S => ∃ i ∈ r :: rs, i ∈ S) (L.map (r :: ·) ++ L') := by
  obtain ⟨h1, h2, h3⟩ := hL
  obtain ⟨g1, g2, g3⟩ := hL'
  obtain ⟨hr1, hr2, hr3⟩ := hrow r List.mem_cons_self
  have hcov : ∀ S, S ∈ L.map List.toFinset → r ∉ S ∧ IsCover n Y C (insert r S) := fun S hS =>
    isCover_insert hr1 ⟨c, hr2⟩ hr3 ((h3 S).1 hS).1
  have hmap : (L.map (r :: ·)).map List.toFinset = (L.map List.toFinset).map (insert r) := by
    rw [List.map_map, List.map_map]
    exact List.map_congr_left fun l _ => List.toFinset_cons
  refine ⟨?_, ?_, ?_⟩
  · intro l hl
    rcases List.mem_append.1 hl with hl | hl
    · obtain ⟨l', hl', rfl⟩ := List.mem_map.1 hl
      refine List.nodup_cons.2 ⟨fun h => ?_, h1 l' hl'⟩
      exact (hcov _ (List.mem_map_of_mem hl')).1 (List.mem_toFinset.2 h)
    · exact g1 l hl
  · rw [List.map_append, hmap]
    refine List.Nodup.append ?_ g2 ?_
    · refine List.Nodup.map_on ?_ h2
      intro S hS T hT hST
      rw [← erase_insert (hcov S hS).1, hST, erase_insert (hcov T hT).1]
    · intro S hS hS'
      obtain ⟨T, hT, rfl⟩ := List.mem_map.1 hS
      obtain ⟨hcov', i, hi, hiS⟩ := (g3 _).1 hS'
      have : r = i := (hcov'.2 c hc).unique ⟨mem_insert_self _ _, hr2⟩ ⟨hiS, (hrow i (List.mem_cons_of_mem _ hi)).2.1⟩
      subst this
      exact (List.nodup_cons.1 hnd).1 hi
  · intro S
    rw [List.map_append, hmap, List.mem_append, g3]
    constructor
    · rintro (h | ⟨h, i, hi, hiS⟩)
      · obtain ⟨T, hT, rfl⟩ := List.mem_map.1 h
        exact ⟨(hcov T hT).2, r, List.mem_cons_self, mem_insert_self _ _⟩
      · exact ⟨h, i, List.mem_cons_of_mem _ hi, hiS⟩
    · rintro ⟨h, i, hi, hiS⟩
      rcases List.mem_cons.1 hi with rfl | hi
      · left
        exact List.mem_map.2 ⟨S.erase i, (h3 _).2 ⟨isCover_erase hiS h, trivial⟩, insert_erase hiS⟩
      · exact Or.inr ⟨h, i, hi, hiS⟩

theorem lists_nil (n : ℕ) (Y : ℕ → Finset κ) (C : Finset κ) : Lists n Y C (fun S => ∃ i ∈ ([] : List ℕ), i ∈ S) [] := by
  refine ⟨by simp, by simp, fun S => ?_⟩
  simp

theorem lists_all {n : ℕ} {Y : ℕ → Finset κ} {C : Finset κ} {c : κ} (hc : c ∈ C) {rs : List ℕ}
    (hrow : ∀ i, i ∈ rs ↔ i < n ∧ c ∈ Y i ∧ Y i ⊆ C) {L : List (List ℕ)}
    (hL : Lists n Y C (fun S => ∃ i ∈ rs, i ∈ S) L) : Lists n Y C (fun _ => True) L := by
  refine ⟨hL.1, hL.2.1, fun S => ?_⟩
  rw [hL.2.2]
  refine and_congr_right fun h => ⟨fun _ => trivial, fun _ => ?_⟩
  obtain ⟨i, ⟨hi, hci⟩, -⟩ := h.2 c hc
  exact ⟨i, (hrow i).2 ⟨(h.1 i hi).1, hci, (h.1 i hi).2.2⟩, hi⟩

/-! ## Algorithm X -/

variable (Y : List (List κ))

/-- The elements of row `i`. -/
def row (i : ℕ) : Finset κ := (Y.getD i []).toFinset

/-- The rows within `C` that contain `j`. -/
def rows (C : Finset κ) (j : κ) : Finset ℕ := (Finset.range Y.length).filter (fun i => row Y i ⊆ C ∧ j ∈ row Y i)

theorem mem_rows {C : Finset κ} {j : κ} {i : ℕ} : i ∈ rows Y C j ↔ i < Y.length ∧ row Y i ⊆ C ∧ j ∈ row Y i := by
  rw [rows, mem_filter, mem_range]

theorem mem_row {i : ℕ} {j : κ} : j ∈ row Y i ↔ j ∈ Y.getD i [] := List.mem_toFinset

/-- The dictionary `X` when the columns `C` are left. -/
def Rep (X : Dict κ (Finset ℕ)) (C : Finset κ) : Prop :=
  X.WF ∧ ∀ j, X.get? j = if j ∈ C then some (rows Y C j) else none

omit Y in
theorem removeRow_spec (j : κ) (i : ℕ) (ks : List κ) :
    ∀ X : Dict κ (Finset ℕ), X.WF → ks.Nodup → (∀ k ∈ ks, k ≠ j → ∃ S, X.get? k = some S ∧ i ∈ S) →
      ∃ X', removeRow j X i ks = .ok X' ∧ X'.WF ∧
        ∀ k, X'.get? k = if k ∈ ks ∧ k ≠ j then (X.get? k).map (fun S => S.erase i) else X.get? k := by
  induction ks with
  | nil => intro X hX _ _; exact ⟨X, rfl, hX, by simp⟩
  | cons a ks ih =>
    intro X hX hnd h
    obtain ⟨hnd1, hnd2⟩ := List.nodup_cons.1 hnd
    rw [removeRow]
    by_cases ha : a ≠ j
    · rw [if_pos ha]
      obtain ⟨S, hS, hi⟩ := h a List.mem_cons_self ha
      rw [hS]
      dsimp only
      rw [if_pos hi]
      obtain ⟨X', h1, h2, h3⟩ := ih (Dict.set X a (S.erase i)) (hX.set _ _) hnd2 (by
        intro k hk hkj
        rw [Dict.get?_set, if_neg (by rintro rfl; exact hnd1 hk)]
        exact h k (List.mem_cons_of_mem _ hk) hkj)
      refine ⟨X', h1, h2, fun k => ?_⟩
      rw [h3, Dict.get?_set]
      by_cases hka : a = k
      · subst hka
        rw [if_neg (by simp [hnd1]), if_pos rfl, if_pos ⟨List.mem_cons_self, ha⟩, hS]
        rfl
      · rw [if_neg hka]
        have : (k ∈ ks ∧ k ≠ j) ↔ (k ∈ a :: ks ∧ k ≠ j) := by simp [Ne.symm hka]
        simp only [this]
    · rw [if_neg ha]
      obtain ⟨X', h1, h2, h3⟩ := ih X hX hnd2 (fun k hk => h k (List.mem_cons_of_mem _ hk))
      refine ⟨X', h1, h2, fun k => ?_⟩
      rw [h3]
      have : (k ∈ ks ∧ k ≠ j) ↔ (k ∈ a :: ks ∧ k ≠ j) := by
        rw [not_not] at ha
        subst ha
        simp
        tauto
      simp only [this]

theorem removeRows_spec (hY : ∀ i, (Y.getD i []).Nodup) (j : κ) (I : List ℕ) :
    ∀ X : Dict κ (Finset ℕ), X.WF → I.Nodup →
      (∀ i ∈ I, ∀ k ∈ row Y i, k ≠ j → ∃ S, X.get? k = some S ∧ i ∈ S) →
      ∃ X', removeRows Y j X I = .ok X' ∧ X'.WF ∧
        ∀ k, X'.get? k = if k = j then X.get? k else
          (X.get? k).map (fun S => S.filter (fun i => ¬ (i ∈ I ∧ k ∈ row Y i))) := by
  induction I with
  | nil =>
    intro X hX _ _
    refine ⟨X, rfl, hX, fun k => ?_⟩
    split_ifs
    · rfl
    · cases X.get? k <;> simp
  | cons i I ih =>
    intro X hX hnd h
    obtain ⟨hnd1, hnd2⟩ := List.nodup_cons.1 hnd
    obtain ⟨X1, a1, a2, a3⟩ := removeRow_spec j i (Y.getD i []) X hX (hY i) (fun k hk hkj =>
      h i List.mem_cons_self k ((mem_row Y).2 hk) hkj)
    rw [removeRows, a1]
    dsimp only
    obtain ⟨X2, b1, b2, b3⟩ := ih X1 a2 hnd2 (by
      intro i' hi' k hk hkj
      obtain ⟨S, hS, hiS⟩ := h i' (List.mem_cons_of_mem _ hi') k hk hkj
      rw [a3, hS]
      split_ifs with hc
      · exact ⟨_, rfl, mem_erase.2 ⟨by rintro rfl; exact hnd1 hi', hiS⟩⟩
      · exact ⟨S, rfl, hiS⟩)
    refine ⟨X2, b1, b2, fun k => ?_⟩
    rw [b3, a3]
    by_cases hkj : k = j
    · rw [if_pos hkj, if_pos hkj, if_neg (fun h => h.2 hkj)]
    · rw [if_neg hkj, if_neg hkj]
      cases hX : X.get? k with
      | none => simp
      | some S =>
        by_cases hk : k ∈ Y.getD i []
        · rw [if_pos ⟨hk, hkj⟩]
          simp only [Option.map_some, Option.some.injEq]
          ext x
          simp only [mem_filter, mem_erase, List.mem_cons, ← mem_row] at hk ⊢
          constructor
          · rintro ⟨⟨h1, h2⟩, h3⟩
            exact ⟨h2, fun h => h.1.elim h1 (fun h' => h3 ⟨h', h.2⟩)⟩
          · rintro ⟨h1, h2⟩
            exact ⟨⟨fun e => h2 ⟨Or.inl e, e ▸ hk⟩, h1⟩, fun h => h2 ⟨Or.inr h.1, h.2⟩⟩
        · rw [if_neg (fun h => hk h.1)]
          simp only [Option.map_some, Option.some.injEq]
          ext x
          simp only [mem_filter, List.mem_cons, ← mem_row] at hk ⊢
          refine and_congr_right fun _ => not_congr ⟨fun h => ⟨Or.inr h.1, h.2⟩, ?_⟩
          rintro ⟨rfl | h, h'⟩
          · exact absurd h' hk
          · exact ⟨h, h'⟩

/-- The columns that are popped. -/
def saved (C : Finset κ) : List κ → List (Finset ℕ)
  | [] => []
  | j :: js => saved (C.erase j) js ++ [rows Y C j]

theorem length_saved (C : Finset κ) (js : List κ) : (saved Y C js).length = js.length := by
  induction js generalizing C with
  | nil => rfl
  | cons j js ih => rw [saved, List.length_append, ih]; rfl

variable {ord : Finset ℕ → List ℕ} (hord : ∀ S, (ord S).Nodup ∧ ∀ x, x ∈ ord S ↔ x ∈ S)
  (hY : ∀ i, (Y.getD i []).Nodup)

include hord hY

theorem select_spec (js : List κ) : ∀ (X : Dict κ (Finset ℕ)) (C : Finset κ) (cols : List (Finset ℕ)), Rep Y X C →
    js.Nodup → (∀ j ∈ js, j ∈ C) →
    ∃ X', select ord Y X cols js = .ok (X', saved Y C js ++ cols) ∧ Rep Y X' (C \ js.toFinset) := by
  induction js with
  | nil => intro X C cols h _ _; exact ⟨X, rfl, by simpa using h⟩
  | cons j js ih =>
    intro X C cols h hnd hC
    obtain ⟨hnd1, hnd2⟩ := List.nodup_cons.1 hnd
    have hj := hC j List.mem_cons_self
    have hXj : X.get? j = some (rows Y C j) := by rw [h.2, if_pos hj]
    obtain ⟨X1, a1, a2, a3⟩ := removeRows_spec Y hY j (ord (rows Y C j)) X h.1 (hord _).1 (by
      intro i hi k hk hkj
      rw [(hord _).2, mem_rows] at hi
      refine ⟨rows Y C k, by rw [h.2, if_pos (hi.2.1 hk)], (mem_rows Y).2 ⟨hi.1, hi.2.1, hk⟩⟩)
    have hX1j : X1.get? j = some (rows Y C j) := by rw [a3, if_pos rfl, hXj]
    rw [select, hXj]
    dsimp only
    rw [a1]
    dsimp only
    rw [hX1j]
    dsimp only
    have hrep : Rep Y (Dict.erase X1 j) (C.erase j) := by
      refine ⟨a2.erase j, fun k => ?_⟩
      rw [Dict.get?_erase a2, a3, h.2]
      by_cases hjk : j = k
      · subst hjk
        rw [if_pos rfl, if_neg (by simp)]
      · rw [if_neg hjk, if_neg (Ne.symm hjk)]
        by_cases hk : k ∈ C
        · rw [if_pos hk, if_pos (mem_erase.2 ⟨Ne.symm hjk, hk⟩), Option.map_some]
          congr 1
          ext i
          simp only [mem_filter, (hord _).2, mem_rows, subset_erase]
          tauto
        · rw [if_neg hk, if_neg (fun h => hk (mem_of_mem_erase h))]
          rfl
    obtain ⟨X2, b1, b2⟩ := ih (Dict.erase X1 j) (C.erase j) (rows Y C j :: cols) hrep hnd2 (fun k hk =>
      mem_erase.2 ⟨by rintro rfl; exact hnd1 hk, hC k (List.mem_cons_of_mem _ hk)⟩)
    refine ⟨X2, by rw [b1, saved, List.append_assoc]; rfl, ?_⟩
    have e : C \ (j :: js).toFinset = C.erase j \ js.toFinset := by
      ext x; simp only [mem_sdiff, List.mem_toFinset, List.mem_cons, mem_erase]; tauto
    rw [e]
    exact b2

omit hord hY in
omit Y in
theorem restoreRow_spec (j : κ) (i : ℕ) (ks : List κ) :
    ∀ X : Dict κ (Finset ℕ), X.WF → (∀ k ∈ ks, k ≠ j → ∃ S, X.get? k = some S) →
      ∃ X', restoreRow j X i ks = .ok X' ∧ X'.WF ∧
        ∀ k, X'.get? k = if k ∈ ks ∧ k ≠ j then (X.get? k).map (fun S => insert i S) else X.get? k := by
  induction ks with
  | nil => intro X hX _; exact ⟨X, rfl, hX, by simp⟩
  | cons a ks ih =>
    intro X hX h
    rw [restoreRow]
    by_cases ha : a ≠ j
    · rw [if_pos ha]
      obtain ⟨S, hS⟩ := h a List.mem_cons_self ha
      rw [hS]
      dsimp only
      obtain ⟨X', h1, h2, h3⟩ := ih (Dict.set X a (insert i S)) (hX.set _ _) (by
        intro k hk hkj
        rw [Dict.get?_set]
        split_ifs
        · exact ⟨_, rfl⟩
        · exact h k (List.mem_cons_of_mem _ hk) hkj)
      refine ⟨X', h1, h2, fun k => ?_⟩
      rw [h3, Dict.get?_set]
      by_cases hka : a = k
      · subst hka
        rw [if_pos rfl, if_pos (show a ∈ a :: ks ∧ a ≠ j from ⟨List.mem_cons_self, ha⟩), hS]
        split_ifs <;> simp
      · rw [if_neg hka]
        have : (k ∈ ks ∧ k ≠ j) ↔ (k ∈ a :: ks ∧ k ≠ j) := by simp [Ne.symm hka]
        simp only [this]
    · rw [if_neg ha]
      obtain ⟨X', h1, h2, h3⟩ := ih X hX (fun k hk => h k (List.mem_cons_of_mem _ hk))
      refine ⟨X', h1, h2, fun k => ?_⟩
      rw [h3]
      have : (k ∈ ks ∧ k ≠ j) ↔ (k ∈ a :: ks ∧ k ≠ j) := by
        rw [not_not] at ha
        subst ha
        simp
        tauto
      simp only [this]

omit hord hY in
theorem restoreRows_spec (j : κ) (I : List ℕ) :
    ∀ X : Dict κ (Finset ℕ), X.WF → (∀ i ∈ I, ∀ k ∈ row Y i, k ≠ j → ∃ S, X.get? k = some S) →
      ∃ X', restoreRows Y j X I = .ok X' ∧ X'.WF ∧
        ∀ k, X'.get? k = if k = j then X.get? k else
          (X.get? k).map (fun S => S ∪ I.toFinset.filter (fun i => k ∈ row Y i)) := by
  induction I with
  | nil =>
    intro X hX _
    refine ⟨X, rfl, hX, fun k => ?_⟩
    split_ifs
    · rfl
    · cases X.get? k <;> simp
  | cons i I ih =>
    intro X hX h
    obtain ⟨X1, a1, a2, a3⟩ := restoreRow_spec j i (Y.getD i []) X hX (fun k hk hkj =>
      h i List.mem_cons_self k ((mem_row Y).2 hk) hkj)
    rw [restoreRows, a1]
    dsimp only
    obtain ⟨X2, b1, b2, b3⟩ := ih X1 a2 (by
      intro i' hi' k hk hkj
      obtain ⟨S, hS⟩ := h i' (List.mem_cons_of_mem _ hi') k hk hkj
      rw [a3, hS]
      split_ifs with hc
      · exact ⟨_, rfl⟩
      · exact ⟨S, rfl⟩)
    refine ⟨X2, b1, b2, fun k => ?_⟩
    rw [b3, a3]
    by_cases hkj : k = j
    · rw [if_pos hkj, if_pos hkj, if_neg (fun h => h.2 hkj)]
    · rw [if_neg hkj, if_neg hkj]
      cases hX : X.get? k with
      | none => simp
      | some S =>
        by_cases hk : k ∈ Y.getD i []
        · rw [if_pos ⟨hk, hkj⟩]
          simp only [Option.map_some, Option.some.injEq]
          ext x
          simp only [mem_filter, mem_union, mem_insert, List.mem_toFinset, List.mem_cons, ← mem_row] at hk ⊢
          constructor
          · rintro ((rfl | h) | ⟨h1, h2⟩)
            · exact Or.inr ⟨Or.inl rfl, hk⟩
            · exact Or.inl h
            · exact Or.inr ⟨Or.inr h1, h2⟩
          · rintro (h | ⟨rfl | h1, h2⟩)
            · exact Or.inl (Or.inr h)
            · exact Or.inl (Or.inl rfl)
            · exact Or.inr ⟨h1, h2⟩
        · rw [if_neg (fun h => hk h.1)]
          simp only [Option.map_some, Option.some.injEq]
          ext x
          simp only [mem_filter, mem_union, List.mem_toFinset, List.mem_cons, ← mem_row] at hk ⊢
          constructor
          · rintro (h | ⟨h1, h2⟩)
            · exact Or.inl h
            · exact Or.inr ⟨Or.inr h1, h2⟩
          · rintro (h | ⟨rfl | h1, h2⟩)
            · exact Or.inl h
            · exact absurd h2 hk
            · exact Or.inr ⟨h1, h2⟩

omit hord hY in
theorem deselect_append (js1 : List κ) : ∀ (X : Dict κ (Finset ℕ)) (cols1 cols2 : List (Finset ℕ)) (js2 : List κ),
    cols1.length = js1.length → deselect ord Y X (cols1 ++ cols2) (js1 ++ js2) =
      match deselect ord Y X cols1 js1 with
      | .error e => .error e
      | .ok X => deselect ord Y X cols2 js2 := by
  induction js1 with
  | nil =>
    intro X cols1 cols2 js2 h
    rw [List.length_eq_zero_iff.1 h]
    simp [deselect]
  | cons j js ih =>
    intro X cols1 cols2 js2 h
    cases cols1 with
    | nil => simp at h
    | cons S cols1 =>
      rw [List.cons_append, List.cons_append, deselect, deselect]
      cases restoreRows Y j (Dict.set X j S) (ord S) with
      | error e => rfl
      | ok X1 => exact ih X1 cols1 cols2 js2 (by simpa using h)

omit hY in
theorem deselect_spec (js : List κ) : ∀ (X : Dict κ (Finset ℕ)) (C : Finset κ), Rep Y X (C \ js.toFinset) →
    js.Nodup → (∀ j ∈ js, j ∈ C) → ∃ X', deselect ord Y X (saved Y C js) js.reverse = .ok X' ∧ Rep Y X' C := by
  induction js with
  | nil => intro X C h _ _; exact ⟨X, by simp [saved, deselect], by simpa using h⟩
  | cons j js ih =>
    intro X C h hnd hC
    obtain ⟨hnd1, hnd2⟩ := List.nodup_cons.1 hnd
    have hj := hC j List.mem_cons_self
    have e : C \ (j :: js).toFinset = C.erase j \ js.toFinset := by
      ext x; simp only [mem_sdiff, List.mem_toFinset, List.mem_cons, mem_erase]; tauto
    rw [e] at h
    obtain ⟨X1, a1, a2⟩ := ih X (C.erase j) h hnd2 (fun k hk =>
      mem_erase.2 ⟨by rintro rfl; exact hnd1 hk, hC k (List.mem_cons_of_mem _ hk)⟩)
    rw [saved, List.reverse_cons, deselect_append Y _ _ _ _ _ (by rw [length_saved, List.length_reverse]), a1]
    dsimp only
    rw [deselect]
    obtain ⟨X2, b1, b2, b3⟩ := restoreRows_spec Y j (ord (rows Y C j)) (Dict.set X1 j (rows Y C j)) (a2.1.set _ _) (by
      intro i hi k hk hkj
      rw [(hord _).2, mem_rows] at hi
      rw [Dict.get?_set, if_neg (Ne.symm hkj), a2.2, if_pos (mem_erase.2 ⟨hkj, hi.2.1 hk⟩)]
      exact ⟨_, rfl⟩)
    rw [b1]
    refine ⟨X2, by simp [deselect], b2, fun k => ?_⟩
    rw [b3, Dict.get?_set, a2.2]
    by_cases hjk : j = k
    · subst hjk
      rw [if_pos rfl, if_pos rfl, if_pos hj]
    · rw [if_neg (Ne.symm hjk), if_neg hjk]
      by_cases hk : k ∈ C
      · rw [if_pos hk, if_pos (mem_erase.2 ⟨Ne.symm hjk, hk⟩), Option.map_some]
        congr 1
        ext i
        simp only [mem_filter, mem_union, List.mem_toFinset, (hord _).2, mem_rows, subset_erase]
        tauto
      · rw [if_neg hk, if_neg (fun h => hk (mem_of_mem_erase h))]
        rfl

omit hord hY in
theorem minColumn_spec (X : Dict κ (Finset ℕ)) :
    (X = [] ∧ minColumn X = none) ∨ ∃ e, minColumn X = some e ∧ e ∈ X ∧ ∀ e' ∈ X, e.2.card ≤ e'.2.card := by
  induction X with
  | nil => exact Or.inl ⟨rfl, rfl⟩
  | cons a X ih =>
    right
    rw [minColumn]
    rcases ih with ⟨rfl, h⟩ | ⟨e, h1, h2, h3⟩
    · rw [h]; exact ⟨a, rfl, List.mem_cons_self, by simp⟩
    · rw [h1]
      dsimp only
      by_cases hc : e.2.card < a.2.card
      · rw [if_pos hc]
        refine ⟨e, rfl, List.mem_cons_of_mem _ h2, ?_⟩
        intro e' he'
        rcases List.mem_cons.1 he' with rfl | he'
        · exact hc.le
        · exact h3 e' he'
      · rw [if_neg hc]
        refine ⟨a, rfl, List.mem_cons_self, ?_⟩
        intro e' he'
        rcases List.mem_cons.1 he' with rfl | he'
        · exact le_refl _
        · have := h3 e' he'; omega

theorem tryRows_spec (C : Finset κ) (c : κ) (hc : c ∈ C)
    (rec : Dict κ (Finset ℕ) → List ℕ → Except PyErr (List (List ℕ) × Dict κ (Finset ℕ)))
    (hrec : ∀ r, row Y r ⊆ C → c ∈ row Y r → ∀ X sol, Rep Y X (C \ row Y r) →
      ∃ L X', rec X sol = .ok (L.map (sol ++ ·), X') ∧
        Lists Y.length (row Y) (C \ row Y r) (fun _ => True) L ∧ Rep Y X' (C \ row Y r))
    (sol : List ℕ) (rs : List ℕ) :
    ∀ (out : List (List ℕ)) (X : Dict κ (Finset ℕ)), rs.Nodup →
      (∀ i ∈ rs, i < Y.length ∧ c ∈ row Y i ∧ row Y i ⊆ C) → Rep Y X C →
      ∃ L X', tryRows rec ord Y sol rs out X = .ok (out ++ L.map (sol ++ ·), X') ∧
        Lists Y.length (row Y) C (fun S => ∃ i ∈ rs, i ∈ S) L ∧ Rep Y X' C := by
  induction rs with
  | nil => intro out X _ _ hX; exact ⟨[], X, by simp [tryRows], lists_nil _ _ _, hX⟩
  | cons r rs ih =>
    intro out X hnd hrow hX
    obtain ⟨hr1, hr2, hr3⟩ := hrow r List.mem_cons_self
    have hsub : ∀ j ∈ Y.getD r [], j ∈ C := fun j hj => hr3 ((mem_row Y).2 hj)
    obtain ⟨X1, a1, a2⟩ := select_spec Y hord hY (Y.getD r []) X C [] hX (hY r) hsub
    rw [tryRows, a1]
    dsimp only
    obtain ⟨L, X2, b1, b2, b3⟩ := hrec r hr3 hr2 X1 (sol ++ [r]) a2
    rw [b1]
    dsimp only
    obtain ⟨X3, c1, c2⟩ := deselect_spec Y hord (Y.getD r []) X2 C b3 (hY r) hsub
    rw [List.append_nil, c1]
    dsimp only
    obtain ⟨L', X4, d1, d2, d3⟩ := ih (out ++ L.map (sol ++ [r] ++ ·)) X3 (List.nodup_cons.1 hnd).2
      (fun i hi => hrow i (List.mem_cons_of_mem _ hi)) c2
    refine ⟨L.map (r :: ·) ++ L', X4, ?_, lists_cons hc hnd hrow b2 d2, d3⟩
    rw [d1, List.map_append, List.map_map, List.append_assoc]
    congr 4
    exact List.map_congr_left fun l _ => by simp

omit hord hY in
theorem Rep.empty_iff {X : Dict κ (Finset ℕ)} {C : Finset κ} (h : Rep Y X C) : X = [] ↔ C = ∅ := by
  constructor
  · rintro rfl
    rw [eq_empty_iff_forall_notMem]
    intro j hj
    have := h.2 j
    rw [if_pos hj] at this
    simp [Dict.get?] at this
  · rintro rfl
    cases X with
    | nil => rfl
    | cons e X =>
      obtain ⟨k, v⟩ := e
      have := h.2 k
      simp [Dict.get?] at this

theorem solve_spec (fuel : ℕ) : ∀ (X : Dict κ (Finset ℕ)) (sol : List ℕ) (C : Finset κ), Rep Y X C → C.card < fuel →
    ∃ L X', solve ord Y fuel X sol = .ok (L.map (sol ++ ·), X') ∧
      Lists Y.length (row Y) C (fun _ => True) L ∧ Rep Y X' C := by
  induction fuel with
  | zero => intro X sol C _ h; omega
  | succ fuel ih =>
    intro X sol C hX hfuel
    rw [solve]
    rcases minColumn_spec X with ⟨hXe, hm⟩ | ⟨⟨c, S⟩, hm, hmem, -⟩
    · rw [hm]
      obtain rfl := (hX.empty_iff Y).1 hXe
      exact ⟨[[]], X, by simp, lists_empty _ _, hX⟩
    · rw [hm]
      dsimp only
      have hget := Dict.get?_of_mem hX.1 hmem
      have hc : c ∈ C := by
        by_contra hc
        rw [hX.2, if_neg hc] at hget
        simp at hget
      rw [hX.2, if_pos hc] at hget
      injection hget with hget
      subst hget
      obtain ⟨L, X', h1, h2, h3⟩ := tryRows_spec Y hord hY C c hc (solve ord Y fuel) (fun r hr1 hr2 X sol hX => by
        refine ih X sol (C \ row Y r) hX ?_
        have : (C \ row Y r).card < C.card := card_lt_card (by
          rw [ssubset_iff_of_subset sdiff_subset]
          exact ⟨c, hc, by simp [hr2]⟩)
        omega) sol (ord (rows Y C c)) [] X (hord _).1 (fun i hi => by
          rw [(hord _).2, mem_rows] at hi; exact ⟨hi.1, hi.2.2, hi.2.1⟩) hX
      refine ⟨L, X', by rw [h1]; simp, lists_all hc (fun i => ?_) h2, h3⟩
      rw [(hord _).2, mem_rows]
      tauto

omit hord hY Y in
theorem addRow_spec (i : ℕ) (ks : List κ) :
    ∀ X : Dict κ (Finset ℕ), X.WF → (∀ k ∈ ks, ∃ S, X.get? k = some S) →
      ∃ X', addRow X i ks = .ok X' ∧ X'.WF ∧
        ∀ k, X'.get? k = if k ∈ ks then (X.get? k).map (fun S => insert i S) else X.get? k := by
  induction ks with
  | nil => intro X hX _; exact ⟨X, rfl, hX, by simp⟩
  | cons a ks ih =>
    intro X hX h
    rw [addRow]
    obtain ⟨S, hS⟩ := h a List.mem_cons_self
    rw [hS]
    dsimp only
    obtain ⟨X', h1, h2, h3⟩ := ih (Dict.set X a (insert i S)) (hX.set _ _) (by
      intro k hk
      rw [Dict.get?_set]
      split_ifs
      · exact ⟨_, rfl⟩
      · exact h k (List.mem_cons_of_mem _ hk))
    refine ⟨X', h1, h2, fun k => ?_⟩
    rw [h3, Dict.get?_set]
    by_cases hka : a = k
    · subst hka
      rw [if_pos rfl, if_pos (show a ∈ a :: ks from List.mem_cons_self), hS]
      split_ifs <;> simp
    · rw [if_neg hka]
      have : (k ∈ ks) ↔ (k ∈ a :: ks) := by simp [Ne.symm hka]
      simp only [this]

omit hord hY Y in
theorem addRow_error (i : ℕ) (ks : List κ) : ∀ X : Dict κ (Finset ℕ), (∃ k ∈ ks, X.get? k = none) →
    addRow X i ks = .error .keyError := by
  induction ks with
  | nil => intro X h; simp at h
  | cons a ks ih =>
    intro X h
    rw [addRow]
    cases hS : X.get? a with
    | none => rfl
    | some S =>
      dsimp only
      apply ih
      obtain ⟨k, hk, hkn⟩ := h
      have : a ≠ k := by rintro rfl; rw [hS] at hkn; simp at hkn
      exact ⟨k, (List.mem_cons.1 hk).resolve_left (Ne.symm this), by rw [Dict.get?_set, if_neg this, hkn]⟩

omit hord hY Y in
theorem addRows_error (ys : List (List κ)) : ∀ (i : ℕ) (X : Dict κ (Finset ℕ)), X.WF →
    (∃ y ∈ ys, ∃ k ∈ y, X.get? k = none) → addRows X i ys = .error .keyError := by
  induction ys with
  | nil => intro i X _ h; simp at h
  | cons y ys ih =>
    intro i X hX h
    rw [addRows]
    by_cases hy : ∃ k ∈ y, X.get? k = none
    · rw [addRow_error i y X hy]
    · obtain ⟨X', h1, h2, h3⟩ := addRow_spec i y X hX (fun k hk => by
        rw [← Option.isSome_iff_exists]
        cases hk' : X.get? k with
        | none => exact absurd ⟨k, hk, hk'⟩ hy
        | some S => rfl)
      rw [h1]
      dsimp only
      apply ih _ _ h2
      obtain ⟨z, hz, k, hk, hkn⟩ := h
      rcases List.mem_cons.1 hz with rfl | hz
      · exact absurd ⟨k, hk, hkn⟩ hy
      · refine ⟨z, hz, k, hk, ?_⟩
        rw [h3, hkn]
        split_ifs <;> rfl

omit hord hY Y in
theorem addRows_spec (ys : List (List κ)) : ∀ (i : ℕ) (X : Dict κ (Finset ℕ)), X.WF →
    (∀ y ∈ ys, ∀ k ∈ y, ∃ S, X.get? k = some S) →
    ∃ X', addRows X i ys = .ok X' ∧ X'.WF ∧ ∀ k, X'.get? k =
      (X.get? k).map (fun S => S ∪ ((Finset.range ys.length).filter (fun m => k ∈ ys.getD m [])).image (i + ·)) := by
  induction ys with
  | nil =>
    intro i X hX _
    refine ⟨X, rfl, hX, fun k => ?_⟩
    cases X.get? k <;> simp
  | cons y ys ih =>
    intro i X hX h
    rw [addRows]
    obtain ⟨X1, a1, a2, a3⟩ := addRow_spec i y X hX (h y List.mem_cons_self)
    rw [a1]
    dsimp only
    obtain ⟨X2, b1, b2, b3⟩ := ih (i + 1) X1 a2 (by
      intro z hz k hk
      obtain ⟨S, hS⟩ := h z (List.mem_cons_of_mem _ hz) k hk
      rw [a3, hS]
      split_ifs
      · exact ⟨_, rfl⟩
      · exact ⟨_, rfl⟩)
    refine ⟨X2, b1, b2, fun k => ?_⟩
    rw [b3, a3]
    cases hX : X.get? k with
    | none => split_ifs <;> rfl
    | some S =>
      have himg : ((Finset.range (y :: ys).length).filter (fun m => k ∈ (y :: ys).getD m [])).image (i + ·) =
          (if k ∈ y then {i} else ∅) ∪
            ((Finset.range ys.length).filter (fun m => k ∈ ys.getD m [])).image (i + 1 + ·) := by
        ext x
        simp only [mem_image, mem_filter, mem_range, mem_union, List.length_cons]
        constructor
        · rintro ⟨m, ⟨hm, hk⟩, rfl⟩
          cases m with
          | zero => left; rw [if_pos (by simpa using hk)]; simp
          | succ m => right; exact ⟨m, ⟨by omega, by simpa using hk⟩, by omega⟩
        · rintro (hx | ⟨m, ⟨hm, hk⟩, rfl⟩)
          · split_ifs at hx with hk
            · rw [mem_singleton] at hx; subst hx
              exact ⟨0, ⟨by omega, by simpa using hk⟩, by omega⟩
            · simp at hx
          · exact ⟨m + 1, ⟨by omega, by simpa using hk⟩, by omega⟩
      rw [himg]
      split_ifs with hk
      · simp only [Option.map_some, Option.some.injEq]
        ext x
        simp only [mem_union, mem_insert, mem_singleton]
        tauto
      · simp

omit hord hY Y in
theorem init_spec (target : List κ) : ∀ X : Dict κ (Finset ℕ), X.WF →
    (target.foldl (fun X j => Dict.set X j ∅) X).WF ∧ ∀ k, Dict.get? (target.foldl (fun X j => Dict.set X j ∅) X) k =
      if k ∈ target then some ∅ else X.get? k := by
  induction target with
  | nil => intro X hX; exact ⟨hX, by simp⟩
  | cons j target ih =>
    intro X hX
    rw [List.foldl_cons]
    obtain ⟨h1, h2⟩ := ih (Dict.set X j ∅) (hX.set _ _)
    refine ⟨h1, fun k => ?_⟩
    rw [h2, Dict.get?_set]
    by_cases hk : k ∈ target
    · rw [if_pos hk, if_pos (List.mem_cons_of_mem _ hk)]
    · rw [if_neg hk]
      by_cases hj : j = k
      · rw [if_pos hj, if_pos (by simp [hj])]
      · rw [if_neg hj, if_neg (by simp [hk, Ne.symm hj])]

end Rosemary.ExactCover
