import Verif.Lemmas.Tours
import Mathlib.Data.Finset.Card
import Mathlib.Data.Finset.Range
import Mathlib.Data.Set.Basic

/-!
# The exact searches for a shortest tour
-/

namespace Rosemary.Tsp

open Rosemary.Spec

variable {R : Type} [AddCommGroup R] [LinearOrder R]

/-- The tours that start at 0 and extend `path`. -/
def Ext (n : ℕ) (path : List ℕ) : Set (List ℕ) := {t | IsTour n t ∧ t.head? = some 0 ∧ path <+: t}

/-- `best'` is `best` or comes from a tour in `S`, and is not beaten by either. -/
structure Improves (D : ℕ → ℕ → WithTop R) (S : Set (List ℕ)) (best best' : WithTop R × List ℕ) : Prop where
  from_ : best' = best ∨ ∃ t ∈ S, best' = (tourLength D t, t)
  le : best'.1 ≤ best.1
  opt : ∀ t ∈ S, best'.1 ≤ tourLength D t

theorem Improves.trans {D : ℕ → ℕ → WithTop R} {S T : Set (List ℕ)} {a b c : WithTop R × List ℕ}
    (h1 : Improves D S a b) (h2 : Improves D T b c) : Improves D (S ∪ T) a c := by
  refine ⟨?_, h2.le.trans h1.le, ?_⟩
  · rcases h2.from_ with h | ⟨t, ht, h⟩
    · rcases h1.from_ with h' | ⟨t, ht, h'⟩
      · exact Or.inl (h.trans h')
      · exact Or.inr ⟨t, Or.inl ht, h.trans h'⟩
    · exact Or.inr ⟨t, Or.inr ht, h⟩
  · rintro t (ht | ht)
    · exact h2.le.trans (h1.opt t ht)
    · exact h2.opt t ht

/-- What is known of `path` and of the choices at the level above. -/
structure Node (n : ℕ) (path : List ℕ) (l : ℕ) (last : List ℕ) : Prop where
  len : path.length = l
  le : l ≤ n
  nodup : path.Nodup
  lt : ∀ x ∈ path, x < n
  head : path.head? = if l = 0 then none else some 0
  last : 2 ≤ l → ∀ x, x ∈ last ↔ x < n ∧ x ∉ path.dropLast

theorem mem_choices {n : ℕ} {path : List ℕ} {l : ℕ} {last : List ℕ} (h : Node n path l last) (hl : l < n) (x : ℕ) :
    x ∈ choices n path l last ↔ x < n ∧ x ∉ path ∧ (l = 0 → x = 0) := by
  rw [choices]
  by_cases h0 : l = 0
  · have hp : path = [] := List.length_eq_zero_iff.1 (h.len.trans h0)
    subst hp
    rw [if_pos h0]
    simp only [List.mem_singleton, List.not_mem_nil, not_false_eq_true, true_and]
    constructor
    · rintro rfl; exact ⟨by omega, fun _ => rfl⟩
    · rintro ⟨-, hx⟩; exact hx h0
  · rw [if_neg h0]
    by_cases h1 : l = 1
    · rw [if_pos h1]
      have hp : path = [0] := by
        have := h.head
        rw [if_neg h0] at this
        have hlen := h.len
        rcases path with _ | ⟨a, _ | ⟨b, p⟩⟩
        · simp at this
        · simp at this; rw [this]
        · simp at hlen; omega
      rw [hp, List.mem_range'_1]
      simp only [List.mem_singleton]
      constructor
      · rintro ⟨h2, h3⟩; exact ⟨by omega, by omega, fun h => absurd h h0⟩
      · rintro ⟨h2, h3, -⟩; omega
    · rw [if_neg h1, List.mem_filter, h.last (by omega)]
      obtain ⟨p, c, rfl⟩ : ∃ p c, path = p ++ [c] := by
        rcases List.eq_nil_or_concat path with hp | ⟨p, c, hp⟩
        · rw [hp] at h; have := h.len; simp at this; omega
        · exact ⟨p, c, by simpa using hp⟩
      simp only [List.dropLast_concat, List.getLast?_concat, ne_eq, Option.some.injEq, decide_not,
        Bool.not_eq_eq_eq_not, Bool.not_true, decide_eq_false_iff_not, List.mem_append, List.mem_singleton, not_or]
      constructor
      · rintro ⟨⟨h2, h3⟩, h4⟩; exact ⟨h2, ⟨h3, fun h => h4 h.symm⟩, fun h => absurd h h0⟩
      · rintro ⟨h2, ⟨h3, h4⟩, -⟩; exact ⟨⟨h2, h3⟩, fun h => h4 h.symm⟩

theorem node_step {n : ℕ} {path : List ℕ} {l : ℕ} {last : List ℕ} (h : Node n path l last) (hl : l < n) {c : ℕ}
    (hc : c ∈ choices n path l last) : Node n (path ++ [c]) (l + 1) (choices n path l last) := by
  obtain ⟨h1, h2, h3⟩ := (mem_choices h hl c).1 hc
  refine ⟨by rw [List.length_append, h.len]; rfl, hl, ?_, ?_, ?_, ?_⟩
  · rw [List.nodup_append]
    refine ⟨h.nodup, List.nodup_singleton _, ?_⟩
    intro a ha b hb
    rw [List.mem_singleton] at hb
    rintro rfl
    exact h2 (hb ▸ ha)
  · intro x hx
    rw [List.mem_append, List.mem_singleton] at hx
    rcases hx with hx | rfl
    · exact h.lt x hx
    · exact h1
  · rw [if_neg (Nat.succ_ne_zero l)]
    cases path with
    | nil =>
      have : l = 0 := by rw [← h.len]; rfl
      rw [h3 this]; rfl
    | cons a p =>
      have := h.head
      rw [if_neg (by rw [← h.len]; simp)] at this
      exact this
  · intro h4 x
    rw [mem_choices h hl, List.dropLast_concat]
    constructor
    · rintro ⟨h5, h6, -⟩; exact ⟨h5, h6⟩
    · rintro ⟨h5, h6⟩; exact ⟨h5, h6, fun h => absurd h (by omega)⟩

theorem ext_step {n : ℕ} {path : List ℕ} {l : ℕ} {last : List ℕ} (h : Node n path l last) (hl : l < n) :
    Ext n path = {t | ∃ c ∈ choices n path l last, t ∈ Ext n (path ++ [c])} := by
  ext t
  constructor
  · rintro ⟨h1, h2, r, rfl⟩
    cases r with
    | nil => have := tour_length h1; rw [List.append_nil, h.len] at this; omega
    | cons c r =>
      refine ⟨c, (mem_choices h hl c).2 ⟨(h1.2 c).1 (by simp), ?_, ?_⟩, h1, h2, r, by simp⟩
      · intro hc
        exact (List.nodup_append.1 h1.1).2.2 c hc c (by simp) rfl
      · intro h0
        have : path = [] := List.length_eq_zero_iff.1 (h.len.trans h0)
        subst this
        simpa using h2
  · rintro ⟨c, -, h1, h2, h3⟩
    exact ⟨h1, h2, (List.prefix_append path [c]).trans h3⟩

theorem ext_full {n : ℕ} {path : List ℕ} {last : List ℕ} (hn : 0 < n) (h : Node n path n last) : Ext n path = {path} := by
  ext t
  constructor
  · rintro ⟨h1, -, h3⟩
    exact (h3.eq_of_length (h.len.trans (tour_length h1).symm)).symm
  · rintro rfl
    refine ⟨⟨h.nodup, fun i => ⟨h.lt i, fun hi => ?_⟩⟩, ?_, List.prefix_refl _⟩
    · have h1 : t.toFinset = Finset.range n := by
        apply Finset.eq_of_subset_of_card_le
        · intro x hx
          exact Finset.mem_range.2 (h.lt x (List.mem_toFinset.1 hx))
        · rw [Finset.card_range, List.toFinset_card_of_nodup h.nodup, h.len]
      exact List.mem_toFinset.1 (h1 ▸ Finset.mem_range.2 hi)
    · rw [h.head, if_neg (by omega)]

theorem leaf_spec {D : ℕ → ℕ → WithTop R} {n : ℕ} {path last : List ℕ} (hn : 0 < n) (h : Node n path n last)
    (best : WithTop R × List ℕ) : ∃ b, leaf D n path best = .ok b ∧ Improves D (Ext n path) best b := by
  rw [leaf, cost_eq D path n h.len (by rintro rfl; have := h.len; simp at this; omega), ext_full hn h]
  dsimp only
  by_cases hlt : tourLength D path < best.1
  · rw [if_pos hlt]
    exact ⟨_, rfl, Or.inr ⟨path, rfl, rfl⟩, hlt.le, by rintro t rfl; exact le_rfl⟩
  · rw [if_neg hlt]
    exact ⟨_, rfl, Or.inl rfl, le_rfl, by rintro t rfl; exact not_lt.1 hlt⟩

theorem fold_improves {D : ℕ → ℕ → WithTop R} {S : ℕ → Set (List ℕ)}
    (f : WithTop R × List ℕ → ℕ → Except PyErr (WithTop R × List ℕ)) (cs : List ℕ)
    (hf : ∀ c ∈ cs, ∀ b, ∃ b', f b c = .ok b' ∧ Improves D (S c) b b') (b : WithTop R × List ℕ) :
    ∃ b', cs.foldlM f b = .ok b' ∧ Improves D {t | ∃ c ∈ cs, t ∈ S c} b b' := by
  induction cs generalizing b with
  | nil => exact ⟨b, rfl, Or.inl rfl, le_rfl, by rintro t ⟨c, hc, -⟩; simp at hc⟩
  | cons c cs ih =>
    obtain ⟨b1, h1, h2⟩ := hf c (by simp) b
    obtain ⟨b2, h3, h4⟩ := ih (fun c hc => hf c (by simp [hc])) b1
    refine ⟨b2, ?_, ?_⟩
    · rw [List.foldlM_cons, h1]; exact h3
    · have := h2.trans h4
      convert this using 1
      ext t
      simp [Set.mem_union]

theorem backtrack_spec (D : ℕ → ℕ → WithTop R) {n : ℕ} (hn : 0 < n) (k : ℕ) (path : List ℕ) (l : ℕ) (last : List ℕ)
    (hk : n < k + l) (h : Node n path l last) (best : WithTop R × List ℕ) :
    ∃ b, backtrack D n k path l last best = .ok b ∧ Improves D (Ext n path) best b := by
  induction k generalizing path l last best with
  | zero => have := h.le; omega
  | succ k ih =>
    rw [backtrack]
    by_cases hl : l = n
    · subst hl
      rw [if_pos rfl]
      exact leaf_spec hn h best
    · rw [if_neg hl]
      have hlt : l < n := lt_of_le_of_ne h.le hl
      rw [ext_step h hlt]
      exact fold_improves (S := fun c => Ext n (path ++ [c])) _ _
        (fun c hc b => ih (path ++ [c]) (l + 1) _ (by omega) (node_step h hlt hc) b) best

theorem node_root (n : ℕ) : Node n [] 0 [] :=
  ⟨rfl, Nat.zero_le _, List.nodup_nil, by simp, rfl, by omega⟩

theorem depthFirst_spec (D : ℕ → ℕ → WithTop R) {n : ℕ} (hn : 0 < n) :
    ∃ b, depthFirst D n = .ok b ∧ Improves D (Ext n []) (⊤, []) b :=
  backtrack_spec D hn (n + 1) [] 0 [] (by omega) (node_root n) _

/-- What an improvement of the initial value says about all tours. -/
theorem improves_root {D : ℕ → ℕ → WithTop R} {n : ℕ} (hn : 0 < n) {b : WithTop R × List ℕ}
    (h : Improves D (Ext n []) (⊤, []) b) :
    (∀ t, IsTour n t → b.1 ≤ tourLength D t) ∧ (b = (⊤, []) ∨ (IsTour n b.2 ∧ tourLength D b.2 = b.1)) := by
  constructor
  · intro t ht
    obtain ⟨t', h1, h2, h3⟩ := tour_start D hn ht
    rw [← h3]
    exact h.opt t' ⟨h1, h2, List.nil_prefix⟩
  · rcases h.from_ with h | ⟨t, ht, h⟩
    · exact Or.inl h
    · rw [h]; exact Or.inr ⟨ht.1, rfl⟩

end Rosemary.Tsp
