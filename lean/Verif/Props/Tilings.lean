import Verif.Lemmas.Tilings

/-!
# Properties of the tiling counters
-/

namespace Rosemary.Tilings

open Finset

/-- Two squares of the board share an edge. -/
def Adj (a b : ℕ × ℕ) : Prop :=
  (a.1 = b.1 ∧ (a.2 = b.2 + 1 ∨ b.2 = a.2 + 1)) ∨ (a.2 = b.2 ∧ (a.1 = b.1 + 1 ∨ b.1 = a.1 + 1))

/-- A domino: two squares sharing an edge. -/
def IsDomino (t : Finset (ℕ × ℕ)) : Prop := ∃ a b, Adj a b ∧ t = {a, b}

/-- A triomino: three squares connected by edges. -/
def IsTriomino (t : Finset (ℕ × ℕ)) : Prop := ∃ a b c, Adj a b ∧ Adj b c ∧ a ≠ c ∧ t = {a, b, c}

/-! ## Dominoes -/

/-- A domino on the numbered board with `n` columns. -/
def DominoAt (n : Nat) (t : Finset ℕ) : Prop := ∃ s, t = {s, s + n} ∨ (t = {s, s + 1} ∧ (s + 1) % n ≠ 0)

/-- The coordinates of a numbered square. -/
def coord (n : Nat) : ℕ ↪ ℕ × ℕ :=
  ⟨fun s => (s / n, s % n), fun s t h => by
    have h : (s / n, s % n) = (t / n, t % n) := h
    rw [Prod.mk.injEq] at h
    rw [← Nat.div_add_mod s n, ← Nat.div_add_mod t n, h.1, h.2]⟩

theorem coord_eq (n s : Nat) : coord n s = (s / n, s % n) := rfl

theorem coord_mk {n i j : Nat} (hj : j < n) : coord n (i * n + j) = (i, j) := by
  rw [coord_eq, Nat.mul_comm, Nat.mul_add_div (by omega), Nat.mul_add_mod, Nat.div_eq_of_lt hj, Nat.mod_eq_of_lt hj]
  rfl

theorem map_coord_range {m n : Nat} (hn : 1 ≤ n) :
    (Finset.range (m * n)).map (coord n) = Finset.range m ×ˢ Finset.range n := by
  ext ⟨i, j⟩
  rw [mem_map, mem_product, mem_range, mem_range]
  constructor
  · rintro ⟨s, hs, h⟩
    rw [coord_eq, Prod.mk.injEq] at h
    rw [mem_range] at hs
    refine ⟨?_, ?_⟩
    · have := Nat.div_lt_of_lt_mul (by rwa [Nat.mul_comm] at hs : s < n * m); simp only; omega
    · have := Nat.mod_lt s (show 0 < n by omega); simp only; omega
  · rintro ⟨h1, h2⟩
    simp only at h1 h2
    refine ⟨i * n + j, mem_range.2 ?_, coord_mk h2⟩
    nlinarith

theorem dominoAt_iff {n : Nat} (hn : 1 ≤ n) (t : Finset ℕ) : DominoAt n t ↔ IsDomino (t.map (coord n)) := by
  have hlt : ∀ a, a ∈ t.map (coord n) → a.2 < n := by
    intro a ha
    obtain ⟨s, -, rfl⟩ := mem_map.1 ha
    exact Nat.mod_lt s (by omega)
  constructor
  · rintro ⟨s, rfl | ⟨rfl, h⟩⟩
    · refine ⟨coord n s, coord n (s + n), Or.inr ⟨?_, Or.inr ?_⟩, by simp⟩
      · simp [coord_eq]
      · simp only [coord_eq]; exact Nat.add_div_right s (by omega)
    · refine ⟨coord n s, coord n (s + 1), Or.inl ⟨?_, Or.inr ?_⟩, by simp⟩
      · simp only [coord_eq]
        rw [Nat.succ_div, if_neg (fun h' => h (Nat.mod_eq_zero_of_dvd h'))]; rfl
      · simp only [coord_eq]
        rw [Nat.add_mod] at h ⊢
        have h1 := Nat.mod_lt s (show 0 < n by omega)
        by_cases hn1 : n = 1
        · subst hn1; simp [Nat.mod_one] at h
        · rw [Nat.mod_eq_of_lt (show 1 < n by omega)] at h ⊢
          by_cases h2 : s % n + 1 = n
          · rw [h2, Nat.mod_self] at h; exact absurd rfl h
          · rw [Nat.mod_eq_of_lt (by omega)]
  · have key : ∀ a b : ℕ × ℕ, t.map (coord n) = {a, b} →
        (a.1 = b.1 ∧ b.2 = a.2 + 1 ∨ a.2 = b.2 ∧ b.1 = a.1 + 1) → DominoAt n t := by
      rintro ⟨i, j⟩ ⟨i', j'⟩ ht h
      have hj := hlt (i, j) (by rw [ht]; simp)
      have hj' := hlt (i', j') (by rw [ht]; simp)
      simp only at hj hj' h
      have hm : t = {i * n + j, i' * n + j'} := by
        apply map_injective (coord n)
        rw [ht, map_insert, map_singleton, coord_mk hj, coord_mk hj']
      refine ⟨i * n + j, ?_⟩
      rcases h with ⟨rfl, rfl⟩ | ⟨rfl, rfl⟩
      · right
        refine ⟨by rw [hm, Nat.add_assoc], ?_⟩
        rw [Nat.add_assoc, Nat.mul_comm, Nat.mul_add_mod, Nat.mod_eq_of_lt hj']
        omega
      · left
        rw [hm]
        congr 2
        ring
    rintro ⟨a, b, h, ht⟩
    have ht' : t.map (coord n) = {b, a} := by rw [ht, pair_comm]
    rcases h with ⟨h1, h2 | h2⟩ | ⟨h1, h2 | h2⟩
    · exact key b a ht' (Or.inl ⟨h1.symm, h2⟩)
    · exact key a b ht (Or.inl ⟨h1, h2⟩)
    · exact key b a ht' (Or.inr ⟨h1.symm, h2⟩)
    · exact key a b ht (Or.inr ⟨h1, h2⟩)

theorem domino_tries {m n : Nat} (hn : 1 ≤ n) (C U : Finset ℕ) (r : ℕ)
    (hI : U ⊆ Finset.range (m * n) ∧ C = Finset.range (m * n) \ U) (hr : r ∈ U) (hmin : ∀ x ∈ U, r ≤ x) :
    Tries (DominoAt n) (dominoPieces m n C U r) U r := by
  obtain ⟨hU, rfl⟩ := hI
  have hrb := mem_range.1 (hU hr)
  have hfit : ∀ y, (y < m * n ∧ (Finset.range (m * n) \ U) ∩ {r, y} = ∅) ↔ ({r, y} : Finset ℕ) ⊆ U := by
    intro y
    rw [insert_subset_iff, singleton_subset_iff]
    constructor
    · rintro ⟨h1, h2⟩
      refine ⟨hr, ?_⟩
      by_contra hy
      have : y ∈ (Finset.range (m * n) \ U) ∩ {r, y} := by simp [h1, hy]
      rw [h2] at this
      simp at this
    · rintro ⟨-, hy⟩
      refine ⟨mem_range.1 (hU hy), ?_⟩
      rw [eq_empty_iff_forall_notMem]
      intro x hx
      rw [mem_inter, mem_sdiff, mem_insert, mem_singleton] at hx
      rcases hx.2 with rfl | rfl
      · exact hx.1.2 hr
      · exact hx.1.2 hy
  have hmem : ∀ t, t ∈ ((dominoPieces m n (Finset.range (m * n) \ U) U r).filter (fun c => c.2)).map (fun c => c.1) ↔
      (t = {r, r + n} ∧ ({r, r + n} : Finset ℕ) ⊆ U) ∨
        (t = {r, r + 1} ∧ ({r, r + 1} : Finset ℕ) ⊆ U ∧ (r + 1) % n ≠ 0) := by
    intro t
    rw [← hfit, ← hfit]
    simp only [dominoPieces, List.mem_map, List.mem_filter, List.mem_cons, List.not_mem_nil, or_false]
    constructor
    · rintro ⟨c, ⟨rfl | rfl, hc⟩, rfl⟩
      · left; simpa using hc
      · right; simp at hc; simp [hc]
    · rintro (⟨rfl, h⟩ | ⟨rfl, h, h'⟩)
      · exact ⟨_, ⟨Or.inl rfl, by simp [h]⟩, rfl⟩
      · exact ⟨_, ⟨Or.inr rfl, by simp [h, h']⟩, rfl⟩
  constructor
  · have hne : (r + 1) % n ≠ 0 → ({r, r + n} : Finset ℕ) ≠ {r, r + 1} := by
      intro h h'
      have : r + n ∈ ({r, r + 1} : Finset ℕ) := by rw [← h']; simp
      rw [mem_insert, mem_singleton] at this
      have : n = 1 := by omega
      subst this
      simp [Nat.mod_one] at h
    rw [dominoPieces, List.filter_cons, List.filter_cons, List.filter_nil]
    split_ifs with h1 h2
    · simp only [List.map_cons, List.map_nil, List.nodup_cons, List.mem_singleton, List.not_mem_nil,
        not_false_eq_true, List.nodup_nil, and_true]
      simp at h2
      exact hne (by simpa using h2.1.2)
    · simp
    · simp
    · simp
  · intro t
    rw [hmem]
    constructor
    · rintro (⟨rfl, h⟩ | ⟨rfl, h, h'⟩)
      · exact ⟨h, by simp, r, Or.inl rfl⟩
      · exact ⟨h, by simp, r, Or.inr ⟨rfl, h'⟩⟩
    · rintro ⟨h1, h2, s, rfl | ⟨rfl, h3⟩⟩
      · have hs := hmin s (h1 (by simp))
        rw [mem_insert, mem_singleton] at h2
        have : s = r := by omega
        subst this
        exact Or.inl ⟨rfl, h1⟩
      · have hs := hmin s (h1 (by simp))
        rw [mem_insert, mem_singleton] at h2
        have : s = r := by omega
        subst this
        exact Or.inr ⟨rfl, h1, h3⟩

/-! ## Triominoes -/

/-- The four directions. -/
def units : List (ℤ × ℤ) := [(1, 0), (-1, 0), (0, 1), (0, -1)]

/-- A shape moved to `b`. -/
def sh (b : ℤ × ℤ) (S : Finset (ℤ × ℤ)) : Finset Sq := S.image (fun d => sq (b.1 + d.1) (b.2 + d.2))

/-- A triomino on the board of tuples. -/
def TriAt (t : Finset Sq) : Prop := ∃ b, ∃ d ∈ units, ∃ e ∈ units, d ≠ e ∧ t = sh b {d, (0, 0), e}

/-- The six shapes. -/
def shapes : List (Finset (ℤ × ℤ)) :=
  [{(0, 0), (0, 1), (1, 0)}, {(0, 0), (0, 1), (1, 1)}, {(0, 0), (1, 0), (1, 1)}, {(0, 0), (1, 0), (1, -1)},
   {(0, 0), (0, 1), (0, 2)}, {(0, 0), (1, 0), (2, 0)}]

theorem nextPieces_eq (root : Sq) : nextPieces root = shapes.map (sh (ofLex root)) := by
  simp [nextPieces, shapes, sh, image_insert, sub_eq_add_neg]

theorem sq_inj {i j i' j' : ℤ} : sq i j = sq i' j' ↔ i = i' ∧ j = j' := by
  rw [sq, sq, toLex_inj, Prod.mk.injEq]

theorem sh_inj (b : ℤ × ℤ) : Function.Injective (sh b) := by
  apply image_injective
  rintro ⟨i, j⟩ ⟨i', j'⟩ h
  simp only [sq_inj] at h
  ext <;> simp only <;> omega

theorem sh_move (b r : ℤ × ℤ) (S : Finset (ℤ × ℤ)) : sh b S = sh (b + r) (S.image (· - r)) := by
  rw [sh, sh, image_image]
  congr 1
  funext d
  simp only [Function.comp, sq_inj, Prod.fst_add, Prod.snd_add, Prod.fst_sub, Prod.snd_sub]
  constructor <;> ring

theorem shapes_complete : ∀ d ∈ units, ∀ e ∈ units, d ≠ e → ∀ r ∈ [d, (0, 0), e],
    (∀ x ∈ [d, (0, 0), e], r.1 < x.1 ∨ (r.1 = x.1 ∧ r.2 ≤ x.2)) →
      (({d, (0, 0), e} : Finset (ℤ × ℤ)).image (· - r)) ∈ shapes := by decide +kernel

theorem shapes_sound : ∀ S ∈ shapes, (0, 0) ∈ S ∧ ∃ r ∈ S, ∃ d ∈ units, ∃ e ∈ units, d ≠ e ∧
    S.image (· - r) = {d, (0, 0), e} := by decide +kernel

theorem triAt_card (t : Finset Sq) (h : TriAt t) : t.card = 3 := by
  obtain ⟨b, d, hd, e, he, hde, rfl⟩ := h
  rw [sh, card_image_of_injective]
  · have : ∀ d ∈ units, ∀ e ∈ units, d ≠ e → ({d, (0, 0), e} : Finset (ℤ × ℤ)).card = 3 := by decide +kernel
    exact this d hd e he hde
  · rintro ⟨i, j⟩ ⟨i', j'⟩ h
    simp only [sq_inj] at h
    ext <;> simp only <;> omega

theorem mem_sh {b : ℤ × ℤ} {S : Finset (ℤ × ℤ)} {x : Sq} :
    x ∈ sh b S ↔ ∃ d ∈ S, x = sq (b.1 + d.1) (b.2 + d.2) := by
  rw [sh, mem_image]
  exact exists_congr fun d => and_congr_right fun _ => eq_comm

theorem tri_tries (C U : Finset Sq) (r : Sq) (hr : r ∈ U) (hmin : ∀ x ∈ U, r ≤ x) :
    Tries TriAt (triominoPieces C U r) U r := by
  have hL : ((triominoPieces C U r).filter (fun c => c.2)).map (fun c => c.1) =
      (nextPieces r).filter (fun t => decide (t ⊆ U)) := by
    rw [triominoPieces, List.filter_map, List.map_map]
    exact List.map_id _
  rw [Tries, hL, nextPieces_eq]
  constructor
  · refine List.Nodup.filter _ (List.Nodup.map (sh_inj _) ?_)
    decide +kernel
  · intro t
    rw [List.mem_filter, List.mem_map, decide_eq_true_eq]
    constructor
    · rintro ⟨⟨S, hS, rfl⟩, hU⟩
      obtain ⟨h0, q, hq, d, hd, e, he, hde, hSq⟩ := shapes_sound S hS
      refine ⟨hU, mem_sh.2 ⟨(0, 0), h0, ?_⟩, ofLex r + q, d, hd, e, he, hde, ?_⟩
      · simp [sq]
      · rw [sh_move _ q, hSq]
    · rintro ⟨hU, hrt, b, d, hd, e, he, hde, rfl⟩
      obtain ⟨q, hq, hrq⟩ := mem_sh.1 hrt
      have hbq : b + q = ofLex r := by rw [hrq]; rfl
      refine ⟨⟨_, shapes_complete d hd e he hde q (by simpa using hq) ?_, ?_⟩, hU⟩
      · intro x hx
        have := hmin _ (hU (mem_sh.2 ⟨x, by simpa using hx, rfl⟩))
        rw [hrq, sq, sq, Prod.Lex.toLex_le_toLex] at this
        simp only at this
        omega
      · rw [← hbq, ← sh_move]

/-- The squares as tuples. -/
def tup : ℕ × ℕ ↪ Sq :=
  ⟨fun a => sq a.1 a.2, fun a b h => by
    have h : sq a.1 a.2 = sq b.1 b.2 := h
    rw [sq_inj] at h
    ext <;> omega⟩

theorem tup_eq (a : ℕ × ℕ) : tup a = sq a.1 a.2 := rfl

theorem board_eq (m n : Nat) : board m n = (Finset.range m ×ˢ Finset.range n).map tup := by
  rw [board, map_eq_image]
  rfl

theorem mem_units {d : ℤ × ℤ} : d ∈ units ↔ (d.1 = 0 ∧ (d.2 = 1 ∨ d.2 = -1)) ∨ (d.2 = 0 ∧ (d.1 = 1 ∨ d.1 = -1)) := by
  obtain ⟨i, j⟩ := d
  simp only [units, List.mem_cons, List.not_mem_nil, or_false, Prod.mk.injEq]
  omega

theorem triAt_iff (t : Finset (ℕ × ℕ)) : IsTriomino t ↔ TriAt (t.map tup) := by
  constructor
  · rintro ⟨a, b, c, hab, hbc, hac, rfl⟩
    refine ⟨(b.1, b.2), ((a.1 : ℤ) - b.1, (a.2 : ℤ) - b.2), ?_, ((c.1 : ℤ) - b.1, (c.2 : ℤ) - b.2), ?_, ?_, ?_⟩
    · rw [mem_units]; unfold Adj at hab; simp only; omega
    · rw [mem_units]; unfold Adj at hbc; simp only; omega
    · intro h
      rw [Prod.mk.injEq] at h
      exact hac (Prod.ext (by omega) (by omega))
    · simp [sh, image_insert, tup_eq]
  · rintro ⟨b, d, hd, e, he, hde, ht⟩
    have hm : ∀ x ∈ ({d, (0, 0), e} : Finset (ℤ × ℤ)), ∃ a : ℕ × ℕ, tup a = sq (b.1 + x.1) (b.2 + x.2) := by
      intro x hx
      have : sq (b.1 + x.1) (b.2 + x.2) ∈ t.map tup := by rw [ht]; exact mem_sh.2 ⟨x, hx, rfl⟩
      obtain ⟨a, -, h⟩ := mem_map.1 this
      exact ⟨a, h⟩
    obtain ⟨a1, h1⟩ := hm d (by simp)
    obtain ⟨a2, h2⟩ := hm (0, 0) (by simp)
    obtain ⟨a3, h3⟩ := hm e (by simp)
    refine ⟨a1, a2, a3, ?_, ?_, ?_, ?_⟩
    · rw [tup_eq, sq_inj] at h1 h2
      rw [mem_units] at hd
      unfold Adj
      simp only at h1 h2 hd
      omega
    · rw [tup_eq, sq_inj] at h2 h3
      rw [mem_units] at he
      unfold Adj
      simp only at h2 h3 he
      omega
    · intro h
      rw [h, h3, sq_inj] at h1
      exact hde (Prod.ext (by omega) (by omega))
    · apply map_injective tup
      rw [ht, map_insert, map_insert, map_singleton, h1, h2, h3, sh, image_insert, image_insert, image_singleton]

theorem isTriomino_swap (t : Finset (ℕ × ℕ)) :
    IsTriomino t ↔ IsTriomino (t.map (Equiv.prodComm ℕ ℕ).toEmbedding) := by
  have h : ∀ t, IsTriomino t → IsTriomino (t.map (Equiv.prodComm ℕ ℕ).toEmbedding) := by
    rintro _ ⟨a, b, c, hab, hbc, hac, rfl⟩
    refine ⟨a.swap, b.swap, c.swap, ?_, ?_, fun h => hac (Prod.swap_injective h), by simp⟩
    · exact hab.symm
    · exact hbc.symm
  refine ⟨h t, fun ht => ?_⟩
  have := h _ ht
  rwa [map_map, show (Equiv.prodComm ℕ ℕ).toEmbedding.trans (Equiv.prodComm ℕ ℕ).toEmbedding =
    Function.Embedding.refl _ from rfl, map_refl] at this

theorem board_swap (m n : Nat) : (Finset.range m ×ˢ Finset.range n).map (Equiv.prodComm ℕ ℕ).toEmbedding =
    Finset.range n ×ˢ Finset.range m := by
  ext ⟨i, j⟩
  simp [and_comm]

theorem tri_count (hit : Cache Sq → Finset Sq × Finset Sq → Bool) (m n : Nat) (hm : 1 ≤ m) (hn : 1 ≤ n) :
    ∃ D, backtrack triominoPieces hit (m * n + 1) ∅ (board m n) [] =
      .ok (N IsTriomino (Finset.range m ×ˢ Finset.range n), D) := by
  have hc : (board m n).card = m * n := by rw [board_eq, card_map, card_product, card_range, card_range]
  obtain ⟨D, h, -⟩ := backtrack_spec TriAt (c := 3) (by omega) triAt_card triominoPieces hit (fun _ _ => True)
    (fun _ _ _ _ _ => trivial) (fun C U r _ => tri_tries C U r) (m * n + 1) ∅ (board m n) [] trivial
    (card_pos.1 (by rw [hc]; exact Nat.mul_pos hm hn)) (by omega) (by intro e he; simp at he)
  refine ⟨D, ?_⟩
  rw [h, board_eq, ← N_map tup IsTriomino TriAt _ (fun t _ => triAt_iff t)]

end Rosemary.Tilings

namespace Rosemary.Props

open Rosemary.Tilings

/-! ## C59 -/

/-- C59, `number_of_domino_tilings(m, n)` is the number of partitions of the `m` by `n` board into dominoes,
whatever the dictionary finds. -/
theorem C59_domino_tilings (hit : Cache Nat → Finset Nat × Finset Nat → Bool) (m n : Nat) (hm : 1 ≤ m) (hn : 1 ≤ n) :
    numberOfDominoTilings hit m n =
      .ok (Nat.card {T : Finpartition (Finset.range m ×ˢ Finset.range n) // ∀ t ∈ T.parts, IsDomino t}) := by
  have hmn : 0 < m * n := Nat.mul_pos hm hn
  have hcard : ∀ t, DominoAt n t → t.card = 2 := by
    rintro t ⟨s, rfl | ⟨rfl, -⟩⟩
    · exact Finset.card_pair (by omega)
    · exact Finset.card_pair (by omega)
  obtain ⟨D, h, -⟩ := backtrack_spec (DominoAt n) (c := 2) (by omega) hcard (dominoPieces m n) hit
    (fun C U => U ⊆ Finset.range (m * n) ∧ C = Finset.range (m * n) \ U) (by
      rintro C U t ⟨h1, rfl⟩ ht
      refine ⟨Finset.sdiff_subset.trans h1, ?_⟩
      ext x
      have := @ht x
      have := @h1 x
      simp only [Finset.mem_union, Finset.mem_sdiff] at *
      tauto) (fun C U r hI => domino_tries hn C U r hI) (m * n + 1) ∅ (Finset.range (m * n)) []
    ⟨Finset.Subset.rfl, by simp⟩ (Finset.card_pos.1 (by rw [Finset.card_range]; exact hmn))
    (by rw [Finset.card_range]; omega) (by intro e he; simp at he)
  rw [numberOfDominoTilings, h]
  dsimp only
  rw [← N_eq_card, ← map_coord_range hn, N_map (coord n) _ IsDomino _ (fun t _ => dominoAt_iff hn t)]

example : numberOfDominoTilings (fun _ _ => true) 4 3 = .ok 11 := by decide +kernel

/-- C59, a board without squares is refused: `min` of the empty set raises ValueError. -/
theorem C59_empty_board (hit : Cache Nat → Finset Nat × Finset Nat → Bool) (m n : Nat) (h : m * n = 0) :
    numberOfDominoTilings hit m n = .error .valueError := by
  rw [numberOfDominoTilings, h]
  cases hh : hit [] (∅, ∅) <;> simp [backtrack, hh]

/-! ## C84 -/

/-- C84, `triomino_tilings(nrows, ncols)` is the number of partitions of the board into triominoes. -/
theorem C84_triomino_tilings (hit : Cache Sq → Finset Sq × Finset Sq → Bool) (m n : Nat) (hm : 1 ≤ m) (hn : 1 ≤ n) :
    triominoTilings hit m n =
      .ok (Nat.card {T : Finpartition (Finset.range m ×ˢ Finset.range n) // ∀ t ∈ T.parts, IsTriomino t}) := by
  rw [← N_eq_card, triominoTilings]
  by_cases h : m < n
  · rw [if_pos h]
    dsimp only
    obtain ⟨D, hD⟩ := tri_count hit n m hn hm
    rw [hD]
    dsimp only
    rw [← board_swap m n, ← N_map _ IsTriomino IsTriomino _ (fun t _ => isTriomino_swap t)]
  · rw [if_neg h]
    dsimp only
    obtain ⟨D, hD⟩ := tri_count hit m n hm hn
    rw [hD]

example : triominoTilings (fun _ _ => true) 3 4 = .ok 23 := by decide +kernel

/-- C84, a board without squares is refused. -/
theorem C84_empty_board (hit : Cache Sq → Finset Sq × Finset Sq → Bool) (m n : Nat) (h : m = 0 ∨ n = 0) :
    triominoTilings hit m n = .error .valueError := by
  have hb : ∀ m n, m = 0 ∨ n = 0 → board m n = ∅ := by
    rintro m n (rfl | rfl) <;> simp [board]
  rw [triominoTilings]
  split
  rename_i nrows ncols heq
  have : board nrows ncols = ∅ := by
    apply hb
    split_ifs at heq <;> rw [Prod.mk.injEq] at heq <;> omega
  rw [this]
  cases hh : hit [] (∅, ∅) <;> simp [backtrack, hh]

end Rosemary.Props
