import Verif.Lemmas.ExactCoverB
import Verif.Props.Tilings
import Mathlib.Data.List.Nodup

/-!
# Properties of the exact cover solvers

`IsCover n Y C S` says that the set `S` of row numbers below `n` is an exact cover of `C`: every chosen row is
nonempty and inside `C`, and every element of `C` lies in exactly one chosen row.
-/

namespace Rosemary.ExactCover

open Finset

variable {κ : Type} [DecidableEq κ]

theorem isCover_iff (n : ℕ) (Y : ℕ → Finset κ) (C : Finset κ) (S : Finset ℕ) : IsCover n Y C S ↔
    (∀ i ∈ S, i < n ∧ (Y i).Nonempty ∧ Y i ⊆ C) ∧ ∀ x ∈ C, ∃! i, i ∈ S ∧ x ∈ Y i := Iff.rfl

theorem rep_init (target : List κ) (sets : List (List κ)) (hin : ∀ y ∈ sets, ∀ k ∈ y, k ∈ target) :
    ∃ X, addRows (target.foldl (fun X j => Dict.set X j ∅) ([] : Dict κ (Finset ℕ))) 0 sets = .ok X ∧
      Rep sets X target.toFinset := by
  obtain ⟨h1, h2⟩ := init_spec target ([] : Dict κ (Finset ℕ)) (by simp [Dict.WF, Dict.keys])
  obtain ⟨X, h3, h4, h5⟩ := addRows_spec sets 0 _ h1 (by
    intro y hy k hk
    rw [h2, if_pos (hin y hy k hk)]
    exact ⟨∅, rfl⟩)
  refine ⟨X, h3, h4, fun j => ?_⟩
  rw [h5, h2]
  by_cases hj : j ∈ target
  · rw [if_pos hj, if_pos (List.mem_toFinset.2 hj), Option.map_some]
    congr 1
    ext i
    rw [mem_rows, empty_union, mem_image]
    simp only [mem_filter, mem_range, zero_add, exists_eq_right, mem_row]
    refine and_congr_right fun hi => ⟨fun h => ⟨?_, h⟩, fun h => h.2⟩
    intro k hk
    rw [mem_row] at hk
    rw [List.mem_toFinset]
    refine hin _ ?_ k hk
    rw [List.getD_eq_getElem?_getD, List.getElem?_eq_getElem hi]
    exact List.getElem_mem hi
  · rw [if_neg hj, if_neg (by rwa [List.mem_toFinset]), Dict.get?, Option.map_none]

theorem Rep.card_le {Y : List (List κ)} {X : Dict κ (Finset ℕ)} {C : Finset κ} (h : Rep Y X C) : C.card ≤ X.length := by
  have : C ⊆ (Dict.keys X).toFinset := by
    intro k hk
    rw [List.mem_toFinset, ← Dict.get?_isSome, h.2, if_pos hk]
    exact ⟨_, rfl⟩
  refine (card_le_card this).trans ((List.toFinset_card_le _).trans ?_)
  rw [Dict.keys, List.length_map]

/-- A set of chosen rows corresponds to a partition into pieces. -/
theorem card_covers (n : ℕ) (Y : ℕ → Finset κ) (C : Finset κ) (Piece : Finset κ → Prop)
    (hinj : ∀ i < n, ∀ j < n, Y i = Y j → i = j)
    (hp : ∀ t, t ⊆ C → (Piece t ↔ ∃ i < n, Y i = t)) :
    Nat.card {S : Finset ℕ // IsCover n Y C S} = Tilings.N Piece C := by
  classical
  rw [Tilings.N, ← Nat.card_eq_finsetCard]
  have hto : ∀ S : {S : Finset ℕ // IsCover n Y C S}, S.1.image Y ∈
      (SetPartitions.setParts C).filter (fun T => ∀ t ∈ T, Piece t) := by
    rintro ⟨S, h1, h2⟩
    rw [mem_filter, SetPartitions.mem_setParts]
    refine ⟨⟨?_, ?_, ?_⟩, ?_⟩
    · intro B hB
      obtain ⟨i, hi, rfl⟩ := mem_image.1 hB
      exact (h1 i hi).2.1
    · intro B hB D hD hne
      obtain ⟨i, hi, rfl⟩ := mem_image.1 hB
      obtain ⟨j, hj, rfl⟩ := mem_image.1 hD
      rw [disjoint_left]
      intro x hx hx'
      have := (h2 x ((h1 i hi).2.2 hx)).unique ⟨hi, hx⟩ ⟨hj, hx'⟩
      subst this
      exact hne rfl
    · intro x
      constructor
      · intro hx
        obtain ⟨i, ⟨hi, hxi⟩, -⟩ := h2 x hx
        exact ⟨Y i, mem_image_of_mem _ hi, hxi⟩
      · rintro ⟨B, hB, hx⟩
        obtain ⟨i, hi, rfl⟩ := mem_image.1 hB
        exact (h1 i hi).2.2 hx
    · intro t ht
      obtain ⟨i, hi, rfl⟩ := mem_image.1 ht
      exact (hp _ (h1 i hi).2.2).2 ⟨i, (h1 i hi).1, rfl⟩
  refine Nat.card_eq_of_bijective (fun S => ⟨S.1.image Y, hto S⟩) ⟨?_, ?_⟩
  · rintro ⟨S, h1, h2⟩ ⟨S', h1', h2'⟩ h
    simp only [Subtype.mk.injEq] at h
    apply Subtype.ext
    change S = S'
    ext i
    constructor
    · intro hi
      have : Y i ∈ S'.image Y := by rw [← h]; exact mem_image_of_mem _ hi
      obtain ⟨j, hj, e⟩ := mem_image.1 this
      rw [← hinj j (h1' j hj).1 i (h1 i hi).1 e]
      exact hj
    · intro hi
      have : Y i ∈ S.image Y := by rw [h]; exact mem_image_of_mem _ hi
      obtain ⟨j, hj, e⟩ := mem_image.1 this
      rw [← hinj j (h1 j hj).1 i (h1' i hi).1 e]
      exact hj
  · rintro ⟨T, hT⟩
    have hT' := hT
    rw [mem_filter, SetPartitions.mem_setParts] at hT'
    obtain ⟨⟨g1, g2, g3⟩, g4⟩ := hT'
    have hsub : ∀ t ∈ T, t ⊆ C := fun t ht x hx => (g3 x).2 ⟨t, ht, hx⟩
    have himg : ((Finset.range n).filter (fun i => Y i ∈ T)).image Y = T := by
      ext t
      rw [mem_image]
      constructor
      · rintro ⟨i, hi, rfl⟩; exact (mem_filter.1 hi).2
      · intro ht
        obtain ⟨i, hi, rfl⟩ := (hp t (hsub t ht)).1 (g4 t ht)
        exact ⟨i, mem_filter.2 ⟨mem_range.2 hi, ht⟩, rfl⟩
    refine ⟨⟨(Finset.range n).filter (fun i => Y i ∈ T), ?_, ?_⟩, Subtype.ext himg⟩
    · intro i hi
      rw [mem_filter, mem_range] at hi
      exact ⟨hi.1, g1 _ hi.2, hsub _ hi.2⟩
    · intro x hx
      obtain ⟨t, ht, hxt⟩ := (g3 x).1 hx
      obtain ⟨i, hi, rfl⟩ := (hp t (hsub t ht)).1 (g4 t ht)
      refine ⟨i, ⟨mem_filter.2 ⟨mem_range.2 hi, ht⟩, hxt⟩, ?_⟩
      rintro j ⟨hj, hxj⟩
      rw [mem_filter, mem_range] at hj
      refine hinj j hj.1 i hi ?_
      by_contra hne
      exact disjoint_left.1 (g2 _ hj.2 _ ht hne) hxj hxt

theorem bits_inj {nb v w : ℕ} (hv : v < 2 ^ nb) (hw : w < 2 ^ nb) (h : bits nb v = bits nb w) : v = w := by
  apply Nat.eq_of_testBit_eq
  intro b
  have := Finset.ext_iff.1 h b
  rw [mem_bits, mem_bits] at this
  by_cases hb : b < nb
  · simp only [hb, true_and] at this
    rw [Bool.eq_iff_iff]; exact this
  · rw [Nat.testBit_lt_two_pow (lt_of_lt_of_le hv (Nat.pow_le_pow_right (by norm_num) (not_lt.1 hb))),
      Nat.testBit_lt_two_pow (lt_of_lt_of_le hw (Nat.pow_le_pow_right (by norm_num) (not_lt.1 hb)))]

theorem vec_eq {ints : List ℕ} {i : ℕ} (hi : i < ints.length) : vec ints i = ints[i] := by
  rw [vec, List.getD_eq_getElem?_getD, List.getElem?_eq_getElem hi]; rfl

theorem numBits_eq {ints : List ℕ} {nb : ℕ} (hlt : ∀ v ∈ ints, v < 2 ^ nb)
    (hex : nb = 0 ∨ ∃ v ∈ ints, v.testBit (nb - 1) = true) : (Binary.init ints).numBits = nb := by
  obtain ⟨-, -, h3, h4⟩ := init_ok_aux ints ⟨[], 0⟩
  rw [Binary.init]
  dsimp only at h3 h4
  apply le_antisymm
  · rcases h4 with h4 | ⟨v, hv, h4⟩
    · rw [h4]; exact Nat.zero_le _
    · rw [h4]; exact Nat.size_le.2 (hlt v hv)
  · rcases hex with rfl | ⟨v, hv, hb⟩
    · exact Nat.zero_le _
    · refine le_trans ?_ (h3 v hv)
      have := testBit_lt (Nat.lt_size_self v) hb
      omega

/-! ## Dominoes -/

theorem testBit_two (a b k : ℕ) : ((1 <<< a) ||| (1 <<< b)).testBit k = true ↔ k = a ∨ k = b := by
  rw [Nat.testBit_or, Nat.one_shiftLeft, Nat.one_shiftLeft, Nat.testBit_two_pow, Nat.testBit_two_pow,
    Bool.or_eq_true, decide_eq_true_eq, decide_eq_true_eq, eq_comm (a := a), eq_comm (a := b)]

theorem two_lt {a b nb : ℕ} (ha : a < nb) (hb : b < nb) : (1 <<< a) ||| (1 <<< b) < 2 ^ nb := by
  rw [Nat.one_shiftLeft, Nat.one_shiftLeft]
  exact Nat.or_lt_two_pow (Nat.pow_lt_pow_right (by norm_num) ha) (Nat.pow_lt_pow_right (by norm_num) hb)

theorem bits_two {a b nb : ℕ} (ha : a < nb) (hb : b < nb) : bits nb ((1 <<< a) ||| (1 <<< b)) = {a, b} := by
  ext k
  rw [mem_bits, testBit_two, mem_insert, mem_singleton]
  constructor
  · exact fun h => h.2
  · intro h; refine ⟨?_, h⟩; rcases h with rfl | rfl <;> assumption

theorem two_inj {a k b m : ℕ} (hk : 1 ≤ k) (hm : 1 ≤ m)
    (h : (1 <<< a) ||| (1 <<< (a + k)) = (1 <<< b) ||| (1 <<< (b + m))) : a = b ∧ k = m := by
  have e : ∀ x, (x = a ∨ x = a + k) ↔ (x = b ∨ x = b + m) := fun x => by
    rw [← testBit_two, ← testBit_two, h]
  have h1 := e a
  have h2 := e b
  have h3 := e (a + k)
  have h4 := e (b + m)
  omega

theorem mem_dominoInts {n v : ℕ} : v ∈ dominoInts n ↔ ∃ i < n * n,
    (i + n < n * n ∧ v = (1 <<< i) ||| (1 <<< (i + n))) ∨
    (i + 1 < n * n ∧ (i + 1) % n ≠ 0 ∧ v = (1 <<< i) ||| (1 <<< (i + 1))) := by
  rw [dominoInts, List.mem_flatMap]
  refine exists_congr fun i => ?_
  rw [List.mem_range, List.mem_append]
  refine and_congr_right fun _ => or_congr ?_ ?_
  · split_ifs with h <;> simp [h]
  · split_ifs with h
    · simp [h]
    · simp only [List.not_mem_nil, false_iff]; tauto

theorem nodup_dominoInts (n : ℕ) : (dominoInts n).Nodup := by
  rcases Nat.eq_zero_or_pos n with rfl | hn
  · simp [dominoInts]
  · rw [dominoInts, List.nodup_flatMap]
    constructor
    · intro i _
      refine List.Nodup.append (by split_ifs <;> simp) (by split_ifs <;> simp) ?_
      intro v h1 h2
      split_ifs at h1 h2 with g1 g2
      · simp only [List.mem_singleton] at h1 h2
        have := two_inj hn (le_refl 1) (h1.symm.trans h2)
        have e : n = 1 := this.2
        rw [e, Nat.mod_one] at g2
        exact g2.2 rfl
      all_goals simp at h1 h2
    · refine List.nodup_range.pairwise_of_forall_ne ?_
      intro i _ j _ hij
      simp only [Function.onFun]
      have key : ∀ i v, (v ∈ (if i + n < n * n then [(1 <<< i) ||| (1 <<< (i + n))] else []) ++
          (if i + 1 < n * n ∧ (i + 1) % n ≠ 0 then [(1 <<< i) ||| (1 <<< (i + 1))] else [])) →
          ∃ k, 1 ≤ k ∧ v = (1 <<< i) ||| (1 <<< (i + k)) := by
        intro i v hv
        rcases List.mem_append.1 hv with h | h
        · split_ifs at h
          · exact ⟨n, hn, List.mem_singleton.1 h⟩
          · simp at h
        · split_ifs at h
          · exact ⟨1, le_refl 1, List.mem_singleton.1 h⟩
          · simp at h
      intro v h1 h2
      obtain ⟨k, hk, e1⟩ := key i v h1
      obtain ⟨m, hm, e2⟩ := key j v h2
      exact hij (two_inj hk hm (e1.symm.trans e2)).1

/-! ## Langford pairings -/

/-- A Langford sequence: a word of length `2 n` over `1, ..., n` in which every number `p` occurs at exactly two
places, with `p` other entries between them. -/
def IsLangford (n : ℕ) (w : List ℕ) : Prop :=
  w.length = 2 * n ∧ (∀ x ∈ w, 1 ≤ x ∧ x ≤ n) ∧
    ∀ p, 1 ≤ p → p ≤ n → ∃ i, i + p + 1 < 2 * n ∧ ∀ k < 2 * n, w.getD k 0 = p ↔ k = i ∨ k = i + p + 1

/-- The choices: number and larger place. -/
def choices (n : ℕ) : List (ℕ × ℕ) :=
  (List.range' 1 n).flatMap (fun p => ((List.range (2 * n)).reverse.filter (fun l => p + 1 ≤ l)).map (fun l => (p, l)))

theorem mem_choices {n p l : ℕ} : (p, l) ∈ choices n ↔ 1 ≤ p ∧ p ≤ n ∧ p + 1 ≤ l ∧ l < 2 * n := by
  rw [choices, List.mem_flatMap]
  constructor
  · rintro ⟨q, h1, h2⟩
    obtain ⟨m, h3, h4⟩ := List.mem_map.1 h2
    rw [List.mem_filter, List.mem_reverse, List.mem_range, decide_eq_true_eq] at h3
    rw [List.mem_range'_1] at h1
    rw [Prod.mk.injEq] at h4
    omega
  · intro h
    refine ⟨p, List.mem_range'_1.2 (by omega), List.mem_map.2 ⟨l, ?_, rfl⟩⟩
    rw [List.mem_filter, List.mem_reverse, List.mem_range, decide_eq_true_eq]
    omega

theorem nodup_choices (n : ℕ) : (choices n).Nodup := by
  rw [choices, List.nodup_flatMap]
  constructor
  · intro p _
    refine List.Nodup.map (fun a b h => (Prod.mk.inj h).2) (List.Nodup.filter _ (List.nodup_reverse.2 List.nodup_range))
  · refine (List.nodup_range' (s := 1) (n := n)).pairwise_of_forall_ne ?_
    intro p _ q _ hpq
    intro v h1 h2
    obtain ⟨l, -, rfl⟩ := List.mem_map.1 h1
    obtain ⟨m, -, h⟩ := List.mem_map.1 h2
    exact hpq (Prod.mk.inj h).1.symm

/-- The bit vector of a choice. -/
def code (n : ℕ) (c : ℕ × ℕ) : ℕ := (1 <<< (3 * n - c.1)) ||| (1 <<< c.2) ||| (1 <<< (c.2 - c.1 - 1))

theorem langfordLoop_eq (c p : ℕ) (l : ℕ) : langfordLoop c p l =
    ((List.range (l + 1)).reverse.filter (fun l => p + 1 ≤ l)).map (fun l => c ||| (1 <<< l) ||| (1 <<< (l - p - 1))) := by
  induction l with
  | zero =>
    rw [langfordLoop, if_neg (by omega)]
    simp
  | succ l ih =>
    rw [langfordLoop]
    by_cases h : p + 1 ≤ l + 1
    · rw [if_pos h, List.range_succ, List.reverse_append, List.reverse_singleton, List.singleton_append,
        List.filter_cons_of_pos (by simpa using h), List.map_cons, Nat.add_sub_cancel, ih]
    · rw [if_neg h]
      symm
      rw [List.map_eq_nil_iff, List.filter_eq_nil_iff]
      intro x hx
      rw [List.mem_reverse, List.mem_range] at hx
      simp
      omega

theorem langfordInts_eq (n : ℕ) : langfordInts n = (choices n).map (code n) := by
  rw [langfordInts, choices, List.map_flatMap]
  refine List.flatMap_congr fun p hp => ?_
  rw [List.mem_range'_1] at hp
  rw [langfordLoop_eq, List.map_map, Nat.sub_add_cancel (by omega)]
  rfl

theorem testBit_code (n : ℕ) (c : ℕ × ℕ) (k : ℕ) : (code n c).testBit k = true ↔
    k = 3 * n - c.1 ∨ k = c.2 ∨ k = c.2 - c.1 - 1 := by
  rw [code, Nat.testBit_or, Nat.testBit_or, Nat.one_shiftLeft, Nat.one_shiftLeft, Nat.one_shiftLeft,
    Nat.testBit_two_pow, Nat.testBit_two_pow, Nat.testBit_two_pow, Bool.or_eq_true, Bool.or_eq_true,
    decide_eq_true_eq, decide_eq_true_eq, decide_eq_true_eq, or_assoc, eq_comm (b := k), eq_comm (b := k),
    eq_comm (b := k)]

theorem code_lt {n : ℕ} {c : ℕ × ℕ} (hc : c ∈ choices n) : code n c < 2 ^ (3 * n) := by
  obtain ⟨p, l⟩ := c
  rw [mem_choices] at hc
  rw [code, Nat.one_shiftLeft, Nat.one_shiftLeft, Nat.one_shiftLeft]
  refine Nat.or_lt_two_pow (Nat.or_lt_two_pow ?_ ?_) ?_ <;> refine Nat.pow_lt_pow_right (by norm_num) ?_ <;>
    dsimp only <;> omega

theorem langford_numBits {n : ℕ} (hn : 2 ≤ n) : (Binary.init (langfordInts n)).numBits = 3 * n := by
  apply numBits_eq
  · intro v hv
    rw [langfordInts_eq] at hv
    obtain ⟨c, hc, rfl⟩ := List.mem_map.1 hv
    exact code_lt hc
  · right
    refine ⟨code n (1, 2), ?_, (testBit_code _ _ _).2 (Or.inl rfl)⟩
    rw [langfordInts_eq]
    exact List.mem_map_of_mem (mem_choices.2 (by omega))

theorem card_langford {n : ℕ} (hn : 2 ≤ n) :
    Nat.card {S : Finset ℕ // IsCover (langfordInts n).length
      (fun i => bits (3 * n) (vec (langfordInts n) i)) (Finset.range (3 * n)) S} =
    Nat.card {w : List ℕ // IsLangford n w} := by
  classical
  set ch : ℕ → ℕ × ℕ := fun i => (choices n).getD i (0, 0) with hch
  set m := (langfordInts n).length with hm
  have hmc : m = (choices n).length := by rw [hm, langfordInts_eq, List.length_map]
  set Y : ℕ → Finset ℕ := fun i => bits (3 * n) (vec (langfordInts n) i) with hY
  have hchm : ∀ i < m, ch i ∈ choices n := by
    intro i hi
    rw [hmc] at hi
    rw [hch]
    simp only [List.getD_eq_getElem?_getD, List.getElem?_eq_getElem hi, Option.getD_some]
    exact List.getElem_mem hi
  have hchv : ∀ i < m, 1 ≤ (ch i).1 ∧ (ch i).1 ≤ n ∧ (ch i).1 + 1 ≤ (ch i).2 ∧ (ch i).2 < 2 * n := fun i hi =>
    mem_choices.1 (hchm i hi)
  have hchi : ∀ i < m, ∀ j < m, ch i = ch j → i = j := by
    intro i hi j hj h
    rw [hmc] at hi hj
    rw [hch] at h
    simp only [List.getD_eq_getElem?_getD, List.getElem?_eq_getElem hi, List.getElem?_eq_getElem hj,
      Option.getD_some] at h
    exact (nodup_choices n).getElem_inj_iff.1 h
  have hchs : ∀ p l, 1 ≤ p → p ≤ n → p + 1 ≤ l → l < 2 * n → ∃ i < m, ch i = (p, l) := by
    intro p l h1 h2 h3 h4
    obtain ⟨i, hi, h⟩ := List.getElem_of_mem (mem_choices.2 ⟨h1, h2, h3, h4⟩)
    refine ⟨i, by rw [hmc]; exact hi, ?_⟩
    rw [hch]
    simp only [List.getD_eq_getElem?_getD, List.getElem?_eq_getElem hi, Option.getD_some, h]
  have hmem : ∀ i < m, ∀ k, k ∈ Y i ↔ k = 3 * n - (ch i).1 ∨ k = (ch i).2 ∨ k = (ch i).2 - (ch i).1 - 1 := by
    intro i hi k
    have e : vec (langfordInts n) i = code n (ch i) := by
      have hi' := hi
      rw [hmc] at hi'
      rw [vec_eq hi, hch]
      simp only [langfordInts_eq, List.getElem_map, List.getD_eq_getElem?_getD, List.getElem?_eq_getElem hi',
        Option.getD_some]
    have hv := hchv i hi
    rw [hY, mem_bits, e, testBit_code]
    constructor
    · exact fun h => h.2
    · intro h; refine ⟨?_, h⟩; omega
  symm
  set Psi : List ℕ → Finset ℕ := fun w => (Finset.range m).filter
    (fun i => w.getD (ch i).2 0 = (ch i).1 ∧ w.getD ((ch i).2 - (ch i).1 - 1) 0 = (ch i).1) with hPsi
  have hPsim : ∀ w i, i ∈ Psi w ↔ i < m ∧ w.getD (ch i).2 0 = (ch i).1 ∧
      w.getD ((ch i).2 - (ch i).1 - 1) 0 = (ch i).1 := by
    intro w i; rw [hPsi, mem_filter, mem_range]
  -- the row of a number in a Langford sequence
  have hrow : ∀ w, IsLangford n w → ∀ p, 1 ≤ p → p ≤ n → ∃ i, i ∈ Psi w ∧ (ch i).1 = p ∧
      (∀ k < 2 * n, w.getD k 0 = p ↔ k = (ch i).2 ∨ k = (ch i).2 - p - 1) ∧
      ∀ j, j ∈ Psi w → (ch j).1 = p → j = i := by
    intro w hw p h1 h2
    obtain ⟨a, ha, hk⟩ := hw.2.2 p h1 h2
    obtain ⟨i, hi, hci⟩ := hchs p (a + p + 1) h1 h2 (by omega) ha
    have e : a + p + 1 - p - 1 = a := by omega
    refine ⟨i, ?_, by rw [hci], ?_, ?_⟩
    · rw [hPsim, hci]
      simp only [e]
      exact ⟨hi, (hk _ ha).2 (Or.inr rfl), (hk _ (by omega)).2 (Or.inl rfl)⟩
    · intro k hk'
      rw [hk k hk', hci]
      simp only [e]
      exact or_comm
    · intro j hj hjp
      rw [hPsim] at hj
      have hv := hchv j hj.1
      refine hchi j hj.1 i hi ?_
      rw [hjp] at hj
      have g1 := (hk _ hv.2.2.2).1 hj.2.1
      have g2 := (hk _ (by omega)).1 hj.2.2
      rw [hci]
      refine Prod.ext hjp ?_
      dsimp only
      omega
  have hval : ∀ w, IsLangford n w → ∀ k < 2 * n, 1 ≤ w.getD k 0 ∧ w.getD k 0 ≤ n := by
    intro w hw k hk
    have hk' : k < w.length := by rw [hw.1]; exact hk
    rw [List.getD_eq_getElem?_getD, List.getElem?_eq_getElem hk']
    exact hw.2.1 _ (List.getElem_mem hk')
  have hcover : ∀ w, IsLangford n w → IsCover m Y (Finset.range (3 * n)) (Psi w) := by
    intro w hw
    refine ⟨?_, ?_⟩
    · intro i hi
      rw [hPsim] at hi
      refine ⟨hi.1, ⟨(ch i).2, (hmem i hi.1 _).2 (Or.inr (Or.inl rfl))⟩, ?_⟩
      intro k hk
      exact mem_range.2 (mem_bits.1 hk).1
    · intro x hx
      rw [mem_range] at hx
      by_cases hx2 : x < 2 * n
      · obtain ⟨i, g1, g2, g3, g4⟩ := hrow w hw (w.getD x 0) (hval w hw x hx2).1 (hval w hw x hx2).2
        have hi := ((hPsim w i).1 g1).1
        refine ⟨i, ⟨g1, ?_⟩, ?_⟩
        · rw [hmem i hi, g2]
          exact Or.inr ((g3 x hx2).1 rfl)
        · rintro j ⟨hj, hxj⟩
          refine g4 j hj ?_
          rw [hPsim] at hj
          rw [hmem j hj.1] at hxj
          have hv := hchv j hj.1
          rcases hxj with h | h | h
          · omega
          · rw [h]; exact hj.2.1.symm
          · rw [h]; exact hj.2.2.symm
      · obtain ⟨i, g1, g2, g3, g4⟩ := hrow w hw (3 * n - x) (by omega) (by omega)
        have hi := ((hPsim w i).1 g1).1
        refine ⟨i, ⟨g1, ?_⟩, ?_⟩
        · rw [hmem i hi, g2]; left; omega
        · rintro j ⟨hj, hxj⟩
          refine g4 j hj ?_
          rw [hPsim] at hj
          rw [hmem j hj.1] at hxj
          have hv := hchv j hj.1
          omega
  refine Nat.card_eq_of_bijective (fun w => ⟨Psi w.1, hcover w.1 w.2⟩) ⟨?_, ?_⟩
  · rintro ⟨w, hw⟩ ⟨w', hw'⟩ h
    simp only [Subtype.mk.injEq] at h
    rw [Subtype.mk.injEq]
    have key : ∀ k < 2 * n, w'.getD k 0 = w.getD k 0 := by
      intro k hk
      obtain ⟨i, g1, g2, g3, -⟩ := hrow w hw (w.getD k 0) (hval w hw k hk).1 (hval w hw k hk).2
      have hk' := (g3 k hk).1 rfl
      rw [h] at g1
      rw [hPsim, g2] at g1
      rcases hk' with e | e
      · conv_lhs => rw [e]
        exact g1.2.1
      · conv_lhs => rw [e]
        exact g1.2.2
    apply List.ext_getElem
    · rw [hw.1, hw'.1]
    · intro k h1 h2
      have := key k (by rw [← hw.1]; exact h1)
      rw [List.getD_eq_getElem?_getD, List.getD_eq_getElem?_getD, List.getElem?_eq_getElem h1,
        List.getElem?_eq_getElem h2] at this
      exact this.symm
  · rintro ⟨S, h1, h2⟩
    have hex : ∀ k : ℕ, ∃ i, k < 3 * n → i ∈ S ∧ k ∈ Y i := by
      intro k
      by_cases hk : k < 3 * n
      · obtain ⟨i, hi, -⟩ := h2 k (mem_range.2 hk)
        exact ⟨i, fun _ => hi⟩
      · exact ⟨0, fun h => absurd h hk⟩
    choose f hf using hex
    have hfu : ∀ k < 3 * n, ∀ i ∈ S, k ∈ Y i → f k = i := fun k hk i hi hki =>
      (h2 k (mem_range.2 hk)).unique (hf k hk) ⟨hi, hki⟩
    set w := (List.range (2 * n)).map (fun k => (ch (f k)).1) with hw
    have hwk : ∀ k < 2 * n, w.getD k 0 = (ch (f k)).1 := by
      intro k hk
      rw [hw, List.getD_eq_getElem?_getD, List.getElem?_eq_getElem (by simpa using hk)]
      simp
    -- the number of the row of a place
    have hnum : ∀ k < 2 * n, f (3 * n - (ch (f k)).1) = f k := by
      intro k hk
      have hS := hf k (by omega)
      have hm' := (h1 _ hS.1).1
      have hv := hchv _ hm'
      exact hfu _ (by omega) _ hS.1 ((hmem _ hm' _).2 (Or.inl rfl))
    have hL : IsLangford n w := by
      refine ⟨by simp [hw], ?_, ?_⟩
      · intro x hx
        rw [hw, List.mem_map] at hx
        obtain ⟨k, hk, rfl⟩ := hx
        rw [List.mem_range] at hk
        have hv := hchv _ (h1 _ (hf k (by omega)).1).1
        omega
      · intro p hp1 hp2
        have hS := hf (3 * n - p) (by omega)
        have hm' := (h1 _ hS.1).1
        have hv := hchv _ hm'
        have hp : (ch (f (3 * n - p))).1 = p := by
          have := (hmem _ hm' _).1 hS.2
          omega
        rw [hp] at hv
        refine ⟨(ch (f (3 * n - p))).2 - p - 1, by omega, fun k hk => ?_⟩
        rw [hwk k hk]
        constructor
        · intro hkp
          have e := hnum k hk
          rw [hkp] at e
          have hk2 := (hmem _ (h1 _ (hf k (by omega)).1).1 k).1 (hf k (by omega)).2
          rw [← e, hp] at hk2
          omega
        · intro hk2
          have : f k = f (3 * n - p) := hfu k (by omega) _ hS.1 ((hmem _ hm' _).2 (by rw [hp]; omega))
          rw [this, hp]
    refine ⟨⟨w, hL⟩, Subtype.ext ?_⟩
    ext i
    dsimp only
    rw [hPsim]
    constructor
    · rintro ⟨hi, e1, e2⟩
      have hv := hchv i hi
      rw [hwk _ hv.2.2.2] at e1
      rw [hwk _ (by omega)] at e2
      have n1 := hnum _ hv.2.2.2
      have n2 := hnum ((ch i).2 - (ch i).1 - 1) (by omega)
      rw [e1] at n1
      rw [e2] at n2
      have hS := hf (ch i).2 (by omega)
      have hS2 := hf ((ch i).2 - (ch i).1 - 1) (by omega)
      rw [← n2, n1] at hS2
      have hm' := (h1 _ hS.1).1
      have hv' := hchv _ hm'
      have q1 := (hmem _ hm' _).1 hS.2
      have q2 := (hmem _ hm' _).1 hS2.2
      rw [e1] at q1 q2 hv'
      have : f (ch i).2 = i := by
        refine hchi _ hm' i hi (Prod.ext e1 ?_)
        omega
      rw [← this]
      exact hS.1
    · intro hi
      have hm' := (h1 i hi).1
      have hv := hchv i hm'
      refine ⟨hm', ?_, ?_⟩
      · rw [hwk _ hv.2.2.2, hfu _ (by omega) i hi ((hmem i hm' _).2 (Or.inr (Or.inl rfl)))]
      · rw [hwk _ (by omega), hfu _ (by omega) i hi ((hmem i hm' _).2 (Or.inr (Or.inr rfl)))]

end Rosemary.ExactCover

namespace Rosemary.Props

open Finset Rosemary.ExactCover

/-! ## C61 -/

/-- C61, `algorithmx(target, sets)` (and `algorithm_dlx`), for sets without repeated elements inside the target:
whatever the iteration order of Python sets, it raises nothing and yields every exact cover of the target by nonempty
sets exactly once (`L` lists the chosen positions). -/
theorem C61_algorithmx {κ : Type} [DecidableEq κ] (ord : Finset ℕ → List ℕ)
    (hord : ∀ S, (ord S).Nodup ∧ ∀ x, x ∈ ord S ↔ x ∈ S) (target : List κ) (sets : List (List κ))
    (hnd : ∀ y ∈ sets, y.Nodup) (hin : ∀ y ∈ sets, ∀ k ∈ y, k ∈ target) :
    ∃ L : List (List ℕ), algorithmx ord target sets = .ok (L.map (fun l => l.map (fun i => sets.getD i []))) ∧
      (∀ l ∈ L, l.Nodup) ∧ (L.map List.toFinset).Nodup ∧
      ∀ S, S ∈ L.map List.toFinset ↔
        (∀ i ∈ S, i < sets.length ∧ sets.getD i [] ≠ []) ∧ ∀ x ∈ target, ∃! i, i ∈ S ∧ x ∈ sets.getD i [] := by
  obtain ⟨X, h1, h2⟩ := rep_init target sets hin
  have hY : ∀ i, (sets.getD i []).Nodup := by
    intro i
    by_cases hi : i < sets.length
    · rw [List.getD_eq_getElem?_getD, List.getElem?_eq_getElem hi]; exact hnd _ (List.getElem_mem hi)
    · rw [List.getD_eq_getElem?_getD, List.getElem?_eq_none (by omega)]; exact List.nodup_nil
  obtain ⟨L, X', h3, ⟨h4, h5, h6⟩, -⟩ := solve_spec sets hord hY (X.length + 1) X [] target.toFinset h2
    (Nat.lt_succ_of_le h2.card_le)
  refine ⟨L, ?_, h4, h5, fun S => ?_⟩
  · rw [algorithmx, h1]
    dsimp only
    rw [h3]
    simp
  · rw [h6, and_true, IsCover]
    refine and_congr ?_ ?_
    · refine forall₂_congr fun i _ => and_congr_right fun hi => ?_
      have : row sets i ⊆ target.toFinset := by
        intro k hk
        rw [mem_row] at hk
        rw [List.mem_toFinset]
        refine hin _ ?_ k hk
        rw [List.getD_eq_getElem?_getD, List.getElem?_eq_getElem hi]; exact List.getElem_mem hi
      rw [and_iff_left this, row, List.toFinset_nonempty_iff]
    · simp only [List.mem_toFinset, mem_row]

/-- C61: a set with an element outside the target raises KeyError. -/
theorem C61_key_error {κ : Type} [DecidableEq κ] (ord : Finset ℕ → List ℕ) (target : List κ) (sets : List (List κ))
    (h : ∃ y ∈ sets, ∃ k ∈ y, k ∉ target) : algorithmx ord target sets = .error .keyError := by
  obtain ⟨h1, h2⟩ := init_spec target ([] : Dict κ (Finset ℕ)) (by simp [Dict.WF, Dict.keys])
  rw [algorithmx, addRows_error sets 0 _ h1]
  obtain ⟨y, hy, k, hk, hkt⟩ := h
  exact ⟨y, hy, k, hk, by rw [h2, if_neg hkt]; rfl⟩

example : algorithmx (fun S => (List.range 6).filter (· ∈ S)) [1, 2, 3, 4, 5, 6, 7]
    [[3, 5, 6], [1, 4, 7], [2, 3, 6], [1, 4], [2, 7], [4, 5, 7]] = .ok [[[1, 4], [3, 5, 6], [2, 7]]] := by decide +kernel

/-- C61, `ExactCoverBinary(integers).number_of_solutions()`: the number of ways to choose positions in the list so
that the chosen nonzero integers cover every bit below the greatest bit length exactly once. -/
theorem C61_number_of_solutions (ints : List ℕ) : (Binary.init ints).numberOfSolutions = .ok (Nat.card {S : Finset ℕ //
    IsCover ints.length (fun i => bits (Binary.init ints).numBits (ints.getD i 0))
      (Finset.range (Binary.init ints).numBits) S}) := by
  obtain ⟨L, h1, h2⟩ := numberOfSolutions_spec (init_ok ints)
  rw [h1, lists_card h2]
  rfl

/-- C61: the number of bits is the greatest bit length. -/
theorem C61_num_bits (ints : List ℕ) : (∀ v ∈ ints, v < 2 ^ (Binary.init ints).numBits) ∧
    ((Binary.init ints).numBits = 0 ∨ ∃ v ∈ ints, v.testBit ((Binary.init ints).numBits - 1) = true) := by
  obtain ⟨-, -, h3, h4⟩ := init_ok_aux ints ⟨[], 0⟩
  constructor
  · intro v hv
    exact lt_of_lt_of_le (Nat.lt_size_self v) (Nat.pow_le_pow_right (by norm_num) (h3 v hv))
  · rcases h4 with h4 | ⟨v, hv, h4⟩
    · exact Or.inl h4
    · by_cases h0 : (Binary.init ints).numBits = 0
      · exact Or.inl h0
      · refine Or.inr ⟨v, hv, ?_⟩
        have h4' : (Binary.init ints).numBits = v.size := h4
        rw [h4'] at h0 ⊢
        by_contra hb
        rw [Bool.not_eq_true] at hb
        have : v < 2 ^ (v.size - 1) := by
          refine Nat.lt_pow_two_of_testBit v fun k hk => ?_
          by_cases hk' : k = v.size - 1
          · rw [hk']; exact hb
          · exact Nat.testBit_lt_two_pow (lt_of_lt_of_le (Nat.lt_size_self v)
              (Nat.pow_le_pow_right (by norm_num) (by omega)))
        have := Nat.size_le.2 this
        omega

/-- C61, `ExactCoverBinary(integers).solutions()` terminates and yields the same covers, each exactly once. -/
theorem C61_solutions (ints : List ℕ) : ∃ L : List (List ℕ),
    (Binary.init ints).solutions = some (L.map (fun l => l.map (fun i => ints.getD i 0))) ∧
    (∀ l ∈ L, l.Nodup) ∧ (L.map List.toFinset).Nodup ∧
    ∀ S, S ∈ L.map List.toFinset ↔ IsCover ints.length (fun i => bits (Binary.init ints).numBits (ints.getD i 0))
      (Finset.range (Binary.init ints).numBits) S := by
  obtain ⟨L, h1, h2, h3, h4⟩ := solutions_spec (init_ok ints)
  refine ⟨L, h1, h2, h3, fun S => ?_⟩
  rw [h4, and_true]
  rfl

example : (Binary.init [1, 2, 3, 4, 7, 4]).numberOfSolutions = .ok 5 := by decide +kernel

/-! ## C85 -/

/-- C85, `domino_tilings(n)` is the number of partitions of the `n` by `n` board into dominoes, for `n ≠ 1`. -/
theorem C85_domino_tilings_partial (n : ℕ) (hn : n ≠ 1) : dominoTilings n =
    .ok (Nat.card {T : Finpartition (Finset.range n ×ˢ Finset.range n) // ∀ t ∈ T.parts, Tilings.IsDomino t}) := by
  rcases Nat.eq_zero_or_pos n with rfl | hn0
  · have : dominoTilings 0 = .ok 1 := by decide +kernel
    rw [this, ← Tilings.N_eq_card, Finset.range_zero, Finset.product_empty, Tilings.N_empty]
  · have hnn : n + 2 ≤ n * n := by nlinarith [show 2 ≤ n by omega]
    have hlt : ∀ v ∈ dominoInts n, v < 2 ^ (n * n) := by
      intro v hv
      obtain ⟨i, hi, ⟨h, rfl⟩ | ⟨h, -, rfl⟩⟩ := mem_dominoInts.1 hv
      · exact two_lt hi h
      · exact two_lt hi h
    have hnb : (Binary.init (dominoInts n)).numBits = n * n := by
      refine numBits_eq hlt (Or.inr ⟨(1 <<< (n * n - n - 1)) ||| (1 <<< (n * n - n - 1 + n)), ?_, ?_⟩)
      · exact mem_dominoInts.2 ⟨n * n - n - 1, by omega, Or.inl ⟨by omega, rfl⟩⟩
      · rw [testBit_two]; right; omega
    rw [dominoTilings, C61_number_of_solutions, hnb, ← Tilings.N_eq_card, ← Tilings.map_coord_range hn0,
      ← Tilings.N_map (Tilings.coord n) _ Tilings.IsDomino _ (fun t _ => Tilings.dominoAt_iff hn0 t),
      card_covers _ _ _ (Tilings.DominoAt n)]
    · intro i hi j hj h
      have e := bits_inj (hlt _ (by rw [← vec, vec_eq hi]; exact List.getElem_mem hi))
        (hlt _ (by rw [← vec, vec_eq hj]; exact List.getElem_mem hj)) h
      rw [← vec, ← vec, vec_eq hi, vec_eq hj] at e
      exact (nodup_dominoInts n).getElem_inj_iff.1 e
    · intro t ht
      have key : (∃ i < (dominoInts n).length, bits (n * n) ((dominoInts n).getD i 0) = t) ↔
          ∃ v ∈ dominoInts n, bits (n * n) v = t := by
        constructor
        · rintro ⟨i, hi, h⟩
          exact ⟨_, List.getElem_mem hi, by rw [← vec, vec_eq hi] at h; exact h⟩
        · rintro ⟨v, hv, h⟩
          obtain ⟨i, hi, rfl⟩ := List.getElem_of_mem hv
          exact ⟨i, hi, by rw [← vec, vec_eq hi]; exact h⟩
      rw [key]
      constructor
      · rintro ⟨s, rfl | ⟨rfl, hs⟩⟩
        · rw [insert_subset_iff, singleton_subset_iff, mem_range, mem_range] at ht
          exact ⟨_, mem_dominoInts.2 ⟨s, ht.1, Or.inl ⟨ht.2, rfl⟩⟩, bits_two ht.1 ht.2⟩
        · rw [insert_subset_iff, singleton_subset_iff, mem_range, mem_range] at ht
          exact ⟨_, mem_dominoInts.2 ⟨s, ht.1, Or.inr ⟨ht.2, hs, rfl⟩⟩, bits_two ht.1 ht.2⟩
      · rintro ⟨v, hv, rfl⟩
        obtain ⟨i, hi, ⟨h, rfl⟩ | ⟨h, hm, rfl⟩⟩ := mem_dominoInts.1 hv
        · exact ⟨i, Or.inl (bits_two hi h)⟩
        · exact ⟨i, Or.inr ⟨bits_two hi h, hm⟩⟩

example : dominoTilings 4 = .ok 36 := by decide +kernel

/-- C85: for the single square the result is 1, although it cannot be tiled. -/
theorem C85_single_square : dominoTilings 1 = .ok 1 ∧
    Nat.card {T : Finpartition (Finset.range 1 ×ˢ Finset.range 1) // ∀ t ∈ T.parts, Tilings.IsDomino t} = 0 := by
  refine ⟨by decide +kernel, ?_⟩
  rw [Nat.card_eq_zero]
  left
  constructor
  rintro ⟨T, hT⟩
  have h0 : (0, 0) ∈ Finset.range 1 ×ˢ Finset.range 1 := by decide
  rw [← T.biUnion_parts, mem_biUnion] at h0
  obtain ⟨t, ht, -⟩ := h0
  obtain ⟨a, b, hab, e⟩ := hT t ht
  have hsub := T.le ht
  have ha : a ∈ Finset.range 1 ×ˢ Finset.range 1 := hsub (by rw [e]; simp)
  have hb : b ∈ Finset.range 1 ×ˢ Finset.range 1 := hsub (by rw [e]; simp)
  simp only [mem_product, mem_range] at ha hb
  unfold Tilings.Adj at hab
  omega

/-! ## C86 -/

/-- C86, `langford_pairings(n)` is half the number of Langford sequences of order `n`. -/
theorem C86_langford_pairings (n : ℕ) :
    langfordPairings n = .ok (Nat.card {w : List ℕ // IsLangford n w} / 2) := by
  by_cases hn : 2 ≤ n
  · rw [langfordPairings, C61_number_of_solutions, langford_numBits hn, ← card_langford hn]
    rfl
  · have hn' : n = 0 ∨ n = 1 := by omega
    have hle : Nat.card {w : List ℕ // IsLangford n w} / 2 = 0 := by
      rcases hn' with rfl | rfl
      · have : Nat.card {w : List ℕ // IsLangford 0 w} ≤ 1 := by
          have : Subsingleton {w : List ℕ // IsLangford 0 w} := by
           constructor
           rintro ⟨w, h1, -⟩ ⟨w', h2, -⟩
           apply Subtype.ext
           change w = w'
           rw [List.length_eq_zero_iff.1 h1, List.length_eq_zero_iff.1 h2]
          rw [← Nat.card_unique (α := Unit)]
          exact Nat.card_le_card_of_injective (fun _ => ()) (fun _ _ _ => Subsingleton.elim _ _)
        omega
      · have : Nat.card {w : List ℕ // IsLangford 1 w} = 0 := by
          rw [Nat.card_eq_zero]
          left
          constructor
          rintro ⟨w, -, -, h⟩
          obtain ⟨i, hi, -⟩ := h 1 (le_refl 1) (le_refl 1)
          omega
        rw [this]
    rw [hle]
    rcases hn' with rfl | rfl <;> decide +kernel

/-- C86: reversing a Langford sequence gives a different one, so the halving counts them up to reversal. -/
theorem C86_reversal (n : ℕ) (hn : 1 ≤ n) (w : List ℕ) (hw : IsLangford n w) :
    IsLangford n w.reverse ∧ w.reverse ≠ w := by
  have hrev : ∀ k < 2 * n, w.reverse.getD k 0 = w.getD (2 * n - 1 - k) 0 := by
    intro k hk
    rw [List.getD_eq_getElem?_getD, List.getD_eq_getElem?_getD, List.getElem?_reverse (by rw [hw.1]; exact hk), hw.1]
  constructor
  · refine ⟨by rw [List.length_reverse, hw.1], fun x hx => hw.2.1 x (List.mem_reverse.1 hx), fun p h1 h2 => ?_⟩
    obtain ⟨i, hi, hk⟩ := hw.2.2 p h1 h2
    refine ⟨2 * n - 1 - (i + p + 1), by omega, fun k hk' => ?_⟩
    rw [hrev k hk', hk _ (by omega)]
    omega
  · intro h
    have key : ∀ p, 1 ≤ p → p ≤ n → ∃ i, i + p + 1 < 2 * n ∧ 2 * i + p + 1 = 2 * n - 1 := by
      intro p h1 h2
      obtain ⟨i, hi, hk⟩ := hw.2.2 p h1 h2
      refine ⟨i, hi, ?_⟩
      have e := hrev i (by omega)
      rw [h, (hk i (by omega)).2 (Or.inl rfl)] at e
      have := (hk _ (by omega)).1 e.symm
      omega
    obtain ⟨i, h1, h2⟩ := key 1 (le_refl 1) hn
    omega

example : langfordPairings 4 = .ok 1 := by decide +kernel

end Rosemary.Props
