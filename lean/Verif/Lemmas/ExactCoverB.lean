import Verif.Lemmas.ExactCover
import Mathlib.Data.Nat.Bitwise
import Mathlib.SetTheory.Cardinal.Finite
import Mathlib.Data.Set.Card
import Mathlib.Tactic.Ring
import Mathlib.Tactic.NormNum

/-!
# Exact covers by bit vectors
-/

namespace Rosemary.ExactCover

open Finset

theorem leastSetBit_spec (n : ℕ) (hn : n ≠ 0) : ∃ b, leastSetBit n = 2 ^ b ∧ n.testBit b = true ∧
    ∀ k, k < b → n.testBit k = false := by
  induction n using Nat.strong_induction_on with
  | _ n ih =>
    rw [leastSetBit, if_neg hn]
    by_cases h : n % 2 = 1
    · rw [if_pos h]
      exact ⟨0, rfl, by simp [Nat.testBit_zero, h], by intro k hk; omega⟩
    · rw [if_neg h]
      obtain ⟨b, h1, h2, h3⟩ := ih (n / 2) (by omega) (by omega)
      refine ⟨b + 1, by rw [h1, pow_succ]; ring, by rw [Nat.testBit_succ]; exact h2, ?_⟩
      intro k hk
      cases k with
      | zero => simp [Nat.testBit_zero, h]
      | succ k => rw [Nat.testBit_succ]; exact h3 k (by omega)

theorem leastUnsetBit_spec (c : ℕ) : ∃ b, leastUnsetBit c = 2 ^ b ∧ c.testBit b = false ∧
    ∀ k, k < b → c.testBit k = true := by
  induction c using Nat.strong_induction_on with
  | _ c ih =>
    rw [leastUnsetBit]
    by_cases h : c % 2 = 0
    · rw [if_pos h]
      exact ⟨0, rfl, by simp [Nat.testBit_zero, h], by intro k hk; omega⟩
    · rw [if_neg h]
      obtain ⟨b, h1, h2, h3⟩ := ih (c / 2) (by omega)
      refine ⟨b + 1, by rw [h1, pow_succ]; ring, by rw [Nat.testBit_succ]; exact h2, ?_⟩
      intro k hk
      cases k with
      | zero => simp [Nat.testBit_zero]; omega
      | succ k => rw [Nat.testBit_succ]; exact h3 k (by omega)

/-- The positions of the bits of a number. -/
def bits (nb v : ℕ) : Finset ℕ := (Finset.range nb).filter (fun b => v.testBit b = true)

/-- The positions of the missing bits. -/
def gaps (nb c : ℕ) : Finset ℕ := (Finset.range nb).filter (fun b => c.testBit b = false)

theorem mem_bits {nb v b : ℕ} : b ∈ bits nb v ↔ b < nb ∧ v.testBit b = true := by rw [bits, mem_filter, mem_range]

theorem mem_gaps {nb v b : ℕ} : b ∈ gaps nb v ↔ b < nb ∧ v.testBit b = false := by rw [gaps, mem_filter, mem_range]

theorem testBit_lt {v nb b : ℕ} (hv : v < 2 ^ nb) (h : v.testBit b = true) : b < nb := by
  by_contra hb
  rw [Nat.testBit_lt_two_pow (lt_of_lt_of_le hv (Nat.pow_le_pow_right (by norm_num) (not_lt.1 hb)))] at h
  simp at h

theorem and_eq_zero_iff {c v nb : ℕ} (hc : c < 2 ^ nb) (hv : v < 2 ^ nb) :
    c &&& v = 0 ↔ bits nb v ⊆ gaps nb c := by
  constructor
  · intro h b hb
    rw [mem_bits] at hb
    rw [mem_gaps]
    refine ⟨hb.1, ?_⟩
    have := congrArg (fun x => x.testBit b) h
    simpa [Nat.testBit_and, hb.2] using this
  · intro h
    apply Nat.eq_of_testBit_eq
    intro b
    rw [Nat.testBit_and, Nat.zero_testBit]
    cases hvb : v.testBit b with
    | false => simp
    | true =>
      have := h (mem_bits.2 ⟨testBit_lt hv hvb, hvb⟩)
      rw [mem_gaps] at this
      simp [this.2]

theorem gaps_or {c v nb : ℕ} : gaps nb (c ||| v) = gaps nb c \ bits nb v := by
  ext b
  rw [mem_sdiff, mem_gaps, mem_gaps, mem_bits, Nat.testBit_or]
  cases c.testBit b <;> cases v.testBit b <;> simp

theorem gaps_eq_empty {c nb : ℕ} (hc : c < 2 ^ nb) : gaps nb c = ∅ ↔ c = 2 ^ nb - 1 := by
  constructor
  · intro h
    apply Nat.eq_of_testBit_eq
    intro b
    rw [Nat.testBit_two_pow_sub_one]
    by_cases hb : b < nb
    · have : b ∉ gaps nb c := by rw [h]; simp
      rw [mem_gaps] at this
      simp only [hb, true_and, Bool.not_eq_false] at this
      simp [hb, this]
    · rw [decide_eq_false hb]
      cases h' : c.testBit b with
      | false => rfl
      | true => exact absurd (testBit_lt hc h') hb
  · rintro rfl
    rw [eq_empty_iff_forall_notMem]
    intro b hb
    rw [mem_gaps, Nat.testBit_two_pow_sub_one, decide_eq_false_iff_not] at hb
    exact hb.2 hb.1

variable (ints : List ℕ)

/-- The integer number `i`. -/
def vec (i : ℕ) : ℕ := ints.getD i 0

/-- The numbers of the integers with least set bit `b`. -/
def rowsAt (b : ℕ) : List ℕ := (List.range ints.length).filter (fun i => leastSetBit (vec ints i) = b)

/-- What the constructor establishes. -/
def Ok (E : Binary) : Prop :=
  (∀ b, (E.vectors.get? b).getD [] = (rowsAt ints b).map (vec ints)) ∧ ∀ i, vec ints i < 2 ^ E.numBits

theorem filter_ints (p : ℕ → Bool) : ints.filter p = ((List.range ints.length).filter (fun i => p (vec ints i))).map (vec ints) := by
  have h : ints = (List.range ints.length).map (vec ints) := by
    apply List.ext_getElem
    · simp
    · intro i h1 h2
      simp [vec, h1]
  conv_lhs => rw [h]
  rw [List.filter_map]
  rfl

theorem init_ok_aux (l : List ℕ) : ∀ E : Binary,
    let E' := l.foldl (fun E n =>
      (⟨E.vectors.set (leastSetBit n) ((E.vectors.get? (leastSetBit n)).getD [] ++ [n]), max E.numBits n.size⟩ : Binary)) E
    (∀ b, (E'.vectors.get? b).getD [] = (E.vectors.get? b).getD [] ++ l.filter (fun n => leastSetBit n = b)) ∧
      E.numBits ≤ E'.numBits ∧ (∀ n ∈ l, n.size ≤ E'.numBits) ∧
      (E'.numBits = E.numBits ∨ ∃ n ∈ l, E'.numBits = n.size) := by
  induction l with
  | nil => intro E; simp
  | cons n l ih =>
    intro E
    rw [List.foldl_cons]
    obtain ⟨h1, h2, h3, h4⟩ := ih ⟨E.vectors.set (leastSetBit n) ((E.vectors.get? (leastSetBit n)).getD [] ++ [n]),
      max E.numBits n.size⟩
    dsimp only at h1 h2 h3 h4 ⊢
    refine ⟨fun b => ?_, le_trans (le_max_left _ _) h2, ?_, ?_⟩
    · rw [h1, Dict.get?_set]
      by_cases hb : leastSetBit n = b
      · subst hb
        rw [if_pos rfl, List.filter_cons_of_pos (by simp)]
        simp
      · rw [if_neg hb, List.filter_cons_of_neg (by simpa using hb)]
    · intro m hm
      rcases List.mem_cons.1 hm with rfl | hm
      · exact le_trans (le_max_right _ _) h2
      · exact h3 m hm
    · rcases h4 with h4 | ⟨m, hm, h4⟩
      · rcases le_total E.numBits n.size with h | h
        · exact Or.inr ⟨n, List.mem_cons_self, by rw [h4, max_eq_right h]⟩
        · exact Or.inl (by rw [h4, max_eq_left h])
      · exact Or.inr ⟨m, List.mem_cons_of_mem _ hm, h4⟩

theorem init_ok : Ok ints (Binary.init ints) := by
  obtain ⟨h1, -, h3, -⟩ := init_ok_aux ints ⟨[], 0⟩
  constructor
  · intro b
    rw [Binary.init, h1]
    simp only [Dict.get?, Option.getD_none, List.nil_append]
    rw [filter_ints]
    rfl
  · intro i
    by_cases hi : i < ints.length
    · have hm : vec ints i ∈ ints := by
        rw [vec, List.getD_eq_getElem?_getD, List.getElem?_eq_getElem hi]; exact List.getElem_mem hi
      exact lt_of_lt_of_le (Nat.lt_size_self _) (Nat.pow_le_pow_right (by norm_num) (h3 _ hm))
    · rw [vec, List.getD_eq_getElem?_getD, List.getElem?_eq_none (by omega)]
      exact Nat.two_pow_pos _

variable {ints} {E : Binary} (hE : Ok ints E)

/-- The rows for the least gap. -/
def fits (ints : List ℕ) (c b : ℕ) : List ℕ := (rowsAt ints b).filter (fun i => c &&& vec ints i = 0)

include hE

theorem least_gap {c : ℕ} (hc : c < 2 ^ E.numBits) (hne : c ≠ 2 ^ E.numBits - 1) :
    ∃ b, b ∈ gaps E.numBits c ∧ ∀ i, i ∈ fits ints c (leastUnsetBit c) ↔
      i < ints.length ∧ b ∈ bits E.numBits (vec ints i) ∧ bits E.numBits (vec ints i) ⊆ gaps E.numBits c := by
  obtain ⟨b, h1, h2, h3⟩ := leastUnsetBit_spec c
  have hb : b < E.numBits := by
    have : (gaps E.numBits c).Nonempty := by
      rw [nonempty_iff_ne_empty, Ne, gaps_eq_empty hc]; exact hne
    obtain ⟨k, hk⟩ := this
    rw [mem_gaps] at hk
    by_contra hb
    have := h3 k (by omega)
    rw [hk.2] at this
    simp at this
  refine ⟨b, mem_gaps.2 ⟨hb, h2⟩, fun i => ?_⟩
  rw [fits, List.mem_filter, rowsAt, List.mem_filter, List.mem_range, decide_eq_true_eq, decide_eq_true_eq,
    and_eq_zero_iff hc (hE.2 i), h1, and_assoc]
  refine and_congr_right fun _ => ?_
  constructor
  · rintro ⟨h4, h5⟩
    refine ⟨?_, h5⟩
    have hv0 : vec ints i ≠ 0 := by
      intro h0
      rw [h0, leastSetBit, if_pos rfl] at h4
      have := Nat.two_pow_pos b
      omega
    obtain ⟨k, hk1, hk2, -⟩ := leastSetBit_spec _ hv0
    rw [hk1] at h4
    have := Nat.pow_right_injective (le_refl 2) h4
    subst this
    exact mem_bits.2 ⟨hb, hk2⟩
  · rintro ⟨h4, h5⟩
    refine ⟨?_, h5⟩
    rw [mem_bits] at h4
    have hv0 : vec ints i ≠ 0 := by intro h0; rw [h0] at h4; simp at h4
    obtain ⟨k, hk1, hk2, hk3⟩ := leastSetBit_spec _ hv0
    rw [hk1]
    congr 1
    have hkb : ¬ k < b := by
      intro hkb
      have := h5 (mem_bits.2 ⟨by omega, hk2⟩)
      rw [mem_gaps, h3 k hkb] at this
      simp at this
    have hbk : ¬ b < k := by
      intro hbk
      rw [hk3 b hbk] at h4
      simp at h4
    omega

omit hE in
theorem nodup_rowsAt (b : ℕ) : (rowsAt ints b).Nodup := List.Nodup.filter _ List.nodup_range

omit hE in
theorem or_lt {c v nb : ℕ} (hc : c < 2 ^ nb) (hv : v < 2 ^ nb) : c ||| v < 2 ^ nb := Nat.or_lt_two_pow hc hv

omit hE in
theorem card_gaps_or {c v nb b : ℕ} (hb : b ∈ gaps nb c) (hv : b ∈ bits nb v) :
    (gaps nb (c ||| v)).card < (gaps nb c).card := by
  rw [gaps_or]
  apply card_lt_card
  rw [ssubset_iff_of_subset sdiff_subset]
  exact ⟨b, hb, by simp [hv]⟩

/-- The covers of the missing bits of `c`. -/
abbrev Covers (ints : List ℕ) (nb c : ℕ) (P : Finset ℕ → Prop) (L : List (List ℕ)) : Prop :=
  Lists ints.length (fun i => bits nb (vec ints i)) (gaps nb c) P L

/-- The entries of the cache are right. -/
def CacheOk (ints : List ℕ) (nb : ℕ) (cache : Dict ℕ ℕ) : Prop :=
  Dict.get? cache (2 ^ nb - 1) = some 1 ∧
    ∀ c t, Dict.get? cache c = some t → c < 2 ^ nb → ∃ L, Covers ints nb c (fun _ => True) L ∧ L.length = t

theorem countLoop_spec (c b : ℕ) (hc : c < 2 ^ E.numBits) (hb : b ∈ gaps E.numBits c)
    (rec : ℕ → Dict ℕ ℕ → Except PyErr (ℕ × Dict ℕ ℕ))
    (hrec : ∀ v, v < 2 ^ E.numBits → b ∈ bits E.numBits v → ∀ cache, CacheOk ints E.numBits cache →
      ∃ L cache', rec (c ||| v) cache = .ok (L.length, cache') ∧ CacheOk ints E.numBits cache' ∧
        Covers ints E.numBits (c ||| v) (fun _ => True) L) (rs : List ℕ) :
    ∀ (total : ℕ) (cache : Dict ℕ ℕ), rs.Nodup →
      (∀ i ∈ rs.filter (fun i => c &&& vec ints i = 0), i < ints.length ∧ b ∈ bits E.numBits (vec ints i) ∧
        bits E.numBits (vec ints i) ⊆ gaps E.numBits c) → CacheOk ints E.numBits cache →
      ∃ L cache', countLoop rec c (rs.map (vec ints)) total cache = .ok (total + L.length, cache') ∧
        CacheOk ints E.numBits cache' ∧
        Covers ints E.numBits c (fun S => ∃ i ∈ rs.filter (fun i => c &&& vec ints i = 0), i ∈ S) L := by
  induction rs with
  | nil => intro total cache _ _ h; exact ⟨[], cache, rfl, h, lists_nil _ _ _⟩
  | cons r rs ih =>
    intro total cache hnd hrow hcache
    obtain ⟨hnd1, hnd2⟩ := List.nodup_cons.1 hnd
    rw [List.map_cons, countLoop]
    by_cases h : c &&& vec ints r = 0
    · have hf : (r :: rs).filter (fun i => c &&& vec ints i = 0) = r :: rs.filter (fun i => c &&& vec ints i = 0) :=
        List.filter_cons_of_pos (by simpa using h)
      rw [hf] at hrow ⊢
      rw [if_pos h]
      obtain ⟨hr1, hr2, hr3⟩ := hrow r List.mem_cons_self
      obtain ⟨L1, cache1, a1, a2, a3⟩ := hrec (vec ints r) (hE.2 r) hr2 cache hcache
      rw [a1]
      dsimp only
      obtain ⟨L2, cache2, b1, b2, b3⟩ := ih (total + L1.length) cache1 hnd2
        (fun i hi => hrow i (List.mem_cons_of_mem _ hi)) a2
      rw [Covers, gaps_or] at a3
      refine ⟨L1.map (r :: ·) ++ L2, cache2, ?_, b2, lists_cons hb ?_ hrow a3 b3⟩
      · rw [b1, List.length_append, List.length_map, Nat.add_assoc]
      · exact List.nodup_cons.2 ⟨fun h => hnd1 (List.mem_filter.1 h).1, List.Nodup.filter _ hnd2⟩
    · have hf : (r :: rs).filter (fun i => c &&& vec ints i = 0) = rs.filter (fun i => c &&& vec ints i = 0) :=
        List.filter_cons_of_neg (by simpa using h)
      rw [hf] at hrow ⊢
      rw [if_neg h]
      exact ih total cache hnd2 hrow hcache

theorem count_spec (fuel : ℕ) : ∀ (c : ℕ) (cache : Dict ℕ ℕ), c < 2 ^ E.numBits →
    (gaps E.numBits c).card < fuel → CacheOk ints E.numBits cache →
    ∃ L cache', count E fuel c cache = .ok (L.length, cache') ∧ CacheOk ints E.numBits cache' ∧
      Covers ints E.numBits c (fun _ => True) L := by
  induction fuel with
  | zero => intro c cache _ h; omega
  | succ fuel ih =>
    intro c cache hc hfuel hcache
    rw [count]
    cases hget : Dict.get? cache c with
    | some t =>
      obtain ⟨L, hL, rfl⟩ := hcache.2 c t hget hc
      exact ⟨L, cache, rfl, hcache, hL⟩
    | none =>
      dsimp only
      have hne : c ≠ 2 ^ E.numBits - 1 := by rintro rfl; rw [hcache.1] at hget; simp at hget
      obtain ⟨b, hb, hfit⟩ := least_gap hE hc hne
      rw [hE.1]
      obtain ⟨L, cache1, a1, a2, a3⟩ := countLoop_spec hE c b hc hb (count E fuel) (by
        intro v hv hbv cache hcache
        have := card_gaps_or hb hbv
        exact ih (c ||| v) cache (or_lt hc hv) (by omega) hcache) (rowsAt ints (leastUnsetBit c)) 0 cache
        (nodup_rowsAt _) (fun i hi => (hfit i).1 hi) hcache
      rw [a1]
      dsimp only
      have hL := lists_all hb (fun i => hfit i) a3
      refine ⟨L, _, by rw [Nat.zero_add], ⟨?_, ?_⟩, hL⟩
      · rw [Dict.get?_set, if_neg hne]; exact a2.1
      · intro c' t ht hc'
        rw [Dict.get?_set] at ht
        split_ifs at ht with hcc
        · subst hcc
          injection ht with ht
          exact ⟨L, hL, by omega⟩
        · exact a2.2 c' t ht hc'

omit hE in
theorem gaps_zero (nb : ℕ) : gaps nb 0 = Finset.range nb := by
  ext b; rw [mem_gaps, mem_range, Nat.zero_testBit]; simp

omit hE in
theorem cacheOk_init (nb : ℕ) : CacheOk ints nb [(2 ^ nb - 1, 1)] := by
  constructor
  · simp [Dict.get?]
  · intro c t h hc
    rw [Dict.get?] at h
    split_ifs at h with h'
    · injection h with h
      subst h
      refine ⟨[[]], ?_, rfl⟩
      rw [Covers, (gaps_eq_empty hc).2 h'.symm]
      exact lists_empty _ _
    · simp [Dict.get?] at h

theorem numberOfSolutions_spec : ∃ L, E.numberOfSolutions = .ok L.length ∧
    Lists ints.length (fun i => bits E.numBits (vec ints i)) (Finset.range E.numBits) (fun _ => True) L := by
  obtain ⟨L, cache, h1, -, h3⟩ := count_spec hE (E.numBits + 1) 0 [(2 ^ E.numBits - 1, 1)] (Nat.two_pow_pos _)
    (by rw [gaps_zero, card_range]; omega) (cacheOk_init _)
  rw [Covers, gaps_zero] at h3
  exact ⟨L, by rw [Binary.numberOfSolutions, h1], h3⟩

theorem solutionsLoop_spec (k : ℕ) : ∀ (c : ℕ) (used : List ℕ) (stack : List (ℕ × List ℕ)) (rest : List (List ℕ)),
    c < 2 ^ E.numBits → (gaps E.numBits c).card = k → solutionsLoop E stack = some rest →
    ∃ L, solutionsLoop E ((c, used) :: stack) = some (L.map (fun l => used ++ l.map (vec ints)) ++ rest) ∧
      Covers ints E.numBits c (fun _ => True) L := by
  induction k using Nat.strong_induction_on with
  | _ k ih =>
    intro c used stack rest hc hk hrest
    rw [solutionsLoop.eq_def]
    dsimp only
    by_cases hfull : c = 2 ^ E.numBits - 1
    · rw [if_pos hfull, hrest]
      refine ⟨[[]], by simp, ?_⟩
      rw [Covers, (gaps_eq_empty hc).2 hfull]
      exact lists_empty _ _
    · rw [if_neg hfull]
      obtain ⟨b, hb, hfit⟩ := least_gap hE hc hfull
      have hstack : ∀ rs : List ℕ, rs.Nodup → (∀ i ∈ rs, i < ints.length ∧ b ∈ bits E.numBits (vec ints i) ∧
          bits E.numBits (vec ints i) ⊆ gaps E.numBits c) →
          ∃ L, solutionsLoop E (rs.map (fun i => (c ||| vec ints i, used ++ [vec ints i])) ++ stack) =
            some (L.map (fun l => used ++ l.map (vec ints)) ++ rest) ∧
            Covers ints E.numBits c (fun S => ∃ i ∈ rs, i ∈ S) L := by
        intro rs
        induction rs with
        | nil => intro _ _; exact ⟨[], by simpa using hrest, lists_nil _ _ _⟩
        | cons r rs ihr =>
          intro hnd hrow
          obtain ⟨hr1, hr2, hr3⟩ := hrow r List.mem_cons_self
          obtain ⟨L', a1, a2⟩ := ihr (List.nodup_cons.1 hnd).2 (fun i hi => hrow i (List.mem_cons_of_mem _ hi))
          have hlt := card_gaps_or hb hr2
          obtain ⟨L, b1, b2⟩ := ih _ (by omega) (c ||| vec ints r) (used ++ [vec ints r]) _ _ (or_lt hc (hE.2 r)) rfl a1
          rw [Covers, gaps_or] at b2
          refine ⟨L.map (r :: ·) ++ L', ?_, lists_cons hb hnd hrow b2 a2⟩
          rw [List.map_cons, List.cons_append, b1, List.map_append, List.map_map, List.append_assoc]
          congr 2
          exact List.map_congr_left fun l _ => by simp
      have hrev := hstack (fits ints c (leastUnsetBit c)).reverse
        (List.nodup_reverse.2 (List.Nodup.filter _ (nodup_rowsAt _)))
        (fun i hi => (hfit i).1 (List.mem_reverse.1 hi))
      obtain ⟨L, h1, h2⟩ := hrev
      refine ⟨L, ?_, lists_all hb (fun i => by rw [List.mem_reverse]; exact hfit i) h2⟩
      rw [← h1, hE.1, List.filter_map, List.map_map, ← List.map_reverse]
      rfl

theorem solutions_spec : ∃ L : List (List ℕ), E.solutions = some (L.map (List.map (vec ints))) ∧
    Lists ints.length (fun i => bits E.numBits (vec ints i)) (Finset.range E.numBits) (fun _ => True) L := by
  obtain ⟨L, h1, h2⟩ := solutionsLoop_spec hE _ 0 [] [] [] (Nat.two_pow_pos _) rfl (by rw [solutionsLoop.eq_def])
  rw [Covers, gaps_zero] at h2
  refine ⟨L, ?_, h2⟩
  rw [Binary.solutions, h1]
  simp

omit hE in
theorem lists_card {κ : Type} [DecidableEq κ] {n : ℕ} {Y : ℕ → Finset κ} {C : Finset κ} {L : List (List ℕ)}
    (h : Lists n Y C (fun _ => True) L) : L.length = Nat.card {S : Finset ℕ // IsCover n Y C S} := by
  have e : {S : Finset ℕ | IsCover n Y C S} = ((L.map List.toFinset).toFinset : Set (Finset ℕ)) := by
    ext S
    simp only [Set.mem_setOf_eq, mem_coe, List.mem_toFinset]
    rw [h.2.2]
    simp
  have : Nat.card {S : Finset ℕ // IsCover n Y C S} = Nat.card ((L.map List.toFinset).toFinset : Set (Finset ℕ)) := by
    rw [← e]; rfl
  rw [this, Nat.card_coe_set_eq, Set.ncard_coe_finset, List.toFinset_card_of_nodup h.2.1, List.length_map]

end Rosemary.ExactCover
