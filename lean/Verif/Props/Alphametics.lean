import Verif.Model.Alphametics
import Mathlib.Algebra.BigOperators.Group.Finset.Basic
import Mathlib.Algebra.BigOperators.Ring.Finset
import Mathlib.Tactic.Linarith
import Mathlib.Tactic.Ring

/-!
# The alphametic solver (C78)
-/

namespace Rosemary.Props

open Rosemary.Alphametics
open BigOperators

variable {κ : Type} [DecidableEq κ]

/-- The number a word stands for, in base ten. -/
def wordValue (f : κ → ℕ) (w : List κ) : ℕ := w.foldl (fun acc c => 10 * acc + f c) 0

/-- An assignment of digits that solves the puzzle: different characters get different digits, no word starts with a zero,
and both sides have the same sum.  Characters that do not occur are given zero, so that assignments can be compared. -/
structure IsSolution (lhs rhs : List (List κ)) (f : κ → ℕ) : Prop where
  digit : ∀ c, f c < 10
  distinct : ∀ w ∈ lhs ++ rhs, ∀ w' ∈ lhs ++ rhs, ∀ c ∈ w, ∀ c' ∈ w', f c = f c' → c = c'
  nonzero : ∀ w ∈ lhs ++ rhs, ∀ c, w.head? = some c → f c ≠ 0
  equal : (lhs.map (wordValue f)).sum = (rhs.map (wordValue f)).sum
  other : ∀ c, (∀ w ∈ lhs ++ rhs, c ∉ w) → f c = 0

namespace Alpha

theorem value_append (f : κ → ℕ) (w : List κ) (c : κ) : wordValue f (w ++ [c]) = 10 * wordValue f w + f c := by
  simp [wordValue]

theorem value_congr {f g : κ → ℕ} {w : List κ} (h : ∀ c ∈ w, f c = g c) : wordValue f w = wordValue g w := by
  induction w using List.reverseRecOn with
  | nil => rfl
  | append_singleton w c ih =>
    rw [value_append, value_append, ih (fun x hx => h x (by simp [hx])), h c (by simp)]

theorem wordToNum_append (m : Dict κ ℕ) (w : List κ) (c : κ) :
    wordToNum m (w ++ [c]) = (wordToNum m w).bind (fun acc => match Dict.get? m c with
      | some d => .ok (10 * acc + d)
      | none => .error .keyError) := by
  rw [wordToNum, List.foldlM_append, wordToNum]
  congr 1
  funext acc
  simp only [List.foldlM_cons, List.foldlM_nil]
  cases Dict.get? m c <;> rfl

theorem wordToNum_eq {m : Dict κ ℕ} {w : List κ} (h : ∀ c ∈ w, c ∈ Dict.keys m) :
    wordToNum m w = .ok (wordValue (fun c => (Dict.get? m c).getD 0) w) := by
  induction w using List.reverseRecOn with
  | nil => rfl
  | append_singleton w c ih =>
    rw [wordToNum_append, ih (fun x hx => h x (by simp [hx])), value_append]
    obtain ⟨d, hd⟩ := Dict.get?_isSome.2 (h c (by simp))
    simp only [Except.bind, hd, Option.getD_some]

theorem comprehension_ok {α β : Type} {f : α → Except PyErr β} {g : α → β} {l : List α} (h : ∀ a ∈ l, f a = .ok (g a)) :
    comprehension f l = .ok (l.map g) := by
  induction l with
  | nil => rfl
  | cons a l ih =>
    rw [comprehension, h a (by simp), ih (fun x hx => h x (by simp [hx]))]
    rfl

theorem words_ok {m : Dict κ ℕ} {ws : List (List κ)} (h : ∀ w ∈ ws, ∀ c ∈ w, c ∈ Dict.keys m) :
    comprehension (wordToNum m) ws = .ok (ws.map (wordValue (fun c => (Dict.get? m c).getD 0))) :=
  comprehension_ok (fun w hw => wordToNum_eq (h w hw))

/-- The value is linear in the digits. -/
theorem value_linear (f : κ → ℕ) (S : Finset κ) (w : List κ) (h : ∀ c ∈ w, c ∈ S) :
    wordValue f w = ∑ c ∈ S, f c * wordValue (fun x => if x = c then 1 else 0) w := by
  induction w using List.reverseRecOn with
  | nil => simp [wordValue]
  | append_singleton w a ih =>
    rw [value_append, ih (fun x hx => h x (by simp [hx])), Finset.mul_sum]
    have : f a = ∑ c ∈ S, f c * (if a = c then 1 else 0) := by
      rw [Finset.sum_eq_single a]
      · simp
      · intro b _ hb; rw [if_neg (Ne.symm hb), mul_zero]
      · intro hn; exact absurd (h a (by simp)) hn
    conv_lhs => rw [this]
    rw [← Finset.sum_add_distrib]
    refine Finset.sum_congr rfl (fun c _ => ?_)
    rw [value_append]; ring

theorem sum_linear (f : κ → ℕ) (S : Finset κ) (ws : List (List κ)) (h : ∀ w ∈ ws, ∀ c ∈ w, c ∈ S) :
    (ws.map (wordValue f)).sum = ∑ c ∈ S, f c * (ws.map (wordValue (fun x => if x = c then 1 else 0))).sum := by
  induction ws with
  | nil => simp
  | cons w ws ih =>
    simp only [List.map_cons, List.sum_cons]
    rw [ih (fun w hw => h w (by simp [hw])), value_linear f S w (h w (by simp)), ← Finset.sum_add_distrib]
    exact Finset.sum_congr rfl (fun c _ => by ring)

theorem keys_sigMap (chars : List κ) (c : κ) : Dict.keys (sigMap chars c) = chars := by
  rw [sigMap, Dict.keys, List.map_map]
  simp [Function.comp_def]

theorem get?_sigMap {chars : List κ} {c x : κ} (hx : x ∈ chars) : Dict.get? (sigMap chars c) x = some (if x = c then 1 else 0) := by
  induction chars with
  | nil => simp at hx
  | cons y ys ih =>
    rw [sigMap, List.map_cons, Dict.get?]
    by_cases e : y = x
    · rw [if_pos e, e]
    · rw [if_neg e]
      exact ih (by rcases List.mem_cons.1 hx with h | h; exact absurd h.symm e; exact h)

/-- The signature of a character. -/
def sigOf (lhs rhs : List (List κ)) (c : κ) : ℤ :=
  ((lhs.map (wordValue (fun x => if x = c then 1 else 0))).sum : ℤ) - ((rhs.map (wordValue (fun x => if x = c then 1 else 0))).sum : ℤ)

theorem signatureOf_eq {lhs rhs : List (List κ)} {chars : List κ} (h : ∀ w ∈ lhs ++ rhs, ∀ c ∈ w, c ∈ chars) (c : κ) :
    signatureOf lhs rhs chars c = .ok (sigOf lhs rhs c) := by
  have e : ∀ ws : List (List κ), (∀ w ∈ ws, ∀ c ∈ w, c ∈ chars) →
      comprehension (wordToNum (sigMap chars c)) ws = .ok (ws.map (wordValue (fun x => if x = c then 1 else 0))) := by
    intro ws hws
    rw [words_ok (fun w hw x hx => by rw [keys_sigMap]; exact hws w hw x hx)]
    congr 1
    refine List.map_congr_left (fun w hw => value_congr (fun x hx => ?_))
    rw [get?_sigMap (hws w hw x hx)]; rfl
  rw [signatureOf, e lhs (fun w hw => h w (by simp [hw])), e rhs (fun w hw => h w (by simp [hw]))]
  rfl

theorem get?_zip {β : Type} {chars : List κ} (g : κ → β) {c : κ} (hc : c ∈ chars) :
    Dict.get? (chars.zip (chars.map g)) c = some (g c) := by
  induction chars with
  | nil => simp at hc
  | cons y ys ih =>
    rw [List.map_cons, List.zip_cons_cons, Dict.get?]
    by_cases e : y = c
    · rw [if_pos e, e]
    · rw [if_neg e]
      exact ih (by rcases List.mem_cons.1 hc with h | h; exact absurd h.symm e; exact h)

/-- The valuation is a power of ten that divides the signature. -/
theorem valuationLoop_spec (n v : ℕ) (sig : ℤ) : ∃ k, valuationLoop n v sig = v * 10 ^ k ∧ (10 ^ k : ℤ) ∣ sig := by
  induction n generalizing v sig with
  | zero => exact ⟨0, by simp [valuationLoop], by simp⟩
  | succ n ih =>
    rw [valuationLoop]
    by_cases h : sig ≠ 0 ∧ sig.fmod 10 = 0
    · rw [if_pos h]
      obtain ⟨k, h1, h2⟩ := ih (v * 10) (sig.fdiv 10)
      refine ⟨k + 1, by rw [h1]; ring, ?_⟩
      have : sig = 10 * sig.fdiv 10 := by
        have := Int.mul_fdiv_add_fmod sig 10
        rw [h.2] at this; linarith
      rw [this, pow_succ, mul_comm]
      exact mul_dvd_mul (dvd_refl _) h2
    · rw [if_neg h]
      exact ⟨0, by simp, by simp⟩

/-- The loop does not stop before the last digit is not zero. -/
theorem valuationLoop_full (n v : ℕ) (sig : ℤ) (hn : sig.natAbs ≤ n) (hs : sig ≠ 0) :
    ∃ k, valuationLoop n v sig = v * 10 ^ k ∧ ¬ (10 ^ (k + 1) : ℤ) ∣ sig := by
  induction n generalizing v sig with
  | zero => omega
  | succ n ih =>
    rw [valuationLoop]
    by_cases h : sig ≠ 0 ∧ sig.fmod 10 = 0
    · rw [if_pos h]
      have e : sig = 10 * sig.fdiv 10 := by
        have := Int.mul_fdiv_add_fmod sig 10
        rw [h.2] at this; linarith
      obtain ⟨k, h1, h2⟩ := ih (v * 10) (sig.fdiv 10) (by omega) (by omega)
      refine ⟨k + 1, by rw [h1]; ring, fun hd => h2 ?_⟩
      rw [e, pow_succ, mul_comm] at hd
      exact (mul_dvd_mul_iff_left (by norm_num)).1 hd
    · rw [if_neg h]
      refine ⟨0, by simp, fun hd => h ⟨hs, ?_⟩⟩
      rw [zero_add, pow_one] at hd
      exact Int.fmod_eq_zero_of_dvd hd

theorem valuation_spec (sig : ℤ) : ∃ k, valuation sig = 10 ^ k ∧ (10 ^ k : ℤ) ∣ sig := by
  obtain ⟨k, h1, h2⟩ := valuationLoop_spec sig.natAbs 1 sig
  exact ⟨k, by rw [valuation, h1, one_mul], h2⟩

/-- The valuation of an earlier character divides the signature of a later one. -/
theorem val_dvd {s t : ℤ} (h : valuation s ≤ valuation t) : ((valuation s : ℕ) : ℤ) ∣ t := by
  obtain ⟨a, ha, -⟩ := valuation_spec s
  obtain ⟨b, hb, hd⟩ := valuation_spec t
  rw [ha, hb] at h
  have : a ≤ b := (Nat.pow_le_pow_iff_right (by omega)).1 h
  rw [ha]
  push_cast
  exact (pow_dvd_pow _ this).trans hd

theorem tryDigits_ok {α β : Type} {f : ℕ → Except PyErr (List α)} {ds : List ℕ} (out : β → α) (g : ℕ → List β)
    (h : ∀ d ∈ ds, f d = .ok ((g d).map out)) : tryDigits f ds = .ok ((ds.flatMap g).map out) := by
  induction ds with
  | nil => rfl
  | cons d ds ih =>
    rw [tryDigits, h d (by simp), ih (fun x hx => h x (by simp [hx])), List.flatMap_cons, List.map_append]
    rfl

/-- What the completions of a partial assignment are. -/
structure Completes (first : List κ) (sig : κ → ℤ) (cs : List κ) (total : ℤ) (unused : Finset ℕ) (m : Dict κ ℕ) (f : κ → ℕ) :
    Prop where
  same : ∀ c, c ∉ cs → f c = (Dict.get? m c).getD 0
  unused : ∀ c ∈ cs, f c ∈ unused
  inj : ∀ c ∈ cs, ∀ c' ∈ cs, f c = f c' → c = c'
  nonzero : ∀ c ∈ cs, c ∈ first → f c ≠ 0
  zero : total + (cs.map (fun c => (f c : ℤ) * sig c)).sum = 0

theorem backtrack_spec {ord : Finset ℕ → List ℕ} (hord : ∀ S, (ord S).Nodup ∧ ∀ x, x ∈ ord S ↔ x ∈ S)
    (lhs rhs : List (List κ)) (first : List κ) (sig : κ → ℤ) (cs : List κ) (hnd : cs.Nodup)
    (hsort : cs.Pairwise (fun a b => valuation (sig a) ≤ valuation (sig b)))
    (total : ℤ) (unused : Finset ℕ) (m : Dict κ ℕ) (hm : ∀ w ∈ lhs ++ rhs, ∀ c ∈ w, c ∈ cs ∨ c ∈ Dict.keys m) :
    ∃ sols : List (κ → ℕ), sols.Nodup ∧ (∀ f, f ∈ sols ↔ Completes first sig cs total unused m f) ∧
      backtrack ord lhs rhs first sig (fun c => valuation (sig c)) cs total unused m =
        .ok (sols.map (fun f => (lhs.map (wordValue f), rhs.map (wordValue f)))) := by
  induction cs generalizing total unused m with
  | nil =>
    have hk : ∀ w ∈ lhs ++ rhs, ∀ c ∈ w, c ∈ Dict.keys m := fun w hw c hc => (hm w hw c hc).resolve_left (by simp)
    rw [backtrack]
    by_cases h0 : total = 0
    · refine ⟨[fun c => (Dict.get? m c).getD 0], List.nodup_singleton _, fun f => ?_, ?_⟩
      · rw [List.mem_singleton]
        constructor
        · rintro rfl
          exact ⟨fun _ _ => rfl, by simp, by simp, by simp, by simpa using h0⟩
        · intro h
          funext c
          exact h.same c (by simp)
      · rw [if_pos h0, words_ok (fun w hw => hk w (by simp [hw])), words_ok (fun w hw => hk w (by simp [hw]))]
        rfl
    · refine ⟨[], List.nodup_nil, fun f => ?_, by rw [if_neg h0]; rfl⟩
      simp only [List.not_mem_nil, false_iff]
      intro h
      exact h0 (by simpa using h.zero)
  | cons c cs ih =>
    obtain ⟨hc, hnd'⟩ := List.nodup_cons.1 hnd
    obtain ⟨hs1, hs2⟩ := List.pairwise_cons.1 hsort
    have hrec : ∀ d, ∃ sols : List (κ → ℕ), sols.Nodup ∧
        (∀ f, f ∈ sols ↔ Completes first sig (c :: cs) total unused m f ∧ f c = d ∧ d ∈ unused) ∧
        (d ∈ unused → (if d = 0 ∧ c ∈ first then .ok []
          else
            if cannotExtend (fun c => valuation (sig c)) c (total + d * sig c) cs then .ok []
            else backtrack ord lhs rhs first sig (fun c => valuation (sig c)) cs (total + d * sig c) (unused.erase d)
              (Dict.set m c d)) = (.ok (sols.map (fun f => (lhs.map (wordValue f), rhs.map (wordValue f)))) :
                Except PyErr (List (List ℕ × List ℕ)))) := by
      intro d
      by_cases hdu : d ∈ unused
      swap
      · exact ⟨[], List.nodup_nil, fun f => by simp [hdu], fun h => absurd h hdu⟩
      by_cases h1 : d = 0 ∧ c ∈ first
      · refine ⟨[], List.nodup_nil, fun f => ?_, fun _ => by rw [if_pos h1]; rfl⟩
        simp only [List.not_mem_nil, false_iff]
        rintro ⟨h, e, -⟩
        exact h.nonzero c (by simp) h1.2 (e.trans h1.1)
      simp only [if_neg h1]
      by_cases h2 : cannotExtend (fun c => valuation (sig c)) c (total + d * sig c) cs = true
      · refine ⟨[], List.nodup_nil, fun f => ?_, fun _ => by rw [if_pos h2]; rfl⟩
        simp only [List.not_mem_nil, false_iff]
        rintro ⟨h, e, -⟩
        cases cs with
        | nil => simp [cannotExtend] at h2
        | cons c' cs =>
          simp only [cannotExtend, Bool.and_eq_true, decide_eq_true_eq] at h2
          apply h2.2
          apply Int.fmod_eq_zero_of_dvd
          have hz := h.zero
          rw [List.map_cons, List.sum_cons, e, ← add_assoc] at hz
          have hd : ((valuation (sig c') : ℕ) : ℤ) ∣ ((c' :: cs).map (fun c => (f c : ℤ) * sig c)).sum := by
            refine List.dvd_sum (fun x hx => ?_)
            obtain ⟨y, hy, rfl⟩ := List.mem_map.1 hx
            refine Dvd.dvd.mul_left (val_dvd ?_) _
            rcases List.mem_cons.1 hy with rfl | hy
            · exact le_refl _
            · exact (List.pairwise_cons.1 hs2).1 y hy
          have : total + (d : ℤ) * sig c = -((c' :: cs).map (fun c => (f c : ℤ) * sig c)).sum := by linarith
          rw [this]
          exact (dvd_neg).2 hd
      · obtain ⟨sols, k1, k2, k3⟩ := ih hnd' hs2 (total + d * sig c) (unused.erase d) (Dict.set m c d) (by
          intro w hw x hx
          rw [Dict.mem_keys_set]
          rcases hm w hw x hx with h | h
          · rcases List.mem_cons.1 h with h | h
            · exact Or.inr (Or.inl h)
            · exact Or.inl h
          · exact Or.inr (Or.inr h))
        refine ⟨sols, k1, fun f => ?_, fun _ => by rw [if_neg h2]; exact k3⟩
        rw [k2]
        constructor
        · intro h
          have hfc : f c = d := by rw [h.same c hc, Dict.get?_set, if_pos rfl]; rfl
          refine ⟨⟨fun x hx => ?_, fun x hx => ?_, fun x hx y hy e => ?_, fun x hx hf => ?_, ?_⟩, hfc, hdu⟩
          · rw [List.mem_cons, not_or] at hx
            rw [h.same x hx.2, Dict.get?_set, if_neg (Ne.symm hx.1)]
          · rcases List.mem_cons.1 hx with rfl | hx
            · rw [hfc]; exact hdu
            · exact (Finset.mem_erase.1 (h.unused x hx)).2
          · rcases List.mem_cons.1 hx with hx' | hx' <;> rcases List.mem_cons.1 hy with hy' | hy'
            · rw [hx', hy']
            · exact absurd (e.symm.trans (hx' ▸ hfc)) (Finset.mem_erase.1 (h.unused y hy')).1
            · exact absurd (e.trans (hy' ▸ hfc)) (Finset.mem_erase.1 (h.unused x hx')).1
            · exact h.inj x hx' y hy' e
          · rcases List.mem_cons.1 hx with rfl | hx
            · intro e; exact h1 ⟨hfc.symm.trans e, hf⟩
            · exact h.nonzero x hx hf
          · rw [List.map_cons, List.sum_cons, hfc, ← add_assoc]
            exact h.zero
        · rintro ⟨h, hfc, -⟩
          refine ⟨fun x hx => ?_, fun x hx => ?_, fun x hx y hy e => ?_, fun x hx hf => ?_, ?_⟩
          · rw [Dict.get?_set]
            by_cases e : c = x
            · rw [if_pos e, ← e, hfc]; rfl
            · rw [if_neg e]
              exact h.same x (by rw [List.mem_cons, not_or]; exact ⟨Ne.symm e, hx⟩)
          · refine Finset.mem_erase.2 ⟨fun e => hc ?_, h.unused x (by simp [hx])⟩
            rw [← h.inj x (by simp [hx]) c (by simp) (e.trans hfc.symm)]
            exact hx
          · exact h.inj x (by simp [hx]) y (by simp [hy]) e
          · exact h.nonzero x (by simp [hx]) hf
          · have := h.zero
            rw [List.map_cons, List.sum_cons, hfc, ← add_assoc] at this
            exact this
    choose g hg1 hg2 hg3 using hrec
    obtain ⟨ho1, ho2⟩ := hord unused
    refine ⟨(ord unused).flatMap g, ?_, fun f => ?_, ?_⟩
    · rw [List.nodup_flatMap]
      refine ⟨fun d _ => hg1 d, ho1.imp (fun {a b} hab => ?_)⟩
      intro f hf hf'
      exact hab (((hg2 a f).1 hf).2.1.symm.trans ((hg2 b f).1 hf').2.1)
    · rw [List.mem_flatMap]
      constructor
      · rintro ⟨d, hd, hf⟩
        exact ((hg2 d f).1 hf).1
      · intro h
        have := h.unused c (by simp)
        exact ⟨f c, (ho2 _).2 this, (hg2 _ f).2 ⟨h, rfl, this⟩⟩
    · rw [backtrack]
      exact tryDigits_ok (fun f => (lhs.map (wordValue f), rhs.map (wordValue f))) g (fun d hd => hg3 d ((ho2 d).1 hd))

/-- The digits of a word can be read off its value. -/
theorem value_inj {f g : κ → ℕ} (hf : ∀ c, f c < 10) (hg : ∀ c, g c < 10) {w : List κ} (h : wordValue f w = wordValue g w) :
    ∀ c ∈ w, f c = g c := by
  induction w using List.reverseRecOn with
  | nil => simp
  | append_singleton w a ih =>
    rw [value_append, value_append] at h
    have h1 := hf a
    have h2 := hg a
    have ha : f a = g a := by omega
    intro c hc
    rcases List.mem_append.1 hc with hc | hc
    · exact ih (by omega) c hc
    · rw [List.mem_singleton.1 hc]; exact ha

end Alpha

open Alpha

/-- C78: for every puzzle of nonempty words the solver yields the values of the words under exactly the assignments that
solve the puzzle, each of them once, in whatever order the sets are iterated. -/
theorem C78_solve (ord : Finset ℕ → List ℕ) (hord : ∀ S, (ord S).Nodup ∧ ∀ x, x ∈ ord S ↔ x ∈ S)
    (lhs rhs : List (List κ)) (hne : ∀ w ∈ lhs ++ rhs, w ≠ []) (chars : List κ) (hnd : chars.Nodup)
    (hch : ∀ c, c ∈ chars ↔ ∃ w ∈ lhs ++ rhs, c ∈ w) :
    ∃ sols : List (κ → ℕ), sols.Nodup ∧ (∀ f, f ∈ sols ↔ IsSolution lhs rhs f) ∧
      solve ord chars lhs rhs = .ok (sols.map (fun f => (lhs.map (wordValue f), rhs.map (wordValue f)))) ∧
      (sols.map (fun f => (lhs.map (wordValue f), rhs.map (wordValue f)))).Nodup := by
  have hin : ∀ w ∈ lhs ++ rhs, ∀ c ∈ w, c ∈ chars := fun w hw c hc => (hch c).2 ⟨w, hw, hc⟩
  have hany : ¬ (lhs ++ rhs).any List.isEmpty = true := by
    rw [List.any_eq_true]
    rintro ⟨w, hw, e⟩
    exact hne w hw (List.isEmpty_iff.1 e)
  set sig : κ → ℤ := fun c => (Dict.get? (chars.zip (chars.map (sigOf lhs rhs))) c).getD 0 with hsig
  have hsig' : ∀ c ∈ chars, sig c = sigOf lhs rhs c := fun c hc => by rw [hsig]; dsimp only; rw [get?_zip _ hc]; rfl
  set cl := pySort chars (fun a b => decide (valuation (sig a) ≤ valuation (sig b))) with hcl
  have hperm : cl.Perm chars := pySort_perm _ _
  obtain ⟨sols, h1, h2, h3⟩ := backtrack_spec hord lhs rhs ((lhs ++ rhs).filterMap List.head?) sig cl (hperm.nodup_iff.2 hnd)
    ((pairwise_pySort (le := fun a b => decide (valuation (sig a) ≤ valuation (sig b)))
      (fun a b c h h' => by simp only [decide_eq_true_eq] at h h' ⊢; exact le_trans h h')
      (fun a b => by simp only [Bool.or_eq_true, decide_eq_true_eq]; exact le_total _ _) chars).imp
      (fun {a b} h => by simpa using h))
    0 (Finset.range 10) [] (fun w hw c hc => Or.inl (hperm.mem_iff.2 (hin w hw c hc)))
  have hsol : ∀ f, f ∈ sols ↔ IsSolution lhs rhs f := by
    intro f
    rw [h2]
    have hlin : (0 : ℤ) + (cl.map (fun c => (f c : ℤ) * sig c)).sum =
        ((lhs.map (wordValue f)).sum : ℤ) - ((rhs.map (wordValue f)).sum : ℤ) := by
      rw [zero_add, (hperm.map _).sum_eq, sum_linear f chars.toFinset lhs (fun w hw c hc => List.mem_toFinset.2 (hin w (by simp [hw]) c hc)),
        sum_linear f chars.toFinset rhs (fun w hw c hc => List.mem_toFinset.2 (hin w (by simp [hw]) c hc))]
      push_cast
      rw [← Finset.sum_sub_distrib, ← List.sum_toFinset _ hnd]
      refine Finset.sum_congr rfl (fun c hc => ?_)
      rw [hsig' c (List.mem_toFinset.1 hc), sigOf]
      push_cast
      ring
    constructor
    · intro h
      refine ⟨fun c => ?_, fun w hw w' hw' c hc c' hc' e => ?_, fun w hw c hc => ?_, ?_, fun c hc => ?_⟩
      · by_cases hc : c ∈ cl
        · exact Finset.mem_range.1 (h.unused c hc)
        · rw [h.same c hc]; simp [Dict.get?]
      · exact h.inj c (hperm.mem_iff.2 (hin w hw c hc)) c' (hperm.mem_iff.2 (hin w' hw' c' hc')) e
      · refine h.nonzero c (hperm.mem_iff.2 (hin w hw c (List.mem_of_mem_head? hc))) ?_
        exact List.mem_filterMap.2 ⟨w, hw, hc⟩
      · have := h.zero
        rw [hlin] at this
        omega
      · rw [h.same c]
        · simp [Dict.get?]
        · rw [hperm.mem_iff, hch]
          rintro ⟨w, hw, hcw⟩
          exact hc w hw hcw
    · intro h
      refine ⟨fun c hc => ?_, fun c hc => Finset.mem_range.2 (h.digit c), fun c hc c' hc' e => ?_, fun c hc hf => ?_, ?_⟩
      · rw [h.other c]
        · simp [Dict.get?]
        · intro w hw hcw
          exact hc (hperm.mem_iff.2 (hin w hw c hcw))
      · obtain ⟨w, hw, hcw⟩ := (hch c).1 (hperm.mem_iff.1 hc)
        obtain ⟨w', hw', hcw'⟩ := (hch c').1 (hperm.mem_iff.1 hc')
        exact h.distinct w hw w' hw' c hcw c' hcw' e
      · obtain ⟨w, hw, e⟩ := List.mem_filterMap.1 hf
        exact h.nonzero w hw c e
      · rw [hlin]
        have := h.equal
        omega
  refine ⟨sols, h1, hsol, ?_, ?_⟩
  · rw [solve, if_neg hany, comprehension_ok (fun c _ => signatureOf_eq hin c)]
    exact h3
  · refine List.Nodup.map_on (fun f hf g hg e => ?_) h1
    have hf' := (hsol f).1 hf
    have hg' := (hsol g).1 hg
    rw [Prod.mk.injEq] at e
    have hw : ∀ w ∈ lhs ++ rhs, wordValue f w = wordValue g w := by
      intro w hw
      rcases List.mem_append.1 hw with h | h
      · exact List.map_inj_left.1 e.1 w h
      · exact List.map_inj_left.1 e.2 w h
    funext c
    by_cases hc : ∃ w ∈ lhs ++ rhs, c ∈ w
    · obtain ⟨w, hw', hcw⟩ := hc
      exact value_inj hf'.digit hg'.digit (hw w hw') c hcw
    · push Not at hc
      rw [hf'.other c hc, hg'.other c hc]

/-- C78: an empty word raises an IndexError. -/
theorem C78_empty_word (ord : Finset ℕ → List ℕ) (chars : List κ) (lhs rhs : List (List κ)) (h : [] ∈ lhs ++ rhs) :
    solve ord chars lhs rhs = .error .indexError := by
  rw [solve, if_pos]
  rw [List.any_eq_true]
  exact ⟨[], h, rfl⟩

/-- AB + AB = CA over the characters 0, 1, 2. -/
example : solve (fun S => (List.range 10).filter (· ∈ S)) [0, 1, 2] [[0, 1], [0, 1]] [[2, 0]] =
    .ok [([21, 21], [42]), ([26, 26], [52]), ([42, 42], [84]), ([47, 47], [94])] := by decide +kernel

end Rosemary.Props
