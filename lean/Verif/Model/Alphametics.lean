import Verif.Model.Py
import Verif.Model.Dict
import Verif.Model.Sort
import Mathlib.Data.Finset.Basic
import Mathlib.Data.Finset.Range
import Mathlib.Data.Int.Order.Basic
import Mathlib.Algebra.Order.Group.Nat

/-!
# Model of `combinatorics/recreational/alphametics.py`

Characters are elements of any type with decidable equality.  The text of `word.format(**mapping)` is the word with every
character replaced by its digit, and `int` reads it in base ten; this is modelled by one fold.  Characters that have a
meaning inside a format string (braces, digits, `!`, `:`, `.`, `[`) are outside the model.

The sets `characters` and `unused` are iterated in an unspecified order: `chars` and `ord` are parameters.
-/

namespace Rosemary.Alphametics

variable {κ : Type} [DecidableEq κ]

/-- alphametics.py:2-3 `word_to_num` on the formatted word; a character without a value raises a KeyError. -/
def wordToNum (m : Dict κ ℕ) (w : List κ) : Except PyErr ℕ :=
  w.foldlM (fun acc c => match Dict.get? m c with
    | some d => .ok (10 * acc + d)
    | none => .error .keyError) 0

/-- A list comprehension whose expression may raise. -/
def comprehension {α β : Type} (f : α → Except PyErr β) : List α → Except PyErr (List β)
  | [] => .ok []
  | a :: as => do
    let b ← f a
    let bs ← comprehension f as
    .ok (b :: bs)

/-- alphametics.py:25 and 28: the map `sig_map` in the round of `char`. -/
def sigMap (chars : List κ) (char : κ) : Dict κ ℕ := chars.map (fun c => (c, if c = char then 1 else 0))

/-- alphametics.py:28-31: the signature of `char`. -/
def signatureOf (lhs rhs : List (List κ)) (chars : List κ) (char : κ) : Except PyErr ℤ := do
  let l ← comprehension (wordToNum (sigMap chars char)) lhs
  let r ← comprehension (wordToNum (sigMap chars char)) rhs
  .ok ((l.sum : ℤ) - (r.sum : ℤ))

/-- alphametics.py:48-50; the first argument bounds the number of rounds. -/
def valuationLoop : ℕ → ℕ → ℤ → ℕ
  | 0, v, _ => v
  | n + 1, v, sig => if sig ≠ 0 ∧ sig.fmod 10 = 0 then valuationLoop n (v * 10) (sig.fdiv 10) else v

/-- alphametics.py:47-50: there are at most `|sig|` rounds, as a nonzero multiple of ten gets smaller in every round. -/
def valuation (sig : ℤ) : ℕ := valuationLoop sig.natAbs 1 sig

/-- The body of the loop over the digits, alphametics.py:70-93. -/
def tryDigits {α : Type} (f : ℕ → Except PyErr (List α)) : List ℕ → Except PyErr (List α)
  | [] => .ok []
  | d :: ds => do
    let a ← f d
    let b ← tryDigits f ds
    .ok (a ++ b)

/-- alphametics.py:79-89: `not can_extend`; the list is `char_list[idx + 1:]`. -/
def cannotExtend (val : κ → ℕ) (c : κ) (newTotal : ℤ) : List κ → Bool
  | [] => false
  | c' :: _ => val c' ≠ val c && newTotal.fmod (val c') ≠ 0

/-- alphametics.py:56-96 `backtrack`; the list is `char_list[idx:]`.  The generator is modelled by the list of all its values.
The entry that line 95-96 deletes again is never read before it is overwritten, so that `mapping` is passed down. -/
def backtrack (ord : Finset ℕ → List ℕ) (lhs rhs : List (List κ)) (first : List κ) (sig : κ → ℤ) (val : κ → ℕ) :
    List κ → ℤ → Finset ℕ → Dict κ ℕ → Except PyErr (List (List ℕ × List ℕ))
  | [], total, _, mapping =>
    if total = 0 then do
      let l ← comprehension (wordToNum mapping) lhs
      let r ← comprehension (wordToNum mapping) rhs
      .ok [(l, r)]
    else .ok []
  | c :: cs, total, unused, mapping =>
    tryDigits (fun digit =>
      if digit = 0 ∧ c ∈ first then .ok []
      else
        if cannotExtend val c (total + digit * sig c) cs then .ok []
        else backtrack ord lhs rhs first sig val cs (total + digit * sig c) (unused.erase digit) (Dict.set mapping c digit))
      (ord unused)

/-- alphametics.py:1-100 `solve`; `chars` is the set of all characters in the order of its iteration. -/
def solve (ord : Finset ℕ → List ℕ) (chars : List κ) (lhs rhs : List (List κ)) : Except PyErr (List (List ℕ × List ℕ)) := do
  if (lhs ++ rhs).any List.isEmpty then .error .indexError
  else do
    let sigs ← comprehension (signatureOf lhs rhs chars) chars
    let signature : Dict κ ℤ := chars.zip sigs
    let sig : κ → ℤ := fun c => (Dict.get? signature c).getD 0
    let val : κ → ℕ := fun c => valuation (sig c)
    backtrack ord lhs rhs ((lhs ++ rhs).filterMap List.head?) sig val (pySort chars (fun a b => decide (val a ≤ val b)))
      0 (Finset.range 10) []

end Rosemary.Alphametics
