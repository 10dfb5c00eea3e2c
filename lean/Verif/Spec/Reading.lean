import Mathlib.Data.Real.Sqrt

/-!
# Reading printed expressions

What a printed polynomial, matrix or quadratic irrational means, independently of the code that prints it.
-/

namespace Rosemary.Reading

/-- The parts of a text between the separators `c`. -/
def pieces (c : Char) : List Char → List (List Char)
  | [] => [[]]
  | x :: l => if x = c then [] :: pieces c l else
    match pieces c l with
    | [] => [[x]]
    | p :: ps => (x :: p) :: ps

/-- A natural number in decimal notation. -/
def readNat (l : List Char) : Option ℕ :=
  if l ≠ [] ∧ l.all Char.isDigit then some (l.foldl (fun n c => 10 * n + (c.toNat - '0'.toNat)) 0) else none

/-- An integer in decimal notation. -/
def readInt : List Char → Option ℤ
  | '-' :: l => (readNat l).map (fun n => -(n : ℤ))
  | l => (readNat l).map (fun n => (n : ℤ))

/-- `v` or `v^k`, where the variable `v` has the value `x`. -/
def readPower (v : List Char) (x : ℤ) (l : List Char) : Option ℤ :=
  match pieces '^' l with
  | [a] => if a = v then some x else none
  | [a, e] => if a = v then (readNat e).map (fun k => x ^ k) else none
  | _ => none

/-- `n`, `v^k` or `n*v^k`. -/
def readTerm (v : List Char) (x : ℤ) (l : List Char) : Option ℤ :=
  match pieces '*' l with
  | [a] => match readNat a with
    | some n => some n
    | none => readPower v x a
  | [a, b] => match readNat a, readPower v x b with
    | some n, some y => some (n * y)
    | _, _ => none
  | _ => none

/-- The words `+ t` and `- t` after the first term. -/
def readSum (v : List Char) (x : ℤ) : List (List Char) → Option ℤ
  | [] => some 0
  | [_] => none
  | op :: t :: ts =>
    match readTerm v x t, readSum v x ts with
    | some y, some s => if op = ['+'] then some (y + s) else if op = ['-'] then some (-y + s) else none
    | _, _ => none

/-- The value of a sum of terms such as `-3*x^2 + x - 1`, where the variable `v` has the value `x`. -/
def readPoly (v : List Char) (x : ℤ) (l : List Char) : Option ℤ :=
  match pieces ' ' l with
  | ('-' :: t) :: ts => match readTerm v x t, readSum v x ts with
    | some y, some s => some (-y + s)
    | _, _ => none
  | t :: ts => match readTerm v x t, readSum v x ts with
    | some y, some s => some (y + s)
    | _, _ => none
  | [] => none

/-- A name that can be told apart from numbers and operations. -/
def GoodName (v : List Char) : Prop :=
  (∃ c l, v = c :: l ∧ c.isDigit = false ∧ c ≠ '-') ∧ ' ' ∉ v ∧ '*' ∉ v ∧ '^' ∉ v

/-- The words of a text. -/
def words (l : List Char) : List (List Char) := (pieces ' ' l).filter (fun w => w ≠ [])

/-- A row `[a b c]`. -/
def readRow : List Char → Option (List ℤ)
  | '[' :: l => if l.getLast? = some ']' then (words l.dropLast).mapM readInt else none
  | _ => none

/-- A matrix, one row in a line. -/
def readMatrix (l : List Char) : Option (List (List ℤ)) := (pieces '\n' l).mapM readRow

mutual

/-- `s` is a number, a root or an expression in parentheses with the value `x`. -/
inductive Atom : List Char → ℝ → Prop
  | num {s : List Char} {z : ℤ} : readInt s = some z → Atom s z
  | sqrt {s : List Char} {x : ℝ} : Sum s x → Atom ("sqrt(".toList ++ s ++ ")".toList) (√x)
  | par {s : List Char} {x : ℝ} : Sum s x → Atom ("(".toList ++ s ++ ")".toList) x

/-- `s` is a quotient of such expressions with the value `x`. -/
inductive Quotient : List Char → ℝ → Prop
  | atom {s : List Char} {x : ℝ} : Atom s x → Quotient s x
  | div {s t : List Char} {x y : ℝ} : Quotient s x → Atom t y → Quotient (s ++ "/".toList ++ t) (x / y)

/-- `s` is a sum of such quotients with the value `x`. -/
inductive Sum : List Char → ℝ → Prop
  | quotient {s : List Char} {x : ℝ} : Quotient s x → Sum s x
  | add {s t : List Char} {x y : ℝ} : Sum s x → Quotient t y → Sum (s ++ " + ".toList ++ t) (x + y)

end

end Rosemary.Reading
