import Verif.Bore.FieldModel
import Verif.Num.FloatModel
import Mathlib.Data.Nat.Log

/-!
# Model of the text files of bore fields

Source: `/repo/pygfunction/borefield.py`, l. 448-471 (`Borefield.to_file`) and l. 504-547 (`Borefield.from_file`), `/repo/pygfunction/boreholes.py`, l. 1383-1404 (`field_from_file`).

A file is the list of its characters.  `np.savetxt` writes every number with the format `%.18e`, `np.loadtxt` reads it; both are modelled here down to the characters, with the arguments that
the three functions above give them.  Numbers are real numbers, those in memory are of the format `binary64`.

Simplifications: no infinities, NaN or negative zero, no overflow; the line end is `\n`; a number has the syntax `[+-] digits [. digits] [e [+-] digits]`.
-/

noncomputable section

namespace Verif.Bore

open Verif.Num

/-! ### Numbers -/

/-- The last `w` decimal digits of `n`. -/
def digits : ℕ → ℕ → List Char
  | 0, _ => []
  | w + 1, n => digits w (n / 10) ++ [Nat.digitChar (n % 10)]

/-- Mantissa of 19 digits and exponent of the format `%.18e`: the nearest decimal, ties to even. -/
def scientific (x : ℝ) : ℕ × ℤ :=
  let e := Int.log 10 |x|
  let m := (nearestEven (|x| / 10 ^ (e - 18))).toNat
  if m = 10 ^ 19 then (10 ^ 18, e + 1) else (m, e)

/-- `'%.18e' % x` (default format of `np.savetxt`): at least two digits in the exponent. -/
def format (x : ℝ) : List Char :=
  let s := scientific x
  (if x < 0 then ['-'] else []) ++ digits 1 (s.1 / 10 ^ 18) ++ '.' :: digits 18 s.1 ++
    'e' :: (if s.2 < 0 then '-' else '+') :: digits (max 2 (Nat.log 10 s.2.natAbs + 1)) s.2.natAbs

/-- Value of a string of digits. -/
def number (s : List Char) : ℕ := s.foldl (fun a c => 10 * a + (c.toNat - 48)) 0

/-- An optional sign. -/
def readSign : List Char → Bool × List Char
  | '-' :: r => (true, r)
  | '+' :: r => (false, r)
  | r => (false, r)

/-- An optional exponent at the end of a number. -/
def readExponent : List Char → Option ℤ
  | [] => some 0
  | c :: r =>
    if c = 'e' ∨ c = 'E' then
      let t := readSign r
      if t.2 ≠ [] ∧ t.2.all Char.isDigit then some (if t.1 then -(number t.2 : ℤ) else number t.2) else none
    else none

/-- An optional fraction: its digits and the rest. -/
def readFraction : List Char → List Char × List Char
  | '.' :: r => (r.takeWhile Char.isDigit, r.dropWhile Char.isDigit)
  | r => ([], r)

/-- Conversion of a string to a number by `np.loadtxt`: the number of the format that is nearest to the decimal; `none` is `ValueError`. -/
def parse (s : List Char) : Option ℝ :=
  let t := readSign s
  let a := t.2.takeWhile Char.isDigit
  let f := readFraction (t.2.dropWhile Char.isDigit)
  if a ++ f.1 = [] then none
  else (readExponent f.2).map fun e => binary64 ((if t.1 then -1 else 1) * number (a ++ f.1) * 10 ^ (e - (f.1.length : ℤ)))

/-! ### Files -/

/-- Parts of a text between the characters that satisfy `p`. -/
def split (p : Char → Bool) : List Char → List (List Char)
  | [] => [[]]
  | c :: r => if p c then [] :: split p r else
    match split p r with
    | h :: t => (c :: h) :: t
    | [] => [[c]]

/-- Words of one line, without the comment. -/
def words (l : List Char) : List (List Char) := (split Char.isWhitespace (l.takeWhile fun c => c ≠ '#')).filter fun w => w ≠ []

/-- `np.loadtxt(filename, ndmin=2)`: lines without words are skipped, all others must have the same number of words (`none` is `ValueError`). -/
def loadtxt (s : List Char) : Option (List (List ℝ)) :=
  let rows := ((split (fun c => c = '\n') s).map words).filter fun w => w ≠ []
  if ∀ r ∈ rows, ∀ q ∈ rows, r.length = q.length then rows.mapM fun r => r.mapM parse else none

/-- One line of `np.savetxt(filename, data, delimiter='\t')`. -/
def formatRow : List ℝ → List Char
  | [] => ['\n']
  | [v] => format v ++ ['\n']
  | v :: r => format v ++ '\t' :: formatRow r

/-- The header, after the mark `# ` of a comment. -/
def header : List Char := "# x\ty\tH\tD\tr_b\ttilt\torientation\n".toList

/-- `Borefield.to_file` (borefield.py, l. 458-471): the text of the file. -/
def Borefield.toText (f : Borefield) : List Char := header ++ f.toFile.flatMap formatRow

/-- `Borefield.from_file` (borefield.py, l. 531-547): columns that are missing raise `IndexError`. -/
def Borefield.fromText (s : List Char) : Option Borefield :=
  match loadtxt s with
  | some (r :: rs) => if r.length < 5 then none else Borefield.fromFile r.length (r :: rs)
  | _ => none

/-- `field_from_file` (boreholes.py, l. 1383-1404); a file without numbers is left out. -/
def fieldFromText (s : List Char) : Option (List Borehole) :=
  match loadtxt s with
  | some (r :: rs) => if r.length < 5 then none else some (fieldFromFile (r :: rs))
  | _ => none

end Verif.Bore
