import Verif.Ac.Arith
import Verif.Ac.Loop

/-! # Model of include/ac_matrix.h

A matrix of `ac_fixed` (or, with `W = I`, `ac_int`) is the contents of its array `m_data`, as exact values, together
with its element format.  The result variables start uninitialised: `junk` is their content. -/

namespace Model.Matrix
open Ac

/-- `operator()(r,c)` on a const matrix. ac_matrix.h:191-194 -/
def get {α : Type} (A : Mem α) (r c : ℕ) : α := A r c

/-- `initialize`. ac_matrix.h:411-417 (also the constructor 113-115 and `operator=(const T&)` 179-182) -/
def initAll {α : Type} (M N : ℕ) (v : α) (junk : Mem α) : Mem α :=
  forUp (fun x m => forUp (fun y m => m.put x y v) N m) M junk

/-- `copy_contents`. ac_matrix.h:403-409 (copy constructor 118-120) -/
def copyContents {α : Type} (M N : ℕ) (other junk : Mem α) : Mem α :=
  forUp (fun x m => forUp (fun y m => m.put x y (get other x y)) N m) M junk

/-- Constructor from a brace-enclosed list. ac_matrix.h:131-150.  `none`: the assertion on the length fails, or
`m_data[index / M][index % N]` is outside the array. -/
def ofList {α : Type} (M N : ℕ) (l : List α) (junk : Mem α) : Option (Mem α) :=
  if l.length ≤ M * N then
    (l.foldl (fun (s : Option (Mem α) × ℕ) v =>
      (s.1.bind fun m => if s.2 / M < M ∧ s.2 % N < N then some (m.put (s.2 / M) (s.2 % N) v) else none, s.2 + 1))
      (some junk, 0)).1
  else none

/-- `operator()<R,S>(row,col)`. ac_matrix.h:198-209 -/
def submatrix {α : Type} (R S : ℕ) (A : Mem α) (row col : ℕ) (junk : Mem α) : Mem α :=
  forUp (fun i m => forUp (fun j m => m.put i j (get A (i + row) (j + col))) S m) R junk

/-- `operator!=`. ac_matrix.h:215-227; the early returns are the short-circuit of `any`. -/
def ne {α : Type} [DecidableEq α] (M N M2 N2 : ℕ) (A B : Mem α) : Bool :=
  if M2 ≠ M then true else if N2 ≠ N then true
  else (List.range M).any fun i => (List.range N).any fun j => get A i j ≠ get B i j

/-- `operator==`. ac_matrix.h:231-234 -/
def eq {α : Type} [DecidableEq α] (M N M2 N2 : ℕ) (A B : Mem α) : Bool := !ne M N M2 N2 A B

/-- `operator+`. ac_matrix.h:240-249 -/
def add (fa fb : Fmt) (M N : ℕ) (A B junk : Mem ℚ) : Mem ℚ :=
  let r := fa.plus fb
  forUp (fun i m => forUp (fun j m => m.put i j (r.cvt ((fa.plus fb).cvt (get A i j + get B i j)))) N m) M junk

/-- `operator+=`. ac_matrix.h:253-260 -/
def addAssign (fa : Fmt) (M N : ℕ) (A B : Mem ℚ) : Mem ℚ :=
  forUp (fun i m => forUp (fun j m => m.put i j (fa.cvt ((fa.plus fa).cvt (m i j + get B i j)))) N m) M A

/-- `operator-`. ac_matrix.h:264-273 -/
def sub (fa fb : Fmt) (M N : ℕ) (A B junk : Mem ℚ) : Mem ℚ :=
  let r := fa.minus fb
  forUp (fun i m => forUp (fun j m => m.put i j (r.cvt ((fa.minus fb).cvt (get A i j - get B i j)))) N m) M junk

/-- `operator-=`. ac_matrix.h:277-284 -/
def subAssign (fa : Fmt) (M N : ℕ) (A B : Mem ℚ) : Mem ℚ :=
  forUp (fun i m => forUp (fun j m => m.put i j (fa.cvt ((fa.minus fa).cvt (m i j - get B i j)))) N m) M A

/-- `pwisemult`. ac_matrix.h:292-301 -/
def pwisemult (fa fb : Fmt) (M N : ℕ) (A B junk : Mem ℚ) : Mem ℚ :=
  let r := fa.mult fb
  forUp (fun i m => forUp (fun j m => m.put i j (r.cvt ((fa.mult fb).cvt (get A i j * get B i j)))) N m) M junk

/-- The type `Tsum` of `operator*`: room for `N-1` terms. ac_matrix.h:313 -/
def sumFmt (fa fb : Fmt) (N : ℕ) : Fmt := (fa.mult fb).sumOf (N - 1)

/-- The accumulation loop of `operator*`: `tsum += (*this)(i,k) * op2(k,j)`. ac_matrix.h:317-320 -/
def dot (fa fb : Fmt) (N : ℕ) (A B : Mem ℚ) (i j : ℕ) : ℚ :=
  forUp (fun k t => (sumFmt fa fb N).cvt (t + (fa.mult fb).cvt (get A i k * get B k j))) N
    ((sumFmt fa fb N).cvt (0 : ℚ))

/-- `operator*`. ac_matrix.h:310-325 -/
def mul (fa fb : Fmt) (M N Q : ℕ) (A B junk : Mem ℚ) : Mem ℚ :=
  forUp (fun i m => forUp (fun j m => m.put i j ((sumFmt fa fb N).cvt (dot fa fb N A B i j))) Q m) M junk

/-- `transpose`. ac_matrix.h:331-339 -/
def transpose {α : Type} (M N : ℕ) (A junk : Mem α) : Mem α :=
  forUp (fun i m => forUp (fun j m => m.put j i (get A i j)) N m) M junk

/-- `sum`. ac_matrix.h:345-353 -/
def sum (fa : Fmt) (M N : ℕ) (A : Mem ℚ) : ℚ :=
  forUp (fun i t => forUp (fun j t => fa.cvt (t + get A i j)) N t) M (fa.cvt (0 : ℚ))

/-- `scale`. ac_matrix.h:359-368 -/
def scale (fs fa : Fmt) (M N : ℕ) (s : ℚ) (A junk : Mem ℚ) : Mem ℚ :=
  forUp (fun i m => forUp (fun j m => m.put i j (fa.cvt ((fs.mult fa).cvt (s * get A i j)))) N m) M junk

/-- `determinant` of a 2x2 matrix; the expression is exact and converted on return. ac_matrix.h:446-450 -/
def det2 (fa : Fmt) (A : Mem ℚ) : ℚ := fa.cvt (A 0 0 * A 1 1 - A 0 1 * A 1 0)

/-- `determinant` of a 3x3 matrix. ac_matrix.h:439-443 -/
def det3 (fa : Fmt) (A : Mem ℚ) : ℚ :=
  fa.cvt (A 0 0 * (A 1 1 * A 2 2 - A 1 2 * A 2 1) - A 0 1 * (A 1 0 * A 2 2 - A 1 2 * A 2 0)
    + A 0 2 * (A 1 0 * A 2 1 - A 1 1 * A 2 0))

end Model.Matrix
