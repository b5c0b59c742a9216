import Verif.Model.DetComplex
import Verif.Model.Matrix
import Verif.Model.Matmul

/-! # Model of include/ac_math/ac_matrixmul.h and include/ac_matrix.h for ac_complex<ac_fixed> elements

`ac_complex` is not part of /repo.  Its sum, difference and accumulation types are those of the parts; the type `fp` of the parts
of a product is a parameter.  Assignments convert part by part. -/

namespace Model.MatrixComplex
open Ac
open Model.DetComplex (Cx cvt)
open Model.Matrix (get)

/-- NLOOP of `arraymultiply`: `T multiply = A[i][k]*B[k][j]; add = add + multiply;`, with `add` of the type
`T::rt_unary::set<N>::sum`. ac_matrixmul.h:94-100 -/
def acc (fp : Fmt) (N : ℕ) (A B : Mem Cx) (i j : ℕ) : Cx :=
  forUp (fun k add =>
    let multiply := cvt fp (A i k * B k j)
    cvt (fp.sumOf N) (cvt ((fp.sumOf N).plus fp) (add + multiply))) N (cvt (fp.sumOf N) 0)

/-- `arraymultiply`, called by the C-array overload 133-139 and, through the matrix wrapper, by the `ac_matrix`
overload 183-189. ac_matrixmul.h:86-105 -/
def arraymultiply (fp fc : Fmt) (M N P : ℕ) (A B C : Mem Cx) : Mem Cx :=
  forUp (fun i m => forUp (fun j m => m.put i j (cvt fc (acc fp N A B i j))) P m) M C

/-- `operator+`. ac_matrix.h:240-249 -/
def add (fa fb : Fmt) (M N : ℕ) (A B junk : Mem Cx) : Mem Cx :=
  forUp (fun i m => forUp (fun j m => m.put i j (cvt (fa.plus fb) (cvt (fa.plus fb) (get A i j + get B i j)))) N m) M junk

/-- `operator+=`. ac_matrix.h:253-260 -/
def addAssign (fa : Fmt) (M N : ℕ) (A B : Mem Cx) : Mem Cx :=
  forUp (fun i m => forUp (fun j m => m.put i j (cvt fa (cvt (fa.plus fa) (m i j + get B i j)))) N m) M A

/-- `operator-`. ac_matrix.h:264-273 -/
def sub (fa fb : Fmt) (M N : ℕ) (A B junk : Mem Cx) : Mem Cx :=
  forUp (fun i m => forUp (fun j m => m.put i j (cvt (fa.minus fb) (cvt (fa.minus fb) (get A i j - get B i j)))) N m) M junk

/-- `operator-=`. ac_matrix.h:277-284 -/
def subAssign (fa : Fmt) (M N : ℕ) (A B : Mem Cx) : Mem Cx :=
  forUp (fun i m => forUp (fun j m => m.put i j (cvt fa (cvt (fa.minus fa) (m i j - get B i j)))) N m) M A

/-- `pwisemult`. ac_matrix.h:292-301 -/
def pwisemult (fp : Fmt) (M N : ℕ) (A B junk : Mem Cx) : Mem Cx :=
  forUp (fun i m => forUp (fun j m => m.put i j (cvt fp (cvt fp (get A i j * get B i j)))) N m) M junk

/-- The type `Tsum` of `operator*`: room for `N-1` terms. ac_matrix.h:313 -/
def sumFmt (fp : Fmt) (N : ℕ) : Fmt := fp.sumOf (N - 1)

/-- The accumulation loop of `operator*`: `tsum += (*this)(i,k) * op2(k,j)`. ac_matrix.h:317-320 -/
def dot (fp : Fmt) (N : ℕ) (A B : Mem Cx) (i j : ℕ) : Cx :=
  forUp (fun k t => cvt (sumFmt fp N) (t + cvt fp (get A i k * get B k j))) N (cvt (sumFmt fp N) 0)

/-- `operator*`. ac_matrix.h:310-325 -/
def mul (fp : Fmt) (M N Q : ℕ) (A B junk : Mem Cx) : Mem Cx :=
  forUp (fun i m => forUp (fun j m => m.put i j (cvt (sumFmt fp N) (dot fp N A B i j))) Q m) M junk

/-- `sum`. ac_matrix.h:345-353 -/
def sum (fa : Fmt) (M N : ℕ) (A : Mem Cx) : Cx :=
  forUp (fun i t => forUp (fun j t => cvt fa (t + get A i j)) N t) M (cvt fa 0)

/-- `scale` by a complex factor; `fp` is the type of the parts of the product. ac_matrix.h:359-368 -/
def scale (fp fa : Fmt) (M N : ℕ) (s : Cx) (A junk : Mem Cx) : Mem Cx :=
  forUp (fun i m => forUp (fun j m => m.put i j (cvt fa (cvt fp (s * get A i j)))) N m) M junk

/-- `determinant` of a 2x2 matrix; the expression is exact and converted on return. ac_matrix.h:446-450 -/
def det2 (fa : Fmt) (A : Mem Cx) : Cx := cvt fa (A 0 0 * A 1 1 - A 0 1 * A 1 0)

/-- `determinant` of a 3x3 matrix. ac_matrix.h:439-443 -/
def det3 (fa : Fmt) (A : Mem Cx) : Cx :=
  cvt fa (A 0 0 * (A 1 1 * A 2 2 - A 1 2 * A 2 1) - A 0 1 * (A 1 0 * A 2 2 - A 1 2 * A 2 0)
    + A 0 2 * (A 1 0 * A 2 1 - A 1 1 * A 2 0))

end Model.MatrixComplex
