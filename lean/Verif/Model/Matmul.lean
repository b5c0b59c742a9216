import Verif.Ac.Arith
import Verif.Ac.Loop

/-! # Model of include/ac_math/ac_matrixmul.h (ac_fixed overloads) -/

namespace Model.Matmul
open Ac

/-- The type of `add`: `T::rt_unary::set<N>::sum` with `T` the product type. ac_matrixmul.h:94-95 -/
def accFmt (fa fb : Fmt) (N : ℕ) : Fmt := (fa.mult fb).sumOf N

/-- NLOOP: `T multiply = A[i][k]*B[k][j]; add = add + multiply;`. ac_matrixmul.h:97-100 -/
def acc (fa fb : Fmt) (N : ℕ) (A B : Mem ℚ) (i j : ℕ) : ℚ :=
  forUp (fun k add =>
    let multiply := (fa.mult fb).cvt (A i k * B k j)
    (accFmt fa fb N).cvt (((accFmt fa fb N).plus (fa.mult fb)).cvt (add + multiply))) N ((accFmt fa fb N).cvt (0 : ℚ))

/-- `arraymultiply`, called by the C-array overload 113-121 and, through the matrix wrapper, by the `ac_matrix`
overload. ac_matrixmul.h:86-105 -/
def arraymultiply (fa fb fc : Fmt) (M N P : ℕ) (A B C : Mem ℚ) : Mem ℚ :=
  forUp (fun i m => forUp (fun j m => m.put i j (fc.cvt (acc fa fb N A B i j))) P m) M C

end Model.Matmul
