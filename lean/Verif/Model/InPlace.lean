import Verif.Model.Matmul
import Verif.Model.MatrixComplex

/-! # Calls whose output array is one of the input arrays

`arraymultiply` (ac_matrixmul.h:86-105) and the operators of `ac_matrix` take their operands by address, so that nothing keeps a
caller from passing one array twice.  Here the reads of such an operand see the elements already written.  The array that is input
and output has one type, that of the input. -/

namespace Model.InPlace
open Ac

/-- `ac_matrixmul(A, B, A)`: `A` is `M` by `N`, `B` is `N` by `N`. ac_matrixmul.h:86-105 -/
def mulLeft (fa fb : Fmt) (M N : ℕ) (A B : Mem ℚ) : Mem ℚ :=
  forUp (fun i m => forUp (fun j m => m.put i j (fa.cvt (Matmul.acc fa fb N m B i j))) N m) M A

/-- `ac_matrixmul(A, B, B)`: `A` is `N` by `N`, `B` is `N` by `P`. ac_matrixmul.h:86-105 -/
def mulRight (fa fb : Fmt) (N P : ℕ) (A B : Mem ℚ) : Mem ℚ :=
  forUp (fun i m => forUp (fun j m => m.put i j (fb.cvt (Matmul.acc fa fb N A m i j))) P m) N B

/-- `ac_matrixmul(A, A, A)`: `A` is `N` by `N`. ac_matrixmul.h:86-105 -/
def square (fa : Fmt) (N : ℕ) (A : Mem ℚ) : Mem ℚ :=
  forUp (fun i m => forUp (fun j m => m.put i j (fa.cvt (Matmul.acc fa fa N m m i j))) N m) N A

/-- `ac_matrixmul(A, B, A)` for complex elements; `fp` is the type of the parts of a product. ac_matrixmul.h:86-105 -/
def mulLeftC (fp fa : Fmt) (M N : ℕ) (A B : Mem DetComplex.Cx) : Mem DetComplex.Cx :=
  forUp (fun i m => forUp (fun j m => m.put i j (DetComplex.cvt fa (MatrixComplex.acc fp N m B i j))) N m) M A

/-- `ac_matrixmul(A, B, B)` for complex elements. ac_matrixmul.h:86-105 -/
def mulRightC (fp fb : Fmt) (N P : ℕ) (A B : Mem DetComplex.Cx) : Mem DetComplex.Cx :=
  forUp (fun i m => forUp (fun j m => m.put i j (DetComplex.cvt fb (MatrixComplex.acc fp N A m i j))) P m) N B

/-- `A += A`. ac_matrix.h:253-260 -/
def addSelf (fa : Fmt) (M N : ℕ) (A : Mem ℚ) : Mem ℚ :=
  forUp (fun i m => forUp (fun j m => m.put i j (fa.cvt ((fa.plus fa).cvt (m i j + Matrix.get m i j)))) N m) M A

/-- `A -= A`. ac_matrix.h:277-284 -/
def subSelf (fa : Fmt) (M N : ℕ) (A : Mem ℚ) : Mem ℚ :=
  forUp (fun i m => forUp (fun j m => m.put i j (fa.cvt ((fa.minus fa).cvt (m i j - Matrix.get m i j)))) N m) M A

end Model.InPlace
