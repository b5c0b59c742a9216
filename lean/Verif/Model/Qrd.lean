import Verif.Ac.Loop
import Mathlib.Analysis.RCLike.Basic

/-! # Model of include/ac_math/ac_qrd.h

`ac_qrd` with exact arithmetic over real (`𝕜 = ℝ`, ac_qrd.h:295-323) or complex numbers (`𝕜 = ℂ`, 327-396); the
formulas of the real version are those of the complex one with a trivial conjugation.  The array overloads copy their
arguments and call these (403-462).  Simplification: rounding and overflow of the intermediate types are dropped and
the functions called (square root, reciprocal) are exact, except that a division by zero has an explicit outcome:
with `chk` (the macro ASSERT_ON_INVALID_INPUT, ac_div.h:159-164) the assertion in `ac_div` fails, `none`; without it
the quotient is `sat`, the largest value of its type. -/

namespace Model.Qrd
open Ac
open scoped ComplexConjugate

variable {𝕜 : Type} [RCLike 𝕜]

/-- Reciprocal by `ac_div`. ac_div.h:159-164, 178-181 -/
noncomputable def recip (chk : Bool) (sat x : ℝ) : Option ℝ :=
  if x = 0 then (if chk then none else some sat) else some (1 / x)

/-- `initialize_matrix`: the columns up to `M` hold A, the others the identity. The test `j+M-i == M` is on unsigned
numbers, which wrap. ac_qrd.h:102-117 -/
noncomputable def initMat (M : ℕ) (A : Mem 𝕜) (junk : Mem 𝕜) : Mem 𝕜 :=
  forUp (fun i m => forUp (fun j m => (m.put i j (A i j)).put i (j + M)
    (if (((j + M : ℕ) : ℤ) - i) % 2 ^ 32 = M % 2 ^ 32 then 1 else 0)) M m) M junk

/-- `diagonal_PE`: the rotation for the elements `b` and `a`. ac_qrd.h:156-191 -/
noncomputable def diagonalPE (chk : Bool) (sat : ℝ) (b a : 𝕜) : Option (𝕜 × 𝕜) :=
  (recip chk sat (Real.sqrt (RCLike.normSq b + RCLike.normSq a))).map fun r : ℝ => (a * (r : 𝕜), -b * (r : 𝕜))

/-- `rotate`. ac_qrd.h:195-207, 211-242 -/
def rotate (M i : ℕ) (r0 r1 c s : 𝕜) : 𝕜 × 𝕜 :=
  if i < M then (conj c * r0 + -(conj s) * r1, c * r1 + s * r0)
  else (c * r0 + -s * r1, conj c * r1 + conj s * r0)

/-- `offdiagonal_PE`. ac_qrd.h:255-268 -/
def offdiagonalPE (M : ℕ) (pivot : ℕ) (c s : 𝕜) (A1 : Mem 𝕜) : Mem 𝕜 :=
  forUp (fun i A1 =>
    let r := rotate M i (A1 (pivot - 1) i) (A1 pivot i) c s
    (A1.put (pivot - 1) i r.1).put pivot i r.2) (2 * M) A1

/-- One rotation. ac_qrd.h:318-319, 350-351 -/
noncomputable def step (chk : Bool) (sat : ℝ) (M col row : ℕ) (A1 : Mem 𝕜) : Option (Mem 𝕜) :=
  (diagonalPE chk sat (A1 row col) (A1 (row - 1) col)).map fun cs => offdiagonalPE M row cs.1 cs.2 A1

/-- `for (row = M-1; row > 0; row--) { if (row == column) break; ... }`; the argument is the current row.
ac_qrd.h:316-320, 348-352 -/
noncomputable def rowLoop (chk : Bool) (sat : ℝ) (M col : ℕ) : ℕ → Mem 𝕜 → Option (Mem 𝕜)
  | 0, A1 => some A1
  | row + 1, A1 => if row + 1 = col then some A1
    else (step chk sat M col (row + 1) A1).bind (rowLoop chk sat M col row)

/-- All rotations. ac_qrd.h:314-321, 346-353 -/
noncomputable def colLoop (chk : Bool) (sat : ℝ) (M : ℕ) (A1 : Mem 𝕜) : Option (Mem 𝕜) :=
  forUp (fun col A1 => A1.bind fun A1 => rowLoop chk sat M col (M - 1) A1) M (some A1)

/-- The extra stage for `real_diag`: the new array and the coefficient. ac_qrd.h:368-391 -/
noncomputable def realDiag (chk : Bool) (sat : ℝ) (M : ℕ) (A1 : Mem 𝕜) : Option (Mem 𝕜 × 𝕜) :=
  let br := A1 (M - 1) (M - 1)
  let mag := Real.sqrt (RCLike.normSq br)
  (recip chk sat mag).map fun i : ℝ => (A1.put (M - 1) (M - 1) (mag : 𝕜), br * (i : 𝕜))

/-- `qr_separate`: the matrices Q and R. ac_qrd.h:122-138 -/
def separate (real_diag : Bool) (M : ℕ) (A1 : Mem 𝕜) (e : 𝕜) (Q R : Mem 𝕜) : Mem 𝕜 × Mem 𝕜 :=
  forUp (fun i QR => forUp (fun j QR =>
    (QR.1.put j i (if real_diag ∧ i = M - 1 then A1 i (j + M) * e else A1 i (j + M)),
      QR.2.put i j (A1 i j))) M QR) M (Q, R)

/-- `ac_qrd` for complex elements; with `real_diag = false` also the one for real elements, whose `qr_separate<true>`
multiplies by one.  `junk` is the uninitialised A1, `Q` and `R` the outputs before the call.
ac_qrd.h:295-323, 327-396 -/
noncomputable def qrd (chk real_diag : Bool) (sat : ℝ) (M : ℕ) (A junk Q R : Mem 𝕜) : Option (Mem 𝕜 × Mem 𝕜) :=
  (colLoop chk sat M (initMat M A junk)).bind fun A1 =>
    if real_diag then (realDiag chk sat M A1).map fun Ae => separate true M Ae.1 Ae.2 Q R
    else some (separate false M A1 1 Q R)

end Model.Qrd
