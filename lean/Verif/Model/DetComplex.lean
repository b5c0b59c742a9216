import Verif.Model.Determinant
import Mathlib.Algebra.QuadraticAlgebra.Basic

/-! # Model of include/ac_math/ac_determinant.h (ac_complex<ac_fixed>)

`ac_complex` is not part of /repo.  Of it the function uses the exact difference, sum and product (every intermediate type
of `ac_complex` is wide enough), the product with an `int`, and the assignment part by part. -/

namespace Model.DetComplex
open Ac
open Model.Determinant (Types growth)

/-- The numbers `re + im*i` with rational parts, `i*i = -1`. -/
abbrev Cx := QuadraticAlgebra ℚ (-1) 0

/-- Assignment to an `ac_complex` whose parts have the format `f`. -/
def cvt (f : Fmt) (z : Cx) : Cx := ⟨f.cvt z.re, f.cvt z.im⟩

/-- `types_params` for ac_complex without `internal_adjust`.  The base type takes the modes of the input type, unlike
that for ac_fixed. ac_determinant.h:311-343 -/
def defaultTypes (M : ℕ) (fi fo : Fmt) : Types where
  out := fo
  c := ⟨M * fi.W + growth M, M * fi.I + growth M, true, .RND, .SAT⟩
  temp := ⟨M * fi.W, M * fi.I, true, .RND, .SAT⟩
  d := ⟨M * fi.W, M * fi.I, true, .RND, .SAT⟩
  base := ⟨2 * fi.W + 1, 2 * fi.I + 1, true, fi.Q, fi.O⟩

/-- `types_params` with `internal_adjust`: the user's type for all but the base. ac_determinant.h:311-343 -/
def overrideTypes (fi fo internal : Fmt) : Types where
  out := fo
  c := internal
  temp := internal
  d := internal
  base := ⟨2 * fi.W + 1, 2 * fi.I + 1, true, fi.Q, fi.O⟩

/-- The minor `b(p-1,q-1) = A(p, q-(q<=j))`, with `p-1`, `q-1` as indices. ac_determinant.h:223-228 -/
def minor (A : Mem Cx) (j : ℕ) : Mem Cx := fun p q => A (p + 1) (q + 1 - if q + 1 ≤ j then 1 else 0)

/-- `determinant_matrix<M>::determinant_compute`. ac_determinant.h:204-243, the specialization for 2x2 249-259 and
for 1x1 266-274.  There is no instance for `M = 0`; the value given here is not used. -/
def compute (t : Types) : ℕ → Mem Cx → Cx
  | 0, _ => 0
  | 1, A => cvt t.base (A 0 0)
  | 2, A => cvt t.base (cvt t.base (A 0 0 * A 1 1) - cvt t.base (A 0 1 * A 1 0))
  | M + 3, A =>
    let pr (j : ℕ) : Cx := (-1) ^ j
    let c (j : ℕ) : Cx := cvt t.c (pr j * cvt t.temp (compute t (M + 2) (minor A j)))
    cvt t.out (forUp (fun j d => cvt t.d (d + A 0 j * c j)) (M + 3) (cvt t.d 0))

/-- `ac_determinant_combined` and the overloads that call it. ac_determinant.h:361-374, 392-409 -/
def determinant (t : Types) (M : ℕ) (A : Mem Cx) : Cx := cvt t.out (cvt t.d (compute t M A))

end Model.DetComplex
