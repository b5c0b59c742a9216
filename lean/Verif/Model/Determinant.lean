import Verif.Ac.Arith
import Verif.Ac.Loop

/-! # Model of include/ac_math/ac_determinant.h (ac_fixed) -/

namespace Model.Determinant
open Ac

/-- The internal types passed down the recursion: `output_type`, `c_type`, `temp_type`, `d_type`, `base_type`. -/
structure Types where
  out : Fmt
  c : Fmt
  temp : Fmt
  d : Fmt
  base : Fmt

/-- `ac::log2_floor<Factorial<M>::value>`. ac_determinant.h:133-141, 285.  (`Factorial` is an `enum`: it does not
compile for `M > 12`, where a 32-bit int is exceeded.) -/
def growth (M : ℕ) : ℕ := Nat.log2 (Nat.factorial M)

/-- `types_params` for ac_fixed without `internal_adjust`. ac_determinant.h:281-309 -/
def defaultTypes (M : ℕ) (fi fo : Fmt) : Types where
  out := fo
  c := ⟨M * fi.W + growth M, M * fi.I + growth M, true, .RND, .SAT⟩
  temp := ⟨M * fi.W, M * fi.I, true, .RND, .SAT⟩
  d := ⟨M * fi.W, M * fi.I, true, .RND, .SAT⟩
  base := ⟨2 * fi.W + 1, 2 * fi.I + 1, true, .RND, .SAT⟩

/-- `types_params` with `internal_adjust`: the user's type for all but the base. ac_determinant.h:281-309 -/
def overrideTypes (fi fo internal : Fmt) : Types where
  out := fo
  c := internal
  temp := internal
  d := internal
  base := ⟨2 * fi.W + 1, 2 * fi.I + 1, true, .RND, .SAT⟩

/-- The minor `b(p-1,q-1) = A(p, q-(q<=j))`, with `p-1`, `q-1` as indices. ac_determinant.h:223-228 -/
def minor (A : Mem ℚ) (j : ℕ) : Mem ℚ := fun p q => A (p + 1) (q + 1 - if q + 1 ≤ j then 1 else 0)

/-- `determinant_matrix<M>::determinant_compute`. ac_determinant.h:204-243, the specialization for 2x2 249-259 and
for 1x1 266-274.  There is no instance for `M = 0`; the value given here is not used.  The value returned for
`M ≥ 3` has the type `output_type` of the caller of `ac_determinant`, at every level of the recursion.
The loops build every minor before it is used, so that the array `b` is represented by its contents. -/
def compute (t : Types) : ℕ → Mem ℚ → ℚ
  | 0, _ => 0
  | 1, A => t.base.cvt (A 0 0)
  | 2, A => t.base.cvt (t.base.cvt (A 0 0 * A 1 1) - t.base.cvt (A 0 1 * A 1 0))
  | M + 3, A =>
    let pr (j : ℕ) : ℚ := (-1) ^ j
    let c (j : ℕ) : ℚ := t.c.cvt (pr j * t.temp.cvt (compute t (M + 2) (minor A j)))
    t.out.cvt (forUp (fun j d => t.d.cvt (d + A 0 j * c j)) (M + 3) (t.d.cvt (0 : ℚ)))

/-- `ac_determinant_combined` and the overloads that call it. ac_determinant.h:361-374, 376-391 -/
def determinant (t : Types) (M : ℕ) (A : Mem ℚ) : ℚ := t.out.cvt (t.d.cvt (compute t M A))

end Model.Determinant
