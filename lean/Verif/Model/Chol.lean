import Verif.Ac.Arith
import Verif.Ac.Loop
import Verif.Model.SqrtFixed
import Verif.Model.DivFixed

/-! # Model of include/ac_math/ac_chol_d.h

The three array implementations (ac_fixed 176-277, ac_float 349-444, ac_complex<ac_fixed> 730-852) run the same loops;
they differ in the arithmetic on elements, which is the parameter `Ops`.  The other overloads convert the elements and
call one of these.  The loops, the packed array and the handling of `pos_def` are modelled exactly. -/

namespace Model.Chol
open Ac

/-- The arithmetic of one implementation: input elements `α`, stored elements `τ`, the sum for the diagonal `σd`, the
sum for other elements `σ`, the reciprocal `ρ`. -/
structure Ops (α τ σd σ ρ : Type) where
  /-- `sum_Ajj_Ljk_sq = A[j][j]`. ac_chol_d.h:204, 373, 757-759 -/
  dInit : α → σd
  /-- `sum_Ajj_Ljk_sq -= L*L` (`mag_sqr` for complex elements). ac_chol_d.h:209-210, 378-379, 764 -/
  dStep : σd → τ → σd
  /-- `sum_Ajj_Ljk_sq <= 0`. ac_chol_d.h:220, 389, 775 -/
  nonPos : σd → Bool
  /-- The diagonal element from the sum: square root, exact or PWL. ac_chol_d.h:225-234, 394-403, 782-802 -/
  diag : σd → τ
  /-- The reciprocal of the diagonal element. ac_chol_d.h:230, 239, 399, 407, 793, 807 -/
  recip : σd → ρ
  /-- `sum_Aij_Lik_Ljk = A[i][j]`. ac_chol_d.h:251-252, 419, 820 -/
  oInit : α → σ
  /-- `sum_Aij_Lik_Ljk -= L[i][k] * L[j][k]` (conjugated for complex elements). ac_chol_d.h:257, 424, 825 -/
  oStep : σ → τ → τ → σ
  /-- `(T_out)(recip_Ljj * sum)`. ac_chol_d.h:261, 428, 829-833 -/
  off : ρ → σ → τ
  /-- `0.0` in the output. ac_chol_d.h:270, 437, 843-847 -/
  zero : τ

variable {α τ σd σ ρ : Type}

/-- `L_IMD_SIZE`. ac_chol_d.h:191 -/
def size (M : ℕ) : ℕ := M * (M + 1) / 2

/-- `ind_conv`: the products of ac_int are exact, the result wraps to `t_1D`. ac_chol_d.h:157-163, 193 -/
def indConv (M i j : ℕ) : ℕ := (i * (i + 1) / 2 + j) % 2 ^ nbits (size M - 1)

/-- The array `L_imd_1D`; `none`: not yet written. ac_chol_d.h:194 -/
abbrev Packed (τ : Type) := ℕ → Option τ

/-- Reading an element; `none`: out of bounds or uninitialised. -/
def rd (M : ℕ) (m : Packed τ) (idx : ℕ) : Option τ := if idx < size M then m idx else none

/-- Writing an element; `none`: out of bounds. -/
def wr (M : ℕ) (m : Packed τ) (idx : ℕ) (v : τ) : Option (Packed τ) :=
  if idx < size M then some fun k => if k = idx then some v else m k else none

/-- `for (k = 0; k < M; k++) { if (k == j) break; ... }` over the diagonal sum; `n` counts the remaining iterations.
ac_chol_d.h:206-211 -/
def dLoop (o : Ops α τ σd σ ρ) (M : ℕ) (m : Packed τ) (j : ℕ) : (n k : ℕ) → σd → Option σd
  | 0, _, s => some s
  | n + 1, k, s =>
    if k = j then some s
    else (rd M m (indConv M j k)).bind fun x => dLoop o M m j n (k + 1) (o.dStep s x)

/-- The inner loop for an element below the diagonal. ac_chol_d.h:254-258 -/
def oLoop (o : Ops α τ σd σ ρ) (M : ℕ) (m : Packed τ) (i j : ℕ) : (n k : ℕ) → σ → Option σ
  | 0, _, s => some s
  | n + 1, k, s =>
    if k = j then some s
    else (rd M m (indConv M i k)).bind fun x => (rd M m (indConv M j k)).bind fun y =>
      oLoop o M m i j n (k + 1) (o.oStep s x y)

/-- `for (i = M-1; i > 0; i--)`; the argument is the current `i`. ac_chol_d.h:250-262 -/
def rowLoop (o : Ops α τ σd σ ρ) (M : ℕ) (A : Mem α) (j : ℕ) (r : ρ) : ℕ → Packed τ → Option (Packed τ)
  | 0, m => some m
  | i + 1, m =>
    (oLoop o M m (i + 1) j M 0 (o.oInit (A (i + 1) j))).bind fun s =>
      if i + 1 = j then some m
      else (wr M m (indConv M (i + 1) j) (o.off r s)).bind fun m' => rowLoop o M A j r i m'

/-- One column. ac_chol_d.h:203-263 -/
def column (o : Ops α τ σd σ ρ) (M : ℕ) (A : Mem α) (j : ℕ) (st : Packed τ × Bool) : Option (Packed τ × Bool) :=
  (dLoop o M st.1 j M 0 (o.dInit (A j j))).bind fun s =>
    (wr M st.1 (indConv M j j) (o.diag s)).bind fun m =>
      (rowLoop o M A j (o.recip s) (M - 1) m).map fun m' => (m', st.2 && !o.nonPos s)

/-- The loop over the columns. ac_chol_d.h:202-263 -/
def columns (o : Ops α τ σd σ ρ) (M : ℕ) (A : Mem α) : Option (Packed τ × Bool) :=
  forUp (fun j st => st.bind (column o M A j)) M (some (fun _ => none, true))

/-- The loop over the output. ac_chol_d.h:265-276 -/
def outputLoop (o : Ops α τ σd σ ρ) (M : ℕ) (m : Packed τ) (posDef : Bool) (L : Mem τ) : Option (Mem τ) :=
  forUp (fun i L => forUp (fun j L => L.bind fun L =>
    if j > i ∨ posDef = false then some (L.put i j o.zero)
    else (rd M m (indConv M i j)).map fun x => L.put i j x) M L) M (some L)

/-- `ac_chol_d`.  `none` is never reached (proved): a read of an element that was not written, or an access outside
the packed array. -/
def chol (o : Ops α τ σd σ ρ) (M : ℕ) (A : Mem α) (L : Mem τ) : Option (Mem τ) :=
  (columns o M A).bind fun st => outputLoop o M st.1 st.2 L

/-- The types of the ac_fixed version: input, output, and `i_s_t`. ac_chol_d.h:177-178, 197 -/
structure Types where
  fin : Fmt
  out : Fmt
  imd : Fmt

/-- `i_s_t` for the template arguments `delta_w`, `delta_i`, `imd_Q`, `imd_O`. ac_chol_d.h:197 -/
def imdFmt (out : Fmt) (dw : ℕ) (di : ℤ) (q : QMode) (o : OMode) : Fmt := ⟨out.W + dw, out.I + di, true, q, o⟩

/-- `T_out_u`, `i_s_t_u`. ac_chol_d.h:199-200 -/
def unsignedFmt (f : Fmt) : Fmt := { f with S := false }

/-- `imd_Ljj` with the exact functions. ac_chol_d.h:233 -/
def imdLjj (t : Types) (s : ℚ) : ℚ :=
  Model.SqrtFixed.sqrtFixed (unsignedFmt t.imd) (unsignedFmt t.out) ((unsignedFmt t.imd).cvtRaw s)

/-- The ac_fixed version with `use_pwl = false`.  `junk` is the uninitialised `recip_Ljj`, which `ac_div` leaves alone
when the quotient type cannot hold any bit of the quotient. ac_chol_d.h:176-277 -/
def fixedOps (t : Types) (junk : ℚ) : Ops ℚ ℚ ℚ ℚ ℚ where
  dInit a := t.imd.cvt a
  dStep s x := t.imd.cvt (s - x * x)
  nonPos s := decide (s ≤ 0)
  diag s := t.out.cvt (imdLjj t s)
  recip s := (Model.DivFixed.divU false ⟨1, 1, false, .TRN, .WRAP⟩ (unsignedFmt t.out) (unsignedFmt t.imd)
    1 ((unsignedFmt t.out).raw (imdLjj t s)) junk).1
  oInit a := t.imd.cvt a
  oStep s x y := t.imd.cvt (s - x * y)
  off r s := t.out.cvt (r * s)
  zero := 0

end Model.Chol
