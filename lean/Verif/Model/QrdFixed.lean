import Verif.Ac.Loop
import Mathlib.Data.Nat.Log
import Verif.Model.SqrtFixed
import Verif.Model.DivFixed
import Verif.Model.PwlFixed

/-! # ac_qrd with its fixed-point arithmetic (include/ac_math/ac_qrd.h)

The loops are written over the operations on elements (`Ops`), which are then given for ac_fixed and for
ac_complex<ac_fixed> elements.  The array overloads copy their arguments and call these (403-462). -/

namespace Model.QrdFixed
open Ac

/-- Operations on elements: `β` is the type of the input, `α` that of the array A1, `κ` that of the coefficients of a
rotation, `ω` that of the outputs. -/
structure Ops (β α κ ω : Type) where
  /-- `A1(i,j) = A(i,j)`. ac_qrd.h:110 -/
  load : β → α
  /-- `assign_unity_or_zero`. ac_qrd.h:79-98 -/
  one : α
  zero : α
  /-- `diagonal_PE`, arguments `b` and `a`, result `c` and `s`. ac_qrd.h:156-191 -/
  pe : α → α → κ × κ
  /-- `rotate` in the left and in the right half of A1. ac_qrd.h:195-242 -/
  rotR : α → α → κ → κ → α × α
  rotQ : α → α → κ → κ → α × α
  /-- The assignments to Q and R. ac_qrd.h:131-135 -/
  store : α → ω

variable {β α κ ω : Type}

/-- `initialize_matrix`. The test `j+M-i == M` is on unsigned numbers, which wrap. ac_qrd.h:102-117 -/
def initMat (o : Ops β α κ ω) (M : ℕ) (A : Mem β) (junk : Mem α) : Mem α :=
  forUp (fun i m => forUp (fun j m => (m.put i j (o.load (A i j))).put i (j + M)
    (if (((j + M : ℕ) : ℤ) - i) % 2 ^ 32 = M % 2 ^ 32 then o.one else o.zero)) M m) M junk

/-- `rotate`, `if (i < M)`. ac_qrd.h:232-241 -/
def rotate (o : Ops β α κ ω) (M i : ℕ) (r0 r1 : α) (c s : κ) : α × α :=
  if i < M then o.rotR r0 r1 c s else o.rotQ r0 r1 c s

/-- `offdiagonal_PE`. ac_qrd.h:255-268 -/
def offdiagonalPE (o : Ops β α κ ω) (M : ℕ) (pivot : ℕ) (c s : κ) (A1 : Mem α) : Mem α :=
  forUp (fun i A1 =>
    let r := rotate o M i (A1 (pivot - 1) i) (A1 pivot i) c s
    (A1.put (pivot - 1) i r.1).put pivot i r.2) (2 * M) A1

/-- One rotation.  The second part of the state is not in the code: it lists the pairs `(b, a)` passed to `diagonal_PE`.
ac_qrd.h:318-319, 350-351 -/
def step (o : Ops β α κ ω) (M col row : ℕ) (st : Mem α × List (α × α)) : Mem α × List (α × α) :=
  let b := st.1 row col
  let a := st.1 (row - 1) col
  let cs := o.pe b a
  (offdiagonalPE o M row cs.1 cs.2 st.1, (b, a) :: st.2)

/-- `for (row = M-1; row > 0; row--) { if (row == column) break; ... }`; the argument is the current row.
ac_qrd.h:316-320, 348-352 -/
def rowLoop (o : Ops β α κ ω) (M col : ℕ) : ℕ → Mem α × List (α × α) → Mem α × List (α × α)
  | 0, st => st
  | row + 1, st => if row + 1 = col then st else rowLoop o M col row (step o M col (row + 1) st)

/-- All rotations. ac_qrd.h:314-321, 346-353 -/
def colLoop (o : Ops β α κ ω) (M : ℕ) (A1 : Mem α) : Mem α × List (α × α) :=
  forUp (fun col st => rowLoop o M col (M - 1) st) M (A1, [])

/-- `qr_separate`: the matrices Q and R.  The real version multiplies the last column of Q by one. ac_qrd.h:122-138 -/
def separate (o : Ops β α κ ω) (M : ℕ) (A1 : Mem α) (Q R : Mem ω) : Mem ω × Mem ω :=
  forUp (fun i QR => forUp (fun j QR => (QR.1.put j i (o.store (A1 i (j + M))), QR.2.put i j (o.store (A1 i j)))) M QR) M (Q, R)

/-- `ac_qrd` with `real_diag = false`.  `junk` is the uninitialised A1, `Q` and `R` the outputs before the call.
ac_qrd.h:295-323, 327-396 -/
def qrd (o : Ops β α κ ω) (M : ℕ) (A : Mem β) (junk : Mem α) (Q R : Mem ω) : Mem ω × Mem ω :=
  separate o M (colLoop o M (initMat o M A junk)).1 Q R

/-- The pairs of elements `ac_qrd` passes to `diagonal_PE`, last first. -/
def pairs (o : Ops β α κ ω) (M : ℕ) (A : Mem β) (junk : Mem α) : List (α × α) :=
  (colLoop o M (initMat o M A junk)).2

/-- `i_root`. ac_qrd.h:172 -/
def irootFmt : Fmt := ⟨48, 16, false, .TRN, .WRAP⟩

/-- `sqr_type`; `k` is the integer width of the type that `rt_unary::mag_sqr` of the elements of A1 names, which is declared
outside the repository (for ac_fixed twice that of the element, less one). ac_qrd.h:158-163 -/
def sqrFmt (k : ℤ) : Fmt := ⟨(32 + k).toNat, k, false, .TRN, .WRAP⟩

/-- The type of `root`; `root_I` is half of `k`, rounded up. ac_qrd.h:168-169, 182 -/
def rootFmt (k : ℤ) : Fmt := ⟨(32 + (k + 1) / 2).toNat, (k + 1) / 2, false, .TRN, .WRAP⟩

/-- A sum of squares `s` of type `f` to its inverse root, for `ispwl` false and true.  `junk` is the uninitialised `i_root`, which
`ac_div` leaves alone only for types that cannot hold a bit of the quotient, and the value of a table read out of bounds;
neither happens. ac_qrd.h:177-190, 371-384 -/
def irootOf (ispwl : Bool) (f : Fmt) (k : ℤ) (junk : ℚ) (s : ℚ) : ℚ :=
  if ispwl then (Model.PwlFixed.inverseSqrt .TRN true f irootFmt s).getD junk
  else (Model.DivFixed.divU false ⟨1, 1, false, .TRN, .WRAP⟩ (rootFmt k) irootFmt 1
    ((rootFmt k).raw (Model.SqrtFixed.sqrtFixed f (rootFmt k) (f.raw s))) junk).1

/-- The sum of squares `q` to its inverse root. ac_qrd.h:164-190 -/
def iroot (ispwl : Bool) (k : ℤ) (junk : ℚ) (q : ℚ) : ℚ := irootOf ispwl (sqrFmt k) k junk ((sqrFmt k).cvt q)

/-- `intermediate_type`: `add` is the number of additional integer bits. ac_qrd.h:298-306, 330-338 -/
def imdFmt (fi : Fmt) (add : ℕ) : Fmt := ⟨(fi.I + add + 32).toNat, fi.I + add, true, .RND, .SAT⟩

/-- The intermediate type and the integer width of `rt_unary::mag_sqr` for ac_fixed elements: a bit for each doubling of the number
of rotations, `ac::log2_ceil<n_gr + 1>::val`. ac_qrd.h:298-306 -/
def realImd (fi : Fmt) (M : ℕ) : Fmt := imdFmt fi (Nat.clog 2 (M * (M - 1) / 2 + 1))
def realSqr (imd : Fmt) : ℤ := 2 * imd.I - 1

/-- The same for ac_complex elements, whose `mag_sqr` is a sum of two squares. ac_qrd.h:330-338, 355-362 -/
def complexImd (fi : Fmt) (M : ℕ) : Fmt := imdFmt fi (Nat.clog 2 (2 * (M * (M - 1) / 2) + 1))
def complexSqr (imd : Fmt) : ℤ := 2 * imd.I

/-- `sin_cosine_type`. ac_qrd.h:307, 339 -/
def csFmt : Fmt := ⟨34, 2, true, .RND, .SAT⟩

/-- The ac_fixed version: `imd` is the intermediate type, `out` that of Q and R. ac_qrd.h:295-323 -/
def realOps (imd out : Fmt) (ispwl : Bool) (k : ℤ) (junk : ℚ) : Ops ℚ ℚ ℚ ℚ where
  load x := imd.cvt x
  one := imd.cvt (1 : ℚ)
  zero := imd.cvt (0 : ℚ)
  pe b a := let r := iroot ispwl k junk (b * b + a * a); (csFmt.cvt (a * r), csFmt.cvt (-b * r))
  rotR x y c s := (imd.cvt (c * x + csFmt.cvt (-s) * y), imd.cvt (c * y + s * x))
  rotQ x y c s := (imd.cvt (c * x + csFmt.cvt (-s) * y), imd.cvt (c * y + s * x))
  store x := out.cvt x

/-- Product of complex numbers; ac_complex computes it exactly. -/
def cmul (x y : ℚ × ℚ) : ℚ × ℚ := (x.1 * y.1 - x.2 * y.2, x.1 * y.2 + x.2 * y.1)

/-- `c0*x + c1*y` assigned to an ac_complex with parts of type `f`. ac_qrd.h:234-240 -/
def crow (f : Fmt) (c0 x c1 y : ℚ × ℚ) : ℚ × ℚ :=
  (f.cvt ((cmul c0 x).1 + (cmul c1 y).1), f.cvt ((cmul c0 x).2 + (cmul c1 y).2))

/-- `conj` and negation assigned to the type of the coefficients. ac_qrd.h:221 -/
def cconj (c : ℚ × ℚ) : ℚ × ℚ := (c.1, csFmt.cvt (-c.2))
def cneg (c : ℚ × ℚ) : ℚ × ℚ := (csFmt.cvt (-c.1), csFmt.cvt (-c.2))
def cnegconj (c : ℚ × ℚ) : ℚ × ℚ := (csFmt.cvt (-c.1), c.2)

/-- The ac_complex<ac_fixed> version. ac_qrd.h:211-242, 327-353 -/
def complexOps (imd out : Fmt) (ispwl : Bool) (k : ℤ) (junk : ℚ) : Ops (ℚ × ℚ) (ℚ × ℚ) (ℚ × ℚ) (ℚ × ℚ) where
  load x := (imd.cvt x.1, imd.cvt x.2)
  one := (imd.cvt (1 : ℚ), imd.cvt (0 : ℚ))
  zero := (imd.cvt (0 : ℚ), imd.cvt (0 : ℚ))
  pe b a :=
    let r := iroot ispwl k junk ((b.1 * b.1 + b.2 * b.2) + (a.1 * a.1 + a.2 * a.2))
    ((csFmt.cvt (a.1 * r), csFmt.cvt (a.2 * r)), (csFmt.cvt (-b.1 * r), csFmt.cvt (-b.2 * r)))
  rotR x y c s := (crow imd (cconj c) x (cnegconj s) y, crow imd c y s x)
  rotQ x y c s := (crow imd c x (cneg s) y, crow imd (cconj c) y (cconj s) x)
  store x := (out.cvt x.1, out.cvt x.2)

/-! ## `real_diag = true` -/

/-- The operations of the extra stage for `real_diag`: `α` is the type of the array A1, `κ` that of the coefficient
`exp_arg_br_conj`, `ω` that of the outputs. -/
structure DiagOps (α κ ω : Type) where
  /-- The bottom right element of A1 to its new value and the coefficient. ac_qrd.h:371-390 -/
  diag : α → α × κ
  /-- `Q(j, i) = A1(i, j + M)*e_coeff`. ac_qrd.h:131 -/
  storeMul : α → κ → ω

/-- `qr_separate<true>`, `e` is `e_coeff`. ac_qrd.h:120-138 -/
def separateDiag (o : Ops β α κ ω) {κ' : Type} (d : DiagOps α κ' ω) (M : ℕ) (A1 : Mem α) (e : κ') (Q R : Mem ω) : Mem ω × Mem ω :=
  forUp (fun i QR => forUp (fun j QR =>
    (QR.1.put j i (if i = M - 1 then d.storeMul (A1 i (j + M)) e else o.store (A1 i (j + M))), QR.2.put i j (o.store (A1 i j)))) M QR) M
    (Q, R)

/-- The array A1 at the end of the rotations. ac_qrd.h:343-353 -/
def rotated (o : Ops β α κ ω) (M : ℕ) (A : Mem β) (junk : Mem α) : Mem α := (colLoop o M (initMat o M A junk)).1

/-- `ac_qrd` with `real_diag = true`. ac_qrd.h:327-396 -/
def qrdDiag (o : Ops β α κ ω) {κ' : Type} (d : DiagOps α κ' ω) (M : ℕ) (A : Mem β) (junk : Mem α) (Q R : Mem ω) : Mem ω × Mem ω :=
  let A1 := rotated o M A junk
  let r := d.diag (A1 (M - 1) (M - 1))
  separateDiag o d M (A1.put (M - 1) (M - 1) r.1) r.2 Q R

/-- The type of the parts of `br_elem`. ac_qrd.h:371 -/
def brFmt (imd : Fmt) : Fmt := ⟨imd.W, imd.I, true, .TRN, .WRAP⟩

/-- The type of `br_elem.mag_sqr()`, which holds the sum of the two squares exactly. ac_qrd.h:376-380 -/
def magFmt (imd : Fmt) : Fmt := ⟨2 * imd.W, 2 * imd.I, false, .TRN, .WRAP⟩

/-- `mag_br`, a root of type `T_mag`; `junk` as for `irootOf`. ac_qrd.h:376, 380 -/
def magOf (ispwl : Bool) (f : Fmt) (k : ℤ) (junk : ℚ) (s : ℚ) : ℚ :=
  if ispwl then (Model.PwlFixed.sqrt .TRN true f (rootFmt k) s).getD junk
  else Model.SqrtFixed.sqrtFixed f (rootFmt k) (f.raw s)

/-- The type of the parts of `exp_arg_br_conj`. ac_qrd.h:366 -/
def phaseFmt : Fmt := ⟨34, 2, true, .TRN, .WRAP⟩

/-- The extra stage for ac_complex<ac_fixed>. ac_qrd.h:366-390, 131 -/
def complexDiag (imd out : Fmt) (ispwl : Bool) (k : ℤ) (junk : ℚ) : DiagOps (ℚ × ℚ) (ℚ × ℚ) (ℚ × ℚ) where
  diag b :=
    let r := (brFmt imd).cvt b.1
    let i := (brFmt imd).cvt b.2
    let s := r * r + i * i
    let m := magOf ispwl (magFmt imd) k junk s
    let im := irootOf ispwl (magFmt imd) k junk s
    ((imd.cvt m, imd.cvt (0 : ℚ)), (phaseFmt.cvt (r * im), phaseFmt.cvt (i * im)))
  storeMul x e := (out.cvt (cmul x e).1, out.cvt (cmul x e).2)

end Model.QrdFixed
