import Verif.Model.CholExact

/-! # Model of include/ac_math/ac_cholinv.h

The real version (153-220) and the complex version (283-350) run the same loops; the arithmetic on elements is a
parameter.  The ac_matrix overloads pass their data arrays on (358-370). -/

namespace Model.CholInv
open Ac

/-- Arithmetic on elements: `τ` is `Tout`, `ω` the element type of the result. -/
structure Ops (τ ω : Type) where
  /-- `sum = 0.0`. ac_cholinv.h:188, 213, 318, 343 -/
  zero : τ
  /-- `recip_L`: division or PWL reciprocal. ac_cholinv.h:176-182, 196-202, 305-312, 326-333 -/
  recip : τ → τ
  /-- `sum += x * y`. ac_cholinv.h:191, 321 -/
  acc : τ → τ → τ → τ
  /-- `sum += 0.0`. ac_cholinv.h:191, 216, 321, 346 -/
  acc0 : τ → τ
  /-- `-(sum * recip_L)` assigned to `Tout`. ac_cholinv.h:203, 334 -/
  negMul : τ → τ → τ
  /-- `sum += x * y` in the last product, `x.conj()*y` for complex elements. ac_cholinv.h:216, 346 -/
  accC : τ → τ → τ → τ
  /-- `Ainv[i][j] = sum`. ac_cholinv.h:218, 348 -/
  out : τ → ω

variable {τ ω : Type}

/-- The loop over `k` with its break after the iteration `k >= j`; `n` counts the remaining iterations.  Only the
selected operand of the conditional is evaluated. `none`: an element of `Linv` is read before it is written.
ac_cholinv.h:189-194, 319-324 -/
def sumLoop (o : Ops τ ω) (L : Mem τ) (N : Mem (Option τ)) (i j : ℕ) : (n k : ℕ) → τ → Option τ
  | 0, _, s => some s
  | n + 1, k, s =>
    (if k < j ∧ i ≤ k then (N k i).map fun y => o.acc s (L j k) y else some (o.acc0 s)).bind fun s =>
      if j ≤ k then some s else sumLoop o L N i j n (k + 1) s

/-- One column of the inverse of the triangular matrix. ac_cholinv.h:174-205, 303-336 -/
def column (o : Ops τ ω) (M : ℕ) (L : Mem τ) (i : ℕ) (N : Mem (Option τ)) : Option (Mem (Option τ)) :=
  forUp (fun j N => N.bind fun N => if i + 1 ≤ j then
      (sumLoop o L N i j M 0 o.zero).map fun s => N.put j i (some (o.negMul s (o.recip (L j j))))
    else some N) M (some (N.put i i (some (o.recip (L i i)))))

/-- The inverse of the triangular matrix. ac_cholinv.h:173-206, 302-337 -/
def columns (o : Ops τ ω) (M : ℕ) (L : Mem τ) : Option (Mem (Option τ)) :=
  forUp (fun i N => N.bind (column o M L i)) M (some fun _ _ => none)

/-- One element of the result. ac_cholinv.h:213-217, 343-347 -/
def element (o : Ops τ ω) (M : ℕ) (N : Mem (Option τ)) (i j : ℕ) : Option τ :=
  forUp (fun k s => s.bind fun s => if k < j ∨ k < i then some (o.acc0 s)
    else (N k i).bind fun x => (N k j).map fun y => o.accC s x y) M (some o.zero)

/-- The product of the inverse of the triangular matrix with its transpose. ac_cholinv.h:209-219, 339-349 -/
def product (o : Ops τ ω) (M : ℕ) (N : Mem (Option τ)) (R : Mem ω) : Option (Mem ω) :=
  forUp (fun i R => forUp (fun j R => R.bind fun R => (element o M N i j).map fun s => R.put i j (o.out s)) M R)
    M (some R)

/-- `ac_cholinv`; `c` is the arithmetic of `ac_chol_d<use_pwl1>(A, L)`, `L0` and `R` the contents of `L` and `Ainv`
before the call. ac_cholinv.h:153-220, 283-350 -/
def cholinv {α σd σ ρ : Type} (c : Model.Chol.Ops α τ σd σ ρ) (o : Ops τ ω) (M : ℕ) (A : Mem α) (L0 : Mem τ)
    (R : Mem ω) : Option (Mem ω) :=
  (Model.Chol.chol c M A L0).bind fun L => (columns o M L).bind fun N => product o M N R

open scoped ComplexConjugate in
/-- Exact real or complex arithmetic; `sat` stands for the result of dividing by zero. -/
noncomputable def exactOps (𝕜 : Type) [RCLike 𝕜] (sat : 𝕜) : Ops 𝕜 𝕜 where
  zero := 0
  recip x := if x = 0 then sat else 1 / x
  acc s x y := s + x * y
  acc0 s := s + 0
  negMul s r := -(s * r)
  accC s x y := s + conj x * y
  out s := s

/-- `Tout`. ac_cholinv.h:160 -/
def tFmt (out : Fmt) (addw : ℕ) (addi : ℤ) (q : QMode) (o : OMode) : Fmt := ⟨out.W + addw, out.I + addi, out.S, q, o⟩

/-- The real version for a signed result type, `use_pwl2 = false`.  `junk` is the value of an uninitialised variable in
`ac_div`. ac_cholinv.h:153-220 -/
def fixedOps (out t : Fmt) (junk : ℚ) : Ops ℚ ℚ where
  zero := 0
  recip x := (Model.DivFixed.divS false ⟨2, 2, true, .TRN, .WRAP⟩ t t 1 (t.raw x) junk).1
  acc s x y := t.cvt (s + x * y)
  acc0 s := t.cvt (s + 0)
  negMul s r := t.cvt (-(s * r))
  accC s x y := t.cvt (s + x * y)
  out s := out.cvt s

end Model.CholInv
