import Verif.Props.FlfxMul

/-! # C104: laws of the product of an ac_float and an ac_fixed number

`result p subn x b` is the value of the product with an ac_float output, `exact p x b` the product of the values of the operands
(C27); `p` and `p'` are two instantiations, which may have different operand types. -/

namespace Props.FlfxMulLaws
open Ac Model.AddTree Model.FlfxMul Spec.Flt Props.FlfxMul

/-- Zero is a value of every float type. -/
theorem rep_zero (W : ℕ) (I : ℤ) (E : ℕ) : Rep W I E 0 :=
  ⟨0, 0, by simp, by positivity, by simp, by positivity, by simp⟩

/-- Every float type has a negative value. -/
theorem rep_neg (W : ℕ) (I : ℤ) (E : ℕ) : ∃ w, Rep W I E w ∧ w < 0 := by
  have h : (1 : ℤ) ≤ 2 ^ (W - 1) := one_le_pow₀ (by norm_num)
  refine ⟨(-1 : ℤ) * 2 ^ (I - W) * 2 ^ (0 : ℤ), ⟨-1, 0, by omega, by omega, by simp, by positivity, rfl⟩, ?_⟩
  have : (0 : ℚ) < 2 ^ (I - (W : ℤ)) := zpow_pos (by norm_num) _
  push_cast
  linarith

/-- Rounding down keeps the order. -/
theorem floor_mono {W : ℕ} {I : ℤ} {E : ℕ} {x y v w : ℚ} (hv : IsFloor W I E x v) (hw : IsFloor W I E y w) (h : x ≤ y) : v ≤ w := by
  obtain ⟨rv, ⟨v1, -⟩ | ⟨-, v2⟩⟩ := hv
  · obtain ⟨-, ⟨-, w2⟩ | ⟨w1, -⟩⟩ := hw
    · exact w2 v rv (v1.trans h)
    · exact (v1.trans h).trans w1.le
  · exact v2 w hw.1

theorem floor_of_rep {W : ℕ} {I : ℤ} {E : ℕ} {x v : ℚ} (hv : IsFloor W I E x v) (h : Rep W I E x) : v = x := by
  refine floor_mono hv ⟨h, Or.inl ⟨le_rfl, fun _ _ h => h⟩⟩ le_rfl |>.antisymm ?_
  exact floor_mono ⟨h, Or.inl ⟨le_rfl, fun _ _ h => h⟩⟩ hv le_rfl

theorem floor_neg_iff {W : ℕ} {I : ℤ} {E : ℕ} {x v : ℚ} (hv : IsFloor W I E x v) : v < 0 ↔ x < 0 := by
  obtain ⟨rv, ⟨v1, v2⟩ | ⟨v1, v2⟩⟩ := hv
  · refine ⟨fun h => ?_, fun h => v1.trans_lt h⟩
    by_contra hc
    exact absurd (v2 0 (rep_zero W I E) (not_lt.1 hc)) (not_le.2 h)
  · obtain ⟨w, hw, w0⟩ := rep_neg W I E
    have := (v2 w hw).trans_lt w0
    exact ⟨fun _ => v1.trans this, fun _ => this⟩

/-- **C104**, order: with subnormal support a larger product of the values gives a result that is not smaller, also if the operands
have different types. -/
theorem C104_order {p p' : Par} {x x' : Flt} {b b' : ℤ} (h : Valid p x b) (h' : Valid p' x' b')
    (ho : p'.oW = p.oW ∧ p'.oI = p.oI ∧ p'.oE = p.oE) (hle : exact p x b ≤ exact p' x' b') :
    result p true x b ≤ result p' true x' b' := by
  have t := C27_float_subnormals h'
  rw [ho.1, ho.2.1, ho.2.2] at t
  exact floor_mono (C27_float_subnormals h) t hle

/-- **C104**, values: with subnormal support the result depends only on the product of the values of the operands, not on their
types nor on which of the pairs of mantissa and exponent represents the float operand. -/
theorem C104_value {p p' : Par} {x x' : Flt} {b b' : ℤ} (h : Valid p x b) (h' : Valid p' x' b')
    (ho : p'.oW = p.oW ∧ p'.oI = p.oI ∧ p'.oE = p.oE) (he : exact p x b = exact p' x' b') :
    result p true x b = result p' true x' b' :=
  (C104_order h h' ho he.le).antisymm (C104_order h' h ⟨ho.1.symm, ho.2.1.symm, ho.2.2.symm⟩ he.ge)

/-- 25 · 2^2 and 100 · 2^0, times 6/2 and 3. -/
example : Valid ⟨8, 2, 4, 3, 3, false, 12, 4, 4⟩ ⟨100, 0⟩ 3 ∧ Valid ⟨8, 2, 4, 4, 3, true, 12, 4, 4⟩ ⟨25, 2⟩ 6 ∧
    exact ⟨8, 2, 4, 3, 3, false, 12, 4, 4⟩ ⟨100, 0⟩ 3 = exact ⟨8, 2, 4, 4, 3, true, 12, 4, 4⟩ ⟨25, 2⟩ 6 ∧
    result ⟨8, 2, 4, 3, 3, false, 12, 4, 4⟩ true ⟨100, 0⟩ 3 ≠ 0 := by
  refine ⟨⟨by decide, by decide, by decide, by decide, by decide, by decide⟩,
    ⟨by decide, by decide, by decide, by decide, by decide, by decide⟩, ?_, ?_⟩
  · unfold exact fltVal; norm_num
  · decide +kernel

/-- **C104**, exactness: with subnormal support a product that the output type holds is exact. -/
theorem C104_exact {p : Par} {x : Flt} {b : ℤ} (h : Valid p x b) (hr : Rep p.oW p.oI p.oE (exact p x b)) :
    result p true x b = exact p x b :=
  floor_of_rep (C27_float_subnormals h) hr

/-- **C104**, one: multiplying by one gives the float operand, if the output has its type. -/
theorem C104_one {p : Par} {x : Flt} {b : ℤ} (h : Valid p x b) (ho : p.oW = p.W1 ∧ p.oI = p.I1 ∧ p.oE = p.E1)
    (hb : (b : ℚ) * 2 ^ (p.I2 - p.W2) = 1) : result p true x b = fltVal p.W1 p.I1 x := by
  have e : exact p x b = fltVal p.W1 p.I1 x := by unfold exact; rw [hb, mul_one]
  rw [C104_exact h, e]
  rw [e, ho.1, ho.2.1, ho.2.2]
  exact ⟨x.m, x.e, h.m.1, h.m.2, h.e.1, h.e.2, rfl⟩

example : Valid ⟨8, 2, 4, 3, 2, false, 8, 2, 4⟩ ⟨-100, 3⟩ 2 ∧ ((2 : ℤ) : ℚ) * 2 ^ ((2 : ℤ) - (3 : ℕ)) = 1 :=
  ⟨⟨by decide, by decide, by decide, by decide, by decide, by decide⟩, by norm_num⟩

/-- **C104**, sign: with subnormal support the result is negative exactly if the product is. -/
theorem C104_sign {p : Par} {x : Flt} {b : ℤ} (h : Valid p x b) : result p true x b < 0 ↔ exact p x b < 0 :=
  floor_neg_iff (C27_float_subnormals h)

/-- **C104**, zero: with subnormal support multiplying by zero gives zero. -/
theorem C104_zero {p : Par} {x : Flt} (h : Valid p x 0) : result p true x 0 = 0 := by
  have e : exact p x 0 = 0 := by unfold exact; simp
  rw [C104_exact h (by rw [e]; exact rep_zero _ _ _), e]

example : Valid ⟨8, 2, 4, 3, 3, false, 12, 4, 4⟩ ⟨100, 7⟩ 0 :=
  ⟨by decide, by decide, by decide, by decide, by decide, by decide⟩

/-- **C104**, agreement: for a normalized float operand and a nonzero fixed-point operand the versions with and without subnormal
support give the same value, unless the product is below the normalized numbers of the output type. -/
theorem C104_agree {p : Par} {x : Flt} {b : ℤ} (h : Valid p x b) (hx : Normal p.W1 x.m) (hb : b ≠ 0)
    (ht : ¬ (-2 ^ (p.oI - 2 - 2 ^ (p.oE - 1)) ≤ exact p x b ∧ exact p x b < 2 ^ (p.oI - 2 - 2 ^ (p.oE - 1)))) :
    result p false x b = result p true x b := by
  have t := C27_float_normal h hx hb
  rw [if_neg ht] at t
  have u := C27_float_subnormals h
  exact (floor_mono t u le_rfl).antisymm (floor_mono u t le_rfl)

/-- **C104**, order without subnormal support, for normalized float operands and nonzero fixed-point operands. -/
theorem C104_order_normal {p p' : Par} {x x' : Flt} {b b' : ℤ} (h : Valid p x b) (h' : Valid p' x' b')
    (ho : p'.oW = p.oW ∧ p'.oI = p.oI ∧ p'.oE = p.oE) (hx : Normal p.W1 x.m) (hx' : Normal p'.W1 x'.m) (hb : b ≠ 0) (hb' : b' ≠ 0)
    (hle : exact p x b ≤ exact p' x' b') : result p false x b ≤ result p' false x' b' := by
  have t := C27_float_normal h hx hb
  have t' := C27_float_normal h' hx' hb'
  rw [ho.1, ho.2.1, ho.2.2] at t'
  have l0 : (0 : ℚ) < 2 ^ (p.oI - 2 - 2 ^ (p.oE - 1)) := zpow_pos (by norm_num) _
  split_ifs at t t' with c c' c'
  · rw [t, t']
  · rw [t]
    by_contra hc
    have := (floor_neg_iff t').1 (not_le.1 hc)
    exact c' ⟨c.1.trans hle, this.trans l0⟩
  · rw [t']
    by_contra hc
    have h0 : 0 ≤ exact p x b := not_lt.1 fun h => hc ((floor_neg_iff t).2 h).le
    exact c ⟨by linarith, hle.trans_lt c'.2⟩
  · exact floor_mono t t' hle

example : Valid ⟨8, 2, 4, 3, 3, false, 12, 4, 4⟩ ⟨100, 0⟩ 3 ∧ Normal 8 100 ∧
    ¬ (-2 ^ ((4 : ℤ) - 2 - 2 ^ (4 - 1)) ≤ exact ⟨8, 2, 4, 3, 3, false, 12, 4, 4⟩ ⟨100, 0⟩ 3 ∧
      exact ⟨8, 2, 4, 3, 3, false, 12, 4, 4⟩ ⟨100, 0⟩ 3 < 2 ^ ((4 : ℤ) - 2 - 2 ^ (4 - 1))) := by
  refine ⟨⟨by decide, by decide, by decide, by decide, by decide, by decide⟩, by unfold Normal; decide, ?_⟩
  unfold exact fltVal; norm_num

/-- Without subnormal support the order fails for a zero fixed-point operand: the product with zero can be the largest number of
the output type (C27_float_zero_wrong), above the product with one. -/
theorem C104_order_zero_wrong : ∃ (p : Par) (x : Flt) (b b' : ℤ), Valid p x b ∧ Valid p x b' ∧ Normal p.W1 x.m ∧
    exact p x b < exact p x b' ∧ result p false x b' < result p false x b := by
  refine ⟨⟨8, 2, 4, 3, 3, false, 12, 4, 4⟩, ⟨100, 7⟩, 0, 1, ⟨by decide, by decide, by decide, by decide, by decide, by decide⟩,
    ⟨by decide, by decide, by decide, by decide, by decide, by decide⟩, by unfold Normal; decide, ?_, ?_⟩
  · unfold exact fltVal; norm_num
  · decide +kernel

/-- **C104**, fixed-point output, order: into a saturating type a larger product gives a result that is not smaller. -/
theorem C104_fixed_order {W1 W1' : ℕ} {I1 I1' : ℤ} {E1 E1' : ℕ} {g g' out : Fmt} {x x' : Flt} {y y' : ℚ} (hW : 2 ≤ W1) (hW' : 2 ≤ W1')
    (hE : 1 ≤ E1) (hE' : 1 ≤ E1') (hg : 1 ≤ g.W) (hg' : 1 ≤ g'.W) (ho : 1 ≤ out.W) (hs : out.O = .SAT ∨ out.O = .SAT_SYM)
    (hm : -2 ^ (W1 - 1) ≤ x.m ∧ x.m < 2 ^ (W1 - 1)) (hm' : -2 ^ (W1' - 1) ≤ x'.m ∧ x'.m < 2 ^ (W1' - 1))
    (he : -2 ^ (E1 - 1) ≤ x.e ∧ x.e < 2 ^ (E1 - 1)) (he' : -2 ^ (E1' - 1) ≤ x'.e ∧ x'.e < 2 ^ (E1' - 1)) (hy : g.Rep y)
    (hy' : g'.Rep y') (hle : fltVal W1 I1 x * y ≤ fltVal W1' I1' x' * y') :
    mulFixed true W1 I1 E1 g out x y ≤ mulFixed true W1' I1' E1' g' out x' y' := by
  rw [(C27_fixed hW hE hg ho hm he hy).1 (Or.inl rfl), (C27_fixed hW' hE' hg' ho hm' he' hy').1 (Or.inl rfl)]
  exact Fmt.cvt_mono hs hle

/-- **C104**, fixed-point output, values: the result depends only on the product of the values, and a float operand may take the place
of a fixed-point operand of the same value. -/
theorem C104_fixed_floats {W1 W2 : ℕ} {I1 I2 : ℤ} {E1 E2 : ℕ} {g out : Fmt} {x x2 : Flt} {y : ℚ} (hW : 2 ≤ W1) (hW2 : 2 ≤ W2)
    (hE : 1 ≤ E1) (hE2 : 1 ≤ E2) (hg : 1 ≤ g.W) (ho : 1 ≤ out.W)
    (hm : -2 ^ (W1 - 1) ≤ x.m ∧ x.m < 2 ^ (W1 - 1)) (hm2 : -2 ^ (W2 - 1) ≤ x2.m ∧ x2.m < 2 ^ (W2 - 1))
    (he : -2 ^ (E1 - 1) ≤ x.e ∧ x.e < 2 ^ (E1 - 1)) (he2 : -2 ^ (E2 - 1) ≤ x2.e ∧ x2.e < 2 ^ (E2 - 1)) (hy : g.Rep y)
    (e : fltVal W2 I2 x2 = y) :
    mulFloats true W1 I1 E1 W2 I2 E2 out x x2 = mulFixed true W1 I1 E1 g out x y := by
  rw [(C27_fixed hW hE hg ho hm he hy).1 (Or.inl rfl), (C27_floats hW hE hW2 hE2 ho hm he hm2 he2).1 (Or.inl rfl), e]

/-- 12 · 2^1 · 2^(3-5) = 6 is a value of ac_fixed<5,4>. -/
example : fltVal 5 3 ⟨12, 1⟩ = 6 ∧ (⟨5, 4, true, .TRN, .WRAP⟩ : Fmt).Rep 6 := by
  refine ⟨by unfold fltVal; norm_num, 12, by decide, by decide, ?_⟩
  decide +kernel

end Props.FlfxMulLaws
