import Verif.Props.ComplexDiv
import Verif.Props.DivLaws

/-! # C100: laws of the quotient of complex numbers

`div noSat fd fq a b c d junk junk'` is the output of the complex `ac_div` for `(a + bi) / (c + di)`: the two parts and the
flag that it is inexact. -/

namespace Props.ComplexDivLaws
open Ac Model.Complex Props.ComplexDiv

/-- The operand and quotient types for which C59 holds. -/
structure Types (fn fd fq : Fmt) : Prop where
  n : 1 ≤ fn.W
  d : 1 ≤ fd.W
  q : 1 ≤ fq.W
  S : fq.S = true
  w : NoWider fn fq
  F : -(fq.W + fd.W : ℤ) ≤ fd.F

/-- `a + bi` is a dividend and `c + di` a divisor other than zero. -/
structure Operands (fn fd : Fmt) (a b c d : ℚ) : Prop where
  ha : fn.Rep a
  hb : fn.Rep b
  hc : fd.Rep c
  hd : fd.Rep d
  nz : c ≠ 0 ∨ d ≠ 0

theorem quo (s : Bool) {fn fd fq : Fmt} (h : Types fn fd fq) {a b c d : ℚ} (o : Operands fn fd a b c d) (j k : ℚ) :
    (div s fd fq a b c d j k).1 = fq.cvt ((a * c + b * d) / (c ^ 2 + d ^ 2)) ∧
    (div s fd fq a b c d j k).2.1 = fq.cvt ((b * c - a * d) / (c ^ 2 + d ^ 2)) ∧
    ((div s fd fq a b c d j k).2.2 = true ↔ (∀ m : ℤ, (a * c + b * d) / (c ^ 2 + d ^ 2) ≠ fq.val m) ∨
      (∀ m : ℤ, (b * c - a * d) / (c ^ 2 + d ^ 2) ≠ fq.val m)) :=
  C59_quotient_partial h.n h.d h.q h.S h.w h.F o.ha o.hb o.hc o.hd o.nz j k

theorem den_pos {c d : ℚ} (h : c ≠ 0 ∨ d ≠ 0) : 0 < c ^ 2 + d ^ 2 := by
  rcases h with h | h
  · have := pow_pos (abs_pos.2 h) 2; rw [sq_abs] at this; have := sq_nonneg d; linarith
  · have := pow_pos (abs_pos.2 h) 2; rw [sq_abs] at this; have := sq_nonneg c; linarith

/-- **C100**, values: equal fractions have equal quotients and flags, bit for bit, also in operands of other types. The
hypotheses say `(a + bi)(c' + d'i) = (a' + b'i)(c + di)`. -/
theorem C100_value (s s' : Bool) {fn fd fn' fd' fq : Fmt} (h : Types fn fd fq) (h' : Types fn' fd' fq) {a b c d a' b' c' d' : ℚ}
    (o : Operands fn fd a b c d) (o' : Operands fn' fd' a' b' c' d') (e1 : a * c' - b * d' = a' * c - b' * d)
    (e2 : a * d' + b * c' = a' * d + b' * c) (j k j' k' : ℚ) :
    div s fd fq a b c d j k = div s' fd' fq a' b' c' d' j' k' := by
  obtain ⟨x1, x2, x3⟩ := quo s h o j k
  obtain ⟨y1, y2, y3⟩ := quo s' h' o' j' k'
  have p := (den_pos o.nz).ne'
  have p' := (den_pos o'.nz).ne'
  have r1 : (a * c + b * d) / (c ^ 2 + d ^ 2) = (a' * c' + b' * d') / (c' ^ 2 + d' ^ 2) := by
    rw [div_eq_div_iff p p']
    linear_combination (c * c' - d * d') * e1 + (c * d' + d * c') * e2
  have r2 : (b * c - a * d) / (c ^ 2 + d ^ 2) = (b' * c' - a' * d') / (c' ^ 2 + d' ^ 2) := by
    rw [div_eq_div_iff p p']
    linear_combination (c * c' - d * d') * e2 - (c * d' + d * c') * e1
  rw [r1] at x1 x3; rw [r2] at x2 x3
  exact Prod.ext (x1.trans y1.symm) (Prod.ext (x2.trans y2.symm) (Bool.eq_iff_iff.2 (x3.trans y3.symm)))

/-- (3 + 4i) / (1 + 2i) and the operands times 1 + i in another type. -/
example : let q : Fmt := ⟨20, 6, true, .TRN, .SAT⟩; let f : Fmt := ⟨8, 4, true, .TRN, .WRAP⟩; let f' : Fmt := ⟨6, 5, true, .TRN, .WRAP⟩
    Types f f q ∧ Types f' f' q ∧ Operands f f 3 4 1 2 ∧ Operands f' f' (-1) 7 (-1) 3 ∧
      (3 : ℚ) * (-1) - 4 * 3 = (-1) * 1 - 7 * 2 ∧ (3 : ℚ) * 3 + 4 * (-1) = (-1) * 2 + 7 * 1 ∧
      div false f q 3 4 1 2 0 0 = div true f' q (-1) 7 (-1) 3 0 0 := by
  refine ⟨⟨by decide, by decide, by decide, rfl, ⟨by decide, by decide⟩, by decide⟩,
    ⟨by decide, by decide, by decide, rfl, ⟨by decide, by decide⟩, by decide⟩,
    ⟨⟨48, by decide, by decide, by norm_num [Fmt.val, Fmt.F]⟩, ⟨64, by decide, by decide, by norm_num [Fmt.val, Fmt.F]⟩,
      ⟨16, by decide, by decide, by norm_num [Fmt.val, Fmt.F]⟩, ⟨32, by decide, by decide, by norm_num [Fmt.val, Fmt.F]⟩, by norm_num⟩,
    ⟨⟨-2, by decide, by decide, by norm_num [Fmt.val, Fmt.F]⟩, ⟨14, by decide, by decide, by norm_num [Fmt.val, Fmt.F]⟩,
      ⟨-2, by decide, by decide, by norm_num [Fmt.val, Fmt.F]⟩, ⟨6, by decide, by decide, by norm_num [Fmt.val, Fmt.F]⟩, by norm_num⟩,
    by norm_num, by norm_num, by decide +kernel⟩

/-- **C100**, real operands: the quotient of real numbers has no imaginary part, and its real part is the quotient of the
real division with the same types, bit for bit. -/
theorem C100_real (s s' : Bool) {fn fd fq : Fmt} (h : Types fn fd fq) (hd : DivLaws.Types fn fd fq) (hn : fn.S = true) (hs : fd.S = true)
    {N D : ℤ} (hN : DivLaws.Word fn N) (hD : DivLaws.Word fd D) (h0 : D ≠ 0) (j k old : ℚ) :
    (div s fd fq (fn.val N) 0 (fd.val D) 0 j k).1 = (Model.DivFixed.divS s' fn fd fq N D old).1 ∧
    (div s fd fq (fn.val N) 0 (fd.val D) 0 j k).2.1 = 0 := by
  have v0 : fd.val D ≠ 0 := fun e => h0 (by
    unfold Fmt.val at e
    rcases mul_eq_zero.1 e with e | e
    · exact_mod_cast e
    · exact absurd e (Fmt.z_pos _).ne')
  have zr : ∀ f : Fmt, 1 ≤ f.W → f.S = true → f.Rep 0 := fun f _ hS =>
    ⟨0, by simp [minRaw, hS], by simp [maxRaw, hS, one_le_pow₀], by simp [Fmt.val]⟩
  have rp : ∀ {f : Fmt} {r : ℤ}, f.S = true → DivLaws.Word f r → f.Rep (f.val r) := fun {f r} hS hw =>
    ⟨r, by simpa [minRaw, hS] using hw.1, by have := hw.2; simp only [maxRaw, hS, if_true]; omega, rfl⟩
  obtain ⟨x1, x2, -⟩ := quo s h ⟨rp hn hN, zr fn h.n hn, rp hs hD, zr fd h.d hs, Or.inl v0⟩ j k
  constructor
  · rw [x1, DivLaws.quo s' hd hN hD h0]
    congr 1
    field_simp
    ring
  · rw [x2, show (0 * fd.val D - fn.val N * 0) / (fd.val D ^ 2 + 0 ^ 2) = (0 : ℚ) by simp, Fmt.cvt_zero' h.q]

example : let q : Fmt := ⟨10, 5, true, .TRN, .SAT⟩; let f : Fmt := ⟨8, 4, true, .TRN, .WRAP⟩
    Types f f q ∧ DivLaws.Types f f q ∧ DivLaws.Word f 100 ∧ DivLaws.Word f (-13) ∧
      (div false f q (f.val 100) 0 (f.val (-13)) 0 0 0).1 = (Model.DivFixed.divS false f f q 100 (-13) 0).1 :=
  ⟨⟨by decide, by decide, by decide, rfl, ⟨by decide, by decide⟩, by decide⟩,
    ⟨by decide, by decide, by decide, rfl, Or.inl ⟨by decide, by decide⟩⟩, by unfold DivLaws.Word; decide,
    by unfold DivLaws.Word; decide, by decide +kernel⟩

/-- **C100**, a real divisor divides the parts. -/
theorem C100_real_divisor (s : Bool) {fn fd fq : Fmt} (h : Types fn fd fq) {a b c : ℚ} (o : Operands fn fd a b c 0) (j k : ℚ) :
    (div s fd fq a b c 0 j k).1 = fq.cvt (a / c) ∧ (div s fd fq a b c 0 j k).2.1 = fq.cvt (b / c) := by
  obtain ⟨x1, x2, -⟩ := quo s h o j k
  have c0 : c ≠ 0 := by rcases o.nz with h | h; exacts [h, absurd rfl h]
  rw [x1, x2]
  constructor <;> congr 1 <;> field_simp <;> ring

/-- **C100**, a number divided by itself is one (as the quotient type holds it), and the flag says so if the type has the
digit. -/
theorem C100_self (s : Bool) {f fq : Fmt} (h : Types f f fq) {a b : ℚ} (o : Operands f f a b a b) (j k : ℚ) :
    (div s f fq a b a b j k).1 = fq.cvt (1 : ℚ) ∧ (div s f fq a b a b j k).2.1 = 0 ∧
    (0 ≤ fq.F → (div s f fq a b a b j k).2.2 = false) := by
  obtain ⟨x1, x2, x3⟩ := quo s h o j k
  have p := (den_pos o.nz).ne'
  have r1 : (a * a + b * b) / (a ^ 2 + b ^ 2) = 1 := by rw [← sq, ← sq, div_self p]
  have r2 : (b * a - a * b) / (a ^ 2 + b ^ 2) = 0 := by rw [mul_comm b a, sub_self, zero_div]
  rw [r1] at x1 x3; rw [r2] at x2 x3
  refine ⟨x1, x2.trans (Fmt.cvt_zero' h.q), fun hF => ?_⟩
  rw [← Bool.not_eq_true, x3]
  rintro (h1 | h1)
  · refine h1 (2 ^ fq.F.toNat) ?_
    unfold Fmt.val
    push_cast
    rw [← zpow_natCast, Int.toNat_of_nonneg hF, Fmt.z_add, add_neg_cancel, zpow_zero]
  · exact h1 0 (by simp [Fmt.val])

/-- **C100**, multiplying back: if the flag says the quotient is exact and the quotient type holds its parts, the quotient
times the divisor is the dividend. -/
theorem C100_back (s : Bool) {fn fd fq : Fmt} (h : Types fn fd fq) (hO : fq.O ≠ .SAT_SYM) {a b c d : ℚ} (o : Operands fn fd a b c d) (j k : ℚ)
    (hx : (div s fd fq a b c d j k).2.2 = false)
    (h1 : fq.minVal ≤ (a * c + b * d) / (c ^ 2 + d ^ 2) ∧ (a * c + b * d) / (c ^ 2 + d ^ 2) ≤ fq.maxVal)
    (h2 : fq.minVal ≤ (b * c - a * d) / (c ^ 2 + d ^ 2) ∧ (b * c - a * d) / (c ^ 2 + d ^ 2) ≤ fq.maxVal) :
    let q := div s fd fq a b c d j k
    q.1 * c - q.2.1 * d = a ∧ q.1 * d + q.2.1 * c = b := by
  obtain ⟨x1, x2, x3⟩ := quo s h o j k
  have p := (den_pos o.nz).ne'
  have hx' := (not_congr x3).1 (by rw [hx]; simp)
  push Not at hx'
  obtain ⟨⟨m, em⟩, ⟨n, en⟩⟩ := hx'
  have key : ∀ (v : ℚ) (m : ℤ), v = fq.val m → fq.minVal ≤ v ∧ v ≤ fq.maxVal → fq.cvt v = v := by
    rintro v m rfl ⟨l, u⟩
    exact Fmt.cvt_rep h.q hO ⟨m, Fmt.val_le.1 l, Fmt.val_le.1 u, rfl⟩
  rw [key _ m em h1] at x1; rw [key _ n en h2] at x2
  intro q
  change q.1 = _ at x1; change q.2.1 = _ at x2
  rw [x1, x2]
  constructor <;> field_simp <;> ring

/-- **C100**, conjugates: the quotient of the conjugates has the same real part, bit for bit. With a rounding mode that
treats both signs alike its imaginary part is the opposite, if the type saturates symmetrically or holds it. -/
theorem C100_conj (s s' : Bool) {fn fd fq : Fmt} (h : Types fn fd fq) {a b c d : ℚ} (o : Operands fn fd a b c d) (hb : fn.Rep (-b))
    (hd : fd.Rep (-d)) (j k j' k' : ℚ) :
    (div s' fd fq a (-b) c (-d) j' k').1 = (div s fd fq a b c d j k).1 ∧
    (fq.Q ∈ [QMode.RND_ZERO, .RND_INF, .RND_CONV, .RND_CONV_ODD, .TRN_ZERO] →
      (fq.O = .SAT_SYM ∨ |(b * c - a * d) / (c ^ 2 + d ^ 2)| ≤ fq.maxVal) →
      (div s' fd fq a (-b) c (-d) j' k').2.1 = -(div s fd fq a b c d j k).2.1) := by
  obtain ⟨x1, x2, -⟩ := quo s h o j k
  obtain ⟨y1, y2, -⟩ := quo s' h (⟨o.ha, hb, o.hc, hd, o.nz.imp id neg_ne_zero.2⟩ : Operands fn fd a (-b) c (-d)) j' k'
  refine ⟨?_, fun hQ hO => ?_⟩
  · rw [x1, y1, neg_mul_neg, neg_sq]
  · rw [x2, y2, neg_sq, ← DivLaws.cvt_neg h.q h.S hQ hO]
    congr 1; ring

/-- With truncation toward minus infinity it is not: i / 3 and its conjugate. -/
theorem C100_conj_wrong : let f : Fmt := ⟨8, 4, true, .TRN, .WRAP⟩; let q : Fmt := ⟨10, 5, true, .TRN, .SAT⟩
    (div false f q 0 1 3 0 0 0).2.1 = 10 / 32 ∧ (div false f q 0 (-1) 3 0 0 0).2.1 = -11 / 32 := by
  decide +kernel

/-- **C100**, a quarter turn of the dividend moves the real part of the quotient to the imaginary part, bit for bit. -/
theorem C100_turn (s s' : Bool) {fn fd fq : Fmt} (h : Types fn fd fq) {a b c d : ℚ} (o : Operands fn fd a b c d) (hb : fn.Rep (-b))
    (j k j' k' : ℚ) : (div s' fd fq (-b) a c d j' k').2.1 = (div s fd fq a b c d j k).1 := by
  obtain ⟨x1, -, -⟩ := quo s h o j k
  obtain ⟨-, y2, -⟩ := quo s' h (⟨hb, o.ha, o.hc, o.hd, o.nz⟩ : Operands fn fd (-b) a c d) j' k'
  rw [x1, y2]
  congr 1; ring

/-- (3 + 4i) / (1 + 2i), its conjugate, a quarter turn of the dividend, a real divisor, an exact quotient. -/
example : let q : Fmt := ⟨20, 6, true, .RND_CONV, .SAT⟩; let f : Fmt := ⟨8, 4, true, .TRN, .WRAP⟩
    div false f q 3 4 1 2 0 0 = (36045 / 16384, -6554 / 16384, true) ∧ div false f q 3 (-4) 1 (-2) 0 0 = (36045 / 16384, 6554 / 16384, true) ∧
    (div false f q (-4) 3 1 2 0 0).2.1 = 36045 / 16384 ∧ div false f q 3 4 2 0 0 0 = (3 / 2, 2, false) ∧
    div false f q 3 4 3 4 0 0 = (1, 0, false) ∧ div false f q 3 4 1 (-1) 0 0 = (-1 / 2, 7 / 2, false) ∧
    q.minVal ≤ -1 / 2 ∧ 7 / 2 ≤ q.maxVal ∧ (-1 / 2 : ℚ) * 1 - 7 / 2 * (-1) = 3 ∧ (-1 / 2 : ℚ) * (-1) + 7 / 2 * 1 = 4 := by
  decide +kernel

end Props.ComplexDivLaws
