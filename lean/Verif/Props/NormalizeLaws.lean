import Verif.Props.Normalize
import Verif.Props.IntAlgos
import Mathlib.Data.Int.Log

/-! # C94: laws of ac_normalize -/

namespace Props.NormalizeLaws
open Ac Model.Bits Model.Normalize Proof.Normalize Props.Normalize

/-- A normalized significand: at least one half and below one, or at least minus one and below minus one half. -/
def Normal (m : ℚ) : Prop := (1 / 2 ≤ m ∧ m < 1) ∨ (-1 ≤ m ∧ m < -1 / 2)

/-- A word of the type `f` that `ac_normalize` handles (C12): in range, and under AC_SAT_SYM not the negative of a
power of two. -/
def Word (f : Fmt) (X : ℤ) : Prop := 1 ≤ f.W ∧ (minRaw f.W f.S ≤ X ∧ X ≤ maxRaw f.W f.S) ∧ NotSymPow f X

theorem two_le_zpow {k : ℤ} (hk : 1 ≤ k) : (2 : ℚ) ≤ 2 ^ k := by
  calc (2 : ℚ) = 2 ^ (1 : ℤ) := by norm_num
    _ ≤ 2 ^ k := zpow_le_zpow_right₀ (by norm_num) hk

theorem not_lt_of_eq {m m' : ℚ} (hm : Normal m) (hm' : Normal m') {e e' : ℤ} (h : m * 2 ^ e = m' * 2 ^ e') : ¬e < e' := by
  intro hlt
  have hz : (2 : ℚ) ^ e ≠ 0 := ne_of_gt (Fmt.two_zpow_pos _)
  have h2 : m = m' * 2 ^ (e' - e) := by
    rw [zpow_sub₀ (by norm_num), ← mul_div_assoc, ← h, mul_div_assoc, div_self hz, mul_one]
  have ht := two_le_zpow (show 1 ≤ e' - e by omega)
  generalize (2 : ℚ) ^ (e' - e) = t at h2 ht
  rcases hm' with ⟨a, b⟩ | ⟨a, b⟩
  · have : 1 / 2 * 2 ≤ m' * t := mul_le_mul a ht (by norm_num) (by linarith)
    rcases hm with ⟨c, d⟩ | ⟨c, d⟩ <;> linarith
  · have : 1 / 2 * 2 < -m' * t := by
      calc (1 / 2 * 2 : ℚ) < -m' * 2 := by linarith
        _ ≤ -m' * t := mul_le_mul_of_nonneg_left ht (by linarith)
    rcases hm with ⟨c, d⟩ | ⟨c, d⟩ <;> linarith

theorem eq_of_eq {m m' : ℚ} (hm : Normal m) (hm' : Normal m') {e e' : ℤ} (h : m * 2 ^ e = m' * 2 ^ e') :
    m = m' ∧ e = e' := by
  have he : e = e' := le_antisymm (not_lt.1 (not_lt_of_eq hm' hm h.symm)) (not_lt.1 (not_lt_of_eq hm hm' h))
  subst he
  exact ⟨mul_right_cancel₀ (ne_of_gt (Fmt.two_zpow_pos _)) h, rfl⟩

theorem normal {f : Fmt} {X : ℤ} (hX : Word f X) (h0 : X ≠ 0) : Normal (normalize f X).1 := by
  obtain ⟨h1, h2⟩ := C12_range_partial hX.1 hX.2.1 hX.2.2
  rcases lt_or_gt_of_ne h0 with h | h
  · exact Or.inr (h2 h)
  · exact Or.inl (h1 h)

theorem val_ne {f : Fmt} {X : ℤ} : f.val X = 0 ↔ X = 0 := by
  unfold Fmt.val
  rw [mul_eq_zero]
  constructor
  · rintro (h | h)
    · exact_mod_cast h
    · exact absurd h (ne_of_gt (Fmt.two_zpow_pos _))
  · rintro rfl; left; norm_num

/-- **C94**, uniqueness: the significand and exponent returned for a nonzero number are the only normalized ones that
represent it. -/
theorem C94_unique {f : Fmt} {X : ℤ} (hX : Word f X) (h0 : X ≠ 0) {m : ℚ} {e : ℤ} (hm : Normal m)
    (h : m * 2 ^ e = f.val X) : normalize f X = (m, e) := by
  rw [C12_lossless_partial hX.1 hX.2.1 hX.2.2] at h
  obtain ⟨a, b⟩ := eq_of_eq hm (normal hX h0) h
  rw [a, b]

/-- **C94**, the result depends on the number, not on its type: equal numbers of any two types, signed or unsigned,
have the same significand and exponent. -/
theorem C94_type {f g : Fmt} {X Y : ℤ} (hX : Word f X) (hY : Word g Y) (h : f.val X = g.val Y) :
    normalize f X = normalize g Y := by
  by_cases h0 : X = 0
  · have hY0 : Y = 0 := by rw [← val_ne (f := g), ← h, val_ne]; exact h0
    rw [h0, hY0, C12_zero f hX.1, C12_zero g hY.1]
  · have hY0 : Y ≠ 0 := by
      intro hc; apply h0; rw [← val_ne (f := f), h, val_ne]; exact hc
    exact C94_unique (m := (normalize g Y).1) (e := (normalize g Y).2) hX h0 (normal hY hY0)
      ((C12_lossless_partial hY.1 hY.2.1 hY.2.2).symm.trans h.symm)

/-- **C94**, scaling: multiplying a nonzero number by `2^k` adds `k` to the exponent and keeps the significand, whatever
the types of the two numbers. -/
theorem C94_scale {f g : Fmt} {X Y : ℤ} (hX : Word f X) (hY : Word g Y) (h0 : X ≠ 0) {k : ℤ}
    (h : g.val Y = f.val X * 2 ^ k) : normalize g Y = ((normalize f X).1, (normalize f X).2 + k) := by
  have hY0 : Y ≠ 0 := by
    intro hc
    rw [hc, val_ne.2 rfl] at h
    rcases mul_eq_zero.1 h.symm with h | h
    · exact h0 (val_ne.1 h)
    · exact absurd h (ne_of_gt (Fmt.two_zpow_pos _))
  refine C94_unique hY hY0 (normal hX h0) ?_
  rw [h, zpow_add₀ (by norm_num), ← mul_assoc, ← C12_lossless_partial hX.1 hX.2.1 hX.2.2]

/-- **C94**, normalizing twice: the significand, stored in any type that holds it, is returned unchanged with the
exponent zero. -/
theorem C94_again {f g : Fmt} {X Y : ℤ} (hX : Word f X) (hY : Word g Y) (h : g.val Y = (normalize f X).1) :
    normalize g Y = ((normalize f X).1, 0) := by
  by_cases h0 : X = 0
  · rw [h0, C12_zero f hX.1] at h ⊢
    rw [val_ne.1 h, C12_zero g hY.1]
  · have hn := normal hX h0
    have hY0 : Y ≠ 0 := by
      intro hc
      rw [hc, val_ne.2 rfl] at h
      rw [← h] at hn
      rcases hn with h | h <;> linarith [h.1, h.2]
    refine C94_unique hY hY0 hn ?_
    rw [h]; simp

/-- **C94**, opposite numbers: a positive number and its opposite, of any types, have opposite significands and the same
exponent, unless the number is a power of two, whose opposite has the significand -1 and the exponent one lower. -/
theorem C94_opposite {f g : Fmt} {X Y : ℤ} (hX : Word f X) (hY : Word g Y) (h0 : 0 < X) (h : g.val Y = -f.val X) :
    ((normalize f X).1 ≠ 1 / 2 → normalize g Y = (-(normalize f X).1, (normalize f X).2)) ∧
    ((normalize f X).1 = 1 / 2 → normalize g Y = (-1, (normalize f X).2 - 1)) := by
  have hl := C12_lossless_partial hX.1 hX.2.1 hX.2.2
  obtain ⟨r1, -⟩ := C12_range_partial hX.1 hX.2.1 hX.2.2
  obtain ⟨a, b⟩ := r1 h0
  have hY0 : Y ≠ 0 := by
    intro hc
    rw [hc, val_ne.2 rfl] at h
    have := val_ne.1 (neg_eq_zero.1 h.symm)
    omega
  constructor
  · intro hne
    refine C94_unique hY hY0 (Or.inr ⟨by linarith, ?_⟩) ?_
    · have := lt_of_le_of_ne a (Ne.symm hne); linarith
    · rw [h, hl]; ring
  · intro he
    refine C94_unique hY hY0 (Or.inr ⟨by norm_num, by norm_num⟩) ?_
    rw [h, hl, he, zpow_sub₀ (by norm_num)]; norm_num; ring

/-- **C94**, the exponent is the position of the leading one: for a positive number it is one more than the integer part
of the base 2 logarithm. -/
theorem C94_exponent {f : Fmt} {X : ℤ} (hX : Word f X) (h0 : 0 < X) : (normalize f X).2 = Int.log 2 (f.val X) + 1 := by
  have hl := C12_lossless_partial hX.1 hX.2.1 hX.2.2
  obtain ⟨r1, -⟩ := C12_range_partial hX.1 hX.2.1 hX.2.2
  obtain ⟨a, b⟩ := r1 h0
  have hp : (0 : ℚ) < 2 ^ (normalize f X).2 := Fmt.two_zpow_pos _
  have hv : 0 < f.val X := by rw [hl]; exact mul_pos (by linarith) hp
  have h1 : (normalize f X).2 - 1 ≤ Int.log 2 (f.val X) := by
    rw [← Int.zpow_le_iff_le_log (by norm_num) hv]
    push_cast
    rw [hl, zpow_sub₀ (by norm_num), zpow_one, div_eq_inv_mul]
    exact mul_le_mul_of_nonneg_right (by linarith) hp.le
  have h2 : Int.log 2 (f.val X) < (normalize f X).2 := by
    rw [← Int.lt_zpow_iff_log_lt (by norm_num) hv]
    push_cast
    calc f.val X = (normalize f X).1 * 2 ^ (normalize f X).2 := hl
      _ < 1 * 2 ^ (normalize f X).2 := mul_lt_mul_of_pos_right b hp
      _ = _ := one_mul _
  omega

/-- **C94**, order: of two positive numbers of any types the smaller has the smaller exponent, or the same exponent and
the smaller significand. -/
theorem C94_order {f g : Fmt} {X Y : ℤ} (hX : Word f X) (hY : Word g Y) (hX0 : 0 < X) (hY0 : 0 < Y) :
    f.val X < g.val Y ↔ (normalize f X).2 < (normalize g Y).2 ∨
      ((normalize f X).2 = (normalize g Y).2 ∧ (normalize f X).1 < (normalize g Y).1) := by
  have key : ∀ {f g : Fmt} {X Y : ℤ}, Word f X → Word g Y → 0 < X → 0 < Y → (normalize f X).2 < (normalize g Y).2 →
      f.val X < g.val Y := by
    intro f g X Y hX hY hX0 hY0 h
    obtain ⟨-, b⟩ := (C12_range_partial hX.1 hX.2.1 hX.2.2).1 hX0
    obtain ⟨c, -⟩ := (C12_range_partial hY.1 hY.2.1 hY.2.2).1 hY0
    rw [C12_lossless_partial hX.1 hX.2.1 hX.2.2, C12_lossless_partial hY.1 hY.2.1 hY.2.2]
    have hp : (0 : ℚ) < 2 ^ (normalize f X).2 := Fmt.two_zpow_pos _
    have e : (2 : ℚ) ^ (normalize g Y).2 = 2 ^ (normalize f X).2 * 2 ^ ((normalize g Y).2 - (normalize f X).2) := by
      rw [← zpow_add₀ (by norm_num)]; congr 1; omega
    have ht := two_le_zpow (show 1 ≤ (normalize g Y).2 - (normalize f X).2 by omega)
    have h2 : (2 : ℚ) ^ (normalize f X).2 * 2 ≤ 2 ^ (normalize g Y).2 := by
      rw [e]; exact mul_le_mul_of_nonneg_left ht hp.le
    calc (normalize f X).1 * 2 ^ (normalize f X).2 < 1 * 2 ^ (normalize f X).2 := mul_lt_mul_of_pos_right b hp
      _ = 1 / 2 * (2 ^ (normalize f X).2 * 2) := by ring
      _ ≤ (normalize g Y).1 * 2 ^ (normalize g Y).2 := mul_le_mul c h2 (by positivity) (by linarith)
  constructor
  · intro h
    rcases lt_trichotomy (normalize f X).2 (normalize g Y).2 with h1 | h1 | h1
    · exact Or.inl h1
    · refine Or.inr ⟨h1, ?_⟩
      rw [C12_lossless_partial hX.1 hX.2.1 hX.2.2, C12_lossless_partial hY.1 hY.2.1 hY.2.2, h1] at h
      exact lt_of_mul_lt_mul_right h (Fmt.two_zpow_pos _).le
    · exact absurd (key hY hX hY0 hX0 h1) (not_lt.2 h.le)
  · rintro (h | ⟨h, h'⟩)
    · exact key hX hY hX0 hY0 h
    · rw [C12_lossless_partial hX.1 hX.2.1 hX.2.2, C12_lossless_partial hY.1 hY.2.1 hY.2.2, h]
      exact mul_lt_mul_of_pos_right h' (Fmt.two_zpow_pos _)

/-- **C94**, agreement with the leading-one search of `ac_leading.h`: for a positive integer the exponent is one more
than the position `leading1` returns. -/
theorem C94_leading {W x : ℕ} (hW : 1 ≤ W) (hx : x < 2 ^ W) (h0 : x ≠ 0) (q : QMode) (o : OMode) :
    (searchU .lead1 W x).1 = true ∧ (normalize ⟨W, W, false, q, o⟩ x).2 = (searchU .lead1 W x).2 + 1 := by
  have hl : Nat.log2 x < W := (Nat.log2_lt h0).2 hx
  have hb := Model.Bits.lt_two_pow_nbits W
  have hls : leadingSignU W x = W - 1 - Nat.log2 x := by simp [leadingSignU, h0]
  have hm : mag (x : ℤ) = x := by have := mag_nonneg (x := (x : ℤ)) (by omega); omega
  have hx0 : (x : ℤ) ≠ 0 := by exact_mod_cast h0
  refine ⟨?_, ?_⟩
  · simp only [searchU, lead1, hls, decide_eq_true_eq]; omega
  · simp only [normalize, leadingSign, hm, nfmt.S, Bool.toNat_false, Nat.sub_zero, hls, searchU, lead1]
    have hk : W - 1 - (W - 1 - Nat.log2 x) < 2 ^ nbits W := by omega
    rw [if_pos hx0, if_neg (show ¬W - 1 - Nat.log2 x = W by omega), Nat.mod_eq_of_lt hk]
    have hk' : W - 1 - (W - 1 - Nat.log2 x) = Nat.log2 x := by clear hx hb hk; omega
    rw [hk']
    push_cast [Nat.cast_sub (show Nat.log2 x ≤ W - 1 by clear hx hb hk; omega), Nat.cast_sub hW]
    simp
    ring

/-- **C94**, a complex number with one part zero is normalized like the other part; equal parts too. -/
theorem C94_complex_real {f : Fmt} {R : ℤ} (hR : Word f R) :
    normalizeC f R 0 = ((normalize f R).1, 0, (normalize f R).2) ∧
    normalizeC f 0 R = (0, (normalize f R).1, (normalize f R).2) ∧
    normalizeC f R R = ((normalize f R).1, (normalize f R).1, (normalize f R).2) := by
  have hm0 : mag 0 = 0 := by simp [mag]
  have hmm : mag ((mag R : ℕ) : ℤ) = mag R := by
    have := mag_nonneg (x := ((mag R : ℕ) : ℤ)) (by omega); omega
  have hmt : f.S = false → R.toNat = mag R := by
    intro hS
    have h0 : 0 ≤ R := by simpa [hS, minRaw] using hR.2.1.1
    have := mag_nonneg h0; omega
  have hz : ∀ k : ℕ, (nfmt f).cvt ((nfmt f).val (wrap f.W f.S (0 * 2 ^ k))) = 0 := by
    intro k
    have h := congrArg Prod.fst (C12_zero f hR.1)
    simp only [normalize, zero_mul] at h ⊢
    exact h
  have e1 : (if f.S then ((mag R ||| mag 0 : ℕ) : ℤ) else ((R.toNat ||| (0 : ℤ).toNat : ℕ) : ℤ)) = (mag R : ℕ) := by
    cases hS : f.S <;> simp [hm0] <;> (have := hmt hS; omega)
  have e2 : (if f.S then ((mag 0 ||| mag R : ℕ) : ℤ) else (((0 : ℤ).toNat ||| R.toNat : ℕ) : ℤ)) = (mag R : ℕ) := by
    cases hS : f.S <;> simp [hm0] <;> (have := hmt hS; omega)
  have e3 : (if f.S then ((mag R ||| mag R : ℕ) : ℤ) else ((R.toNat ||| R.toNat : ℕ) : ℤ)) = (mag R : ℕ) := by
    cases hS : f.S <;> simp <;> (have := hmt hS; omega)
  refine ⟨?_, ?_, ?_⟩
  · simp only [normalizeC, normalize, e1, leadingSign, hmm, hz, ne_eq, not_true_eq_false, or_false]
  · simp only [normalizeC, normalize, e2, leadingSign, hmm, hz, ne_eq, not_true_eq_false, false_or]
  · simp only [normalizeC, normalize, e3, leadingSign, hmm, or_self]

/-- Words of a signed and of an unsigned type that meet the hypotheses of the laws: 2.5 in both types, four times it, its
opposite, and its significand 0.625. -/
example : let f : Fmt := ⟨8, 4, true, .TRN, .SAT⟩
    let g : Fmt := ⟨12, 5, false, .RND, .WRAP⟩
    Word f 40 ∧ Word g 320 ∧ f.val 40 = g.val 320 ∧ Word g 1280 ∧ g.val 1280 = f.val 40 * 2 ^ (2 : ℤ) ∧
    normalize f 40 = (5 / 8, 2) ∧ normalize g 320 = (5 / 8, 2) ∧ normalize g 1280 = (5 / 8, 4) ∧
    Word f (-40) ∧ f.val (-40) = -f.val 40 ∧ normalize f (-40) = (-5 / 8, 2) ∧
    Word f 10 ∧ f.val 10 = (normalize f 40).1 ∧ normalize f 10 = (5 / 8, 0) ∧ Normal (5 / 8) :=
  ⟨⟨by decide, by decide, fun h => by simp at h⟩, ⟨by decide, by decide, fun h => by simp at h⟩, by decide +kernel,
   ⟨by decide, by decide, fun h => by simp at h⟩, by decide +kernel, by decide +kernel, by decide +kernel,
   by decide +kernel, ⟨by decide, by decide, fun h => by simp at h⟩, by decide +kernel, by decide +kernel,
   ⟨by decide, by decide, fun h => by simp at h⟩, by decide +kernel, by decide +kernel, Or.inl (by norm_num)⟩

/-- The two cases of opposite numbers: 2.5 and -2.5, then 2 and -2. -/
example : let f : Fmt := ⟨8, 4, true, .TRN, .SAT⟩
    normalize f 40 = (5 / 8, 2) ∧ normalize f (-40) = (-5 / 8, 2) ∧
    normalize f 32 = (1 / 2, 2) ∧ normalize f (-32) = (-1, 1) := by decide +kernel

/-- Leading one and exponent of the integer 100 in 8 bits, and the complex numbers 2.5, 2.5i and -2.5 - 2.5i. -/
example : searchU .lead1 8 100 = (true, 6) ∧ (normalize ⟨8, 8, false, .TRN, .WRAP⟩ 100).2 = 7 ∧
    normalizeC ⟨8, 4, true, .TRN, .SAT⟩ 40 0 = (5 / 8, 0, 2) ∧ normalizeC ⟨8, 4, true, .TRN, .SAT⟩ 0 40 = (0, 5 / 8, 2) ∧
    normalizeC ⟨8, 4, true, .TRN, .SAT⟩ (-40) (-40) = (-5 / 8, -5 / 8, 2) := by decide +kernel

/-- **C94**, the exclusion of negative powers of two under AC_SAT_SYM is needed: -1/4 is normalized to -1 under AC_SAT
and to another significand under AC_SAT_SYM, which depends on the width of the type. -/
theorem C94_type_sym_wrong :
    normalize ⟨8, 4, true, .TRN, .SAT⟩ (-4) = (-1, -2) ∧ normalize ⟨8, 4, true, .TRN, .SAT_SYM⟩ (-4) = (-127 / 128, -2) ∧
    normalize ⟨10, 6, true, .TRN, .SAT_SYM⟩ (-4) = (-511 / 512, -2) ∧
    (⟨8, 4, true, .TRN, .SAT_SYM⟩ : Fmt).val (-4) = -1 / 4 ∧ (⟨10, 6, true, .TRN, .SAT_SYM⟩ : Fmt).val (-4) = -1 / 4 := by
  decide +kernel

end Props.NormalizeLaws
