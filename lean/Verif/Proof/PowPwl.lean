import Verif.Proof.PwlNorm
import Verif.Proof.Sandwich
import Mathlib.Analysis.SpecialFunctions.Log.Base
import Mathlib.Analysis.Complex.ExponentialBounds

/-! # Lemmas for C35 -/

namespace Proof.PowPwl
open Ac Model.Pwl Model.PwlFixed Model.Normalize Proof.Pwl Proof.PwlFixed Proof.Shift

/-- Tables extended by the end of the last segment. -/
def extM : List ℤ := powM ++ [0]
@[inherit_doc extM] def extC : List ℤ := powC ++ [2044]

/-- The value for the fraction `u`. -/
def g (u : ℚ) : ℚ := pw (tab extM 10) (tab extC 10) (trunc 10 (u * 4))

theorem g_mono {a b : ℚ} (h0 : 0 ≤ a) (h : a ≤ b) (h1 : b ≤ 1) : g a ≤ g b := by
  refine pw_mono (n := 5) (by decide +kernel) ?_ (trunc_nonneg _ (by linarith)) (trunc_mono _ (by linarith)) ?_
  · intro i hi
    have : ∀ i < 4, tab extC 10 i + tab extM 10 i ≤ tab extC 10 (i + 1) := by decide +kernel
    exact this i (by omega)
  · have := trunc_le 10 (b * 4)
    norm_num; linarith

theorem g_eq {u : ℚ} (h0 : 0 ≤ u) (h : u < 1) : pw (tab powM 10) (tab powC 10) (trunc 10 (u * 4)) = g u := by
  have hs : trunc 10 (u * 4) < (4 : ℕ) := by have := trunc_le 10 (u * 4); norm_num; linarith
  have hi := floor_toNat_lt (trunc_nonneg 10 (by linarith)) hs
  have : ∀ i < 4, tab extC 10 i = tab powC 10 i ∧ tab extM 10 i = tab powM 10 i := by decide +kernel
  unfold g pw
  rw [(this _ hi).1, (this _ hi).2]

theorem g_bounds {u : ℚ} (h0 : 0 ≤ u) (h1 : u < 1) : 511 / 512 ≤ g u ∧ g u ≤ 511 / 256 := by
  have a0 : g 0 = 511 / 512 := by decide +kernel
  have a1 : g 1 = 511 / 256 := by decide +kernel
  rw [← a0, ← a1]
  exact ⟨g_mono le_rfl h0 h1.le, g_mono h0 h1.le le_rfl⟩

theorem g_grid (j : ℕ) : g ((j : ℕ) / (4096 : ℕ)) = segRaw extM extC 10 j / 2 ^ 20 := by
  have h2 : trunc 10 ((j : ℚ) / (4096 : ℕ) * 4) = ((j : ℕ) : ℤ) / 2 ^ 10 := by
    unfold trunc
    rw [show (j : ℚ) / (4096 : ℕ) * 4 * 2 ^ 10 = ((j : ℤ) : ℚ) by push_cast; ring, Int.floor_intCast]
  unfold g
  rw [h2, pw_tab]

/-- The comparisons at the grid point `j`, for a relative distance of 1/400. -/
def check (j : ℕ) : Bool :=
  Nat.ble ((400 * (segRaw extM extC 10 (j + 1)).toNat) ^ 4096) ((401 * 2 ^ 20) ^ 4096 * 2 ^ j) &&
  Nat.ble ((399 * 2 ^ 20) ^ 4096 * 2 ^ (j + 1)) ((400 * (segRaw extM extC 10 j).toNat) ^ 4096) &&
  decide (0 ≤ segRaw extM extC 10 j)

set_option exponentiation.threshold 10000 in
theorem check_all : ∀ j < 4096, check j = true := by
  rw [← allLt_iff]
  decide +kernel

theorem pow_root (j m : ℕ) (hm : 0 < m) : ((2 : ℝ) ^ ((j : ℝ) / m)) ^ m = 2 ^ j := by
  have hm' : (m : ℝ) ≠ 0 := by positivity
  rw [← Real.rpow_natCast, ← Real.rpow_mul (by norm_num), div_mul_cancel₀ _ hm', Real.rpow_natCast]

theorem le_pow2 {a b j m : ℕ} (hm : 0 < m) (h : a ^ m ≤ b ^ m * 2 ^ j) : (a : ℝ) ≤ b * 2 ^ ((j : ℝ) / m) := by
  have h1 : (a : ℝ) ^ m ≤ (b * 2 ^ ((j : ℝ) / m)) ^ m := by
    rw [mul_pow, pow_root j m hm]; exact_mod_cast h
  exact le_of_pow_le_pow_left₀ hm.ne' (by positivity) h1

theorem pow2_le {a b j m : ℕ} (hm : 0 < m) (h : b ^ m * 2 ^ j ≤ a ^ m) : b * (2 : ℝ) ^ ((j : ℝ) / m) ≤ a := by
  have h1 : (b * 2 ^ ((j : ℝ) / m)) ^ m ≤ (a : ℝ) ^ m := by
    rw [mul_pow, pow_root j m hm]; exact_mod_cast h
  exact le_of_pow_le_pow_left₀ hm.ne' (by positivity) h1

theorem g_err {u : ℚ} (h0 : 0 ≤ u) (h1 : u < 1) : |(g u : ℝ) - 2 ^ (u : ℝ)| ≤ 2 ^ (u : ℝ) / 400 := by
  obtain ⟨j, hj, -, l1, l2⟩ := cell (N := 10) (ib := 2) (v := u * 4) (by linarith) (by linarith)
  have hj' : j < 4096 := by norm_num at hj; exact hj
  norm_num at l1 l2
  have m1 : (j : ℚ) / (4096 : ℕ) ≤ u := by push_cast; linarith
  have m2 : u ≤ ((j + 1 : ℕ) : ℚ) / (4096 : ℕ) := by push_cast; linarith
  have m3 : ((j + 1 : ℕ) : ℚ) / (4096 : ℕ) ≤ 1 := by
    rw [div_le_one (by norm_num)]; exact_mod_cast hj'
  have g1 := cast_le (g_mono (by positivity) m1 h1.le)
  have g2 := cast_le (g_mono h0 m2 m3)
  rw [g_grid] at g1 g2
  have r1 := cast_le m1
  have r2 := cast_le m2
  push_cast at r1 r2 g1 g2
  have hc := check_all j hj'
  unfold check at hc
  simp only [Bool.and_eq_true, Nat.ble_eq, decide_eq_true_eq] at hc
  obtain ⟨⟨c1, c2⟩, c3⟩ := hc
  have c4 : 0 ≤ segRaw extM extC 10 (j + 1) := by
    refine le_trans ?_ (segRaw_bounds (m := extM) (c := extC) (n := 10) (k := j + 1) (N := 5) (lo := 0) (hi := 2044)
      (by norm_num; omega) (by decide +kernel)).1
    norm_num
  have p1 := le_pow2 (by norm_num) c1
  have p2 := pow2_le (by norm_num) c2
  have t1 : (((segRaw extM extC 10 (j + 1)).toNat : ℕ) : ℝ) = (segRaw extM extC 10 (j + 1) : ℝ) := by
    exact_mod_cast Int.toNat_of_nonneg c4
  have t2 : (((segRaw extM extC 10 j).toNat : ℕ) : ℝ) = (segRaw extM extC 10 j : ℝ) := by
    exact_mod_cast Int.toNat_of_nonneg c3
  push_cast at p1 p2
  rw [t1] at p1
  rw [t2] at p2
  have q1 : (2 : ℝ) ^ ((j : ℝ) / 4096) ≤ 2 ^ (u : ℝ) := Real.rpow_le_rpow_of_exponent_le (by norm_num) r1
  have q2 : (2 : ℝ) ^ (u : ℝ) ≤ 2 ^ (((j : ℝ) + 1) / 4096) := Real.rpow_le_rpow_of_exponent_le (by norm_num) r2
  norm_num at p1 p2 g1 g2
  rw [abs_le]
  constructor <;> linarith

/-- The result before it is converted to the output type. -/
def core (x : ℚ) : ℚ := g (Int.fract x) * 2 ^ ⌊x⌋

theorem core_err (x : ℚ) : |(core x : ℝ) - 2 ^ (x : ℝ)| ≤ 2 ^ (x : ℝ) / 400 := by
  have h := g_err (Int.fract_nonneg x) (Int.fract_lt_one x)
  have hp : (0 : ℝ) < 2 ^ (⌊x⌋ : ℤ) := by positivity
  have e : (2 : ℝ) ^ (x : ℝ) = 2 ^ ((Int.fract x : ℚ) : ℝ) * 2 ^ (⌊x⌋ : ℤ) := by
    rw [← Real.rpow_intCast, ← Real.rpow_add (by norm_num)]
    congr 1
    rw [Int.fract]; push_cast; ring
  have e2 : (core x : ℝ) = (g (Int.fract x) : ℝ) * 2 ^ (⌊x⌋ : ℤ) := by unfold core; push_cast; rfl
  rw [e, e2, ← sub_mul, abs_mul, abs_of_pos hp]
  have := mul_le_mul_of_nonneg_right h hp.le
  linarith

theorem core_pos (x : ℚ) : 0 < core x :=
  mul_pos (by have := (g_bounds (Int.fract_nonneg x) (Int.fract_lt_one x)).1; linarith) (Fmt.z_pos _)

theorem core_mono {x y : ℚ} (h : x ≤ y) : core x ≤ core y := by
  unfold core
  have hf := Int.floor_le_floor h
  rcases eq_or_lt_of_le hf with h1 | h1
  · rw [h1]
    refine mul_le_mul_of_nonneg_right (g_mono (Int.fract_nonneg x) ?_ (Int.fract_lt_one y).le) (Fmt.z_pos _).le
    rw [Int.fract, Int.fract, h1]; linarith
  · have p := Fmt.z_le (show ⌊x⌋ + 1 ≤ ⌊y⌋ by omega)
    rw [Fmt.z_succ] at p
    have b1 := mul_le_mul_of_nonneg_right (g_bounds (Int.fract_nonneg x) (Int.fract_lt_one x)).2 (Fmt.z_pos ⌊x⌋).le
    have b2 := mul_le_mul_of_nonneg_right (g_bounds (Int.fract_nonneg y) (Int.fract_lt_one y)).1 (Fmt.z_pos ⌊y⌋).le
    linarith

theorem core_add (x : ℚ) (k : ℤ) : core (x + k) = core x * 2 ^ k := by
  unfold core
  rw [Int.fract_add_intCast, Int.floor_add_intCast, ← Fmt.z_add, mul_assoc]

theorem fracPart_eq {f : Fmt} {x : ℚ} (hx : f.Rep x) : fracPart f x = Int.fract x ∧
    ∃ z : ℤ, Int.fract x * 4 = z / 2 ^ (max 0 ((f.W : ℤ) - f.I - 2)).toNat := by
  obtain ⟨r, -, -, rfl⟩ := hx
  unfold fracPart
  rw [Fmt.raw_val]
  by_cases h : f.I < f.W
  · rw [if_pos h]
    obtain ⟨n, hn⟩ : ∃ n : ℕ, (f.W : ℤ) - f.I = n := ⟨(f.W - f.I).toNat, by omega⟩
    have hF : f.F = n := hn
    rw [hn, Int.toNat_natCast]
    have hp : (0 : ℚ) < 2 ^ n := by positivity
    have e : Int.fract (f.val r) = ((r % 2 ^ n : ℤ) : ℚ) / 2 ^ n := by
      have hv : f.val r = (r : ℚ) / 2 ^ n := by unfold Fmt.val; rw [hF, zpow_neg, zpow_natCast, div_eq_mul_inv]
      rw [hv]
      have hd : (r : ℚ) = 2 ^ n * ((r / 2 ^ n : ℤ) : ℚ) + ((r % 2 ^ n : ℤ) : ℚ) := by
        have := Int.mul_ediv_add_emod r (2 ^ n)
        exact_mod_cast this.symm
      have hd2 : (r : ℚ) / 2 ^ n = ((r % 2 ^ n : ℤ) : ℚ) / 2 ^ n + ((r / 2 ^ n : ℤ) : ℚ) := by
        rw [hd]; field_simp; push_cast; ring_nf
      rw [hd2, Int.fract_add_intCast, Int.fract_eq_self]
      have m0 : 0 ≤ r % 2 ^ n := Int.emod_nonneg _ (by positivity)
      have m1 : r % 2 ^ n < 2 ^ n := Int.emod_lt_of_pos _ (by positivity)
      constructor
      · exact div_nonneg (by exact_mod_cast m0) hp.le
      · rw [div_lt_one hp]; exact_mod_cast m1
    refine ⟨?_, ?_⟩
    · rw [e]; unfold Fmt.val Fmt.F; simp only [sub_zero]; rw [zpow_neg, zpow_natCast, div_eq_mul_inv]
    · rw [e]
      rcases le_or_gt 2 n with h2 | h2
      · refine ⟨r % 2 ^ n, ?_⟩
        rw [show (max 0 ((n : ℤ) - 2)).toNat = n - 2 by omega]
        have : (2 : ℚ) ^ n = 2 ^ (n - 2) * 4 := by
          rw [show (4 : ℚ) = 2 ^ 2 by norm_num, ← pow_add, Nat.sub_add_cancel h2]
        rw [this]; field_simp
      · have : n = 1 := by omega
        subst this
        refine ⟨(r % 2 ^ 1) * 2, ?_⟩
        push_cast; norm_num; ring
  · rw [if_neg h]
    have : Int.fract (f.val r) = 0 := by
      obtain ⟨n, hn⟩ : ∃ n : ℕ, -f.F = n := ⟨(-f.F).toNat, by unfold Fmt.F; omega⟩
      unfold Fmt.val
      rw [hn, zpow_natCast]
      have : (r : ℚ) * 2 ^ n = ((r * 2 ^ n : ℤ) : ℚ) := by push_cast; ring
      rw [this, Int.fract_intCast]
    rw [this]
    exact ⟨rfl, 0, by simp⟩

theorem pow2_eq (q : QMode) {f out : Fmt} (ho : 1 ≤ out.W) (hSo : out.S = false) {x : ℚ} (hx : f.Rep x) :
    pow2 q f out x = some (out.cvt (core x)) := by
  obtain ⟨hfp, z, hz⟩ := fracPart_eq hx
  have hfl : f.S = false ∧ f.I ≤ 0 → ⌊x⌋ = 0 := by
    rintro ⟨hS, hI⟩
    obtain ⟨r, r0, r1, rfl⟩ := hx
    simp only [minRaw, maxRaw, hS, Bool.false_eq_true, if_false] at r0 r1
    rw [Int.floor_eq_zero_iff]
    have hzp := Fmt.z_pos (-f.F)
    constructor
    · exact mul_nonneg (by exact_mod_cast r0) hzp.le
    · have : (r : ℚ) < 2 ^ f.W := by exact_mod_cast (by omega : r < 2 ^ f.W)
      have := mul_lt_mul_of_pos_right this hzp
      have e : (2 : ℚ) ^ f.W * 2 ^ (-f.F) = 2 ^ f.I := by
        rw [← zpow_natCast, Fmt.z_add]; congr 1; unfold Fmt.F; ring
      rw [e] at this
      have := Fmt.z_le hI
      rw [zpow_zero] at this
      unfold Fmt.val
      linarith
  unfold pow2 core
  rw [hfp]
  have u0 := Int.fract_nonneg x
  have u1 := Int.fract_lt_one x
  generalize Int.fract x = u at *
  have hs : 1 ≤ scBits 10 ((f.W : ℤ) - f.I - 2) := by unfold scBits; omega
  have ht : trunc (scBits 10 ((f.W : ℤ) - f.I - 2)) (u * 4) = trunc 10 (u * 4) := trunc_scBits (by norm_num) hz
  generalize scBits 10 ((f.W : ℤ) - f.I - 2) = s at *
  rw [sub_zero]
  have v0 : 0 ≤ u * 4 := by linarith
  have v1 : u * 4 < 2 ^ 2 := by linarith
  simp only [segVal_eq (m := powM) (c := powC) (ib := 2) rfl rfl 10 s v0 v1, Option.bind_eq_bind, Option.bind_some]
  obtain ⟨k, hk, htk, -, -⟩ := cell (N := s) (ib := 2) v0 v1
  obtain ⟨b1, b2⟩ := segRaw_bounds (m := powM) (c := powC) (n := s) (k := k) (N := 4) (lo := 1022) (hi := 2044) hk
    (by decide +kernel)
  have hg : pw (tab powM 10) (tab powC 10) (trunc s (u * 4)) = g u := by rw [ht, g_eq u0 u1]
  have hy : g u = segRaw powM powC s k / 2 ^ (10 + s) := by rw [← hg, htk, pw_tab]
  rw [hg]
  have hP : (0 : ℤ) < 2 ^ s := by positivity
  have hP2 : (2 : ℤ) ^ (s + 10 + 1) = 2048 * 2 ^ s := by rw [show s + 10 + 1 = s + 11 by ring, pow_add]; norm_num; ring
  set o : Fmt := ⟨s + 10 + 1, 1, false, q, .WRAP⟩ with hod
  have hF : o.F = (10 + s : ℕ) := by simp [hod, Fmt.F]; ring
  have lo : minRaw o.W o.S ≤ segRaw powM powC s k := by simp [hod, minRaw]; linarith
  have hi : segRaw powM powC s k ≤ maxRaw o.W o.S := by
    simp only [hod, maxRaw, Bool.false_eq_true, if_false]; rw [hP2]; linarith
  obtain ⟨w1, w2, w3⟩ := cvt_word (f := o) (by simp [hod]) hF rfl lo hi
  have hgy : o.cvt (g u) = g u := by rw [hy]; exact w1
  rw [hgy]
  congr 1
  split_ifs with hc
  · rw [hfl hc, zpow_zero, mul_one]
  · conv_lhs => rw [hy, w2]
    rw [leftUS_eq (fx := o) (fo := out) (by simp [hod]) ho rfl hSo ⟨lo, hi⟩, w3, ← hy]

theorem pow2_some (q : QMode) (f out : Fmt) (x : ℚ) : ∃ y, pow2 q f out x = some y := by
  unfold pow2
  obtain ⟨y, hy⟩ := segVal_isSome (m := powM) (c := powC) (ib := 2) rfl rfl 10 (scBits 10 (f.W - f.I - 2)) ((fracPart f x - 0) * 4)
  simp only [hy, Option.bind_eq_bind, Option.bind_some]
  exact ⟨_, rfl⟩

theorem log2e_val : log2e = 23637 / 16384 := by decide +kernel

/-- The product by `log2e` fits its type: only fraction bits are dropped. -/
theorem pii_facts {n : ℕ} {f : Fmt} (hW : 1 ≤ f.W) {x : ℚ} (hx : f.Rep x) :
    1 ≤ (piiExp n f).W ∧ (n : ℤ) ≤ (piiExp n f).F ∧ (piiExp n f).F = max (n : ℤ) (f.W - f.I) ∧
    (piiExp n f).cvt (x * log2e) = (⌊x * log2e * 2 ^ (piiExp n f).F⌋ : ℚ) * 2 ^ (-(piiExp n f).F) := by
  have hw : 1 ≤ (piiExp n f).W := by unfold piiExp; simp only; split_ifs <;> omega
  have hF : (piiExp n f).F = max (n : ℤ) (f.W - f.I) := by
    unfold piiExp Fmt.F; simp only; split_ifs <;> push_cast <;> omega
  have hI : (piiExp n f).I = f.I + 1 := rfl
  have hSS : (piiExp n f).S = f.S := rfl
  have hWI : ((piiExp n f).W : ℤ) = (piiExp n f).F + (f.I + 1) := by unfold Fmt.F; rw [hI]; ring
  refine ⟨hw, by omega, hF, ?_⟩
  unfold Fmt.cvt Fmt.cvtRaw Fmt.val
  congr 2
  have hq : quant (piiExp n f).Q (x * log2e * 2 ^ (piiExp n f).F) = ⌊x * log2e * 2 ^ (piiExp n f).F⌋ := rfl
  rw [hq]
  obtain ⟨r, r0, r1, rfl⟩ := hx
  have hz := Fmt.z_pos (piiExp n f).F
  have hc : (0 : ℚ) < log2e := by rw [log2e_val]; norm_num
  have hc2 : log2e < 2 := by rw [log2e_val]; norm_num
  have hzF := Fmt.z_pos (-f.F)
  have hpow : ∀ m : ℕ, (f.W : ℤ) - m ≤ f.W → (2 : ℚ) ^ ((f.W : ℤ) - m) * 2 ^ (-f.F) * 2 * 2 ^ (piiExp n f).F = 2 ^ ((piiExp n f).W - m : ℤ) := by
    intro m _
    rw [show (2 : ℚ) ^ ((f.W : ℤ) - m) * 2 ^ (-f.F) * 2 * 2 ^ (piiExp n f).F = 2 * (2 ^ ((f.W : ℤ) - m) * 2 ^ (-f.F) * 2 ^ (piiExp n f).F) by ring,
      Fmt.z_add, Fmt.z_add, ← Fmt.z_succ]
    congr 1
    rw [hWI]; unfold Fmt.F; ring
  have wl : loRaw (piiExp n f).W (piiExp n f).S (piiExp n f).O ≤ ⌊f.val r * log2e * 2 ^ (piiExp n f).F⌋ ∧
      ⌊f.val r * log2e * 2 ^ (piiExp n f).F⌋ ≤ maxRaw (piiExp n f).W (piiExp n f).S := by
    have hlo : loRaw (piiExp n f).W (piiExp n f).S (piiExp n f).O = minRaw (piiExp n f).W f.S := by
      rw [hSS]; rfl
    rw [hlo, hSS]
    have up : ∀ m : ℕ, ((r : ℤ) : ℚ) ≤ 2 ^ ((f.W : ℤ) - m) → f.val r * log2e * 2 ^ (piiExp n f).F ≤ 2 ^ ((piiExp n f).W - m : ℤ) := by
      intro m h
      rw [← hpow m (by omega)]
      refine mul_le_mul_of_nonneg_right ?_ hz.le
      have h2 := mul_le_mul_of_nonneg_right h hzF.le
      have h3 : f.val r * log2e ≤ 2 ^ ((f.W : ℤ) - m) * 2 ^ (-f.F) * log2e := mul_le_mul_of_nonneg_right h2 hc.le
      refine le_trans h3 (mul_le_mul_of_nonneg_left hc2.le (mul_pos (Fmt.z_pos _) hzF).le)
    have upl : ∀ m : ℕ, ((r : ℤ) : ℚ) < 2 ^ ((f.W : ℤ) - m) → f.val r * log2e * 2 ^ (piiExp n f).F < 2 ^ ((piiExp n f).W - m : ℤ) := by
      intro m h
      rw [← hpow m (by omega)]
      refine mul_lt_mul_of_pos_right ?_ hz
      have h2 := mul_lt_mul_of_pos_right h hzF
      have h3 : f.val r * log2e < 2 ^ ((f.W : ℤ) - m) * 2 ^ (-f.F) * log2e := mul_lt_mul_of_pos_right h2 hc
      exact lt_of_lt_of_le h3 (mul_le_mul_of_nonneg_left hc2.le (mul_pos (Fmt.z_pos _) hzF).le)
    have dn : ∀ m : ℕ, -2 ^ ((f.W : ℤ) - m) ≤ ((r : ℤ) : ℚ) → -2 ^ ((piiExp n f).W - m : ℤ) ≤ f.val r * log2e * 2 ^ (piiExp n f).F := by
      intro m h
      rw [← hpow m (by omega)]
      have h2 := mul_le_mul_of_nonneg_right h hzF.le
      have h3 : -2 ^ ((f.W : ℤ) - m) * 2 ^ (-f.F) * log2e ≤ f.val r * log2e := mul_le_mul_of_nonneg_right h2 hc.le
      have h4 : (2 : ℚ) ^ ((f.W : ℤ) - m) * 2 ^ (-f.F) * log2e ≤ 2 ^ ((f.W : ℤ) - m) * 2 ^ (-f.F) * 2 :=
        mul_le_mul_of_nonneg_left hc2.le (mul_pos (Fmt.z_pos _) hzF).le
      have h5 : -(2 ^ ((f.W : ℤ) - m) * 2 ^ (-f.F) * 2) ≤ f.val r * log2e := by linarith
      have := mul_le_mul_of_nonneg_right h5 hz.le
      linarith
    have zw : ∀ a : ℕ, 1 ≤ a → (2 : ℚ) ^ ((a : ℤ) - (1 : ℕ)) = ((2 ^ (a - 1) : ℤ) : ℚ) := by
      intro a ha
      rw [show ((a : ℤ) - (1 : ℕ)) = ((a - 1 : ℕ) : ℤ) by omega, zpow_natCast]; push_cast; rfl
    have zw0 : ∀ a : ℕ, (2 : ℚ) ^ ((a : ℤ) - (0 : ℕ)) = ((2 ^ a : ℤ) : ℚ) := by
      intro a
      rw [show ((a : ℤ) - (0 : ℕ)) = (a : ℤ) by omega, zpow_natCast]; push_cast; rfl
    cases hS : f.S
    · simp only [minRaw, maxRaw, hS, Bool.false_eq_true, if_false] at r0 r1 ⊢
      constructor
      · apply Int.floor_nonneg.2
        exact mul_nonneg (mul_nonneg (mul_nonneg (by exact_mod_cast r0) hzF.le) hc.le) hz.le
      · have := upl 0 (by rw [zw0]; exact_mod_cast (by omega : r < 2 ^ f.W))
        rw [zw0] at this
        have := Int.floor_lt.2 this
        omega
    · simp only [minRaw, maxRaw, hS, if_true] at r0 r1 ⊢
      constructor
      · have := dn 1 (by rw [zw _ hW]; exact_mod_cast r0)
        rw [zw _ hw] at this
        rw [Int.le_floor]; push_cast at this ⊢; exact this
      · have := upl 1 (by rw [zw _ hW]; exact_mod_cast (by omega : r < 2 ^ (f.W - 1)))
        rw [zw _ hw] at this
        have := Int.floor_lt.2 this
        omega
  rw [ovf_of_range hw wl.1 wl.2]

/-- The exponent used for `e ^ x`. -/
def ex (n : ℕ) (f : Fmt) (x : ℚ) : ℚ := (⌊x * log2e * 2 ^ (piiExp n f).F⌋ : ℚ) * 2 ^ (-(piiExp n f).F)

theorem ex_mono {n : ℕ} {f : Fmt} {x y : ℚ} (h : x ≤ y) : ex n f x ≤ ex n f y := by
  unfold ex
  refine mul_le_mul_of_nonneg_right ?_ (Fmt.z_pos _).le
  have : x * log2e * 2 ^ (piiExp n f).F ≤ y * log2e * 2 ^ (piiExp n f).F :=
    mul_le_mul_of_nonneg_right (mul_le_mul_of_nonneg_right h (by rw [log2e_val]; norm_num)) (Fmt.z_pos _).le
  exact_mod_cast Int.floor_le_floor this

theorem ex_bounds (n : ℕ) (f : Fmt) (x : ℚ) : x * log2e - 2 ^ (-(piiExp n f).F) ≤ ex n f x ∧ ex n f x ≤ x * log2e := by
  unfold ex
  have hz := Fmt.z_pos (-(piiExp n f).F)
  have e : (2 : ℚ) ^ (piiExp n f).F * 2 ^ (-(piiExp n f).F) = 1 := by rw [Fmt.z_add]; simp
  have h1 := mul_le_mul_of_nonneg_right (Int.floor_le (x * log2e * 2 ^ (piiExp n f).F)) hz.le
  have h2 := mul_le_mul_of_nonneg_right (Int.lt_floor_add_one (x * log2e * 2 ^ (piiExp n f).F)).le hz.le
  rw [mul_assoc (x * log2e), e, mul_one] at h1 h2
  constructor <;> linarith

theorem exp_eq (n : ℕ) (q : QMode) {f out : Fmt} (hW : 1 ≤ f.W) (ho : 1 ≤ out.W) (hSo : out.S = false) {x : ℚ}
    (hx : f.Rep x) : exp n q f out x = some (out.cvt (core (ex n f x))) := by
  obtain ⟨h1, -, -, h2⟩ := pii_facts hW hx
  unfold exp
  rw [pow2_eq q ho hSo (Fmt.rep_cvt h1 _), h2]
  rfl

/-- The exponent against `x / ln 2`. -/
theorem ex_err {n : ℕ} {f : Fmt} (hW : 1 ≤ f.W) {x : ℚ} (hx : f.Rep x) :
    |(ex n f x : ℝ) * Real.log 2 - x| ≤ 1 / 2 ^ n + |(x : ℝ)| / 200000 := by
  obtain ⟨-, hF, -, -⟩ := pii_facts (n := n) hW hx
  obtain ⟨b1, b2⟩ := ex_bounds n f x
  have hz : (2 : ℚ) ^ (-(piiExp n f).F) ≤ 1 / 2 ^ n := by
    refine le_trans (Fmt.z_le (show -(piiExp n f).F ≤ -(n : ℤ) by omega)) (le_of_eq ?_)
    rw [zpow_neg, zpow_natCast, one_div]
  have b3 : x * log2e - 1 / 2 ^ n ≤ ex n f x := by linarith
  rw [log2e_val] at b2 b3
  have c2 := cast_le b2
  have c3 := cast_le b3
  push_cast at c2 c3
  generalize (ex n f x : ℝ) = t at *
  generalize (x : ℝ) = X at *
  have l1 := Real.log_two_gt_d9
  have l2 := Real.log_two_lt_d9
  generalize Real.log 2 = L at *
  have hL : 0 < L := by linarith
  have hp : (0 : ℝ) < 1 / 2 ^ n := by positivity
  generalize (1 : ℝ) / 2 ^ n = δ at *
  have d1 : |t - X * (23637 / 16384)| ≤ δ := by rw [abs_le]; constructor <;> linarith
  have e : t * L - X = (t - X * (23637 / 16384)) * L + X * (23637 / 16384 * L - 1) := by ring
  rw [e]
  refine le_trans (abs_add_le _ _) ?_
  rw [abs_mul, abs_mul, abs_of_pos hL]
  have d2 : |23637 / 16384 * L - 1| ≤ 1 / 200000 := by rw [abs_le]; constructor <;> norm_num at l1 l2 ⊢ <;> linarith
  have d3 := mul_le_mul_of_nonneg_left d2 (abs_nonneg X)
  have d4 : |t - X * (23637 / 16384)| * L ≤ δ * 1 := mul_le_mul d1 (by linarith) hL.le hp.le
  linarith

theorem exp_err {n : ℕ} (h12 : 12 ≤ n) {f : Fmt} (hW : 1 ≤ f.W) {x : ℚ} (hx : f.Rep x) (h64 : |x| ≤ 64) :
    |(core (ex n f x) : ℝ) - Real.exp x| ≤ Real.exp x / 256 := by
  have h1 := core_err (ex n f x)
  have h2 := ex_err (n := n) hW hx
  have h3 : |(x : ℝ)| ≤ 64 := by exact_mod_cast cast_le h64
  have h4 : (1 : ℝ) / 2 ^ n ≤ 1 / 4096 := by
    apply one_div_le_one_div_of_le (by norm_num)
    calc (4096 : ℝ) = 2 ^ 12 := by norm_num
      _ ≤ 2 ^ n := pow_le_pow_right₀ (by norm_num) h12
  have e : (2 : ℝ) ^ (ex n f x : ℝ) = Real.exp x * Real.exp (ex n f x * Real.log 2 - x) := by
    rw [← Real.exp_add, Real.rpow_def_of_pos (by norm_num)]; congr 1; ring
  rw [e] at h1
  set y := (ex n f x : ℝ) * Real.log 2 - x
  have hy : |y| ≤ 57 / 100000 := by linarith
  have h5 : |Real.exp y - 1| ≤ 2 * |y| := Real.abs_exp_sub_one_le (by linarith)
  have h6 : |Real.exp y - 1| ≤ 114 / 100000 := by linarith
  have hE := Real.exp_pos (x : ℝ)
  generalize Real.exp (x : ℝ) = E at *
  generalize Real.exp y = r at *
  generalize (core (ex n f x) : ℝ) = c at *
  obtain ⟨a1, a2⟩ := abs_le.1 h6
  obtain ⟨b1, b2⟩ := abs_le.1 h1
  have m1 := mul_le_mul_of_nonneg_left (by linarith : r ≤ 1 + 114 / 100000) hE.le
  have m2 := mul_le_mul_of_nonneg_left (by linarith : 1 - 114 / 100000 ≤ r) hE.le
  rw [abs_le]
  constructor <;> linarith

end Proof.PowPwl
