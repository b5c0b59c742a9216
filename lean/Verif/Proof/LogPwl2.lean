import Verif.Proof.LogPwl
import Verif.Proof.Sandwich
import Verif.Proof.Bits
import Mathlib.Analysis.SpecialFunctions.Log.Base
import Mathlib.Analysis.Complex.ExponentialBounds

/-! # Error of the PWL logarithm -/

namespace Proof.LogPwl
open Ac Model.Pwl Model.PwlFixed Model.Normalize Proof.Pwl Proof.PwlFixed Proof.Shift

theorem ln2_val : ln2 = 2839 / 4096 := by decide +kernel

/-- The type of `log2(x)` inside the natural logarithm holds every bit of it. -/
theorem log_cvt (q : QMode) {f : Fmt} (hW : 1 ≤ f.W) (hS : f.S = false) {x : ℚ} (hx : f.Rep x) (h : 0 < x) :
    (⟨22 + logI f, logI f, true, q, .WRAP⟩ : Fmt).cvt (core true f x) = core true f x := by
  obtain ⟨a1, a2, a3, -⟩ := norm_pos (cn := true) hW hS hx h (Or.inl rfl) 3
  obtain ⟨e1, e2⟩ := norm_exp hW hS hx h
  unfold core
  generalize norm true f x = ne at *
  obtain ⟨n, e⟩ := ne
  simp only at a1 a2 a3 e1 e2 ⊢
  obtain ⟨k, -, hk, b1, b2⟩ := g_cell a2 a3
  have hL : logI f = max (nbits (f.W - f.I).toNat) (nbits f.I.toNat) + 1 := rfl
  have n1 : (f.I.toNat : ℤ) < 2 ^ (logI f - 1) := by
    have := Model.Bits.lt_two_pow_nbits f.I.toNat
    have h2 : 2 ^ nbits f.I.toNat ≤ 2 ^ (logI f - 1) := Nat.pow_le_pow_right (by norm_num) (by omega)
    exact_mod_cast lt_of_lt_of_le this h2
  have n2 : ((f.W - f.I).toNat : ℤ) < 2 ^ (logI f - 1) := by
    have := Model.Bits.lt_two_pow_nbits (f.W - f.I).toNat
    have h2 : 2 ^ nbits (f.W - f.I).toNat ≤ 2 ^ (logI f - 1) := Nat.pow_le_pow_right (by norm_num) (by omega)
    exact_mod_cast lt_of_lt_of_le this h2
  have hp : (2 : ℤ) ^ (22 + logI f - 1) = 2 ^ 22 * 2 ^ (logI f - 1) := by rw [← pow_add]; congr 1
  have n3 : (e : ℤ) ≤ 2 ^ (logI f - 1) - 1 := by omega
  have n4 : -(2 : ℤ) ^ (logI f - 1) + 1 ≤ e := by omega
  set P : ℤ := 2 ^ (logI f - 1)
  obtain ⟨w1, -, -⟩ := cvt_word (f := ⟨22 + logI f, logI f, true, q, .WRAP⟩) (by simp; omega) (n := 22) (by simp [Fmt.F]) rfl
    (k := segRaw logM logC 11 k + e * 2 ^ 22)
    (by simp only [minRaw, if_true]; rw [hp]; norm_num at b1 b2 ⊢; omega)
    (by simp only [maxRaw, if_true]; rw [hp]; norm_num at b1 b2 ⊢; omega)
  have : g n + e = ((segRaw logM logC 11 k + e * 2 ^ 22 : ℤ) : ℚ) / 2 ^ 22 := by rw [hk]; push_cast; ring
  rw [this, w1]

theorem log_eq (q : QMode) {f out : Fmt} (hW : 1 ≤ f.W) (hS : f.S = false) {x : ℚ} (hx : f.Rep x) (h : 0 < x) :
    log q f out x = some (out.cvt (core true f x * ln2)) := by
  unfold log
  rw [log2_eq q true hW hS hx h (Or.inl rfl), log_cvt q hW hS hx h]
  simp only [Option.bind_eq_bind, Option.bind_some, h.ne', ne_eq, not_false_eq_true, if_true]

/-- Tables extended by the end of the last segment. -/
def extM : List ℤ := logM ++ [0]
@[inherit_doc extM] def extC : List ℤ := logC ++ [1]

def ext (u : ℚ) : ℚ := pw (tab extM 11) (tab extC 11) (trunc 11 (u * 16))

theorem ext_mono {u v : ℚ} (h0 : 0 ≤ u) (h : u ≤ v) (hv : v ≤ 1 / 2) : ext u ≤ ext v := by
  refine pw_mono (n := 9) (by decide +kernel) ?_ (trunc_nonneg _ (by linarith)) (trunc_mono _ (by linarith)) ?_
  · intro i hi
    have : ∀ i < 8, tab extC 11 i + tab extM 11 i ≤ tab extC 11 (i + 1) := by decide +kernel
    exact this i (by omega)
  · have := trunc_le 11 (v * 16)
    norm_num; linarith

theorem g_eq_ext {n : ℚ} (h0 : 1 / 2 ≤ n) (h : n < 1) : g n = ext (n - 1 / 2) := by
  have hs : trunc 11 ((n - 1 / 2) * 16) < (8 : ℕ) := by have := trunc_le 11 ((n - 1 / 2) * 16); norm_num; linarith
  have hi := floor_toNat_lt (trunc_nonneg 11 (by linarith)) hs
  have : ∀ i < 8, tab extC 11 i = tab logC 11 i ∧ tab extM 11 i = tab logM 11 i := by decide +kernel
  unfold g ext pw
  rw [(this _ hi).1, (this _ hi).2]

theorem ext_grid (j : ℕ) : ext ((j : ℕ) / (32768 : ℕ)) = segRaw extM extC 11 j / 2 ^ 22 := by
  have h2 : trunc 11 ((j : ℚ) / (32768 : ℕ) * 16) = ((j : ℕ) : ℤ) / 2 ^ 11 := by
    unfold trunc
    rw [show (j : ℚ) / (32768 : ℕ) * 16 * 2 ^ 11 = ((j : ℤ) : ℚ) by push_cast; ring, Int.floor_intCast]
  unfold ext
  rw [h2, pw_tab]

/-- The comparisons at the grid point `j`, for a distance of 6990 units of `2^-22`, with exponents in units of `2^-13`. -/
def check (j : ℕ) : Bool :=
  Nat.ble (32768 ^ 8192) ((16384 + j) ^ 8192 * 2 ^ ((6990 - segRaw extM extC 11 (j + 1)) / 512).toNat) &&
  Nat.ble ((16384 + (j + 1)) ^ 8192 * 2 ^ (-((6990 + segRaw extM extC 11 j) / 512)).toNat) (32768 ^ 8192) &&
  decide (segRaw extM extC 11 (j + 1) ≤ 6990)

set_option exponentiation.threshold 10000 in
theorem check0 : allLt 2048 (fun k => check (2048 * 0 + k)) = true := by decide +kernel
theorem check1 : allLt 2048 (fun k => check (2048 * 1 + k)) = true := by decide +kernel
theorem check2 : allLt 2048 (fun k => check (2048 * 2 + k)) = true := by decide +kernel
theorem check3 : allLt 2048 (fun k => check (2048 * 3 + k)) = true := by decide +kernel
theorem check4 : allLt 2048 (fun k => check (2048 * 4 + k)) = true := by decide +kernel
theorem check5 : allLt 2048 (fun k => check (2048 * 5 + k)) = true := by decide +kernel
theorem check6 : allLt 2048 (fun k => check (2048 * 6 + k)) = true := by decide +kernel
theorem check7 : allLt 2048 (fun k => check (2048 * 7 + k)) = true := by decide +kernel

theorem check_all : ∀ j < 16384, check j = true := by
  refine chunks 2048 (c := 8) (by norm_num) ?_
  intro j hj
  interval_cases j
  · exact check0
  · exact check1
  · exact check2
  · exact check3
  · exact check4
  · exact check5
  · exact check6
  · exact check7

theorem le_logb {a b c m : ℕ} (ha : 0 < a) (hc : 0 < c) (hm : 0 < m) (h : c ^ m ≤ a ^ m * 2 ^ b) :
    -((b : ℝ) / m) ≤ Real.logb 2 ((a : ℝ) / c) := by
  have ha' : (0 : ℝ) < a := by exact_mod_cast ha
  have hc' : (0 : ℝ) < c := by exact_mod_cast hc
  have hm' : (0 : ℝ) < m := by exact_mod_cast hm
  have h1 : (c : ℝ) ^ m ≤ (a : ℝ) ^ m * 2 ^ b := by exact_mod_cast h
  have h2 : (1 : ℝ) ≤ ((a : ℝ) / c) ^ m * 2 ^ b := by
    rw [div_pow, div_mul_eq_mul_div, le_div_iff₀ (by positivity)]; linarith
  have h3 := Real.logb_nonneg (b := 2) (by norm_num) h2
  rw [Real.logb_mul (by positivity) (by positivity), Real.logb_pow, Real.logb_pow, Real.logb_self_eq_one (by norm_num)] at h3
  rw [neg_le_iff_add_nonneg, ← mul_nonneg_iff_of_pos_left hm']
  have : (m : ℝ) * (Real.logb 2 (a / c) + b / m) = m * Real.logb 2 (a / c) + b * 1 := by field_simp
  rw [this]; exact h3

theorem logb_le {a b c m : ℕ} (ha : 0 < a) (hc : 0 < c) (hm : 0 < m) (h : a ^ m * 2 ^ b ≤ c ^ m) :
    Real.logb 2 ((a : ℝ) / c) ≤ -((b : ℝ) / m) := by
  have ha' : (0 : ℝ) < a := by exact_mod_cast ha
  have hc' : (0 : ℝ) < c := by exact_mod_cast hc
  have hm' : (0 : ℝ) < m := by exact_mod_cast hm
  have h1 : (a : ℝ) ^ m * 2 ^ b ≤ (c : ℝ) ^ m := by exact_mod_cast h
  have h2 : ((a : ℝ) / c) ^ m * 2 ^ b ≤ 1 := by
    rw [div_pow, div_mul_eq_mul_div, div_le_iff₀ (by positivity)]; linarith
  have h3 := Real.logb_nonpos (b := 2) (by norm_num) (by positivity) h2
  rw [Real.logb_mul (by positivity) (by positivity), Real.logb_pow, Real.logb_pow, Real.logb_self_eq_one (by norm_num)] at h3
  have h4 : (m : ℝ) * (Real.logb 2 (a / c) + b / m) ≤ 0 := by
    have : (m : ℝ) * (Real.logb 2 (a / c) + b / m) = m * Real.logb 2 (a / c) + b * 1 := by field_simp
    rw [this]; exact h3
  have h5 : Real.logb 2 (a / c) + b / m ≤ 0 := by
    by_contra h6
    have := mul_pos hm' (not_le.1 h6)
    linarith
  linarith

theorem g_err {n : ℚ} (h0 : 1 / 2 ≤ n) (h1 : n < 1) : |(g n : ℝ) - Real.logb 2 n| ≤ 1 / 600 := by
  have key := sandwich (G := ext) (φ := fun u => Real.logb 2 (1 / 2 + u)) (n := 32768) (N := 16384) (ε := 6990 / 2 ^ 22) (by norm_num)
    (fun u v hu huv hv => ext_mono hu huv (by norm_num at hv; linarith))
    (fun u v hu huv hv => Real.logb_le_logb_of_le (by norm_num) (by linarith) (by linarith))
    ?_ ?_ (u := n - 1 / 2) (by linarith) (by norm_num; linarith)
  · rw [g_eq_ext h0 h1]
    push_cast at key
    rw [show (1 / 2 : ℝ) + ((n : ℝ) - 1 / 2) = n by ring] at key
    refine le_trans key (by norm_num)
  · intro j hj
    have hc := check_all j hj
    unfold check at hc
    simp only [Bool.and_eq_true, Nat.ble_eq, decide_eq_true_eq] at hc
    obtain ⟨⟨c1, -⟩, c3⟩ := hc
    have l := le_logb (by omega) (by norm_num) (by norm_num) c1
    rw [ext_grid]
    set K := segRaw extM extC 11 (j + 1)
    have hb : (((6990 - K) / 512).toNat : ℤ) = (6990 - K) / 512 := Int.toNat_of_nonneg (Int.ediv_nonneg (by omega) (by norm_num))
    have hb2 : ((((6990 - K) / 512).toNat : ℤ) : ℝ) * 512 ≤ ((6990 - K : ℤ) : ℝ) := by
      rw [hb]; exact_mod_cast Int.ediv_mul_le _ (by norm_num)
    push_cast at hb2 l ⊢
    have e : (1 / 2 : ℝ) + (j : ℝ) / 32768 = (16384 + j) / 32768 := by ring
    rw [e]
    norm_num at l ⊢
    linarith
  · intro j hj
    have hc := check_all j hj
    unfold check at hc
    simp only [Bool.and_eq_true, Nat.ble_eq, decide_eq_true_eq] at hc
    obtain ⟨⟨-, c2⟩, -⟩ := hc
    have l := logb_le (by omega) (by norm_num) (by norm_num) c2
    rw [ext_grid]
    set K := segRaw extM extC 11 j
    have hb2 : (((-(6990 + K) : ℤ)) : ℝ) ≤ (((-((6990 + K) / 512)).toNat : ℤ) : ℝ) * 512 := by
      have h1 : -((6990 + K) / 512) ≤ ((-((6990 + K) / 512)).toNat : ℤ) := Int.self_le_toNat _
      have h2 : (6990 + K) / 512 * 512 ≤ 6990 + K := Int.ediv_mul_le _ (by norm_num)
      have h3 : -(6990 + K) ≤ ((-((6990 + K) / 512)).toNat : ℤ) * 512 := by omega
      exact_mod_cast h3
    push_cast at hb2 l ⊢
    have e : (1 / 2 : ℝ) + ((j : ℝ) + 1) / 32768 = (16384 + (j + 1)) / 32768 := by ring
    rw [e]
    norm_num at l hb2 ⊢
    linarith

theorem core_err {cn : Bool} {f : Fmt} (hW : 1 ≤ f.W) (hS : f.S = false) {x : ℚ} (hx : f.Rep x) (h : 0 < x)
    (hc : cn = true ∨ 2 ^ (f.I - 1) ≤ x) : |(core cn f x : ℝ) - Real.logb 2 x| ≤ 1 / 600 := by
  obtain ⟨a1, a2, a3, -⟩ := norm_pos hW hS hx h hc 3
  unfold core
  generalize norm cn f x = ne at *
  obtain ⟨n, e⟩ := ne
  simp only at a1 a2 a3 ⊢
  have hn : (0 : ℝ) < n := by exact_mod_cast (by linarith : (0 : ℚ) < n)
  have he : Real.logb 2 (x : ℝ) = Real.logb 2 n + e := by
    rw [a1]; push_cast
    rw [Real.logb_mul hn.ne' (by positivity), ← Real.rpow_intCast, Real.logb_rpow (by norm_num) (by norm_num)]
  rw [he]; push_cast
  have := g_err a2 a3
  rwa [show (g n : ℝ) + e - (Real.logb 2 n + e) = g n - Real.logb 2 n by ring]

theorem ln_err {f : Fmt} (hW : 1 ≤ f.W) (hS : f.S = false) {x : ℚ} (hx : f.Rep x) (h : 0 < x) :
    |((core true f x * ln2 : ℚ) : ℝ) - Real.log x| ≤ 1 / 800 + |Real.log x| / 20000 := by
  have h1 := core_err (cn := true) hW hS hx h (Or.inl rfl)
  have l1 := Real.log_two_gt_d9
  have l2 := Real.log_two_lt_d9
  have hl : Real.log x = Real.logb 2 x * Real.log 2 := by
    rw [Real.logb, div_mul_cancel₀]; linarith
  rw [hl, ln2_val, abs_mul, abs_of_pos (by linarith : 0 < Real.log 2)]
  push_cast
  generalize Real.logb 2 (x : ℝ) = L at *
  generalize Real.log 2 = c at *
  generalize ((core true f x : ℚ) : ℝ) = t at *
  have e : t * (2839 / 4096) - L * c = (t - L) * (2839 / 4096) + L * (2839 / 4096 - c) := by ring
  rw [e]
  refine le_trans (abs_add_le _ _) ?_
  rw [abs_mul, abs_mul]
  have a1 : |(2839 / 4096 : ℝ)| = 2839 / 4096 := abs_of_pos (by norm_num)
  have a2 : |(2839 / 4096 : ℝ) - c| ≤ c / 20000 := by rw [abs_le]; constructor <;> norm_num at l1 l2 ⊢ <;> linarith
  rw [a1]
  have b1 := mul_le_mul_of_nonneg_right h1 (show (0 : ℝ) ≤ 2839 / 4096 by norm_num)
  have b2 := mul_le_mul_of_nonneg_left a2 (abs_nonneg L)
  have b3 : |L| * (c / 20000) = |L| * c / 20000 := by ring
  norm_num at b1 b2 b3 ⊢
  linarith

end Proof.LogPwl
