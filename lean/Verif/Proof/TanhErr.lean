import Verif.Proof.Tanh

/-! # Error of the PWL tanh -/

namespace Proof.Tanh
open Ac Model.Pwl Proof.Pwl Proof.ExpBound

/-- Tables extended by the limit of the last segment, so that the end of the domain is a grid point too. -/
def extM : List ℤ := tanhM ++ [0]
@[inherit_doc extM] def extC : List ℤ := tanhC ++ [1019]

def ext (u : ℚ) : ℚ := pw (tab extM 10) (tab extC 10) (trunc 10 (u * 4))

theorem ext_mono {u v : ℚ} (h0 : 0 ≤ u) (h : u ≤ v) (hv : v ≤ 3) : ext u ≤ ext v := by
  refine pw_mono (n := 13) (by decide +kernel) ?_ (sc_nonneg h0) (trunc_mono _ (by linarith)) ?_
  · intro i hi
    have : ∀ i < 12, tab extC 10 i + tab extM 10 i ≤ tab extC 10 (i + 1) := by decide +kernel
    exact this i (by omega)
  · have := trunc_le 10 (v * 4)
    norm_num; linarith

theorem seg_eq_ext {u : ℚ} (h0 : 0 ≤ u) (h : u < 3) : seg u = ext u := by
  have hs : trunc 10 (u * 4) < (12 : ℕ) := by have := sc_lt h; norm_num at this ⊢; exact this
  have hi := floor_toNat_lt (sc_nonneg h0) hs
  have : ∀ i < 12, tab extC 10 i = tab tanhC 10 i ∧ tab extM 10 i = tab tanhM 10 i := by decide +kernel
  unfold seg ext pw
  rw [(this _ hi).1, (this _ hi).2]

/-- Raw output at the input `j / 512`. -/
def extRaw (j : ℕ) : ℕ := (segRaw extM extC 10 (8 * j)).toNat

theorem extRaw_spec {j : ℕ} (hj : j ≤ 1536) : (extRaw j : ℤ) = segRaw extM extC 10 (8 * j) ∧ extRaw j < 2 ^ 20 := by
  have h := segRaw_lt (m := extM) (c := extC) (n := 10) (p := 10) (k := 8 * j) (N := 13) (by norm_num; omega) (by decide +kernel)
  have e : (extRaw j : ℤ) = segRaw extM extC 10 (8 * j) := Int.toNat_of_nonneg h.1
  refine ⟨e, ?_⟩
  zify; rw [e]; exact h.2

theorem ext_grid (j : ℕ) (hj : j ≤ 1536) : ext (j / 512) = extRaw j / 2 ^ 20 := by
  have h2 : trunc 10 ((j : ℚ) / 512 * 4) = ((8 * j : ℕ) : ℤ) / 2 ^ 10 := by
    unfold trunc
    rw [show (j : ℚ) / 512 * 4 * 2 ^ 10 = ((8 * j : ℤ) : ℚ) by push_cast; ring, Int.floor_intCast]; push_cast; rfl
  unfold ext
  rw [h2, pw_tab, ← (extRaw_spec hj).1]
  norm_num

/-- The two comparisons at grid point `j`, for a distance of 5242 units of `2^-20`. -/
def check (j : ℕ) : Bool :=
  Nat.ble ((2 ^ 20 + extRaw (j + 1) - 5242) ^ 256 * 10000000000 ^ j) ((2 ^ 20 + 5242 - extRaw (j + 1)) ^ 256 * 27182818283 ^ j) &&
  Nat.ble ((2 ^ 20 - (extRaw j + 5242)) ^ 256 * 27182818286 ^ (j + 1)) ((2 ^ 20 + extRaw j + 5242) ^ 256 * 10000000000 ^ (j + 1))

theorem check_all : ∀ j < 1536, check j = true := by
  rw [← allLt_iff]
  decide +kernel

theorem le_tanh {a b j : ℕ} (ha : a ≤ 2 ^ 20) (hb : b ≤ 2 ^ 20)
    (h : (2 ^ 20 + a - b) ^ 256 * 10000000000 ^ j ≤ (2 ^ 20 + b - a) ^ 256 * 27182818283 ^ j) :
    (a : ℝ) / 2 ^ 20 ≤ Real.tanh ((j : ℕ) / (512 : ℕ)) + b / 2 ^ 20 := by
  have c1 := le_exp (n := 256) (by norm_num) h
  have hE := Real.exp_pos ((j : ℝ) / (256 : ℕ))
  rw [Nat.cast_sub (show a ≤ 2 ^ 20 + b by omega), Nat.cast_sub (show b ≤ 2 ^ 20 + a by omega)] at c1
  rw [tanh_eq, show (2 : ℝ) * ((j : ℕ) / (512 : ℕ)) = (j : ℝ) / (256 : ℕ) by push_cast; ring]
  rw [← sub_le_iff_le_add, ← sub_div, div_le_div_iff₀ (by norm_num) (by linarith)]
  push_cast at c1 ⊢
  norm_num at c1 ⊢
  linarith

theorem tanh_le {a b j : ℕ} (h : (2 ^ 20 - (a + b)) ^ 256 * 27182818286 ^ j ≤ (2 ^ 20 + a + b) ^ 256 * 10000000000 ^ j) :
    Real.tanh ((j : ℕ) / (512 : ℕ)) ≤ (a : ℝ) / 2 ^ 20 + b / 2 ^ 20 := by
  have c2 := exp_le (n := 256) (by norm_num) h
  have hE := Real.exp_pos ((j : ℝ) / (256 : ℕ))
  rw [← add_div]
  rcases le_or_gt (2 ^ 20) (a + b) with hb | hb
  · have h1 := tanh_lt_one ((j : ℝ) / (512 : ℕ))
    have h4 : ((2 ^ 20 : ℕ) : ℝ) ≤ ((a + b : ℕ) : ℝ) := by exact_mod_cast hb
    push_cast at h4
    refine le_trans h1.le ?_
    rw [le_div_iff₀ (by norm_num)]; linarith
  · rw [Nat.cast_sub hb.le] at c2
    rw [tanh_eq, show (2 : ℝ) * ((j : ℕ) / (512 : ℕ)) = (j : ℝ) / (256 : ℕ) by push_cast; ring,
      div_le_div_iff₀ (by linarith) (by norm_num)]
    push_cast at c2 ⊢
    norm_num at c2 ⊢
    linarith

theorem seg_err {u : ℚ} (h0 : 0 ≤ u) (h : u < 3) : |(seg u : ℝ) - Real.tanh u| ≤ 1 / 200 := by
  rw [seg_eq_ext h0 h]
  have key : |(ext u : ℝ) - Real.tanh u| ≤ (5242 : ℕ) / 2 ^ 20 := by
    refine sandwich (n := 512) (N := 1536) (by norm_num) (fun u v h0 h h1 => ext_mono h0 h (by norm_num at h1; exact h1))
      (fun u v _ h _ => tanh_mono h) ?_ ?_ h0 (by norm_num; exact h)
    · intro j hj
      have hc := check_all j hj
      unfold check at hc
      rw [Bool.and_eq_true, Nat.ble_eq, Nat.ble_eq] at hc
      have := le_tanh (extRaw_spec (j := j + 1) hj).2.le (by norm_num) hc.1
      have e := ext_grid (j + 1) hj
      rw [show ((512 : ℕ) : ℚ) = 512 by norm_num, e]
      push_cast at this ⊢
      norm_num at this ⊢
      linarith
    · intro j hj
      have hc := check_all j hj
      unfold check at hc
      rw [Bool.and_eq_true, Nat.ble_eq, Nat.ble_eq] at hc
      have := tanh_le hc.2
      rw [show ((512 : ℕ) : ℚ) = 512 by norm_num, ext_grid j hj.le]
      push_cast at this ⊢
      norm_num at this ⊢
      linarith
  refine le_trans key ?_
  norm_num

theorem mag_err {u : ℚ} (h0 : 0 ≤ u) : |(mag u : ℝ) - Real.tanh u| ≤ 1 / 200 := by
  unfold mag
  split_ifs with h
  · have h1 : Real.tanh 3 ≤ Real.tanh u := tanh_mono (by exact_mod_cast h)
    have h2 := tanh_lt_one (u : ℝ)
    have h3 : (995 : ℝ) / 1000 ≤ Real.tanh 3 := by
      have := le_exp (j := 6) (n := 1) (a := 1995) (b := 5) (by norm_num) (by norm_num)
      norm_num at this
      rw [tanh_eq]
      have e := Real.exp_pos 6
      norm_num
      rw [div_le_div_iff₀ (by norm_num) (by linarith)]
      linarith
    rw [abs_le]
    push_cast
    constructor <;> norm_num <;> linarith
  · exact seg_err h0 (by linarith)

end Proof.Tanh
