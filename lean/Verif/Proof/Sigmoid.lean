import Verif.Proof.Pwl

/-! # Lemmas for C32 -/

namespace Proof.Sigmoid
open Ac Model.Pwl Proof.Pwl

/-- The scaled input inside the domain. -/
def sc (u : ℚ) : ℚ := trunc 10 (trunc 10 u * (819 / 512))

/-- The segment function of the scaled input. -/
def seg (u : ℚ) : ℚ := pw (tab sigM 10) (tab sigC 10) (sc u)

theorem sc_nonneg {u : ℚ} (h : 0 ≤ u) : 0 ≤ sc u :=
  trunc_nonneg _ (mul_nonneg (trunc_nonneg _ h) (by norm_num))

theorem sc_mono {u v : ℚ} (h : u ≤ v) : sc u ≤ sc v :=
  trunc_mono _ (mul_le_mul_of_nonneg_right (trunc_mono _ h) (by norm_num))

theorem sc_lt {u : ℚ} (h : u ≤ 5) : sc u < 8 := by
  have h1 := trunc_le 10 u
  have h2 := trunc_le 10 (trunc 10 u * (819 / 512))
  unfold sc
  linarith

theorem sigSc_eq {u : ℚ} (h0 : 0 ≤ u) (h : u ≤ 5) : sigSc u = sc u := by
  have e : sigScFmt = ⟨4 + 10, (4 : ℕ), false, .TRN, .WRAP⟩ := rfl
  have h1 := trunc_le 10 u
  unfold sigSc sc
  rw [e, cvt_trunc h0 (by norm_num; linarith), cvt_trunc (mul_nonneg (trunc_nonneg _ h0) (by norm_num)) (by norm_num; linarith)]

theorem seg_mono {u v : ℚ} (h0 : 0 ≤ u) (h : u ≤ v) (hv : v ≤ 5) : seg u ≤ seg v := by
  refine pw_mono (n := 8) ?_ ?_ (sc_nonneg h0) (sc_mono h) (by exact_mod_cast sc_lt hv)
  · decide +kernel
  · intro i hi
    have : ∀ i < 7, tab sigC 10 i + tab sigM 10 i ≤ tab sigC 10 (i + 1) := by decide +kernel
    exact this i (by omega)

/-- `seg` on its grid. -/
theorem seg_raw {u : ℚ} (h0 : 0 ≤ u) (h : u ≤ 5) : ∃ k : ℤ, 513 * 1024 ≤ k ∧ k < 2 ^ 20 ∧ seg u = k / 2 ^ 20 := by
  unfold seg
  have hs := sc_lt h
  have hs0 := sc_nonneg h0
  have h1 : pw (tab sigM 10) (tab sigC 10) 0 ≤ pw (tab sigM 10) (tab sigC 10) (sc u) := by
    refine pw_mono (n := 8) (by decide +kernel) ?_ le_rfl hs0 (by exact_mod_cast hs)
    intro i hi
    have : ∀ i < 7, tab sigC 10 i + tab sigM 10 i ≤ tab sigC 10 (i + 1) := by decide +kernel
    exact this i (by omega)
  rw [show pw (tab sigM 10) (tab sigC 10) 0 = 513 / 1024 by decide +kernel] at h1
  rw [show sc u = ((⌊trunc 10 u * (819 / 512) * 2 ^ 10⌋.toNat : ℕ) : ℤ) / 2 ^ 10 from
    trunc_nat (mul_nonneg (trunc_nonneg _ h0) (by norm_num))] at *
  set k := ⌊trunc 10 u * (819 / 512) * 2 ^ 10⌋.toNat
  rw [div_lt_iff₀ (by norm_num)] at hs
  have hk : k < 8 * 2 ^ 10 := by
    have : ((k : ℕ) : ℚ) < (8 * 2 ^ 10 : ℕ) := by push_cast at hs ⊢; linarith
    exact_mod_cast this
  rw [pw_tab] at h1 ⊢
  refine ⟨_, ?_, (segRaw_lt (p := 10) (N := 8) hk (by decide +kernel)).2, rfl⟩
  rw [le_div_iff₀ (by positivity)] at h1
  have : ((513 * 1024 : ℤ) : ℚ) ≤ segRaw sigM sigC 10 k := by push_cast; linarith
  exact_mod_cast this

/-- The whole function of the magnitude. -/
def mag (u : ℚ) : ℚ := if 5 ≤ u then 1 - 1 / 2 ^ 20 else seg u

theorem mag_raw {u : ℚ} (h0 : 0 ≤ u) : ∃ k : ℤ, 513 * 1024 ≤ k ∧ k < 2 ^ 20 ∧ mag u = k / 2 ^ 20 := by
  unfold mag
  split_ifs with h
  · exact ⟨2 ^ 20 - 1, by norm_num, by norm_num, by norm_num⟩
  · exact seg_raw h0 (by linarith)

theorem mag_mono {u v : ℚ} (h0 : 0 ≤ u) (h : u ≤ v) : mag u ≤ mag v := by
  unfold mag
  split_ifs with h1 h2 h2
  · exact le_rfl
  · linarith
  · obtain ⟨k, _, h4, h5⟩ := seg_raw h0 (by linarith)
    rw [h5, div_le_iff₀ (by positivity)]
    have : (k : ℚ) ≤ (2 ^ 20 - 1 : ℤ) := by exact_mod_cast (by omega : k ≤ 2 ^ 20 - 1)
    norm_num at this ⊢; linarith
  · exact seg_mono h0 h (by linarith)

theorem sigmoidPwl_eq (q : QMode) {f : Fmt} (hW : 1 ≤ f.W) {x : ℚ} (hx : f.Rep x) :
    sigmoidPwl q f x = some (if x < 0 then 1 - mag |x| else mag |x|) := by
  have hu := magnitude_eq hW hx
  have hu0 := abs_nonneg x
  have hSx : (f.S ∧ x < 0) ↔ x < 0 := by
    constructor
    · exact fun h => h.2
    · refine fun h => ⟨?_, h⟩
      obtain ⟨r, h0, h1, rfl⟩ := hx
      cases hS : f.S
      · simp only [minRaw, hS, Bool.false_eq_true, if_false] at h0
        have : 0 ≤ f.val r := by unfold Fmt.val; exact mul_nonneg (by exact_mod_cast h0) (Fmt.z_pos _).le
        linarith
      · rfl
  have hi := index_lt 3 (sigSc |x|)
  have hv : (⟨20, 0, false, q, .WRAP⟩ : Fmt).maxVal = 1 - 1 / 2 ^ 20 := by
    unfold Fmt.maxVal Fmt.val Fmt.F maxRaw; norm_num
  have key : (if 5 ≤ |x| then (⟨20, 0, false, q, .WRAP⟩ : Fmt).maxVal else
      (⟨20, 0, false, q, .WRAP⟩ : Fmt).cvt (fx 10 (sigM.getD (index 3 (sigSc |x|)) 0) * fracBits sigScFmt 10 (sigSc |x|)
        + fx 10 (sigC.getD (index 3 (sigSc |x|)) 0))) = mag |x| := by
    unfold mag
    rw [hv]
    split_ifs with h
    · rfl
    · have h5 : |x| ≤ 5 := by linarith
      obtain ⟨k, k0, k1, hk⟩ := seg_raw hu0 h5
      rw [sigSc_eq hu0 h5, index_eq (sc_nonneg hu0) (by norm_num; exact sc_lt h5)]
      have e : fracBits sigScFmt 10 (sc |x|) = Int.fract (sc |x|) := fracBits_eq (I := 4) (n := 10)
      rw [e]
      have e2 : fx 10 (sigM.getD ⌊sc |x|⌋.toNat 0) * Int.fract (sc |x|) + fx 10 (sigC.getD ⌊sc |x|⌋.toNat 0) = seg |x| := rfl
      rw [e2, hk]
      exact cvt_exactU (by norm_num) (by linarith) k1
  unfold sigmoidPwl
  simp only [hu, hSx, rd_lt (t := sigM) (by simpa [sigM] using hi), rd_lt (t := sigC) (by simpa [sigC] using hi),
    Option.bind_eq_bind, Option.bind_some, key]
  congr 1
  split_ifs with h
  · obtain ⟨k, k0, k1, hk⟩ := mag_raw hu0
    rw [hk]
    have : (1 : ℚ) - k / 2 ^ 20 = ((2 ^ 20 - k : ℤ) : ℚ) / 2 ^ 20 := by push_cast; rw [sub_div]; norm_num
    rw [this]
    exact cvt_exactU (by norm_num) (by linarith) (by linarith)
  · rfl

end Proof.Sigmoid
