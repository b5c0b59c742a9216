import Verif.Proof.Pwl
import Verif.Proof.ExpBound
import Verif.Proof.Sandwich
import Mathlib.Analysis.SpecialFunctions.Trigonometric.DerivHyp

/-! # Lemmas for C33 -/

namespace Proof.Tanh
open Ac Model.Pwl Proof.Pwl Proof.ExpBound

/-- The segment function of the scaled input. -/
def seg (u : ℚ) : ℚ := pw (tab tanhM 10) (tab tanhC 10) (trunc 10 (u * 4))

theorem sc_lt {u : ℚ} {B : ℚ} (h : u < B) : trunc 10 (u * 4) < 4 * B := by
  have := trunc_le 10 (u * 4); linarith

theorem sc_nonneg {u : ℚ} (h : 0 ≤ u) : 0 ≤ trunc 10 (u * 4) := trunc_nonneg _ (by linarith)

theorem tab_chain : ∀ i, i + 1 < 12 → tab tanhC 10 i + tab tanhM 10 i ≤ tab tanhC 10 (i + 1) := by
  intro i hi
  have : ∀ i < 11, tab tanhC 10 i + tab tanhM 10 i ≤ tab tanhC 10 (i + 1) := by decide +kernel
  exact this i (by omega)

theorem seg_mono {u v : ℚ} (h0 : 0 ≤ u) (h : u ≤ v) (hv : v < 3) : seg u ≤ seg v :=
  pw_mono (n := 12) (by decide +kernel) tab_chain (sc_nonneg h0) (trunc_mono _ (by linarith))
    (by have := sc_lt hv; norm_num at this ⊢; exact this)

theorem seg_raw {u : ℚ} (h0 : 0 ≤ u) (h : u < 3) : ∃ k : ℤ, 1024 ≤ k ∧ k < 2 ^ 20 ∧ seg u = k / 2 ^ 20 := by
  have h1 : seg 0 ≤ seg u := seg_mono le_rfl h0 h
  rw [show seg 0 = 1 / 1024 by decide +kernel] at h1
  unfold seg at h1 ⊢
  have hs := sc_lt h
  rw [trunc_nat (by linarith)] at *
  set k := ⌊u * 4 * 2 ^ 10⌋.toNat
  rw [div_lt_iff₀ (by norm_num)] at hs
  have hk : k < 12 * 2 ^ 10 := by
    have : ((k : ℕ) : ℚ) < (12 * 2 ^ 10 : ℕ) := by push_cast at hs ⊢; linarith
    exact_mod_cast this
  rw [pw_tab] at h1 ⊢
  refine ⟨_, ?_, (segRaw_lt (p := 10) (N := 12) hk (by decide +kernel)).2, rfl⟩
  rw [le_div_iff₀ (by positivity)] at h1
  have : ((1024 : ℤ) : ℚ) ≤ segRaw tanhM tanhC 10 k := by push_cast; linarith
  exact_mod_cast this

/-- The whole function of the magnitude. -/
def mag (u : ℚ) : ℚ := if 3 ≤ u then 1 - 1 / 2 ^ 20 else seg u

theorem mag_raw {u : ℚ} (h0 : 0 ≤ u) : ∃ k : ℤ, 1024 ≤ k ∧ k < 2 ^ 20 ∧ mag u = k / 2 ^ 20 := by
  unfold mag
  split_ifs with h
  · exact ⟨2 ^ 20 - 1, by norm_num, by norm_num, by norm_num⟩
  · exact seg_raw h0 (by linarith)

theorem mag_mono {u v : ℚ} (h0 : 0 ≤ u) (h : u ≤ v) : mag u ≤ mag v := by
  unfold mag
  split_ifs with h1 h2 h2
  · exact le_rfl
  · linarith
  · obtain ⟨k, _, h4, h5⟩ := seg_raw h0 (by linarith)
    rw [h5, div_le_iff₀ (by positivity)]
    have : (k : ℚ) ≤ (2 ^ 20 - 1 : ℤ) := by exact_mod_cast (by omega : k ≤ 2 ^ 20 - 1)
    norm_num at this ⊢; linarith
  · exact seg_mono h0 h (by linarith)

theorem rep_abs {f : Fmt} (hW : 1 ≤ f.W) {x : ℚ} (hx : f.Rep x) : ∃ r : ℤ, Proof.Shift.InRange (uns f).W (uns f).S r ∧ |x| = (uns f).val r := by
  have h := magnitude_eq hW hx
  rw [← h]
  obtain ⟨r, h0, h1, h2⟩ := Fmt.rep_cvt (f := uns f) hW (if f.S ∧ x < 0 then -x else x)
  exact ⟨r, ⟨h0, h1⟩, h2⟩

theorem tanhSc_eq {f : Fmt} (hW : 1 ≤ f.W) {x : ℚ} (hx : f.Rep x) : tanhSc f |x| = tanhScFmt.cvt (|x| * 4) := by
  obtain ⟨r, hr, he⟩ := rep_abs hW hx
  unfold tanhSc
  have h2 : (uns f).raw |x| = r := by rw [he, Fmt.raw_val]
  rw [h2, Proof.Shift.leftUS_eq (fx := uns f) (fo := tanhScFmt) hW (by decide) rfl rfl hr, ← he]
  norm_num

theorem tanhSc_lt {f : Fmt} (hW : 1 ≤ f.W) {x : ℚ} (hx : f.Rep x) (h : |x| < 4) : tanhSc f |x| = trunc 10 (|x| * 4) := by
  rw [tanhSc_eq hW hx]
  have h0 := abs_nonneg x
  have e : tanhScFmt = ⟨4 + 10, (4 : ℕ), false, .TRN, .WRAP⟩ := rfl
  rw [e, cvt_trunc (by linarith) (by norm_num; linarith)]

theorem neg_iff {f : Fmt} {x : ℚ} (hx : f.Rep x) : (f.S ∧ x < 0) ↔ x < 0 := by
  constructor
  · exact fun h => h.2
  · refine fun h => ⟨?_, h⟩
    obtain ⟨r, h0, h1, rfl⟩ := hx
    cases hS : f.S
    · simp only [minRaw, hS, Bool.false_eq_true, if_false] at h0
      have : 0 ≤ f.val r := by unfold Fmt.val; exact mul_nonneg (by exact_mod_cast h0) (Fmt.z_pos _).le
      linarith
    · rfl

theorem key (q : QMode) {f : Fmt} (hW : 1 ≤ f.W) {x : ℚ} (hx : f.Rep x) (m c : ℤ)
    (h : |x| < 3 → m = tanhM.getD (index 4 (tanhSc f |x|)) 0 ∧ c = tanhC.getD (index 4 (tanhSc f |x|)) 0) :
    (if 3 ≤ |x| then (⟨21, 1, true, q, .WRAP⟩ : Fmt).maxVal else
      (⟨21, 1, true, q, .WRAP⟩ : Fmt).cvt (fx 10 m * fracBits tanhScFmt 10 (tanhSc f |x|) + fx 10 c)) = mag |x| := by
  have hv : (⟨21, 1, true, q, .WRAP⟩ : Fmt).maxVal = 1 - 1 / 2 ^ 20 := by
    unfold Fmt.maxVal Fmt.val Fmt.F maxRaw; norm_num
  have hu0 := abs_nonneg x
  unfold mag
  rw [hv]
  split_ifs with h3
  · rfl
  · have h3' : |x| < 3 := by linarith
    obtain ⟨rfl, rfl⟩ := h h3'
    obtain ⟨k, k0, k1, hk⟩ := seg_raw hu0 h3'
    rw [tanhSc_lt hW hx (by linarith), index_eq (sc_nonneg hu0) (by have := sc_lt h3'; norm_num at this ⊢; linarith)]
    have e : fracBits tanhScFmt 10 (trunc 10 (|x| * 4)) = Int.fract (trunc 10 (|x| * 4)) := fracBits_eq (I := 4) (n := 10)
    rw [e]
    have e2 : fx 10 (tanhM.getD ⌊trunc 10 (|x| * 4)⌋.toNat 0) * Int.fract (trunc 10 (|x| * 4))
      + fx 10 (tanhC.getD ⌊trunc 10 (|x| * 4)⌋.toNat 0) = seg |x| := rfl
    rw [e2, hk]
    exact cvt_exactS (n := 20) (by linarith) k1

theorem sign (q : QMode) {x : ℚ} : (if x < 0 then (⟨21, 1, true, q, .WRAP⟩ : Fmt).cvt (-mag |x|) else mag |x|) =
    if x < 0 then -mag |x| else mag |x| := by
  split_ifs with h
  · obtain ⟨k, k0, k1, hk⟩ := mag_raw (abs_nonneg x)
    rw [hk]
    have : -((k : ℚ) / 2 ^ 20) = ((-k : ℤ) : ℚ) / 2 ^ 20 := by push_cast; ring
    rw [this]
    exact cvt_exactS (n := 20) (by linarith) (by linarith)
  · rfl

theorem index_lt_twelve {f : Fmt} (hW : 1 ≤ f.W) {x : ℚ} (hx : f.Rep x) (h : |x| < 3) : index 4 (tanhSc f |x|) < 12 := by
  have hs := sc_lt h
  have hu0 := abs_nonneg x
  rw [tanhSc_lt hW hx (by linarith), index_eq (sc_nonneg hu0) (by norm_num at hs ⊢; linarith)]
  exact floor_toNat_lt (sc_nonneg hu0) (by norm_num at hs ⊢; linarith)

/-- Inside the domain, whatever an outside read does. -/
theorem tanhPwl_in (oob : ℕ → Option (ℤ × ℤ)) (q : QMode) {f : Fmt} (hW : 1 ≤ f.W) {x : ℚ} (hx : f.Rep x) (h : |x| < 3) :
    tanhPwl oob q f x = some (if x < 0 then -mag |x| else mag |x|) := by
  have hi := index_lt_twelve hW hx h
  unfold tanhPwl
  simp only [magnitude_eq hW hx, neg_iff hx, if_pos hi, rd_lt (t := tanhM) (by simpa [tanhM] using hi),
    rd_lt (t := tanhC) (by simpa [tanhC] using hi), Option.bind_eq_bind, Option.bind_some, pure]
  rw [key q hW hx _ _ (fun _ => ⟨rfl, rfl⟩), sign]

/-- When an outside read yields some bits, they do not matter. -/
theorem tanhPwl_some (g : ℕ → ℤ × ℤ) (q : QMode) {f : Fmt} (hW : 1 ≤ f.W) {x : ℚ} (hx : f.Rep x) :
    tanhPwl (fun i => some (g i)) q f x = some (if x < 0 then -mag |x| else mag |x|) := by
  rcases lt_or_ge |x| 3 with h | h
  · exact tanhPwl_in _ q hW hx h
  · unfold tanhPwl
    by_cases hi : index 4 (tanhSc f |x|) < 12
    · simp only [magnitude_eq hW hx, neg_iff hx, if_pos hi, rd_lt (t := tanhM) (by simpa [tanhM] using hi),
        rd_lt (t := tanhC) (by simpa [tanhC] using hi), Option.bind_eq_bind, Option.bind_some, pure]
      rw [key q hW hx _ _ (fun _ => ⟨rfl, rfl⟩), sign]
    · simp only [magnitude_eq hW hx, neg_iff hx, if_neg hi, Option.bind_eq_bind, Option.bind_some]
      rw [key q hW hx _ _ (fun h' => absurd h' (by linarith)), sign]

/-- Inputs of magnitude 3 to 4 read outside the tables. -/
theorem tanhPwl_oob (q : QMode) {f : Fmt} (hW : 1 ≤ f.W) {x : ℚ} (hx : f.Rep x) (h3 : 3 ≤ |x|) (h4 : |x| < 4) :
    tanhPwl (fun _ => none) q f x = none := by
  have hs := sc_lt h4
  have hu0 := abs_nonneg x
  have hi : ¬ index 4 (tanhSc f |x|) < 12 := by
    rw [tanhSc_lt hW hx h4, index_eq (sc_nonneg hu0) (by norm_num at hs ⊢; linarith)]
    have h1 : trunc 10 (12 : ℚ) ≤ trunc 10 (|x| * 4) := trunc_mono _ (by linarith)
    rw [show trunc 10 (12 : ℚ) = 12 by decide +kernel] at h1
    have : (12 : ℤ) ≤ ⌊trunc 10 (|x| * 4)⌋ := by rw [Int.le_floor]; exact_mod_cast h1
    omega
  unfold tanhPwl
  simp only [magnitude_eq hW hx, if_neg hi, Option.bind_eq_bind, Option.bind_none]

theorem tanh_eq (x : ℝ) : Real.tanh x = (Real.exp (2 * x) - 1) / (Real.exp (2 * x) + 1) := by
  rw [Real.tanh_eq_sinh_div_cosh, Real.sinh_eq, Real.cosh_eq, Real.exp_neg, two_mul, Real.exp_add]
  have := Real.exp_pos x
  field_simp

theorem tanh_mono {x y : ℝ} (h : x ≤ y) : Real.tanh x ≤ Real.tanh y := by
  rw [tanh_eq, tanh_eq]
  have h1 : Real.exp (2 * x) ≤ Real.exp (2 * y) := Real.exp_le_exp.2 (by linarith)
  have := Real.exp_pos (2 * x)
  rw [div_le_div_iff₀ (by linarith) (by linarith)]
  linarith

theorem tanh_lt_one (x : ℝ) : Real.tanh x < 1 := by
  rw [tanh_eq]
  have := Real.exp_pos (2 * x)
  rw [div_lt_one (by linarith)]; linarith

end Proof.Tanh
