import Verif.Proof.Elu
import Verif.Proof.LogPwl2

/-! # Lemmas for C46: softplus -/

namespace Proof.Softplus
open Ac Model.Pwl Model.PwlFixed Model.Activations Proof.Pwl Proof.PwlFixed Proof.PowPwl Proof.Elu

/-- The types whose exponential fits the type the function declares for it. -/
def Fits (f : Fmt) : Prop := if f.S then f.I ≤ 6 else f.I ≤ 4

theorem fits_exp {f : Fmt} (hW : 1 ≤ f.W) (hf : Fits f) {x : ℚ} (hx : f.Rep x) : x * log2e < N f ∧ x ≤ 64 := by
  have hb := ((Fmt.rep_iff hW x).1 hx).1
  have hN : (2 : ℚ) ≤ N f := by
    have : 2 ≤ N f := by unfold N; nlinarith [Nat.zero_le f.I.natAbs]
    exact_mod_cast this
  have key : ∀ k : ℤ, x < 2 ^ k → k ≤ 0 → x * log2e < N f ∧ x ≤ 64 := by
    intro k h1 h2
    have h3 : (2 : ℚ) ^ k ≤ 2 ^ (0 : ℤ) := Fmt.z_le h2
    rw [log2e_val]
    rw [zpow_zero] at h3
    constructor <;> linarith
  unfold Fits at hf
  unfold Fmt.Bnd at hb
  split_ifs at hf hb with hS
  · by_cases h0 : f.I - 1 ≤ 0
    · exact key _ hb.2 h0
    · have hb := hb.2
      unfold N
      rw [log2e_val]
      generalize f.I = i at *
      have : i = 2 ∨ i = 3 ∨ i = 4 ∨ i = 5 ∨ i = 6 := by omega
      rcases this with rfl | rfl | rfl | rfl | rfl <;> norm_num at hb ⊢ <;> constructor <;> linarith
  · by_cases h0 : f.I ≤ 0
    · exact key _ hb.2 h0
    · have hb := hb.2
      unfold N
      rw [log2e_val]
      generalize f.I = i at *
      have : i = 1 ∨ i = 2 ∨ i = 3 ∨ i = 4 := by omega
      rcases this with rfl | rfl | rfl | rfl <;> norm_num at hb ⊢ <;> constructor <;> linarith

theorem core_fit {f : Fmt} (hW : 1 ≤ f.W) (hf : Fits f) {x : ℚ} (hx : f.Rep x) : core (ex 12 f x) < 2 ^ N f := by
  have h1 := (ex_bounds 12 f x).2
  have h2 := (fits_exp hW hf hx).1
  have h3 := core_lt (y := ex 12 f x) (k := N f) (by push_cast; linarith)
  rw [zpow_natCast] at h3
  have : (0 : ℚ) < 2 ^ N f := by positivity
  linarith

/-- Type of the argument of the logarithm. -/
def fl (f : Fmt) : Fmt := ⟨N f + 20 + 1, (N f : ℕ) + 1, false, .TRN, .WRAP⟩

theorem fl_cvt {f : Fmt} {x : ℚ} (h : core (ex 12 f x) < 2 ^ N f) : (fl f).cvt (ep f x + 1) = ep f x + 1 := by
  have e : fl f = ⟨(N f + 1) + 20, ((N f + 1 : ℕ) : ℤ), false, .TRN, .WRAP⟩ := by
    unfold fl; push_cast; congr 1
  have h1 : ep f x < 2 ^ N f := lt_of_le_of_lt (trunc_le _ _) h
  have h2 : (1 : ℚ) ≤ 2 ^ N f := one_le_pow₀ (by norm_num)
  rw [e, cvt_trunc (by have := ep_nonneg f x; linarith) (by rw [pow_succ]; linarith)]
  unfold ep trunc
  rw [show ((⌊core (ex 12 f x) * 2 ^ 20⌋ : ℚ) / 2 ^ 20 + 1) * 2 ^ 20 = ((⌊core (ex 12 f x) * 2 ^ 20⌋ + 2 ^ 20 : ℤ) : ℚ) by
    push_cast; ring, Int.floor_intCast]
  push_cast
  ring

theorem fl_rep {f : Fmt} {x : ℚ} (h : core (ex 12 f x) < 2 ^ N f) : (fl f).Rep (ep f x + 1) := by
  rw [← fl_cvt h]; exact Fmt.rep_cvt (by unfold fl; simp) _

/-- The number that is converted to the output. -/
def sr (f : Fmt) (x : ℚ) : ℚ := Proof.LogPwl.core true (fl f) (ep f x + 1) * ln2

theorem softplus_eq (q : QMode) {f : Fmt} (out : Fmt) (hW : 1 ≤ f.W) (hf : Fits f) {x : ℚ} (hx : f.Rep x) :
    softplus q f out x = some (out.cvt (sr f x)) := by
  have hc := core_fit hW hf hx
  unfold softplus
  simp only [exp_out hW hx hc, Option.bind_eq_bind, Option.bind_some]
  have e : (⟨(outPow f).W + 1, (outPow f).I + 1, false, .TRN, .WRAP⟩ : Fmt) = fl f := by rw [outPow_eq]; rfl
  rw [e, fl_cvt hc]
  exact Proof.LogPwl.log_eq q (by unfold fl; simp) rfl (fl_rep hc) (by have := ep_nonneg f x; linarith)

theorem softplus_some (q : QMode) (f out : Fmt) (x : ℚ) : (softplus q f out x).isSome := by
  obtain ⟨p, hp⟩ := exp_some f (outPow f) x
  unfold softplus
  simp only [hp, Option.bind_eq_bind, Option.bind_some]
  generalize (⟨(outPow f).W + 1, (outPow f).I + 1, false, .TRN, .WRAP⟩ : Fmt) = g
  unfold log
  obtain ⟨z, hz, -⟩ := Proof.LogPwl.log2_some q true g ⟨22 + logI g, logI g, true, q, .WRAP⟩ (g.cvt (p + 1))
  simp only [hz, Option.bind_eq_bind, Option.bind_some]
  rfl

theorem sr_mono {f : Fmt} (hW : 1 ≤ f.W) (hf : Fits f) {x y : ℚ} (hx : f.Rep x) (hy : f.Rep y) (h : x ≤ y) : sr f x ≤ sr f y := by
  have := ep_nonneg f x
  exact mul_le_mul_of_nonneg_right (Proof.LogPwl.core_mono (by unfold fl; simp) rfl (fl_rep (core_fit hW hf hx)) (fl_rep (core_fit hW hf hy))
    (by linarith) (Or.inl rfl) (by have := ep_mono f h; linarith)) (by rw [Proof.LogPwl.ln2_val]; norm_num)

theorem sr_pos {f : Fmt} (hW : 1 ≤ f.W) (hf : Fits f) {x : ℚ} (hx : f.Rep x) : 1 / 1000 ≤ sr f x := by
  have h0 := ep_nonneg f x
  have hr : (fl f).Rep 1 := by
    rw [Fmt.rep_iff (by unfold fl; simp)]
    constructor
    · show (0 : ℚ) ≤ 1 ∧ (1 : ℚ) < 2 ^ (((N f : ℕ) : ℤ) + 1)
      have : (2 : ℚ) ^ (0 : ℤ) ≤ 2 ^ ((N f : ℕ) : ℤ) := Fmt.z_le (by omega)
      rw [Fmt.z_succ]
      norm_num at this ⊢
      linarith
    · refine ⟨2 ^ 20, ?_⟩
      have : (fl f).F = 20 := by unfold fl Fmt.F; push_cast; ring
      unfold Fmt.val
      rw [this]; norm_num
  have r0 : (⟨4, 2, false, .TRN, .WRAP⟩ : Fmt).Rep 1 := ⟨4, by decide, by decide, by decide +kernel⟩
  have e := Proof.LogPwl.core_shift (cn := true) (cn' := true) (f := ⟨4, 2, false, .TRN, .WRAP⟩) (f' := fl f) (by simp) (by unfold fl; simp) rfl rfl r0 hr
    (by norm_num) (Or.inl rfl) (Or.inl rfl) (k := 0) (by norm_num)
  have v : Proof.LogPwl.core true ⟨4, 2, false, .TRN, .WRAP⟩ 1 = 3 / 2048 := by decide +kernel
  have m := Proof.LogPwl.core_mono (cn := true) (f := fl f) (by unfold fl; simp) rfl hr (fl_rep (core_fit hW hf hx)) (by norm_num)
    (Or.inl rfl) (by linarith : (1 : ℚ) ≤ ep f x + 1)
  rw [e, v] at m
  unfold sr
  rw [Proof.LogPwl.ln2_val]
  push_cast at m
  linarith

theorem sr_err {f : Fmt} (hW : 1 ≤ f.W) (hf : Fits f) {x : ℚ} (hx : f.Rep x) :
    |(sr f x : ℝ) - Spec.Activations.softplus x| ≤ 1 / 190 + Spec.Activations.softplus x / 20000 := by
  have h0 := ep_nonneg f x
  have h1 := Proof.LogPwl.ln_err (f := fl f) (by unfold fl; simp) rfl (fl_rep (core_fit hW hf hx)) (by linarith : 0 < ep f x + 1)
  have h2 := ep_err hW hx (fits_exp hW hf hx).2
  have h0' : (0 : ℝ) ≤ ep f x := by exact_mod_cast h0
  unfold Spec.Activations.softplus
  unfold sr
  have hE := Real.exp_pos (x : ℝ)
  push_cast at h1 ⊢
  generalize (Proof.LogPwl.core true (fl f) (ep f x + 1) : ℝ) * (ln2 : ℝ) = r at *
  generalize (ep f x : ℝ) = p at *
  generalize Real.exp (x : ℝ) = E at *
  have hb : 0 < 1 + E := by linarith
  have ha : 0 < p + 1 := by linarith
  have hq : Real.log (p + 1) - Real.log (1 + E) = Real.log ((p + 1) / (1 + E)) := (Real.log_div ha.ne' hb.ne').symm
  obtain ⟨a1, a2⟩ := abs_le.1 h2
  have u1 : (p + 1) / (1 + E) ≤ 257 / 256 := by rw [div_le_iff₀ hb]; norm_num at a2 ⊢; linarith
  have u2 : (1 + E) / (p + 1) ≤ 256 / 255 := by rw [div_le_iff₀ ha]; norm_num at a1 ⊢; linarith
  have v1 := Real.log_le_sub_one_of_pos (div_pos ha hb)
  have v2 := Real.log_le_sub_one_of_pos (div_pos hb ha)
  have v3 : Real.log ((1 + E) / (p + 1)) = -Real.log ((p + 1) / (1 + E)) := by rw [← Real.log_inv, inv_div]
  have l1 : 0 ≤ Real.log (p + 1) := Real.log_nonneg (by linarith)
  rw [abs_of_nonneg l1] at h1
  obtain ⟨b1, b2⟩ := abs_le.1 h1
  have l2 : 0 ≤ Real.log (1 + E) := Real.log_nonneg (by linarith)
  rw [abs_le]
  constructor <;> linarith

end Proof.Softplus
