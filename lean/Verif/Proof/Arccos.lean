import Verif.Proof.Arcsin
import Mathlib.Analysis.SpecialFunctions.Trigonometric.Inverse

/-! # The loop of ac_arccos_cordic.h -/

namespace Proof.Arcsin
open Ac Model.Arcsin

variable {p : ℕ}

/-- Radians of the argument's cosine angle. -/
noncomputable def β (t : ℚ) : ℝ := Real.arccos ((|t| : ℚ) : ℝ)

theorem β_facts {t : ℚ} (ht : |t| ≤ 1) : Real.cos (β t) = ((|t| : ℚ) : ℝ) ∧ 0 ≤ β t ∧ β t ≤ Real.pi / 2 := by
  have h0 : (0 : ℝ) ≤ ((|t| : ℚ) : ℝ) := by exact_mod_cast abs_nonneg t
  have h1 : ((|t| : ℚ) : ℝ) ≤ 1 := by exact_mod_cast ht
  exact ⟨Real.cos_arccos (by linarith) h1, Real.arccos_nonneg _, Real.arccos_le_pi_div_two.2 h0⟩

theorem sg_cases (b : Bool) : sg b = 1 ∨ sg b = -1 := by cases b <;> simp [sg]

/-- What the accumulated angle means. -/
def Acc (p i : ℕ) (Θ : ℤ) (φ : ℝ) : Prop := |φ - Real.pi * (Θ / 2 ^ p)| ≤ (i - 1) * (Real.pi / 2 ^ p) + ((aeSum i : ℚ) : ℝ)

theorem Acc.step (hp : p ≤ 128) {i : ℕ} (hi : i < 130) {Θ : ℤ} {φ : ℝ} (h : Acc p i Θ φ) {σ : ℤ} (hσ : σ = 1 ∨ σ = -1) :
    Acc p (i + 1) (Θ + σ * dang p i) (φ + σ * a i) := by
  have := theta_step hp hi h hσ
  unfold Acc
  refine le_trans this (le_of_eq ?_)
  rw [show aeSum (i + 1) = aeSum i + ae i from rfl]
  push_cast; ring

theorem Acc.bound (hp : 10 ≤ p) (hp2 : p ≤ 128) {i : ℕ} (hi : i ≤ p + 2) {Θ : ℤ} {φ : ℝ} (h : Acc p i Θ φ) :
    |φ - Real.pi * (Θ / 2 ^ p)| ≤ (p + 1) * (Real.pi / 2 ^ p) + 1 / 2 ^ 116 := by
  unfold Acc at h
  have hip : (i : ℝ) ≤ p + 2 := by exact_mod_cast hi
  have := mul_le_mul_of_nonneg_right (show (i : ℝ) - 1 ≤ p + 1 by linarith) (show 0 ≤ Real.pi / 2 ^ p by have := Real.pi_pos; positivity)
  have h2 := Rat.cast_le (K := ℝ) |>.2 (aeSum_mono (show i ≤ 130 by omega))
  push_cast at h2
  linarith

theorem acc_small (hp : 10 ≤ p) : ((p : ℝ) + 1) * (Real.pi / 2 ^ p) + 1 / 2 ^ 116 ≤ 0.034 := by
  have h := lin_small hp
  have e : ((p : ℝ) + 1) * (Real.pi / 2 ^ p) = Real.pi * (4 * ((p + 1) / 2 ^ (p + 2))) := by rw [pow_add]; field_simp; norm_num
  rw [e]
  have h2 := mul_le_mul Real.pi_lt_d2.le (mul_le_mul_of_nonneg_left h (show (0 : ℝ) ≤ 4 by norm_num)) (by positivity) (by norm_num)
  have : (1 : ℝ) / 2 ^ 116 ≤ 1 / 2 ^ 20 := one_div_le_one_div_of_le (by positivity) (pow_le_pow_right₀ (by norm_num) (by norm_num))
  norm_num at this h2 ⊢
  linarith

/-- The accumulated angle fits. -/
theorem Acc.fit (hp : 10 ≤ p) (hp2 : p ≤ 128) {i : ℕ} (hi : i ≤ p + 2) {Θ : ℤ} {φ : ℝ} (h : Acc p i Θ φ) (hφ : |φ| ≤ 3.1) : |Θ| < 2 ^ p := by
  have h1 := h.bound hp hp2 hi
  have h2 := acc_small hp
  have hpi := Real.pi_gt_d4
  have hpp : (0 : ℝ) < 2 ^ p := by positivity
  have h3 : Real.pi * |(Θ : ℝ) / 2 ^ p| < Real.pi := by
    have e : Real.pi * |(Θ : ℝ) / 2 ^ p| = |Real.pi * (Θ / 2 ^ p)| := by rw [abs_mul, abs_of_pos Real.pi_pos]
    rw [e]
    have := abs_sub_abs_le_abs_sub (Real.pi * (Θ / 2 ^ p)) φ
    rw [abs_sub_comm] at this
    linarith
  have h4 : |(Θ : ℝ) / 2 ^ p| < 1 := by
    by_contra hc
    push Not at hc
    have := mul_le_mul_of_nonneg_left hc Real.pi_pos.le
    linarith
  rw [abs_div, abs_of_pos hpp, div_lt_one hpp] at h4
  exact_mod_cast h4

/-- The state of the arccosine loop before step `i`. -/
def CInv (p : ℕ) (t : ℚ) (i : ℕ) (s : St) : Prop :=
  ∃ (X Y N Θ : ℤ) (φ : ℝ), s = ⟨(dp p).val X, (dp p).val Y, (dp p).val N, (dpTheta p 2).val Θ⟩ ∧
    Vars p (Real.cos (β t)) i X Y N φ ∧ Sym p (β t) i φ ∧ |φ| ≤ 2.9 ∧ Acc p i Θ φ

theorem selCos_eq {X Y N : ℤ} (th : ℚ) : selCos ⟨(dp p).val X, (dp p).val Y, (dp p).val N, th⟩ = decide (decide (0 ≤ Y) = decide (N ≤ X)) := by
  unfold selCos
  have hz : (0 : ℚ) = (dp p).val 0 := by simp [Fmt.val]
  rw [hz]
  simp only [Fmt.val_le, Fmt.val_lt]
  rcases le_or_gt N X with c | c <;> rcases le_or_gt 0 Y with d | d <;> simp [c, d, not_le.2, not_lt.2]

theorem first_cos (hp : 10 ≤ p) (hp2 : p ≤ 128) {t : ℚ} (ht : |t| ≤ 1) :
    ∃ s, rotate p 2 0 (selCos (start p 2 t)) (start p 2 t) = some s ∧ CInv p t 1 s := by
  obtain ⟨e, n0, n1⟩ := start_eq (p := p) (g := 2) (by norm_num) ht
  obtain ⟨b1, b2, b3⟩ := β_facts ht
  rw [e, selCos_eq]
  have : decide (decide ((0 : ℤ) ≤ 0) = decide (⌊|t| * 2 ^ (p + 2)⌋ ≤ 2 ^ (p + 2))) = true := by simp [n1]
  rw [this, rotate_zero (by omega) hp2 (by norm_num) n0 n1]
  refine ⟨_, rfl, 0, _, _, _, Real.pi / 2, rfl, ⟨le_rfl, ?_, ?_⟩, ?_, ?_, ?_⟩
  · simpa using near_cos
  · rw [b1]; exact arg_one
  · unfold Sym
    have hp0 := Real.pi_pos
    have e3 : |Real.pi / 2| = Real.pi / 2 := abs_of_pos (by linarith)
    rw [Nat.sub_self, a_zero, e3, abs_of_nonneg (by linarith)]
    have := W_nonneg p
    simp; linarith
  · rw [abs_of_pos (by have := Real.pi_pos; linarith)]
    have := Real.pi_lt_d2
    linarith
  · unfold Acc
    have e2 : ((2 ^ (p - 1) : ℤ) : ℝ) / 2 ^ p = 1 / 2 := by
      push_cast
      rw [show p = p - 1 + 1 by omega, Nat.add_sub_cancel, pow_succ]; field_simp
    have h0 : aeSum 1 = 0 := by simp [aeSum, ae]
    rw [e2, h0]
    simp
    ring

theorem next_cos (hp : 10 ≤ p) (hp2 : p ≤ 128) {t : ℚ} (ht : |t| ≤ 1) {i : ℕ} (hi : i ≤ p + 1) {s : St} (h : CInv p t i s) :
    ∃ s', rotate p 2 i (selCos s) s = some s' ∧ CInv p t (i + 1) s' := by
  obtain ⟨X, Y, N, Θ, φ, rfl, hv, hs, hr, ha⟩ := h
  obtain ⟨b1, b2, b3⟩ := β_facts ht
  have i1 := hv.one
  rw [selCos_eq]
  set sel := decide (decide (0 ≤ Y) = decide (N ≤ X)) with hsel
  have hσ := sg_cases sel
  have hv' := hv.step hσ
  have hs' := hs.step hp b2 b3 hi hv hr (grow := decide (N ≤ X)) (by simp) (by simp; omega)
  have e : φ + (if decide (0 ≤ Y) = decide (N ≤ X) then a i else -a i) = φ + (sg sel : ℝ) * a i := by
    rw [hsel]
    by_cases c : decide (0 ≤ Y) = decide (N ≤ X)
    · rw [if_pos c]; simp [c, sg]
    · rw [if_neg c]; simp [c, sg]
  rw [e] at hs'
  have hr' := hs'.range hp b3 (by omega) (by omega)
  have ha' := ha.step hp2 (by omega) hσ
  have t0 : 0 ≤ Real.cos (β t) := by rw [b1]; exact_mod_cast abs_nonneg t
  obtain ⟨f1, f2, f3⟩ := hv.fit hp t0 (Real.cos_le_one _) (by omega)
  obtain ⟨g1, g2, g3⟩ := hv'.fit hp t0 (Real.cos_le_one _) (by omega)
  have g4 := ha'.fit hp hp2 (by omega) (by linarith)
  have hlt : (2 : ℤ) ^ p ≤ 2 ^ (p + 2 - 1) := pow_le_pow_right₀ (by norm_num) (by omega)
  rw [abs_lt] at g4
  exact ⟨_, rotate_eq (by omega) hp2 (by norm_num) i1 (by omega) sel f1 f2 f3 g1 g2 g3 (by linarith [g4.1]) (by linarith [g4.2]),
    _, _, _, _, _, rfl, hv', hs', hr', ha'⟩

theorem runCos_eq (hp : 10 ≤ p) (hp2 : p ≤ 128) {t : ℚ} (ht : |t| ≤ 1) : ∃ s, runCos p t = some s ∧ CInv p t (p + 2) s := by
  unfold runCos
  have key : ∀ k, k ≤ p + 1 → ∃ s, forUp (fun i s => s.bind fun s => rotate p 2 i (selCos s) s) (k + 1) (some (start p 2 t)) = some s ∧
      CInv p t (k + 1) s := by
    intro k
    induction k with
    | zero =>
      intro _
      obtain ⟨s, h1, h2⟩ := first_cos hp hp2 ht
      exact ⟨s, by simpa [forUp] using h1, h2⟩
    | succ k ih =>
      intro hk
      obtain ⟨s, h1, h2⟩ := ih (by omega)
      obtain ⟨s', h3, h4⟩ := next_cos hp hp2 ht (by omega) h2
      refine ⟨s', ?_, h4⟩
      rw [forUp, h1]; exact h3
  exact key (p + 1) le_rfl

theorem tval (p g : ℕ) (Θ : ℤ) : (dpTheta p g).val Θ = (Θ : ℚ) / 2 ^ p := by
  unfold Fmt.val
  rw [tF, zpow_neg, zpow_natCast, div_eq_mul_inv]

/-- Bound of the error, in half turns. -/
noncomputable def err (p : ℕ) : ℝ := Real.sqrt (((p : ℝ) + 1) / 2 ^ (p + 2)) + 2 / 5 * ((p + 2) ^ 2 / 2 ^ p) + 1 / 2 ^ 117

theorem half_turns {p : ℕ} (hp : 10 ≤ p) {x : ℝ} (h : |x| ≤ a (p + 1) + W p + (p + 1) * (2 * η p) + ((p + 1) * (Real.pi / 2 ^ p) + 1 / 2 ^ 116)) :
    |x / Real.pi| ≤ err p := by
  have hpi := Real.pi_pos
  have hpi2 := Real.pi_gt_three
  have hpp : (0 : ℝ) < 2 ^ p := by positivity
  rw [abs_div, abs_of_pos hpi, div_le_iff₀ hpi]
  refine le_trans h ?_
  have ha := a_le (p + 1)
  have e1 : (2 : ℝ) / 2 ^ (p + 1) = 1 / 2 ^ p := by rw [pow_succ]; field_simp
  have e2 : ((p : ℝ) + 1) * (2 * η p) = Real.pi * (3 / 10 * ((p + 1) ^ 2 / 2 ^ p)) := by unfold η; rw [pow_add]; field_simp; norm_num
  have e3 : ((p : ℝ) + 1) * (Real.pi / 2 ^ p) = Real.pi * ((p + 1) / 2 ^ p) := by ring
  have e4 : (1 : ℝ) / 2 ^ p ≤ Real.pi * (1 / 3 * (1 / 2 ^ p)) := by
    have : 0 < (1 : ℝ) / 2 ^ p := by positivity
    nlinarith
  have e5 : (1 : ℝ) / 2 ^ 116 ≤ Real.pi * (1 / 2 ^ 117) := by
    have e : (1 : ℝ) / 2 ^ 116 = 2 * (1 / 2 ^ 117) := by norm_num
    rw [e]
    exact mul_le_mul_of_nonneg_right (by linarith) (by positivity)
  have hp0 : (10 : ℝ) ≤ p := by exact_mod_cast hp
  have e6 : 3 / 10 * (((p : ℝ) + 1) ^ 2 / 2 ^ p) + (p + 1) / 2 ^ p + 1 / 3 * (1 / 2 ^ p) ≤ 2 / 5 * ((p + 2) ^ 2 / 2 ^ p) := by
    rw [show 3 / 10 * (((p : ℝ) + 1) ^ 2 / 2 ^ p) + (p + 1) / 2 ^ p + 1 / 3 * (1 / 2 ^ p) =
      (3 / 10 * ((p : ℝ) + 1) ^ 2 + (p + 1) + 1 / 3) / 2 ^ p by ring, show 2 / 5 * (((p : ℝ) + 2) ^ 2 / 2 ^ p) = (2 / 5 * (p + 2) ^ 2) / 2 ^ p by ring]
    refine div_le_div_of_nonneg_right ?_ hpp.le
    nlinarith
  have e7 := mul_le_mul_of_nonneg_left e6 hpi.le
  unfold W err
  rw [e2, e3]
  rw [e1] at ha
  linarith

/-- The half turns left by the loop. -/
theorem CInv.out (hp : 10 ≤ p) (hp2 : p ≤ 128) {t : ℚ} {s : St} (h : CInv p t (p + 2) s) :
    ∃ Θ : ℤ, s.theta = (dpTheta p 2).val Θ ∧ |Θ| < 2 ^ p ∧ |(|(Θ : ℝ) / 2 ^ p| - β t / Real.pi)| ≤ err p := by
  obtain ⟨X, Y, N, Θ, φ, rfl, hv, hs, hr, ha⟩ := h
  refine ⟨Θ, rfl, ha.fit hp hp2 le_rfl (by linarith), ?_⟩
  have h1 := ha.bound hp hp2 le_rfl
  unfold Sym at hs
  have hpi := Real.pi_pos
  have e : |(Θ : ℝ) / 2 ^ p| - β t / Real.pi = (Real.pi * |(Θ : ℝ) / 2 ^ p| - β t) / Real.pi := by field_simp
  rw [e]
  refine half_turns hp ?_
  have e2 : Real.pi * |(Θ : ℝ) / 2 ^ p| = |Real.pi * (Θ / 2 ^ p)| := by rw [abs_mul, abs_of_pos hpi]
  rw [e2]
  have h2 := abs_abs_sub_abs_le φ (Real.pi * (Θ / 2 ^ p))
  rw [show p + 2 - 1 = p + 1 by omega] at hs
  push_cast at hs
  have h3 := abs_sub_le |Real.pi * ((Θ : ℝ) / 2 ^ p)| |φ| (β t)
  rw [abs_sub_comm |Real.pi * ((Θ : ℝ) / 2 ^ p)| |φ|] at h3
  have e3 : ((p : ℝ) + 2 - 1) = p + 1 := by ring
  rw [e3] at hs
  linarith

/-- What is done after the loop. -/
theorem cos_out {o : Fmt} {t : ℚ} {s : St} (hs : runCos (pF o) t = some s) {Θ : ℤ} (h1 : s.theta = (dpTheta (pF o) 2).val Θ)
    (h2 : |Θ| < 2 ^ pF o) {e : ℝ} (h3 : |(|(Θ : ℝ) / 2 ^ pF o| - β t / Real.pi)| ≤ e) :
    ∃ r : ℚ, arccos o t = some (o.cvt r) ∧ 0 ≤ r ∧ r ≤ 1 ∧ |(r : ℝ) - Real.arccos (t : ℝ) / Real.pi| ≤ e := by
  have hpi := Real.pi_pos
  have hpp : (0 : ℚ) < 2 ^ pF o := by positivity
  have hlt : (2 : ℤ) ^ pF o < 2 ^ (pF o + 2 - 1) := pow_lt_pow_right₀ (by norm_num) (by omega)
  have h20 : (0 : ℤ) < 2 ^ pF o := by positivity
  have habs : (if s.theta < 0 then (dpTheta (pF o) 2).cvt (-s.theta) else s.theta) = |(Θ : ℚ) / 2 ^ pF o| := by
    rw [h1]
    have hneg : -(dpTheta (pF o) 2).val Θ = (dpTheta (pF o) 2).val (-Θ) := by rw [tval, tval]; push_cast; ring
    have hfit : (dpTheta (pF o) 2).cvt ((dpTheta (pF o) 2).val (-Θ)) = (dpTheta (pF o) 2).val (-Θ) := by
      rw [abs_lt] at h2
      exact tfit (by norm_num) (by linarith [h2.2]) (by linarith [h2.1])
    rw [hneg, hfit, ← hneg]
    rw [tval]
    split_ifs with c
    · rw [abs_of_neg c]
    · rw [abs_of_nonneg (not_lt.1 c)]
  have hone : (dpTheta (pF o) 2).cvt (1 : ℚ) = 1 := by
    have : (1 : ℚ) = (dpTheta (pF o) 2).val (2 ^ pF o) := by rw [tval]; push_cast; rw [div_self hpp.ne']
    rw [this]
    exact tfit (by norm_num) (by linarith) hlt
  have hle : |(Θ : ℚ) / 2 ^ pF o| ≤ 1 := by
    rw [abs_div, abs_of_pos hpp, div_le_one hpp]
    have : ((|Θ| : ℤ) : ℚ) ≤ ((2 ^ pF o : ℤ) : ℚ) := by exact_mod_cast h2.le
    push_cast at this
    exact this
  have h0 := abs_nonneg ((Θ : ℚ) / 2 ^ pF o)
  unfold arccos
  simp only []
  rw [hs, Option.map_some, habs, hone]
  have h3' : |((|(Θ : ℚ) / 2 ^ pF o| : ℚ) : ℝ) - β t / Real.pi| ≤ e := by push_cast; exact h3
  by_cases c : t < 0
  · refine ⟨1 - |(Θ : ℚ) / 2 ^ pF o|, by rw [if_pos c], by linarith, by linarith, ?_⟩
    have e1 : Real.arccos (t : ℝ) = Real.pi - β t := by
      unfold β
      rw [abs_of_neg c, ← Real.arccos_neg]; push_cast; rw [neg_neg]
    have e2 : ((1 - |(Θ : ℚ) / 2 ^ pF o| : ℚ) : ℝ) - Real.arccos (t : ℝ) / Real.pi = -(((|(Θ : ℚ) / 2 ^ pF o| : ℚ) : ℝ) - β t / Real.pi) := by
      rw [e1, sub_div, div_self hpi.ne', Rat.cast_sub, Rat.cast_one]; ring
    rw [e2, abs_neg]; exact h3'
  · refine ⟨|(Θ : ℚ) / 2 ^ pF o|, by rw [if_neg c], h0, hle, ?_⟩
    have e1 : Real.arccos (t : ℝ) = β t := by unfold β; rw [abs_of_nonneg (not_lt.1 c)]
    rw [e1]; exact h3'

theorem cos_main {o : Fmt} (hp : 10 ≤ pF o) (hp2 : pF o ≤ 128) {t : ℚ} (ht : |t| ≤ 1) :
    ∃ r : ℚ, arccos o t = some (o.cvt r) ∧ 0 ≤ r ∧ r ≤ 1 ∧ |(r : ℝ) - Real.arccos (t : ℝ) / Real.pi| ≤ err (pF o) := by
  obtain ⟨s, hs, hi⟩ := runCos_eq hp hp2 ht
  obtain ⟨Θ, h1, h2, h3⟩ := hi.out hp hp2
  exact cos_out hs h1 h2 h3

end Proof.Arcsin
