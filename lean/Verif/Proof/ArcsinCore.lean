import Verif.Proof.ArcsinReal

/-! # The loop of the double rotation in integers -/

namespace Proof.Arcsin
open Ac

theorem a_zero : a 0 = Real.pi / 2 := by
  unfold a; rw [pow_zero, div_one, Real.arctan_one]; ring

theorem a_one : a 1 ≤ 0.9274 := by
  have := Proof.Cordic.arctan_near (x := (1 / 2 : ℝ)) (by norm_num) (by norm_num) 9
  rw [abs_le] at this
  unfold a
  rw [pow_one]
  norm_num [Finset.sum_range_succ] at this ⊢
  linarith [this.1]

theorem a_anti (i : ℕ) : a (i + 1) ≤ a i := by
  unfold a
  have : Real.arctan (1 / 2 ^ (i + 1)) ≤ Real.arctan (1 / 2 ^ i) := by
    refine Real.arctan_mono ?_
    exact one_div_le_one_div_of_le (by positivity) (pow_le_pow_right₀ (by norm_num) (by omega))
  linarith

theorem a_le_one {i : ℕ} (hi : 1 ≤ i) : a i ≤ a 1 := by
  induction i with
  | zero => omega
  | succ i ih =>
    by_cases h : i = 0
    · subst h; exact le_rfl
    · exact le_trans (a_anti i) (ih (by omega))

/-- What a wrong direction costs. -/
noncomputable def W (p : ℕ) : ℝ := Real.pi * Real.sqrt ((p + 1) / 2 ^ (p + 2))

/-- What a wrong sign costs. -/
noncomputable def η (p : ℕ) : ℝ := Real.pi / 2 * (6 / 5 * (p + 1) / 2 ^ (p + 2))

theorem W_nonneg (p : ℕ) : 0 ≤ W p := mul_nonneg Real.pi_pos.le (Real.sqrt_nonneg _)

theorem η_nonneg (p : ℕ) : 0 ≤ η p := by unfold η; have := Real.pi_pos; positivity

theorem pow_big {p : ℕ} (hp : 10 ≤ p) : (p + 1) ^ 2 * 4096 ≤ 121 * 2 ^ (p + 2) := by
  induction p, hp using Nat.le_induction with
  | base => norm_num
  | succ p hp ih =>
    rw [show p + 1 + 2 = p + 2 + 1 by ring, pow_succ 2 (p + 2)]
    nlinarith

theorem sq_small {p : ℕ} (hp : 10 ≤ p) : ((p : ℝ) + 1) ^ 2 / 2 ^ (p + 2) ≤ 121 / 4096 := by
  rw [div_le_div_iff₀ (by positivity) (by norm_num)]
  exact_mod_cast pow_big hp

theorem lin_small {p : ℕ} (hp : 10 ≤ p) : ((p : ℝ) + 1) / 2 ^ (p + 2) ≤ 11 / 4096 := by
  have h := sq_small hp
  have hp' : (11 : ℝ) ≤ (p : ℝ) + 1 := by have : (10 : ℝ) ≤ p := by exact_mod_cast hp
                                          linarith
  have e : ((p : ℝ) + 1) ^ 2 / 2 ^ (p + 2) = ((p : ℝ) + 1) * (((p : ℝ) + 1) / 2 ^ (p + 2)) := by ring
  rw [e] at h
  have hq : 0 ≤ ((p : ℝ) + 1) / 2 ^ (p + 2) := by positivity
  nlinarith

theorem W_small {p : ℕ} (hp : 10 ≤ p) : W p ≤ 0.164 := by
  unfold W
  have h : Real.sqrt (((p : ℝ) + 1) / 2 ^ (p + 2)) ≤ 0.052 := by
    rw [Real.sqrt_le_left (by norm_num)]
    exact le_trans (lin_small hp) (by norm_num)
  have hpi := Real.pi_lt_d2
  have h0 := Real.pi_pos
  have := mul_le_mul hpi.le h (Real.sqrt_nonneg _) (by norm_num)
  linarith

theorem Z_small {p : ℕ} (hp : 10 ≤ p) : ((p : ℝ) + 1) * (2 * η p) ≤ 0.112 := by
  have h := sq_small hp
  have e : ((p : ℝ) + 1) * (2 * η p) = Real.pi * (6 / 5 * (((p : ℝ) + 1) ^ 2 / 2 ^ (p + 2))) := by unfold η; ring
  rw [e]
  have hpi := Real.pi_lt_d2
  have h0 := Real.pi_pos
  have := mul_le_mul hpi.le (mul_le_mul_of_nonneg_left h (show (0 : ℝ) ≤ 6 / 5 by norm_num)) (by positivity) (by norm_num)
  linarith

/-- The variables before step `i`: `C` and `D` are cosine and sine of the angle `φ`, `N` is the argument `t`. -/
structure Vars (p : ℕ) (t : ℝ) (i : ℕ) (C D N : ℤ) (φ : ℝ) : Prop where
  one : 1 ≤ i
  near : Near (p + 2) i C D φ ((i - 1) * (6 / 5))
  arg : |(N : ℝ) - S i * (t * 2 ^ (p + 2))| ≤ S i * (1 + (i - 1) * (2 / 5))

theorem Vars.step {p : ℕ} {t : ℝ} {i : ℕ} {C D N : ℤ} {φ : ℝ} (h : Vars p t i C D N φ) {σ : ℤ} (hσ : σ = 1 ∨ σ = -1) :
    Vars p t (i + 1) (C - C / 2 ^ (2 * i) - σ * (D / 2 ^ (i - 1))) (D - D / 2 ^ (2 * i) + σ * (C / 2 ^ (i - 1))) (N + N / 2 ^ (2 * i))
      (φ + σ * a i) := by
  refine ⟨by omega, ?_, ?_⟩
  · have := near_step h.one h.near hσ
    rwa [show ((i : ℝ) - 1) * (6 / 5) + 6 / 5 = (((i + 1 : ℕ) : ℝ) - 1) * (6 / 5) by push_cast; ring] at this
  · have := tn_step h.one h.arg
    rwa [show 1 + ((i : ℝ) - 1) * (2 / 5) + 2 / 5 = 1 + (((i + 1 : ℕ) : ℝ) - 1) * (2 / 5) by push_cast; ring] at this

/-- What comparing the cosine with the argument tells. -/
theorem Vars.cmp {p : ℕ} {t : ℝ} {i : ℕ} {C D N : ℤ} {φ : ℝ} (h : Vars p t i C D N φ) (hi : i ≤ p + 1) :
    (N ≤ C → t - (p + 1) / 2 ^ (p + 1) ≤ Real.cos φ) ∧ (C ≤ N → Real.cos φ ≤ t + (p + 1) / 2 ^ (p + 1)) := by
  have h1 := h.near.cos
  have h2 := h.arg
  have hS := S_pos i
  have hip : (i : ℝ) ≤ p + 1 := by exact_mod_cast hi
  have hp : (0 : ℝ) < 2 ^ (p + 2) := by positivity
  have e : ((p : ℝ) + 1) / 2 ^ (p + 1) = (2 * (p + 1)) / 2 ^ (p + 2) := by rw [pow_succ 2 (p + 1)]; field_simp
  rw [abs_le] at h1 h2
  have key : ∀ x y : ℝ, S i * x ≤ S i * y → x ≤ y := fun x y h => le_of_mul_le_mul_left h hS
  constructor
  · intro hc
    have hc' : (N : ℝ) ≤ C := by exact_mod_cast hc
    have := key (t * 2 ^ (p + 2) - (1 + (i - 1) * (2 / 5)) - (i - 1) * (6 / 5)) (2 ^ (p + 2) * Real.cos φ) (by linarith [h1.2, h2.1])
    rw [e, sub_le_iff_le_add, ← sub_le_iff_le_add', le_div_iff₀ hp]
    have hp0 : (0 : ℝ) ≤ p := Nat.cast_nonneg _
    linarith
  · intro hc
    have hc' : (C : ℝ) ≤ N := by exact_mod_cast hc
    have := key (2 ^ (p + 2) * Real.cos φ) (t * 2 ^ (p + 2) + (1 + (i - 1) * (2 / 5)) + (i - 1) * (6 / 5)) (by linarith [h1.1, h2.2])
    rw [e, ← sub_le_iff_le_add', le_div_iff₀ hp]
    have hp0 : (0 : ℝ) ≤ p := Nat.cast_nonneg _
    linarith

/-- The same for angles. -/
theorem Vars.angle {p : ℕ} {β : ℝ} {i : ℕ} {C D N : ℤ} {φ : ℝ} (h : Vars p (Real.cos β) i C D N φ) (hi : i ≤ p + 1)
    (h0 : 0 ≤ β) (h1 : β ≤ Real.pi) (hφ : |φ| ≤ Real.pi) : (N ≤ C → |φ| ≤ β + W p) ∧ (C ≤ N → β ≤ |φ| + W p) := by
  have e : ((p : ℝ) + 1) / 2 ^ (p + 1) / 2 = (p + 1) / 2 ^ (p + 2) := by rw [pow_succ 2 (p + 1)]; field_simp
  have hε : (0 : ℝ) ≤ ((p : ℝ) + 1) / 2 ^ (p + 1) := by positivity
  unfold W
  rw [← e]
  obtain ⟨c1, c2⟩ := h.cmp hi
  rw [← Real.cos_abs φ] at c1 c2
  exact ⟨fun g => cos_gap h0 h1 (abs_nonneg φ) hφ hε (c1 g), fun g => cos_gap (abs_nonneg φ) hφ h0 h1 hε (by linarith [c2 g])⟩

/-- What the sign of the sine tells. -/
theorem Vars.sign' {p : ℕ} (hp : 10 ≤ p) {t : ℝ} {i : ℕ} {C D N : ℤ} {φ : ℝ} (h : Vars p t i C D N φ) (hi : i ≤ p + 2) (hφ : |φ| ≤ 2.9) :
    (0 ≤ D → -(Real.pi / 2 * (6 / 5 * (i - 1) / 2 ^ (p + 2))) ≤ φ) ∧ (D ≤ 0 → φ ≤ Real.pi / 2 * (6 / 5 * (i - 1) / 2 ^ (p + 2))) := by
  have hi1 : (1 : ℝ) ≤ i := by exact_mod_cast h.one
  have hη : 0 ≤ Real.pi / 2 * (6 / 5 * ((i : ℝ) - 1) / 2 ^ (p + 2)) := by
    have := Real.pi_pos
    have : (0 : ℝ) ≤ i - 1 := by linarith
    positivity
  have h1 := h.near.sin
  have hS := S_pos i
  have hip : (i : ℝ) ≤ p + 2 := by exact_mod_cast hi
  have h2p : (0 : ℝ) < 2 ^ (p + 2) := by positivity
  have hlin := lin_small hp
  have hpi := Real.pi_gt_d2
  have hpi0 := Real.pi_pos
  have hpi2 := Real.pi_lt_d2
  have small : ∀ x : ℝ, 0 ≤ x → x ≤ 2.9 → Real.sin x * 2 ^ (p + 2) ≤ (i - 1) * (6 / 5) → x ≤ Real.pi / 2 * (6 / 5 * (i - 1) / 2 ^ (p + 2)) := by
    intro x hx hx2 hs
    have hs2 : Real.sin x ≤ 6 / 5 * (i - 1) / 2 ^ (p + 2) := by
      rw [le_div_iff₀ h2p]; linarith
    have hsm : 6 / 5 * ((i : ℝ) - 1) / 2 ^ (p + 2) ≤ 0.004 := by
      have : 6 / 5 * ((i : ℝ) - 1) / 2 ^ (p + 2) ≤ 6 / 5 * ((p : ℝ) + 1) / 2 ^ (p + 2) :=
        div_le_div_of_nonneg_right (by linarith) h2p.le
      rw [mul_div_assoc _ ((p : ℝ) + 1)] at this; linarith
    rcases le_total x (Real.pi / 2) with hle | hge
    · have := Real.mul_le_sin hx hle
      have e : x = Real.pi / 2 * (2 / Real.pi * x) := by field_simp
      rw [e]
      exact mul_le_mul_of_nonneg_left (le_trans this hs2) (by linarith)
    · exfalso
      have := Real.mul_le_sin (x := Real.pi - x) (by linarith) (by linarith)
      rw [Real.sin_pi_sub] at this
      have h3 : (0.1 : ℝ) ≤ 2 / Real.pi * (Real.pi - x) := by
        rw [div_mul_eq_mul_div, le_div_iff₀ hpi0]; linarith
      linarith
  rw [abs_le] at h1
  obtain ⟨p1, p2⟩ := abs_le.1 hφ
  constructor
  · intro hD
    have hD' : (0 : ℝ) ≤ D := by exact_mod_cast hD
    by_contra hc
    push Not at hc
    have := small (-φ) (by linarith) (by linarith) (by
      rw [Real.sin_neg]
      have : S i * (-Real.sin φ * 2 ^ (p + 2)) ≤ S i * ((i - 1) * (6 / 5)) := by linarith [h1.1, h1.2]
      exact le_of_mul_le_mul_left this hS)
    linarith
  · intro hD
    have hD' : (D : ℝ) ≤ 0 := by exact_mod_cast hD
    by_contra hc
    push Not at hc
    have := small φ (by linarith) (by linarith) (by
      have : S i * (Real.sin φ * 2 ^ (p + 2)) ≤ S i * ((i - 1) * (6 / 5)) := by linarith [h1.1, h1.2]
      exact le_of_mul_le_mul_left this hS)
    linarith

theorem Vars.sign {p : ℕ} (hp : 10 ≤ p) {t : ℝ} {i : ℕ} {C D N : ℤ} {φ : ℝ} (h : Vars p t i C D N φ) (hi : i ≤ p + 2) (hφ : |φ| ≤ 2.9) :
    (0 ≤ D → -η p ≤ φ) ∧ (D ≤ 0 → φ ≤ η p) := by
  obtain ⟨h1, h2⟩ := h.sign' hp hi hφ
  have hip : (i : ℝ) ≤ p + 2 := by exact_mod_cast hi
  have hle : Real.pi / 2 * (6 / 5 * ((i : ℝ) - 1) / 2 ^ (p + 2)) ≤ η p := by
    unfold η
    refine mul_le_mul_of_nonneg_left (div_le_div_of_nonneg_right (by linarith) (by positivity)) (by have := Real.pi_pos; linarith)
  exact ⟨fun g => by linarith [h1 g], fun g => le_trans (h2 g) hle⟩

/-- The variables fit into their types. -/
theorem Vars.fit {p : ℕ} (hp : 10 ≤ p) {t : ℝ} (t0 : 0 ≤ t) (t1 : t ≤ 1) {i : ℕ} {C D N : ℤ} {φ : ℝ} (h : Vars p t i C D N φ) (hi : i ≤ p + 2) :
    |C| < 2 ^ (p + 4) ∧ |D| < 2 ^ (p + 4) ∧ |N| < 2 ^ (p + 4) := by
  have hlin := lin_small hp
  have h2p : (0 : ℝ) < 2 ^ (p + 2) := by positivity
  rw [div_le_iff₀ h2p] at hlin
  have hip : (i : ℝ) ≤ p + 2 := by exact_mod_cast hi
  have hp0 : (10 : ℝ) ≤ p := by exact_mod_cast hp
  have hS := S_pos i
  have hS2 := S_le i
  have back : ∀ Z : ℤ, |(Z : ℝ)| < 4 * 2 ^ (p + 2) → |Z| < 2 ^ (p + 4) := by
    intro Z hZ
    have : ((|Z| : ℤ) : ℝ) < ((2 ^ (p + 4) : ℤ) : ℝ) := by
      push_cast
      rw [show (2 : ℝ) ^ (p + 4) = 4 * 2 ^ (p + 2) by rw [pow_add, pow_add]; ring]
      exact hZ
    exact_mod_cast this
  have key : ∀ z c e : ℝ, |z - S i * (2 ^ (p + 2) * c)| ≤ S i * e → |c| ≤ 1 → e ≤ 1 / 4 * 2 ^ (p + 2) → |z| < 4 * 2 ^ (p + 2) := by
    intro z c e h hc he
    have hb : |S i * (2 ^ (p + 2) * c)| ≤ S i * 2 ^ (p + 2) := by
      rw [abs_mul, abs_mul, abs_of_pos hS, abs_of_pos h2p]
      exact mul_le_mul_of_nonneg_left (mul_le_of_le_one_right h2p.le hc) hS.le
    have h3 : |z| ≤ S i * (2 ^ (p + 2) + e) := by
      have := abs_add_le (z - S i * (2 ^ (p + 2) * c)) (S i * (2 ^ (p + 2) * c))
      rw [sub_add_cancel] at this
      linarith
    have h4 : S i * (2 ^ (p + 2) + e) ≤ S i * (5 / 4 * 2 ^ (p + 2)) := mul_le_mul_of_nonneg_left (by linarith) hS.le
    have h5 : S i * (5 / 4 * 2 ^ (p + 2)) ≤ 30 / 11 * (5 / 4 * 2 ^ (p + 2)) := mul_le_mul_of_nonneg_right hS2 (by linarith)
    linarith
  refine ⟨back _ (key _ _ _ h.near.cos (Real.abs_cos_le_one φ) (by linarith)), back _ (key _ _ _ h.near.sin (Real.abs_sin_le_one φ) (by linarith)),
    back _ (key _ t (1 + (i - 1) * (2 / 5)) ?_ (by rw [abs_of_nonneg t0]; exact t1) ?_)⟩
  · have := h.arg
    rwa [mul_comm t] at this
  · linarith

/-- The angle is near `β` or near `-β`. -/
def Sym (p : ℕ) (β : ℝ) (i : ℕ) (φ : ℝ) : Prop := |(|φ| - β)| ≤ a (i - 1) + W p + (i - 1) * (2 * η p)

theorem Sym.range {p : ℕ} (hp : 10 ≤ p) {β : ℝ} (h1 : β ≤ Real.pi / 2) {i : ℕ} (hi : 2 ≤ i) (hi2 : i ≤ p + 2) {φ : ℝ} (h : Sym p β i φ) :
    |φ| ≤ 2.9 := by
  unfold Sym at h
  have a1 := a_one
  have a2 := a_le_one (show 1 ≤ i - 1 by omega)
  have w := W_small hp
  have z := Z_small hp
  have hη := η_nonneg p
  have hip : (i : ℝ) ≤ p + 2 := by exact_mod_cast hi2
  have z2 : ((i : ℝ) - 1) * (2 * η p) ≤ (p + 1) * (2 * η p) := mul_le_mul_of_nonneg_right (by linarith) (by linarith)
  have hpi := Real.pi_lt_d2
  rw [abs_le] at h
  linarith [h.2]

theorem Sym.step {p : ℕ} (hp : 10 ≤ p) {β : ℝ} (h0 : 0 ≤ β) (h1 : β ≤ Real.pi / 2) {i : ℕ} (hi : i ≤ p + 1) {C D N : ℤ} {φ : ℝ}
    (hv : Vars p (Real.cos β) i C D N φ) (h : Sym p β i φ) (hr : |φ| ≤ 2.9) {grow : Bool}
    (hg : grow = true → N ≤ C) (hs : grow = false → C ≤ N) :
    Sym p β (i + 1) (φ + (if decide (0 ≤ D) = grow then a i else -a i)) := by
  have hpi := Real.pi_gt_d2
  have hv1 := hv.one
  obtain ⟨c1, c2⟩ := hv.angle hi h0 (by linarith) (by linarith)
  obtain ⟨s1, s2⟩ := hv.sign hp (by omega) hr
  unfold Sym at h ⊢
  have hah : a (i - 1) ≤ 2 * a i := by
    have := a_half (i - 1)
    rwa [Nat.sub_add_cancel hv1] at this
  have hi1 : (1 : ℝ) ≤ i := by exact_mod_cast hv1
  have hη := η_nonneg p
  have hz : 0 ≤ ((i : ℝ) - 1) * (2 * η p) := mul_nonneg (by linarith) (by linarith)
  have := angle_step (φ := φ) (β := β) (a := a i) (w := W p) (w' := W p + (i - 1) * (2 * η p)) (η := η p) (a_nonneg i) h0 hη (by linarith)
    (by linarith) (pos := decide (0 ≤ D)) (grow := grow) (fun g => c1 (hg g)) (fun g => c2 (hs g))
    ⟨fun g => s1 (by simpa using g), fun g => s2 (by simp at g; omega)⟩
  rw [Nat.add_sub_cancel]
  push_cast
  linarith

end Proof.Arcsin
