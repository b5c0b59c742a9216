import Verif.Proof.StdAddTree

/-! # Accuracy of the IEEE adder tree -/

namespace Proof.StdAddTree
open Ac Model.StdAddTree

theorem mu_lt (nosub : Bool) (M E d : ℕ) : mu nosub M E d < 2 ^ (M + 1) := by
  have h := Nat.mod_lt d (show 0 < 2 ^ M by positivity)
  have h2 := Nat.mod_lt (2 * (d % 2 ^ M)) (show 0 < 2 ^ (M + 1) by positivity)
  have hp : 2 ^ (M + 1) = 2 * 2 ^ M := by ring
  unfold mu
  simp only
  split_ifs <;> simp_all <;> omega

theorem stickyMask_eq {M X d : ℕ} (hX : 1 ≤ X) :
    stickyMask M X d = 2 ^ (min d (M + 1 + X) - (X - 1)) - 1 := by
  unfold stickyMask
  simp only
  rw [show M + 2 + (X - 1) = M + 1 + X by omega]
  have key : 2 ^ (M + 1 + X) - 1 - (2 ^ (M + 1 + X) - 1) * 2 ^ d % 2 ^ (M + 1 + X) = 2 ^ min d (M + 1 + X) - 1 := by
    set w := M + 1 + X
    rcases le_total d w with h | h
    · rw [min_eq_left h]
      have e : (2 ^ w - 1) * 2 ^ d = (2 ^ w - 2 ^ d) + 2 ^ w * (2 ^ d - 1) := by
        have h1 : 2 ^ d ≤ 2 ^ w := Nat.pow_le_pow_right (by norm_num) h
        have h2 : 1 ≤ 2 ^ d := Nat.one_le_two_pow
        zify [h1, h2, Nat.one_le_two_pow (n := w)]
        ring
      rw [e, Nat.add_mul_mod_self_left, Nat.mod_eq_of_lt]
      · have h1 : 2 ^ d ≤ 2 ^ w := Nat.pow_le_pow_right (by norm_num) h
        have h2 : 1 ≤ 2 ^ d := Nat.one_le_two_pow
        omega
      · have h2 : 0 < 2 ^ d := by positivity
        have h3 : 0 < 2 ^ w := by positivity
        omega
    · rw [min_eq_right h]
      have : (2 ^ w - 1) * 2 ^ d % 2 ^ w = 0 := by
        apply Nat.mod_eq_zero_of_dvd
        exact Dvd.dvd.mul_left (pow_dvd_pow 2 h) _
      omega
  rw [key]
  set k := min d (M + 1 + X)
  rcases le_total (X - 1) k with h | h
  · conv_lhs => rw [show k = (k - (X - 1)) + (X - 1) by omega, pow_add]
    have h1 : 0 < 2 ^ (X - 1) := by positivity
    have h2 : 1 ≤ 2 ^ (k - (X - 1)) := Nat.one_le_two_pow
    have e : 2 ^ (k - (X - 1)) * 2 ^ (X - 1) - 1 = (2 ^ (X - 1) - 1) + 2 ^ (X - 1) * (2 ^ (k - (X - 1)) - 1) := by
      have h3 : 1 ≤ 2 ^ (k - (X - 1)) * 2 ^ (X - 1) := Nat.mul_pos h2 h1
      zify [h2, h3, show 1 ≤ 2 ^ (X - 1) from h1]
      ring
    rw [e, Nat.add_mul_div_left _ _ h1, Nat.div_eq_of_lt (by omega), zero_add]
  · rw [show k - (X - 1) = 0 by omega]
    have h1 : 2 ^ k ≤ 2 ^ (X - 1) := Nat.pow_le_pow_right (by norm_num) h
    have h2 : 0 < 2 ^ k := by positivity
    rw [Nat.div_eq_of_lt (by omega)]
    norm_num

/-- The aligned operand: the quotient with its last bit or-ed with everything below it. -/
theorem addOp_spec {M X m d : ℕ} (hX : 1 ≤ X) (hm : m < 2 ^ (M + 1)) :
    addOp M X m d * 2 ^ d ≤ m * 2 ^ X + 2 ^ d ∧ m * 2 ^ X ≤ addOp M X m d * 2 ^ d + 2 ^ d ∧ addOp M X m d ≤ m * 2 ^ X ∧
    (2 ^ d ∣ m * 2 ^ X → addOp M X m d * 2 ^ d = m * 2 ^ X) := by
  have hand : (m &&& stickyMask M X d) = m % 2 ^ (d - (X - 1)) := by
    rw [stickyMask_eq hX, Nat.and_two_pow_sub_one_eq_mod]
    rcases le_total d (M + 1 + X) with h | h
    · rw [min_eq_left h]
    · rw [min_eq_right h, show M + 1 + X - (X - 1) = M + 2 by omega]
      have h1 : m < 2 ^ (M + 2) := lt_trans hm (Nat.pow_lt_pow_right (by norm_num) (by omega))
      have h2 : m < 2 ^ (d - (X - 1)) := lt_of_lt_of_le h1 (Nat.pow_le_pow_right (by norm_num) (by omega))
      rw [Nat.mod_eq_of_lt h1, Nat.mod_eq_of_lt h2]
  -- sticky = 0 iff the quotient is even and exact
  have hs : m % 2 ^ (d - (X - 1)) = 0 ↔ 2 ^ (d + 1) ∣ m * 2 ^ X := by
    rw [← Nat.dvd_iff_mod_eq_zero]
    rcases le_total (X - 1) d with h | h
    · rw [show d + 1 = (d - (X - 1)) + X by omega, pow_add]
      exact (Nat.mul_dvd_mul_iff_right (by positivity)).symm
    · rw [show d - (X - 1) = 0 by omega]
      simp only [pow_zero, one_dvd, true_iff]
      exact Dvd.dvd.mul_left (pow_dvd_pow 2 (by omega)) _
  have hd2 : 2 ^ (d + 1) = 2 * 2 ^ d := by ring
  have hp : 0 < 2 ^ d := by positivity
  unfold addOp
  simp only
  rw [hand]
  set a := m * 2 ^ X / 2 ^ d with ha
  have h1 : a * 2 ^ d ≤ m * 2 ^ X := Nat.div_mul_le_self _ _
  have h2 : m * 2 ^ X < a * 2 ^ d + 2 ^ d := by
    have := Nat.lt_div_mul_add (a := m * 2 ^ X) hp
    exact this
  by_cases h0 : m % 2 ^ (d - (X - 1)) = 0
  · obtain ⟨c, hc⟩ := hs.1 h0
    have hac : a = 2 * c := by
      rw [ha, hc, hd2, show 2 * 2 ^ d * c = 2 ^ d * (2 * c) by ring, Nat.mul_div_cancel_left _ hp]
    have e : a - a % 2 + (if m % 2 ^ (d - (X - 1)) ≠ 0 then 1 else 0) = a := by
      rw [if_neg (by simpa using h0)]; omega
    rw [e]
    have hex : a * 2 ^ d = m * 2 ^ X := by rw [hc, hac, hd2]; ring
    refine ⟨by omega, by omega, ?_, fun _ => hex⟩
    rw [← hex]; exact Nat.le_mul_of_pos_right _ hp
  · rw [if_pos (by simpa using h0)]
    have hm1 : 1 ≤ m := by
      rcases Nat.eq_zero_or_pos m with h | h
      · exact absurd (by simp [h]) h0
      · exact h
    have hd1 : 1 ≤ d := by
      by_contra hd
      apply h0
      rw [show d - (X - 1) = 0 by omega]
      simp [Nat.mod_one]
    have hnd : 2 ^ d ∣ m * 2 ^ X → a % 2 = 1 ∧ a * 2 ^ d = m * 2 ^ X := by
      rintro ⟨c, hc⟩
      have hac : a = c := by rw [ha, hc, Nat.mul_div_cancel_left _ hp]
      refine ⟨?_, by rw [hac, hc, mul_comm]⟩
      rcases Nat.mod_two_eq_zero_or_one a with h | h
      · exfalso
        apply h0
        rw [hs]
        refine ⟨c / 2, ?_⟩
        rw [hc, hd2, mul_comm 2 (2 ^ d), mul_assoc]
        congr 1
        omega
      · exact h
    have hle : a + 1 ≤ m * 2 ^ X := by
      have : 2 ≤ 2 ^ d := by
        calc 2 = 2 ^ 1 := rfl
          _ ≤ 2 ^ d := Nat.pow_le_pow_right (by norm_num) hd1
      have hx2 : 2 ≤ m * 2 ^ X := by
        calc 2 = 1 * 2 ^ 1 := rfl
          _ ≤ m * 2 ^ X := Nat.mul_le_mul hm1 (Nat.pow_le_pow_right (by norm_num) hX)
      have h3 : a * 2 ≤ m * 2 ^ X := le_trans (Nat.mul_le_mul_left a this) h1
      omega
    rcases Nat.mod_two_eq_zero_or_one a with ha2 | ha2
    · rw [ha2, Nat.sub_zero]
      refine ⟨?_, ?_, hle, fun h => absurd (hnd h).1 (by omega)⟩
      · rw [Nat.add_mul, one_mul]; omega
      · rw [Nat.add_mul, one_mul]; omega
    · have key : ∀ b : ℕ, b % 2 = 1 → b - 1 + 1 = b := by intro b hb; omega
      have := key a ha2
      rw [ha2, this]
      exact ⟨by omega, by omega, by omega, fun h => (hnd h).2⟩

theorem nbits_lt (n : ℕ) : n < 2 ^ nbits n := by
  unfold nbits
  split_ifs with h
  · rw [h]; norm_num
  · exact Nat.lt_log2_self

theorem le_two_pow_logN {N : ℕ} (hN : 1 ≤ N) : N ≤ 2 ^ logN N := by
  have := nbits_lt (N - 1)
  unfold logN; omega

theorem logN_pos (N : ℕ) : 1 ≤ logN N := by
  unfold logN nbits; split_ifs <;> omega

/-- With the saturated difference: still within one unit. -/
theorem addOp_sat {M X m d : ℕ} (hX : 1 ≤ X) (hm : m < 2 ^ (M + 1)) (hcap : M + 1 + X ≤ 2 ^ nbits (M + 2) - 1) :
    let a := addOp M X m (min d (2 ^ nbits (M + 2) - 1))
    a * 2 ^ d ≤ m * 2 ^ X + 2 ^ d ∧ m * 2 ^ X ≤ a * 2 ^ d + 2 ^ d ∧ a ≤ m * 2 ^ X := by
  set cap := 2 ^ nbits (M + 2) - 1 with hcapdef
  simp only
  rcases le_total d cap with h | h
  · rw [min_eq_left h]
    obtain ⟨h1, h2, h3, -⟩ := addOp_spec (d := d) hX hm
    exact ⟨h1, h2, h3⟩
  · rw [min_eq_right h]
    obtain ⟨h1, h2, h3, -⟩ := addOp_spec (d := cap) hX hm
    have hlt : m * 2 ^ X < 2 ^ cap := by
      calc m * 2 ^ X < 2 ^ (M + 1) * 2 ^ X := Nat.mul_lt_mul_of_pos_right hm (by positivity)
        _ = 2 ^ (M + 1 + X) := by rw [← pow_add]
        _ ≤ 2 ^ cap := Nat.pow_le_pow_right (by norm_num) hcap
    have hle : addOp M X m cap ≤ 1 := by
      by_contra hc
      have : 2 * 2 ^ cap ≤ addOp M X m cap * 2 ^ cap := Nat.mul_le_mul_right _ (by omega)
      omega
    have hd : 2 ^ cap ≤ 2 ^ d := Nat.pow_le_pow_right (by norm_num) h
    have : addOp M X m cap * 2 ^ d ≤ 2 ^ d := by
      calc addOp M X m cap * 2 ^ d ≤ 1 * 2 ^ d := Nat.mul_le_mul_right _ hle
        _ = 2 ^ d := one_mul _
    exact ⟨by omega, by omega, h3⟩

end Proof.StdAddTree
