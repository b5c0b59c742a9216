import Verif.Model.Sqrt
import Mathlib.Tactic.Linarith
import Mathlib.Tactic.Ring
import Mathlib.Data.Nat.Bitwise

/-! # Invariant of the square-root digit recurrence -/

namespace Model.Sqrt
open Ac

/-- After `k` iterations, with `T` the top `2k` bits of `z0`: `r` is the floor square root of `T` and `d` the
difference `T - r²`. -/
structure Inv (RW ZW z0 k : ℕ) (s : St) : Prop where
  hmask : s.mask = 2 ^ (min (2 * k) (RW + 2)) - 1
  hz : s.z = z0 * 4 ^ k % 2 ^ ZW
  hr : s.r = Nat.sqrt (z0 * 4 ^ k / 2 ^ ZW)
  hd : s.d = z0 * 4 ^ k / 2 ^ ZW - s.r * s.r

theorem mask_step (a n : ℕ) (hn : 2 ≤ n) (_ha : a ≤ n) :
    4 * (2 ^ a - 1) % 2 ^ n + 3 = 2 ^ (min (a + 2) n) - 1 := by
  have hpa : 1 ≤ 2 ^ a := Nat.one_le_two_pow
  have e : 4 * (2 ^ a - 1) + 4 = 2 ^ (a + 2) := by rw [pow_add]; omega
  rcases le_or_gt (a + 2) n with h | h
  · rw [min_eq_left h]
    have : 2 ^ (a + 2) ≤ 2 ^ n := Nat.pow_le_pow_right (by norm_num) h
    rw [Nat.mod_eq_of_lt (by omega)]; omega
  · rw [min_eq_right h.le]
    have h4 : 4 ≤ 2 ^ n := by
      calc 4 = 2 ^ 2 := by norm_num
        _ ≤ 2 ^ n := Nat.pow_le_pow_right (by norm_num) hn
    obtain ⟨c, hc⟩ := pow_dvd_pow 2 h.le
    have hc0 : 1 ≤ c := by
      rcases Nat.eq_zero_or_pos c with h0 | h0
      · rw [h0, mul_zero] at hc; have := Nat.two_pow_pos (a + 2); omega
      · exact h0
    obtain ⟨c', rfl⟩ : ∃ c', c = c' + 1 := ⟨c - 1, by omega⟩
    have : 4 * (2 ^ a - 1) = (2 ^ n - 4) + 2 ^ n * c' := by
      rw [mul_add, mul_one] at hc; omega
    rw [this, Nat.add_mul_mod_self_left, Nat.mod_eq_of_lt (by omega)]
    omega

theorem top_succ {ZW : ℕ} (hZ : 2 ≤ ZW) (z0 k : ℕ) :
    z0 * 4 ^ (k + 1) / 2 ^ ZW = 4 * (z0 * 4 ^ k / 2 ^ ZW) + z0 * 4 ^ k % 2 ^ ZW / 2 ^ (ZW - 2) % 4 := by
  set x := z0 * 4 ^ k with hx
  have e : z0 * 4 ^ (k + 1) = 4 * x := by rw [hx]; ring
  rw [e]
  have h := Nat.div_add_mod x (2 ^ ZW)
  have e2 : 2 ^ ZW = 2 ^ (ZW - 2) * 4 := by
    rw [show (4 : ℕ) = 2 ^ 2 by norm_num, ← pow_add]; congr 1; omega
  have hp := Nat.two_pow_pos ZW
  have hp2 := Nat.two_pow_pos (ZW - 2)
  set T := x / 2 ^ ZW
  set n := x % 2 ^ ZW with hn
  have hn1 : n < 2 ^ ZW := Nat.mod_lt _ hp
  have hb : n / 2 ^ (ZW - 2) < 4 := Nat.div_lt_of_lt_mul (by omega)
  rw [Nat.mod_eq_of_lt hb]
  have : 4 * x = 4 * n + 2 ^ ZW * (4 * T) := by rw [← h]; ring
  rw [this, Nat.add_mul_div_left _ _ hp]
  have : 4 * n / 2 ^ ZW = n / 2 ^ (ZW - 2) := by
    rw [e2, mul_comm, Nat.mul_div_mul_right _ _ (by norm_num)]
  omega

theorem top_lt {ZW z0 : ℕ} (hz0 : z0 < 2 ^ ZW) (k : ℕ) : z0 * 4 ^ k / 2 ^ ZW < 4 ^ k := by
  apply Nat.div_lt_of_lt_mul
  exact Nat.mul_lt_mul_of_pos_right hz0 (by positivity)

theorem step_inv {RW ZW z0 k : ℕ} (hZ : 2 ≤ ZW) (hz0 : z0 < 2 ^ ZW) (hk : k < RW) {s : St}
    (h : Inv RW ZW z0 k s) : Inv RW ZW z0 (k + 1) (step RW ZW (ZW - 2) s) := by
  obtain ⟨hmask, hz, hr, hd⟩ := h
  have htop := top_succ hZ z0 k
  have hTlt := top_lt hz0 k
  have hTlt' := top_lt hz0 (k + 1)
  set T := z0 * 4 ^ k / 2 ^ ZW with hT
  set T' := z0 * 4 ^ (k + 1) / 2 ^ ZW with hT'
  set b := z0 * 4 ^ k % 2 ^ ZW / 2 ^ (ZW - 2) % 4 with hb
  have hb3 : b ≤ 3 := by have : b < 4 := Nat.mod_lt _ (by norm_num); omega
  set r := s.r with hrdef
  have hr1 : r * r ≤ T := by rw [hr]; exact Nat.sqrt_le T
  have hr2 : T < (r + 1) * (r + 1) := by rw [hr]; exact Nat.lt_succ_sqrt T
  have hd2r : s.d ≤ 2 * r := by
    have : (r + 1) * (r + 1) = r * r + 2 * r + 1 := by ring
    omega
  have hrk : r < 2 ^ k := by
    have : r * r < 2 ^ k * 2 ^ k := by
      calc r * r ≤ T := hr1
        _ < 4 ^ k := hTlt
        _ = 2 ^ k * 2 ^ k := by rw [← mul_pow]; norm_num
    exact lt_of_mul_self_lt_mul_self₀ (Nat.zero_le _) this
  have hkR : 2 ^ (k + 1) ≤ 2 ^ RW := Nat.pow_le_pow_right (by norm_num) hk
  have e1 : 2 ^ (k + 1) = 2 * 2 ^ k := by rw [pow_succ]; ring
  have e2 : 2 ^ (RW + 1) = 2 * 2 ^ RW := by rw [pow_succ]; ring
  have e3 : 2 ^ (RW + 2) = 4 * 2 ^ RW := by rw [pow_add]; ring
  have hr' : 2 * r % 2 ^ RW = 2 * r := Nat.mod_eq_of_lt (by omega)
  have hmask' : 4 * s.mask % 2 ^ (RW + 2) + 3 = 2 ^ (min (2 * (k + 1)) (RW + 2)) - 1 := by
    rw [hmask, mask_step _ _ (by omega) (min_le_right _ _)]
    congr 2; omega
  have hdT : s.d ≤ T := by omega
  have hd4 : 4 * s.d % 2 ^ (RW + 2) = 4 * s.d := Nat.mod_eq_of_lt (by omega)
  have h4k : 4 ^ (k + 1) = 2 ^ (2 * (k + 1)) := by rw [pow_mul]; norm_num
  have hmaskand : ∀ y, y < 4 ^ (k + 1) → y < 2 ^ (RW + 2) →
      (2 ^ (min (2 * (k + 1)) (RW + 2)) - 1) &&& y = y := by
    intro y hy1 hy2
    rw [Nat.and_comm, Nat.and_two_pow_sub_one_eq_mod, Nat.mod_eq_of_lt]
    rcases min_choice (2 * (k + 1)) (RW + 2) with h | h <;> rw [h]
    · rw [← h4k]; exact hy1
    · exact hy2
  have e4k : 4 ^ (k + 1) = 4 * 4 ^ k := by rw [pow_succ]; ring
  have hdand : (4 * s.mask % 2 ^ (RW + 2) + 3) &&& (4 * s.d % 2 ^ (RW + 2)) = 4 * s.d := by
    rw [hmask', hd4]; exact hmaskand _ (by omega) (by omega)
  have hdnew : 4 * s.d + b = T' - 4 * (r * r) := by omega
  have hzz : 4 * s.z % 2 ^ ZW = z0 * 4 ^ (k + 1) % 2 ^ ZW := by
    rw [hz, Nat.mul_mod, Nat.mod_mod, ← Nat.mul_mod]; congr 1; ring
  have ht : (4 * s.d + b + 2 ^ (RW + 2) - (2 * (2 * r % 2 ^ RW % 2 ^ (RW + 1)) % 2 ^ (RW + 1) + 1)) % 2 ^ (RW + 2)
      = if 4 * r + 1 ≤ 4 * s.d + b then 4 * s.d + b - (4 * r + 1) else 4 * s.d + b + 2 ^ (RW + 2) - (4 * r + 1) := by
    have i1 : 2 * r % 2 ^ RW % 2 ^ (RW + 1) = 2 * r := by rw [hr']; exact Nat.mod_eq_of_lt (by omega)
    have i2 : 2 * (2 * r % 2 ^ RW % 2 ^ (RW + 1)) % 2 ^ (RW + 1) = 4 * r := by
      rw [i1, Nat.mod_eq_of_lt (by omega)]; ring
    rw [i2]
    split_ifs with hc
    · have : 4 * s.d + b + 2 ^ (RW + 2) - (4 * r + 1) = (4 * s.d + b - (4 * r + 1)) + 2 ^ (RW + 2) := by omega
      rw [this, Nat.add_mod_right, Nat.mod_eq_of_lt (by omega)]
    · exact Nat.mod_eq_of_lt (by omega)
  have hT4 : T' = 4 * (r * r) + (4 * s.d + b) := by
    have : 4 * (r * r) ≤ T' := by omega
    omega
  by_cases hc : 4 * r + 1 ≤ 4 * s.d + b
  · have hbit : (4 * s.d + b - (4 * r + 1)) / 2 ^ (RW + 1) % 2 = 0 := by
      rw [Nat.div_eq_of_lt (by omega)]
    have hsq : 2 * r + 1 = Nat.sqrt T' := by
      rw [Nat.eq_sqrt]
      have i1 : (2 * r + 1) * (2 * r + 1) = 4 * (r * r) + (4 * r + 1) := by ring
      have i2 : (2 * r + 1 + 1) * (2 * r + 1 + 1) = 4 * (r * r) + (8 * r + 4) := by ring
      rw [i1, i2]
      omega
    have hs : step RW ZW (ZW - 2) s = { mask := 4 * s.mask % 2 ^ (RW + 2) + 3, d := 4 * s.d + b - (4 * r + 1), r := 2 * r + 1, z := 4 * s.z % 2 ^ ZW } := by
      simp only [step]
      rw [hdand, hz, ← hb, ← hrdef, ht, if_pos hc, if_pos hbit, hr']
      congr 1
      rw [hmask']; exact hmaskand _ (by omega) (by omega)
    rw [hs]
    refine ⟨hmask', hzz, hsq, ?_⟩
    simp only
    have : (2 * r + 1) * (2 * r + 1) = 4 * (r * r) + (4 * r + 1) := by ring
    rw [← hT', this]; omega
  · have hbit : ¬ (4 * s.d + b + 2 ^ (RW + 2) - (4 * r + 1)) / 2 ^ (RW + 1) % 2 = 0 := by
      have : (4 * s.d + b + 2 ^ (RW + 2) - (4 * r + 1)) / 2 ^ (RW + 1) = 1 := by
        apply Nat.div_eq_of_lt_le <;> omega
      rw [this]; norm_num
    have hsq : 2 * r = Nat.sqrt T' := by
      rw [Nat.eq_sqrt]
      have i1 : (2 * r) * (2 * r) = 4 * (r * r) := by ring
      have i2 : (2 * r + 1) * (2 * r + 1) = 4 * (r * r) + (4 * r + 1) := by ring
      rw [i1, i2]
      omega
    have hs : step RW ZW (ZW - 2) s = { mask := 4 * s.mask % 2 ^ (RW + 2) + 3, d := 4 * s.d + b, r := 2 * r, z := 4 * s.z % 2 ^ ZW } := by
      simp only [step]
      rw [hdand, hz, ← hb, ← hrdef, ht, if_neg hc, if_neg hbit, hr']
    rw [hs]
    refine ⟨hmask', hzz, hsq, ?_⟩
    simp only
    have : (2 * r) * (2 * r) = 4 * (r * r) := by ring
    rw [← hT', this]; omega

theorem loop_inv {RW ZW z0 : ℕ} (hZ : 2 ≤ ZW) (hz0 : z0 < 2 ^ ZW) (n : ℕ) :
    ∀ {k : ℕ} {s : St}, k + n ≤ RW → Inv RW ZW z0 k s → Inv RW ZW z0 (k + n) (loop RW ZW (ZW - 2) n s) := by
  induction n with
  | zero => intro k s _ h; exact h
  | succ n ih =>
    intro k s hk h
    have := ih (by omega) (step_inv hZ hz0 (by omega) h)
    rw [show k + (n + 1) = k + 1 + n by ring]
    exact this

/-- Result of the whole loop. -/
theorem loop_spec {RW ZW z0 : ℕ} (hZ : 2 ≤ ZW) (hz0 : z0 < 2 ^ ZW) :
    Inv RW ZW z0 RW (loop RW ZW (ZW - 2) RW { mask := 0, d := 0, r := 0, z := z0 }) := by
  have h0 : Inv RW ZW z0 0 { mask := 0, d := 0, r := 0, z := z0 } := by
    have : z0 / 2 ^ ZW = 0 := Nat.div_eq_of_lt hz0
    exact ⟨by simp, by simp [Nat.mod_eq_of_lt hz0], by simp [this], by simp [this]⟩
  have := loop_inv hZ hz0 RW (le_of_eq (zero_add RW)) h0
  rwa [zero_add] at this

theorem root_eq {XW x : ℕ} (hXW : 1 ≤ XW) (hx : x < 2 ^ XW) : root XW x = Nat.sqrt x := by
  have hx2 : x < 2 ^ (2 * ((XW + 1) / 2)) := lt_of_lt_of_le hx (Nat.pow_le_pow_right (by norm_num) (by omega))
  have h := loop_spec (RW := (XW + 1) / 2) (ZW := 2 * ((XW + 1) / 2)) (by omega) hx2
  have e : ((XW + 1) / 2 - 1) * 2 = 2 * ((XW + 1) / 2) - 2 := by omega
  simp only [root, e, Nat.mod_eq_of_lt hx2]
  rw [h.hr]
  congr 1
  rw [show (4 : ℕ) = 2 ^ 2 by norm_num, ← pow_mul, Nat.mul_div_cancel _ (Nat.two_pow_pos _)]

end Model.Sqrt
