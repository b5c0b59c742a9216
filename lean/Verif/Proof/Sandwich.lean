import Mathlib.Data.Rat.Floor
import Mathlib.Data.Real.Basic
import Mathlib.Data.Rat.Cast.Order
import Mathlib.Tactic.Linarith
import Mathlib.Tactic.FieldSimp

/-! # Distance of two monotone functions from their values on a grid -/

namespace Proof.Pwl

theorem cast_le {a b : ℚ} (h : a ≤ b) : (a : ℝ) ≤ (b : ℝ) := Rat.cast_le.2 h

theorem sandwich {G : ℚ → ℚ} {φ : ℝ → ℝ} {n N : ℕ} {ε : ℝ} (hn : 0 < n)
    (hG : ∀ u v : ℚ, 0 ≤ u → u ≤ v → v ≤ N / n → G u ≤ G v) (hφ : ∀ u v : ℝ, 0 ≤ u → u ≤ v → v ≤ N / n → φ u ≤ φ v)
    (h1 : ∀ j < N, (G ((j + 1 : ℕ) / n) : ℝ) ≤ φ ((j : ℕ) / n) + ε)
    (h2 : ∀ j < N, φ ((j + 1 : ℕ) / n) ≤ (G ((j : ℕ) / n) : ℝ) + ε) {u : ℚ} (h0 : 0 ≤ u) (hu : u < N / n) :
    |(G u : ℝ) - φ u| ≤ ε := by
  have hn' : (0 : ℚ) < n := by exact_mod_cast hn
  obtain ⟨j, hj⟩ : ∃ j : ℕ, j = ⌊u * n⌋.toNat := ⟨_, rfl⟩
  have hf0 : 0 ≤ ⌊u * n⌋ := Int.floor_nonneg.2 (by positivity)
  rw [lt_div_iff₀ hn'] at hu
  have hjN : j < N := by
    have : ⌊u * n⌋ < N := by rw [Int.floor_lt]; exact_mod_cast hu
    omega
  have hje : (j : ℚ) = (⌊u * n⌋ : ℚ) := by
    have : (j : ℤ) = ⌊u * n⌋ := by rw [hj, Int.toNat_of_nonneg hf0]
    exact_mod_cast this
  have l1 : (j : ℚ) / n ≤ u := by
    rw [div_le_iff₀ hn', hje]
    exact Int.floor_le (u * n)
  have l2 : u ≤ ((j + 1 : ℕ) : ℚ) / n := by
    rw [le_div_iff₀ hn']
    push_cast
    rw [hje]
    exact (Int.lt_floor_add_one (u * n)).le
  have l3 : ((j + 1 : ℕ) : ℚ) / n ≤ N / n := div_le_div_of_nonneg_right (by exact_mod_cast hjN) hn'.le
  have g1 := cast_le (hG _ _ (by positivity) l1 (le_trans l2 l3))
  have g2 := cast_le (hG _ _ h0 l2 l3)
  have m1 := cast_le l1
  have m2 := cast_le l2
  have m3 := cast_le l3
  have m0 := cast_le h0
  rw [Rat.cast_div, Rat.cast_natCast, Rat.cast_natCast] at m1 m2
  rw [Rat.cast_div, Rat.cast_natCast, Rat.cast_natCast, Rat.cast_div, Rat.cast_natCast, Rat.cast_natCast] at m3
  rw [Rat.cast_zero] at m0
  have s1 := hφ _ _ (by positivity) m1 (le_trans m2 m3)
  have s2 := hφ _ _ m0 m2 m3
  have c1 := h1 j hjN
  have c2 := h2 j hjN
  rw [abs_le]
  constructor <;> linarith

end Proof.Pwl
