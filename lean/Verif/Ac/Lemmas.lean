import Verif.Ac.Types
import Mathlib.Tactic.Linarith
import Mathlib.Tactic.Ring
import Mathlib.Tactic.NormNum
import Mathlib.Data.Int.ModEq

/-! # Lemmas about the ac_int / ac_fixed semantics -/

namespace Ac

theorem two_pow_pos' (n : ℕ) : (0 : ℤ) < 2 ^ n := by positivity

theorem two_pow_succ_pred {W : ℕ} (h : 1 ≤ W) : (2 : ℤ) ^ W = 2 * 2 ^ (W - 1) := by
  obtain ⟨n, rfl⟩ : ∃ n, W = n + 1 := ⟨W - 1, by omega⟩
  simp [pow_succ]; ring

theorem wrap_false (W : ℕ) (x : ℤ) : wrap W false x = x % 2 ^ W := rfl

theorem wrap_true (W : ℕ) (x : ℤ) :
    wrap W true x = (x + 2 ^ (W - 1)) % 2 ^ W - 2 ^ (W - 1) := rfl

theorem wrap_modEq (W : ℕ) (S : Bool) (x : ℤ) : wrap W S x ≡ x [ZMOD 2 ^ W] := by
  cases S
  · exact Int.mod_modEq _ _
  · rw [wrap_true]
    have h := (Int.mod_modEq (x + 2 ^ (W - 1)) (2 ^ W)).sub_right (2 ^ (W - 1))
    simpa using h

theorem wrap_congr {W : ℕ} {S : Bool} {x y : ℤ} (h : x ≡ y [ZMOD 2 ^ W]) : wrap W S x = wrap W S y := by
  cases S
  · exact h
  · rw [wrap_true, wrap_true]
    have := h.add_right (2 ^ (W - 1))
    unfold Int.ModEq at this
    rw [this]

theorem wrap_eq_iff {W : ℕ} {S : Bool} {x y : ℤ} : wrap W S x = wrap W S y ↔ x ≡ y [ZMOD 2 ^ W] := by
  refine ⟨fun h => ?_, wrap_congr⟩
  exact ((wrap_modEq W S x).symm.trans (by rw [h])).trans (wrap_modEq W S y)

theorem wrap_range {W : ℕ} {S : Bool} (hW : 1 ≤ W) (x : ℤ) :
    minRaw W S ≤ wrap W S x ∧ wrap W S x ≤ maxRaw W S := by
  have hp := two_pow_pos' W
  have h2 := two_pow_succ_pred hW
  cases S
  · simp only [minRaw, maxRaw, wrap_false, Bool.false_eq_true, if_false]
    have := Int.emod_nonneg x (ne_of_gt hp)
    have := Int.emod_lt_of_pos x hp
    omega
  · simp only [minRaw, maxRaw, wrap_true, if_true]
    have := Int.emod_nonneg (x + 2 ^ (W - 1)) (ne_of_gt hp)
    have := Int.emod_lt_of_pos (x + 2 ^ (W - 1)) hp
    constructor <;> linarith

theorem wrap_of_range {W : ℕ} {S : Bool} (hW : 1 ≤ W) {x : ℤ}
    (h0 : minRaw W S ≤ x) (h1 : x ≤ maxRaw W S) : wrap W S x = x := by
  have h2 := two_pow_succ_pred hW
  cases S
  · simp only [minRaw, maxRaw, Bool.false_eq_true, if_false] at h0 h1
    rw [wrap_false]; exact Int.emod_eq_of_lt h0 (by omega)
  · simp only [minRaw, maxRaw, if_true] at h0 h1
    rw [wrap_true, Int.emod_eq_of_lt (by linarith) (by linarith)]; ring

theorem wrap_wrap (W : ℕ) (S : Bool) (x : ℤ) : wrap W S (wrap W S x) = wrap W S x :=
  wrap_congr (wrap_modEq W S x)

theorem wrapU_of_lt {W : ℕ} {x : ℤ} (h0 : 0 ≤ x) (h1 : x < 2 ^ W) : wrap W false x = x :=
  Int.emod_eq_of_lt h0 h1

theorem wrapU_nonneg (W : ℕ) (x : ℤ) : 0 ≤ wrap W false x :=
  Int.emod_nonneg _ (ne_of_gt (two_pow_pos' W))

theorem wrapU_lt (W : ℕ) (x : ℤ) : wrap W false x < 2 ^ W :=
  Int.emod_lt_of_pos _ (two_pow_pos' W)

theorem wrapS_of_range {W : ℕ} (hW : 1 ≤ W) {x : ℤ} (h0 : -2 ^ (W - 1) ≤ x) (h1 : x < 2 ^ (W - 1)) :
    wrap W true x = x :=
  wrap_of_range hW (by simpa [minRaw] using h0) (by simp [maxRaw]; omega)

theorem wrap_add_wrap (W : ℕ) (S T : Bool) (x y : ℤ) :
    wrap W S (wrap W T x + y) = wrap W S (x + y) :=
  wrap_congr ((wrap_modEq W T x).add_right y)

theorem wrap_neg_wrap (W : ℕ) (S T : Bool) (x : ℤ) :
    wrap W S (-wrap W T x) = wrap W S (-x) :=
  wrap_congr (wrap_modEq W T x).neg

theorem wrap_two_mul_wrap (W : ℕ) (S T : Bool) (x y : ℤ) :
    wrap W S (2 * wrap W T x + y) = wrap W S (2 * x + y) :=
  wrap_congr (((wrap_modEq W T x).mul_left 2).add_right y)

end Ac
