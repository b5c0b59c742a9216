import Verif.Ac.Cvt
import Verif.Model.Normalize
import Verif.Proof.Bits

/-! # Proofs about include/ac_math/ac_normalize.h -/

namespace Proof.Normalize
open Ac Model.Bits Model.Normalize

theorem mag_nonneg {x : ℤ} (h : 0 ≤ x) : ((mag x : ℕ) : ℤ) = x := by
  unfold mag; rw [if_neg (by omega)]; omega

theorem mag_neg {x : ℤ} (h : x < 0) : ((mag x : ℕ) : ℤ) = -x - 1 := by
  unfold mag; rw [if_pos h]; omega

/-- Words of the format. -/
def Word (f : Fmt) (X : ℤ) : Prop := minRaw f.W f.S ≤ X ∧ X ≤ maxRaw f.W f.S

theorem mag_lt {f : Fmt} {X : ℤ} (h : Word f X) : mag X < 2 ^ (f.W - f.S.toNat) := by
  obtain ⟨h0, h1⟩ := h
  have : ((mag X : ℕ) : ℤ) < 2 ^ (f.W - f.S.toNat) := by
    cases hS : f.S <;> simp [hS, minRaw, maxRaw] at h0 h1 ⊢
    · rw [mag_nonneg h0]; omega
    · rcases lt_or_ge X 0 with h | h
      · rw [mag_neg h]; omega
      · rw [mag_nonneg h]; omega
  exact_mod_cast this

/-- The shift brings the leading one of `m` to position K-1. -/
theorem shift_facts {K m : ℕ} (hm : m < 2 ^ K) :
    ((m : ℤ) + 1) * 2 ^ leadingSignU K m ≤ 2 ^ K ∧ (m ≠ 0 → 2 ^ K ≤ 2 * ((m : ℤ) * 2 ^ leadingSignU K m)) := by
  unfold leadingSignU
  by_cases h : m = 0
  · subst h; simp
  · have hl : Nat.log2 m < K := (Nat.log2_lt h).mpr hm
    have h1 : 2 ^ Nat.log2 m ≤ m := Nat.log2_self_le h
    have h2 : m < 2 ^ (Nat.log2 m + 1) := Nat.lt_log2_self
    have e1 : (2 : ℤ) ^ K = 2 ^ (Nat.log2 m + 1) * 2 ^ (K - 1 - Nat.log2 m) := by
      rw [← pow_add]; congr 1; omega
    have hp := two_pow_pos' (K - 1 - Nat.log2 m)
    have h1' : (2 : ℤ) ^ Nat.log2 m ≤ m := by exact_mod_cast h1
    have h2' : (m : ℤ) + 1 ≤ 2 ^ (Nat.log2 m + 1) := by exact_mod_cast h2
    rw [if_neg h, e1]
    refine ⟨mul_le_mul_of_nonneg_right h2' hp.le, fun _ => ?_⟩
    have := mul_le_mul_of_nonneg_right h1' hp.le
    rw [pow_succ]; linarith

/-- A word shifted by the leading sign of a word at least as large does not lose bits. -/
theorem shifted_range {f : Fmt} (hW : 1 ≤ f.W) {X : ℤ} (hX : Word f X) {m : ℕ} (hm : m < 2 ^ (f.W - f.S.toNat))
    (hle : mag X ≤ 2 ^ (f.W - f.S.toNat) - 1 → ((mag X : ℤ) + 1) * 2 ^ leadingSignU (f.W - f.S.toNat) m ≤
      2 ^ (f.W - f.S.toNat)) :
    wrap f.W f.S (X * 2 ^ leadingSignU (f.W - f.S.toNat) m) = X * 2 ^ leadingSignU (f.W - f.S.toNat) m ∧
    minRaw f.W f.S ≤ X * 2 ^ leadingSignU (f.W - f.S.toNat) m ∧
    X * 2 ^ leadingSignU (f.W - f.S.toNat) m ≤ maxRaw f.W f.S := by
  have hlt := mag_lt hX
  have h := hle (by omega)
  set ls := leadingSignU (f.W - f.S.toNat) m
  have hp := two_pow_pos' ls
  have key : minRaw f.W f.S ≤ X * 2 ^ ls ∧ X * 2 ^ ls ≤ maxRaw f.W f.S := by
    obtain ⟨h0, h1⟩ := hX
    cases hS : f.S <;> simp [hS, minRaw, maxRaw] at h0 h1 h ⊢
    · rw [mag_nonneg h0] at h
      exact ⟨h0, by linarith⟩
    · rcases lt_or_ge X 0 with hx | hx
      · rw [mag_neg hx] at h
        have : X * 2 ^ ls < 0 := mul_neg_of_neg_of_pos hx hp
        have hpw := two_pow_pos' (f.W - 1)
        exact ⟨by linarith, by linarith⟩
      · rw [mag_nonneg hx] at h
        have : 0 ≤ X * 2 ^ ls := mul_nonneg hx hp.le
        have hpw := two_pow_pos' (f.W - 1)
        exact ⟨by linarith, by linarith⟩
  exact ⟨wrap_of_range hW key.1 key.2, key⟩

theorem nfmt_F (f : Fmt) (hW : 1 ≤ f.W) : (nfmt f).F = ((f.W - f.S.toNat : ℕ) : ℤ) := by
  unfold nfmt Fmt.F nfmt.S
  cases f.S <;> simp; omega

/-- Assignment of the shifted word is exact unless symmetric saturation meets the most negative word. -/
theorem cvt_exact {f : Fmt} (hW : 1 ≤ f.W) {t : ℤ} (h0 : minRaw f.W f.S ≤ t) (h1 : t ≤ maxRaw f.W f.S)
    (hsym : f.O ≠ .SAT_SYM ∨ f.S = false ∨ t ≠ minRaw f.W f.S) :
    (nfmt f).cvt ((nfmt f).val t) = (nfmt f).val t := by
  apply Fmt.cvt_val (f := nfmt f) hW
  · show loRaw f.W f.S f.O ≤ t
    unfold loRaw
    split_ifs with h
    · rcases hsym with h' | h' | h'
      · exact absurd h.1 h'
      · rw [h'] at h; simp at h
      · have : minRaw f.W f.S = -maxRaw f.W f.S - 1 := by simp [minRaw, maxRaw, h.2]
        omega
    · exact h0
  · exact h1

theorem val_scale (f : Fmt) (X : ℤ) (ls : ℕ) (hW : 1 ≤ f.W) :
    (nfmt f).val (X * 2 ^ ls) * 2 ^ (f.I - nfmt.S f - ls) = f.val X := by
  unfold Fmt.val
  have e1 : (nfmt f).F = f.W - nfmt.S f := rfl
  have e2 : f.F = f.W - f.I := rfl
  rw [e1, e2]
  push_cast
  rw [← zpow_natCast, mul_assoc, mul_assoc, ← zpow_add₀ (by norm_num : (2 : ℚ) ≠ 0),
    ← zpow_add₀ (by norm_num : (2 : ℚ) ≠ 0)]
  congr 2; ring

theorem pow_cast_zpow (k : ℕ) : (((2 : ℤ) ^ k : ℤ) : ℚ) = (2 : ℚ) ^ (k : ℤ) := by push_cast; rw [zpow_natCast]

/-- Bounds on a normalized value from bounds on its word. -/
theorem val_bounds {f : Fmt} (hW : 1 ≤ f.W) (t : ℤ) :
    let K := f.W - f.S.toNat
    (t < 2 ^ K ↔ (nfmt f).val t < 1) ∧ (-2 ^ K ≤ t ↔ -1 ≤ (nfmt f).val t) ∧
    (2 ^ K ≤ 2 * t ↔ 1 / 2 ≤ (nfmt f).val t) ∧ (2 * t < -2 ^ K ↔ (nfmt f).val t < -1 / 2) ∧
    (2 * t ≤ -2 ^ K ↔ (nfmt f).val t ≤ -1 / 2) := by
  intro K
  have hv := Fmt.val_mul_pow (nfmt f) t
  rw [nfmt_F f hW] at hv
  have hp : (0 : ℚ) < 2 ^ ((K : ℕ) : ℤ) := Fmt.two_zpow_pos _
  have hc := pow_cast_zpow K
  set v := (nfmt f).val t
  have a1 : (t < 2 ^ K ↔ v < 1) := by
    rw [← Int.cast_lt (R := ℚ), hc, ← hv, ← mul_lt_mul_iff_of_pos_right hp (b := v), one_mul]
  have a2 : (-2 ^ K ≤ t ↔ -1 ≤ v) := by
    rw [← Int.cast_le (R := ℚ), Int.cast_neg, hc, ← hv, ← mul_le_mul_iff_of_pos_right hp (c := v), neg_one_mul]
  have a3 : (2 ^ K ≤ 2 * t ↔ 1 / 2 ≤ v) := by
    rw [← Int.cast_le (R := ℚ), Int.cast_mul, hc, ← hv, ← mul_le_mul_iff_of_pos_right hp (c := v)]
    push_cast
    constructor <;> intro h <;> linarith
  have a4 : (2 * t < -2 ^ K ↔ v < -1 / 2) := by
    rw [← Int.cast_lt (R := ℚ), Int.cast_mul, Int.cast_neg, hc, ← hv, ← mul_lt_mul_iff_of_pos_right hp (b := v)]
    push_cast
    constructor <;> intro h <;> linarith
  have a5 : (2 * t ≤ -2 ^ K ↔ v ≤ -1 / 2) := by
    rw [← Int.cast_le (R := ℚ), Int.cast_mul, Int.cast_neg, hc, ← hv, ← mul_le_mul_iff_of_pos_right hp (b := v)]
    push_cast
    constructor <;> intro h <;> linarith
  exact ⟨a1, a2, a3, a4, a5⟩

theorem maxRaw_eq (W : ℕ) (S : Bool) : maxRaw W S = 2 ^ (W - S.toNat) - 1 := by cases S <;> simp [maxRaw]

theorem neg_pow_le_minRaw (W : ℕ) (S : Bool) : -2 ^ (W - S.toNat) ≤ minRaw W S := by
  have := two_pow_pos' W
  cases S <;> simp [minRaw]

/-- Summary for one word shifted by the leading sign of the word `m ≥ mag X`. -/
theorem shift_summary {f : Fmt} (hW : 1 ≤ f.W) {X : ℤ} (hX : Word f X) {m : ℕ} (hm : m < 2 ^ (f.W - f.S.toNat))
    (hle : ((mag X : ℤ) + 1) * 2 ^ leadingSignU (f.W - f.S.toNat) m ≤ 2 ^ (f.W - f.S.toNat)) :
    let t := X * 2 ^ leadingSignU (f.W - f.S.toNat) m
    wrap f.W f.S t = t ∧ minRaw f.W f.S ≤ t ∧ t ≤ maxRaw f.W f.S ∧ -1 ≤ (nfmt f).val t ∧ (nfmt f).val t < 1 := by
  intro t
  obtain ⟨h1, h2, h3⟩ := shifted_range hW hX hm (fun _ => hle)
  obtain ⟨b1, b2, -⟩ := val_bounds hW t
  have hpK := two_pow_pos' (f.W - f.S.toNat)
  refine ⟨h1, h2, h3, b2.mp ?_, b1.mp ?_⟩
  · exact le_trans (neg_pow_le_minRaw _ _) h2
  · rw [maxRaw_eq] at h3
    exact lt_of_le_of_lt h3 (by linarith)

/-- Leading-one positions of an OR. -/
theorem or_facts {a b K : ℕ} (ha : a < 2 ^ K) (hb : b < 2 ^ K) :
    let ls := leadingSignU K (a ||| b)
    ((a : ℤ) + 1) * 2 ^ ls ≤ 2 ^ K ∧ ((b : ℤ) + 1) * 2 ^ ls ≤ 2 ^ K ∧
    (a ≠ 0 ∨ b ≠ 0 → 2 ^ K ≤ 2 * ((a : ℤ) * 2 ^ ls) ∨ 2 ^ K ≤ 2 * ((b : ℤ) * 2 ^ ls)) := by
  intro ls
  have hab : a ||| b < 2 ^ K := Nat.or_lt_two_pow ha hb
  obtain ⟨f1, -⟩ := shift_facts hab
  have hp := two_pow_pos' ls
  have la : a ≤ a ||| b := Nat.left_le_or
  have lb : b ≤ a ||| b := Nat.right_le_or
  have la' : (a : ℤ) ≤ ((a ||| b : ℕ) : ℤ) := by exact_mod_cast la
  have lb' : (b : ℤ) ≤ ((a ||| b : ℕ) : ℤ) := by exact_mod_cast lb
  refine ⟨le_trans (mul_le_mul_of_nonneg_right (by linarith) hp.le) f1,
    le_trans (mul_le_mul_of_nonneg_right (by linarith) hp.le) f1, ?_⟩
  intro hne
  have h0 : a ||| b ≠ 0 := by omega
  have hl : Nat.log2 (a ||| b) < K := (Nat.log2_lt h0).mpr hab
  have hls : ls = K - 1 - Nat.log2 (a ||| b) := by simp only [ls, leadingSignU, h0, if_false]
  have key : 2 ^ Nat.log2 (a ||| b) ≤ a ∨ 2 ^ Nat.log2 (a ||| b) ≤ b := by
    by_contra hc
    rw [not_or, not_le, not_le] at hc
    have := Nat.or_lt_two_pow hc.1 hc.2
    have := Nat.log2_self_le h0
    omega
  have e1 : (2 : ℤ) ^ K = 2 * (2 ^ Nat.log2 (a ||| b) * 2 ^ ls) := by
    rw [← pow_add, ← pow_succ']; congr 1; omega
  rw [e1]
  rcases key with h | h
  · left
    have h' : (2 : ℤ) ^ Nat.log2 (a ||| b) ≤ a := by exact_mod_cast h
    have := mul_le_mul_of_nonneg_right h' hp.le
    linarith
  · right
    have h' : (2 : ℤ) ^ Nat.log2 (a ||| b) ≤ b := by exact_mod_cast h
    have := mul_le_mul_of_nonneg_right h' hp.le
    linarith

end Proof.Normalize
