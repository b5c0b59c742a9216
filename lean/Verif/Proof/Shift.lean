import Verif.Ac.Cvt
import Verif.Model.Shift

/-! # Proofs about include/ac_math/ac_shift.h -/

namespace Proof.Shift
open Ac Model.Shift

/-! ## The masks -/

theorem ones_mod {a b c : ℕ} (hb : b ≤ a) (hc : c ≤ a) : (2 ^ a - 2 ^ b) % 2 ^ c = 2 ^ c - 2 ^ min b c := by
  have hba : 2 ^ b ≤ 2 ^ a := Nat.pow_le_pow_right (by norm_num) hb
  obtain ⟨k, hk⟩ : ∃ k, a = c + k := ⟨a - c, by omega⟩
  rcases le_total b c with h | h
  · rw [min_eq_left h]
    have hbc : 2 ^ b ≤ 2 ^ c := Nat.pow_le_pow_right (by norm_num) h
    have hbp : 0 < 2 ^ b := by positivity
    have hcp : 0 < 2 ^ c := by positivity
    have hkp : 0 < 2 ^ k := by positivity
    have : 2 ^ a - 2 ^ b = (2 ^ c - 2 ^ b) + 2 ^ c * (2 ^ k - 1) := by
      rw [hk, pow_add, Nat.mul_sub, mul_one]
      have : 2 ^ c ≤ 2 ^ c * 2 ^ k := Nat.le_mul_of_pos_right _ hkp
      omega
    rw [this, Nat.add_mul_mod_self_left, Nat.mod_eq_of_lt (by omega)]
  · rw [min_eq_right h, Nat.sub_self]
    obtain ⟨l, rfl⟩ : ∃ l, b = c + l := ⟨b - c, by omega⟩
    apply Nat.mod_eq_zero_of_dvd
    apply Nat.dvd_sub
    · rw [hk, pow_add]; exact Dvd.intro _ rfl
    · rw [pow_add]; exact Dvd.intro _ rfl

theorem ones_div {a b d : ℕ} (hb : b ≤ a) (hd : d ≤ a) : (2 ^ a - 2 ^ b) / 2 ^ d = 2 ^ (a - d) - 2 ^ (b - d) := by
  have hdp : 0 < 2 ^ d := by positivity
  obtain ⟨k, rfl⟩ : ∃ k, a = d + k := ⟨a - d, by omega⟩
  rw [Nat.add_sub_cancel_left]
  rcases le_total d b with h | h
  · obtain ⟨l, rfl⟩ : ∃ l, b = d + l := ⟨b - d, by omega⟩
    rw [Nat.add_sub_cancel_left, pow_add, pow_add, ← Nat.mul_sub, Nat.mul_div_cancel_left _ hdp]
  · rw [Nat.sub_eq_zero_of_le h, pow_zero]
    have hbd : 2 ^ b ≤ 2 ^ d := Nat.pow_le_pow_right (by norm_num) h
    have hbp : 0 < 2 ^ b := by positivity
    have hkp : 0 < 2 ^ k := by positivity
    have : 2 ^ (d + k) - 2 ^ b = (2 ^ d - 2 ^ b) + 2 ^ d * (2 ^ k - 1) := by
      rw [pow_add, Nat.mul_sub, mul_one]
      have : 2 ^ d ≤ 2 ^ d * 2 ^ k := Nat.le_mul_of_pos_right _ hkp
      omega
    rw [this, Nat.add_mul_div_left _ _ hdp, Nat.div_eq_of_lt (by omega), zero_add]

theorem shr_nat (A : ℤ) (n : ℕ) : shr A n = A / 2 ^ n := by simp [shr]

theorem shr_neg (A : ℤ) (n : ℕ) : shr A (-n) = A * 2 ^ n := by
  unfold shr
  rcases Nat.eq_zero_or_pos n with rfl | h
  · simp
  · rw [if_neg (by omega)]; simp

theorem two_pow_sub_one_cast (n : ℕ) : ((2 : ℤ) ^ n - 1) = ((2 ^ n - 1 : ℕ) : ℤ) := by
  rw [Nat.cast_sub Nat.one_le_two_pow]; norm_num

/-- Mask of the bits dropped by a right shift. -/
theorem mask_right {XW TW d : ℕ} (hT : XW + d ≤ TW) (n : ℕ) :
    mask XW TW d (-n) = 2 ^ min (min n TW - d) XW - 1 := by
  unfold mask
  rw [shr_neg, wrap_false, two_pow_sub_one_cast]
  have e : ((((2 ^ TW - 1 : ℕ) : ℤ) * 2 ^ n) % 2 ^ TW).toNat = 2 ^ TW - 2 ^ min n TW := by
    have : ((2 ^ TW - 1 : ℕ) : ℤ) * 2 ^ n = (((2 ^ TW - 1) * 2 ^ n : ℕ) : ℤ) := by push_cast; rfl
    rw [this]
    have e2 : ((((2 ^ TW - 1) * 2 ^ n : ℕ) : ℤ) % 2 ^ TW) = ((((2 ^ TW - 1) * 2 ^ n) % 2 ^ TW : ℕ) : ℤ) := by
      push_cast; rfl
    rw [e2, Int.toNat_natCast]
    have : (2 ^ TW - 1) * 2 ^ n = 2 ^ (TW + n) - 2 ^ n := by rw [Nat.sub_mul, one_mul, pow_add]
    rw [this, ones_mod (by omega) (by omega)]
  simp only [e]
  rw [ones_div (min_le_right _ _) (by omega), ones_mod (by omega) (by omega)]
  have h1 : 2 ^ min (min n TW - d) XW ≤ 2 ^ XW := Nat.pow_le_pow_right (by norm_num) (min_le_right _ _)
  have h2 : 0 < 2 ^ min (min n TW - d) XW := by positivity
  omega

/-- Mask of the bits lost by a left shift. -/
theorem mask_left {XW TW d : ℕ} (n : ℕ) :
    mask XW TW d n = 2 ^ XW - 2 ^ min (TW - (d + n)) XW := by
  unfold mask
  rw [shr_nat, wrap_false, two_pow_sub_one_cast]
  have e : ((((2 ^ TW - 1 : ℕ) : ℤ) / 2 ^ n) % 2 ^ TW).toNat = 2 ^ (TW - n) - 1 := by
    have e2 : ((((2 ^ TW - 1 : ℕ) : ℤ) / 2 ^ n) % 2 ^ TW) = ((((2 ^ TW - 1) / 2 ^ n) % 2 ^ TW : ℕ) : ℤ) := by
      push_cast; rfl
    rw [e2, Int.toNat_natCast]
    have h1 : 0 < 2 ^ TW := by positivity
    rw [Nat.mod_eq_of_lt (lt_of_le_of_lt (Nat.div_le_self _ _) (by omega))]
    rcases le_total n TW with h | h
    · have := @ones_div TW 0 n (by omega) h
      simpa using this
    · rw [Nat.sub_eq_zero_of_le h, Nat.div_eq_of_lt]
      · rfl
      · have : 2 ^ TW ≤ 2 ^ n := Nat.pow_le_pow_right (by norm_num) h
        omega
  simp only [e]
  have e3 : (2 ^ (TW - n) - 1) / 2 ^ d = 2 ^ (TW - (d + n)) - 1 := by
    rcases le_total d (TW - n) with h | h
    · have := @ones_div (TW - n) 0 d (by omega) h
      rw [show TW - (d + n) = TW - n - d by omega]
      simpa using this
    · rw [show TW - (d + n) = 0 by omega, Nat.div_eq_of_lt]
      · rfl
      · have : 2 ^ (TW - n) ≤ 2 ^ d := Nat.pow_le_pow_right (by norm_num) h
        have : 0 < 2 ^ (TW - n) := by positivity
        omega
  rw [e3]
  have hx : 0 < 2 ^ XW := by positivity
  have e4 : (2 ^ (TW - (d + n)) - 1) % 2 ^ XW = 2 ^ min (TW - (d + n)) XW - 1 := by
    rcases le_total XW (TW - (d + n)) with h | h
    · have := @ones_mod (TW - (d + n)) 0 XW (by omega) h
      rw [min_eq_right h]; simpa using this
    · rw [min_eq_left h, Nat.mod_eq_of_lt]
      have : 2 ^ (TW - (d + n)) ≤ 2 ^ XW := Nat.pow_le_pow_right (by norm_num) h
      have : 0 < 2 ^ (TW - (d + n)) := by positivity
      omega
  rw [e4]
  have : 2 ^ min (TW - (d + n)) XW ≤ 2 ^ XW := Nat.pow_le_pow_right (by norm_num) (min_le_right _ _)
  have : 0 < 2 ^ min (TW - (d + n)) XW := by positivity
  omega

theorem and_high_ne_zero {a e W : ℕ} (he : e ≤ W) (ha : a < 2 ^ W) : (a &&& (2 ^ W - 2 ^ e)) ≠ 0 ↔ 2 ^ e ≤ a := by
  have hm : 2 ^ W - 2 ^ e = (2 ^ (W - e) - 1) * 2 ^ e := by
    rw [Nat.sub_mul, one_mul, ← pow_add, Nat.sub_add_cancel he]
  have key : (a &&& (2 ^ W - 2 ^ e)) = a / 2 ^ e * 2 ^ e := by
    apply Nat.eq_of_testBit_eq
    intro i
    rw [hm, Nat.testBit_and, ← Nat.shiftLeft_eq, ← Nat.shiftLeft_eq, Nat.testBit_shiftLeft, Nat.testBit_shiftLeft,
      Nat.testBit_div_two_pow, Nat.testBit_two_pow_sub_one]
    by_cases hi : e ≤ i
    · simp only [ge_iff_le, hi, decide_true, Bool.true_and, Nat.add_sub_cancel' hi, Nat.sub_add_cancel hi]
      by_cases hw : i < W
      · simp [show i - e < W - e by omega]
      · have : a.testBit i = false := Nat.testBit_lt_two_pow (lt_of_lt_of_le ha (Nat.pow_le_pow_right (by norm_num) (by omega)))
        simp [this]
    · simp [hi]
  rw [key]
  have hp : 0 < 2 ^ e := by positivity
  constructor
  · intro h
    by_contra hc
    rw [Nat.div_eq_of_lt (by omega)] at h
    simp at h
  · intro h
    have : 0 < a / 2 ^ e := Nat.div_pos h hp
    positivity

/-! ## Input patterns -/

/-- `X` is an XW-bit word of signedness S. -/
def InRange (XW : ℕ) (S : Bool) (X : ℤ) : Prop := minRaw XW S ≤ X ∧ X ≤ maxRaw XW S

theorem InRange.bounds {XW : ℕ} {S : Bool} {X : ℤ} (hW : 1 ≤ XW) (h : InRange XW S X) :
    -2 ^ (XW - 1) ≤ X ∧ X < 2 ^ XW := by
  have h1 := two_pow_succ_pred hW
  have h2 := two_pow_pos' (XW - 1)
  obtain ⟨a, b⟩ := h
  cases S <;> simp [minRaw, maxRaw] at a b <;> constructor <;> linarith

theorem pattern_cast (XW : ℕ) (X : ℤ) : ((pattern XW X : ℕ) : ℤ) = X % 2 ^ XW := by
  unfold pattern
  exact Int.toNat_of_nonneg (Int.emod_nonneg _ (ne_of_gt (two_pow_pos' XW)))

theorem pattern_lt (XW : ℕ) (X : ℤ) : pattern XW X < 2 ^ XW := by
  have := pattern_cast XW X
  have h2 := Int.emod_lt_of_pos X (two_pow_pos' XW)
  rw [← this] at h2
  exact_mod_cast h2

theorem pattern_nonneg {XW : ℕ} {X : ℤ} (h0 : 0 ≤ X) (h1 : X < 2 ^ XW) : ((pattern XW X : ℕ) : ℤ) = X := by
  rw [pattern_cast]; exact Int.emod_eq_of_lt h0 h1

theorem pattern_neg {XW : ℕ} {X : ℤ} (h0 : X < 0) (h1 : -2 ^ XW ≤ X) : ((pattern XW X : ℕ) : ℤ) = X + 2 ^ XW := by
  rw [pattern_cast, ← Int.add_emod_right]; exact Int.emod_eq_of_lt (by linarith) (by linarith)

/-- The sticky bit of a right shift. -/
theorem anyAnd_right {XW TW d : ℕ} {S : Bool} {X : ℤ} (hW : 1 ≤ XW) (hT : XW + d ≤ TW) (hX : InRange XW S X) (n : ℕ) :
    anyAnd XW X (mask XW TW d (-n)) = true ↔ (X * 2 ^ d) % 2 ^ n ≠ 0 := by
  obtain ⟨b0, b1⟩ := hX.bounds hW
  have hs := two_pow_succ_pred hW
  have hsp := two_pow_pos' (XW - 1)
  rw [mask_right hT, anyAnd, Nat.and_two_pow_sub_one_eq_mod]
  simp only [bne_iff_ne, ne_eq, not_iff_not]
  set e := min (min n TW - d) XW with he
  have hpat : pattern XW X % 2 ^ e = 0 ↔ X % 2 ^ e = 0 := by
    have : ((pattern XW X % 2 ^ e : ℕ) : ℤ) = X % 2 ^ e := by
      push_cast
      rw [pattern_cast]
      exact Int.emod_emod_of_dvd X (pow_dvd_pow 2 (min_le_right _ _))
    rw [← this]; exact_mod_cast Iff.rfl
  rw [hpat]
  rcases le_total n d with h | h
  · have : e = 0 := by omega
    rw [this]
    simp only [pow_zero, Int.emod_one, true_iff]
    obtain ⟨k, rfl⟩ : ∃ k, d = n + k := ⟨d - n, by omega⟩
    rw [pow_add, mul_comm (2 ^ n : ℤ), ← mul_assoc]; exact Int.mul_emod_left _ _
  · obtain ⟨k, rfl⟩ : ∃ k, n = d + k := ⟨n - d, by omega⟩
    have hpd := two_pow_pos' d
    rw [pow_add, mul_comm X, Int.mul_emod_mul_of_pos _ _ hpd, mul_eq_zero]
    simp only [ne_of_gt hpd, false_or]
    by_cases hk : k ≤ XW
    · have : e = k := by omega
      rw [this]
    · have hek : e = XW := by omega
      rw [hek]
      have hlt : (2 : ℤ) ^ XW ≤ 2 ^ k := pow_le_pow_right₀ (by norm_num) (by omega)
      have z : ∀ j, (2 : ℤ) ^ XW ≤ 2 ^ j → (X % 2 ^ j = 0 ↔ X = 0) := by
        intro j hj
        constructor
        · intro h
          by_contra hne
          rcases lt_or_gt_of_ne hne with h' | h'
          · rw [← Int.add_emod_right, Int.emod_eq_of_lt (by linarith) (by linarith)] at h
            linarith
          · rw [Int.emod_eq_of_lt h'.le (by linarith)] at h
            exact hne h
        · rintro rfl; simp
      rw [z _ le_rfl, z _ hlt]

theorem anyAnd_left {XW TW d : ℕ} (X : ℤ) (n : ℕ) :
    anyAnd XW X (mask XW TW d n) = true ↔ 2 ^ min (TW - (d + n)) XW ≤ pattern XW X := by
  rw [mask_left, anyAnd, bne_iff_ne, and_high_ne_zero (min_le_right _ _) (pattern_lt _ _)]

theorem anyNotAnd_left {XW TW d : ℕ} (X : ℤ) (n : ℕ) :
    anyNotAnd XW X (mask XW TW d n) = true ↔ 2 ^ min (TW - (d + n)) XW ≤ 2 ^ XW - 1 - pattern XW X := by
  have h0 : 0 < 2 ^ XW := by positivity
  rw [mask_left, anyNotAnd, bne_iff_ne, and_high_ne_zero (min_le_right _ _) (by omega)]

/-! ## Setting bits -/

theorem setBit_low {W TW : ℕ} {S : Bool} {t : ℤ} (hTW : 1 ≤ TW) (h : TW + 1 ≤ W) (ht : InRange TW S t) (b : Bool) :
    setBit W S (t * 2 ^ 1) 0 b = 2 * t + (if b then 1 else 0) := by
  unfold setBit
  have e : t * 2 ^ 1 - t * 2 ^ 1 / 2 ^ 0 % 2 * 2 ^ 0 + (if b then 2 ^ 0 else 0) = 2 * t + (if b then 1 else 0) := by
    simp; ring
  rw [e]
  have hb : (0 : ℤ) ≤ (if b then 1 else 0) ∧ (if b then 1 else 0 : ℤ) ≤ 1 := by cases b <;> simp
  have p1 : (2 : ℤ) ^ (TW + 1) ≤ 2 ^ W := pow_le_pow_right₀ (by norm_num) h
  have p2 : (2 : ℤ) ^ TW ≤ 2 ^ (W - 1) := pow_le_pow_right₀ (by norm_num) (by omega)
  have p3 := two_pow_succ_pred hTW
  rw [pow_succ] at p1
  obtain ⟨h0, h1⟩ := ht
  apply wrap_of_range (by omega)
  · cases S <;> simp only [minRaw, if_true, if_false, Bool.false_eq_true] at * <;> linarith
  · cases S <;> simp only [maxRaw, if_true, if_false, Bool.false_eq_true] at * <;> linarith

theorem setBit_topU {W : ℕ} {r : ℤ} (h0 : 0 ≤ r) (h1 : r < 2 ^ W) (b : Bool) :
    setBit (W + 1) false r W b = r + (if b then 2 ^ W else 0) := by
  unfold setBit
  rw [Int.ediv_eq_zero_of_lt h0 h1]
  simp only [Int.zero_emod, zero_mul, sub_zero]
  have hp := two_pow_pos' W
  apply wrapU_of_lt
  · cases b <;> simp <;> linarith
  · rw [pow_succ]; cases b <;> simp <;> linarith

theorem setBit_topS (W : ℕ) (r : ℤ) (b : Bool) :
    setBit (W + 1) true r W b = r % 2 ^ W - (if b then 2 ^ W else 0) := by
  unfold setBit
  have hp := two_pow_pos' W
  have hq := Int.mul_ediv_add_emod r (2 ^ W)
  have h2 := Int.mul_ediv_add_emod (r / 2 ^ W) 2
  have m0 := Int.emod_nonneg r (ne_of_gt hp)
  have m1 := Int.emod_lt_of_pos r hp
  have e : r - r / 2 ^ W % 2 * 2 ^ W + (if b then 2 ^ W else 0) ≡
      r % 2 ^ W - (if b then 2 ^ W else 0) [ZMOD 2 ^ (W + 1)] := by
    rw [Int.modEq_iff_dvd]
    refine ⟨-(r / 2 ^ W / 2) - (if b then 1 else 0), ?_⟩
    rw [pow_succ]
    have : r / 2 ^ W % 2 = r / 2 ^ W - 2 * (r / 2 ^ W / 2) := by linarith
    rw [this]
    have hr : r % 2 ^ W = r - 2 ^ W * (r / 2 ^ W) := by linarith
    rw [hr]
    cases b <;> simp <;> ring
  rw [wrap_congr e]
  apply wrapS_of_range (by omega)
  · simp only [Nat.add_sub_cancel]; cases b <;> simp <;> linarith
  · simp only [Nat.add_sub_cancel]; cases b <;> simp <;> linarith

theorem setBit_nextS (W : ℕ) {l : ℤ} (h0 : 0 ≤ l) (h1 : l < 2 ^ (W + 1)) (s b : Bool) :
    setBit (W + 2) true (l - (if s then 2 ^ (W + 1) else 0)) W b =
      l % 2 ^ W + (if b then 2 ^ W else 0) - (if s then 2 ^ (W + 1) else 0) := by
  unfold setBit
  have hp := two_pow_pos' W
  have m0 := Int.emod_nonneg l (ne_of_gt hp)
  have m1 := Int.emod_lt_of_pos l hp
  have hl := Int.mul_ediv_add_emod l (2 ^ W)
  have hd0 : 0 ≤ l / 2 ^ W := Int.ediv_nonneg h0 hp.le
  have hd1 : l / 2 ^ W < 2 := by
    apply Int.ediv_lt_of_lt_mul hp; rw [pow_succ] at h1; linarith
  have hdiv : (l - (if s then 2 ^ (W + 1) else 0)) / 2 ^ W = l / 2 ^ W + (if s then -2 else 0) := by
    have : l - (if s then 2 ^ (W + 1) else 0) = l + 2 ^ W * (if s then -2 else 0) := by
      cases s <;> simp [pow_succ]; ring
    rw [this, Int.add_mul_ediv_left _ _ (ne_of_gt hp)]
  have hmod : (l / 2 ^ W + (if s then -2 else 0)) % 2 = l / 2 ^ W := by
    cases s
    · simp; exact Int.emod_eq_of_lt hd0 hd1
    · simp; omega
  rw [hdiv, hmod]
  have e : l - (if s then 2 ^ (W + 1) else 0) - l / 2 ^ W * 2 ^ W + (if b then 2 ^ W else 0) =
      l % 2 ^ W + (if b then 2 ^ W else 0) - (if s then 2 ^ (W + 1) else 0) := by
    linarith
  rw [e]
  apply wrapS_of_range (by omega)
  · simp only [show W + 2 - 1 = W + 1 by omega, pow_succ]; cases b <;> cases s <;> simp <;> linarith
  · simp only [show W + 2 - 1 = W + 1 by omega, pow_succ]; cases b <;> cases s <;> simp <;> linarith

/-! ## The overflow bits of the signed versions -/

theorem setOver_one (XW K : ℕ) (X : ℤ) (m : ℕ) (r : ℤ) :
    setOver XW (K + 1) 1 X m r = r % 2 ^ K - (if X < 0 then 2 ^ K else 0) := by
  unfold setOver
  simp [setBit_topS]

set_option maxHeartbeats 1000000 in
theorem setOver_two {XW TW d H n : ℕ} {X : ℤ} (hW : 1 ≤ XW) (hX : InRange XW true X) :
    let Z := X * 2 ^ d * 2 ^ n
    let y := setOver XW (TW + H + 2) 2 X (mask XW TW d n) (wrap TW true Z * 2 ^ H)
    y = Z * 2 ^ H ∨ (2 ^ (TW + H) ≤ y ∧ 2 ^ TW ≤ Z) ∨ (y ≤ -2 ^ (TW + H) ∧ Z ≤ -2 ^ TW) := by
  intro Z y
  have hZ : Z = X * 2 ^ (d + n) := by rw [pow_add, ← mul_assoc]
  obtain ⟨b0, b1⟩ := hX
  simp only [minRaw, maxRaw, if_true] at b0 b1
  have hs := two_pow_succ_pred hW
  have hsp := two_pow_pos' (XW - 1)
  have hNp := two_pow_pos' (d + n)
  have hHp := two_pow_pos' H
  have hKp := two_pow_pos' (TW + H)
  have hK : (2 : ℤ) ^ (TW + H) = 2 ^ TW * 2 ^ H := pow_add _ _ _
  have hmask := @mask_left XW TW d n
  set e := min (TW - (d + n)) XW with he
  by_cases hm : XW ≤ TW - (d + n)
  · -- nothing is lost
    left
    have hm0 : mask XW TW d n = 0 := by rw [hmask, he, min_eq_right hm]; omega
    have hle : (2 : ℤ) ^ (XW - 1) * 2 ^ (d + n) ≤ 2 ^ (TW - 1) := by
      rw [← pow_add]; exact pow_le_pow_right₀ (by norm_num) (by omega)
    have z0 : -2 ^ (TW - 1) ≤ Z := by
      have := mul_le_mul_of_nonneg_right b0 hNp.le
      rw [hZ]; linarith
    have z1 : Z < 2 ^ (TW - 1) := by
      have := mul_lt_mul_of_pos_right (show X < 2 ^ (XW - 1) by linarith) hNp
      rw [hZ]; linarith
    have hw : wrap TW true Z = Z := wrapS_of_range (by omega) z0 z1
    have hTs : (2 : ℤ) ^ TW = 2 * 2 ^ (TW - 1) := two_pow_succ_pred (by omega)
    have hTp := two_pow_pos' (TW - 1)
    show setOver XW (TW + H + 2) 2 X (mask XW TW d n) (wrap TW true Z * 2 ^ H) = _
    unfold setOver
    rw [hm0, hw]
    simp only [ne_eq, not_true_eq_false, and_false, if_false]
    have e1 : TW + H + 2 - 1 = TW + H + 1 := by omega
    rw [e1, show TW + H + 2 = (TW + H + 1) + 1 by omega, setBit_topS]
    have hK2 : (2 : ℤ) ^ (TW + H + 1) = 2 * (2 ^ TW * 2 ^ H) := by rw [pow_succ, hK]; ring
    by_cases hx : X < 0
    · have hzn : Z < 0 := by rw [hZ]; exact mul_neg_of_neg_of_pos hx hNp
      have hzn2 : Z * 2 ^ H < 0 := mul_neg_of_neg_of_pos hzn hHp
      have hzl : -(2 ^ TW * 2 ^ H) ≤ Z * 2 ^ H := by
        rw [← neg_mul]; exact mul_le_mul_of_nonneg_right (by linarith) hHp.le
      rw [← Int.add_emod_right, Int.emod_eq_of_lt (by rw [hK2]; linarith) (by linarith)]
      simp [hx]
    · have hzn : 0 ≤ Z := by rw [hZ]; exact mul_nonneg (not_lt.mp hx) hNp.le
      have hzn2 : 0 ≤ Z * 2 ^ H := mul_nonneg hzn hHp.le
      have hzl : Z * 2 ^ H < 2 ^ TW * 2 ^ H := mul_lt_mul_of_pos_right (by linarith) hHp
      rw [Int.emod_eq_of_lt hzn2 (by rw [hK2]; have := mul_pos (two_pow_pos' TW) hHp; linarith)]
      simp [hx]
  · have heT : e = TW - (d + n) := by omega
    have heX : e < XW := by omega
    have hpow : (2 : ℕ) ^ e < 2 ^ XW := Nat.pow_lt_pow_right (by norm_num) heX
    have hm0 : mask XW TW d n ≠ 0 := by rw [hmask]; omega
    have hTe : (2 : ℤ) ^ TW ≤ 2 ^ e * 2 ^ (d + n) := by
      rw [← pow_add]; exact pow_le_pow_right₀ (by norm_num) (by omega)
    have heX1 : (2 : ℤ) ^ e ≤ 2 ^ (XW - 1) := pow_le_pow_right₀ (by norm_num) (by omega)
    set l := (Z * 2 ^ H) % 2 ^ (TW + H) with hl
    have l0 : 0 ≤ l := Int.emod_nonneg _ (ne_of_gt hKp)
    have l1 : l < 2 ^ (TW + H) := Int.emod_lt_of_pos _ hKp
    have hK2 : (2 : ℤ) ^ (TW + H + 1) = 2 * 2 ^ (TW + H) := by rw [pow_succ]; ring
    have hy : y = l + (if (anyAnd XW X (mask XW TW d n) && !(anyNotAnd XW X (mask XW TW d n) && decide (X < 0))) = true
        then 2 ^ (TW + H) else 0) - (if X < 0 then 2 ^ (TW + H + 1) else 0) := by
      show setOver XW (TW + H + 2) 2 X (mask XW TW d n) (wrap TW true Z * 2 ^ H) = _
      unfold setOver
      simp only [hm0, ne_eq, not_false_eq_true, and_true, if_true]
      rw [show TW + H + 2 - 1 = TW + H + 1 by omega, show TW + H + 2 - 2 = TW + H by omega]
      have := setBit_topS (TW + H + 1) (wrap TW true Z * 2 ^ H) (decide (X < 0))
      rw [show TW + H + 1 + 1 = TW + H + 2 by omega] at this
      rw [this, setBit_nextS _ (Int.emod_nonneg _ (ne_of_gt (two_pow_pos' _)))
        (Int.emod_lt_of_pos _ (two_pow_pos' _))]
      have e2 : wrap TW true Z * 2 ^ H % 2 ^ (TW + H + 1) % 2 ^ (TW + H) = l := by
        rw [Int.emod_emod_of_dvd _ (pow_dvd_pow 2 (by omega)), hl, hK]
        exact (wrap_modEq TW true Z).mul_right' 
      rw [e2]
      simp
    by_cases hx : X < 0
    · have hpat := pattern_neg (XW := XW) hx (by linarith)
      have hany : anyAnd XW X (mask XW TW d n) = true := by
        rw [anyAnd_left]
        have : ((2 ^ e : ℕ) : ℤ) ≤ ((pattern XW X : ℕ) : ℤ) := by rw [hpat]; push_cast; linarith
        exact_mod_cast this
      have hnot : anyNotAnd XW X (mask XW TW d n) = true ↔ (2 : ℤ) ^ e ≤ -1 - X := by
        rw [anyNotAnd_left]
        have hpl := pattern_lt XW X
        have : ((2 ^ XW - 1 - pattern XW X : ℕ) : ℤ) = -1 - X := by
          have h1 : pattern XW X ≤ 2 ^ XW - 1 := by omega
          rw [Nat.cast_sub h1, hpat, ← two_pow_sub_one_cast]; ring
        rw [← this]; exact_mod_cast Iff.rfl
      rw [hany] at hy
      by_cases hn : anyNotAnd XW X (mask XW TW d n) = true
      · right; right
        rw [hn] at hy
        simp only [hx, decide_true, Bool.and_self, Bool.not_true, Bool.and_false, if_true, if_false,
          Bool.false_eq_true] at hy
        rw [hnot] at hn
        refine ⟨by rw [hy, hK2]; linarith, ?_⟩
        have := mul_le_mul_of_nonneg_right (show X ≤ -2 ^ e by linarith) hNp.le
        rw [hZ]; linarith
      · have hn' : anyNotAnd XW X (mask XW TW d n) = false := by simpa using hn
        rw [hn'] at hy
        simp only [hx, Bool.false_and, Bool.not_false, Bool.and_self, if_true] at hy
        rw [hnot] at hn
        have hXe : -2 ^ e ≤ X := by linarith
        rcases le_or_gt (d + n) TW with hle | hgt
        · left
          have hTe' : (2 : ℤ) ^ TW = 2 ^ e * 2 ^ (d + n) := by rw [← pow_add, heT, Nat.sub_add_cancel hle]
          have z0 : -2 ^ TW ≤ Z := by
            have := mul_le_mul_of_nonneg_right hXe hNp.le
            rw [hZ, hTe']; linarith
          have zn : Z < 0 := by rw [hZ]; exact mul_neg_of_neg_of_pos hx hNp
          have : l = Z * 2 ^ H + 2 ^ (TW + H) := by
            rw [hl, ← Int.add_emod_right]
            apply Int.emod_eq_of_lt
            · have := mul_le_mul_of_nonneg_right z0 hHp.le
              rw [hK]; linarith
            · have := mul_neg_of_neg_of_pos zn hHp; linarith
          rw [hy, this, hK2]; ring
        · right; right
          have : e = 0 := by omega
          rw [this] at hXe
          have hX1 : X = -1 := by simp at hXe; omega
          have hle2 : (2 : ℤ) ^ TW ≤ 2 ^ (d + n) := pow_le_pow_right₀ (by norm_num) hgt.le
          have hl0 : l = 0 := by
            rw [hl, hZ, hX1, hK]
            apply Int.emod_eq_zero_of_dvd
            apply mul_dvd_mul_right
            rw [neg_one_mul]
            exact (pow_dvd_pow 2 hgt.le).neg_right
          refine ⟨by rw [hy, hl0, hK2]; linarith, by rw [hZ, hX1]; linarith⟩
    · have hx' : 0 ≤ X := not_lt.mp hx
      have hpat := pattern_nonneg (XW := XW) hx' (by linarith)
      have hany : anyAnd XW X (mask XW TW d n) = true ↔ (2 : ℤ) ^ e ≤ X := by
        rw [anyAnd_left]; conv_rhs => rw [← hpat]
        exact_mod_cast Iff.rfl
      simp only [hx, decide_false, Bool.and_false, Bool.not_false, Bool.and_true, if_false, sub_zero] at hy
      by_cases ha : anyAnd XW X (mask XW TW d n) = true
      · right; left
        rw [if_pos ha] at hy
        rw [hany] at ha
        have := mul_le_mul_of_nonneg_right ha hNp.le
        exact ⟨by rw [hy]; linarith, by rw [hZ]; linarith⟩
      · left
        rw [if_neg ha, add_zero] at hy
        rw [hany, not_le] at ha
        rw [hy, hl]
        have z0 : 0 ≤ Z := by rw [hZ]; exact mul_nonneg hx' hNp.le
        rcases le_or_gt (d + n) TW with hle | hgt
        · have hTe' : (2 : ℤ) ^ TW = 2 ^ e * 2 ^ (d + n) := by rw [← pow_add, heT, Nat.sub_add_cancel hle]
          have z1 : Z < 2 ^ TW := by rw [hZ, hTe']; exact mul_lt_mul_of_pos_right ha hNp
          exact Int.emod_eq_of_lt (mul_nonneg z0 hHp.le) (by rw [hK]; exact mul_lt_mul_of_pos_right z1 hHp)
        · have : e = 0 := by omega
          rw [this] at ha
          have : X = 0 := by simp at ha; omega
          rw [hZ, this]; simp

/-- The overflow bit of the unsigned versions. -/
theorem over_U {XW TW d n : ℕ} {X : ℤ} (hX : InRange XW false X) :
    (anyAnd XW X (mask XW TW d n) = true → 2 ^ TW ≤ X * 2 ^ d * 2 ^ n) ∧
    (¬ anyAnd XW X (mask XW TW d n) = true → X * 2 ^ d * 2 ^ n < 2 ^ TW) := by
  obtain ⟨b0, b1⟩ := hX
  simp only [minRaw, maxRaw, Bool.false_eq_true, if_false] at b0 b1
  have hZ : X * 2 ^ d * 2 ^ n = X * 2 ^ (d + n) := by rw [pow_add, ← mul_assoc]
  have hNp := two_pow_pos' (d + n)
  have hTp := two_pow_pos' TW
  have hpat := pattern_nonneg (XW := XW) b0 (by linarith)
  have hany : anyAnd XW X (mask XW TW d n) = true ↔ (2 : ℤ) ^ min (TW - (d + n)) XW ≤ X := by
    rw [anyAnd_left]; conv_rhs => rw [← hpat]
    exact_mod_cast Iff.rfl
  rw [hany, hZ]
  set e := min (TW - (d + n)) XW with he
  constructor
  · intro h
    have heX : e < XW := by
      by_contra hc
      have : e = XW := by omega
      rw [this] at h; linarith
    have hTe : (2 : ℤ) ^ TW ≤ 2 ^ e * 2 ^ (d + n) := by
      rw [← pow_add]; exact pow_le_pow_right₀ (by norm_num) (by omega)
    have := mul_le_mul_of_nonneg_right h hNp.le
    linarith
  · intro h
    rw [not_le] at h
    rcases le_or_gt (d + n) TW with hle | hgt
    · have hTe : (2 : ℤ) ^ e * 2 ^ (d + n) ≤ 2 ^ TW := by
        rw [← pow_add]; exact pow_le_pow_right₀ (by norm_num) (by omega)
      exact lt_of_lt_of_le (mul_lt_mul_of_pos_right h hNp) hTe
    · have : e = 0 := by omega
      rw [this] at h
      have : X = 0 := by simp at h; omega
      rw [this]; simpa using hTp

/-! ## Conversion of the intermediate result -/

theorem pow_cast_zpow (k : ℕ) : (((2 : ℤ) ^ k : ℤ) : ℚ) = (2 : ℚ) ^ (k : ℤ) := by push_cast; rw [zpow_natCast]

theorem zpow_mul_zpow (a b : ℤ) : (2 : ℚ) ^ a * 2 ^ b = 2 ^ (a + b) := (zpow_add₀ (by norm_num) a b).symm

theorem zpow_pos' (a : ℤ) : (0 : ℚ) < 2 ^ a := zpow_pos (by norm_num) a

theorem maxRaw_lt (W : ℕ) (S : Bool) : maxRaw W S + 1 ≤ 2 ^ W := by
  have : (2 : ℤ) ^ (W - 1) ≤ 2 ^ W := pow_le_pow_right₀ (by norm_num) (by omega)
  cases S <;> simp [maxRaw]; exact this

theorem le_minRaw {W : ℕ} (hW : 1 ≤ W) (S : Bool) : -2 ^ W ≤ minRaw W S - 1 := by
  have h1 := two_pow_succ_pred hW
  have h2 := two_pow_pos' (W - 1)
  have h3 := two_pow_pos' W
  cases S <;> simp [minRaw] <;> linarith

/-- Well-formed intermediate type for an input format: it holds every input value. -/
structure Holds (T : TFmt) (fx : Fmt) : Prop where
  ti : fx.I ≤ T.TI
  tf : fx.F ≤ T.TF
  w : 1 ≤ fx.W

theorem Holds.tw {T : TFmt} {fx : Fmt} (h : Holds T fx) : ((T.TW : ℕ) : ℤ) = T.TI + T.TF := by
  have h1 := h.ti
  have h2 := h.tf
  have h3 := h.w
  unfold TFmt.TW
  unfold Fmt.F at h2
  rw [Int.toNat_of_nonneg]; omega

theorem Holds.d {T : TFmt} {fx : Fmt} (h : Holds T fx) : ((T.d fx : ℕ) : ℤ) = T.TF - fx.F := by
  have h2 := h.tf
  unfold TFmt.d
  rw [Int.toNat_of_nonneg]; omega

theorem Holds.le {T : TFmt} {fx : Fmt} (h : Holds T fx) : fx.W + T.d fx ≤ T.TW := by
  have h1 := h.tw
  have h2 := h.d
  have h3 := h.ti
  unfold Fmt.F at *
  omega

theorem val_shl {T : TFmt} {fx : Fmt} (h : Holds T fx) (X : ℤ) (n : ℕ) :
    ((X * 2 ^ T.d fx * 2 ^ n : ℤ) : ℚ) = fx.val X * 2 ^ (n : ℤ) * 2 ^ T.TF := by
  unfold Fmt.val
  push_cast
  have hd := h.d
  rw [← zpow_natCast, ← zpow_natCast, hd]
  rw [mul_assoc, mul_assoc, mul_assoc, zpow_mul_zpow, zpow_mul_zpow, zpow_mul_zpow]
  congr 2; ring

theorem scale_ge {fo : Fmt} {TI TF : ℤ} {TW H : ℕ} (hTW : (TW : ℤ) = TI + TF) (hO : fo.I ≤ TI) {y : ℤ}
    (hy : 2 ^ (TW + H) ≤ y) : ((maxRaw fo.W fo.S + 1 : ℤ) : ℚ) ≤ (y : ℚ) * 2 ^ (-(TF + H)) * 2 ^ fo.F := by
  have h1 : (((2 : ℤ) ^ (TW + H) : ℤ) : ℚ) ≤ (y : ℚ) := by exact_mod_cast hy
  have h2 : ((maxRaw fo.W fo.S + 1 : ℤ) : ℚ) ≤ (((2 : ℤ) ^ fo.W : ℤ) : ℚ) := by exact_mod_cast maxRaw_lt _ _
  rw [pow_cast_zpow] at h1 h2
  rw [mul_assoc, zpow_mul_zpow]
  have h3 : (2 : ℚ) ^ ((TW + H : ℕ) : ℤ) * 2 ^ (-(TF + H) + fo.F) ≤ y * 2 ^ (-(TF + H) + fo.F) :=
    mul_le_mul_of_nonneg_right h1 (zpow_pos' _).le
  rw [zpow_mul_zpow] at h3
  have h4 : (2 : ℚ) ^ (fo.W : ℤ) ≤ 2 ^ (((TW + H : ℕ) : ℤ) + (-(TF + H) + fo.F)) := by
    apply zpow_le_zpow_right₀ (by norm_num)
    unfold Fmt.F; push_cast; linarith
  linarith

theorem scale_le {fo : Fmt} {TI TF : ℤ} {TW H : ℕ} (hTW : (TW : ℤ) = TI + TF) (hO : fo.I ≤ TI) (hW : 1 ≤ fo.W) {y : ℤ}
    (hy : y ≤ -2 ^ (TW + H)) : (y : ℚ) * 2 ^ (-(TF + H)) * 2 ^ fo.F ≤ ((minRaw fo.W fo.S - 1 : ℤ) : ℚ) := by
  have h1 : (y : ℚ) ≤ -(((2 : ℤ) ^ (TW + H) : ℤ) : ℚ) := by exact_mod_cast hy
  have h2 : -(((2 : ℤ) ^ fo.W : ℤ) : ℚ) ≤ ((minRaw fo.W fo.S - 1 : ℤ) : ℚ) := by exact_mod_cast le_minRaw hW _
  rw [pow_cast_zpow] at h1 h2
  rw [mul_assoc, zpow_mul_zpow]
  have h3 : y * 2 ^ (-(TF + H) + fo.F) ≤ -(2 : ℚ) ^ ((TW + H : ℕ) : ℤ) * 2 ^ (-(TF + H) + fo.F) :=
    mul_le_mul_of_nonneg_right h1 (zpow_pos' _).le
  rw [neg_mul, zpow_mul_zpow] at h3
  have h4 : (2 : ℚ) ^ (fo.W : ℤ) ≤ 2 ^ (((TW + H : ℕ) : ℤ) + (-(TF + H) + fo.F)) := by
    apply zpow_le_zpow_right₀ (by norm_num)
    unfold Fmt.F; push_cast; linarith
  linarith

theorem out_exact {T : TFmt} {fx fo : Fmt} (h : Holds T fx) (X : ℤ) (n H : ℕ) :
    out fo (T.TF + H) (X * 2 ^ T.d fx * 2 ^ n * 2 ^ H) = fo.cvt (fx.val X * 2 ^ (n : ℤ)) := by
  unfold out
  have e : ((X * 2 ^ T.d fx * 2 ^ n * 2 ^ H : ℤ) : ℚ) = ((X * 2 ^ T.d fx * 2 ^ n : ℤ) : ℚ) * 2 ^ (H : ℤ) := by
    push_cast; rw [zpow_natCast]
  rw [e, val_shl h, mul_assoc, mul_assoc, zpow_mul_zpow, zpow_mul_zpow]
  congr 1
  have : T.TF + (↑H + -(T.TF + ↑H)) = 0 := by ring
  rw [this]; simp

/-- Left shift, saturating outputs: the intermediate is exact, or both it and the exact result overflow. -/
theorem left_sat {T : TFmt} {fx fo : Fmt} (h : Holds T fx) (hO : fo.I ≤ T.TI) (hW : 1 ≤ fo.W) (ho : fo.O ≠ .WRAP)
    {X : ℤ} {n H : ℕ} {y : ℤ}
    (hy : y = X * 2 ^ T.d fx * 2 ^ n * 2 ^ H ∨ (2 ^ (T.TW + H) ≤ y ∧ 2 ^ T.TW ≤ X * 2 ^ T.d fx * 2 ^ n) ∨
      (y ≤ -2 ^ (T.TW + H) ∧ X * 2 ^ T.d fx * 2 ^ n ≤ -2 ^ T.TW)) :
    out fo (T.TF + H) y = fo.cvt (fx.val X * 2 ^ (n : ℤ)) := by
  have hv : fx.val X * 2 ^ (n : ℤ) = ((X * 2 ^ T.d fx * 2 ^ n : ℤ) : ℚ) * 2 ^ (-(T.TF + (0 : ℕ))) := by
    rw [val_shl h, mul_assoc _ ((2 : ℚ) ^ T.TF), zpow_mul_zpow]; simp
  rcases hy with rfl | ⟨h1, h2⟩ | ⟨h1, h2⟩
  · exact out_exact h X n H
  · unfold out
    apply Fmt.cvt_over ho (scale_ge h.tw hO h1)
    rw [hv]; exact scale_ge h.tw hO (H := 0) (by simpa using h2)
  · unfold out
    apply Fmt.cvt_under ho (scale_le h.tw hO hW h1)
    rw [hv]; exact scale_le h.tw hO hW (H := 0) (by simpa using h2)

/-- Left shift, wrapping outputs. -/
theorem left_wrap {T : TFmt} {fx fo : Fmt} (h : Holds T fx) (hO : fo.I ≤ T.TI) (hW : 1 ≤ fo.W) (ho : fo.O = .WRAP)
    {X : ℤ} {n H : ℕ} {y : ℤ} (hy : y ≡ X * 2 ^ T.d fx * 2 ^ n * 2 ^ H [ZMOD 2 ^ (T.TW + H)])
    (hs : fo.Q.signFree = true ∨ (X < 0 ↔ y < 0)) :
    out fo (T.TF + H) y = fo.cvt (fx.val X * 2 ^ (n : ℤ)) := by
  obtain ⟨k, hk⟩ := hy.symm.dvd
  have hj : ∃ j : ℕ, (j : ℤ) = T.TI - fo.I := ⟨(T.TI - fo.I).toNat, Int.toNat_of_nonneg (by linarith)⟩
  obtain ⟨j, hj⟩ := hj
  symm
  unfold out
  apply Fmt.cvt_wrap_add hW ho (k * 2 ^ j)
  · have hyk : (y : ℚ) = ((X * 2 ^ T.d fx * 2 ^ n : ℤ) : ℚ) * 2 ^ (H : ℤ) + 2 ^ ((T.TW + H : ℕ) : ℤ) * k := by
      have : y = X * 2 ^ T.d fx * 2 ^ n * 2 ^ H + 2 ^ (T.TW + H) * k := by linarith
      rw [this]; push_cast; rw [zpow_natCast, ← Nat.cast_add, zpow_natCast]
    rw [hyk, val_shl h, add_mul, add_mul]
    congr 1
    · rw [mul_assoc, mul_assoc, mul_assoc, mul_assoc, zpow_mul_zpow, zpow_mul_zpow, zpow_mul_zpow, zpow_mul_zpow,
        mul_assoc, zpow_mul_zpow]
      congr 2; ring
    · have : ((k * 2 ^ j * 2 ^ fo.W : ℤ) : ℚ) = k * (2 ^ (j : ℤ) * 2 ^ (fo.W : ℤ)) := by
        push_cast; rw [zpow_natCast, zpow_natCast]; ring
      rw [this, zpow_mul_zpow, mul_comm ((2 : ℚ) ^ ((T.TW + H : ℕ) : ℤ)), mul_assoc, mul_assoc, zpow_mul_zpow,
        zpow_mul_zpow]
      congr 2
      have := h.tw
      unfold Fmt.F; push_cast; linarith
  · rcases hs with hs | hs
    · exact Or.inl hs
    · right
      have a1 : fx.val X * 2 ^ (n : ℤ) < 0 ↔ X < 0 := by
        unfold Fmt.val
        rw [mul_assoc, zpow_mul_zpow, mul_neg_iff]
        have := zpow_pos' (-fx.F + n)
        constructor
        · rintro (⟨_, h⟩ | ⟨h, _⟩)
          · linarith
          · exact_mod_cast h
        · intro h; right; exact ⟨by exact_mod_cast h, this⟩
      have a2 : (y : ℚ) * 2 ^ (-(T.TF + H)) < 0 ↔ y < 0 := by
        rw [mul_neg_iff]
        have := zpow_pos' (-(T.TF + H))
        constructor
        · rintro (⟨_, h⟩ | ⟨h, _⟩)
          · linarith
          · exact_mod_cast h
        · intro h; right; exact ⟨by exact_mod_cast h, this⟩
      rw [a1, a2, hs]

/-! ## Right shift -/

theorem wrap_right {T : TFmt} {fx : Fmt} (h : Holds T fx) {X : ℤ} (hX : InRange fx.W fx.S X) (n : ℕ) :
    InRange T.TW fx.S (X * 2 ^ T.d fx / 2 ^ n) ∧ tRaw T fx X n = X * 2 ^ T.d fx / 2 ^ n := by
  have hle := h.le
  have hw := h.w
  have hdp := two_pow_pos' (T.d fx)
  have hnp := two_pow_pos' n
  have hn1 : (1 : ℤ) ≤ 2 ^ n := by linarith
  have key : InRange T.TW fx.S (X * 2 ^ T.d fx / 2 ^ n) := by
    obtain ⟨h0, h1⟩ := hX
    set A := X * 2 ^ T.d fx with hA
    have hdiv_le : ∀ B : ℤ, A ≤ B → 0 ≤ B → A / 2 ^ n ≤ B := by
      intro B hB hB0
      apply Int.ediv_le_of_le_mul hnp
      nlinarith
    have hle_div : ∀ B : ℤ, B ≤ A → B ≤ 0 → B ≤ A / 2 ^ n := by
      intro B hB hB0
      apply Int.le_ediv_of_mul_le hnp
      nlinarith
    have p1 : (2 : ℤ) ^ (fx.W - 1) * 2 ^ T.d fx ≤ 2 ^ (T.TW - 1) := by
      rw [← pow_add]; exact pow_le_pow_right₀ (by norm_num) (by omega)
    have p2 : (2 : ℤ) ^ fx.W * 2 ^ T.d fx ≤ 2 ^ T.TW := by
      rw [← pow_add]; exact pow_le_pow_right₀ (by norm_num) (by omega)
    constructor
    · apply hle_div
      · cases hS : fx.S <;> simp only [hS, minRaw, if_true, if_false, Bool.false_eq_true] at h0 ⊢
        · exact mul_nonneg h0 hdp.le
        · have := mul_le_mul_of_nonneg_right h0 hdp.le
          linarith
      · exact minRaw_nonpos _ _
    · apply hdiv_le
      · cases hS : fx.S <;> simp only [hS, maxRaw, if_true, if_false, Bool.false_eq_true] at h1 ⊢
        · have := mul_le_mul_of_nonneg_right h1 hdp.le
          linarith
        · have := mul_le_mul_of_nonneg_right h1 hdp.le
          linarith
      · exact maxRaw_nonneg _ _
  refine ⟨key, ?_⟩
  unfold tRaw
  rw [shr_nat]
  exact wrap_of_range (by omega) key.1 key.2

theorem val_shr {T : TFmt} {fx : Fmt} (h : Holds T fx) (X : ℤ) (n : ℕ) :
    fx.val X * 2 ^ (-(n : ℤ)) * 2 ^ T.TF = ((X * 2 ^ T.d fx : ℤ) : ℚ) / 2 ^ n := by
  unfold Fmt.val
  rw [div_eq_mul_inv, ← zpow_natCast, ← zpow_neg]
  push_cast
  rw [← zpow_natCast, h.d, mul_assoc, mul_assoc, mul_assoc, zpow_mul_zpow, zpow_mul_zpow, zpow_mul_zpow]
  congr 2; ring

theorem div_bounds (A : ℤ) (n : ℕ) :
    ((A / 2 ^ n : ℤ) : ℚ) ≤ (A : ℚ) / 2 ^ n ∧ (A : ℚ) / 2 ^ n < ((A / 2 ^ n : ℤ) : ℚ) + 1 ∧
      (A % 2 ^ n = 0 ↔ (A : ℚ) / 2 ^ n = ((A / 2 ^ n : ℤ) : ℚ)) := by
  have hp := two_pow_pos' n
  have hpq : (0 : ℚ) < 2 ^ n := by positivity
  have h := Int.mul_ediv_add_emod A (2 ^ n)
  have h0 := Int.emod_nonneg A (ne_of_gt hp)
  have h1 := Int.emod_lt_of_pos A hp
  have hq : (A : ℚ) = 2 ^ n * ((A / 2 ^ n : ℤ) : ℚ) + ((A % 2 ^ n : ℤ) : ℚ) := by
    exact_mod_cast congrArg (Int.cast (R := ℚ)) h.symm
  have e : (A : ℚ) / 2 ^ n = ((A / 2 ^ n : ℤ) : ℚ) + ((A % 2 ^ n : ℤ) : ℚ) / 2 ^ n := by
    rw [hq, add_div, mul_div_cancel_left₀ _ (ne_of_gt hpq)]
  have h0q : (0 : ℚ) ≤ ((A % 2 ^ n : ℤ) : ℚ) / 2 ^ n := div_nonneg (by exact_mod_cast h0) hpq.le
  have h1q : ((A % 2 ^ n : ℤ) : ℚ) / 2 ^ n < 1 := by rw [div_lt_one hpq]; exact_mod_cast h1
  refine ⟨by linarith, by linarith, ?_⟩
  rw [e]
  constructor
  · intro h; rw [h]; simp
  · intro h
    have : ((A % 2 ^ n : ℤ) : ℚ) / 2 ^ n = 0 := by linarith
    rw [div_eq_zero_iff] at this
    rcases this with h | h
    · exact_mod_cast h
    · exact absurd h (ne_of_gt hpq)

theorem mul_zpow_cancel (a : ℚ) (k : ℤ) : a * 2 ^ (-k) * 2 ^ k = a := by
  rw [mul_assoc, zpow_mul_zpow]; simp

/-- Right shift without a sticky bit. -/
theorem right_plain {T : TFmt} {fx fo : Fmt} (h : Holds T fx) {X : ℤ} (hX : InRange fx.W fx.S X) (n : ℕ)
    (hS : fo.S = fx.S) (hH : rHalf fo.S fo.Q = 0) (hTF : fo.F + rBit fo.S fo.Q ≤ T.TF) :
    out fo (T.TF + (0 : ℕ)) (tRaw T fx X n * 2 ^ 0) = fo.cvt (fx.val X * 2 ^ (-(n : ℤ))) := by
  obtain ⟨-, ht⟩ := wrap_right h hX n
  rw [ht]
  obtain ⟨d0, d1, -⟩ := div_bounds (X * 2 ^ T.d fx) n
  rw [← val_shr h] at d0 d1
  symm
  unfold out
  simp only [pow_zero, mul_one, Nat.cast_zero, add_zero]
  apply Fmt.cvt_cell_closed (g := T.TF) (m := X * 2 ^ T.d fx / 2 ^ n) _ d0 d1
  · rw [mul_zpow_cancel]
  · rw [mul_zpow_cancel]; linarith
  · have hpos : fx.S = false → 0 ≤ fx.val X * 2 ^ (-(n : ℤ)) := by
      intro hS'
      rw [hS'] at hX
      have : 0 ≤ X := by simpa [InRange, minRaw] using hX.1
      unfold Fmt.val
      have h1 := zpow_pos' (-fx.F)
      have h2 := zpow_pos' (-(n : ℤ))
      have h3 : (0 : ℚ) ≤ X := by exact_mod_cast this
      positivity
    rw [hS] at *
    cases hs : fx.S <;> cases hq : fo.Q <;> simp_all [rHalf, rBit]

/-- Right shift with a sticky bit. -/
theorem right_sticky {T : TFmt} {fx fo : Fmt} (h : Holds T fx) {X : ℤ} (hX : InRange fx.W fx.S X) (n : ℕ) {W2 : ℕ}
    (hW2 : T.TW + 1 ≤ W2) (hTF : fo.F + 1 ≤ T.TF) :
    out fo (T.TF + (1 : ℕ)) (setBit W2 fx.S (tRaw T fx X n * 2 ^ 1) 0 (anyAnd fx.W X (mask fx.W T.TW (T.d fx) (-n)))) =
      fo.cvt (fx.val X * 2 ^ (-(n : ℤ))) := by
  have hTW : 1 ≤ T.TW := by have := h.le; have := h.w; omega
  obtain ⟨hr, ht⟩ := wrap_right h hX n
  rw [ht, setBit_low hTW hW2 hr]
  have hany := anyAnd_right h.w h.le hX n
  obtain ⟨d0, d1, d2⟩ := div_bounds (X * 2 ^ T.d fx) n
  rw [← val_shr h] at d0 d1 d2
  set t := X * 2 ^ T.d fx / 2 ^ n with htt
  unfold out
  have half : ∀ b : ℚ, (2 * t + b) * 2 ^ (-(T.TF + (1 : ℕ))) * 2 ^ T.TF = t + b / 2 := by
    intro b
    rw [mul_assoc, zpow_mul_zpow]
    have : -(T.TF + ((1 : ℕ) : ℤ)) + T.TF = -1 := by push_cast; ring
    rw [this, zpow_neg_one]; ring
  by_cases ha : anyAnd fx.W X (mask fx.W T.TW (T.d fx) (-n)) = true
  · rw [if_pos ha]
    rw [hany] at ha
    have hne : (t : ℚ) < fx.val X * 2 ^ (-(n : ℤ)) * 2 ^ T.TF :=
      lt_of_le_of_ne d0 (fun hc => ha (d2.mpr hc.symm))
    apply Fmt.cvt_cell hTF (m := t) _ _ hne d1
    · push_cast; have := half 1; push_cast at this; rw [this]; norm_num
    · push_cast; have := half 1; push_cast at this; rw [this]; norm_num
  · rw [if_neg ha]
    rw [hany, not_not, d2] at ha
    congr 1
    have hc : fx.val X * 2 ^ (-(n : ℤ)) = fx.val X * 2 ^ (-(n : ℤ)) * 2 ^ T.TF * 2 ^ (-T.TF) := by
      rw [mul_assoc (_ * _), zpow_mul_zpow]; simp
    rw [hc, ha]
    push_cast
    rw [add_zero, mul_comm (2 : ℚ), mul_assoc]
    congr 1
    rw [show -T.TF = 1 + -(T.TF + 1) by ring, zpow_add₀ (by norm_num : (2 : ℚ) ≠ 0), zpow_one]

/-- Left-shifted intermediate, wrapping representation. -/
theorem tRaw_left (T : TFmt) (fx : Fmt) (X : ℤ) (n : ℕ) :
    tRaw T fx X (-n) = wrap T.TW fx.S (X * 2 ^ T.d fx * 2 ^ n) := by
  unfold tRaw; rw [shr_neg]

theorem tRaw_left_modEq (T : TFmt) (fx : Fmt) (X : ℤ) (n H : ℕ) :
    tRaw T fx X (-n) * 2 ^ H ≡ X * 2 ^ T.d fx * 2 ^ n * 2 ^ H [ZMOD 2 ^ (T.TW + H)] := by
  rw [tRaw_left, pow_add]
  exact (wrap_modEq _ _ _).mul_right'

theorem val_nonneg {fx : Fmt} {X : ℤ} (hS : fx.S = false) (hX : InRange fx.W fx.S X) : 0 ≤ X := by
  rw [hS] at hX; simpa [InRange, minRaw] using hX.1

/-- Unsigned left shift, wrapping. -/
theorem left_U_wrap {T : TFmt} {fx fo : Fmt} (h : Holds T fx) (hO : fo.I ≤ T.TI) (hW : 1 ≤ fo.W) (ho : fo.O = .WRAP)
    (hS : fx.S = false) {X : ℤ} (hX : InRange fx.W fx.S X) (n H : ℕ) :
    out fo (T.TF + H) (tRaw T fx X (-n) * 2 ^ H) = fo.cvt (fx.val X * 2 ^ (n : ℤ)) := by
  apply left_wrap h hO hW ho (tRaw_left_modEq _ _ _ _ _)
  right
  have h0 := val_nonneg hS hX
  have h1 : 0 ≤ tRaw T fx X (-n) * 2 ^ H := by
    rw [tRaw_left, hS]; exact mul_nonneg (wrapU_nonneg _ _) (two_pow_pos' H).le
  constructor <;> intro <;> omega

/-- Unsigned left shift, saturating. -/
theorem left_U_sat {T : TFmt} {fx fo : Fmt} (h : Holds T fx) (hO : fo.I ≤ T.TI) (hW : 1 ≤ fo.W) (ho : fo.O ≠ .WRAP)
    (hS : fx.S = false) {X : ℤ} (hX : InRange fx.W fx.S X) (n H : ℕ) :
    out fo (T.TF + H) (setBit (T.TW + H + 1) false (tRaw T fx X (-n) * 2 ^ H) (T.TW + H)
      (anyAnd fx.W X (mask fx.W T.TW (T.d fx) n))) = fo.cvt (fx.val X * 2 ^ (n : ℤ)) := by
  apply left_sat h hO hW ho
  have h0 := val_nonneg hS hX
  rw [hS] at hX
  obtain ⟨o1, o2⟩ := over_U (TW := T.TW) (d := T.d fx) (n := n) hX
  have hHp := two_pow_pos' H
  rw [tRaw_left, hS]
  have w0 := wrapU_nonneg T.TW (X * 2 ^ T.d fx * 2 ^ n)
  have w1 := wrapU_lt T.TW (X * 2 ^ T.d fx * 2 ^ n)
  have y0 := mul_nonneg w0 hHp.le
  have y1 := mul_lt_mul_of_pos_right w1 hHp
  rw [← pow_add] at y1
  rw [setBit_topU y0 y1]
  by_cases ha : anyAnd fx.W X (mask fx.W T.TW (T.d fx) n) = true
  · right; left
    rw [if_pos ha]
    exact ⟨by linarith, o1 ha⟩
  · left
    rw [if_neg ha, add_zero, wrapU_of_lt _ (o2 ha)]
    have := two_pow_pos' (T.d fx)
    have := two_pow_pos' n
    positivity

/-- Signed left shift, saturating. -/
theorem left_S_sat {T : TFmt} {fx fo : Fmt} (h : Holds T fx) (hO : fo.I ≤ T.TI) (hW : 1 ≤ fo.W) (ho : fo.O ≠ .WRAP)
    (hS : fx.S = true) {X : ℤ} (hX : InRange fx.W fx.S X) (n H : ℕ) :
    out fo (T.TF + H) (setOver fx.W (T.TW + H + 2) 2 X (mask fx.W T.TW (T.d fx) n) (tRaw T fx X (-n) * 2 ^ H)) =
      fo.cvt (fx.val X * 2 ^ (n : ℤ)) := by
  apply left_sat h hO hW ho
  rw [tRaw_left, hS]
  rw [hS] at hX
  exact setOver_two h.w hX

/-- Signed left shift, wrapping, sign bit set explicitly. -/
theorem left_S_wrap {T : TFmt} {fx fo : Fmt} (h : Holds T fx) (hO : fo.I ≤ T.TI) (hW : 1 ≤ fo.W) (ho : fo.O = .WRAP)
    (X : ℤ) (n H m : ℕ) :
    out fo (T.TF + H) (setOver fx.W (T.TW + H + 1) 1 X m (tRaw T fx X (-n) * 2 ^ H)) =
      fo.cvt (fx.val X * 2 ^ (n : ℤ)) := by
  rw [setOver_one]
  have hp := two_pow_pos' (T.TW + H)
  apply left_wrap h hO hW ho
  · have h1 : tRaw T fx X (-n) * 2 ^ H % 2 ^ (T.TW + H) - (if X < 0 then 2 ^ (T.TW + H) else 0) ≡
        tRaw T fx X (-n) * 2 ^ H [ZMOD 2 ^ (T.TW + H)] := by
      split_ifs
      · have := (Int.mod_modEq (tRaw T fx X (-n) * 2 ^ H) (2 ^ (T.TW + H))).sub
          (show (2 : ℤ) ^ (T.TW + H) ≡ 0 [ZMOD 2 ^ (T.TW + H)] from Int.modEq_zero_iff_dvd.mpr dvd_rfl)
        simpa using this
      · simpa using Int.mod_modEq (tRaw T fx X (-n) * 2 ^ H) (2 ^ (T.TW + H))
    exact h1.trans (tRaw_left_modEq _ _ _ _ _)
  · right
    have m0 := Int.emod_nonneg (tRaw T fx X (-n) * 2 ^ H) (ne_of_gt hp)
    have m1 := Int.emod_lt_of_pos (tRaw T fx X (-n) * 2 ^ H) hp
    split_ifs with hx
    · exact ⟨fun _ => by linarith, fun _ => hx⟩
    · exact ⟨fun h => absurd h hx, fun h => by linarith⟩

/-! ## The eight overloads -/

theorem holds_right {fx fo : Fmt} (hw : 1 ≤ fx.W) : Holds (tRight fx fo) fx := ⟨le_refl _, le_max_left _ _, hw⟩
theorem holds_left {fx fo : Fmt} (hw : 1 ≤ fx.W) : Holds (tLeft fx fo) fx := ⟨le_max_left _ _, le_refl _, hw⟩
theorem holds_both {fx fo : Fmt} (hw : 1 ≤ fx.W) : Holds (tBoth fx fo) fx := ⟨le_max_left _ _, le_max_left _ _, hw⟩

theorem rHalf_cases (S : Bool) (q : QMode) : rHalf S q = 0 ∨ (rHalf S q = 1 ∧ rBit S q = 1) := by
  cases S <;> cases q <;> simp [rHalf, rBit]

theorem rightUU_eq {fx fo : Fmt} (hx : 1 ≤ fx.W) (hSx : fx.S = false) (hSo : fo.S = false) {X : ℤ}
    (hX : InRange fx.W fx.S X) (n : ℕ) : rightUU fx fo X n = fo.cvt (fx.val X * 2 ^ (-(n : ℤ))) := by
  have h := holds_right (fo := fo) hx
  unfold rightUU
  rcases rHalf_cases false fo.Q with hH | ⟨hH, hB⟩
  · simp only [hH, ne_eq, not_true_eq_false, if_false]
    exact right_plain h hX n (hSo.trans hSx.symm) (by rw [hSo, hH]) (le_max_right _ _)
  · simp only [hH, ne_eq, one_ne_zero, not_false_eq_true, if_true]
    have := right_sticky (fo := fo) h hX n (le_refl _) (by
      have : fo.F + rBit fo.S fo.Q ≤ (tRight fx fo).TF := le_max_right _ _
      rw [hSo, hB] at this; exact_mod_cast this)
    rw [hSx] at this
    exact this

theorem rightSU_eq {fx fo : Fmt} (hx : 1 ≤ fx.W) (hSx : fx.S = true) (hSo : fo.S = true) {X : ℤ}
    (hX : InRange fx.W fx.S X) (n : ℕ) : rightSU fx fo X n = fo.cvt (fx.val X * 2 ^ (-(n : ℤ))) := by
  have h := holds_right (fo := fo) hx
  unfold rightSU
  rcases rHalf_cases true fo.Q with hH | ⟨hH, hB⟩
  · simp only [hH, ne_eq, not_true_eq_false, if_false]
    exact right_plain h hX n (hSo.trans hSx.symm) (by rw [hSo, hH]) (le_max_right _ _)
  · simp only [hH, ne_eq, one_ne_zero, not_false_eq_true, if_true]
    have := right_sticky (fo := fo) h hX n (le_refl _) (by
      have : fo.F + rBit fo.S fo.Q ≤ (tRight fx fo).TF := le_max_right _ _
      rw [hSo, hB] at this; exact_mod_cast this)
    rw [hSx] at this
    exact this

/-- The body shared by the two unsigned bidirectional versions. -/
def bodyUS (fx fo : Fmt) (X n : ℤ) (right : Bool) : ℚ :=
  let T := tBoth fx fo
  let H := rHalf false fo.Q
  let V := sOver false fo.O
  let t2 := tRaw T fx X n * 2 ^ H
  let W2 := T.TW + H + V
  let t2 :=
    if H ≠ 0 ∨ V ≠ 0 then
      let m := mask fx.W T.TW (T.d fx) (-n)
      if right then
        if H ≠ 0 then setBit W2 false t2 0 (anyAnd fx.W X m) else t2
      else
        if V ≠ 0 then setBit W2 false t2 (W2 - 1) (anyAnd fx.W X m) else t2
    else t2
  out fo (T.TF + H) t2

/-- The body shared by the two signed bidirectional versions. -/
def bodySS (fx fo : Fmt) (X n : ℤ) (right : Bool) : ℚ :=
  let T := tBoth fx fo
  let H := rHalf true fo.Q
  let V := sOver true fo.O
  let t2 := tRaw T fx X n * 2 ^ H
  let W2 := T.TW + H + V
  let t2 :=
    if H ≠ 0 ∨ V = 2 then
      let m := mask fx.W T.TW (T.d fx) (-n)
      if right then
        if H ≠ 0 then setBit W2 true t2 0 (anyAnd fx.W X m) else t2
      else setOver fx.W W2 V X m t2
    else t2
  out fo (T.TF + H) t2

theorem bodyUS_right {fx fo : Fmt} (hx : 1 ≤ fx.W) (hSx : fx.S = false) (hSo : fo.S = false) {X : ℤ}
    (hX : InRange fx.W fx.S X) (n : ℕ) : bodyUS fx fo X n true = fo.cvt (fx.val X * 2 ^ (-(n : ℤ))) := by
  have h := holds_both (fo := fo) hx
  unfold bodyUS
  rcases rHalf_cases false fo.Q with hH | ⟨hH, hB⟩
  · have := right_plain h hX n (hSo.trans hSx.symm) (by rw [hSo, hH]) (le_max_right _ _)
    simp only [hH, ne_eq, not_true_eq_false, if_false, if_true, ite_self]
    exact this
  · have := right_sticky (fo := fo) (W2 := (tBoth fx fo).TW + 1 + sOver false fo.O) h hX n (by omega) (by
      have : fo.F + rBit fo.S fo.Q ≤ (tBoth fx fo).TF := le_max_right _ _
      rw [hSo, hB] at this; exact_mod_cast this)
    simp only [hH, ne_eq, one_ne_zero, not_false_eq_true, true_or, if_true]
    rw [hSx] at this
    exact this

theorem bodySS_right {fx fo : Fmt} (hx : 1 ≤ fx.W) (hSx : fx.S = true) (hSo : fo.S = true) {X : ℤ}
    (hX : InRange fx.W fx.S X) (n : ℕ) : bodySS fx fo X n true = fo.cvt (fx.val X * 2 ^ (-(n : ℤ))) := by
  have h := holds_both (fo := fo) hx
  unfold bodySS
  rcases rHalf_cases true fo.Q with hH | ⟨hH, hB⟩
  · have := right_plain h hX n (hSo.trans hSx.symm) (by rw [hSo, hH]) (le_max_right _ _)
    simp only [hH, ne_eq, not_true_eq_false, if_false, if_true, ite_self]
    exact this
  · have := right_sticky (fo := fo) (W2 := (tBoth fx fo).TW + 1 + sOver true fo.O) h hX n (by omega) (by
      have : fo.F + rBit fo.S fo.Q ≤ (tBoth fx fo).TF := le_max_right _ _
      rw [hSo, hB] at this; exact_mod_cast this)
    simp only [hH, ne_eq, one_ne_zero, not_false_eq_true, true_or, if_true]
    rw [hSx] at this
    exact this

theorem bodyUS_left {fx fo : Fmt} (hx : 1 ≤ fx.W) (hW : 1 ≤ fo.W) (hSx : fx.S = false) {X : ℤ}
    (hX : InRange fx.W fx.S X) (n : ℕ) : bodyUS fx fo X (-n) false = fo.cvt (fx.val X * 2 ^ (n : ℤ)) := by
  have h := holds_both (fo := fo) hx
  have hO : fo.I ≤ (tBoth fx fo).TI := le_max_right _ _
  unfold bodyUS
  by_cases ho : fo.O = .WRAP
  · have hV : sOver false fo.O = 0 := by simp [sOver, ho]
    simp only [hV, ne_eq, not_true_eq_false, if_false, Bool.false_eq_true, ite_self]
    exact left_U_wrap h hO hW ho hSx hX n _
  · have hV : sOver false fo.O = 1 := by simp [sOver, ho]
    simp only [hV, ne_eq, one_ne_zero, not_false_eq_true, or_true, if_true, Bool.false_eq_true, if_false, neg_neg,
      Nat.add_sub_cancel]
    exact left_U_sat h hO hW ho hSx hX n _

theorem bodySS_left {fx fo : Fmt} (hx : 1 ≤ fx.W) (hW : 1 ≤ fo.W) (hSx : fx.S = true) {X : ℤ}
    (hX : InRange fx.W fx.S X) (n : ℕ) : bodySS fx fo X (-n) false = fo.cvt (fx.val X * 2 ^ (n : ℤ)) := by
  have h := holds_both (fo := fo) hx
  have hO : fo.I ≤ (tBoth fx fo).TI := le_max_right _ _
  unfold bodySS
  by_cases ho : fo.O = .WRAP
  · have hV : sOver true fo.O = 1 := by simp [sOver, ho]
    by_cases hH : rHalf true fo.Q = 0
    · simp only [hV, hH, ne_eq, not_true_eq_false, OfNat.one_ne_ofNat, or_self, if_false]
      apply left_wrap h hO hW ho (tRaw_left_modEq _ _ _ _ _)
      left
      cases hq : fo.Q <;> simp [hq, rHalf, rBit] at hH ⊢ <;> rfl
    · simp only [hV, hH, ne_eq, not_false_eq_true, true_or, if_true, Bool.false_eq_true, if_false]
      exact left_S_wrap h hO hW ho X n _ _
  · have hV : sOver true fo.O = 2 := by simp [sOver, ho]
    simp only [hV, or_true, if_true, Bool.false_eq_true, if_false, neg_neg]
    exact left_S_sat h hO hW ho hSx hX n _

theorem int_cases (n : ℤ) : (∃ k : ℕ, n = k) ∨ ∃ k : ℕ, 1 ≤ k ∧ n = -(k : ℤ) := by
  rcases le_or_gt 0 n with h | h
  · exact Or.inl ⟨n.toNat, by omega⟩
  · exact Or.inr ⟨(-n).toNat, by omega, by omega⟩

theorem rightUS_eq {fx fo : Fmt} (hx : 1 ≤ fx.W) (hW : 1 ≤ fo.W) (hSx : fx.S = false) (hSo : fo.S = false) {X : ℤ}
    (hX : InRange fx.W fx.S X) (n : ℤ) : rightUS fx fo X n = fo.cvt (fx.val X * 2 ^ (-n)) := by
  have e : rightUS fx fo X n = bodyUS fx fo X n (decide (0 ≤ n)) := by
    unfold rightUS bodyUS; simp only [decide_eq_true_eq]
  rw [e]
  rcases int_cases n with ⟨k, rfl⟩ | ⟨k, hk, rfl⟩
  · rw [show decide (0 ≤ (k : ℤ)) = true by simp]
    exact bodyUS_right hx hSx hSo hX k
  · rw [show decide (0 ≤ -(k : ℤ)) = false by simp; omega, neg_neg]
    exact bodyUS_left hx hW hSx hX k

theorem rightSS_eq {fx fo : Fmt} (hx : 1 ≤ fx.W) (hW : 1 ≤ fo.W) (hSx : fx.S = true) (hSo : fo.S = true) {X : ℤ}
    (hX : InRange fx.W fx.S X) (n : ℤ) : rightSS fx fo X n = fo.cvt (fx.val X * 2 ^ (-n)) := by
  have e : rightSS fx fo X n = bodySS fx fo X n (decide (0 ≤ n)) := by
    unfold rightSS bodySS; simp only [decide_eq_true_eq]
  rw [e]
  rcases int_cases n with ⟨k, rfl⟩ | ⟨k, hk, rfl⟩
  · rw [show decide (0 ≤ (k : ℤ)) = true by simp]
    exact bodySS_right hx hSx hSo hX k
  · rw [show decide (0 ≤ -(k : ℤ)) = false by simp; omega, neg_neg]
    exact bodySS_left hx hW hSx hX k

theorem leftUS_eq {fx fo : Fmt} (hx : 1 ≤ fx.W) (hW : 1 ≤ fo.W) (hSx : fx.S = false) (hSo : fo.S = false) {X : ℤ}
    (hX : InRange fx.W fx.S X) (n : ℤ) : leftUS fx fo X n = fo.cvt (fx.val X * 2 ^ n) := by
  have e : leftUS fx fo X n = bodyUS fx fo X (-n) (decide (n < 0)) := by
    unfold leftUS bodyUS; simp only [decide_eq_true_eq, neg_neg]
  rw [e]
  rcases int_cases n with ⟨k, rfl⟩ | ⟨k, hk, rfl⟩
  · rw [show decide ((k : ℤ) < 0) = false by simp]
    exact bodyUS_left hx hW hSx hX k
  · rw [show decide (-(k : ℤ) < 0) = true by simp; omega, neg_neg]
    exact bodyUS_right hx hSx hSo hX k

theorem leftSS_eq {fx fo : Fmt} (hx : 1 ≤ fx.W) (hW : 1 ≤ fo.W) (hSx : fx.S = true) (hSo : fo.S = true) {X : ℤ}
    (hX : InRange fx.W fx.S X) (n : ℤ) : leftSS fx fo X n = fo.cvt (fx.val X * 2 ^ n) := by
  have e : leftSS fx fo X n = bodySS fx fo X (-n) (decide (n < 0)) := by
    unfold leftSS bodySS; simp only [decide_eq_true_eq, neg_neg]
  rw [e]
  rcases int_cases n with ⟨k, rfl⟩ | ⟨k, hk, rfl⟩
  · rw [show decide ((k : ℤ) < 0) = false by simp]
    exact bodySS_left hx hW hSx hX k
  · rw [show decide (-(k : ℤ) < 0) = true by simp; omega, neg_neg]
    exact bodySS_right hx hSx hSo hX k

theorem leftUU_eq {fx fo : Fmt} (hx : 1 ≤ fx.W) (hW : 1 ≤ fo.W) (hSx : fx.S = false) {X : ℤ}
    (hX : InRange fx.W fx.S X) (n : ℕ) : leftUU fx fo X n = fo.cvt (fx.val X * 2 ^ (n : ℤ)) := by
  have h := holds_left (fo := fo) hx
  have hO : fo.I ≤ (tLeft fx fo).TI := le_max_right _ _
  unfold leftUU
  by_cases ho : fo.O = .WRAP
  · have hV : sOver false fo.O = 0 := by simp [sOver, ho]
    simp only [hV, ne_eq, not_true_eq_false, if_false]
    have := left_U_wrap h hO hW ho hSx hX n 0
    simpa using this
  · have hV : sOver false fo.O = 1 := by simp [sOver, ho]
    simp only [hV, ne_eq, one_ne_zero, not_false_eq_true, if_true, Nat.add_sub_cancel]
    have := left_U_sat h hO hW ho hSx hX n 0
    simpa using this

theorem leftSU_eq {fx fo : Fmt} (hx : 1 ≤ fx.W) (hW : 1 ≤ fo.W) (hSx : fx.S = true)
    (hm : fo.O ≠ .WRAP ∨ fo.Q.signFree = true) {X : ℤ}
    (hX : InRange fx.W fx.S X) (n : ℕ) : leftSU fx fo X n = fo.cvt (fx.val X * 2 ^ (n : ℤ)) := by
  have h := holds_left (fo := fo) hx
  have hO : fo.I ≤ (tLeft fx fo).TI := le_max_right _ _
  unfold leftSU
  by_cases ho : fo.O = .WRAP
  · have hV : sOver true fo.O = 1 := by simp [sOver, ho]
    simp only [hV, OfNat.one_ne_ofNat, if_false]
    have := left_wrap h hO hW ho (tRaw_left_modEq (tLeft fx fo) fx X n 0)
      (Or.inl (hm.resolve_left (not_not.mpr ho)))
    simpa using this
  · have hV : sOver true fo.O = 2 := by simp [sOver, ho]
    simp only [hV, if_true]
    have := left_S_sat h hO hW ho hSx hX n 0
    simpa using this

end Proof.Shift
