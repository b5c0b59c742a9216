import Verif.Proof.FlfxMul

/-! # Lemmas about ac_flfx_mul: the whole function -/

namespace Proof.FlfxMul
open Ac Model.Bits Model.AddTree Model.FlfxMul Spec.Flt

/-- Operand ranges and template constraints. -/
structure Ok (p : Par) (x : Flt) (b : ℤ) : Prop where
  W1 : 2 ≤ p.W1
  W2 : 1 ≤ p.W2
  oW : 2 ≤ p.oW
  m0 : -2 ^ (p.W1 - 1) ≤ x.m
  m1 : x.m < 2 ^ (p.W1 - 1)
  e0 : p.minE1 ≤ x.e
  e1 : x.e ≤ p.maxE1
  b0 : minRaw p.W2 p.S ≤ b
  b1 : b ≤ maxRaw p.W2 p.S

/-- Exact product of the operand values. -/
def product (p : Par) (x : Flt) (b : ℤ) : ℚ := value p.W1 p.I1 x * (b * 2 ^ (p.I2 - p.W2))

theorem prod_range {W1 W2 : ℕ} {S : Bool} (h1 : 1 ≤ W1) (h2 : 1 ≤ W2) {a b : ℤ} (a0 : -2 ^ (W1 - 1) ≤ a)
    (a1 : a < 2 ^ (W1 - 1)) (b0 : minRaw W2 S ≤ b) (b1 : b ≤ maxRaw W2 S) :
    -2 ^ (W1 + W2 - 1) ≤ a * b ∧ a * b < 2 ^ (W1 + W2 - 1) := by
  have hp : (2 : ℤ) ^ (W1 + W2 - 1) = 2 ^ (W1 - 1) * 2 ^ W2 := by rw [← pow_add]; congr 1; omega
  have hp2 : (2 : ℤ) ^ W2 = 2 * 2 ^ (W2 - 1) := two_pow_succ_pred h2
  rw [hp]
  have hA : (0 : ℤ) < 2 ^ (W1 - 1) := by positivity
  have hB : (0 : ℤ) < 2 ^ (W2 - 1) := by positivity
  have hb : |b| < 2 ^ W2 := by
    rw [abs_lt]
    unfold minRaw at b0; unfold maxRaw at b1
    cases S <;> simp at b0 b1 <;> constructor <;> omega
  have ha : |a| ≤ 2 ^ (W1 - 1) := abs_le.2 ⟨a0, a1.le⟩
  have hlt : |a * b| < 2 ^ (W1 - 1) * 2 ^ W2 := by
    rw [abs_mul]
    rcases eq_or_lt_of_le (abs_nonneg a) with h | h
    · rw [← h, zero_mul]; positivity
    · calc |a| * |b| < |a| * 2 ^ W2 := mul_lt_mul_of_pos_left hb h
        _ ≤ _ := mul_le_mul_of_nonneg_right ha (by positivity)
  rw [abs_lt] at hlt
  exact ⟨hlt.1.le, hlt.2⟩

theorem temp_fits {p : Par} {subn : Bool} {t : ℤ} (h0 : p.minT subn - 1 ≤ t)
    (h1 : t ≤ p.maxE1 + p.rshift) : wrap (p.tempW subn) true t = t := by
  unfold Par.tempW
  set m := (max (p.maxE1 + p.rshift) |p.minT subn|).toNat with hm
  have hn := lt_two_pow_nbits m
  have hn' : (m : ℤ) < 2 ^ nbits m := by exact_mod_cast hn
  have hb : |p.minT subn| ≤ m := by rw [hm]; have := le_max_right (p.maxE1 + p.rshift) |p.minT subn|; omega
  have ha : p.maxE1 + p.rshift ≤ m := by rw [hm]; have := le_max_left (p.maxE1 + p.rshift) |p.minT subn|; omega
  have := (abs_le.1 hb).1
  apply wrapS_of_range (by omega)
  · rw [show nbits m + 1 - 1 = nbits m by omega]; omega
  · rw [show nbits m + 1 - 1 = nbits m by omega]; omega

theorem om_ne {mW oW : ℕ} (ho : 2 ≤ oW) {n : ℤ} (hn : Nrm mW n) : ⌊(n : ℚ) * 2 ^ ((oW : ℤ) - mW)⌋ ≠ 0 := by
  have := om_nrm ho hn
  have hP : (0 : ℤ) < 2 ^ oW := by positivity
  unfold Nrm at this
  rcases this with h | h <;> omega

theorem finalMant_zero {p : Par} (ho : 2 ≤ p.oW) {subn nrm : Bool} {t : ℤ} (h : t ≤ p.maxEo) :
    p.finalMant subn nrm t 0 = 0 := by
  unfold Par.finalMant
  have d1 : decide (t > p.maxEo) = false := decide_eq_false (by omega)
  have hw : wrap p.oW true 0 = 0 := wrapS_of_range (by omega)
    (by have : (0 : ℤ) < 2 ^ (p.oW - 1) := by positivity
        omega) (by positivity)
  simp [d1, hw]

theorem rep_zero (W : ℕ) (I : ℤ) (E : ℕ) : Rep W I E 0 := by
  refine ⟨0, 0, ?_, by positivity, ?_, by positivity, by simp⟩
  · have : (0 : ℤ) < 2 ^ (W - 1) := by positivity
    omega
  · have : (0 : ℤ) < 2 ^ (E - 1) := by positivity
    omega

theorem isFloor_zero (W : ℕ) (I : ℤ) (E : ℕ) : IsFloor W I E 0 0 :=
  ⟨rep_zero W I E, Or.inl ⟨le_refl _, fun _ _ h => h⟩⟩

/-- Once the exact product is `n * 2^-l` with `n` normalized, the temporary exponent is right. -/
theorem product_eq {p : Par} {x : Flt} {b n : ℤ} {l : ℕ} (h : n = x.m * b * 2 ^ l) :
    product p x b = n * 2 ^ (-(p.mW : ℤ)) * 2 ^ (p.oI + (x.e - l + p.rshift)) := by
  unfold product value Par.mW Par.rshift
  rw [h]
  push_cast
  rw [← zpow_natCast (2 : ℚ) l]
  have e : ∀ a c i j k : ℚ, a * i * j * (c * k) = a * c * (i * j * k) := by intros; ring
  have e' : ∀ a i j k : ℚ, a * i * j * k = a * (i * j * k) := by intros; ring
  rw [e, e' , Fmt.z_add, Fmt.z_add, Fmt.z_add, Fmt.z_add]
  congr 2; ring

theorem mulFloat_subn {p : Par} {x : Flt} {b : ℤ} (h : Ok p x b) :
    IsFloor p.oW p.oI p.oE (product p x b) (value p.oW p.oI (p.mulFloat true x b)) := by
  have ho := h.oW
  have hmW : 1 ≤ p.mW := by unfold Par.mW; have := h.W2; omega
  have hr := prod_range (by have := h.W1; omega : 1 ≤ p.W1) h.W2 h.m0 h.m1 h.b0 h.b1
  rw [show p.W1 + p.W2 = p.mW from rfl] at hr
  have hb' : wrap p.W2 p.S (b * 2 ^ 0) = b := by
    rw [pow_zero, mul_one]; exact wrap_of_range h.W2 h.b0 h.b1
  have hn : wrap p.mW true (x.m * b) = x.m * b := wrapS_of_range hmW hr.1 hr.2
  unfold Par.mulFloat
  simp only [Par.in2Ls, Par.mprodLs, Par.lsSum, if_true, hb', hn, Nat.zero_add]
  have hnb := lt_two_pow_nbits (p.mW - 1)
  by_cases h0 : x.m * b = 0
  · have hl : lsign p.mW true 0 = p.mW - 1 := by simp [lsign, leadingSignU]
    rw [h0, hl]
    simp only [zero_mul]
    have hw0 : wrap p.mW true 0 = 0 := wrapS_of_range hmW
      (by have : (0 : ℤ) < 2 ^ (p.mW - 1) := by positivity
          omega) (by positivity)
    rw [hw0, om_eq (mW := p.mW) ho (Or.inr rfl)]
    simp only [Int.cast_zero, zero_mul, Int.floor_zero, decide_true, Bool.and_true]
    rw [Nat.mod_eq_of_lt hnb]
    have hpz : product p x b = 0 := by
      unfold product value
      have : ((x.m * b : ℤ) : ℚ) = 0 := by rw [h0]; norm_num
      push_cast at this
      have e : ∀ a c i j k : ℚ, a * i * j * (c * k) = a * c * (i * j * k) := by intros; ring
      rw [e, this, zero_mul]
    have hcast : ((p.mW - 1 : ℕ) : ℤ) = p.mW - 1 := by omega
    rw [temp_fits (subn := true) (by
        have := h.e0; unfold Par.minT; rw [if_pos rfl]; omega) (by have := h.e1; omega), hpz]
    have hz : ∀ t, t ≤ p.maxEo → ∀ e, IsFloor p.oW p.oI p.oE 0
        (value p.oW p.oI ⟨p.finalMant true (isNorm p.W1 x.m) t 0, e⟩) := by
      intro t ht e
      rw [finalMant_zero ho ht]
      have : value p.oW p.oI ⟨0, e⟩ = 0 := by unfold value; simp
      rw [this]; exact isFloor_zero _ _ _
    apply hz
    have hme : (0 : ℤ) ≤ p.maxEo := by
      unfold Par.maxEo
      have : (0 : ℤ) < 2 ^ (p.oE - 1) := by positivity
      omega
    split_ifs with hc
    · exact hme
    · unfold Par.masking at hc
      simp only [if_true, decide_eq_true_eq] at hc
      have := h.e1
      omega
  · obtain ⟨hN, hl⟩ := lsign_true_spec hmW hr.1 hr.2 h0
    have hrN := nrm_range hmW hN
    set l := lsign p.mW true (x.m * b) with hld
    rw [wrapS_of_range hmW hrN.1 hrN.2, om_eq ho (Or.inl hN), Nat.mod_eq_of_lt (by omega),
      temp_fits (subn := true) (by
        have := h.e0; unfold Par.minT; rw [if_pos rfl]; omega) (by have := h.e1; omega)]
    have hne := om_ne (mW := p.mW) ho hN
    rw [decide_eq_false hne, Bool.and_false, if_neg (by simp), product_eq rfl]
    exact finish ho hN (Or.inl rfl)

theorem finalMant_lt {p : Par} {nrm : Bool} {t m : ℤ} (h : t < p.minEo) : p.finalMant false nrm t m = 0 := by
  have hEE : p.minEo < p.maxEo + 1 := by
    unfold Par.minEo Par.maxEo
    have : (0 : ℤ) < 2 ^ (p.oE - 1) := by positivity
    omega
  unfold Par.finalMant
  have d1 : decide (t > p.maxEo) = false := decide_eq_false (by omega)
  have d2 : decide (t < p.minEo) = true := decide_eq_true h
  simp [d1, d2]

theorem finalMant_not_norm {p : Par} {t m : ℤ} (h : t ≤ p.maxEo) : p.finalMant false false t m = 0 := by
  unfold Par.finalMant
  have d1 : decide (t > p.maxEo) = false := decide_eq_false (by omega)
  simp [d1]

/-- Magnitude of the product of normalized operands. -/
def Big (S : Bool) (W : ℕ) (n : ℤ) : Prop :=
  (2 ^ W ≤ (if S then 16 else 8) * n ∧ 2 * n < 2 ^ W) ∨ (-2 ^ W ≤ 2 * n ∧ (if S then 16 else 8) * n < -2 ^ W)

theorem big_mul {W1 W2 : ℕ} {S : Bool} {a b : ℤ} (ha : Nrm W1 a)
    (hb : if S then Nrm W2 b else (2 ^ W2 ≤ 2 * b ∧ b < 2 ^ W2)) : Big S (W1 + W2) (a * b) := by
  have hp : (2 : ℤ) ^ (W1 + W2) = 2 ^ W1 * 2 ^ W2 := pow_add _ _ _
  unfold Big
  rw [hp]
  have hA : (0 : ℤ) < 2 ^ W1 := by positivity
  have hB : (0 : ℤ) < 2 ^ W2 := by positivity
  unfold Nrm at ha hb
  set A : ℤ := 2 ^ W1
  set B : ℤ := 2 ^ W2
  cases S
  · simp only [Bool.false_eq_true, if_false] at hb ⊢
    obtain ⟨b1, b2⟩ := hb
    rcases ha with ⟨a1, a2⟩ | ⟨a1, a2⟩
    · left
      constructor
      · have := mul_le_mul a1 b1 hB.le (by linarith); linarith
      · have h1 : 2 * a * b < A * b := mul_lt_mul_of_pos_right a2 (by linarith)
        have h2 : A * b ≤ A * B := mul_le_mul_of_nonneg_left b2.le hA.le
        linarith
    · right
      constructor
      · have h1 : -A * b ≤ 2 * a * b := mul_le_mul_of_nonneg_right a1 (by linarith)
        have h2 : A * b ≤ A * B := mul_le_mul_of_nonneg_left b2.le hA.le
        linarith
      · have h1 : 4 * a * b < -A * b := mul_lt_mul_of_pos_right a2 (by linarith)
        have h2 : A * B ≤ A * (2 * b) := mul_le_mul_of_nonneg_left b1 hA.le
        linarith
  · simp only [if_true] at hb ⊢
    rcases ha with ⟨a1, a2⟩ | ⟨a1, a2⟩ <;> rcases hb with ⟨b1, b2⟩ | ⟨b1, b2⟩
    · left
      have h1 : A * B ≤ 4 * a * (4 * b) := mul_le_mul a1 b1 hB.le (by linarith)
      have h2 : 2 * a * (2 * b) ≤ A * B := mul_le_mul a2.le b2.le (by linarith) hA.le
      have hAB := mul_pos hA hB
      constructor <;> linarith
    · right
      have h1 : A * B < 4 * a * (-(4 * b)) := mul_lt_mul' a1 (by linarith) hB.le (by linarith)
      have h2 : 2 * a * (-(2 * b)) ≤ A * B := mul_le_mul a2.le (by linarith) (by linarith) hA.le
      have hAB := mul_pos hA hB
      constructor <;> linarith
    · right
      have h1 : A * B < -(4 * a) * (4 * b) := by
        have := mul_lt_mul (by linarith : A < -(4 * a)) b1 hB (by linarith)
        linarith
      have h2 : -(2 * a) * (2 * b) ≤ A * B := mul_le_mul (by linarith) b2.le (by linarith) hA.le
      have hAB := mul_pos hA hB
      constructor <;> linarith
    · left
      have h1 : A * B < -(4 * a) * (-(4 * b)) := mul_lt_mul'' (by linarith) (by linarith) hA.le hB.le
      have h2 : -(2 * a) * (-(2 * b)) ≤ A * B := mul_le_mul (by linarith) (by linarith) (by linarith) hA.le
      have hAB := mul_pos hA hB
      constructor <;> linarith

theorem mprodLs_spec {p : Par} (hmW : 3 ≤ p.mW) {n : ℤ} (h : Big p.S p.mW n) :
    Nrm p.mW (n * 2 ^ p.mprodLs false n) ∧ p.mprodLs false n ≤ p.oneS := by
  unfold Par.mprodLs Par.oneS
  rw [if_neg (by simp)]
  unfold Big at h
  unfold Nrm
  cases hS : p.S
  · rw [hS] at h
    simp only [Bool.false_eq_true, if_false] at h ⊢
    have hp : (2 : ℤ) ^ p.mW = 4 * 2 ^ (p.mW - (1 + 1)) := by
      conv_lhs => rw [show p.mW = (p.mW - (1 + 1)) + 2 by omega, pow_add]
      ring
    rw [hp] at h ⊢
    have hu : (0 : ℤ) < 2 ^ (p.mW - (1 + 1)) := by positivity
    set u : ℤ := 2 ^ (p.mW - (1 + 1))
    have e1 := Int.emod_add_mul_ediv n u
    have e2 := Int.emod_nonneg n hu.ne'
    have e3 := Int.emod_lt_of_pos n hu
    set t := n / u with ht
    set r := n % u with hrd
    have t0 : -2 ≤ t := by rw [ht, Int.le_ediv_iff_mul_le hu]; rcases h with h | h <;> linarith
    have t1 : t < 2 := by rw [ht, Int.ediv_lt_iff_lt_mul hu]; rcases h with h | h <;> linarith
    have hl : ∀ k : ℤ, -2 ≤ k → k < 2 → lsign (1 + 1) true (wrap (1 + 1) true k) = if k = -2 ∨ k = 1 then 0 else 1 := by
      intro k h0 h1; interval_cases k <;> decide
    rw [hl t t0 t1]
    clear_value t r
    interval_cases t <;> simp at e1 ⊢ <;> omega
  · rw [hS] at h
    simp only [if_true] at h ⊢
    have hp : (2 : ℤ) ^ p.mW = 8 * 2 ^ (p.mW - (2 + 1)) := by
      conv_lhs => rw [show p.mW = (p.mW - (2 + 1)) + 3 by omega, pow_add]
      ring
    rw [hp] at h ⊢
    have hu : (0 : ℤ) < 2 ^ (p.mW - (2 + 1)) := by positivity
    set u : ℤ := 2 ^ (p.mW - (2 + 1))
    have e1 := Int.emod_add_mul_ediv n u
    have e2 := Int.emod_nonneg n hu.ne'
    have e3 := Int.emod_lt_of_pos n hu
    set t := n / u with ht
    set r := n % u with hrd
    have t0 : -4 ≤ t := by rw [ht, Int.le_ediv_iff_mul_le hu]; rcases h with h | h <;> linarith
    have t1 : t < 4 := by rw [ht, Int.ediv_lt_iff_lt_mul hu]; rcases h with h | h <;> linarith
    have hl : ∀ k : ℤ, -4 ≤ k → k < 4 → lsign (2 + 1) true (wrap (2 + 1) true k) =
        if k < -2 ∨ 1 < k then 0 else if k = -2 ∨ k = 1 then 1 else 2 := by
      intro k h0 h1; interval_cases k <;> decide
    rw [hl t t0 t1]
    clear_value t r
    interval_cases t <;> simp at e1 ⊢ <;> omega

theorem lsign_in2 {W2 : ℕ} {S : Bool} (hW : 1 ≤ W2) {b : ℤ} (b0 : minRaw W2 S ≤ b) (b1 : b ≤ maxRaw W2 S) (hb : b ≠ 0) :
    (if S then Nrm W2 (b * 2 ^ lsign W2 S b) else (2 ^ W2 ≤ 2 * (b * 2 ^ lsign W2 S b) ∧ b * 2 ^ lsign W2 S b < 2 ^ W2)) ∧
    lsign W2 S b + 1 ≤ W2 ∧ wrap W2 S (b * 2 ^ lsign W2 S b) = b * 2 ^ lsign W2 S b := by
  cases S
  · simp only [Bool.false_eq_true, if_false]
    simp [minRaw, maxRaw] at b0 b1
    obtain ⟨y, rfl⟩ := Int.eq_ofNat_of_zero_le b0
    have hy : y < 2 ^ W2 := by zify; omega
    obtain ⟨g1, g2, g3⟩ := lsignU_spec hy (by omega)
    have : lsign W2 false (y : ℤ) = leadingSignU W2 y := by simp [lsign]
    rw [this]
    zify at g1 g2
    exact ⟨⟨g1, g2⟩, g3, wrapU_of_lt (by positivity) g2⟩
  · simp only [if_true]
    simp [minRaw, maxRaw] at b0 b1
    obtain ⟨h1, h2⟩ := lsign_true_spec hW (x := b) (by omega) (by omega) hb
    have hr := nrm_range hW h1
    exact ⟨h1, h2, wrapS_of_range hW hr.1 hr.2⟩

theorem big_range {W : ℕ} {S : Bool} (hW : 1 ≤ W) {n : ℤ} (h : Big S W n) : -2 ^ (W - 1) ≤ n ∧ n < 2 ^ (W - 1) := by
  have hp : (2 : ℤ) ^ W = 2 * 2 ^ (W - 1) := two_pow_succ_pred hW
  have hK : (0 : ℤ) < 2 ^ (W - 1) := by positivity
  unfold Big at h
  rw [hp] at h
  cases S <;> simp at h <;> omega

/-- Subnormals not supported, both operands normal and nonzero. -/
theorem mulFloat_norm {p : Par} {x : Flt} {b : ℤ} (h : Ok p x b) (hx : Nrm p.W1 x.m) (hb : b ≠ 0) :
    if -2 ^ (p.oI - 2 + p.minEo) ≤ product p x b ∧ product p x b < 2 ^ (p.oI - 2 + p.minEo) then
      value p.oW p.oI (p.mulFloat false x b) = 0
    else IsFloor p.oW p.oI p.oE (product p x b) (value p.oW p.oI (p.mulFloat false x b)) := by
  have ho := h.oW
  have hW1 := h.W1
  have hW2 := h.W2
  have hmW : 3 ≤ p.mW := by unfold Par.mW; omega
  obtain ⟨hb1, hb2, hb3⟩ := lsign_in2 h.W2 h.b0 h.b1 hb
  have hbig := big_mul hx hb1
  rw [show p.W1 + p.W2 = p.mW from rfl] at hbig
  have hr := big_range (by omega) hbig
  obtain ⟨hN, hl2⟩ := mprodLs_spec hmW hbig
  have hNr := nrm_range (by omega) hN
  have hnorm : isNorm p.W1 x.m = true := (isNorm_iff h.W1 h.m0 h.m1).2 hx
  unfold Par.mulFloat
  simp only [Par.in2Ls, Bool.false_eq_true, if_false, hb3, hnorm]
  rw [wrapS_of_range (by omega) hr.1 hr.2]
  set l1 := lsign p.W2 p.S b with hl1d
  set l2 := p.mprodLs false (x.m * (b * 2 ^ l1)) with hl2d
  rw [wrapS_of_range (by omega) hNr.1 hNr.2, om_eq ho (Or.inl hN)]
  have hls : p.lsSum false l1 l2 = l1 + l2 := by
    unfold Par.lsSum
    rw [if_neg (by simp), Nat.mod_eq_of_lt]
    exact lt_of_le_of_lt (by omega) (lt_two_pow_nbits _)
  rw [hls, temp_fits (subn := false) (by
        have := h.e0; unfold Par.minT; rw [if_neg (by simp)]; push_cast; omega) (by have := h.e1; push_cast; omega)]
  have hne := om_ne (mW := p.mW) ho hN
  simp only [decide_eq_false hne, Bool.and_false, Bool.false_eq_true, if_false]
  have hpe : product p x b = ((x.m * (b * 2 ^ l1) * 2 ^ l2 : ℤ) : ℚ) * 2 ^ (-(p.mW : ℤ)) *
      2 ^ (p.oI + (x.e - ((l1 + l2 : ℕ) : ℤ) + p.rshift)) := product_eq (by rw [pow_add]; ring)
  have hsc := nrm_scale (p := p) (t := x.e - ((l1 + l2 : ℕ) : ℤ) + p.rshift) hN
  simp only at hsc
  rw [← hpe] at hsc
  set t := x.e - ((l1 + l2 : ℕ) : ℤ) + p.rshift with ht
  have hz := Fmt.z_pos (p.oI + t)
  have hz4 : ∀ k : ℤ, (2 : ℚ) ^ (p.oI + k) = 4 * 2 ^ (p.oI - 2 + k) := by
    intro k
    rw [show p.oI + k = p.oI - 2 + k + 1 + 1 by ring, Fmt.z_succ, Fmt.z_succ]; ring
  rw [hz4] at hsc
  have hz := Fmt.z_pos (p.oI - 2 + t)
  rcases lt_or_ge t p.minEo with hlt | hge
  · have hle : 2 * (2 : ℚ) ^ (p.oI - 2 + t) ≤ 2 ^ (p.oI - 2 + p.minEo) := by
      rw [← Fmt.z_succ]; exact Fmt.z_le (by omega)
    rw [if_pos (by rcases hsc with h | h <;> constructor <;> linarith)]
    rw [finalMant_lt hlt]
    unfold value; simp
  · have hle : (2 : ℚ) ^ (p.oI - 2 + p.minEo) ≤ 2 ^ (p.oI - 2 + t) := Fmt.z_le (by omega)
    rw [if_neg (by rintro ⟨q1, q2⟩; rcases hsc with h | h <;> linarith), hpe]
    exact finish ho hN (Or.inr ⟨rfl, hge⟩)

/-- A zero fixed point operand, when the word for the sum of shifts is wide enough. -/
theorem mulFloat_zero {p : Par} {x : Flt} (h : Ok p x 0) (hw : p.S = true ∨ nbits p.W2 = nbits (p.W2 + 1)) :
    value p.oW p.oI (p.mulFloat false x 0) = 0 := by
  have ho := h.oW
  have hW1 := h.W1
  have hW2 := h.W2
  have hmW : 1 ≤ p.mW := by unfold Par.mW; omega
  have hw0 : ∀ W S, 1 ≤ W → wrap W S 0 = 0 := fun W S hW => wrap_of_range hW (minRaw_nonpos W S) (maxRaw_nonneg W S)
  unfold Par.mulFloat
  simp only [Par.in2Ls, Bool.false_eq_true, if_false, zero_mul, hw0 p.W2 p.S hW2, mul_zero, hw0 p.mW true hmW]
  rw [om_eq (mW := p.mW) ho (Or.inr rfl)]
  simp only [Int.cast_zero, zero_mul, Int.floor_zero, decide_true, Bool.and_true]
  have hl2 : p.mprodLs false 0 = p.oneS := by
    unfold Par.mprodLs Par.oneS
    cases p.S <;> simp <;> decide
  have hl1 : lsign p.W2 p.S 0 = p.W2 - 1 + (if p.S then 0 else 1) := by
    unfold lsign leadingSignU
    cases p.S <;> simp; omega
  have hls : p.lsSum false (lsign p.W2 p.S 0) (p.mprodLs false 0) = p.W2 + 1 := by
    unfold Par.lsSum
    rw [if_neg (by simp), hl1, hl2, Nat.mod_eq_of_lt]
    · unfold Par.oneS; cases p.S <;> simp <;> omega
    · rcases hw with hw | hw
      · rw [hw]
        have := lt_two_pow_nbits (p.W2 - 1 + p.oneS)
        simpa using this
      · have h2 := lt_two_pow_nbits (p.W2 + 1)
        have h3 := lt_two_pow_nbits (p.W2 - 1 + p.oneS)
        unfold Par.oneS at h3 ⊢
        cases hS : p.S
        · simp [hS] at h3 ⊢
          rw [show p.W2 - 1 + 1 = p.W2 by omega, hw]
          exact h2
        · simp [hS] at h3 ⊢; exact h3
  rw [hls, temp_fits (subn := false) (by
        have := h.e0; unfold Par.minT Par.oneS; rw [if_neg (by simp)]; split_ifs <;> push_cast <;> omega) (by have := h.e1; push_cast; omega)]
  have hz : ∀ t, t ≤ p.maxEo → ∀ e, value p.oW p.oI ⟨p.finalMant false (isNorm p.W1 x.m) t 0, e⟩ = 0 := by
    intro t ht e
    rw [finalMant_zero ho ht]; unfold value; simp
  apply hz
  have hme : (0 : ℤ) ≤ p.maxEo := by
    unfold Par.maxEo
    have : (0 : ℤ) < 2 ^ (p.oE - 1) := by positivity
    omega
  split_ifs with hc
  · exact hme
  · unfold Par.masking at hc
    simp only [Bool.false_eq_true, if_false, decide_eq_true_eq] at hc
    have := h.e1
    have : (p.oneS : ℤ) ≤ p.W2 + 1 := by unfold Par.oneS; split_ifs <;> push_cast <;> omega
    push_cast
    omega

theorem leadingSignU_le (W x : ℕ) : leadingSignU W x ≤ W := by unfold leadingSignU; split_ifs <;> omega

/-- A float operand that is not normalized counts as zero, unless the exponent range of the output is exceeded. -/
theorem mulFloat_not_norm {p : Par} {x : Flt} {b : ℤ} (h : Ok p x b) (hx : ¬ Nrm p.W1 x.m)
    (ht : x.e + p.rshift ≤ p.maxEo) : value p.oW p.oI (p.mulFloat false x b) = 0 := by
  have hn : isNorm p.W1 x.m = false := by
    rw [← Bool.not_eq_true, isNorm_iff h.W1 h.m0 h.m1]; exact hx
  unfold Par.mulFloat
  simp only [hn]
  have hme : (0 : ℤ) ≤ p.maxEo := by
    unfold Par.maxEo
    have : (0 : ℤ) < 2 ^ (p.oE - 1) := by positivity
    omega
  rw [finalMant_not_norm]
  · unfold value; simp
  · split_ifs with hc
    · exact hme
    · have hW2 := h.W2
      have h2 : ∀ n, p.mprodLs false n ≤ p.oneS := by
        intro n
        unfold Par.mprodLs
        rw [if_neg (by simp)]
        unfold lsign
        rw [if_pos rfl]
        exact leadingSignU_le _ _
      have h1 : p.in2Ls false b ≤ p.W2 := by
        unfold Par.in2Ls lsign
        rw [if_neg (by simp)]
        split_ifs <;> exact le_trans (leadingSignU_le _ _) (by omega)
      rw [temp_fits (subn := false)]
      · omega
      · unfold Par.lsSum Par.minT
        rw [if_neg (by simp), if_neg (by simp)]
        have := h.e0
        have h3 := Nat.mod_le (p.in2Ls false b + p.mprodLs false (wrap p.mW true
          (x.m * wrap p.W2 p.S (b * 2 ^ p.in2Ls false b)))) (2 ^ nbits (p.W2 - 1 + p.oneS))
        have h4 := h2 (wrap p.mW true (x.m * wrap p.W2 p.S (b * 2 ^ p.in2Ls false b)))
        omega
      · have := h.e1
        omega

end Proof.FlfxMul
