import Verif.Spec.StdConv
import Verif.Proof.StdAddTree4
import Verif.Proof.FloatNum
import Verif.Proof.FloatCvt
import Mathlib.Data.Int.Log

/-! # IEEE bit patterns and the numbers of ac_float -/

namespace Proof.StdFloat
open Ac Model.StdFloat Spec.StdFloat Spec.CholFloat Proof.StdAddTree
open Model.Float (FFmt Dst)

theorem fl_maxVal (q : QMode) (M E : ℕ) : (fl q M E).maxVal = largest M E := by
  rw [Proof.FloatNum.maxVal_eq]
  unfold largest bias fl
  push_cast
  rw [mul_assoc, Fmt.z_add]
  congr 2
  push_cast; ring

theorem bias_eq (E : ℕ) : bias E = 2 ^ (E - 1) - 1 := rfl

/-- A bit pattern is a number of the ac_float type. -/
theorem isNum {q : QMode} {M E d : ℕ} (hE : 2 ≤ E) (h : Finite M E d) : IsNum (fl q M E) (value false M E d) := by
  have hm := Nat.mod_lt d (show 0 < 2 ^ M by positivity)
  have tb := two_bias (show 1 ≤ E by omega)
  have b0 : (2 : ℤ) ≤ 2 ^ (E - 1) := by
    have : 2 ^ 1 ≤ 2 ^ (E - 1) := Nat.pow_le_pow_right (by norm_num) (by omega)
    exact_mod_cast this
  have hlt : (expField M E d : ℤ) < 2 ^ E - 1 := by
    have h1 := h.2
    have h2 : 1 ≤ 2 ^ E := Nat.one_le_two_pow
    have : ((expField M E d : ℕ) : ℤ) < ((2 ^ E - 1 : ℕ) : ℤ) := by exact_mod_cast h1
    rw [Nat.cast_sub h2] at this; push_cast at this; exact this
  have key : ∀ (s : Bool) (k : ℕ) (e : ℤ), k < 2 ^ (M + 1) → -2 ^ (E - 1) ≤ e → e < 2 ^ (E - 1) →
      IsNum (fl q M E) ((if s then -1 else 1) * ((k : ℚ) * 2 ^ (e - M))) := by
    intro s k e hk h0 h1
    have hk' : (k : ℤ) < 2 ^ (M + 1) := by exact_mod_cast hk
    have hw : (fl q M E).W - 1 = M + 1 := rfl
    have := Proof.FloatNum.isNum_of (t := fl q M E) (r := (if s then -1 else 1) * k) (e := e)
      (by rw [hw]; cases s <;> simp <;> omega) (by rw [hw]; cases s <;> simp <;> omega) h0 h1
    convert this using 1
    rw [mul_assoc _ _ ((2 : ℚ) ^ e), Fmt.z_add]
    have : ((fl q M E).I - ((fl q M E).W : ℤ) + e) = e - M := by simp only [fl]; push_cast; ring
    rw [this]
    cases s <;> simp
  unfold value
  by_cases h0 : expField M E d = 0
  · rw [if_pos h0, if_neg (show ¬ (false = true) by simp)]
    refine key _ _ (1 - bias E) (lt_of_lt_of_le hm (Nat.pow_le_pow_right (by norm_num) (by omega))) ?_ ?_ <;> rw [bias_eq] at * <;> omega
  · rw [if_neg h0]
    refine key _ _ (expField M E d - bias E) (by rw [pow_succ, mul_two]; exact Nat.add_lt_add_left hm _) ?_ ?_ <;> rw [bias_eq] at * <;> omega

/-- The numbers of the ac_float type in the normal range are bit patterns. -/
theorem exists_bits {q : QMode} {M E : ℕ} (hE : 1 ≤ E) {x : ℚ} (hx : IsNum (fl q M E) x) (h0 : smallest E ≤ |x|)
    (h1 : |x| ≤ largest M E) : ∃ d, Finite M E d ∧ value false M E d = x := by
  have tb := two_bias hE
  obtain ⟨m, e, hm, -, -, rfl⟩ := hx
  obtain ⟨r, r0, r1, rfl⟩ := Proof.FloatNum.rep_iff.1 hm
  have hw : (fl q M E).W - 1 = M + 1 := rfl
  rw [hw] at r0 r1
  have hI : ((fl q M E).I - ((fl q M E).W : ℤ)) = -M := by simp only [fl]; push_cast; ring
  rw [hI, mul_assoc, Fmt.z_add] at h0 h1 ⊢
  set x : ℚ := (r : ℚ) * 2 ^ (-(M : ℤ) + e) with hxd
  have hpos : 0 < |x| := lt_of_lt_of_le (Fmt.z_pos _) h0
  have hax : |x| = (r.natAbs : ℚ) * 2 ^ (-(M : ℤ) + e) := by
    rw [hxd, abs_mul, abs_of_pos (Fmt.z_pos _), Nat.cast_natAbs, Int.cast_abs]
  set L := Int.log 2 |x| with hL
  have l0 : (2 : ℚ) ^ L ≤ |x| := by exact_mod_cast Int.zpow_log_le_self (b := 2) (by norm_num) hpos
  have l1 : |x| < (2 : ℚ) ^ (L + 1) := by exact_mod_cast Int.lt_zpow_succ_log_self (b := 2) (by norm_num) |x|
  have lo : 1 - bias E ≤ L := by
    by_contra h
    have := Fmt.z_le (show L + 1 ≤ 1 - bias E by omega)
    unfold smallest at h0
    linarith
  have hi : L ≤ bias E := by
    by_contra h
    have h2 := Fmt.z_le (show bias E + 1 ≤ L by omega)
    have h3 : largest M E < 2 ^ (bias E + 1) := by
      unfold largest
      have : (2 : ℚ) ^ (bias E + 1) = 2 ^ (M + 1) * 2 ^ (bias E - M) := by
        rw [← zpow_natCast, Fmt.z_add]; congr 1; push_cast; ring
      rw [this]
      exact mul_lt_mul_of_pos_right (by linarith) (Fmt.z_pos _)
    linarith
  have hn : r.natAbs ≤ 2 ^ (M + 1) := by
    have : (r.natAbs : ℤ) ≤ 2 ^ (M + 1) := by omega
    exact_mod_cast this
  have hLe : L ≤ e + 1 := by
    by_contra h
    have h2 := Fmt.z_le (show e + 2 ≤ L by omega)
    have h3 : |x| ≤ 2 ^ (e + 1) := by
      rw [hax]
      have : (2 : ℚ) ^ (e + 1) = 2 ^ (M + 1) * 2 ^ (-(M : ℤ) + e) := by
        rw [← zpow_natCast, Fmt.z_add]; congr 1; push_cast; ring
      rw [this]
      exact mul_le_mul_of_nonneg_right (by exact_mod_cast hn) (Fmt.z_pos _).le
    have h4 : (2 : ℚ) ^ (e + 1) < 2 ^ (e + 2) := zpow_lt_zpow_right₀ (by norm_num) (by omega)
    linarith
  have hk : ∃ k : ℕ, |x| = (k : ℚ) * 2 ^ (L - M) := by
    rcases eq_or_lt_of_le hLe with hle | hle
    · refine ⟨2 ^ M, ?_⟩
      have h5 : |x| ≤ 2 ^ L := by
        rw [hax, hle]
        have : (2 : ℚ) ^ (e + 1) = 2 ^ (M + 1) * 2 ^ (-(M : ℤ) + e) := by
          rw [← zpow_natCast, Fmt.z_add]; congr 1; push_cast; ring
        rw [this]
        exact mul_le_mul_of_nonneg_right (by exact_mod_cast hn) (Fmt.z_pos _).le
      rw [le_antisymm h5 l0]
      push_cast
      rw [← zpow_natCast, Fmt.z_add]; congr 1; ring
    · refine ⟨r.natAbs * 2 ^ (e - L).toNat, ?_⟩
      rw [hax]
      push_cast
      rw [mul_assoc, ← zpow_natCast, Fmt.z_add, Int.toNat_of_nonneg (by omega)]
      congr 2; ring
  obtain ⟨k, hk⟩ := hk
  have k0 : 2 ^ M ≤ k := by
    have e1 : (2 : ℚ) ^ L = 2 ^ M * 2 ^ (L - M) := by rw [← zpow_natCast, Fmt.z_add]; congr 1; ring
    rw [hk, e1] at l0
    have := le_of_mul_le_mul_right l0 (Fmt.z_pos _)
    exact_mod_cast this
  have k1 : k < 2 ^ (M + 1) := by
    have e1 : (2 : ℚ) ^ (L + 1) = 2 ^ (M + 1) * 2 ^ (L - M) := by
      rw [← zpow_natCast, Fmt.z_add]; congr 1; push_cast; ring
    rw [hk, e1] at l1
    have := lt_of_mul_lt_mul_right l1 (Fmt.z_pos _).le
    exact_mod_cast this
  obtain ⟨f, hf⟩ : ∃ f : ℕ, (f : ℤ) = L + bias E := ⟨(L + bias E).toNat, Int.toNat_of_nonneg (by omega)⟩
  have hfE : f < 2 ^ E - 1 := by
    have h2 : 1 ≤ 2 ^ E := Nat.one_le_two_pow
    have : (f : ℤ) < ((2 ^ E - 1 : ℕ) : ℤ) := by
      rw [Nat.cast_sub h2]; push_cast; omega
    exact_mod_cast this
  have hkm : k - 2 ^ M < 2 ^ M := by rw [pow_succ] at k1; omega
  obtain ⟨-, f2, -, f4⟩ := fields (M := M) (E := E) (m := k - 2 ^ M) (e := f) (decide (x < 0)) hkm (by omega)
  refine ⟨_, ⟨f4, ?_⟩, ?_⟩
  · have : expField M E _ = f := f2
    rw [this]; exact hfE
  · rw [value_fields _ hkm (by omega) (by omega)]
    have : 2 ^ M + (k - 2 ^ M) = k := by omega
    rw [this, hf, show L + bias E - bias E - (M : ℤ) = L - M by ring, ← hk]
    by_cases hs : x < 0
    · simp [hs, abs_of_neg hs]
    · simp [hs, abs_of_nonneg (not_lt.1 hs)]

theorem zero_bits {M E : ℕ} (hE : 2 ≤ E) : Finite M E 0 ∧ value false M E 0 = 0 := by
  have h : 2 ^ 2 ≤ 2 ^ E := Nat.pow_le_pow_right (by norm_num) hE
  refine ⟨⟨by positivity, ?_⟩, ?_⟩
  · simp only [expField, Nat.zero_div, Nat.zero_mod]; omega
  · simp [value, expField]

/-- What the conversion does to a number of the ac_float type. -/
theorem ofF_num {c : Conv} (hc : Ok c) {q : QMode} {M E : ℕ} (hE : 2 ≤ E) {x : ℚ} (hx : IsNum (fl q M E) x)
    (h1 : |x| ≤ largest M E) : Finite M E (c.ofF M E x) ∧ |value false M E (c.ofF M E x) - x| ≤ smallest E ∧
      (x = 0 ∨ smallest E ≤ |x| → value false M E (c.ofF M E x) = x) := by
  have z := Fmt.z_pos (1 - bias E)
  have ex : x = 0 ∨ smallest E ≤ |x| → Finite M E (c.ofF M E x) ∧ value false M E (c.ofF M E x) = x := by
    intro h
    have : ∃ d, Finite M E d ∧ value false M E d = x := by
      rcases h with h | h
      · exact ⟨0, (zero_bits hE).1, by rw [h]; exact (zero_bits hE).2⟩
      · exact exists_bits (by omega) hx h h1
    obtain ⟨d, hd, rfl⟩ := this
    exact hc.keeps M E d hd
  rcases le_or_gt (smallest E) |x| with h | h
  · have := ex (Or.inr h)
    exact ⟨this.1, by rw [this.2, sub_self, abs_zero]; exact z.le, fun h => (ex h).2⟩
  · have := hc.small M E x hE h.le
    exact ⟨this.1, this.2, fun h => (ex h).2⟩

theorem cvt_num {t : FFmt} (hW : 1 ≤ t.W) {x : ℚ} (h : IsNum t x) : t.cvt x = x := by
  obtain ⟨m, e, hm, h0, h1, rfl⟩ := h
  exact Proof.FloatDiv.cvt_num hW hm h0 h1

theorem largest_num (q : QMode) (M E : ℕ) (s : Bool) : IsNum (fl q M E) ((if s then -1 else 1) * largest M E) := by
  have hp : (1 : ℤ) ≤ 2 ^ (E - 1) := by exact_mod_cast Nat.one_le_two_pow
  have hm : (0 : ℤ) < 2 ^ (M + 1) := by positivity
  have hw : (fl q M E).W - 1 = M + 1 := rfl
  have := Proof.FloatNum.isNum_of (t := fl q M E) (r := (if s then -1 else 1) * (2 ^ (M + 1) - 1)) (e := 2 ^ (E - 1) - 1)
    (by rw [hw]; cases s <;> simp <;> omega) (by rw [hw]; cases s <;> simp <;> omega) (by simp only [fl]; omega) (by simp only [fl]; omega)
  convert this using 1
  have e1 := fl_maxVal q M E
  rw [Proof.FloatNum.maxVal_eq, hw] at e1
  rw [← e1]
  push_cast
  simp only [fl]
  cases s
  · simp
  · simp only [if_true]; push_cast; ring

theorem smallest_num (q : QMode) (M E : ℕ) (hE : 2 ≤ E) (s : Bool) : IsNum (fl q M E) ((if s then -1 else 1) * smallest E) := by
  have hp : (2 : ℤ) ≤ 2 ^ (E - 1) := by
    have : 2 ^ 1 ≤ 2 ^ (E - 1) := Nat.pow_le_pow_right (by norm_num) (by omega)
    exact_mod_cast this
  have hw : (fl q M E).W - 1 = M + 1 := rfl
  have hm : (0 : ℤ) < 2 ^ M := by positivity
  have hm2 : (2 : ℤ) ^ (M + 1) = 2 * 2 ^ M := by ring
  have := Proof.FloatNum.isNum_of (t := fl q M E) (r := (if s then -1 else 1) * 2 ^ M) (e := 1 - bias E)
    (by rw [hw]; cases s <;> simp <;> omega) (by rw [hw]; cases s <;> simp <;> omega)
    (by simp only [fl, bias_eq]; omega) (by simp only [fl, bias_eq]; omega)
  convert this using 1
  have hI : ((fl q M E).I - ((fl q M E).W : ℤ)) = -M := by simp only [fl]; push_cast; ring
  rw [hI]
  push_cast
  unfold smallest
  rw [← zpow_natCast (2 : ℚ) M, mul_assoc, mul_assoc, Fmt.z_add, Fmt.z_add]
  congr 2; ring

/-- The magnitude stays in the range of the IEEE format. -/
theorem cvt_range {q : QMode} {M E : ℕ} (hE : 2 ≤ E) {y : ℚ} (h : |y| ≤ largest M E) :
    |(fl q M E).cvt y| ≤ largest M E ∧ (smallest E ≤ |y| → smallest E ≤ |(fl q M E).cvt y|) := by
  have hW : 2 ≤ (fl q M E).W := by simp [fl]
  obtain ⟨a, b⟩ := abs_le.1 h
  have mono : ∀ {x y : ℚ}, x ≤ y → (fl q M E).cvt x ≤ (fl q M E).cvt y := Proof.FloatCvt.cvt_mono hW
  have L1 := cvt_num (by omega) (largest_num q M E true)
  have L2 := cvt_num (by omega) (largest_num q M E false)
  have S1 := cvt_num (by omega) (smallest_num q M E hE true)
  have S2 := cvt_num (by omega) (smallest_num q M E hE false)
  simp only [if_true, Bool.false_eq_true, if_false, neg_mul, one_mul] at L1 L2 S1 S2
  refine ⟨abs_le.2 ⟨by rw [← L1]; exact mono a, by rw [← L2]; exact mono b⟩, fun hs => ?_⟩
  rcases le_abs.1 hs with h1 | h1
  · have := mono h1
    rw [S2] at this
    exact le_trans this (le_abs_self _)
  · have := mono (show y ≤ -smallest E by linarith)
    rw [S1] at this
    exact le_trans (by linarith) (neg_le_abs _)

/-- The wrapper around a function whose output is the conversion of `y`. -/
theorem call_spec {c : Conv} (hc : Ok c) {q : QMode} {f : FFmt → FFmt → ℚ → ℤ → Option ℚ} {Mi Ei Mo Eo d : ℕ}
    (ho : 2 ≤ Eo) (hd : Finite Mi Ei d) {y : ℚ} (h : |y| ≤ largest Mo Eo)
    (hf : f (fl .TRN Mi Ei) (fl q Mo Eo) (Model.CholFloat.rep (fl .TRN Mi Ei) (value false Mi Ei d)).1
      (Model.CholFloat.rep (fl .TRN Mi Ei) (value false Mi Ei d)).2 = some ((fl q Mo Eo).cvt y)) :
    ∃ r, call c q f Mi Ei Mo Eo d = some r ∧ Finite Mo Eo r ∧
      |value false Mo Eo r - (fl q Mo Eo).cvt y| ≤ smallest Eo ∧
      (smallest Eo ≤ |y| → value false Mo Eo r = (fl q Mo Eo).cvt y) := by
  have hW : 2 ≤ (fl q Mo Eo).W := by simp [fl]
  obtain ⟨r1, r2⟩ := cvt_range (q := q) ho h
  obtain ⟨a, b, e⟩ := ofF_num hc ho (Proof.FloatNum.cvt_isNum hW y) r1
  refine ⟨_, ?_, a, b, fun hs => e (Or.inr (r2 hs))⟩
  unfold call
  rw [hc.toF _ _ _ hd, hf]
  rfl

theorem two_W (q : QMode) (M E : ℕ) : 2 - ((fl q M E).W : ℤ) = -M := by simp only [fl]; push_cast; ring

/-- A relative error. -/
theorem call_rel {c : Conv} (hc : Ok c) {q : QMode} {f : FFmt → FFmt → ℚ → ℤ → Option ℚ} {Mi Ei Mo Eo d : ℕ}
    (ho : 2 ≤ Eo) (hd : Finite Mi Ei d) {y : ℚ} {r ε : ℝ} (hy : |(y : ℝ) - r| ≤ ε * |r|) (hr : InRange Mo Eo ε r)
    (hf : f (fl .TRN Mi Ei) (fl q Mo Eo) (Model.CholFloat.rep (fl .TRN Mi Ei) (value false Mi Ei d)).1
      (Model.CholFloat.rep (fl .TRN Mi Ei) (value false Mi Ei d)).2 = some ((fl q Mo Eo).cvt y)) :
    Near Mo Eo (call c q f Mi Ei Mo Eo d) r (relErr Mo ε * |r|) := by
  obtain ⟨r0, r1⟩ := hr
  have a1 : (1 - ε) * |r| ≤ |(y : ℝ)| := by
    have := abs_sub_abs_le_abs_sub r y
    rw [abs_sub_comm r] at this; linarith
  have a2 : |(y : ℝ)| ≤ (1 + ε) * |r| := by
    have := abs_sub_abs_le_abs_sub (y : ℝ) r; linarith
  have b1 : smallest Eo ≤ |y| := by
    have : ((smallest Eo : ℚ) : ℝ) ≤ ((|y| : ℚ) : ℝ) := by rw [Rat.cast_abs]; linarith
    exact (Rat.cast_le (K := ℝ)).1 this
  have b2 : |y| ≤ largest Mo Eo := by
    have : ((|y| : ℚ) : ℝ) ≤ ((largest Mo Eo : ℚ) : ℝ) := by rw [Rat.cast_abs]; linarith
    exact (Rat.cast_le (K := ℝ)).1 this
  obtain ⟨p, p0, p1, -, p2⟩ := call_spec hc ho hd b2 hf
  refine ⟨p, p0, p1, ?_⟩
  rw [p2 b1]
  have hmax := fl_maxVal q Mo Eo
  have hmin := Proof.FloatRec.minVal_le (fl q Mo Eo)
  obtain ⟨c1, c2⟩ := abs_le.1 b2
  have low : (2 : ℚ) ^ ((fl q Mo Eo).I - 2 - 2 ^ ((fl q Mo Eo).E - 1)) ≤ |y| := by
    refine le_trans (Fmt.z_le ?_) b1
    simp only [fl, bias_eq]; omega
  have key := Proof.Float.cvt_err (t := fl q Mo Eo) low (by linarith) (by linarith)
  rw [two_W] at key
  have key' := (Rat.cast_le (K := ℝ)).2 key
  push_cast at key'
  have e1 : (2 : ℝ) ^ (-(Mo : ℤ)) = 1 / 2 ^ Mo := by rw [zpow_neg, zpow_natCast, one_div]
  rw [e1] at key'
  have z : (0 : ℝ) < 1 / 2 ^ Mo := by positivity
  have h3 := abs_add_le ((((fl q Mo Eo).cvt y : ℚ) : ℝ) - y) ((y : ℝ) - r)
  rw [sub_add_sub_cancel] at h3
  have h4 := mul_le_mul_of_nonneg_right a2 z.le
  unfold relErr
  have : (ε + (1 + ε) / 2 ^ Mo) * |r| = ε * |r| + (1 + ε) * |r| * (1 / 2 ^ Mo) := by ring
  rw [this]; linarith

/-- An absolute error. -/
theorem call_abs {c : Conv} (hc : Ok c) {q : QMode} {f : FFmt → FFmt → ℚ → ℤ → Option ℚ} {Mi Ei Mo Eo d : ℕ}
    (ho : 2 ≤ Eo) (hd : Finite Mi Ei d) {y : ℚ} {r δ : ℝ} (hy : |(y : ℝ) - r| ≤ δ) (hr : |r| + δ ≤ ((largest Mo Eo : ℚ) : ℝ))
    (hf : f (fl .TRN Mi Ei) (fl q Mo Eo) (Model.CholFloat.rep (fl .TRN Mi Ei) (value false Mi Ei d)).1
      (Model.CholFloat.rep (fl .TRN Mi Ei) (value false Mi Ei d)).2 = some ((fl q Mo Eo).cvt y)) :
    Near Mo Eo (call c q f Mi Ei Mo Eo d) r (absErr Mo Eo δ r) := by
  have a2 : |(y : ℝ)| ≤ |r| + δ := by
    have := abs_sub_abs_le_abs_sub (y : ℝ) r; linarith
  have b2 : |y| ≤ largest Mo Eo := by
    have : ((|y| : ℚ) : ℝ) ≤ ((largest Mo Eo : ℚ) : ℝ) := by rw [Rat.cast_abs]; linarith
    exact (Rat.cast_le (K := ℝ)).1 this
  obtain ⟨p, p0, p1, p2, -⟩ := call_spec hc ho hd b2 hf
  refine ⟨p, p0, p1, ?_⟩
  have p2' := (Rat.cast_le (K := ℝ)).2 p2
  rw [Rat.cast_abs, Rat.cast_sub] at p2'
  have key := Proof.FloatCvt.output_abs (o := fl q Mo Eo) hy (by rw [fl_maxVal]; exact hr)
  rw [two_W] at key
  have e1 : (2 : ℝ) ^ (-(Mo : ℤ)) = 1 / 2 ^ Mo := by rw [zpow_neg, zpow_natCast, one_div]
  rw [e1] at key
  have e2 : (2 : ℝ) ^ ((fl q Mo Eo).I - ((fl q Mo Eo).W : ℤ) - 2 ^ ((fl q Mo Eo).E - 1)) ≤ ((smallest Eo : ℚ) : ℝ) := by
    unfold smallest
    push_cast
    apply zpow_le_zpow_right₀ (by norm_num)
    simp only [fl, bias_eq]; push_cast; omega
  have h3 := abs_add_le (((value false Mo Eo p : ℚ) : ℝ) - (((fl q Mo Eo).cvt y : ℚ) : ℝ)) ((((fl q Mo Eo).cvt y : ℚ) : ℝ) - r)
  rw [sub_add_sub_cancel] at h3
  unfold absErr
  have : (|r| + δ) / 2 ^ Mo = (|r| + δ) * (1 / 2 ^ Mo) := by ring
  rw [this]; linarith

/-- Setting the sign bit keeps the other bits. -/
theorem setSign_spec (M E d : ℕ) (s : Bool) : Model.StdAddTree.sgn M E (setSign M E d s) = s ∧
    expField M E (setSign M E d s) = expField M E d ∧ setSign M E d s % 2 ^ M = d % 2 ^ M ∧ setSign M E d s < 2 ^ (M + E + 1) := by
  have hm := Nat.mod_lt d (show 0 < 2 ^ M by positivity)
  have he := Nat.mod_lt (d / 2 ^ M) (show 0 < 2 ^ E by positivity)
  have : d % 2 ^ (M + E) = d % 2 ^ M + d / 2 ^ M % 2 ^ E * 2 ^ M := by
    rw [pow_add, Nat.mod_mul]; ring
  obtain ⟨f1, f2, f3, f4⟩ := fields (M := M) (E := E) s hm he
  unfold setSign
  rw [this]
  exact ⟨f3, f2, f1, f4⟩

/-- The value of a bit pattern with the sign bit cleared or set. -/
theorem setSign_value (M E d : ℕ) (s : Bool) : value false M E (setSign M E d s) = (if s then -1 else 1) * |value false M E d| := by
  obtain ⟨h1, h2, h3, -⟩ := setSign_spec M E d s
  have h1' : (setSign M E d s).testBit (M + E) = s := h1
  unfold value
  rw [h1', h2, h3, abs_mul]
  have : |(if d.testBit (M + E) = true then (-1 : ℚ) else 1)| = 1 := by split_ifs <;> simp
  rw [this, one_mul, abs_of_nonneg]
  split_ifs
  · exact le_refl _
  · exact mul_nonneg (Nat.cast_nonneg _) (Fmt.z_pos _).le
  · exact mul_nonneg (Nat.cast_nonneg _) (Fmt.z_pos _).le

theorem setSign_nan (M E d : ℕ) (s : Bool) : Model.StdAddTree.nan M E (setSign M E d s) = Model.StdAddTree.nan M E d := by
  obtain ⟨-, h2, h3, -⟩ := setSign_spec M E d s
  unfold Model.StdAddTree.nan Model.StdAddTree.mantZero
  have : Model.StdAddTree.expo M E (setSign M E d s) = Model.StdAddTree.expo M E d := h2
  rw [this, h3]

/-- There are such conversions. -/
theorem ok_exists : ∃ c, Ok c := by
  classical
  refine ⟨⟨fun M E d => Model.CholFloat.rep (fl .TRN M E) (value false M E d),
    fun M E x => if h : ∃ d, Finite M E d ∧ value false M E d = x then h.choose else 0,
    fun M E => 1 + (2 ^ E - 1) * 2 ^ M⟩, fun M E d _ => rfl, ?_, ?_, ?_⟩
  · intro M E d hd
    have h : ∃ d', Finite M E d' ∧ value false M E d' = value false M E d := ⟨d, hd, rfl⟩
    simp only [dif_pos h]
    exact h.choose_spec
  · intro M E x hE hx
    by_cases h : ∃ d, Finite M E d ∧ value false M E d = x
    · simp only [dif_pos h]
      refine ⟨h.choose_spec.1, ?_⟩
      rw [h.choose_spec.2, sub_self, abs_zero]
      exact (Fmt.z_pos _).le
    · simp only [dif_neg h]
      refine ⟨(zero_bits hE).1, ?_⟩
      rw [(zero_bits hE).2, zero_sub, abs_neg]
      exact hx
  · intro M E hM
    have h2 : 1 ≤ 2 ^ E := Nat.one_le_two_pow
    have hm : 1 < 2 ^ M := Nat.one_lt_two_pow (by omega)
    obtain ⟨f1, f2, f3, f4⟩ := fields (M := M) (E := E) (m := 1) (e := 2 ^ E - 1) false hm (by omega)
    simp only [Bool.false_eq_true, if_false, add_zero] at f1 f2 f3 f4
    refine ⟨f4, ?_, f3⟩
    unfold Model.StdAddTree.nan Model.StdAddTree.mantZero
    rw [f1, f2]
    simp

end Proof.StdFloat
