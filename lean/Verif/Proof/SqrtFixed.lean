import Verif.Proof.Sqrt
import Verif.Proof.Shift
import Verif.Proof.DivFixed
import Verif.Model.SqrtFixed
import Mathlib.Analysis.Real.Sqrt

/-! # The fixed-point square root is correctly rounded -/

namespace Proof.SqrtFixed
open Ac Model.Sqrt Model.SqrtFixed Proof.Shift

theorem tdiv2 (a : ℤ) : 2 * a.tdiv 2 = a ∨ 2 * a.tdiv 2 = a - 1 ∧ 0 ≤ a ∨ 2 * a.tdiv 2 = a + 1 ∧ a < 0 := by
  rcases le_or_gt 0 a with h | h
  · rw [Int.tdiv_eq_ediv_of_nonneg h]; omega
  · have : a.tdiv 2 = -((-a) / 2) := by
      rw [← Int.tdiv_eq_ediv_of_nonneg (by omega), Int.neg_tdiv, neg_neg]
    rw [this]; omega

/-- Facts about the derived constants when the early exit is not taken. -/
theorem consts {fx fo : Fmt} (hW : 1 ≤ fx.W) (he : ¬ RI fx - 1 < -OF fo) :
    RF fx fo = OF fo ∧ fx.I ≤ 2 * RI fx ∧ (RW fx fo : ℤ) = RI fx + OF fo ∧ 1 ≤ RW fx fo ∧
    (ZW fx fo : ℤ) = 2 * RI fx + ZF fx fo ∧ 2 ≤ ZW fx fo ∧ ZF fx fo ≤ 2 * RF fx fo ∧
    (ZF fx fo < 2 * RF fx fo → fx.F ≤ ZF fx fo) ∧ (ZW fx fo ≤ 2 * RW fx fo) := by
  have h1 : RF fx fo = OF fo := by unfold RF; omega
  have h2 := tdiv2 (fx.I + 1)
  have h3 := tdiv2 (fx.F + 1)
  have hRI : 2 * RI fx = 2 * (fx.I + 1).tdiv 2 := rfl
  have hF : fx.F = fx.W - fx.I := rfl
  have hZ : ZF fx fo = 2 * min ((fx.F + 1).tdiv 2) (RF fx fo) := rfl
  have hRW : (RW fx fo : ℤ) = RI fx + OF fo := by unfold RW; rw [h1]; omega
  have hZW : (ZW fx fo : ℤ) = 2 * RI fx + ZF fx fo := by
    unfold ZW
    rw [Int.toNat_of_nonneg]
    rcases min_choice ((fx.F + 1).tdiv 2) (RF fx fo) with h | h <;> rw [h] at hZ <;> omega
  refine ⟨h1, by omega, hRW, by omega, hZW, ?_, ?_, ?_, ?_⟩
  · rcases min_choice ((fx.F + 1).tdiv 2) (RF fx fo) with h | h <;> rw [h] at hZ <;> omega
  · rcases min_choice ((fx.F + 1).tdiv 2) (RF fx fo) with h | h
    · have := min_le_right ((fx.F + 1).tdiv 2) (RF fx fo); omega
    · rw [h] at hZ; omega
  · intro h'
    rcases min_choice ((fx.F + 1).tdiv 2) (RF fx fo) with h | h <;> rw [h] at hZ <;> omega
  · have := min_le_right ((fx.F + 1).tdiv 2) (RF fx fo); omega

/-- The input word has no bits above `2·RI`. -/
theorem x_lt {fx : Fmt} {X : ℤ} (h1 : X < 2 ^ fx.W) (hI : fx.I ≤ 2 * RI fx) (k : ℤ) :
    fx.val X * 2 ^ k < (2 : ℚ) ^ (2 * RI fx + k) := by
  have e : (2 : ℚ) ^ (2 * RI fx + k) = 2 ^ (2 * RI fx) * 2 ^ k := by rw [zpow_mul_zpow]
  rw [e]
  apply mul_lt_mul_of_pos_right _ (zpow_pos' _)
  have h2 : fx.val X < (2 : ℚ) ^ fx.I := by
    have e : (2 : ℚ) ^ fx.I = ((2 ^ fx.W : ℤ) : ℚ) * 2 ^ (-fx.F) := by
      push_cast
      rw [← zpow_natCast, zpow_mul_zpow]; congr 1; unfold Fmt.F; ring
    rw [e]; unfold Fmt.val
    exact mul_lt_mul_of_pos_right (by exact_mod_cast h1) (zpow_pos' _)
  exact lt_of_lt_of_le h2 (zpow_le_zpow_right₀ (by norm_num) hI)

theorem zInit_eq {fx fo : Fmt} (hW : 1 ≤ fx.W) (hS : fx.S = false) {X : ℤ} (h0 : 0 ≤ X) (h1 : X < 2 ^ fx.W)
    (he : ¬ RI fx - 1 < -OF fo) :
    zInit fx fo X = ⌊fx.val X * 2 ^ ZF fx fo⌋ ∧ 0 ≤ zInit fx fo X ∧ zInit fx fo X < 2 ^ ZW fx fo := by
  obtain ⟨c1, c2, c3, c4, c5, c6, c7, c8, c9⟩ := consts hW he
  have hX : InRange fx.W false X := ⟨by simpa [minRaw] using h0, by simp [maxRaw]; omega⟩
  have hfl0 : 0 ≤ ⌊fx.val X * 2 ^ ZF fx fo⌋ := by
    rw [Int.floor_nonneg]
    unfold Fmt.val
    exact mul_nonneg (mul_nonneg (by exact_mod_cast h0) (zpow_pos' _).le) (zpow_pos' _).le
  have hfl1 : ⌊fx.val X * 2 ^ ZF fx fo⌋ < 2 ^ ZW fx fo := by
    rw [Int.floor_lt]
    have := x_lt h1 c2 (ZF fx fo)
    rw [← c5, zpow_natCast] at this
    exact_mod_cast this
  have key : zInit fx fo X = ⌊fx.val X * 2 ^ ZF fx fo⌋ := by
    unfold zInit
    simp only
    rw [leftUS_eq (fx := fx) (fo := ⟨ZW fx fo, ZW fx fo, false, .TRN, .WRAP⟩) hW (by simp; omega) hS rfl
      (by rw [hS]; exact hX)]
    unfold Fmt.cvt
    rw [Fmt.raw_val]
    unfold Fmt.cvtRaw
    simp only [Fmt.F, sub_self, zpow_zero, mul_one, quant, ovf]
    exact wrapU_of_lt hfl0 hfl1
  rw [key]; exact ⟨rfl, hfl0, hfl1⟩

/-- The truncated radicand the loop works on is `⌊x·4^RF⌋`; it is exact when no input bit is dropped. -/
theorem top_eq {fx fo : Fmt} (hW : 1 ≤ fx.W) (hS : fx.S = false) {X : ℤ} (h0 : 0 ≤ X) (h1 : X < 2 ^ fx.W)
    (he : ¬ RI fx - 1 < -OF fo) :
    ∃ T : ℕ, (zInit fx fo X).toNat * 4 ^ RW fx fo / 2 ^ ZW fx fo = T ∧
      (zInit fx fo X).toNat * 4 ^ RW fx fo % 2 ^ ZW fx fo = 0 ∧
      (T : ℚ) ≤ fx.val X * 2 ^ (2 * RF fx fo) ∧ fx.val X * 2 ^ (2 * RF fx fo) < T + 1 ∧
      (fx.F ≤ ZF fx fo → fx.val X * 2 ^ (2 * RF fx fo) = T) ∧ (¬ fx.F ≤ ZF fx fo → ZF fx fo = 2 * RF fx fo) := by
  obtain ⟨c1, c2, c3, c4, c5, c6, c7, c8, c9⟩ := consts hW he
  obtain ⟨z1, z2, z3⟩ := zInit_eq hW hS h0 h1 he
  obtain ⟨z, hz⟩ : ∃ z : ℕ, zInit fx fo X = z := ⟨(zInit fx fo X).toNat, (Int.toNat_of_nonneg z2).symm⟩
  have e4 : 4 ^ RW fx fo = 2 ^ (2 * RW fx fo - ZW fx fo) * 2 ^ ZW fx fo := by
    rw [show (4 : ℕ) = 2 ^ 2 by norm_num, ← pow_mul, ← pow_add]; congr 1; omega
  refine ⟨z * 2 ^ (2 * RW fx fo - ZW fx fo), ?_, ?_, ?_⟩
  · rw [hz, Int.toNat_natCast, e4, ← mul_assoc, Nat.mul_div_cancel _ (Nat.two_pow_pos _)]
  · rw [hz, Int.toNat_natCast, e4, ← mul_assoc, Nat.mul_mod_left]
  have hfl : ⌊fx.val X * 2 ^ ZF fx fo⌋ = (z : ℤ) := by rw [← z1, hz]
  have hexact : fx.F ≤ ZF fx fo → fx.val X * 2 ^ ZF fx fo = (z : ℚ) := by
    intro h
    have e : fx.val X * 2 ^ ZF fx fo = ((X * 2 ^ (ZF fx fo - fx.F).toNat : ℤ) : ℚ) := by
      unfold Fmt.val
      push_cast
      rw [mul_assoc, zpow_mul_zpow, ← zpow_natCast]
      congr 2; omega
    rw [e, Int.floor_intCast] at hfl
    rw [e, hfl]; simp
  have e2 : fx.val X * (2 : ℚ) ^ (2 * RF fx fo) = fx.val X * 2 ^ ZF fx fo * 2 ^ (2 * RW fx fo - ZW fx fo) := by
    rw [← zpow_natCast (2 : ℚ), mul_assoc, zpow_mul_zpow]; congr 2; omega
  have hp : (0 : ℚ) < 2 ^ (2 * RW fx fo - ZW fx fo) := by positivity
  rcases lt_or_eq_of_le c7 with h | h
  · have hF := c8 h
    have hx := hexact hF
    have e3 : fx.val X * (2 : ℚ) ^ (2 * RF fx fo) = ((z * 2 ^ (2 * RW fx fo - ZW fx fo) : ℕ) : ℚ) := by
      rw [e2, hx]; push_cast; rfl
    rw [e3]
    exact ⟨le_rfl, by linarith, fun _ => rfl, fun h => absurd hF h⟩
  · have e0 : 2 * RW fx fo - ZW fx fo = 0 := by omega
    rw [e0, pow_zero, mul_one, ← h]
    rw [Int.floor_eq_iff] at hfl
    exact ⟨by exact_mod_cast hfl.1, by exact_mod_cast hfl.2, hexact, fun _ => rfl⟩

theorem zr_iff {fx fo : Fmt} {X : ℤ} (hz : ZF fx fo < fx.F) :
    zrNonzero fx fo X = true ↔ ∀ n : ℤ, fx.val X * 2 ^ ZF fx fo ≠ n := by
  unfold zrNonzero
  simp only [ne_eq, decide_eq_true_eq]
  set k := (max (fx.F - ZF fx fo) 1).toNat with hk
  have hk' : (k : ℤ) = fx.F - ZF fx fo := by omega
  have hF : (⟨k, -ZF fx fo, false, .TRN, .WRAP⟩ : Fmt).F = fx.F := by simp only [Fmt.F]; unfold Fmt.F at hk'; omega
  rw [Proof.DivFixed.cvt_same_F hF]
  simp only [ovf]
  have e1 : (⟨k, -ZF fx fo, false, .TRN, .WRAP⟩ : Fmt).val (wrap k false X) = 0 ↔ X % 2 ^ k = 0 := by
    unfold Fmt.val
    rw [mul_eq_zero, or_iff_left (ne_of_gt (zpow_pos' _)), Int.cast_eq_zero]; rfl
  rw [e1]
  have e2 : fx.val X * 2 ^ ZF fx fo = (X : ℚ) / 2 ^ k := by
    unfold Fmt.val
    rw [mul_assoc, zpow_mul_zpow, div_eq_mul_inv, ← zpow_natCast, ← zpow_neg, hk']; congr 2; ring
  rw [e2]
  have hp : (0 : ℚ) < 2 ^ k := by positivity
  constructor
  · intro h n hn
    apply h
    rw [div_eq_iff (ne_of_gt hp)] at hn
    have : X = n * 2 ^ k := by exact_mod_cast hn
    rw [this]; simp
  · intro h h'
    obtain ⟨n, hn⟩ := Int.dvd_of_emod_eq_zero h'
    apply h n
    rw [div_eq_iff (ne_of_gt hp), hn]; push_cast; ring

theorem early_zero {fx fo : Fmt} {X : ℤ} (h0 : 0 ≤ X) (h1 : X < 2 ^ fx.W)
    (hI : fx.I ≤ 2 * RI fx) (he : RI fx - 1 < -OF fo) : fo.cvt (0 : ℚ) = fo.cvt (Real.sqrt (fx.val X : ℝ)) := by
  have hx0 : 0 ≤ fx.val X := by unfold Fmt.val; exact mul_nonneg (by exact_mod_cast h0) (zpow_pos' _).le
  have hx0R : (0 : ℝ) ≤ (fx.val X : ℝ) := by exact_mod_cast hx0
  have hlt : Real.sqrt (fx.val X : ℝ) * 2 ^ OF fo < 1 := by
    have hb : (fx.val X : ℝ) < (2 : ℝ) ^ (2 * RI fx) := by
      have := x_lt h1 hI 0
      rw [zpow_zero, mul_one, add_zero] at this
      have h' : ((fx.val X : ℚ) : ℝ) < (((2 : ℚ) ^ (2 * RI fx) : ℚ) : ℝ) := by exact_mod_cast this
      push_cast at h'; exact h'
    have hs : Real.sqrt (fx.val X : ℝ) < (2 : ℝ) ^ RI fx := by
      rw [Real.sqrt_lt' (Fmt.two_zpow_pos _)]
      rw [← zpow_natCast, ← zpow_mul]
      convert hb using 2
      push_cast; ring
    calc Real.sqrt (fx.val X : ℝ) * 2 ^ OF fo < (2 : ℝ) ^ RI fx * 2 ^ OF fo :=
          mul_lt_mul_of_pos_right hs (Fmt.two_zpow_pos _)
      _ = (2 : ℝ) ^ (RI fx + OF fo) := by rw [← zpow_add₀ (by norm_num)]
      _ ≤ (2 : ℝ) ^ (0 : ℤ) := zpow_le_zpow_right₀ (by norm_num) (by omega)
      _ = 1 := by norm_num
  have hge : 0 ≤ Real.sqrt (fx.val X : ℝ) * 2 ^ OF fo := mul_nonneg (Real.sqrt_nonneg _) (Fmt.two_zpow_pos _).le
  by_cases hc : fo.Q ∈ [QMode.TRN, .TRN_ZERO, .RND, .RND_INF]
  · apply Fmt.cvt_cell_closed (g := OF fo) (m := 0)
    · simp only [List.mem_cons, List.not_mem_nil, or_false] at hc
      rcases hc with h | h | h | h
      · left; exact ⟨h, by simp [OF, RBIT, h]⟩
      · right; right; left; exact ⟨h, by simp [OF, RBIT, h], le_rfl⟩
      · right; left; exact ⟨h, by simp [OF, RBIT, h]⟩
      · right; right; right; exact ⟨h, by simp [OF, RBIT, h], le_rfl⟩
    · simp
    · simp
    · simpa using hge
    · simpa using hlt
  · by_cases hz : Real.sqrt (fx.val X : ℝ) = 0
    · rw [hz]; rw [← Fmt.cvt_ratCast (R := ℝ)]; simp
    · have hpos : 0 < Real.sqrt (fx.val X : ℝ) * 2 ^ OF fo :=
        mul_pos (lt_of_le_of_ne (Real.sqrt_nonneg _) (Ne.symm hz)) (Fmt.two_zpow_pos _)
      have hO : OF fo = fo.F + 1 := by
        unfold OF RBIT
        rw [if_neg]
        rintro (h | h) <;> simp [h] at hc
      have hhalf : Real.sqrt (fx.val X : ℝ) * 2 ^ fo.F < 1 / 2 := by
        rw [hO, zpow_add₀ (by norm_num)] at hlt
        have : (2 : ℝ) ^ (1 : ℤ) = 2 := by norm_num
        rw [this] at hlt; linarith
      have hpos' : 0 < Real.sqrt (fx.val X : ℝ) * 2 ^ fo.F :=
        mul_pos (lt_of_le_of_ne (Real.sqrt_nonneg _) (Ne.symm hz)) (Fmt.two_zpow_pos _)
      unfold Fmt.cvt Fmt.cvtRaw
      congr 2
      set y := Real.sqrt (fx.val X : ℝ) * 2 ^ fo.F with hy
      have hfl : ⌊y⌋ = 0 := by rw [Int.floor_eq_iff]; constructor <;> push_cast <;> linarith
      have hfr : Int.fract y = y := by unfold Int.fract; rw [hfl]; simp
      have z0 : quant fo.Q ((0 : ℚ) * 2 ^ fo.F) = 0 := by
        rw [zero_mul]; exact_mod_cast quant_intCast (R := ℚ) fo.Q 0
      rw [z0, quant_eq_up, hfl, hfr]
      have p1 : ¬ (1 / 2 ≤ y) := by linarith
      have p2 : ¬ (1 / 2 < y) := by linarith
      revert hc
      cases fo.Q <;> simp only [up, p1, p2] <;> simp

/-- Main lemma: the output is the real square root converted once. -/
theorem sqrtFixed_eq {fx fo : Fmt} (hW : 1 ≤ fx.W) (hWo : 1 ≤ fo.W) (hS : fx.S = false) (hSo : fo.S = false) {X : ℤ}
    (h0 : 0 ≤ X) (h1 : X < 2 ^ fx.W) : sqrtFixed fx fo X = fo.cvt (Real.sqrt (fx.val X : ℝ)) := by
  have hI : fx.I ≤ 2 * RI fx := by
    have h2 := tdiv2 (fx.I + 1)
    have hRI : 2 * RI fx = 2 * (fx.I + 1).tdiv 2 := rfl
    omega
  unfold sqrtFixed
  by_cases he : RI fx - 1 < -OF fo
  · rw [if_pos he]; exact early_zero h0 h1 hI he
  rw [if_neg he]
  obtain ⟨c1, c2, c3, c4, c5, c6, c7, c8, c9⟩ := consts hW he
  obtain ⟨z1, z2, z3⟩ := zInit_eq hW hS h0 h1 he
  obtain ⟨T, t1, t2, t3, t4, t5, t6⟩ := top_eq hW hS h0 h1 he
  have hz : (zInit fx fo X).toNat < 2 ^ ZW fx fo := by
    have := (Int.toNat_lt z2 (n := 2 ^ ZW fx fo)).mpr (by exact_mod_cast z3)
    exact this
  have hinv := loop_spec (RW := RW fx fo) c6 hz
  simp only
  set s := loop (RW fx fo) (ZW fx fo) (ZW fx fo - 2) (RW fx fo)
    { mask := 0, d := 0, r := 0, z := (zInit fx fo X).toNat } with hs
  have hr : s.r = Nat.sqrt T := by rw [hinv.hr, t1]
  have hd : s.d = T - s.r * s.r := by rw [hinv.hd, t1]
  have hzz : s.z = 0 := by rw [hinv.hz, t2]
  have q1 : s.r * s.r ≤ T := by rw [hr]; exact Nat.sqrt_le T
  have q2 : T < (s.r + 1) * (s.r + 1) := by rw [hr]; exact Nat.lt_succ_sqrt T
  have hxI : (T : ℚ) < 2 ^ (2 * RW fx fo) := by
    have h := x_lt h1 c2 (2 * RF fx fo)
    have e : (2 : ℚ) ^ (2 * RI fx + 2 * RF fx fo) = 2 ^ (2 * RW fx fo) := by
      rw [← zpow_natCast]; congr 1; push_cast; omega
    rw [e] at h; linarith
  have hTlt : T < 2 ^ (2 * RW fx fo) := by exact_mod_cast hxI
  have hrlt : s.r < 2 ^ RW fx fo := by
    have : s.r * s.r < 2 ^ RW fx fo * 2 ^ RW fx fo := by rw [← pow_add, ← two_mul]; omega
    exact lt_of_mul_self_lt_mul_self₀ (Nat.zero_le _) this
  have hrltZ : (s.r : ℤ) < 2 ^ RW fx fo := by exact_mod_cast hrlt
  have hpow : (2 : ℤ) ^ (RW fx fo + 1) = 2 * 2 ^ RW fx fo := by rw [pow_succ]; ring
  have hwrap : wrap (RW fx fo + 1) false ((s.r : ℤ) * 2) = s.r * 2 ^ 1 := by
    rw [wrapU_of_lt (by omega) (by omega)]; ring
  rw [hwrap]
  -- the remainder flag
  set xq := fx.val X * 2 ^ (2 * RF fx fo) with hxq
  set rem : Bool := if ZF fx fo < fx.F then
      (decide (s.d ≠ 0 ∨ s.z / 2 ^ (2 * RW fx fo) ≠ 0) || zrNonzero fx fo X)
      else decide (s.d ≠ 0 ∨ s.z / 2 ^ (2 * RW fx fo) ≠ 0) with hrem
  have hremiff : rem = true ↔ xq ≠ ((s.r * s.r : ℕ) : ℚ) := by
    have hd0 : (s.d ≠ 0 ∨ s.z / 2 ^ (2 * RW fx fo) ≠ 0) ↔ T ≠ s.r * s.r := by
      rw [hzz, Nat.zero_div]; simp only [ne_eq, not_true_eq_false, or_false]; rw [hd]; omega
    have hfloor : ∀ n : ℤ, xq = n → (T : ℤ) = n := by
      intro n hn
      rw [hn] at t3 t4
      have a1 : (T : ℤ) ≤ n := by exact_mod_cast t3
      have a2 : n < (T : ℤ) + 1 := by exact_mod_cast t4
      omega
    rw [hrem]
    split_ifs with hzf
    · have hzeq := t6 (by omega)
      rw [Bool.or_eq_true, decide_eq_true_eq, hd0, zr_iff hzf, hzeq, ← hxq]
      constructor
      · rintro (h | h) hc
        · have := hfloor (s.r * s.r : ℕ) (by rw [hc]; simp)
          exact h (by exact_mod_cast this)
        · exact h ((s.r * s.r : ℕ) : ℤ) (by rw [hc]; simp)
      · intro h
        by_contra hc
        push Not at hc
        obtain ⟨g1, n, g2⟩ := hc
        have := hfloor n g2
        apply h
        rw [g2, ← this, ← g1]; simp
    · rw [decide_eq_true_eq, hd0]
      have := t5 (by omega)
      rw [this]
      constructor
      · intro h h'; exact h (by exact_mod_cast h')
      · intro h h'; exact h (by rw [h'])
  -- position of the exact root
  set y := Real.sqrt (fx.val X : ℝ) with hy
  have hx0 : (0 : ℝ) ≤ (fx.val X : ℝ) := by
    have : 0 ≤ fx.val X := by unfold Fmt.val; exact mul_nonneg (by exact_mod_cast h0) (zpow_pos' _).le
    exact_mod_cast this
  have hp : (0 : ℝ) < 2 ^ RF fx fo := Fmt.two_zpow_pos _
  have hysq : (y * 2 ^ RF fx fo) ^ 2 = (xq : ℝ) := by
    rw [mul_pow, hy, Real.sq_sqrt hx0, hxq]
    push_cast
    rw [← zpow_natCast, ← zpow_mul]; congr 2; push_cast; ring
  have hy0 : 0 ≤ y * 2 ^ RF fx fo := mul_nonneg (Real.sqrt_nonneg _) hp.le
  have t3R : (T : ℝ) ≤ (xq : ℝ) := by exact_mod_cast t3
  have t4R : (xq : ℝ) < (T : ℝ) + 1 := by exact_mod_cast t4
  have q1R : (s.r : ℝ) ^ 2 ≤ T := by rw [pow_two]; exact_mod_cast q1
  have q2R : (T : ℝ) + 1 ≤ ((s.r : ℝ) + 1) ^ 2 := by rw [pow_two]; exact_mod_cast q2
  have p0 : (s.r : ℝ) ≤ y * 2 ^ RF fx fo := by
    apply le_of_sq_le_sq _ hy0
    rw [hysq]; linarith
  have p1 : y * 2 ^ RF fx fo < (s.r : ℝ) + 1 := by
    apply lt_of_pow_lt_pow_left₀ 2 (by positivity)
    rw [hysq]; linarith
  have peq : y * 2 ^ RF fx fo = (s.r : ℝ) ↔ xq = ((s.r * s.r : ℕ) : ℚ) := by
    constructor
    · intro h
      rw [h] at hysq
      have : ((((s.r * s.r : ℕ) : ℚ)) : ℝ) = (xq : ℝ) := by rw [← hysq]; push_cast; ring
      exact_mod_cast this.symm
    · intro h
      have h' : (y * 2 ^ RF fx fo) ^ 2 = (s.r : ℝ) ^ 2 := by rw [hysq, h]; push_cast; ring
      exact (pow_left_inj₀ hy0 (by positivity) two_ne_zero).mp h'
  -- final conversion
  have hg : (⟨RW fx fo + 1, RW fx fo, false, .TRN, .WRAP⟩ : Fmt).F = 1 := by simp [Fmt.F]
  have hval : ∀ e : ℤ, (⟨RW fx fo + 1, RW fx fo, false, .TRN, .WRAP⟩ : Fmt).val (2 * (s.r : ℤ) + e) * 2 ^ (-RF fx fo)
      * 2 ^ RF fx fo = (s.r : ℚ) + e / 2 := by
    intro e
    rw [mul_assoc, zpow_mul_zpow, neg_add_cancel, zpow_zero, mul_one]
    unfold Fmt.val
    rw [hg]; push_cast; norm_num; ring
  have hinr : ∀ e : ℤ, 0 ≤ e → e ≤ 1 → InRange (RW fx fo + 1) false (2 * (s.r : ℤ) + e) := by
    intro e e0 e1
    refine ⟨?_, ?_⟩
    · simp [minRaw]; omega
    · simp [maxRaw]; omega
  have hOF : RF fx fo = fo.F + RBIT fo.Q := by rw [c1]; rfl
  split_ifs with hm
  · rw [setBit_low c4 le_rfl ⟨by simp [minRaw], by simp [maxRaw]; omega⟩]
    have hR : RF fx fo = fo.F + 1 := by
      rw [hOF]; unfold RBIT; rw [if_neg]
      rintro (h | h) <;> simp [h] at hm
    rw [rightUS_eq (fx := ⟨RW fx fo + 1, RW fx fo, false, .TRN, .WRAP⟩) (by simp) hWo rfl hSo
      (hinr _ (by split_ifs <;> norm_num) (by split_ifs <;> norm_num))]
    by_cases hrm : rem = true
    · rw [if_pos hrm]
      have hne := hremiff.mp hrm
      apply Fmt.cvt_cell (g := RF fx fo) (m := s.r) (by omega)
      · rw [hval]; push_cast; linarith
      · rw [hval]; push_cast; linarith
      · push_cast; exact lt_of_le_of_ne p0 (fun h => hne (peq.mp h.symm))
      · push_cast; exact p1
    · rw [if_neg hrm]
      have heq : xq = ((s.r * s.r : ℕ) : ℚ) := by
        by_contra hc; exact hrm (hremiff.mpr hc)
      have hyr := peq.mpr heq
      have hyq : y = (((⟨RW fx fo + 1, RW fx fo, false, .TRN, .WRAP⟩ : Fmt).val (2 * (s.r : ℤ) + 0) *
          2 ^ (-RF fx fo) : ℚ) : ℝ) := by
        apply mul_right_cancel₀ (ne_of_gt hp)
        rw [hyr]
        have := congrArg (Rat.cast : ℚ → ℝ) (hval 0)
        push_cast at this ⊢
        rw [this]; ring
      rw [hyq, Fmt.cvt_ratCast]
  · rw [rightUS_eq (fx := ⟨RW fx fo + 1, RW fx fo, false, .TRN, .WRAP⟩) (by simp) hWo rfl hSo
      (by have := hinr 0 le_rfl (by norm_num); rw [show (s.r : ℤ) * 2 ^ 1 = 2 * s.r + 0 by ring]; exact this)]
    rw [show (s.r : ℤ) * 2 ^ 1 = 2 * s.r + 0 by ring]
    have hnn : 0 ≤ (⟨RW fx fo + 1, RW fx fo, false, .TRN, .WRAP⟩ : Fmt).val (2 * (s.r : ℤ) + 0) * 2 ^ (-RF fx fo) := by
      unfold Fmt.val
      exact mul_nonneg (mul_nonneg (by exact_mod_cast (by omega)) (zpow_pos' _).le) (zpow_pos' _).le
    apply Fmt.cvt_cell_closed (g := RF fx fo) (m := s.r)
    · have h4 : fo.Q = .TRN ∨ fo.Q = .RND ∨ fo.Q = .TRN_ZERO ∨ fo.Q = .RND_INF := by
        revert hm; cases fo.Q <;> simp
      rcases h4 with h | h | h | h
      · left; exact ⟨h, by rw [hOF, h]; simp [RBIT]⟩
      · right; left; exact ⟨h, by rw [hOF, h]; simp [RBIT]⟩
      · right; right; left; exact ⟨h, by rw [hOF, h]; simp [RBIT], hnn⟩
      · right; right; right; exact ⟨h, by rw [hOF, h]; simp [RBIT], hnn⟩
    · rw [hval]; push_cast; linarith
    · rw [hval]; push_cast; linarith
    · push_cast; exact p0
    · push_cast; exact p1

end Proof.SqrtFixed
