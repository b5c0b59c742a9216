import Verif.Proof.Atan2Real

/-! # The CORDIC of ac_atan2_cordic.h -/

namespace Proof.Atan2
open Ac Model.Atan2
open Proof.Cordic (G G_pos G_zero G_mono G_le norm_le_of_comp val_add val_sub floor_near)

/-! ## Conversions -/

theorem cvt_floor {g : Fmt} (hW : 1 ≤ g.W) (hQ : g.Q = .TRN) (hO : g.O = .WRAP) {v : ℚ}
    (h0 : minRaw g.W g.S ≤ ⌊v * 2 ^ g.F⌋) (h1 : ⌊v * 2 ^ g.F⌋ ≤ maxRaw g.W g.S) : g.cvt v = g.val ⌊v * 2 ^ g.F⌋ := by
  unfold Fmt.cvt Fmt.cvtRaw
  rw [hQ, hO]
  simp only [quant]
  rw [ovf_of_range hW (by simpa [loRaw] using h0) h1]

theorem cvt_raw {g : Fmt} (hW : 1 ≤ g.W) (hO : g.O = .WRAP) {r : ℤ} (h0 : minRaw g.W g.S ≤ r) (h1 : r ≤ maxRaw g.W g.S) :
    g.cvt (g.val r) = g.val r := Fmt.cvt_val hW (by rw [hO]; simpa [loRaw] using h0) h1

theorem shr_raw {g : Fmt} (hW : 1 ≤ g.W) {r : ℤ} (i : ℕ) (h0 : minRaw g.W g.S ≤ r / 2 ^ i) (h1 : r / 2 ^ i ≤ maxRaw g.W g.S) :
    g.shr (g.val r) i = g.val (r / 2 ^ i) := by
  unfold Fmt.shr
  rw [Fmt.raw_val]
  have : ⌊(r : ℚ) * 2 ^ (-(i : ℤ))⌋ = r / 2 ^ i := by
    rw [zpow_neg, zpow_natCast, ← div_eq_mul_inv]
    have := Rat.floor_intCast_div_natCast r (2 ^ i)
    push_cast at this
    exact this
  rw [this, wrap_of_range hW h0 h1]

theorem val_same {g g' : Fmt} (h : g.F = g'.F) (r : ℤ) : g.val r = g'.val r := by unfold Fmt.val; rw [h]

theorem atan2mi_eq (i : ℕ) : atan2mi i = some (Tq i) := by
  unfold atan2mi Tq
  by_cases h : i < 70
  · rw [if_neg (by omega), if_pos h]
    have hl : i < atanTable.length := by rw [show atanTable.length = 70 by rfl]; exact h
    rw [List.getElem?_eq_getElem hl, Option.map_some]
    congr 1
    unfold T
    rw [List.getD_eq_getElem?_getD, List.getElem?_eq_getElem hl, Option.getD_some]
    unfold Fmt.val
    rw [show tableFmt.F = 71 by rfl]
    rw [zpow_neg, ← div_eq_mul_inv]
    norm_cast
  · rw [if_pos (by omega), if_neg h]

/-! ## The sizes -/

variable {fy fx t : Fmt}

/-- The output types of the theorems: no negative number of fraction bits, at most 127 iterations. -/
def Out (t : Fmt) : Prop := 1 ≤ t.W ∧ t.I ≤ t.W ∧ t.W - t.I ≤ 124

def n (t : Fmt) : ℕ := (numIter t).toNat

def L (t : Fmt) : ℕ := (logIter t).toNat

theorem sizes (h : Out t) : numIter t = n t ∧ 3 ≤ n t ∧ n t + 1 ≤ 2 ^ L t ∧ icw t = (n t + L t : ℕ) ∧ t.F = n t - 3 := by
  obtain ⟨h0, h1, h2⟩ := h
  have e1 : numIter t = n t := by unfold n numIter; omega
  have e2 : logIter t = L t := by
    unfold L
    rw [Int.toNat_of_nonneg]
    unfold logIter; split_ifs <;> norm_num
  have e3 : 3 ≤ n t := by unfold n numIter; omega
  refine ⟨e1, e3, ?_, by unfold icw; rw [e1, e2]; push_cast; ring, by rw [← e1]; unfold numIter Fmt.F; ring⟩
  have e4 : n t ≤ 127 := by unfold n numIter; omega
  unfold L logIter
  rw [e1]
  split_ifs
  · rw [show (4 : ℤ).toNat = 4 from rfl]; omega
  · rw [show (5 : ℤ).toNat = 5 from rfl]; omega
  · rw [show (6 : ℤ).toNat = 6 from rfl]; omega
  · rw [show (7 : ℤ).toNat = 7 from rfl]; omega

theorem accF (h : Out t) : (accFmt t).F = n t + L t + 1 ∧ (accFmt t).W = n t + L t + 4 ∧ (accFmt t).I = 3 := by
  obtain ⟨h1, h2, h3, h4, h5⟩ := sizes h
  refine ⟨?_, ?_, rfl⟩
  · unfold accFmt Fmt.F; simp only []; rw [h4]; push_cast; omega
  · unfold accFmt; simp only []; rw [h4]; omega

theorem daF (h : Out t) : (daFmt t).F = (n t + L t : ℕ) ∧ (daFmt t).W = n t + L t := by
  obtain ⟨h1, h2, h3, h4, h5⟩ := sizes h
  constructor
  · unfold daFmt Fmt.F; simp only []; rw [h4]; push_cast; omega
  · unfold daFmt; simp only []; rw [h4]; omega

/-- Fraction bits of the vector. -/
def F (t : Fmt) : ℤ := n t + L t + 4

/-- The width of `fx_xy_2`. -/
def K (fy fx t : Fmt) : ℕ := (max fy.I fx.I + F t).toNat

theorem xyF (h : Out t) (hK : 1 ≤ max fy.I fx.I + F t) :
    (xyFmt fy fx t).W = K fy fx t + 2 ∧ (xyFmt1 fy fx t).W = K fy fx t + 1 ∧ (xyFmt2 fy fx t).W = K fy fx t ∧
    (xyFmt fy fx t).F = F t ∧ (xyFmt1 fy fx t).F = F t ∧ (xyFmt2 fy fx t).F = F t ∧ 1 ≤ K fy fx t := by
  obtain ⟨h1, h2, h3, h4, h5⟩ := sizes h
  have hw : xyw fy fx t = K fy fx t + 2 := by
    unfold xyw xyi K F at *; rw [h4]; push_cast; omega
  have hi : xyi fy fx = K fy fx t + 2 - F t := by
    unfold xyi K; omega
  have hK' : 1 ≤ K fy fx t := by unfold K; omega
  refine ⟨?_, ?_, ?_, ?_, ?_, ?_, hK'⟩
  · unfold xyFmt; simp only []; rw [hw]; omega
  · unfold xyFmt1; simp only []; rw [hw]; omega
  · unfold xyFmt2; simp only []; rw [hw]; omega
  · unfold xyFmt Fmt.F; simp only []; rw [hw, hi]; omega
  · unfold xyFmt1 Fmt.F; simp only []; rw [hw, hi]; omega
  · unfold xyFmt2 Fmt.F; simp only []; rw [hw, hi]; omega

/-! ## One iteration on the vector -/

theorem vec_step (h : Out t) (hK : 1 ≤ max fy.I fx.I + F t) {X Y : ℤ} (i : ℕ) {A : ℚ} (hX : 0 ≤ X)
    (hXi : X / 2 ^ i < 2 ^ K fy fx t) (hY : |Y| < 2 * 2 ^ K fy fx t)
    (hX' : (if Y < 0 then X - Y / 2 ^ i else X + Y / 2 ^ i) < 2 * 2 ^ K fy fx t)
    (hY' : |if Y < 0 then Y + X / 2 ^ i else Y - X / 2 ^ i| < 2 * 2 ^ K fy fx t) :
    0 ≤ (if Y < 0 then X - Y / 2 ^ i else X + Y / 2 ^ i) ∧
    step fy fx t i ⟨(xyFmt fy fx t).val X, (xyFmt fy fx t).val Y, A⟩ =
      some ⟨(xyFmt fy fx t).val (if Y < 0 then X - Y / 2 ^ i else X + Y / 2 ^ i),
        (xyFmt fy fx t).val (if Y < 0 then Y + X / 2 ^ i else Y - X / 2 ^ i),
        (accFmt t).cvt (if Y < 0 then A - (daFmt t).cvt (Tq i) else A + (daFmt t).cvt (Tq i))⟩ := by
  obtain ⟨w0, w1, w2, f0, f1, f2, hk⟩ := xyF (fy := fy) (fx := fx) h hK
  have hp : (0 : ℤ) < 2 ^ i := by positivity
  have hS : (0 : ℤ) < 2 ^ K fy fx t := by positivity
  have v1 : ∀ r, (xyFmt fy fx t).val r = (xyFmt1 fy fx t).val r := fun r => val_same (by rw [f0, f1]) r
  have v2 : ∀ r, (xyFmt fy fx t).val r = (xyFmt2 fy fx t).val r := fun r => val_same (by rw [f0, f2]) r
  have m1 : maxRaw (xyFmt1 fy fx t).W (xyFmt1 fy fx t).S = 2 * 2 ^ K fy fx t - 1 := by
    rw [w1]; unfold xyFmt1 maxRaw; simp [pow_succ]; ring
  have m2 : maxRaw (xyFmt2 fy fx t).W (xyFmt2 fy fx t).S = 2 ^ K fy fx t - 1 := by rw [w2]; unfold xyFmt2 maxRaw; simp
  have m0 : maxRaw (xyFmt fy fx t).W (xyFmt fy fx t).S = 2 * 2 ^ K fy fx t - 1 := by
    rw [w0]; unfold xyFmt maxRaw; simp [pow_succ]; ring
  have l0 : minRaw (xyFmt fy fx t).W (xyFmt fy fx t).S = -(2 * 2 ^ K fy fx t) := by
    rw [w0]; unfold xyFmt minRaw; simp [pow_succ]; ring
  have l1 : minRaw (xyFmt1 fy fx t).W (xyFmt1 fy fx t).S = 0 := by unfold xyFmt1 minRaw; simp
  have l2 : minRaw (xyFmt2 fy fx t).W (xyFmt2 fy fx t).S = 0 := by unfold xyFmt2 minRaw; simp
  have hXd : 0 ≤ X / 2 ^ i := Int.ediv_nonneg hX hp.le
  rw [abs_lt] at hY hY'
  have hYd : -(2 * 2 ^ K fy fx t) ≤ Y / 2 ^ i ∧ Y / 2 ^ i ≤ 2 * 2 ^ K fy fx t - 1 := by
    constructor
    · refine Int.le_ediv_of_mul_le hp ?_
      have : (2 * 2 ^ K fy fx t : ℤ) ≤ (2 * 2 ^ K fy fx t) * 2 ^ i := le_mul_of_one_le_right (by positivity) (one_le_pow₀ (by norm_num))
      linarith [hY.1]
    · have : Y / 2 ^ i < 2 * 2 ^ K fy fx t := by
        refine Int.ediv_lt_of_lt_mul hp (lt_of_lt_of_le hY.2 ?_)
        exact le_mul_of_one_le_right (by positivity) (one_le_pow₀ (by norm_num))
      omega
  have x2 : (xyFmt2 fy fx t).cvt ((xyFmt1 fy fx t).shr ((xyFmt fy fx t).val X) i) = (xyFmt fy fx t).val (X / 2 ^ i) := by
    rw [v1, shr_raw (by omega) i (by rw [l1]; exact hXd) (by rw [m1]; linarith), ← v1, v2,
      cvt_raw (by omega) rfl (by rw [l2]; exact hXd) (by rw [m2]; omega)]
  have y2 : (xyFmt fy fx t).cvt ((xyFmt fy fx t).shr ((xyFmt fy fx t).val Y) i) = (xyFmt fy fx t).val (Y / 2 ^ i) := by
    rw [shr_raw (by omega) i (by rw [l0]; exact hYd.1) (by rw [m0]; exact hYd.2),
      cvt_raw (by omega) rfl (by rw [l0]; exact hYd.1) (by rw [m0]; exact hYd.2)]
  have hneg : (xyFmt fy fx t).val Y < 0 ↔ Y < 0 := by
    have h0 : (xyFmt fy fx t).val 0 = 0 := by simp [Fmt.val]
    rw [← h0, Fmt.val_lt]
  unfold step
  simp only [atan2mi_eq, Option.bind_eq_bind, Option.bind_some, x2, y2, hneg]
  by_cases c : Y < 0
  · simp only [c, if_true] at hX' hY' ⊢
    have hd : Y / 2 ^ i < 0 := Int.ediv_neg_of_neg_of_pos c hp
    refine ⟨by omega, ?_⟩
    congr 2
    · rw [val_sub, v1, cvt_raw (by omega) rfl (by rw [l1]; omega) (by rw [m1]; omega)]
    · rw [val_add, cvt_raw (by omega) rfl (by rw [l0]; omega) (by rw [m0]; omega)]
  · simp only [c, if_false] at hX' hY' ⊢
    have hd : 0 ≤ Y / 2 ^ i := Int.ediv_nonneg (by omega) hp.le
    refine ⟨by omega, ?_⟩
    congr 2
    · rw [val_add, v1, cvt_raw (by omega) rfl (by rw [l1]; omega) (by rw [m1]; omega)]
    · rw [val_sub, cvt_raw (by omega) rfl (by rw [l0]; omega) (by rw [m0]; omega)]

/-! ## The sum of the angles -/

theorem Tq_range (i : ℕ) : 0 ≤ Tq i ∧ Tq i ≤ 7 / 8 := by
  unfold Tq
  split_ifs with h
  · obtain ⟨h1, h2⟩ := T_pos h
    have h1' : (0 : ℚ) < T i := by exact_mod_cast h1
    have h2' : (T i : ℚ) ≤ 2 ^ 71 - 2 ^ 68 := by
      have := Int.cast_le (R := ℚ) |>.2 h2
      push_cast at this
      linarith
    refine ⟨by positivity, ?_⟩
    rw [div_le_iff₀ (by positivity)]
    refine le_trans h2' (by norm_num)
  · norm_num

/-- The angle in units of the accumulator. -/
theorem da_eq (h : Out t) (i : ℕ) : ∃ D : ℤ, (daFmt t).cvt (Tq i) = (accFmt t).val D ∧
    |(((accFmt t).val D : ℚ) : ℝ) - (Tq i : ℚ)| ≤ 1 / 2 ^ (n t + L t) := by
  obtain ⟨f1, w1⟩ := daF h
  obtain ⟨f2, w2, i2⟩ := accF h
  obtain ⟨h1, h2, h3, h4, h5⟩ := sizes h
  obtain ⟨t0, t1⟩ := Tq_range i
  have hz := Fmt.z_pos (daFmt t).F
  have e1 : ((2 : ℚ) ^ (daFmt t).F) = ((2 ^ (n t + L t) : ℤ) : ℚ) := by rw [f1, zpow_natCast]; push_cast; rfl
  have hd : (daFmt t).cvt (Tq i) = (daFmt t).val ⌊Tq i * 2 ^ (daFmt t).F⌋ := by
    refine cvt_floor (by omega) rfl rfl ?_ ?_
    · have : minRaw (daFmt t).W (daFmt t).S = 0 := by unfold daFmt minRaw; simp
      rw [this]; exact Int.floor_nonneg.2 (mul_nonneg t0 hz.le)
    · have : maxRaw (daFmt t).W (daFmt t).S = 2 ^ (n t + L t) - 1 := by rw [w1]; unfold daFmt maxRaw; simp
      rw [this]
      refine Int.le_sub_one_of_lt (Int.floor_lt.2 ?_)
      rw [e1] at hz ⊢
      nlinarith
  refine ⟨2 * ⌊Tq i * 2 ^ (daFmt t).F⌋, ?_, ?_⟩
  · rw [hd]
    unfold Fmt.val
    rw [f1, f2, show -((n t : ℤ) + L t + 1) = -((n t + L t : ℕ) : ℤ) + -1 by push_cast; ring, zpow_add₀ (by norm_num)]
    push_cast; ring
  · have e : (accFmt t).val (2 * ⌊Tq i * 2 ^ (daFmt t).F⌋) = (daFmt t).val ⌊Tq i * 2 ^ (daFmt t).F⌋ := by
      unfold Fmt.val
      rw [f1, f2, show -((n t : ℤ) + L t + 1) = -((n t + L t : ℕ) : ℤ) + -1 by push_cast; ring, zpow_add₀ (by norm_num)]
      push_cast; ring
    rw [e]
    obtain ⟨a1, a2⟩ := floor_near (g := daFmt t) (Tq i)
    have e2 : ((2 : ℚ) ^ (-(daFmt t).F)) = 1 / 2 ^ (n t + L t) := by rw [f1, zpow_neg, zpow_natCast, one_div]
    rw [e2] at a2
    have hq : |(daFmt t).val ⌊Tq i * 2 ^ (daFmt t).F⌋ - Tq i| ≤ 1 / 2 ^ (n t + L t) := by
      rw [abs_le]; constructor <;> linarith
    have := Rat.cast_le (K := ℝ) |>.2 hq
    rw [Rat.cast_abs, Rat.cast_sub] at this
    push_cast at this
    exact this

theorem acc_fit (h : Out t) {A : ℤ} (hA : |(((accFmt t).val A : ℚ) : ℝ)| < 4) : (accFmt t).cvt ((accFmt t).val A) = (accFmt t).val A := by
  obtain ⟨f2, w2, i2⟩ := accF h
  refine Proof.Cordic.val_fit (by omega) rfl rfl rfl ?_
  rw [i2]
  have : |(accFmt t).val A| < 4 := by
    have : (((|(accFmt t).val A| : ℚ)) : ℝ) < ((4 : ℚ) : ℝ) := by push_cast; exact hA
    exact_mod_cast this
  refine lt_of_lt_of_le this (by norm_num)

/-! ## The loop -/

/-- State before iteration `i`. -/
def Inv (fy fx t : Fmt) (ρ θ : ℝ) (i : ℕ) (s : St) : Prop :=
  ∃ (X Y A : ℤ) (w : ℝ), s = ⟨(xyFmt fy fx t).val X, (xyFmt fy fx t).val Y, (accFmt t).val A⟩ ∧ 0 ≤ X ∧ J (n t) ρ θ i X Y w ∧
    |w - (((accFmt t).val A : ℚ) : ℝ)| ≤ i * (1 / 2 ^ (n t + L t)) + teSum i

theorem J_size {N : ℕ} {ρ θ : ℝ} (hρ : 32 * (N + 1 : ℝ) ≤ ρ) {i : ℕ} (hi : i ≤ N) {X Y : ℤ} {s : ℝ} (h : J N ρ θ i X Y s) :
    |(X : ℝ)| ≤ G i * (1045 / 1000 * ρ) ∧ |(Y : ℝ)| ≤ G i * (1045 / 1000 * ρ) := by
  obtain ⟨r, φ, hz, r1, r2, hφ, hθ⟩ := h
  have hN : (i : ℝ) ≤ N := by exact_mod_cast hi
  have h2 := sqrt2
  have hG := G_one i
  have hr : r ≤ G i * (1045 / 1000 * ρ) := by
    refine le_trans r2 (mul_le_mul_of_nonneg_left ?_ (by linarith))
    have : Real.sqrt 2 * (i + 1) ≤ 142 / 100 * (N + 1) :=
      mul_le_mul h2.2 (by linarith) (by positivity) (by norm_num)
    linarith
  have hr0 : 0 ≤ r := by
    refine le_trans (mul_nonneg (by linarith) ?_) r1
    have : Real.sqrt 2 * (i + 1) ≤ 142 / 100 * (N + 1) :=
      mul_le_mul h2.2 (by linarith) (by positivity) (by norm_num)
    have : (0 : ℝ) ≤ N := Nat.cast_nonneg N
    linarith
  have hn : ‖vec X Y‖ ≤ r := by
    rw [hz, norm_mul, Complex.norm_exp_ofReal_mul_I, Complex.norm_real, mul_one, Real.norm_of_nonneg hr0]
  have re : (vec X Y).re = X := by simp [vec]
  have im : (vec X Y).im = Y := by simp [vec]
  constructor
  · rw [← re]; exact le_trans (Complex.abs_re_le_norm _) (le_trans hn hr)
  · rw [← im]; exact le_trans (Complex.abs_im_le_norm _) (le_trans hn hr)

theorem n_small (h : Out t) : (n t : ℝ) * (1 / 2 ^ (n t + L t)) ≤ 1 / 2 ^ n t := by
  obtain ⟨h1, h2, h3, h4, h5⟩ := sizes h
  have h3' : (n t : ℝ) + 1 ≤ 2 ^ L t := by exact_mod_cast h3
  rw [pow_add, mul_one_div, div_le_div_iff₀ (by positivity) (by positivity), one_mul, mul_comm]
  exact mul_le_mul_of_nonneg_left (by linarith) (by positivity)

theorem pow_n (h : Out t) : (1 : ℝ) / 2 ^ n t ≤ 1 / 8 := by
  obtain ⟨h1, h2, h3, h4, h5⟩ := sizes h
  have : (2 : ℝ) ^ 3 ≤ 2 ^ n t := pow_le_pow_right₀ (by norm_num) h2
  rw [div_le_div_iff₀ (by positivity) (by norm_num)]
  linarith

theorem teSum_mono {i j : ℕ} (h : i ≤ j) : teSum i ≤ teSum j := by
  induction j, h using Nat.le_induction with
  | base => exact le_rfl
  | succ j _ ih => rw [teSum]; have := te_nonneg j; linarith

theorem inv_step (h : Out t) (hK : 1 ≤ max fy.I fx.I + F t) {ρ θ : ℝ} (hρ : 32 * (n t + 1 : ℝ) ≤ ρ)
    (hρ2 : ρ ≤ 71 / 100 * 2 ^ K fy fx t) (hθ : |θ| ≤ Real.pi / 2) {i : ℕ} (hi : i < n t) {s : St} (hs : Inv fy fx t ρ θ i s) :
    ∃ s', step fy fx t i s = some s' ∧ Inv fy fx t ρ θ (i + 1) s' := by
  obtain ⟨X, Y, A, w, rfl, hX, hJ, hw⟩ := hs
  have hJ' := J_step hρ hi hJ
  obtain ⟨a1, a2⟩ := J_size hρ hi.le hJ
  obtain ⟨b1, b2⟩ := J_size hρ hi hJ'
  obtain ⟨D, hD, hDe⟩ := da_eq h i
  have hS : (0 : ℝ) < 2 ^ K fy fx t := by positivity
  have hρ0 : 0 < ρ := by have : (0 : ℝ) ≤ n t := Nat.cast_nonneg _; linarith
  have g : ∀ j, G j * (1045 / 1000 * ρ) < 2 * 2 ^ K fy fx t := by
    intro j
    have h1 : G j * (1045 / 1000 * ρ) ≤ 1.66 * (1045 / 1000 * ρ) := mul_le_mul_of_nonneg_right (G_le j) (by positivity)
    norm_num at h1
    linarith
  have toInt : ∀ {Z : ℤ} {j : ℕ}, |(Z : ℝ)| ≤ G j * (1045 / 1000 * ρ) → |Z| < 2 * 2 ^ K fy fx t := by
    intro Z j hZ
    have := lt_of_le_of_lt hZ (g j)
    exact_mod_cast this
  have hXi : X / 2 ^ i < 2 ^ K fy fx t := by
    have hp : (0 : ℤ) < 2 ^ i := by positivity
    refine Int.ediv_lt_of_lt_mul hp ?_
    rcases Nat.eq_zero_or_pos i with h0 | h0
    · subst h0
      rw [G_zero, one_mul] at a1
      have h3 : (X : ℝ) < 2 ^ K fy fx t := by
        have := le_abs_self (X : ℝ)
        linarith
      have : X < 2 ^ K fy fx t := by exact_mod_cast h3
      simpa using this
    · have h2 := lt_of_le_of_lt (le_abs_self X) (toInt a1)
      refine lt_of_lt_of_le h2 ?_
      have : (2 : ℤ) ^ 1 ≤ 2 ^ i := pow_le_pow_right₀ (by norm_num) h0
      have hS' : (0 : ℤ) < 2 ^ K fy fx t := by positivity
      rw [mul_comm]
      exact mul_le_mul_of_nonneg_left (by linarith) hS'.le
  obtain ⟨p1, p2⟩ := vec_step (A := (accFmt t).val A) h hK i hX hXi (toInt a2)
    (lt_of_le_of_lt (le_abs_self _) (toInt b1)) (toInt b2)
  have hw' : |(if Y < 0 then w - a i else w + a i) - (((accFmt t).val (if Y < 0 then A - D else A + D) : ℚ) : ℝ)| ≤
      (i + 1 : ℕ) * (1 / 2 ^ (n t + L t)) + teSum (i + 1) := by
    have t1 := Tq_err i
    have key : |a i - (((accFmt t).val D : ℚ) : ℝ)| ≤ 1 / 2 ^ (n t + L t) + te i := by
      have e : a i - (((accFmt t).val D : ℚ) : ℝ) = -(((Tq i : ℚ) : ℝ) - a i) + -((((accFmt t).val D : ℚ) : ℝ) - (Tq i : ℚ)) := by ring
      rw [e]
      refine le_trans (abs_add_le _ _) ?_
      rw [abs_neg, abs_neg]
      have : |((Tq i : ℚ) : ℝ) - a i| ≤ te i := t1
      linarith
    rw [teSum]
    push_cast
    by_cases c : Y < 0
    · simp only [c, if_true]
      rw [← val_sub, Rat.cast_sub]
      have e : w - a i - ((((accFmt t).val A : ℚ) : ℝ) - (((accFmt t).val D : ℚ) : ℝ)) =
        (w - (((accFmt t).val A : ℚ) : ℝ)) + -(a i - (((accFmt t).val D : ℚ) : ℝ)) := by ring
      rw [e]
      refine le_trans (abs_add_le _ _) ?_
      rw [abs_neg]
      linarith
    · simp only [c, if_false]
      rw [← val_add, Rat.cast_add]
      have e : w + a i - ((((accFmt t).val A : ℚ) : ℝ) + (((accFmt t).val D : ℚ) : ℝ)) =
        (w - (((accFmt t).val A : ℚ) : ℝ)) + (a i - (((accFmt t).val D : ℚ) : ℝ)) := by ring
      rw [e]
      refine le_trans (abs_add_le _ _) ?_
      linarith
  have fit : |(((accFmt t).val (if Y < 0 then A - D else A + D) : ℚ) : ℝ)| < 4 := by
    obtain ⟨r, φ, -, -, -, hφ, ht⟩ := hJ'
    obtain ⟨q0, q1, q2, q3⟩ := room hρ
    set δ := Real.sqrt 2 / (ρ - Real.sqrt 2 * (n t + 1))
    have hδ0 : 0 < δ := div_pos (by linarith [sqrt2.1]) q0
    have hiN : ((i + 1 : ℕ) : ℝ) ≤ n t := by exact_mod_cast hi
    have d1 : ((i + 1 : ℕ) : ℝ) * δ ≤ (n t + 1) * δ := mul_le_mul_of_nonneg_right (by linarith) hδ0.le
    have d2 : (((i + 1 : ℕ) : ℝ) + 1) * δ ≤ (n t + 1) * δ := mul_le_mul_of_nonneg_right (by linarith) hδ0.le
    have hb := β_le (i + 1)
    have n1 := n_small h
    have n2 := pow_n h
    have n3 : ((i + 1 : ℕ) : ℝ) * (1 / 2 ^ (n t + L t)) ≤ (n t : ℝ) * (1 / 2 ^ (n t + L t)) :=
      mul_le_mul_of_nonneg_right hiN (by positivity)
    have n4 := teSum_le (i + 1)
    have n5 : (1 : ℝ) / 2 ^ 52 ≤ 1 / 1000 := by norm_num
    have hpi := Real.pi_lt_d2
    set w' := (if Y < 0 then w - a i else w + a i)
    set v := (((accFmt t).val (if Y < 0 then A - D else A + D) : ℚ) : ℝ)
    rw [abs_le] at hθ hw' ht hφ
    rw [abs_lt]
    constructor <;> linarith
  refine ⟨_, p2, _, _, if Y < 0 then A - D else A + D, _, ?_, p1, hJ', hw'⟩
  congr 1
  rw [← acc_fit h fit, hD]
  congr 1
  by_cases c : Y < 0
  · simp only [c, if_true]; rw [val_sub]
  · simp only [c, if_false]; rw [val_add]

/-! ## Start and end of the loop -/

theorem acc_zero (h : Out t) : (accFmt t).cvt (0 : ℚ) = (accFmt t).val 0 := by
  have : (accFmt t).val 0 = 0 := by simp [Fmt.val]
  rw [← this]
  exact acc_fit h (by rw [this]; norm_num)

/-- The vector of the magnitudes. -/
noncomputable def zc (y x : ℚ) : ℂ := ((|x| : ℚ) : ℝ) + ((y : ℚ) : ℝ) * Complex.I

theorem start_inv (h : Out t) (hK : 1 ≤ max fy.I fx.I + F t) {y x : ℚ} (hx : |x| ≤ 2 ^ (max fy.I fx.I - 1))
    (hy : |y| ≤ 2 ^ (max fy.I fx.I - 1)) (hρ : 32 * (n t + 1 : ℝ) ≤ ‖zc y x‖ * 2 ^ F t) :
    Inv fy fx t (‖zc y x‖ * 2 ^ F t) (Complex.arg (zc y x)) 0 (start fy fx t y x) := by
  obtain ⟨w0, w1, w2, f0, f1, f2, hk⟩ := xyF (fy := fy) (fx := fx) h hK
  have hu := Fmt.z_pos (F t)
  have hS : (2 : ℚ) ^ (max fy.I fx.I - 1) * 2 ^ F t * 2 = ((2 ^ K fy fx t : ℤ) : ℚ) := by
    rw [← zpow_add₀ (by norm_num : (2 : ℚ) ≠ 0)]
    have : max fy.I fx.I - 1 + F t = ((K fy fx t : ℕ) : ℤ) - 1 := by unfold K; omega
    rw [this, ← zpow_add_one₀ (by norm_num), sub_add_cancel, zpow_natCast]; push_cast; rfl
  have hSp : (0 : ℤ) < 2 ^ K fy fx t := by positivity
  have c1 : |x| * 2 ^ F t * 2 ≤ ((2 ^ K fy fx t : ℤ) : ℚ) := by
    rw [← hS]; linarith [mul_le_mul_of_nonneg_right hx hu.le]
  have c2 : |y| * 2 ^ F t * 2 ≤ ((2 ^ K fy fx t : ℤ) : ℚ) := by
    rw [← hS]; linarith [mul_le_mul_of_nonneg_right hy hu.le]
  have hSq : (0 : ℚ) < ((2 ^ K fy fx t : ℤ) : ℚ) := by exact_mod_cast hSp
  have hx0 : 0 ≤ |x| * 2 ^ F t := mul_nonneg (abs_nonneg x) hu.le
  have x1 : (if x < 0 then (xyFmt1 fy fx t).cvt (-x) else (xyFmt1 fy fx t).cvt x) = (xyFmt fy fx t).val ⌊|x| * 2 ^ F t⌋ := by
    have e : (if x < 0 then (xyFmt1 fy fx t).cvt (-x) else (xyFmt1 fy fx t).cvt x) = (xyFmt1 fy fx t).cvt |x| := by
      split_ifs with c
      · rw [abs_of_neg c]
      · rw [abs_of_nonneg (by linarith)]
    rw [e, cvt_floor (by omega) rfl rfl, f1]
    · exact val_same (by rw [f1, f0]) _
    · rw [f1]
      have : minRaw (xyFmt1 fy fx t).W (xyFmt1 fy fx t).S = 0 := by unfold xyFmt1 minRaw; simp
      rw [this]; exact Int.floor_nonneg.2 hx0
    · rw [f1]
      have : maxRaw (xyFmt1 fy fx t).W (xyFmt1 fy fx t).S = 2 * 2 ^ K fy fx t - 1 := by
        rw [w1]; unfold xyFmt1 maxRaw; simp [pow_succ]; ring
      rw [this]
      refine Int.le_sub_one_of_lt (Int.floor_lt.2 ?_)
      rw [Int.cast_mul, Int.cast_ofNat]
      linarith
  have y1 : (xyFmt fy fx t).cvt y = (xyFmt fy fx t).val ⌊y * 2 ^ F t⌋ := by
    have l := neg_abs_le y
    have r := le_abs_self y
    have l' := mul_le_mul_of_nonneg_right l hu.le
    have r' := mul_le_mul_of_nonneg_right r hu.le
    rw [cvt_floor (by omega) rfl rfl, f0]
    · rw [f0]
      have : minRaw (xyFmt fy fx t).W (xyFmt fy fx t).S = -(2 * 2 ^ K fy fx t) := by
        rw [w0]; unfold xyFmt minRaw; simp [pow_succ]; ring
      rw [this]
      refine Int.le_floor.2 ?_
      rw [Int.cast_neg, Int.cast_mul, Int.cast_ofNat]
      linarith
    · rw [f0]
      have : maxRaw (xyFmt fy fx t).W (xyFmt fy fx t).S = 2 * 2 ^ K fy fx t - 1 := by
        rw [w0]; unfold xyFmt maxRaw; simp [pow_succ]; ring
      rw [this]
      refine Int.le_sub_one_of_lt (Int.floor_lt.2 ?_)
      rw [Int.cast_mul, Int.cast_ofNat]
      linarith
  refine ⟨⌊|x| * 2 ^ F t⌋, ⌊y * 2 ^ F t⌋, 0, 0, ?_, Int.floor_nonneg.2 hx0, ?_, ?_⟩
  · unfold start
    rw [x1, y1, acc_zero h]
  · obtain ⟨q0, q1, q2, q3⟩ := room hρ
    obtain ⟨s1, s2⟩ := sqrt2
    set ρ := ‖zc y x‖ * 2 ^ F t with hρd
    set θ := Complex.arg (zc y x) with hθd
    set δ := Real.sqrt 2 / (ρ - Real.sqrt 2 * (n t + 1)) with hδ
    have hδ0 : 0 < δ := div_pos (by linarith) q0
    have hN : (0 : ℝ) ≤ n t := Nat.cast_nonneg _
    have hθ : |θ| ≤ Real.pi / 2 := by
      rw [hθd, Complex.abs_arg_le_pi_div_two_iff]
      simp [zc]
    have hcast : (((2 : ℚ) ^ F t : ℚ) : ℝ) = 2 ^ F t := by push_cast; rfl
    have hv : vec ⌊|x| * 2 ^ F t⌋ ⌊y * 2 ^ F t⌋ = (ρ : ℂ) * Complex.exp (θ * Complex.I) +
        ((((⌊|x| * 2 ^ F t⌋ : ℝ) - ((|x| * 2 ^ F t : ℚ) : ℝ) : ℝ) : ℂ) + (((⌊y * 2 ^ F t⌋ : ℝ) - ((y * 2 ^ F t : ℚ) : ℝ) : ℝ) : ℂ) * Complex.I) := by
      have e1 : (ρ : ℂ) * Complex.exp (θ * Complex.I) = zc y x * ((2 ^ F t : ℝ) : ℂ) := by
        rw [hρd, hθd, Complex.ofReal_mul]
        have := Complex.norm_mul_exp_arg_mul_I (zc y x)
        calc _ = (‖zc y x‖ : ℂ) * Complex.exp (Complex.arg (zc y x) * Complex.I) * ((2 ^ F t : ℝ) : ℂ) := by ring
          _ = _ := by rw [this]
      rw [e1, Rat.cast_mul, Rat.cast_mul, hcast]
      unfold vec zc
      push_cast
      ring
    have he : ‖((((⌊|x| * 2 ^ F t⌋ : ℝ) - ((|x| * 2 ^ F t : ℚ) : ℝ) : ℝ) : ℂ) +
        (((⌊y * 2 ^ F t⌋ : ℝ) - ((y * 2 ^ F t : ℚ) : ℝ) : ℝ) : ℂ) * Complex.I)‖ ≤ Real.sqrt 2 * 1 := by
      have key : ∀ v : ℚ, |(⌊v⌋ : ℝ) - ((v : ℚ) : ℝ)| ≤ 1 := by
        intro v
        have h1 : ((⌊v⌋ : ℚ) : ℝ) ≤ ((v : ℚ) : ℝ) := by exact_mod_cast Int.floor_le v
        have h2 : ((v : ℚ) : ℝ) < (((⌊v⌋ : ℚ) + 1 : ℚ) : ℝ) := by exact_mod_cast Int.lt_floor_add_one v
        push_cast at h1 h2
        rw [abs_le]; constructor <;> linarith
      exact norm_le_of_comp zero_le_one (key _) (key _)
    rw [mul_one] at he
    have hlow : ρ - Real.sqrt 2 * (n t + 1) ≤ ρ - Real.sqrt 2 := by nlinarith
    obtain ⟨r', φ', hz', c1, c2, c3⟩ := perturb (φ := θ) he (show Real.sqrt 2 < ρ by linarith)
    have c4 : |φ' - θ| ≤ δ := le_trans c3 (div_le_div_of_nonneg_left (by linarith) q0 hlow)
    rw [hz'] at hv
    have hr' : 0 < r' := by linarith
    refine ⟨r', φ', hv, ?_, ?_, ?_, ?_⟩
    · rw [G_zero]; push_cast; linarith
    · rw [G_zero]; push_cast; linarith
    · rw [Nat.cast_zero, zero_mul, add_zero]
      unfold β
      have hd : δ ≤ (n t + 1) * δ := le_mul_of_one_le_left hδ0.le (by linarith)
      have hpi := Real.pi_gt_three
      have hre := congrArg Complex.re hv
      rw [Complex.exp_mul_I, ← Complex.ofReal_cos, ← Complex.ofReal_sin] at hre
      simp only [vec, Complex.add_re, Complex.ofReal_re, Complex.mul_re, Complex.ofReal_im, Complex.I_re, Complex.I_im, mul_one, mul_zero,
        zero_mul, add_zero, sub_zero, Complex.add_im, Complex.mul_im, zero_add] at hre
      have hX0 : (0 : ℝ) ≤ ((⌊|x| * 2 ^ F t⌋ : ℤ) : ℝ) := by exact_mod_cast Int.floor_nonneg.2 hx0
      have hc : 0 ≤ Real.cos |φ'| := by
        rw [Real.cos_abs]
        by_contra hc
        push Not at hc
        have := mul_neg_of_pos_of_neg hr' hc
        linarith
      by_contra hb
      push Not at hb
      have h2 : |φ'| ≤ |θ| + |φ' - θ| := by
        have := abs_add_le θ (φ' - θ)
        rwa [add_sub_cancel] at this
      have := Real.cos_neg_of_pi_div_two_lt_of_lt hb (by linarith)
      linarith
    · rw [sub_zero, abs_sub_comm, Nat.cast_zero, zero_add, one_mul]; exact c4
  · have : (accFmt t).val 0 = 0 := by simp [Fmt.val]
    rw [this]
    simp [teSum]

theorem run_some (fy fx t : Fmt) (y x : ℚ) : ∃ s, run fy fx t y x = some s := by
  unfold run
  generalize (numIter t).toNat = N
  induction N with
  | zero => exact ⟨_, rfl⟩
  | succ N ih =>
    obtain ⟨s, hs⟩ := ih
    rw [forUp, hs, Option.bind_some]
    unfold step
    simp only [atan2mi_eq, Option.bind_eq_bind, Option.bind_some]
    split_ifs <;> exact ⟨_, rfl⟩

theorem run_inv (h : Out t) (hK : 1 ≤ max fy.I fx.I + F t) {y x : ℚ} (hx : |x| ≤ 2 ^ (max fy.I fx.I - 1))
    (hy : |y| ≤ 2 ^ (max fy.I fx.I - 1)) (hρ : 32 * (n t + 1 : ℝ) ≤ ‖zc y x‖ * 2 ^ F t) :
    ∃ s, run fy fx t y x = some s ∧ Inv fy fx t (‖zc y x‖ * 2 ^ F t) (Complex.arg (zc y x)) (n t) s := by
  have hu : (0 : ℝ) < 2 ^ F t := zpow_pos (by norm_num) _
  have hθ : |Complex.arg (zc y x)| ≤ Real.pi / 2 := by
    rw [Complex.abs_arg_le_pi_div_two_iff]
    simp [zc]
  have hρ2 : ‖zc y x‖ * 2 ^ F t ≤ 71 / 100 * 2 ^ K fy fx t := by
    have hS : (2 : ℝ) ^ (max fy.I fx.I - 1) * 2 ^ F t * 2 = 2 ^ K fy fx t := by
      rw [← zpow_add₀ (by norm_num : (2 : ℝ) ≠ 0)]
      have : max fy.I fx.I - 1 + F t = ((K fy fx t : ℕ) : ℤ) - 1 := by unfold K; omega
      rw [this, ← zpow_add_one₀ (by norm_num), sub_add_cancel, zpow_natCast]
    have hx' : |((|x| : ℚ) : ℝ)| ≤ 2 ^ (max fy.I fx.I - 1) := by
      have : (((|x| : ℚ)) : ℝ) ≤ (((2 : ℚ) ^ (max fy.I fx.I - 1) : ℚ) : ℝ) := by exact_mod_cast hx
      push_cast at this ⊢
      rw [abs_abs]; exact this
    have hy' : |((y : ℚ) : ℝ)| ≤ 2 ^ (max fy.I fx.I - 1) := by
      have : (((|y| : ℚ)) : ℝ) ≤ (((2 : ℚ) ^ (max fy.I fx.I - 1) : ℚ) : ℝ) := by exact_mod_cast hy
      push_cast at this ⊢
      exact this
    have := norm_le_of_comp (zpow_nonneg (by norm_num) _) hx' hy'
    have h1 : ‖zc y x‖ ≤ 142 / 100 * 2 ^ (max fy.I fx.I - 1) :=
      le_trans this (mul_le_mul_of_nonneg_right sqrt2.2 (zpow_nonneg (by norm_num) _))
    rw [← hS]
    have := mul_le_mul_of_nonneg_right h1 hu.le
    linarith
  have key : ∀ N ≤ n t, ∃ s, forUp (fun i s => s.bind (step fy fx t i)) N (some (start fy fx t y x)) = some s ∧
      Inv fy fx t (‖zc y x‖ * 2 ^ F t) (Complex.arg (zc y x)) N s := by
    intro N
    induction N with
    | zero => intro _; exact ⟨_, rfl, start_inv h hK hx hy hρ⟩
    | succ N ih =>
      intro hN
      obtain ⟨s, hs, hi⟩ := ih (by omega)
      obtain ⟨s', hs', hi'⟩ := inv_step h hK hρ hρ2 hθ (show N < n t by omega) hi
      exact ⟨s', by rw [forUp, hs, Option.bind_some, hs'], hi'⟩
  exact key (n t) le_rfl

/-- The accumulator after the loop. -/
theorem acc_err (h : Out t) {ρ θ : ℝ} (hρ : 32 * (n t + 1 : ℝ) ≤ ρ) {s : St} (hs : Inv fy fx t ρ θ (n t) s) :
    (∃ A : ℤ, s.acc = (accFmt t).val A) ∧
    |θ - ((s.acc : ℚ) : ℝ)| ≤ 3 / 2 ^ n t + 3 * (n t + 1) / ρ + 1 / 2 ^ 52 := by
  obtain ⟨X, Y, A, w, rfl, hX, ⟨r, φ, -, -, -, hφ, ht⟩, hw⟩ := hs
  refine ⟨⟨A, rfl⟩, ?_⟩
  obtain ⟨q0, q1, q2, q3⟩ := room hρ
  obtain ⟨h1, h2, h3, h4, h5⟩ := sizes h
  set δ := Real.sqrt 2 / (ρ - Real.sqrt 2 * (n t + 1))
  have hδ0 : 0 < δ := div_pos (by linarith [sqrt2.1]) q0
  have hb : β (n t) ≤ 2 / 2 ^ n t := by
    obtain ⟨m, hm⟩ : ∃ m, n t = m + 1 := ⟨n t - 1, by omega⟩
    rw [hm]
    unfold β
    refine le_trans (a_le m) (le_of_eq ?_)
    rw [pow_succ]; field_simp
  have n1 := n_small h
  have n4 := teSum_le (n t)
  have e1 : (3 : ℝ) / 2 ^ n t = 2 / 2 ^ n t + 1 / 2 ^ n t := by ring
  have e2 : 3 * ((n t : ℝ) + 1) / ρ = 3 / 2 * (n t + 1) / ρ + 3 / 2 * (n t + 1) / ρ := by ring
  have e3 : (n t : ℝ) * δ ≤ (n t + 1) * δ := mul_le_mul_of_nonneg_right (by linarith) hδ0.le
  rw [e1, e2]
  simp only []
  set v := (((accFmt t).val A : ℚ) : ℝ)
  rw [abs_le] at hφ ht hw ⊢
  constructor <;> linarith

end Proof.Atan2
