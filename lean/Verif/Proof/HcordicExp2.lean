import Verif.Proof.HcordicExp

/-! # The reduced exponential: the result on integers, and its error for at least 14 bits -/

namespace Proof.Hcordic
open Ac Model.Hcordic

/-- Fraction bits of `dp_t` in the exponential. -/
def fz (f : ℕ) : ℕ := lw f - 4

/-- Bound of `z` after the last step. -/
def cz (f : ℕ) : ℤ := if f < 14 then 2 ^ (fz f - f) else 2 ^ (fz f - f) * 27 / 100

theorem z_all : Proof.Pwl.allLt 46 (fun f => decide (f < 3) || (decide (f ≤ fz f ∧ fz f + 4 = lw f ∧ iters f ≤ 50 ∧ lw f ≤ 56 ∧
    2 ^ fz f ≤ rz (fz f) (iters f) (cz f) 0 ∧ rz (fz f) (iters f) (cz f) 0 ≤ 2 * 2 ^ fz f) &&
    Proof.Pwl.allLt (iters f) (fun j => decide (ent .one (fz f) j ≤ rz (fz f) (iters f) (cz f) (j + 1))))) = true := by
  decide +kernel

theorem z_facts {f : ℕ} (h3 : 3 ≤ f) (h45 : f ≤ 45) : f ≤ fz f ∧ fz f + 4 = lw f ∧ iters f ≤ 50 ∧ lw f ≤ 56 ∧
    2 ^ fz f ≤ rz (fz f) (iters f) (cz f) 0 ∧ rz (fz f) (iters f) (cz f) 0 ≤ 2 * 2 ^ fz f ∧
    ∀ j < iters f, ent .one (fz f) j ≤ rz (fz f) (iters f) (cz f) (j + 1) := by
  have := Proof.Pwl.allLt_iff.1 z_all f (by omega)
  rw [Bool.or_eq_true, Bool.and_eq_true] at this
  rcases this with h | ⟨h, h'⟩
  · exact absurd (of_decide_eq_true h) (by omega)
  · obtain ⟨a, b, c, d, e, g⟩ := of_decide_eq_true h
    exact ⟨a, b, c, d, e, g, fun j hj => of_decide_eq_true (Proof.Pwl.allLt_iff.1 h' j hj)⟩

theorem dsum_mono {F : ℕ} (hF : F ≤ 63) {n : ℕ} (hn : n ≤ 60) : 0 ≤ dsum .one F n := by
  induction n with
  | zero => exact le_refl _
  | succ n ih =>
    have := (ent_range .one hF (show n < 60 by omega)).1
    have := ih (by omega)
    simp only [dsum]; linarith

/-- The integers of the loop. -/
def zrun (f : ℕ) (Z : ℤ) (n : ℕ) : IS := iloop .rotZ .one (fz f) ⟨2 ^ fz f, 2 ^ fz f, Z * 2 ^ (fz f - f)⟩ n

theorem zrun_inv {f : ℕ} (h3 : 3 ≤ f) (h45 : f ≤ 45) {Z : ℤ} (hZ : |Z| ≤ 2 ^ f) {n : ℕ} (hn : n ≤ iters f) :
    ∃ A, ZInv (fz f) (Z * 2 ^ (fz f - f)) (rz (fz f) (iters f) (cz f)) n (zrun f Z n) A := by
  obtain ⟨a, b, c, d, e, g, h⟩ := z_facts h3 h45
  refine zinv_all (by omega) (by omega) h ?_ n hn
  refine le_trans ?_ e
  rw [abs_mul, abs_of_pos (show (0 : ℤ) < 2 ^ (fz f - f) by positivity)]
  calc |Z| * 2 ^ (fz f - f) ≤ 2 ^ f * 2 ^ (fz f - f) := mul_le_mul_of_nonneg_right hZ (by positivity)
    _ = 2 ^ fz f := by rw [← pow_add]; congr 1; omega

theorem zinv_range {F : ℕ} {Z0 : ℤ} {R : ℕ → ℤ} {j : ℕ} (hj : j ≤ 50) (hjF : 10 * (j + 2) ≤ 13 * 2 ^ F) {s : IS} {A : ℝ}
    (h : ZInv F Z0 R j s A) : -(2 * 2 ^ F) ≤ s.y ∧ s.y < 4 * 2 ^ F := by
  obtain ⟨k0, k1, u1, u2, e0, e1⟩ := bounds (show j ≤ 60 by omega)
  have hp : (0 : ℝ) < 2 ^ F := by positivity
  have hP : 0 ≤ Real.sqrt (kp j) * Real.exp A := mul_nonneg (Real.sqrt_nonneg _) (Real.exp_pos _).le
  have hu := h.u
  have hx := abs_le.1 h.x
  have u2' : ((ub j : ℚ) : ℝ) ≤ 26 / 10 := by
    have := Rat.cast_le (K := ℝ) |>.2 u2
    push_cast at this; exact this
  have e1' : ((eb j : ℚ) : ℝ) ≤ j + 2 := by
    have := Rat.cast_le (K := ℝ) |>.2 e1
    push_cast at this; exact this
  have hjF' : 10 * ((j : ℝ) + 2) ≤ 13 * 2 ^ F := by exact_mod_cast hjF
  set P := Real.sqrt (kp j) * Real.exp A
  have b1 : (2 : ℝ) ^ F * P ≤ 2 ^ F * (26 / 10) := mul_le_mul_of_nonneg_left (hu.trans u2') (by positivity)
  have b0 : 0 ≤ (2 : ℝ) ^ F * P := mul_nonneg (by positivity) hP
  constructor
  · have : (-(2 * 2 ^ F) : ℝ) ≤ s.y := by linarith
    exact_mod_cast this
  · have : (s.y : ℝ) < 4 * 2 ^ F := by linarith
    exact_mod_cast this

theorem iters_all : Proof.Pwl.allLt 46 (fun f => decide (f < 3) || decide (10 * (iters f + 2) ≤ 13 * 2 ^ fz f)) = true := by
  decide +kernel

theorem iters_le {f : ℕ} (h3 : 3 ≤ f) (h45 : f ≤ 45) : 10 * (iters f + 2) ≤ 13 * 2 ^ fz f := by
  have := Proof.Pwl.allLt_iff.1 iters_all f (by omega)
  rw [Bool.or_eq_true] at this
  rcases this with h | h
  · exact absurd (of_decide_eq_true h) (by omega)
  · exact of_decide_eq_true h

theorem zrun_range {f : ℕ} (h3 : 3 ≤ f) (h45 : f ≤ 45) {Z : ℤ} (hZ : |Z| ≤ 2 ^ f) {n : ℕ} (hn : n ≤ iters f) :
    (zrun f Z n).InR (lw f) := by
  obtain ⟨a, b, c, d, e, g, h⟩ := z_facts h3 h45
  obtain ⟨A, hA⟩ := zrun_inv h3 h45 hZ hn
  have hi := iters_le h3 h45
  obtain ⟨r0, r1⟩ := zinv_range (by omega) (by omega) hA
  have hz := hA.z
  have hm : rz (fz f) (iters f) (cz f) n ≤ rz (fz f) (iters f) (cz f) 0 := by
    have := dsum_mono (F := fz f) (by omega) (show n ≤ 60 by omega)
    simp only [rz, dsum]; linarith
  have hp : (2 : ℤ) ^ (lw f - 1) = 8 * 2 ^ fz f := by
    rw [show lw f - 1 = 3 + fz f by omega, pow_add]; norm_num
  have hp0 : (0 : ℤ) < 2 ^ fz f := by positivity
  obtain ⟨z0, z1⟩ := abs_le.1 hz
  refine ⟨?_, ?_, ?_⟩ <;> unfold InR <;> rw [hp]
  · rw [hA.xy]; constructor <;> linarith
  · constructor <;> linarith
  · constructor <;> linarith

/-- The type of `xc`, `yc` and `zc` in the exponential. -/
def fcE (f : ℕ) : Fmt := ⟨f + 3, 3, true, .TRN, .WRAP⟩

theorem fcE_F (f : ℕ) : (fcE f).F = f := by unfold fcE Fmt.F; simp

theorem dpE {f : ℕ} (h3 : 3 ≤ f) (h45 : f ≤ 45) : Dp (dpFmt 3 f) (fz f) (lw f) := by
  obtain ⟨a, b, c, d, -⟩ := z_facts h3 h45
  refine ⟨by unfold dpFmt; simp only []; omega, rfl, rfl, rfl, ?_, by unfold dpFmt; norm_num, by omega, by omega, by omega⟩
  unfold dpFmt Fmt.F; simp only []; omega

/-- `k`. -/
def kk (f : ℕ) : ℤ := invKRaw / 2 ^ (158 - f)

/-- The reduced exponential on integers. -/
def eo (f : ℕ) (Z : ℤ) : ℤ := (zrun f Z (iters f)).y / 2 ^ (fz f - f) * kk f / 2 ^ f

theorem kk_all : Proof.Pwl.allLt 46 (fun f => decide (0 ≤ kk f ∧ kk f < 2 ^ (f + 1))) = true := by decide +kernel

theorem invK_eq {f : ℕ} (h45 : f ≤ 45) : (fcE f).cvt (invK f) = (fcE f).val (kk f) := by
  obtain ⟨k0, k1⟩ := of_decide_eq_true (Proof.Pwl.allLt_iff.1 kk_all f (by omega))
  have e : invK f = (⟨f + 1, 1, false, .TRN, .WRAP⟩ : Fmt).val (kk f) := by
    unfold invK
    rw [show (invKRaw : ℚ) / 2 ^ 158 = (invKRaw : ℚ) * 2 ^ (-((158 : ℕ) : ℤ)) by rw [zpow_neg, zpow_natCast, div_eq_mul_inv]]
    refine cvt_trunc (n := 158) (k := f) (by simp) rfl rfl (by unfold Fmt.F; simp) (by omega) ?_ ?_
    · simpa [minRaw, kk] using k0
    · simp only [maxRaw]
      simpa [kk] using Int.le_sub_one_of_lt k1
  rw [e, Proof.Atan2.val_same (g' := fcE f) (by rw [fcE_F]; unfold Fmt.F; simp)]
  refine Proof.Atan2.cvt_raw (by unfold fcE; simp) rfl ?_ ?_
  · simp only [fcE, minRaw, if_true]
    have : (0 : ℤ) < 2 ^ (f + 3 - 1) := by positivity
    linarith
  · simp only [fcE, maxRaw, if_true]
    have : (2 : ℤ) ^ (f + 3 - 1) = 2 * 2 ^ (f + 1) := by rw [show f + 3 - 1 = 1 + (f + 1) by omega, pow_add]; norm_num
    have : (0 : ℤ) < 2 ^ (f + 1) := by positivity
    linarith

/-- The reduced exponential before the assignment to its result. -/
def core (f : ℕ) (z : ℚ) : Option ℚ :=
  (hcordic .rotZ .one (fcE f) (fcE f) ((fcE f).cvt (1 : ℚ)) ((fcE f).cvt (1 : ℚ)) z).map fun s =>
    (fcE f).cvt (s.y * (fcE f).cvt (invK f))

theorem fcE_cvt {f : ℕ} {r : ℤ} (h0 : -(4 * 2 ^ f) ≤ r) (h1 : r < 4 * 2 ^ f) : (fcE f).cvt ((fcE f).val r) = (fcE f).val r := by
  have hp : (2 : ℤ) ^ (f + 3 - 1) = 4 * 2 ^ f := by rw [show f + 3 - 1 = 2 + f by omega, pow_add]; norm_num
  refine Proof.Atan2.cvt_raw (by unfold fcE; simp) rfl ?_ ?_
  · simp only [fcE, minRaw, if_true]; linarith
  · simp only [fcE, maxRaw, if_true]; linarith

theorem fcE_one (f : ℕ) : (fcE f).cvt (1 : ℚ) = 1 := by
  have e : (1 : ℚ) = (fcE f).val (2 ^ f) := by
    unfold Fmt.val; rw [fcE_F, zpow_neg, zpow_natCast]; push_cast
    rw [mul_inv_cancel₀ (by positivity)]
  have hp : (0 : ℤ) < 2 ^ f := by positivity
  rw [e]
  exact fcE_cvt (by linarith) (by linarith)

theorem core_eq {f : ℕ} (h3 : 3 ≤ f) (h45 : f ≤ 45) {Z : ℤ} (hZ : |Z| ≤ 2 ^ f) (ho : -(4 * 2 ^ f) ≤ eo f Z ∧ eo f Z < 4 * 2 ^ f) :
    core f ((fcE f).val Z) = some ((fcE f).val (eo f Z)) := by
  obtain ⟨a, b, c, d, -⟩ := z_facts h3 h45
  have dp := dpE h3 h45
  set t := dpFmt 3 f with ht
  have htW : t.W = lw f := rfl
  have hp : (2 : ℤ) ^ (lw f - 1) = 8 * 2 ^ fz f := by
    rw [show lw f - 1 = 3 + fz f by omega, pow_add]; norm_num
  have hp0 : (0 : ℤ) < 2 ^ fz f := by positivity
  have one : t.cvt (1 : ℚ) = t.val (2 ^ fz f) := by
    have e : (1 : ℚ) = t.val (2 ^ fz f) := by
      unfold Fmt.val; rw [dp.hF, zpow_neg, zpow_natCast]; push_cast
      rw [mul_inv_cancel₀ (by positivity)]
    rw [e]
    exact dp.cvt (by unfold InR; rw [htW, hp]; constructor <;> linarith)
  have hz : (fcE f).val Z = t.val (Z * 2 ^ (fz f - f)) := by
    unfold Fmt.val
    rw [fcE_F, dp.hF]
    push_cast
    rw [mul_assoc, ← zpow_natCast, ← zpow_add₀ (by norm_num : (2 : ℚ) ≠ 0)]
    congr 2
    omega
  have r0 := zrun_range h3 h45 hZ (Nat.zero_le (iters f))
  have zc : t.cvt (t.val (Z * 2 ^ (fz f - f))) = t.val (Z * 2 ^ (fz f - f)) := dp.cvt (by rw [htW]; exact r0.2.2)
  have hl := loop_eq dp .rotZ .one (n := iters f) (by omega) (s := ⟨2 ^ fz f, 2 ^ fz f, Z * 2 ^ (fz f - f)⟩)
    (fun k hk => zrun_range h3 h45 hZ hk)
  unfold toSt at hl
  unfold core hcordic
  simp only []
  rw [fcE_F, Int.toNat_natCast, fcE_one]
  rw [show (fcE f).I = 3 from rfl, ← ht, one, hz, zc, hl]
  simp only [Option.map_some]
  congr 1
  obtain ⟨A, hA⟩ := zrun_inv h3 h45 hZ (le_refl (iters f))
  have hi := iters_le h3 h45
  obtain ⟨y0, y1⟩ := zinv_range (by omega) hi hA
  have hpf : (2 : ℤ) ^ fz f = 2 ^ f * 2 ^ (fz f - f) := by rw [← pow_add]; congr 1; omega
  have hq : (0 : ℤ) < 2 ^ (fz f - f) := by positivity
  have g0 : -(4 * 2 ^ f) ≤ (zrun f Z (iters f)).y / 2 ^ (fz f - f) := by
    apply Int.le_ediv_of_mul_le hq
    rw [hpf] at y0; nlinarith [mul_pos (show (0 : ℤ) < 2 ^ f by positivity) hq]
  have g1 : (zrun f Z (iters f)).y / 2 ^ (fz f - f) < 4 * 2 ^ f := by
    apply Int.ediv_lt_of_lt_mul hq
    rw [hpf] at y1; linarith
  have hy : (fcE f).cvt (t.val (zrun f Z (iters f)).y) = (fcE f).val ((zrun f Z (iters f)).y / 2 ^ (fz f - f)) := by
    have hp' : (2 : ℤ) ^ (f + 3 - 1) = 4 * 2 ^ f := by rw [show f + 3 - 1 = 2 + f by omega, pow_add]; norm_num
    unfold Fmt.val
    rw [dp.hF, ← Fmt.val]
    refine cvt_trunc (by unfold fcE; simp) rfl rfl (fcE_F f) a ?_ ?_
    · simp only [fcE, minRaw, if_true]; linarith
    · simp only [fcE, maxRaw, if_true]; linarith
  unfold zrun at hy
  rw [hy, invK_eq h45]
  have hmul : ∀ p q : ℤ, (fcE f).val p * (fcE f).val q = ((p * q : ℤ) : ℚ) * 2 ^ (-((2 * f : ℕ) : ℤ)) := by
    intro p q
    unfold Fmt.val
    rw [fcE_F]
    push_cast
    rw [show -(2 * (f : ℤ)) = -(f : ℤ) + -(f : ℤ) by ring, zpow_add₀ (by norm_num : (2 : ℚ) ≠ 0)]
    ring
  rw [hmul]
  unfold eo zrun at ho
  have hp' : (2 : ℤ) ^ (f + 3 - 1) = 4 * 2 ^ f := by rw [show f + 3 - 1 = 2 + f by omega, pow_add]; norm_num
  rw [cvt_trunc (n := 2 * f) (k := f) (by unfold fcE; simp) rfl rfl (fcE_F f) (by omega)]
  · unfold eo zrun
    rw [show 2 * f - f = f by omega]
  · rw [show 2 * f - f = f by omega]
    simp only [fcE, minRaw, if_true]; linarith [ho.1]
  · rw [show 2 * f - f = f by omega]
    simp only [fcE, maxRaw, if_true]; linarith [ho.2]

end Proof.Hcordic
