import Verif.Proof.HcordicLog3

/-! # ac_pow_cordic, and the table reads of all the functions -/

namespace Proof.Hcordic
open Ac Model.Hcordic

/-! ## No table is read outside its bounds -/

theorem tableAt_some (sc : Scale) (zw : ℕ) {i : ℕ} (hi : i < 57) : (tableAt sc zw i).isSome := by
  unfold tableAt
  rw [tab_get sc hi]; rfl

theorem step_some (mode : Mode) (sc : Scale) (t : Fmt) (zw : ℕ) {j : ℕ} (hj : j < 60) (s : St) : (step mode sc t zw j s).isSome := by
  obtain ⟨a, ha⟩ := Option.isSome_iff_exists.1 (tableAt_some sc zw (i := Sj j - 1) (by have := sj_range hj; omega))
  unfold step
  rw [sj_get hj]
  simp only [Option.bind_eq_bind, Option.bind_some, ha, Option.isSome_some]

theorem loop_some (mode : Mode) (sc : Scale) (t : Fmt) (zw : ℕ) {n : ℕ} (hn : n ≤ 60) (s : St) : (loop mode sc t zw n s).isSome := by
  induction n with
  | zero => rfl
  | succ n ih =>
    obtain ⟨a, ha⟩ := Option.isSome_iff_exists.1 (ih (by omega))
    unfold loop at ha ⊢
    rw [show ∀ (g : ℕ → Option St → Option St) (a : Option St), forUp g (n + 1) a = g n (forUp g n a) from fun _ _ => rfl, ha,
      Option.bind_some]
    exact step_some mode sc t zw (by omega) a

theorem iters_le60 {f : ℕ} (h : f ≤ 54) : iters f ≤ 60 := by
  have : xtra f ≤ 5 := by unfold xtra; split_ifs <;> omega
  unfold iters
  omega

theorem hcordic_some (mode : Mode) (sc : Scale) (fx fz : Fmt) (hf : fz.F.toNat ≤ 54) (x y z : ℚ) : (hcordic mode sc fx fz x y z).isSome := by
  unfold hcordic
  simp only [Option.isSome_map]
  exact loop_some _ _ _ _ (iters_le60 hf) _

theorem logRr_some (sc : Scale) (fa fz : Fmt) (h : (max fa.F fz.F).toNat ≤ 44) (x : ℚ) : (logRr sc fa fz x).isSome := by
  unfold logRr
  simp only [Option.isSome_map]
  exact hcordic_some _ _ _ _ (by unfold Fmt.F at h ⊢; simp only []; omega) _ _ _

theorem exp2Rr_some (fa fz : Fmt) (h : max fa.W fz.W ≤ 45) (x : ℚ) : (exp2Rr fa fz x).isSome := by
  unfold exp2Rr
  simp only [Option.isSome_map]
  exact hcordic_some _ _ _ _ (by unfold Fmt.F; simp only []; omega) _ _ _

theorem log_some (tf : Option ℕ) (tq : QMode) (f out : Fmt) (h1 : fbits tf f.W ≤ 44) (h2 : fbits tf out.F.toNat ≤ 44) (x : ℚ) :
    (log tf tq f out x).isSome := by
  obtain ⟨a, ha⟩ := Option.isSome_iff_exists.1 (logRr_some .one ⟨fbits tf f.W, 0, false, tq, .WRAP⟩
    ⟨fbits tf out.F.toNat + 1, 1, true, .TRN, .WRAP⟩ (by generalize fbits tf out.F.toNat = z at h2; unfold Fmt.F; simp only []; omega) (normed tf tq f x).1)
  unfold log
  simp only [ha, Option.bind_eq_bind, Option.bind_some, Option.isSome_some]

theorem log2_some (tf : Option ℕ) (tq : QMode) (f out : Fmt) (h1 : fbits tf f.W ≤ 44) (h2 : fbits tf out.F.toNat ≤ 44) (x : ℚ) :
    (log2 tf tq f out x).isSome := by
  obtain ⟨a, ha⟩ := Option.isSome_iff_exists.1 (logRr_some .ln2 ⟨fbits tf f.W, 0, false, tq, .WRAP⟩
    ⟨fbits tf out.F.toNat + 2, 2, true, .TRN, .WRAP⟩ (by generalize fbits tf out.F.toNat = z at h2; unfold Fmt.F; simp only []; omega) (normed tf tq f x).1)
  unfold log2
  simp only [ha, Option.bind_eq_bind, Option.bind_some, Option.isSome_some]

theorem exp2_some (tf : Option ℕ) (tq : QMode) (f out : Fmt) (h1 : (f.W : ℤ) - f.I ≤ 45) (h2 : fbits tf out.F.toNat ≤ 44) (x : ℚ) :
    (exp2 tf tq f out x).isSome := by
  obtain ⟨a, ha⟩ := Option.isSome_iff_exists.1 (exp2Rr_some ⟨(max ((f.W : ℤ) - f.I) 1).toNat, 0, false, .TRN, .WRAP⟩
    ⟨fbits tf out.F.toNat + 1, 1, false, tq, .WRAP⟩ (by simp only []; omega) (Model.PwlFixed.fracPart f x))
  unfold exp2
  simp only [ha, Option.bind_eq_bind, Option.bind_some, Option.isSome_some]

theorem exp_some (tf : Option ℕ) (tq : QMode) (f out : Fmt) (hI : 0 ≤ fbits tf out.F.toNat + f.I + 1) (h2 : fbits tf out.F.toNat ≤ 44) (x : ℚ) :
    (exp tf tq f out x).isSome := by
  unfold exp
  refine exp2_some tf tq _ out ?_ h2 _
  unfold expFmt
  simp only []
  omega

theorem prodFmt_F {tf : Option ℕ} {fa fb out : Fmt} (h : 0 ≤ min ((log2aFmt tf fa out).F + fb.F) 45 + ((log2aFmt tf fa out).I + fb.I)) :
    (prodFmt tf fa fb out).F = min ((log2aFmt tf fa out).F + fb.F) 45 := by
  have e : (prodFmt tf fa fb out).F = ((min ((log2aFmt tf fa out).W + fb.W - ((log2aFmt tf fa out).I + fb.I)) 45 +
      ((log2aFmt tf fa out).I + fb.I)).toNat : ℤ) - ((log2aFmt tf fa out).I + fb.I) := rfl
  rw [e]
  unfold Fmt.F at h ⊢
  omega

theorem pow_some (tf : Option ℕ) (tq : QMode) (fa fb out : Fmt) (h1 : fbits tf fa.W ≤ 44) (h2 : fbits tf out.W ≤ 44)
    (h3 : fbits tf out.F.toNat ≤ 44) (h4 : 0 ≤ min ((log2aFmt tf fa out).F + fb.F) 45 + ((log2aFmt tf fa out).I + fb.I)) (a b : ℚ) :
    (pow tf tq fa fb out a b).isSome := by
  obtain ⟨v, hv⟩ := Option.isSome_iff_exists.1 (logRr_some .ln2 ⟨fbits tf fa.W, 0, false, tq, .WRAP⟩
    ⟨fbits tf out.W + 2, 2, true, .TRN, .WRAP⟩ (by unfold Fmt.F; simp only []; omega) (normed tf tq fa a).1)
  unfold pow
  simp only [hv, Option.bind_eq_bind, Option.bind_some]
  have := prodFmt_F h4
  exact exp2_some tf tq _ out (by unfold Fmt.F at this; omega) h3 _

/-! ## The output -/

/-- Assignment of a number in the range of the output, through `z_inter`. -/
theorem inter_fit {out : Fmt} (ho : 1 ≤ out.W) {r : ℚ} (h0 : loRaw out.W out.S out.O ≤ r * 2 ^ out.F) (h1 : r * 2 ^ out.F ≤ maxRaw out.W out.S) :
    |out.cvt ((interFmt out).cvt r) - r| < 2 ^ (-out.F) := by
  have e : (interFmt out).cvt r = out.cvt r := by
    have q0 := le_quant (q := out.Q) h0
    have q1 := quant_le (q := out.Q) h1
    unfold Fmt.cvt Fmt.cvtRaw
    have a : ovf (interFmt out).W (interFmt out).S (interFmt out).O (quant (interFmt out).Q (r * 2 ^ (interFmt out).F)) =
        quant out.Q (r * 2 ^ out.F) := by
      refine ovf_of_range ho ?_ q1
      refine le_trans ?_ q0
      refine le_trans (le_of_eq ?_) (minRaw_le_loRaw _ _ _)
      unfold interFmt loRaw
      cases out.S <;> simp
    have b : ovf out.W out.S out.O (quant out.Q (r * 2 ^ out.F)) = quant out.Q (r * 2 ^ out.F) := ovf_of_range ho q0 q1
    rw [a, b]; rfl
  rw [e]
  have hc : out.cvt (out.cvt r) = out.cvt r := by
    have q0 := le_quant (q := out.Q) h0
    have q1 := quant_le (q := out.Q) h1
    have : out.cvt r = out.val (quant out.Q (r * 2 ^ out.F)) := by
      unfold Fmt.cvt Fmt.cvtRaw; rw [ovf_of_range ho q0 q1]
    rw [this, Fmt.cvt_val ho q0 q1]
  rw [hc]
  have := Fmt.cvt_err (f := out) ho h0 h1
  simpa using this

/-- A negative number becomes zero in an unsigned output. -/
theorem inter_neg {out : Fmt} (ho : 1 ≤ out.W) (hS : out.S = false) {r : ℚ} (h0 : r ≤ 0) : out.cvt ((interFmt out).cvt r) = 0 := by
  have hq : quant out.Q (r * 2 ^ out.F) ≤ 0 := quant_le (by
    have := Fmt.z_pos out.F
    push_cast
    exact mul_nonpos_of_nonpos_of_nonneg h0 this.le)
  have e : (interFmt out).cvt r = out.val 0 := by
    unfold Fmt.cvt Fmt.cvtRaw
    have a : ovf (interFmt out).W (interFmt out).S (interFmt out).O (quant (interFmt out).Q (r * 2 ^ (interFmt out).F)) = 0 := by
      have h1 : (interFmt out).O = .SAT := by unfold interFmt; simp [hS]
      have h2 : (interFmt out).S = false := by unfold interFmt; simp [hS]
      have h3 : (interFmt out).F = out.F := rfl
      have h4 : (interFmt out).Q = out.Q := rfl
      rw [h1, h2, h3, h4]
      rcases lt_or_eq_of_le hq with h | h
      · unfold ovf
        simp only [minRaw, maxRaw]
        have : ¬ (2 ^ (interFmt out).W - 1 : ℤ) < quant out.Q (r * 2 ^ out.F) := by
          have : (0 : ℤ) < 2 ^ (interFmt out).W := by positivity
          omega
        simp [this, h]
      · rw [h]
        refine ovf_of_range ho ?_ ?_
        · simp [loRaw, minRaw]
        · exact maxRaw_nonneg _ _
    rw [a]; rfl
  rw [e, Fmt.cvt_val ho (loRaw_nonpos _ _ _) (maxRaw_nonneg _ _)]
  unfold Fmt.val; simp

theorem maxVal_pow {out : Fmt} : out.maxVal * 2 ^ out.F = maxRaw out.W out.S := Fmt.val_mul_pow out _

/-- A signed output. -/
theorem out_signed {out : Fmt} (ho : 1 ≤ out.W) (hS : out.S = true) {r : ℚ} {L E : ℝ} (h : |(r : ℝ) - L| ≤ E) (hr : |L| + E ≤ out.maxVal) :
    |((out.cvt ((interFmt out).cvt r) : ℚ) : ℝ) - L| ≤ E + 2 ^ (-out.F) := by
  have ha : |(r : ℝ)| ≤ out.maxVal := by
    have : |(r : ℝ)| ≤ |L| + |(r : ℝ) - L| := by
      have := abs_add_le L ((r : ℝ) - L)
      rwa [add_sub_cancel] at this
    linarith
  have ha' : |r| ≤ out.maxVal := by exact_mod_cast ha
  have hp := Fmt.z_pos out.F
  have hb : |r * 2 ^ out.F| ≤ maxRaw out.W out.S := by
    rw [abs_mul, abs_of_pos hp, ← maxVal_pow]
    exact mul_le_mul_of_nonneg_right ha' hp.le
  obtain ⟨b0, b1⟩ := abs_le.1 hb
  have hl : loRaw out.W out.S out.O ≤ -maxRaw out.W out.S := by
    unfold loRaw minRaw maxRaw
    rw [hS]
    cases out.O <;> simp
  have e := inter_fit ho (r := r) (by
    refine le_trans ?_ b0
    exact_mod_cast hl) b1
  have e' : |((out.cvt ((interFmt out).cvt r) : ℚ) : ℝ) - r| ≤ 2 ^ (-out.F) := by
    have := Rat.cast_le (K := ℝ) |>.2 e.le
    rw [Rat.cast_abs, Rat.cast_sub, Rat.cast_zpow, Rat.cast_ofNat] at this
    exact this
  have := abs_add_le (((out.cvt ((interFmt out).cvt r) : ℚ) : ℝ) - r) ((r : ℝ) - L)
  rw [sub_add_sub_cancel] at this
  linarith

/-- An unsigned output. -/
theorem out_unsigned {out : Fmt} (ho : 1 ≤ out.W) (hS : out.S = false) {r : ℚ} {L E : ℝ} (h : |(r : ℝ) - L| ≤ E) (hr : L + E ≤ out.maxVal) :
    |((out.cvt ((interFmt out).cvt r) : ℚ) : ℝ) - max 0 L| ≤ E + 2 ^ (-out.F) := by
  obtain ⟨h0, h1⟩ := abs_le.1 h
  have hz : (0 : ℝ) < 2 ^ (-out.F) := zpow_pos (by norm_num) _
  rcases le_total r 0 with hn | hn
  · rw [inter_neg ho hS hn, Rat.cast_zero, zero_sub, abs_neg, abs_of_nonneg (le_max_left _ _)]
    have hn' : (r : ℝ) ≤ 0 := by exact_mod_cast hn
    have hE : 0 ≤ E := le_trans (abs_nonneg _) h
    exact max_le (by linarith) (by linarith)
  · have hn' : (0 : ℝ) ≤ r := by exact_mod_cast hn
    have hp := Fmt.z_pos out.F
    have hm : r ≤ out.maxVal := by
      have : (r : ℝ) ≤ (out.maxVal : ℚ) := by linarith
      exact_mod_cast this
    have e := inter_fit ho (r := r) (by
      have h2 : loRaw out.W out.S out.O ≤ 0 := loRaw_nonpos _ _ _
      have : ((loRaw out.W out.S out.O : ℤ) : ℚ) ≤ 0 := by exact_mod_cast h2
      exact le_trans this (by positivity)) (by
      rw [← maxVal_pow]
      exact mul_le_mul_of_nonneg_right hm hp.le)
    have e' : |((out.cvt ((interFmt out).cvt r) : ℚ) : ℝ) - r| ≤ 2 ^ (-out.F) := by
      have := Rat.cast_le (K := ℝ) |>.2 e.le
      rw [Rat.cast_abs, Rat.cast_sub, Rat.cast_zpow, Rat.cast_ofNat] at this
      exact this
    have h3 : |(r : ℝ) - max 0 L| ≤ E := by
      have hE : 0 ≤ E := le_trans (abs_nonneg _) h
      rcases le_total 0 L with g | g
      · rw [max_eq_right g]; exact h
      · rw [max_eq_left g, abs_le]; constructor <;> linarith
    have := abs_add_le (((out.cvt ((interFmt out).cvt r) : ℚ) : ℝ) - r) ((r : ℝ) - max 0 L)
    rw [sub_add_sub_cancel] at this
    linarith

/-! ## The power -/

/-- Truncation of a number in the range of the format. -/
theorem trunc_gen {g : Fmt} (hW : 1 ≤ g.W) (hS : g.S = true) (hQ : g.Q = .TRN) (hO : g.O = .WRAP) {v : ℚ} (h0 : -2 ^ (g.I - 1) ≤ v)
    (h1 : v < 2 ^ (g.I - 1)) : g.cvt v ≤ v ∧ v < g.cvt v + 2 ^ (-g.F) := by
  have hp := Fmt.z_pos g.F
  have hw : (2 : ℚ) ^ (g.W - 1) = 2 ^ (g.I - 1) * 2 ^ g.F := by
    rw [Fmt.z_add, ← zpow_natCast]; congr 1; unfold Fmt.F; omega
  have e := Proof.Atan2.cvt_floor (g := g) (v := v) hW hQ hO
    (by
      rw [hS]; simp only [minRaw, if_true]
      rw [Int.le_floor]; push_cast
      rw [hw]
      have := mul_le_mul_of_nonneg_right h0 hp.le
      linarith)
    (by
      rw [hS]; simp only [maxRaw, if_true]
      apply Int.le_sub_one_of_lt
      rw [Int.floor_lt]; push_cast
      rw [hw]
      exact mul_lt_mul_of_pos_right h1 hp)
  rw [e]
  have hn := Fmt.z_pos (-g.F)
  have hi : (2 : ℚ) ^ g.F * 2 ^ (-g.F) = 1 := by rw [Fmt.z_add]; simp
  have f0 := mul_le_mul_of_nonneg_right (Int.floor_le (v * 2 ^ g.F)) hn.le
  have f1 := mul_lt_mul_of_pos_right (Int.lt_floor_add_one (v * 2 ^ g.F)) hn
  rw [mul_assoc, hi, mul_one] at f0 f1
  unfold Fmt.val
  constructor <;> linarith

/-- The value of a positive operand. -/
theorem pos_range {f : Fmt} (hS : f.S = false) {a : ℚ} (ha : f.Rep a) (ha0 : 0 < a) : (2 : ℚ) ^ (f.I - f.W) ≤ a ∧ a < 2 ^ f.I := by
  obtain ⟨r, r0, r1, rfl⟩ := ha
  have hz := Fmt.z_pos (-f.F)
  have hr : 1 ≤ r := by
    by_contra h
    have : (r : ℚ) ≤ 0 := by exact_mod_cast (show r ≤ 0 by omega)
    have := mul_nonpos_of_nonpos_of_nonneg this hz.le
    unfold Fmt.val at ha0; linarith
  have hF : -f.F = f.I - f.W := by unfold Fmt.F; ring
  rw [hS] at r1
  simp only [maxRaw] at r1
  unfold Fmt.val
  constructor
  · rw [hF] at hz ⊢
    have : (1 : ℚ) ≤ r := by exact_mod_cast hr
    nlinarith
  · have e : (2 : ℚ) ^ f.I = 2 ^ f.W * 2 ^ (-f.F) := by
      rw [← zpow_natCast, Fmt.z_add]; congr 1; rw [hF]; ring
    rw [e]
    apply mul_lt_mul_of_pos_right _ hz
    have : r < 2 ^ f.W := by simpa using (show r ≤ 2 ^ f.W - 1 by simpa using r1)
    exact_mod_cast this

theorem rep_abs {f : Fmt} (hW : 1 ≤ f.W) {b : ℚ} (hb : f.Rep b) : |b| < 2 ^ f.I := by
  obtain ⟨r, r0, r1, rfl⟩ := hb
  have hz := Fmt.z_pos (-f.F)
  have e : (2 : ℚ) ^ f.I = 2 ^ f.W * 2 ^ (-f.F) := by
    rw [← zpow_natCast, Fmt.z_add]; congr 1; unfold Fmt.F; ring
  unfold Fmt.val
  rw [e, abs_mul, abs_of_pos hz]
  apply mul_lt_mul_of_pos_right _ hz
  have hw := two_pow_succ_pred hW
  have hp : (0 : ℤ) < 2 ^ (f.W - 1) := by positivity
  have : |r| < 2 ^ f.W := by
    rw [abs_lt]
    unfold minRaw at r0; unfold maxRaw at r1
    split_ifs at r0 r1 <;> constructor <;> linarith
  exact_mod_cast this

/-- `exp2_eq` for any number of fraction bits, with a relative error of at most one: with two bits or fewer it is one because the
result is between zero and twice the power of two below the exact one. -/
theorem exp2_gen {tf : Option ℕ} {tq : QMode} {f out : Fmt} (ho : 1 ≤ out.W) (hSo : out.S = false) {x : ℚ} (hx : f.Rep x)
    (hf : (f.W : ℤ) - f.I ≤ 45) {t : ℕ} (ht : fbits tf out.F.toNat = t) (h44 : t ≤ 44)
    (hq : 3 ≤ t → down tq = true ∨ (2 : ℝ) ^ ((Int.fract x : ℚ) : ℝ) ≤ 2 - 3 / 2 ^ t ∨ (f.W : ℤ) - f.I ≤ t ∧
      ∀ X : ℕ, Int.fract x = X / 2 ^ (t + 1) → eo (t + 1) (zIn (t + 1) X) + 2 ≤ 2 ^ (t + 2)) :
    ∃ (r : ℚ) (c : ℝ), exp2 tf tq f out x = some (out.cvt r) ∧ 0 ≤ r ∧ 0 ≤ c ∧ c ≤ 13 / 2 / 2 ^ t ∧ c ≤ 1 ∧
      |(r : ℝ) - 2 ^ (x : ℝ)| ≤ c * 2 ^ (x : ℝ) := by
  have hp : (0 : ℝ) < 2 ^ (x : ℝ) := Real.rpow_pos_of_pos (by norm_num) _
  by_cases h3 : 3 ≤ t
  · obtain ⟨r, r1, r2⟩ := exp2_eq ho hSo hx hf ht (by omega) h44 (hq h3)
    have hc : (13 : ℝ) / 2 / 2 ^ t ≤ 1 := by
      have : (2 : ℝ) ^ 3 ≤ 2 ^ t := pow_le_pow_right₀ (by norm_num) h3
      rw [div_le_one (by positivity)]
      linarith
    refine ⟨r, _, r1, ?_, by positivity, le_refl _, hc, r2⟩
    have h := mul_le_mul_of_nonneg_right hc hp.le
    have : (0 : ℝ) ≤ r := by linarith [(abs_le.1 r2).1]
    exact_mod_cast this
  · obtain ⟨y, hy⟩ := Option.isSome_iff_exists.1 (exp2Rr_some ⟨(max ((f.W : ℤ) - f.I) 1).toNat, 0, false, .TRN, .WRAP⟩ (oE t tq)
      (by simp only [oE]; omega) (Model.PwlFixed.fracPart f x))
    have hrep : (oE t tq).Rep y := by
      unfold exp2Rr at hy
      obtain ⟨s, -, s2⟩ := Option.map_eq_some_iff.1 hy
      rw [← s2]
      exact Fmt.rep_cvt (by simp [oE]) _
    obtain ⟨n, n0, n1, rfl⟩ := hrep
    have n0' : 0 ≤ n := by simpa [oE, minRaw] using n0
    have n1' : n < 2 ^ (t + 1) := by
      have : n ≤ 2 ^ (t + 1) - 1 := by simpa [oE, maxRaw] using n1
      omega
    have hv0 : 0 ≤ (oE t tq).val n := by
      unfold Fmt.val; exact mul_nonneg (by exact_mod_cast n0') (Fmt.z_pos _).le
    have hv2 : (oE t tq).val n ≤ 2 := by
      unfold Fmt.val
      rw [oE_F, zpow_neg, zpow_natCast, ← div_eq_mul_inv, div_le_iff₀ (by positivity), ← pow_succ']
      exact_mod_cast n1'.le
    refine ⟨(oE t tq).val n * 2 ^ ⌊x⌋, 1, ?_, mul_nonneg hv0 (Fmt.z_pos _).le, by norm_num, ?_, le_refl _, ?_⟩
    · unfold exp2
      simp only [ht]
      change (exp2Rr _ (oE t tq) _).bind _ = _
      rw [hy, Option.bind_some]
      congr 1
      change out.cvt (Model.Shift.leftUS (oE t tq) out ((oE t tq).raw ((oE t tq).val n)) ⌊x⌋) = _
      rw [Fmt.raw_val, Proof.Shift.leftUS_eq (fx := oE t tq) (by unfold oE; simp) ho rfl hSo ⟨n0, n1⟩, Fmt.cvt_idem ho]
    · have : (2 : ℝ) ^ t ≤ 2 ^ 2 := pow_le_pow_right₀ (by norm_num) (by omega)
      rw [le_div_iff₀ (by positivity)]
      linarith
    · have hfl : (2 : ℝ) ^ ⌊x⌋ ≤ 2 ^ (x : ℝ) := by
        rw [← Real.rpow_intCast]
        refine Real.rpow_le_rpow_of_exponent_le (by norm_num) ?_
        have : ((⌊x⌋ : ℚ) : ℝ) ≤ x := Rat.cast_le.2 (Int.floor_le x)
        exact_mod_cast this
      have h0 : (0 : ℝ) < 2 ^ ⌊x⌋ := zpow_pos (by norm_num) _
      have hv0' : (0 : ℝ) ≤ ((oE t tq).val n : ℚ) := by exact_mod_cast hv0
      have hv2' : (((oE t tq).val n : ℚ) : ℝ) ≤ 2 := by exact_mod_cast hv2
      push_cast
      generalize (((oE t tq).val n : ℚ) : ℝ) = v at *
      have h1 := mul_le_mul hv2' hfl h0.le (by norm_num)
      have h2 := mul_nonneg hv0' h0.le
      rw [one_mul, abs_le]
      constructor <;> linarith

/-- `ac_pow_cordic` computes `a^b * 2^d` for a small `d`, up to a small relative error. -/
theorem pow_eq {tf : Option ℕ} {tq : QMode} {fa fb out : Fmt} {t zf : ℕ} (hW : 1 ≤ fa.W) (hS : fa.S = false) (hI0 : 0 ≤ fa.I) (hI1 : fa.I ≤ fa.W)
    (hWb : 1 ≤ fb.W) (ho : 1 ≤ out.W) (hSo : out.S = false) (hz : fbits tf out.W = zf) (hz1 : 1 ≤ zf) (h44 : max (fbits tf fa.W) zf ≤ 44)
    (hp1 : 1 ≤ fbits tf fa.W) (ht : fbits tf out.F.toNat = t) (ht44 : t ≤ 44) (hq : down tq = true)
    (hpI : 0 ≤ min ((log2aFmt tf fa out).F + fb.F) 45 + ((log2aFmt tf fa out).I + fb.I) - 1)
    {a b : ℚ} (ha : fa.Rep a) (ha0 : 0 < a) (hb : fb.Rep b) :
    ∃ (r : ℚ) (d c : ℝ), pow tf tq fa fb out a b = some (out.cvt r) ∧ 0 ≤ r ∧ 0 ≤ c ∧ c ≤ 13 / 2 / 2 ^ t ∧ c ≤ 1 ∧
      |d| ≤ |(b : ℝ)| * ((5 + cutCost tf 3) / 2 ^ zf + 2 ^ (-(log2aFmt tf fa out).F)) + 2 ^ (-(prodFmt tf fa fb out).F) ∧
      |(r : ℝ) - (a : ℝ) ^ (b : ℝ) * 2 ^ d| ≤ c * ((a : ℝ) ^ (b : ℝ) * 2 ^ d) := by
  set out' : Fmt := ⟨out.W, 0, false, .TRN, .WRAP⟩ with hout'
  have hz' : fbits tf out'.F.toNat = zf := by
    rw [show out'.F.toNat = out.W by rw [hout']; unfold Fmt.F; simp]; exact hz
  obtain ⟨m, lg, z1, z2, z3, z4, z5, z7, -, zl, zu⟩ := log_parts .ln2 (out := out') (k := 2) (by norm_num) (fun _ => le_refl _) hW hS hz'
    h44 hp1 (Or.inl hq) ha ha0
  set e := (normed tf tq fa a).2 with he
  -- the logarithm
  have l2 : 0 < Real.log 2 := Real.log_pos (by norm_num)
  have l3 := Real.log_two_gt_d9
  have herr : |((e + lg : ℚ) : ℝ) - Real.logb 2 a| ≤ (5 + cutCost tf 3) / 2 ^ zf := log2_tail (by linarith) z2 z7
  obtain ⟨p0, p1⟩ := pos_range hS ha ha0
  have ha0' : (0 : ℝ) < a := by exact_mod_cast ha0
  have e0 : fa.I - fa.W < e := by
    have h := lt_of_le_of_lt (Rat.cast_le (K := ℝ) |>.2 p0) (lt_of_eq_of_lt z2 (mul_lt_mul_of_pos_right z4 (zpow_pos (by norm_num) e)))
    push_cast at h
    rw [one_mul] at h
    exact (zpow_lt_zpow_iff_right₀ (by norm_num)).1 h
  have e1 : e ≤ fa.I := by
    have h := Rat.cast_lt (K := ℝ) |>.2 p1
    rw [z2] at h
    push_cast at h
    have h' : (2 : ℝ) ^ (e - 1) < 2 ^ fa.I := by
      refine lt_of_le_of_lt ?_ h
      rw [zpow_sub_one₀ (by norm_num), mul_comm]
      refine mul_le_mul_of_nonneg_right (by norm_num at z3 ⊢; exact z3) (zpow_pos (by norm_num) e).le
    have := (zpow_lt_zpow_iff_right₀ (by norm_num)).1 h'
    omega
  set g := log2aFmt tf fa out with hg
  set n : ℕ := max (nbits (fa.W - fa.I).toNat) (nbits fa.I.toNat) with hn
  have hgI : g.I - 1 = n := by rw [hg]; unfold log2aFmt; simp only []; omega
  have hgW : g.W = zf := by rw [hg]; unfold log2aFmt; simp only []; exact hz
  have n0 : fa.W - fa.I + 1 ≤ (2 : ℤ) ^ n := by
    have h1 := Model.Bits.lt_two_pow_nbits (fa.W - fa.I).toNat
    have h2 : (2 : ℕ) ^ nbits (fa.W - fa.I).toNat ≤ 2 ^ n := pow_le_pow_right₀ (by norm_num) (le_max_left _ _)
    have h3 : (((fa.W - fa.I).toNat : ℕ) : ℤ) < ((2 ^ n : ℕ) : ℤ) := by exact_mod_cast lt_of_lt_of_le h1 h2
    push_cast at h3
    omega
  have n1 : fa.I + 1 ≤ (2 : ℤ) ^ n := by
    have h1 := Model.Bits.lt_two_pow_nbits fa.I.toNat
    have h2 : (2 : ℕ) ^ nbits fa.I.toNat ≤ 2 ^ n := pow_le_pow_right₀ (by norm_num) (le_max_right _ _)
    have h3 : ((fa.I.toNat : ℕ) : ℤ) < ((2 ^ n : ℕ) : ℤ) := by exact_mod_cast lt_of_lt_of_le h1 h2
    push_cast at h3
    omega
  have q0' : -(2 : ℚ) ^ (g.I - 1) ≤ lg + e := by
    rw [hgI, zpow_natCast]
    have : -(2 : ℤ) ^ n + 2 ≤ e := by omega
    have : -(2 : ℚ) ^ n + 2 ≤ e := by exact_mod_cast this
    linarith
  have q1' : lg + e < (2 : ℚ) ^ (g.I - 1) := by
    rw [hgI, zpow_natCast]
    have : e + 1 ≤ (2 : ℤ) ^ n := by omega
    have : (e : ℚ) + 1 ≤ 2 ^ n := by exact_mod_cast this
    linarith
  obtain ⟨g0, g1⟩ := trunc_gen (g := g) (by omega) rfl rfl rfl q0' q1'
  set l := g.cvt (lg + (e : ℚ)) with hl
  have lW := Fmt.rep_cvt (f := g) (by omega) (lg + (e : ℚ))
  rw [← hl] at lW
  have labs : |l| ≤ 2 ^ (n : ℤ) := by
    obtain ⟨r, r0, r1, hr⟩ := lW
    have hgS : g.S = true := rfl
    rw [hgS] at r0 r1
    simp only [minRaw, maxRaw, if_true] at r0 r1
    have hz0 := Fmt.z_pos (-g.F)
    have ew : (2 : ℚ) ^ (n : ℤ) = 2 ^ (g.W - 1) * 2 ^ (-g.F) := by
      rw [← zpow_natCast, Fmt.z_add]; congr 1; unfold Fmt.F; omega
    rw [hr]
    unfold Fmt.val
    rw [ew, abs_mul, abs_of_pos hz0]
    apply mul_le_mul_of_nonneg_right _ hz0.le
    have : |r| ≤ 2 ^ (g.W - 1) := by rw [abs_le]; constructor <;> linarith
    exact_mod_cast this
  -- the product
  set p := prodFmt tf fa fb out with hp
  have hpF := prodFmt_F (tf := tf) (fa := fa) (fb := fb) (out := out) (by rw [← hg]; omega)
  rw [← hp, ← hg] at hpF
  have hpI' : p.I = g.I + fb.I := rfl
  have hpW : 1 ≤ p.W := by unfold Fmt.F at hpF hpI; omega
  have babs := rep_abs hWb hb
  have bl : |b * l| < 2 ^ (p.I - 1) := by
    rw [abs_mul, show p.I - 1 = fb.I + n by omega, ← Fmt.z_add]
    have h0 := Fmt.z_pos (n : ℤ)
    have h1 := abs_nonneg b
    calc |b| * |l| ≤ |b| * 2 ^ (n : ℤ) := mul_le_mul_of_nonneg_left labs h1
      _ < 2 ^ fb.I * 2 ^ (n : ℤ) := mul_lt_mul_of_pos_right babs h0
  obtain ⟨b0, b1⟩ := abs_lt.1 bl
  obtain ⟨y0, y1⟩ := trunc_gen (g := p) hpW rfl rfl rfl b0.le b1
  obtain ⟨r, c, r1, c0, c1, c2, c3, r2⟩ := exp2_gen (tf := tf) (tq := tq) (f := p) ho hSo (Fmt.rep_cvt (f := p) hpW (b * l))
    (by unfold Fmt.F at hpF; omega) ht ht44 fun _ => Or.inl hq
  set y := p.cvt (b * l) with hy
  refine ⟨r, (y : ℝ) - b * Real.logb 2 a, c, ?_, c0, c1, c2, c3, ?_, ?_⟩
  · unfold pow
    simp only [hz, ← he]
    push_cast at z1
    rw [z1]
    simp only [Option.bind_eq_bind, Option.bind_some]
    exact r1
  · have g0' : (l : ℝ) ≤ ((e + lg : ℚ) : ℝ) := by rw [add_comm (e : ℚ)]; exact Rat.cast_le.2 g0
    have g1' : ((e + lg : ℚ) : ℝ) ≤ l + 2 ^ (-g.F) := by
      have := Rat.cast_le (K := ℝ) |>.2 g1.le
      rw [add_comm (lg : ℚ), Rat.cast_add l, Rat.cast_zpow, Rat.cast_ofNat] at this
      exact this
    have y0' : (y : ℝ) ≤ b * l := by exact_mod_cast y0
    have y1' : (b : ℝ) * l ≤ y + 2 ^ (-p.F) := by
      have := Rat.cast_le (K := ℝ) |>.2 y1.le
      rw [Rat.cast_add, Rat.cast_mul, Rat.cast_zpow, Rat.cast_ofNat] at this
      exact this
    have hlz : |(l : ℝ) - Real.logb 2 a| ≤ (5 + cutCost tf 3) / 2 ^ zf + 2 ^ (-g.F) := by
      have e1 : (l : ℝ) - Real.logb 2 a = ((l : ℝ) - ((e + lg : ℚ) : ℝ)) + (((e + lg : ℚ) : ℝ) - Real.logb 2 a) := by ring
      rw [e1]
      refine (abs_add_le _ _).trans ?_
      have : |(l : ℝ) - ((e + lg : ℚ) : ℝ)| ≤ 2 ^ (-g.F) := by
        have : (0 : ℝ) < 2 ^ (-g.F) := zpow_pos (by norm_num) _
        rw [abs_le]; constructor <;> linarith
      linarith
    have e2 : (y : ℝ) - b * Real.logb 2 a = b * ((l : ℝ) - Real.logb 2 a) + (y - b * l) := by ring
    rw [e2]
    refine (abs_add_le _ _).trans ?_
    rw [abs_mul]
    have h1 := mul_le_mul_of_nonneg_left hlz (abs_nonneg (b : ℝ))
    have h2 : |(y : ℝ) - b * l| ≤ 2 ^ (-p.F) := by
      have : (0 : ℝ) < 2 ^ (-p.F) := zpow_pos (by norm_num) _
      rw [abs_le]; constructor <;> linarith
    linarith
  · have e3 : (a : ℝ) ^ (b : ℝ) * 2 ^ ((y : ℝ) - b * Real.logb 2 a) = 2 ^ (y : ℝ) := by
      have : (a : ℝ) ^ (b : ℝ) = 2 ^ (b * Real.logb 2 a) := by
        rw [mul_comm, Real.rpow_mul (by norm_num), Real.rpow_logb (by norm_num) (by norm_num) ha0']
      rw [this, ← Real.rpow_add (by norm_num)]
      congr 1; ring
    rw [e3]; exact r2

/-! ## Positive results -/

/-- A positive result, assigned to an unsigned output. -/
theorem out_pos {out : Fmt} (ho : 1 ≤ out.W) (hS : out.S = false) {r : ℚ} {V E : ℝ} (hr0' : 0 ≤ r) (h : |(r : ℝ) - V| ≤ E)
    (hr : out.O = .SAT ∨ out.O = .SAT_SYM ∨ V + E ≤ out.maxVal) :
    |((out.cvt r : ℚ) : ℝ) - min V out.maxVal| ≤ E + 2 ^ (-out.F) := by
  obtain ⟨h0, h1⟩ := abs_le.1 h
  have hE0 : 0 ≤ E := le_trans (abs_nonneg _) h
  have hz : (0 : ℝ) < 2 ^ (-out.F) := zpow_pos (by norm_num) _
  have hp := Fmt.z_pos out.F
  rcases le_total r out.maxVal with hm | hm
  · have e := Fmt.cvt_err (R := ℚ) (f := out) (x := r) ho (by
      have h2 : loRaw out.W out.S out.O ≤ 0 := loRaw_nonpos _ _ _
      have : ((loRaw out.W out.S out.O : ℤ) : ℚ) ≤ 0 := by exact_mod_cast h2
      exact le_trans this (by positivity)) (by
      rw [← maxVal_pow]
      exact mul_le_mul_of_nonneg_right hm hp.le)
    have e' : |((out.cvt r : ℚ) : ℝ) - r| ≤ 2 ^ (-out.F) := by
      have := Rat.cast_le (K := ℝ) |>.2 e.le
      rw [Rat.cast_abs, Rat.cast_sub, Rat.cast_zpow, Rat.cast_ofNat] at this
      simpa using this
    have hm' : (r : ℝ) ≤ out.maxVal := by exact_mod_cast hm
    have h3 : |(r : ℝ) - min V out.maxVal| ≤ E := by
      rcases le_total V out.maxVal with g | g
      · rw [min_eq_left g]; exact h
      · rw [min_eq_right g, abs_le]; constructor <;> linarith
    have := abs_add_le (((out.cvt r : ℚ) : ℝ) - r) ((r : ℝ) - min V out.maxVal)
    rw [sub_add_sub_cancel] at this
    linarith
  · have hm' : (out.maxVal : ℝ) ≤ r := by exact_mod_cast hm
    have hmax : out.cvt out.maxVal = out.maxVal :=
      Fmt.cvt_val ho (le_trans (loRaw_nonpos _ _ _) (maxRaw_nonneg _ _)) le_rfl
    have hle : out.cvt r ≤ out.maxVal := Fmt.val_le.2 (ovf_range ho _ _).2
    have hc : out.cvt r = out.maxVal := by
      rcases hr with hO | hO | hO
      · exact le_antisymm hle (hmax ▸ Fmt.cvt_mono (Or.inl hO) hm)
      · exact le_antisymm hle (hmax ▸ Fmt.cvt_mono (Or.inr hO) hm)
      · have : (r : ℝ) = out.maxVal := by linarith
        have : r = out.maxVal := by exact_mod_cast this
        rw [this, hmax]
    rw [hc]
    rcases le_total V out.maxVal with g | g
    · rw [min_eq_left g, abs_le]; constructor <;> linarith
    · rw [min_eq_right g, sub_self, abs_zero]; linarith

/-- A relative error in the exponent and one of the power. -/
theorem pow_rel {A D d e r : ℝ} (hA : 0 ≤ A) (hd : |d| ≤ D) (he : 0 ≤ e) (he1 : e ≤ 1) (h : |r - A * 2 ^ d| ≤ e * (A * 2 ^ d)) :
    |r - A| ≤ (2 ^ D * (1 + e) - 1) * A := by
  obtain ⟨d0, d1⟩ := abs_le.1 hd
  obtain ⟨h0, h1⟩ := abs_le.1 h
  have u1 : (2 : ℝ) ^ d ≤ 2 ^ D := Real.rpow_le_rpow_of_exponent_le (by norm_num) d1
  have u0 : (2 : ℝ) ^ (-D) ≤ 2 ^ d := Real.rpow_le_rpow_of_exponent_le (by norm_num) d0
  have hD : 0 ≤ D := le_trans (abs_nonneg _) hd
  have g1 : (1 : ℝ) ≤ 2 ^ D := Real.one_le_rpow (by norm_num) hD
  have gi : (2 : ℝ) ^ (-D) = (2 ^ D)⁻¹ := Real.rpow_neg (by norm_num) D
  have g2 : (2 : ℝ) ^ D * 2 ^ (-D) = 1 := by rw [gi]; exact mul_inv_cancel₀ (by linarith)
  have g3 : (0 : ℝ) < 2 ^ (-D) := Real.rpow_pos_of_pos (by norm_num) _
  have g4 : (2 : ℝ) ≤ 2 ^ D + 2 ^ (-D) := by nlinarith [sq_nonneg ((2 : ℝ) ^ D - 1)]
  have g5 : (2 : ℝ) ^ (-D) ≤ 1 := by nlinarith
  have k1 : A * 2 ^ d ≤ A * 2 ^ D := mul_le_mul_of_nonneg_left u1 hA
  have k0 : A * 2 ^ (-D) ≤ A * 2 ^ d := mul_le_mul_of_nonneg_left u0 hA
  have k2 : (1 + e) * (A * 2 ^ d) ≤ (1 + e) * (A * 2 ^ D) := mul_le_mul_of_nonneg_left k1 (by linarith)
  have k3 : (1 - e) * (A * 2 ^ (-D)) ≤ (1 - e) * (A * 2 ^ d) := mul_le_mul_of_nonneg_left k0 (by linarith)
  have k4 : 0 ≤ A * (2 ^ D + 2 ^ (-D) - 2) := mul_nonneg hA (by linarith)
  have k5 : 0 ≤ e * A * (2 ^ D - 2 ^ (-D)) := mul_nonneg (mul_nonneg he hA) (by linarith)
  rw [abs_le]
  constructor <;> nlinarith

end Proof.Hcordic
