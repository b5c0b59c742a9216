import Verif.Proof.FloatSqrt
import Mathlib.Tactic.LinearCombination

/-! # Lemmas for C61: the inverse square roots -/

namespace Proof.FloatSqrt
open Ac Model.Float Proof.Float Proof.PwlFixed

/-- The mantissa of the result: an unsigned conversion of `c`, a signed one of its product with `κ`, and another that changes
nothing. -/
theorem store {W2 : ℕ} {I2 : ℤ} {q oq : QMode} {c κ : ℚ} (hW : 1 ≤ W2) (c0 : 0 ≤ c)
    (fit : c * 2 ^ ((W2 : ℤ) - I2) ≤ 2 ^ W2 - 1) (k0 : 0 ≤ κ) (k1 : κ ≤ 1) :
    |(⟨W2 + 1, I2 + 1, true, q, .WRAP⟩ : Fmt).cvt ((⟨W2 + 1, I2 + 1, true, oq, .WRAP⟩ : Fmt).cvt
      ((⟨W2, I2, false, q, .WRAP⟩ : Fmt).cvt c * κ)) - κ * c| ≤ 2 * 2 ^ (I2 - W2) := by
  obtain ⟨y1, y2, y3⟩ := cvt_fit (o := ⟨W2, I2, false, q, .WRAP⟩) (x := c) hW rfl rfl c0 fit
  have hF : (⟨W2, I2, false, q, .WRAP⟩ : Fmt).F = (W2 : ℤ) - I2 := rfl
  rw [hF, neg_sub] at y3
  obtain ⟨r0, r1⟩ := y2
  generalize quant (Fmt.Q ⟨W2, I2, false, q, .WRAP⟩) (c * 2 ^ (⟨W2, I2, false, q, .WRAP⟩ : Fmt).F) = r at y1 r0 r1
  have hy0 : 0 ≤ (⟨W2, I2, false, q, .WRAP⟩ : Fmt).cvt c := by
    rw [y1]; exact mul_nonneg (by exact_mod_cast r0) (Fmt.z_pos _).le
  have hyr : (⟨W2, I2, false, q, .WRAP⟩ : Fmt).cvt c * 2 ^ ((W2 : ℤ) - I2) = r := by
    rw [y1, ← hF]; exact Fmt.val_mul_pow _ _
  set y := (⟨W2, I2, false, q, .WRAP⟩ : Fmt).cvt c
  set o2 : Fmt := ⟨W2 + 1, I2 + 1, true, oq, .WRAP⟩ with ho2
  have hF2 : o2.F = (W2 : ℤ) - I2 := by rw [ho2]; unfold Fmt.F; push_cast; ring
  have hr1 : (r : ℚ) ≤ 2 ^ W2 - 1 := by
    have : r ≤ 2 ^ W2 - 1 := by simpa [maxRaw] using r1
    exact_mod_cast this
  have hle : y * κ ≤ y := mul_le_of_le_one_right hy0 k1
  have hyk0 : 0 ≤ y * κ := mul_nonneg hy0 k0
  have hin : |o2.cvt (y * κ) - y * κ| < 2 ^ (-o2.F) := by
    have := Fmt.cvt_err (f := o2) (R := ℚ) (x := y * κ) (by rw [ho2]; show 1 ≤ W2 + 1; omega) ?_ ?_
    · simpa using this
    · have a : ((loRaw o2.W o2.S o2.O : ℤ) : ℚ) ≤ 0 := by exact_mod_cast loRaw_nonpos _ _ _
      exact le_trans a (mul_nonneg hyk0 (Fmt.z_pos _).le)
    · rw [hF2]
      have := mul_le_mul_of_nonneg_right hle (Fmt.z_pos ((W2 : ℤ) - I2)).le
      rw [hyr] at this
      refine le_trans this ?_
      simpa [maxRaw, ho2] using hr1
  rw [hF2, neg_sub] at hin
  have hfin : (⟨W2 + 1, I2 + 1, true, q, .WRAP⟩ : Fmt).cvt (o2.cvt (y * κ)) = o2.cvt (y * κ) := by
    apply Fmt.cvt_rep (by show 1 ≤ W2 + 1; omega) (by simp)
    exact (Fmt.rep_cvt (f := o2) (by rw [ho2]; show 1 ≤ W2 + 1; omega) _)
  rw [hfin]
  obtain ⟨p1, p2⟩ := abs_lt.1 hin
  obtain ⟨s1, s2⟩ := abs_lt.1 y3
  have u0 := Fmt.z_pos (I2 - W2)
  have : |κ * (y - c)| ≤ 2 ^ (I2 - (W2 : ℤ)) := by
    rw [abs_mul, abs_of_nonneg k0]
    have := mul_le_mul k1 y3.le (abs_nonneg _) (by norm_num)
    linarith
  obtain ⟨t1, t2⟩ := abs_le.1 this
  rw [abs_le]; constructor <;> nlinarith

/-- The result against the number, for both tables. -/
theorem isqrt_fin {c y m ε ε' η κ0 : ℚ} {e : ℤ} (hm : 0 < m) (c0 : 0 < c) (ce : |c ^ 2 * m - 1| ≤ ε) (k0 : 7 / 10 ≤ κ0)
    (h0 : 0 ≤ η) (h1 : η ≤ 1 / 10) (hε : ε ≤ 1 / 2)
    (ye : |y - (if e % 2 = 0 then 1 else κ0) * c| ≤ η * c)
    (a1 : 1 - ε' ≤ (1 - η) ^ 2 * (1 - ε)) (a2 : (1 + η) ^ 2 * (1 + ε) ≤ 1 + ε')
    (b1 : 1 - ε' ≤ 2 * ((κ0 - η) ^ 2 * (1 - ε))) (b2 : 2 * ((κ0 + η) ^ 2 * (1 + ε)) ≤ 1 + ε') :
    0 < y * 2 ^ (-(e / 2)) ∧ |(y * 2 ^ (-(e / 2))) ^ 2 * (m * 2 ^ e) - 1| ≤ ε' := by
  obtain ⟨ce1, ce2⟩ := abs_le.1 ce
  have hz := Fmt.z_pos (-(e / 2))
  have hinv : (2 : ℚ) ^ (-(e / 2)) * 2 ^ (e / 2) = 1 := by rw [Fmt.z_add]; simp
  have key : ∀ κ : ℚ, 7 / 10 ≤ κ → |y - κ * c| ≤ η * c → 0 < y ∧ (κ - η) ^ 2 * (1 - ε) ≤ y ^ 2 * m ∧ y ^ 2 * m ≤ (κ + η) ^ 2 * (1 + ε) := by
    intro κ hκ h
    have hi : m * (1 / m) = 1 := by field_simp
    obtain ⟨s1, s2⟩ := sq_close (m := 1 / m) (a := 1 - ε) (b := 1 + ε) c0
      (by rw [mul_one_div, div_le_iff₀ hm]; linarith) (by rw [mul_one_div, le_div_iff₀ hm]; linarith) (by linarith) h0 h
    refine ⟨?_, ?_, ?_⟩
    · obtain ⟨h1', -⟩ := abs_le.1 h
      have : 0 < (κ - η) * c := mul_pos (by linarith) c0
      linarith
    · have := mul_le_mul_of_nonneg_right s1 hm.le
      calc _ = (κ - η) ^ 2 * ((1 - ε) * (1 / m)) * m := by field_simp
        _ ≤ _ := this
    · have := mul_le_mul_of_nonneg_right s2 hm.le
      calc _ ≤ (κ + η) ^ 2 * ((1 + ε) * (1 / m)) * m := this
        _ = _ := by field_simp
  rcases Proof.SqrtPwl.half_exp e with ⟨he, hp⟩ | ⟨he, hp⟩
  · rw [if_pos he] at ye
    obtain ⟨y0, s1, s2⟩ := key 1 (by norm_num) ye
    refine ⟨mul_pos y0 hz, ?_⟩
    have : (y * 2 ^ (-(e / 2))) ^ 2 * (m * 2 ^ e) = y ^ 2 * m := by
      rw [hp]; linear_combination (y ^ 2 * m * ((2 : ℚ) ^ (-(e / 2)) * 2 ^ (e / 2) + 1)) * hinv
    rw [this, abs_le]; constructor <;> linarith
  · rw [if_neg (by omega)] at ye
    obtain ⟨y0, s1, s2⟩ := key κ0 k0 ye
    refine ⟨mul_pos y0 hz, ?_⟩
    have : (y * 2 ^ (-(e / 2))) ^ 2 * (m * 2 ^ e) = 2 * (y ^ 2 * m) := by
      rw [hp]; linear_combination (2 * y ^ 2 * m * ((2 : ℚ) ^ (-(e / 2)) * 2 ^ (e / 2) + 1)) * hinv
    rw [this, abs_le]; constructor <;> linarith

theorem fitr {W2 : ℕ} {I2 : ℤ} (hW : 17 ≤ W2) {x : ℚ} (h : x ≤ 99999 / 100000 * 2 ^ I2) :
    x * 2 ^ ((W2 : ℤ) - I2) ≤ 2 ^ W2 - 1 := by
  have h1 := mul_le_mul_of_nonneg_right h (Fmt.z_pos ((W2 : ℤ) - I2)).le
  rw [mul_assoc, Fmt.z_add, show I2 + ((W2 : ℤ) - I2) = (W2 : ℤ) by ring, zpow_natCast] at h1
  have : (131072 : ℚ) ≤ 2 ^ W2 := by
    calc (131072 : ℚ) = 2 ^ 17 := by norm_num
      _ ≤ _ := pow_le_pow_right₀ (by norm_num) hW
  linarith

theorem rtIsqI_eq (n : ℤ) : rtIsqI n = (n + 1) / 2 := by
  unfold rtIsqI
  simp only [Proof.SqrtPwl.tmod_two]
  split_ifs with h
  · rw [Int.tdiv_eq_ediv_of_dvd (by omega)]; omega
  · rw [Int.tdiv_eq_ediv_of_dvd (by omega)]

theorem rtIsqF_eq (n : ℤ) : rtIsqF n = n / 2 + 24 := by
  unfold rtIsqF
  simp only [Proof.SqrtPwl.tmod_two]
  split_ifs with h
  · rw [Int.tdiv_eq_ediv_of_dvd (by omega)]
  · rw [Int.tdiv_eq_ediv_of_dvd (by omega)]; omega

/-- `ac_inverse_sqrt_pwl` of a normalised mantissa. -/
theorem isqrt_err (q oq : QMode) {t : FFmt} (hW : 3 ≤ t.W) {m : ℚ} (hm : t.mant.Rep m) (hn : 2 ^ (t.I - 2) ≤ m) (d : Dst) (e : ℤ) :
    ∃ y : ℚ, inverseSqrtPwl q t oq d m e = some (d.cvt y) ∧ 0 < y ∧ |y ^ 2 * (m * 2 ^ e) - 1| ≤ 7 / 4000 := by
  have hz2 := Fmt.z_pos (t.I - 2)
  have hm0 : 0 < m := lt_of_lt_of_le hz2 hn
  have hrep := pos_rep (by omega) hm hm0.le
  have hpW : 1 ≤ (posMant t).W := by show 1 ≤ t.W - 1; omega
  have hc : false = true ∨ (2 : ℚ) ^ ((posMant t).I - 1) ≤ m :=
    Or.inr (by show (2 : ℚ) ^ (t.I - 1 - 1) ≤ m; rw [show t.I - 1 - 1 = t.I - 2 by ring]; exact hn)
  have hmI := mant_lt (by omega) hm
  obtain ⟨ce, c0⟩ := Proof.IsqrtPwl.core_err (q := q) (cn := false) hpW rfl hrep hm0 hc
  set I2 := rtIsqI (t.W - t.I) with hI2
  set W2 := (I2 + rtIsqF (t.I - 1)).toNat with hW2
  rw [rtIsqI_eq] at hI2
  rw [rtIsqF_eq] at hW2
  have hWz : (W2 : ℤ) = I2 + ((t.I - 1) / 2 + 24) := by rw [hW2, Int.toNat_of_nonneg (by omega)]
  have hW20 : 17 ≤ W2 := by omega
  have hsq := Proof.IsqrtPwl.inverseSqrt_eq q false (out := ⟨W2, I2, false, q, .WRAP⟩) hpW rfl (by show 1 ≤ W2; omega) rfl hrep hm0 hc
  set c := Proof.IsqrtPwl.core q false (posMant t) m
  obtain ⟨ce1, ce2⟩ := abs_le.1 ce
  have hcu : c ≤ 99999 / 100000 * 2 ^ I2 := by
    apply le_of_sq (mul_nonneg (by norm_num) (Fmt.z_pos _).le)
    rw [mul_pow, sq_z]
    have a : (2 : ℚ) * 2 ^ (2 - t.I) ≤ 2 ^ (2 * I2) := by
      rw [← Fmt.z_succ]
      exact Fmt.z_le (by omega)
    have b : c ^ 2 * 2 ^ (t.I - 2) ≤ 2003 / 2000 := by
      have := mul_le_mul_of_nonneg_left hn (sq_nonneg c); linarith
    have hinv : (2 : ℚ) ^ (t.I - 2) * 2 ^ (2 - t.I) = 1 := by rw [Fmt.z_add]; simp
    have b' := mul_le_mul_of_nonneg_right b (Fmt.z_pos (2 - t.I)).le
    rw [mul_assoc, hinv] at b'
    clear hinv
    have hz0 := Fmt.z_pos (2 - t.I)
    generalize (2 : ℚ) ^ (2 - t.I) = z at a b' hz0
    generalize (2 : ℚ) ^ (2 * I2) = w at a ⊢
    norm_num at a b' ⊢
    linarith
  have hcl : 2 ^ (I2 - (W2 : ℤ)) ≤ 1 / 2097152 * c := by
    apply le_of_sq (mul_nonneg (by norm_num) c0.le)
    rw [mul_pow, sq_z]
    have a : (2 : ℚ) ^ (2 * (I2 - (W2 : ℤ))) ≤ 1 / 2 ^ 46 * 2 ^ (1 - t.I) := by
      have := Fmt.z_le (show 2 * (I2 - (W2 : ℤ)) ≤ -46 + (1 - t.I) by omega)
      rw [← Fmt.z_add] at this
      rw [show (2 : ℚ) ^ (-46 : ℤ) = 1 / 2 ^ 46 by norm_num] at this; linarith
    have b : 1997 / 2000 ≤ c ^ 2 * 2 ^ (t.I - 1) := by
      have := mul_le_mul_of_nonneg_left hmI.le (sq_nonneg c); linarith
    have hinv : (2 : ℚ) ^ (t.I - 1) * 2 ^ (1 - t.I) = 1 := by rw [Fmt.z_add]; simp
    have b' := mul_le_mul_of_nonneg_right b (Fmt.z_pos (1 - t.I)).le
    rw [mul_assoc, hinv] at b'
    clear hinv
    have hz0 := Fmt.z_pos (1 - t.I)
    generalize (2 : ℚ) ^ (1 - t.I) = z at a b' hz0
    generalize (2 : ℚ) ^ (2 * (I2 - (W2 : ℤ))) = w at a ⊢
    norm_num at a b' ⊢
    linarith
  set κ : ℚ := if e % 2 = 0 then 1 else Model.PwlFixed.inverseroot2 with hκ
  have hst := store (W2 := W2) (I2 := I2) (q := q) (oq := oq) (c := c) (κ := κ) (by omega) c0.le (fitr hW20 hcu)
    (by rw [hκ]; unfold Model.PwlFixed.inverseroot2; split_ifs <;> norm_num)
    (by rw [hκ]; unfold Model.PwlFixed.inverseroot2; split_ifs <;> norm_num)
  have heq : inverseSqrtPwl q t oq d m e = some (d.cvt ((⟨W2 + 1, I2 + 1, true, q, .WRAP⟩ : Fmt).cvt
      ((⟨W2 + 1, I2 + 1, true, oq, .WRAP⟩ : Fmt).cvt ((⟨W2, I2, false, q, .WRAP⟩ : Fmt).cvt c * κ)) * 2 ^ (-(e / 2)))) := by
    unfold inverseSqrtPwl
    rw [pos_cvt (by omega) hm hm0.le]
    simp only [rtIsqI_eq, rtIsqF_eq, ← hI2, ← hW2, hsq]
    simp only [Option.bind_eq_bind, Option.bind_some, Proof.SqrtPwl.tmod_two e, if_neg hm0.ne', hκ]
    split_ifs
    · rw [mul_one]
    · rfl
  refine ⟨_, heq, isqrt_fin (κ0 := Model.PwlFixed.inverseroot2) (η := 1 / 1048576) hm0 c0 ce ?_ ?_ ?_ ?_ (le_trans hst ?_) ?_ ?_ ?_ ?_⟩
  all_goals first | linarith | (unfold Model.PwlFixed.inverseroot2; norm_num) | norm_num

theorem vhaI_eq (I : ℤ) : isqVhaI I = if I % 2 = 0 then (2 - I) / 2 else (3 - I) / 2 := by
  unfold isqVhaI
  simp only [ne_eq, Proof.SqrtPwl.tmod_two]
  by_cases h : I % 2 = 0 <;> by_cases hp : 0 < I <;> simp only [h, hp, not_true, not_false_eq_true, if_true, if_false]
  · rw [Int.neg_tdiv, Int.tdiv_eq_ediv_of_nonneg (show 0 ≤ I - 1 by omega)]; omega
  · rw [Int.tdiv_eq_ediv_of_nonneg (show 0 ≤ -(I - 2) by omega)]; omega
  · rw [Int.neg_tdiv, Int.tdiv_eq_ediv_of_nonneg (show 0 ≤ I by omega)]; omega
  · rw [Int.tdiv_eq_ediv_of_nonneg (show 0 ≤ -(I - 2) by omega)]; omega

/-- The table against the range of the result. -/
theorem vha_range {q : QMode} {t : FFmt} (hW : 2 ≤ t.W) {m : ℚ} (hrep : (posMant t).Rep m) (h : 0 < m)
    (hc : false = true ∨ (2 : ℚ) ^ ((posMant t).I - 1) ≤ m) :
    Proof.IsqrtVha.core q false (posMant t) m ≤ 99999 / 100000 * 2 ^ (isqVhaI t.I) := by
  obtain ⟨a1, a2, a3, -⟩ := norm_pos (by show 1 ≤ t.W - 1; omega) rfl hrep h hc 5
  have he : (Model.PwlFixed.norm false (posMant t) m).2 = t.I - 1 := by
    unfold Model.PwlFixed.norm posMant; simp
  unfold Proof.IsqrtVha.core Proof.IsqrtVha.m1
  rw [he]
  generalize (Model.PwlFixed.norm false (posMant t) m).1 = n at a2 a3 ⊢
  obtain ⟨k, hk, hg, l1, l2, g1, g2⟩ := Proof.IsqrtVha.g_cell a2 a3
  have hof := abs_le.1 (Proof.IsqrtVha.odd_facts (q := q) a2 a3)
  rw [vhaI_eq]
  by_cases hp : t.I % 2 = 0
  · rw [if_neg (by omega), if_pos hp, show -((t.I - 1) / 2) = (2 - t.I) / 2 by omega]
    apply mul_le_mul_of_nonneg_right _ (Fmt.z_pos _).le
    obtain ⟨-, h2⟩ := hof
    unfold Model.PwlHa.invroot2 at *
    norm_num at h2
    linarith
  · rw [if_pos (by omega), if_neg hp, show (3 - t.I) / 2 = -((t.I - 1) / 2) + 1 by omega, Fmt.z_succ]
    have := Fmt.z_pos (-((t.I - 1) / 2))
    rw [← mul_assoc]
    apply mul_le_mul_of_nonneg_right _ this.le
    linarith

/-- `ac_inverse_sqrt_pwl_vha`, for any mantissa. -/
theorem isqrtVha_err (q oq : QMode) {t : FFmt} (hW : 2 ≤ t.W) {m : ℚ} (hm : t.mant.Rep m) (h0 : 0 < m) (d : Dst) {e : ℤ}
    (he : -2 ^ (t.E - 1) ≤ e) :
    ∃ y : ℚ, inverseSqrtPwlVha q t oq d m e = some (d.cvt y) ∧ 0 < y ∧ |y ^ 2 * (m * 2 ^ e) - 1| ≤ 1 / 9000 := by
  obtain ⟨f1, f2, f3, f4⟩ := renorm_facts hW le_rfl hm he h0.ne'
  unfold inverseSqrtPwlVha
  rw [← f2]
  generalize renorm t (Etemp t) m e = N at *
  obtain ⟨n, s⟩ := N
  simp only at f1 f2 f3 f4 ⊢
  have hn0 : 0 ≤ n := not_lt.1 (fun h => by linarith [f4.1 h])
  rw [abs_of_nonneg hn0] at f3
  have hz2 := Fmt.z_pos (t.I - 2)
  have hnp : 0 < n := lt_of_lt_of_le hz2 f3
  have hrep := pos_rep (by omega) f1 hn0
  have hpW : 1 ≤ (posMant t).W := by show 1 ≤ t.W - 1; omega
  have hc : false = true ∨ (2 : ℚ) ^ ((posMant t).I - 1) ≤ n :=
    Or.inr (by show (2 : ℚ) ^ (t.I - 1 - 1) ≤ n; rw [show t.I - 1 - 1 = t.I - 2 by ring]; exact f3)
  have hnI := mant_lt (by omega) f1
  obtain ⟨ce, c0⟩ := Proof.IsqrtVha.core_err (q := q) (cn := false) hpW rfl hrep hnp hc
  have hcu := vha_range (q := q) hW hrep hnp hc
  set W2 : ℕ := 2 * 16 - (if t.I.tmod 2 = 0 then 3 else 5) with hW2
  have hW20 : 27 ≤ W2 := by rw [hW2]; split_ifs <;> norm_num
  have hsq := Proof.IsqrtVha.inverseSqrtVha_eq q false (out := ⟨W2, isqVhaI t.I, false, q, .WRAP⟩) hpW rfl (by show 1 ≤ W2; omega) rfl
    hrep hnp hc
  set c := Proof.IsqrtVha.core q false (posMant t) n
  obtain ⟨ce1, ce2⟩ := abs_le.1 ce
  have hcl : 2 ^ (isqVhaI t.I - (W2 : ℤ)) ≤ 1 / 8388608 * c := by
    apply le_of_sq (mul_nonneg (by norm_num) c0.le)
    rw [mul_pow, sq_z]
    have hI : 2 * isqVhaI t.I ≤ 3 - t.I := by rw [vhaI_eq]; split_ifs <;> omega
    have a : (2 : ℚ) ^ (2 * (isqVhaI t.I - (W2 : ℤ))) ≤ 1 / 2 ^ 52 * 2 ^ (1 - t.I) := by
      have := Fmt.z_le (show 2 * (isqVhaI t.I - (W2 : ℤ)) ≤ -52 + (1 - t.I) by omega)
      rw [← Fmt.z_add] at this
      rw [show (2 : ℚ) ^ (-52 : ℤ) = 1 / 2 ^ 52 by norm_num] at this; linarith
    have b : 9999 / 10000 ≤ c ^ 2 * 2 ^ (t.I - 1) := by
      have := mul_le_mul_of_nonneg_left hnI.le (sq_nonneg c); linarith
    have hinv : (2 : ℚ) ^ (t.I - 1) * 2 ^ (1 - t.I) = 1 := by rw [Fmt.z_add]; simp
    have b' := mul_le_mul_of_nonneg_right b (Fmt.z_pos (1 - t.I)).le
    rw [mul_assoc, hinv] at b'
    clear hinv
    have hz0 := Fmt.z_pos (1 - t.I)
    generalize (2 : ℚ) ^ (1 - t.I) = z at a b' hz0
    generalize (2 : ℚ) ^ (2 * (isqVhaI t.I - (W2 : ℤ))) = w at a ⊢
    norm_num at a b' ⊢
    linarith
  set κ : ℚ := if s % 2 = 0 then 1 else Model.PwlHa.invroot2 with hκ
  have hst := store (W2 := W2) (I2 := isqVhaI t.I) (q := q) (oq := oq) (c := c) (κ := κ) (by omega) c0.le (fitr (by omega) hcu)
    (by rw [hκ]; unfold Model.PwlHa.invroot2; split_ifs <;> norm_num)
    (by rw [hκ]; unfold Model.PwlHa.invroot2; split_ifs <;> norm_num)
  refine ⟨_, ?_, isqrt_fin (κ0 := Model.PwlHa.invroot2) (η := 1 / 4194304) (e := s) hnp c0 ce ?_ ?_ ?_ ?_ (le_trans hst ?_) ?_ ?_ ?_ ?_⟩
  · rw [pos_cvt (by omega) f1 hn0, hsq]
    simp only [Option.bind_eq_bind, Option.bind_some, Proof.SqrtPwl.tmod_two s, if_neg h0.ne', hκ]
    congr 3
    split_ifs
    · rw [mul_one]
    · rfl
  all_goals first | linarith | (unfold Model.PwlHa.invroot2; norm_num) | norm_num

end Proof.FloatSqrt
