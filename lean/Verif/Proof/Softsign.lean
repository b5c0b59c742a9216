import Verif.Model.Activations
import Verif.Spec.Activations
import Verif.Proof.Reciprocal

/-! # Lemmas for C47: softsign -/

namespace Proof.Softsign
open Ac Model.Pwl Model.PwlFixed Model.Activations Proof.Pwl Proof.PwlFixed

/-- Fraction bits of the denominator. -/
def rf (f : Fmt) : ℕ := if f.W < f.I.natAbs then f.W else f.W - f.I.natAbs

theorem ri_eq (f : Fmt) : recInp f = ⟨(f.I.natAbs + 1) + rf f, ((f.I.natAbs + 1 : ℕ) : ℤ), false, .TRN, .WRAP⟩ := by
  obtain ⟨k, hk⟩ : ∃ k : ℕ, |f.I| = k := ⟨f.I.natAbs, (Int.natCast_natAbs f.I).symm⟩
  have hk' : f.I.natAbs = k := by have := Int.natCast_natAbs f.I; omega
  unfold recInp rf
  rw [hk, hk']
  congr 1
  split_ifs <;> omega

/-- The denominator. -/
def dn (f : Fmt) (x : ℚ) : ℚ := trunc (rf f) (|x| + 1)

theorem abs_lt_pow {f : Fmt} (hW : 1 ≤ f.W) {x : ℚ} (hx : f.Rep x) : |x| < 2 ^ f.I.natAbs := by
  have hb := ((Fmt.rep_iff hW x).1 hx).1
  have h1 : (2 : ℚ) ^ f.I ≤ 2 ^ f.I.natAbs := by
    rw [← zpow_natCast]; exact Fmt.z_le (by omega)
  have h2 : (2 : ℚ) ^ f.I = 2 * 2 ^ (f.I - 1) := by rw [← Fmt.z_succ]; congr 1; ring
  have h3 := Fmt.z_pos (f.I - 1)
  unfold Fmt.Bnd at hb
  split_ifs at hb
  · exact lt_of_lt_of_le (abs_lt.2 ⟨by linarith [hb.1], by linarith [hb.2]⟩) h1
  · rw [abs_of_nonneg hb.1]; linarith [hb.2]

theorem dn_cvt {f : Fmt} (hW : 1 ≤ f.W) {x : ℚ} (hx : f.Rep x) : (recInp f).cvt (|x| + 1) = dn f x := by
  have h1 := abs_lt_pow hW hx
  have h2 : (1 : ℚ) ≤ 2 ^ f.I.natAbs := one_le_pow₀ (by norm_num)
  rw [ri_eq, cvt_trunc (by have := abs_nonneg x; linarith) (by rw [pow_succ]; linarith)]
  rfl

theorem dn_bounds (f : Fmt) (x : ℚ) : 1 ≤ dn f x ∧ dn f x ≤ |x| + 1 ∧ |x| + 1 < dn f x + 1 / 2 ^ rf f := by
  refine ⟨?_, trunc_le _ _, lt_trunc _ _⟩
  have h : trunc (rf f) 1 = 1 := by
    unfold trunc
    rw [one_mul, show (2 : ℚ) ^ rf f = ((2 ^ rf f : ℤ) : ℚ) by push_cast; rfl, Int.floor_intCast]
    push_cast
    exact div_self (by positivity)
  rw [← h]
  exact trunc_mono _ (by have := abs_nonneg x; linarith)

/-- Exact for types without negative integer width. -/
theorem dn_exact {f : Fmt} (hI : 0 ≤ f.I) {x : ℚ} (hx : f.Rep x) : dn f x = |x| + 1 := by
  obtain ⟨r, -, -, rfl⟩ := hx
  obtain ⟨e, he⟩ : ∃ e : ℕ, (rf f : ℤ) = f.F + e := ⟨(rf f - f.F).toNat, by
    unfold rf Fmt.F; split_ifs <;> omega⟩
  have hv : |f.val r| * 2 ^ rf f = ((|r| * 2 ^ e : ℤ) : ℚ) := by
    unfold Fmt.val
    rw [abs_mul, abs_of_pos (Fmt.z_pos _), ← zpow_natCast, he, mul_assoc, ← zpow_add₀ (by norm_num),
      show -f.F + (f.F + (e : ℤ)) = e by ring, zpow_natCast]
    push_cast; rfl
  unfold dn trunc
  rw [show (|f.val r| + 1) * 2 ^ rf f = ((|r| * 2 ^ e + 2 ^ rf f : ℤ) : ℚ) by
    rw [add_mul, hv]; push_cast; ring, Int.floor_intCast, div_eq_iff (by positivity), add_mul, hv]
  push_cast; ring

theorem ri_W (f : Fmt) : 1 ≤ (recInp f).W := by rw [ri_eq]; simp only; omega

theorem dn_rep {f : Fmt} (hW : 1 ≤ f.W) {x : ℚ} (hx : f.Rep x) : (recInp f).Rep (dn f x) := by
  rw [← dn_cvt hW hx]; exact Fmt.rep_cvt (ri_W f) _

theorem one_rep (f : Fmt) : (recInp f).Rep 1 := by
  rw [Fmt.rep_iff (ri_W f), ri_eq]
  constructor
  · show (0 : ℚ) ≤ 1 ∧ (1 : ℚ) < 2 ^ ((f.I.natAbs + 1 : ℕ) : ℤ)
    rw [zpow_natCast]
    exact ⟨by norm_num, one_lt_pow₀ (by norm_num) (by omega)⟩
  · refine ⟨2 ^ rf f, ?_⟩
    unfold Fmt.val Fmt.F
    simp only
    rw [show (((f.I.natAbs + 1 + rf f : ℕ) : ℤ) - ((f.I.natAbs + 1 : ℕ) : ℤ)) = rf f by push_cast; ring, Int.cast_pow, Int.cast_ofNat,
      ← zpow_natCast, Fmt.z_add]
    simp

/-- The reciprocal before it is converted to its type. -/
def c (f : Fmt) (x : ℚ) : ℚ := Proof.Reciprocal.core (recInp f) (dn f x)

theorem core_one (f : Fmt) : Proof.Reciprocal.core (recInp f) 1 = 2045 / 2048 := by
  obtain ⟨a1, a2, a3, -⟩ := Proof.Reciprocal.norm_facts (ri_W f) (one_rep f) (by norm_num)
  unfold Proof.Reciprocal.core
  rw [abs_one] at a1 a2 a3
  set n := (Model.Normalize.normalize (uns (recInp f)) ((uns (recInp f)).raw 1)).1
  set e := (Model.Normalize.normalize (uns (recInp f)) ((uns (recInp f)).raw 1)).2
  have he : e = 1 := by
    rcases lt_trichotomy e 1 with h | h | h
    · have h1 := Fmt.z_le (show e ≤ 0 by omega)
      have h2 := Fmt.z_pos e
      have h3 : n * 2 ^ e < 1 * 2 ^ e := mul_lt_mul_of_pos_right a3 h2
      rw [zpow_zero] at h1
      linarith
    · exact h
    · have h1 := Fmt.z_le (show (2 : ℤ) ≤ e by omega)
      have : 1 / 2 * (2 : ℚ) ^ (2 : ℤ) ≤ n * 2 ^ e := mul_le_mul a2 h1 (Fmt.z_pos _).le (by linarith)
      norm_num at this
      linarith
  have hn : n = 1 / 2 := by rw [he] at a1; norm_num at a1; linarith
  rw [he, hn]
  have : Proof.Reciprocal.g (1 / 2) = 2045 / 1024 := by decide +kernel
  rw [this]; norm_num

theorem c_facts {f : Fmt} (hW : 1 ≤ f.W) {x : ℚ} (hx : f.Rep x) : |c f x * dn f x - 1| ≤ 1 / 512 ∧ 0 < c f x ∧ c f x ≤ 2045 / 2048 := by
  have d1 := (dn_bounds f x).1
  have hd := abs_of_nonneg (by linarith : 0 ≤ dn f x)
  obtain ⟨a1, a2⟩ := Proof.Reciprocal.core_pos (ri_W f) (dn_rep hW hx) (by linarith)
  have a3 := Proof.Reciprocal.core_anti (ri_W f) (one_rep f) (dn_rep hW hx) (by norm_num) (by linarith) (by rw [abs_one, hd]; exact d1)
  rw [hd] at a1 a2 a3
  rw [abs_one, core_one] at a3
  exact ⟨a1, a2, a3⟩

/-- Fraction bits of the reciprocal. -/
def bits (f : Fmt) : ℕ := scBits 10 (f.W - 4) + 10

theorem bits_ge (f : Fmt) : 11 ≤ bits f := by unfold bits scBits; push_cast; omega

theorem recOut_F (q : QMode) (f out : Fmt) : (recOut q f out).F = bits f := by unfold recOut Fmt.F bits; push_cast; ring

/-- The reciprocal. -/
def rc (q : QMode) (f out : Fmt) (x : ℚ) : ℚ := (recOut q f out).cvt (c f x)

theorem rc_facts (q : QMode) {f : Fmt} (out : Fmt) (hW : 1 ≤ f.W) {x : ℚ} (hx : f.Rep x) :
    |rc q f out x - c f x| < 1 / 2 ^ bits f ∧ 0 ≤ rc q f out x := by
  obtain ⟨-, c0, c1⟩ := c_facts hW hx
  have hF := recOut_F q f out
  have hb := bits_ge f
  have hz : (2048 : ℚ) ≤ 2 ^ bits f := le_trans (by norm_num) (pow_le_pow_right₀ (by norm_num : (1 : ℚ) ≤ 2) hb)
  have hWo : (recOut q f out).W = bits f + 1 := rfl
  have hlo : ((loRaw (recOut q f out).W (recOut q f out).S (recOut q f out).O : ℤ) : ℚ) ≤ c f x * 2 ^ (recOut q f out).F := by
    have h1 : ((loRaw (recOut q f out).W (recOut q f out).S (recOut q f out).O : ℤ) : ℚ) ≤ 0 := by exact_mod_cast loRaw_nonpos _ _ _
    have h2 : 0 ≤ c f x * 2 ^ (recOut q f out).F := mul_nonneg c0.le (Fmt.z_pos _).le
    linarith
  have hhi : c f x * 2 ^ (recOut q f out).F ≤ ((maxRaw (recOut q f out).W (recOut q f out).S : ℤ) : ℚ) := by
    rw [hF, zpow_natCast, hWo]
    have h1 := mul_le_mul_of_nonneg_right c1 (by linarith : (0 : ℚ) ≤ 2 ^ bits f)
    have h2 : (2 : ℤ) ^ bits f - 1 ≤ maxRaw (bits f + 1) (recOut q f out).S := by
      unfold maxRaw
      have : (2 : ℤ) ^ (bits f + 1) = 2 * 2 ^ bits f := by rw [pow_succ]; ring
      have := two_pow_pos' (bits f)
      split_ifs
      · simp
      · omega
    have h3 : (2 : ℚ) ^ bits f - 1 ≤ ((maxRaw (bits f + 1) (recOut q f out).S : ℤ) : ℚ) := by exact_mod_cast h2
    linarith
  have h := Fmt.cvt_err (by rw [hWo]; omega) hlo hhi
  rw [hF, zpow_neg, zpow_natCast, ← one_div] at h
  have h' : |rc q f out x - c f x| < 1 / 2 ^ bits f := by simpa [rc] using h
  refine ⟨h', ?_⟩
  have e : rc q f out x = (recOut q f out).val ((recOut q f out).cvtRaw (c f x)) := rfl
  have v : (recOut q f out).val (-1) = -(1 / 2 ^ bits f) := by
    unfold Fmt.val; rw [hF, zpow_neg, zpow_natCast]; push_cast; ring
  have h3 : (recOut q f out).val (-1) < rc q f out x := by rw [v]; linarith [(abs_lt.1 h').1]
  rw [e, Fmt.val_lt] at h3
  rw [e]
  exact mul_nonneg (by exact_mod_cast (by omega : (0 : ℤ) ≤ (recOut q f out).cvtRaw (c f x))) (Fmt.z_pos _).le

theorem softsign_eq (q : QMode) {f : Fmt} (out : Fmt) (hW : 1 ≤ f.W) {x : ℚ} (hx : f.Rep x) :
    softsign q f out x = some (out.cvt (x * rc q f out x)) := by
  unfold softsign
  have d1 := (dn_bounds f x).1
  simp only []
  rw [magnitude_eq hW hx, dn_cvt hW hx, Proof.Reciprocal.reciprocal_eq .TRN (ri_W f) (by unfold recOut; simp) (dn_rep hW hx) (by linarith)]
  simp only [Option.bind_eq_bind, Option.bind_some]
  rw [if_neg (by rintro ⟨-, h⟩; linarith), abs_of_nonneg (by linarith)]
  rfl

theorem softsign_some (q : QMode) (f out : Fmt) (x : ℚ) : (softsign q f out x).isSome := by
  unfold softsign reciprocal
  obtain ⟨y, hy⟩ := segVal_isSome (m := recM) (c := recC) (ib := 3) rfl rfl 10
    (scBits 10 ((recInp f).W - 4 - (if (recInp f).S then 1 else 0)))
    (((Model.Normalize.normalize (uns (recInp f)) ((uns (recInp f)).raw (magnitude (recInp f) ((recInp f).cvt (magnitude f x + 1))))).1 - 1 / 2) * 16)
  simp only [hy, Option.bind_eq_bind, Option.bind_some]
  split_ifs <;> rfl

theorem rc_even (q : QMode) (f out : Fmt) (x : ℚ) : rc q f out (-x) = rc q f out x := by
  unfold rc c dn; rw [abs_neg]

theorem err (q : QMode) {f : Fmt} (out : Fmt) (hW : 1 ≤ f.W) {x : ℚ} (hx : f.Rep x) :
    |x * rc q f out x - x / (1 + |x|)| ≤ 1 / 512 + |x| / 2 ^ bits f + (if f.I < 0 then |x| / 2 ^ rf f else 0) := by
  obtain ⟨r1, -⟩ := rc_facts q out hW hx
  obtain ⟨a1, a2, -⟩ := c_facts hW hx
  obtain ⟨d1, d2, d3⟩ := dn_bounds f x
  have ha := abs_nonneg x
  have hex : 0 ≤ f.I → dn f x = |x| + 1 := fun h => dn_exact h hx
  have e : x * rc q f out x - x / (1 + |x|) = x * (rc q f out x - c f x) + x * (c f x * dn f x - 1) / dn f x +
      x * (|x| + 1 - dn f x) / (dn f x * (1 + |x|)) := by
    have h1 : dn f x ≠ 0 := by linarith
    have h2 : 1 + |x| ≠ 0 := by linarith
    field_simp
    ring
  have t1 : |x * (rc q f out x - c f x)| ≤ |x| / 2 ^ bits f := by
    rw [abs_mul, div_eq_mul_one_div]; exact mul_le_mul_of_nonneg_left r1.le ha
  have hd0 : 0 < dn f x := by linarith
  have t2 : |x * (c f x * dn f x - 1) / dn f x| ≤ 1 / 512 := by
    rw [abs_div, abs_mul, abs_of_pos hd0, div_le_iff₀ hd0]
    have h1 : |x| ≤ dn f x := by
      have : (1 : ℚ) / 2 ^ rf f ≤ 1 := by
        rw [div_le_one (by positivity)]; exact one_le_pow₀ (by norm_num)
      linarith
    have := mul_le_mul h1 a1 (abs_nonneg _) (by linarith)
    linarith
  have t3 : |x * (|x| + 1 - dn f x) / (dn f x * (1 + |x|))| ≤ if f.I < 0 then |x| / 2 ^ rf f else 0 := by
    split_ifs with h
    · have h1 : 1 ≤ dn f x * (1 + |x|) := by
        have := mul_le_mul d1 (by linarith : (1 : ℚ) ≤ 1 + |x|) (by norm_num) (by linarith)
        linarith
      rw [abs_div, abs_mul, abs_of_pos (by linarith : 0 < dn f x * (1 + |x|)), abs_of_nonneg (by linarith : 0 ≤ |x| + 1 - dn f x)]
      have h2 : |x| * (|x| + 1 - dn f x) ≤ |x| / 2 ^ rf f := by
        rw [div_eq_mul_one_div]; exact mul_le_mul_of_nonneg_left (by linarith) ha
      refine le_trans (div_le_self (mul_nonneg ha (by linarith)) h1) h2
    · rw [hex (by omega)]; simp
  rw [e]
  have u1 := abs_add_le (x * (rc q f out x - c f x) + x * (c f x * dn f x - 1) / dn f x) (x * (|x| + 1 - dn f x) / (dn f x * (1 + |x|)))
  have u2 := abs_add_le (x * (rc q f out x - c f x)) (x * (c f x * dn f x - 1) / dn f x)
  linarith

/-- Truncation makes the reciprocal of a large number zero. -/
theorem rc_zero {f : Fmt} (out : Fmt) (hW : 1 ≤ f.W) {x : ℚ} (hx : f.Rep x) (h : 2 ^ (bits f + 1) ≤ |x|) : rc .TRN f out x = 0 := by
  obtain ⟨a1, a2, -⟩ := c_facts hW hx
  obtain ⟨d1, d2, d3⟩ := dn_bounds f x
  obtain ⟨r1, r2⟩ := rc_facts .TRN out hW hx
  have hd : |x| ≤ dn f x := by
    have : (1 : ℚ) / 2 ^ rf f ≤ 1 := by
      rw [div_le_one (by positivity)]; exact one_le_pow₀ (by norm_num)
    linarith
  have hp : (0 : ℚ) < 2 ^ bits f := by positivity
  have c1 : c f x * 2 ^ bits f < 1 := by
    have h1 : 2 * 2 ^ bits f ≤ dn f x := by rw [pow_succ] at h; linarith
    have h2 := mul_le_mul_of_nonneg_left h1 a2.le
    have h3 := (abs_le.1 a1).2
    linarith
  have hq : quant .TRN (c f x * 2 ^ bits f) = 0 := by
    show ⌊c f x * 2 ^ bits f⌋ = 0
    rw [Int.floor_eq_zero_iff]
    exact ⟨mul_nonneg a2.le hp.le, c1⟩
  unfold rc Fmt.cvt Fmt.cvtRaw
  rw [recOut_F, zpow_natCast]
  have : (recOut .TRN f out).Q = .TRN := rfl
  rw [this, hq, ovf_of_range (by unfold recOut; simp) (loRaw_nonpos _ _ _) (maxRaw_nonneg _ _)]
  unfold Fmt.val; simp

end Proof.Softsign
