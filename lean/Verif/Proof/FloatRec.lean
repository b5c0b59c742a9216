import Verif.Proof.Float
import Verif.Proof.Complex

/-! # Lemmas for C60 -/

namespace Proof.FloatRec
open Ac Model.Pwl Model.PwlFixed Model.PwlHa Model.Normalize Proof.Pwl Proof.PwlFixed Proof.PwlHa Model.Float Proof.Float

variable {m c : List ℤ} {p ib : ℕ} {E lo hi : ℤ}

theorem goodBase : Good recM recC 10 3 40 1024 2045 where
  lm := by decide +kernel
  lc := by decide +kernel
  neg := by decide +kernel
  step := by decide +kernel
  bd := by decide +kernel
  lo0 := by decide
  hilo := by decide
  hi2 := by decide
  dn := by decide +kernel
  up := by decide +kernel

theorem err_base (n : ℚ) (h0 : 1 / 2 ≤ n) (h1 : n < 1) : |g recM recC 10 3 n * n - 1| ≤ 1 / 512 := by
  have := (Proof.Reciprocal.g_bounds h0 h1).1
  unfold Proof.Reciprocal.g at this
  unfold g
  norm_num at this ⊢
  exact this

theorem err_ha (n : ℚ) (h0 : 1 / 2 ≤ n) (h1 : n < 1) : |g haM haC 16 5 n * n - 1| ≤ 1 / 8192 :=
  le_trans (g_bounds goodHa h0 h1).1 (by norm_num)

theorem err_vha (n : ℚ) (h0 : 1 / 2 ≤ n) (h1 : n < 1) : |g vhaM vhaC 16 6 n * n - 1| ≤ 1 / 30000 :=
  le_trans (g_bounds goodVha h0 h1).1 (by norm_num)

theorem base_eq (q : QMode) (f out : Fmt) (x : ℚ) :
    Model.PwlFixed.reciprocal q f out x = recip recM recC 10 3 true q f out x := by
  unfold Model.PwlFixed.reciprocal recip recNorm
  norm_num

/-- `r` is the value of the table for the magnitude of `x`, with the sign of `x`. -/
def IsRec (m c : List ℤ) (p ib : ℕ) (x r : ℚ) : Prop :=
  ∃ (n : ℚ) (e : ℤ), 1 / 2 ≤ n ∧ n < 1 ∧ |x| = n * 2 ^ e ∧ r = (if x < 0 then -1 else 1) * (g m c p ib n * 2 ^ (-e))

theorem isRec_err {ε : ℚ} (G : ∀ n : ℚ, 1 / 2 ≤ n → n < 1 → |g m c p ib n * n - 1| ≤ ε) {x r : ℚ}
    (h : IsRec m c p ib x r) : |r * x - 1| ≤ ε := by
  obtain ⟨n, e, h0, h1, hx, rfl⟩ := h
  have hb := G n h0 h1
  have : (if x < 0 then -1 else 1) * (g m c p ib n * 2 ^ (-e)) * x = g m c p ib n * n := by
    have e1 : (if x < 0 then (-1 : ℚ) else 1) * x = |x| := by
      split_ifs with hn
      · rw [abs_of_neg hn]; ring
      · rw [abs_of_nonneg (not_lt.1 hn)]; ring
    have e2 : (if x < 0 then (-1 : ℚ) else 1) * (g m c p ib n * 2 ^ (-e)) * x =
        g m c p ib n * 2 ^ (-e) * ((if x < 0 then (-1 : ℚ) else 1) * x) := by ring
    rw [e2, e1, hx, zpow_neg]
    have := (Fmt.z_pos e).ne'
    field_simp
  rw [this]; exact hb

/-- The value and its order do not depend on the representation of `x`. -/
theorem isRec_anti (G : Good m c p ib E lo hi) {x x' r r' : ℚ} (h : IsRec m c p ib x r) (h' : IsRec m c p ib x' r')
    (hx : 0 < x) (hle : x ≤ x') : r' ≤ r := by
  obtain ⟨n, e, a2, a3, a1, rfl⟩ := h
  obtain ⟨n', e', b2, b3, b1, rfl⟩ := h'
  have hx' : 0 < x' := by linarith
  rw [if_neg (by linarith), if_neg (by linarith), one_mul, one_mul]
  rw [abs_of_pos hx] at a1
  rw [abs_of_pos hx'] at b1
  rw [a1, b1] at hle
  have he := exp_le_of_le a2 b3 hle
  rcases eq_or_lt_of_le he with h1 | h1
  · rw [h1] at hle ⊢
    have : n ≤ n' := le_of_mul_le_mul_right hle (Fmt.z_pos e')
    exact mul_le_mul_of_nonneg_right (g_anti G a2 this b3) (Fmt.z_pos _).le
  · obtain ⟨-, c1, -⟩ := g_bounds G a2 a3
    obtain ⟨-, -, c2⟩ := g_bounds G b2 b3
    have pz := Fmt.z_le (show -e' + 1 ≤ -e by omega)
    rw [zpow_add₀ (by norm_num)] at pz
    have q := Fmt.z_pos (-e')
    have q' := Fmt.z_pos (-e)
    rw [zpow_one] at pz
    have hl : (0 : ℚ) < lo := by exact_mod_cast G.lo0
    have hh : (hi : ℚ) ≤ 2 * lo := by exact_mod_cast G.hilo
    have d1 := mul_le_mul_of_nonneg_right c2 q.le
    have d2 := mul_le_mul_of_nonneg_right c1 q'.le
    refine le_trans d1 (le_trans ?_ d2)
    rw [div_mul_eq_mul_div, div_mul_eq_mul_div]
    apply div_le_div_of_nonneg_right _ (by positivity)
    have e1 := mul_le_mul_of_nonneg_right hh q.le
    have e2 := mul_le_mul_of_nonneg_left pz hl.le
    linarith

theorem isRec_neg {x r r' : ℚ} (h : IsRec m c p ib x r) (h' : IsRec m c p ib (-x) r') (hx : x ≠ 0) : r' = -r := by
  obtain ⟨n, e, a2, a3, a1, rfl⟩ := h
  obtain ⟨n', e', b2, b3, b1, rfl⟩ := h'
  rw [abs_neg] at b1
  have e1 : e = e' := le_antisymm (exp_le_of_le a2 b3 (by rw [← a1, ← b1])) (exp_le_of_le b2 a3 (by rw [← a1, ← b1]))
  subst e1
  have hn : n = n' := by
    have := a1.symm.trans b1
    exact mul_right_cancel₀ (Fmt.z_pos e).ne' this
  subst hn
  rcases lt_or_gt_of_ne hx with hh | hh
  · rw [if_neg (by linarith), if_pos hh]; ring
  · rw [if_pos (by linarith), if_neg (by linarith)]; ring

/-- A shift of the argument. -/
theorem isRec_scale {x r : ℚ} (h : IsRec m c p ib x r) (k : ℤ) : IsRec m c p ib (x * 2 ^ k) (r * 2 ^ (-k)) := by
  obtain ⟨n, e, a2, a3, a1, rfl⟩ := h
  have hk := Fmt.z_pos k
  refine ⟨n, e + k, a2, a3, ?_, ?_⟩
  · rw [abs_mul, abs_of_pos hk, a1, zpow_add₀ (by norm_num)]; ring
  · have : x * 2 ^ k < 0 ↔ x < 0 := by
      constructor
      · intro h; by_contra hc; have := mul_nonneg (not_lt.1 hc) hk.le; linarith
      · intro h; exact mul_neg_of_neg_of_pos h hk
    simp only [this]
    rw [neg_add, zpow_add₀ (by norm_num)]; ring

/-- A type with enough bits stores the reciprocal of the mantissa as it is. -/
theorem recip_exact (G : Good m c p ib E lo hi) (hp1 : 1 ≤ p) {cn : Bool} (q : QMode) {f out : Fmt} (hW : 1 ≤ f.W)
    (hS : f.S = true) (ho : 1 ≤ out.W) (hoS : out.S = true) (hO : out.O = .WRAP)
    (hF : f.I - 1 + p + scBits p (f.W - (ib + 1) - 1) ≤ out.F) {x : ℚ} (hx : f.Rep x) (h : x ≠ 0) (hc : Norm cn f x)
    (hlow : 2 ^ (1 - out.I) ≤ |x|) :
    ∃ r, recip m c p ib cn q f out x = some r ∧ IsRec m c p ib x r := by
  obtain ⟨a1, a2, a3, z, hz⟩ := norm_facts hW hx h hc ib
  rw [recip_eq G hp1 q hW ho hx h hc]
  unfold core
  have habs := Proof.Complex.abs_rep hW hx
  set n := (recNorm cn f |x|).1
  set e := (recNorm cn f |x|).2
  set s := scBits p (f.W - (ib + 1) - 1) with hs
  rw [hS] at habs hz
  simp only [if_true] at habs hz
  obtain ⟨v0, v1⟩ := scaled_range (ib := ib) a2 a3
  obtain ⟨k, hk, ht, -, -⟩ := cell (N := s) (ib := ib) v0 v1
  have hgk : g m c p ib n = (segRaw m c s k : ℤ) / 2 ^ (p + s) := by
    unfold g
    rw [← trunc_scBits hp1 hz, ← hs, ht, pw_tab]
  obtain ⟨b1, b2, b3⟩ := g_bounds G a2 a3
  have hP : (0 : ℚ) < 2 ^ p := by positivity
  have hpos : 0 < g m c p ib n := lt_of_lt_of_le (div_pos (by exact_mod_cast G.lo0) hP) b2
  have hlt2 : g m c p ib n < 2 := by
    refine lt_of_le_of_lt b3 ?_
    rw [div_lt_iff₀ hP]
    have := G.hi2
    rw [pow_succ] at this
    have h : (hi : ℚ) < 2 ^ p * 2 := by exact_mod_cast this
    linarith
  have he0 : 2 - out.I ≤ e := by
    by_contra hcon
    have hz1 := Fmt.z_le (show e ≤ 1 - out.I by omega)
    have : n * 2 ^ e < 1 * 2 ^ e := mul_lt_mul_of_pos_right a3 (Fmt.z_pos e)
    rw [← a1] at this
    linarith
  have he1 : e ≤ f.I := by
    by_contra hcon
    have hz1 := Fmt.z_le (show f.I - 1 + 2 ≤ e + 0 by omega)
    rw [zpow_add₀ (by norm_num), add_zero] at hz1
    have : 1 / 2 * 2 ^ e ≤ n * 2 ^ e := mul_le_mul_of_nonneg_right a2 (Fmt.z_pos e).le
    rw [← a1] at this
    have := Fmt.z_pos (f.I - 1)
    norm_num at hz1
    linarith
  have hs1 : 1 ≤ s := by rw [hs]; unfold scBits; omega
  have hgrid : ∃ K : ℤ, g m c p ib n * 2 ^ (-e) = K * 2 ^ (-out.F) := by
    have gen : ∀ (N : ℤ) (j : ℤ), (∃ Z : ℤ, g m c p ib n = Z * 2 ^ (-N)) → 0 ≤ out.F - N - e →
        ∃ K : ℤ, g m c p ib n * 2 ^ (-e) = K * 2 ^ (-out.F) := by
      rintro N - ⟨Z, hZ⟩ hj
      obtain ⟨j, hj'⟩ := Int.eq_ofNat_of_zero_le hj
      refine ⟨Z * 2 ^ j, ?_⟩
      rw [hZ]; push_cast
      rw [mul_assoc, mul_assoc, ← zpow_natCast, ← zpow_add₀ (by norm_num : (2 : ℚ) ≠ 0),
        ← zpow_add₀ (by norm_num : (2 : ℚ) ≠ 0)]
      congr 2
      omega
    rcases lt_or_eq_of_le he1 with hlt | heq
    · refine gen ((p + s : ℕ) : ℤ) 0 ⟨segRaw m c s k, ?_⟩ ?_
      · rw [hgk, zpow_neg, zpow_natCast, div_eq_mul_inv]
      · push_cast; omega
    · have hn : n = 1 / 2 := by
        apply le_antisymm _ a2
        rw [a1, heq] at habs
        rw [show f.I - 1 = f.I + (-1) by ring, zpow_add₀ (by norm_num)] at habs
        have := Fmt.z_pos f.I
        have h2 : n * 2 ^ f.I ≤ 1 / 2 * 2 ^ f.I := by refine le_trans habs (le_of_eq ?_); norm_num; ring
        exact le_of_mul_le_mul_right h2 this
      refine gen (p : ℤ) 0 ⟨c.getD 0 0, ?_⟩ (by omega)
      unfold g
      rw [hn]
      rw [show ((1 : ℚ) / 2 - 1 / 2) * 2 ^ (ib + 1) = 0 by ring]
      have h0 : trunc p 0 = ((0 : ℕ) : ℤ) / 2 ^ 0 := by unfold trunc; simp
      rw [h0, pw_tab]
      unfold segRaw
      rw [zpow_neg, zpow_natCast, div_eq_mul_inv]
      simp
  obtain ⟨K, hK⟩ := hgrid
  have hz := Fmt.z_pos (-out.F)
  have hK0 : 0 < K := by
    have : 0 < (K : ℚ) * 2 ^ (-out.F) := by rw [← hK]; exact mul_pos hpos (Fmt.z_pos _)
    exact_mod_cast pos_of_mul_pos_left this hz.le
  have hK1 : K < 2 ^ (out.W - 1) := by
    have h1 : g m c p ib n * 2 ^ (-e) < 2 ^ (out.I - 1) := by
      have q1 : g m c p ib n * 2 ^ (-e) < 2 * 2 ^ (-e) := mul_lt_mul_of_pos_right hlt2 (Fmt.z_pos _)
      have q2 := Fmt.z_le (show -e + 1 ≤ out.I - 1 by omega)
      rw [zpow_add₀ (by norm_num), zpow_one] at q2
      linarith
    rw [hK] at h1
    have h2 := mul_lt_mul_of_pos_right h1 (Fmt.z_pos out.F)
    rw [mul_assoc, ← zpow_add₀ (by norm_num : (2 : ℚ) ≠ 0), neg_add_cancel, zpow_zero, mul_one,
      ← zpow_add₀ (by norm_num : (2 : ℚ) ≠ 0), show out.I - 1 + out.F = ((out.W - 1 : ℕ) : ℤ) by
        unfold Fmt.F; omega, zpow_natCast] at h2
    exact_mod_cast h2
  have hv : ∀ k : ℤ, -2 ^ (out.W - 1) ≤ k → k ≤ 2 ^ (out.W - 1) - 1 → out.cvt ((k : ℚ) * 2 ^ (-out.F)) = (k : ℚ) * 2 ^ (-out.F) := by
    intro k k0 k1
    show out.cvt (out.val k) = out.val k
    exact Fmt.cvt_val ho (by rw [hO, hoS]; simpa [loRaw, minRaw] using k0) (by rw [hoS]; simpa [maxRaw] using k1)
  refine ⟨_, rfl, n, e, a2, a3, a1, ?_⟩
  rw [hK]
  by_cases hneg : x < 0
  · rw [if_pos ⟨hoS, hneg⟩, if_pos hneg, show -((K : ℚ) * 2 ^ (-out.F)) = ((-K : ℤ) : ℚ) * (2 : ℚ) ^ (-out.F) by push_cast; ring,
      hv _ (by omega) (by omega)]
    push_cast; ring
  · rw [if_neg (fun c => hneg c.2), if_neg hneg, hv _ (by omega) (by omega), one_mul]

theorem mant_low {t : FFmt} {x : ℚ} (hx : t.mant.Rep x) (h : x ≠ 0) : 2 ^ (t.I - t.W) ≤ |x| := by
  obtain ⟨r, -, -, rfl⟩ := hx
  have hr : r ≠ 0 := by rintro rfl; exact h (by simp [Fmt.val])
  have h1 : (1 : ℚ) ≤ |(r : ℚ)| := by exact_mod_cast Int.one_le_abs hr
  have hz := Fmt.z_pos (t.I - t.W)
  rw [mant_val, abs_mul, abs_of_pos hz]
  have := mul_le_mul_of_nonneg_right h1 hz.le
  linarith

theorem reciprocal_eq (q : QMode) {t : FFmt} (hW : 2 ≤ t.W) (oq : QMode) (d : Dst) {x : ℚ} {e : ℤ} (hx : t.mant.Rep x)
    (he : -2 ^ (t.E - 1) ≤ e) (h : x ≠ 0) :
    ∃ r, Model.Float.reciprocal q t oq d x e = some (d.cvt r) ∧ IsRec recM recC 10 3 (x * 2 ^ e) r := by
  obtain ⟨f1, f2, f3, f4⟩ := renorm_facts hW (le_max_left (Etemp t) t.E) hx he h
  have hn0 : (renorm t (max (Etemp t) t.E) x e).1 ≠ 0 := by
    intro hc; rw [hc, abs_zero] at f3; linarith [Fmt.z_pos (t.I - 2)]
  obtain ⟨r, hr, hi⟩ := recip_exact goodBase (by norm_num) (cn := true) q (f := t.mant) (out := recMant 10 4 t oq)
    (x := (renorm t (max (Etemp t) t.E) x e).1)
    (by show 1 ≤ t.W; omega) rfl (by simp [recMant]) rfl rfl
    (by simp [recMant, Fmt.F, FFmt.mant]; ring_nf; omega) f1 hn0 (Or.inl rfl)
    (by simp only [recMant]; rw [show 1 - (-t.I + 3) = t.I - 2 by ring]; exact f3)
  refine ⟨r * 2 ^ (-(renorm t (max (Etemp t) t.E) x e).2), ?_, ?_⟩
  · unfold Model.Float.reciprocal
    simp only [base_eq, hr, Option.bind_eq_bind, Option.bind_some, h, if_false]
  · rw [← f2]; exact isRec_scale hi _

theorem reciprocalVha_eq (q : QMode) {t : FFmt} (hW : 2 ≤ t.W) (oq : QMode) (d : Dst) {x : ℚ} {e : ℤ} (hx : t.mant.Rep x)
    (he : -2 ^ (t.E - 1) ≤ e) (h : x ≠ 0) :
    ∃ r, Model.Float.reciprocalVha q t oq d x e = some (d.cvt r) ∧ IsRec vhaM vhaC 16 6 (x * 2 ^ e) r := by
  obtain ⟨f1, f2, f3, f4⟩ := renorm_facts hW (le_refl (Etemp t)) hx he h
  have hn0 : (renorm t (Etemp t) x e).1 ≠ 0 := by
    intro hc; rw [hc, abs_zero] at f3; linarith [Fmt.z_pos (t.I - 2)]
  obtain ⟨r, hr, hi⟩ := recip_exact goodVha (by norm_num) (cn := false) q (f := t.mant) (out := recMant 16 7 t oq)
    (x := (renorm t (Etemp t) x e).1)
    (by show 1 ≤ t.W; omega) rfl (by simp [recMant]) rfl rfl
    (by simp [recMant, Fmt.F, FFmt.mant]; ring_nf; omega) f1 hn0 (Or.inr f3)
    (by simp only [recMant]; rw [show 1 - (-t.I + 3) = t.I - 2 by ring]; exact f3)
  refine ⟨r * 2 ^ (-(renorm t (Etemp t) x e).2), ?_, ?_⟩
  · unfold Model.Float.reciprocalVha Model.PwlHa.reciprocalVha
    simp only [hr, Option.bind_eq_bind, Option.bind_some, h, if_false]
  · rw [← f2]; exact isRec_scale hi _

theorem reciprocalHa_eq (q : QMode) {t : FFmt} (hW : 2 ≤ t.W) (oq : QMode) (d : Dst) {x : ℚ} {e : ℤ} (hx : t.mant.Rep x)
    (h : x ≠ 0) :
    ∃ r, Model.Float.reciprocalHa q t oq d x e = some (d.cvt r) ∧ IsRec haM haC 16 5 (x * 2 ^ e) r := by
  obtain ⟨r, hr, hi⟩ := recip_exact goodHa (by norm_num) (cn := true) q (f := t.mant) (out := recMantHa t oq)
    (x := x) (by show 1 ≤ t.W; omega) rfl (by simp [recMantHa]) rfl rfl
    (by simp [recMantHa, Fmt.F, FFmt.mant]; ring_nf; omega) hx h (Or.inl rfl)
    (by
      refine le_trans (Fmt.z_le ?_) (mant_low hx h)
      simp only [recMantHa]; omega)
  refine ⟨r * 2 ^ (-e), ?_, isRec_scale hi _⟩
  unfold Model.Float.reciprocalHa Model.PwlHa.reciprocalHa
  simp only [hr, Option.bind_eq_bind, Option.bind_some, h, if_false]

theorem isRec_unique {x r r' : ℚ} (h : IsRec m c p ib x r) (h' : IsRec m c p ib x r') : r = r' := by
  obtain ⟨n, e, a2, a3, a1, rfl⟩ := h
  obtain ⟨n', e', b2, b3, b1, rfl⟩ := h'
  have e1 : e = e' := le_antisymm (exp_le_of_le a2 b3 (by rw [← a1, ← b1])) (exp_le_of_le b2 a3 (by rw [← a1, ← b1]))
  subst e1
  have hn : n = n' := mul_right_cancel₀ (Fmt.z_pos e).ne' (a1.symm.trans b1)
  rw [hn]

/-- The value of the table as a function of the number. -/
def rho (m c : List ℤ) (p ib : ℕ) (x : ℚ) : ℚ :=
  (if x < 0 then -1 else 1) * (g m c p ib (|x| * 2 ^ (-(Int.log 2 |x| + 1))) * 2 ^ (-(Int.log 2 |x| + 1)))

theorem rho_isRec {x : ℚ} (h : x ≠ 0) : IsRec m c p ib x (rho m c p ib x) := by
  have hp : 0 < |x| := abs_pos.2 h
  have h1 := Int.zpow_log_le_self (R := ℚ) (b := 2) (by norm_num) hp
  have h2 := Int.lt_zpow_succ_log_self (R := ℚ) (b := 2) (by norm_num) |x|
  push_cast at h1 h2
  have hz := Fmt.z_pos (Int.log 2 |x| + 1)
  have hz' := Fmt.z_pos (Int.log 2 |x|)
  refine ⟨|x| * 2 ^ (-(Int.log 2 |x| + 1)), Int.log 2 |x| + 1, ?_, ?_, ?_, rfl⟩
  · rw [zpow_neg, ← div_eq_mul_inv, le_div_iff₀ hz, zpow_add₀ (by norm_num), zpow_one]; linarith
  · rw [zpow_neg, ← div_eq_mul_inv, div_lt_one hz]; exact h2
  · rw [mul_assoc, ← zpow_add₀ (by norm_num : (2 : ℚ) ≠ 0), neg_add_cancel, zpow_zero, mul_one]

/-- What `rho` is: a reciprocal up to `ε`, odd, and decreasing on the positive numbers. -/
theorem rho_spec (G : Good m c p ib E lo hi) {ε : ℚ} (H : ∀ n : ℚ, 1 / 2 ≤ n → n < 1 → |g m c p ib n * n - 1| ≤ ε) :
    (∀ x : ℚ, x ≠ 0 → |rho m c p ib x * x - 1| ≤ ε) ∧
    (∀ x x' : ℚ, 0 < x → x ≤ x' → rho m c p ib x' ≤ rho m c p ib x) ∧
    (∀ x : ℚ, x ≠ 0 → rho m c p ib (-x) = -rho m c p ib x) :=
  ⟨fun _ h => isRec_err H (rho_isRec h),
    fun _ _ h0 h => isRec_anti G (rho_isRec h0.ne') (rho_isRec (lt_of_lt_of_le h0 h).ne') h0 h,
    fun _ h => isRec_neg (rho_isRec h) (rho_isRec (neg_ne_zero.2 h)) h⟩

theorem minVal_le (o : FFmt) : o.minVal ≤ -o.maxVal := by
  unfold FFmt.minVal FFmt.maxVal
  have hz := Fmt.z_pos ((2 : ℤ) ^ (o.E - 1) - 1)
  rw [← neg_mul]
  apply mul_le_mul_of_nonneg_right _ hz.le
  unfold Fmt.minVal Fmt.maxVal
  rw [mant_val, mant_val, ← neg_mul]
  apply mul_le_mul_of_nonneg_right _ (Fmt.z_pos _).le
  have : minRaw o.mant.W o.mant.S ≤ -maxRaw o.mant.W o.mant.S := by simp [minRaw, maxRaw, FFmt.mant]
  exact_mod_cast this

/-- The error after conversion to an ac_float. -/
theorem output {o : FFmt} {x r ε : ℚ} (h : |r * x - 1| ≤ ε) (hx : x ≠ 0) (h0 : 2 ^ (o.I - 2 - 2 ^ (o.E - 1)) * |x| ≤ 1 - ε)
    (h1 : 1 + ε ≤ o.maxVal * |x|) : |o.cvt r * x - 1| ≤ ε + (1 + ε) * 2 ^ (2 - (o.W : ℤ)) := by
  have hp : 0 < |x| := abs_pos.2 hx
  have a1 : |r| * |x| ≤ 1 + ε := by
    rw [← abs_mul]
    have := abs_add_le (r * x - 1) 1
    rw [sub_add_cancel, abs_one] at this
    linarith
  have a2 : 1 - ε ≤ |r| * |x| := by
    rw [← abs_mul]
    have := abs_sub_abs_le_abs_sub 1 (r * x)
    rw [abs_one, abs_sub_comm] at this
    linarith
  have b1 : |r| ≤ o.maxVal := le_of_mul_le_mul_right (by linarith) hp
  have b2 : 2 ^ (o.I - 2 - 2 ^ (o.E - 1)) ≤ |r| := le_of_mul_le_mul_right (by linarith) hp
  obtain ⟨c1, c2⟩ := abs_le.1 b1
  have e1 := cvt_err b2 (le_trans (minVal_le o) c1) c2
  have e2 := mul_le_mul_of_nonneg_right e1 hp.le
  rw [← abs_mul] at e2
  have e3 : |r| * 2 ^ (2 - (o.W : ℤ)) * |x| ≤ (1 + ε) * 2 ^ (2 - (o.W : ℤ)) := by
    have := mul_le_mul_of_nonneg_right a1 (Fmt.z_pos (2 - (o.W : ℤ))).le
    linarith
  calc |o.cvt r * x - 1| = |(r * x - 1) + (o.cvt r - r) * x| := by congr 1; ring
    _ ≤ |r * x - 1| + |(o.cvt r - r) * x| := abs_add_le _ _
    _ ≤ _ := by linarith

end Proof.FloatRec
