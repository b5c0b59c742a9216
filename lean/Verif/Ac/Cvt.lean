import Verif.Ac.Quant

/-! # Lemmas about assignment to ac_fixed -/

namespace Ac

theorem minRaw_le_maxRaw {W : ℕ} {S : Bool} : minRaw W S ≤ maxRaw W S := by
  have h1 := two_pow_pos' (W - 1)
  have h2 := two_pow_pos' W
  cases S <;> simp [minRaw, maxRaw] <;> linarith

theorem minRaw_nonpos (W : ℕ) (S : Bool) : minRaw W S ≤ 0 := by
  have h1 := two_pow_pos' (W - 1)
  cases S <;> simp [minRaw]

theorem maxRaw_nonneg (W : ℕ) (S : Bool) : 0 ≤ maxRaw W S := by
  have h1 := two_pow_pos' (W - 1)
  have h2 := two_pow_pos' W
  cases S <;> simp [maxRaw] <;> linarith

/-- Smallest raw value that overflow handling leaves unchanged. -/
def loRaw (W : ℕ) (S : Bool) (o : OMode) : ℤ :=
  if o = .SAT_SYM ∧ S then -maxRaw W S else minRaw W S

theorem minRaw_le_loRaw (W : ℕ) (S : Bool) (o : OMode) : minRaw W S ≤ loRaw W S o := by
  unfold loRaw
  split_ifs with h
  · simp [minRaw, maxRaw, h.2]
  · exact le_refl _

theorem loRaw_nonpos (W : ℕ) (S : Bool) (o : OMode) : loRaw W S o ≤ 0 := by
  unfold loRaw
  have := minRaw_nonpos W S
  have := maxRaw_nonneg W S
  split_ifs <;> linarith

theorem ovf_of_range {W : ℕ} {S : Bool} {o : OMode} (hW : 1 ≤ W) {n : ℤ} (h0 : loRaw W S o ≤ n)
    (h1 : n ≤ maxRaw W S) : ovf W S o n = n := by
  have hm := minRaw_le_loRaw W S o
  cases o
  · exact wrap_of_range hW (by linarith) h1
  · simp only [ovf, if_neg (not_lt.mpr h1), if_neg (not_lt.mpr (le_trans hm h0))]
  · simp only [ovf]
    rw [if_neg]
    rintro (h | h) <;> linarith
  · simp only [ovf, if_neg (not_lt.mpr h1)]
    rw [if_neg]
    rw [not_lt]
    cases S
    · simpa [loRaw, minRaw] using h0
    · simpa [loRaw] using h0

theorem ovf_over {W : ℕ} {S : Bool} {o : OMode} (ho : o ≠ .WRAP) {m n : ℤ} (hm : maxRaw W S < m)
    (hn : maxRaw W S < n) : ovf W S o m = ovf W S o n := by
  cases o <;> simp [ovf, hm, hn] at *

theorem ovf_under {W : ℕ} {S : Bool} {o : OMode} (ho : o ≠ .WRAP) {m n : ℤ} (hm : m < minRaw W S)
    (hn : n < minRaw W S) : ovf W S o m = ovf W S o n := by
  have h1 := @minRaw_le_maxRaw W S
  have a1 : ¬ maxRaw W S < m := by linarith
  have a2 : ¬ maxRaw W S < n := by linarith
  cases o
  · exact absurd rfl ho
  · simp [ovf, hm, hn, a1, a2]
  · simp [ovf, hm, hn]
  · have b1 : m < if S then -maxRaw W S else 0 := by
      cases S <;> simp [minRaw, maxRaw] at * <;> linarith
    have b2 : n < if S then -maxRaw W S else 0 := by
      cases S <;> simp [minRaw, maxRaw] at * <;> linarith
    simp only [ovf, a1, a2, b1, b2, if_true, if_false]

theorem ovf_wrap_congr {W : ℕ} {S : Bool} {m n : ℤ} (h : m ≡ n [ZMOD 2 ^ W]) :
    ovf W S .WRAP m = ovf W S .WRAP n := wrap_congr h

/-- The stored raw integer is always in range. -/
theorem ovf_range {W : ℕ} {S : Bool} (hW : 1 ≤ W) (o : OMode) (n : ℤ) :
    minRaw W S ≤ ovf W S o n ∧ ovf W S o n ≤ maxRaw W S := by
  have h1 := minRaw_nonpos W S
  have h2 := maxRaw_nonneg W S
  cases o
  · exact wrap_range hW n
  · simp only [ovf]; split_ifs <;> constructor <;> linarith
  · simp only [ovf]; split_ifs with h
    · exact ⟨h1, h2⟩
    · rw [not_or] at h; constructor <;> linarith
  · simp only [ovf]
    cases S
    · simp [minRaw] at *
      split_ifs <;> constructor <;> linarith
    · simp only [if_true]
      have : minRaw W true ≤ -maxRaw W true := by simp [minRaw, maxRaw]
      split_ifs <;> constructor <;> linarith

/-- Saturation is monotone. -/
theorem ovf_sat_mono {W : ℕ} {S : Bool} {o : OMode} (ho : o = .SAT ∨ o = .SAT_SYM) {m n : ℤ} (h : m ≤ n) :
    ovf W S o m ≤ ovf W S o n := by
  have h1 := @minRaw_le_maxRaw W S
  have h2 := maxRaw_nonneg W S
  rcases ho with rfl | rfl
  · simp only [ovf]; split_ifs <;> linarith
  · have : (if S then -maxRaw W S else 0) ≤ maxRaw W S := by split_ifs <;> linarith
    simp only [ovf]; split_ifs <;> linarith

namespace Fmt

theorem two_zpow_pos {R : Type*} [Field R] [LinearOrder R] [IsStrictOrderedRing R] (n : ℤ) : (0 : R) < 2 ^ n :=
  zpow_pos (by norm_num) n

theorem val_mul_pow (f : Fmt) (r : ℤ) : f.val r * 2 ^ f.F = r := by
  unfold val
  rw [mul_assoc, ← zpow_add₀ (by norm_num : (2 : ℚ) ≠ 0)]; simp

theorem raw_val (f : Fmt) (r : ℤ) : f.raw (f.val r) = r := by
  unfold raw; rw [val_mul_pow]; exact Int.floor_intCast r

theorem val_inj {f : Fmt} {r s : ℤ} : f.val r = f.val s ↔ r = s := by
  constructor
  · intro h; rw [← raw_val f r, h, raw_val]
  · rintro rfl; rfl

theorem val_le {f : Fmt} {r s : ℤ} : f.val r ≤ f.val s ↔ r ≤ s := by
  unfold val
  rw [mul_le_mul_iff_of_pos_right (two_zpow_pos _)]; exact_mod_cast Iff.rfl

theorem val_lt {f : Fmt} {r s : ℤ} : f.val r < f.val s ↔ r < s := by
  unfold val
  rw [mul_lt_mul_iff_of_pos_right (two_zpow_pos _)]; exact_mod_cast Iff.rfl

/-- Assigning a representable value is the identity (except -2^(W-1) under symmetric saturation). -/
theorem cvt_val {f : Fmt} (hW : 1 ≤ f.W) {r : ℤ} (h0 : loRaw f.W f.S f.O ≤ r) (h1 : r ≤ maxRaw f.W f.S) :
    f.cvt (f.val r) = f.val r := by
  unfold cvt cvtRaw
  rw [val_mul_pow, quant_intCast, ovf_of_range hW h0 h1]

section
variable {R : Type*} [Field R] [LinearOrder R] [IsStrictOrderedRing R] [FloorRing R]

theorem cvt_ratCast (f : Fmt) (x : ℚ) : f.cvt (x : R) = f.cvt x := by
  unfold cvt cvtRaw
  have : (x : R) * 2 ^ f.F = ((x * 2 ^ f.F : ℚ) : R) := by push_cast; rfl
  rw [this, quant_ratCast]

theorem rep_cvt {f : Fmt} (hW : 1 ≤ f.W) (x : R) : f.Rep (f.cvt x) :=
  ⟨f.cvtRaw x, (ovf_range hW _ _).1, (ovf_range hW _ _).2, rfl⟩

/-- Saturating assignment is monotone. -/
theorem cvt_mono {f : Fmt} (ho : f.O = .SAT ∨ f.O = .SAT_SYM) {x y : R} (h : x ≤ y) : f.cvt x ≤ f.cvt y := by
  unfold cvt
  rw [val_le]
  apply ovf_sat_mono ho
  apply quant_mono
  exact mul_le_mul_of_nonneg_right h (two_zpow_pos _).le

/-- Without overflow the assignment error is below one unit in the last place. -/
theorem cvt_err {f : Fmt} (hW : 1 ≤ f.W) {x : R} (h0 : loRaw f.W f.S f.O ≤ x * 2 ^ f.F)
    (h1 : x * 2 ^ f.F ≤ maxRaw f.W f.S) : |((f.cvt x : ℚ) : R) - x| < 2 ^ (-f.F) := by
  have hr0 : loRaw f.W f.S f.O ≤ quant f.Q (x * 2 ^ f.F) := le_quant h0
  have hr1 : quant f.Q (x * 2 ^ f.F) ≤ maxRaw f.W f.S := quant_le h1
  have e : ((f.cvt x : ℚ) : R) = (quant f.Q (x * 2 ^ f.F) : R) * 2 ^ (-f.F) := by
    unfold cvt cvtRaw val
    rw [ovf_of_range hW hr0 hr1]; push_cast; rfl
  have hx : x = x * 2 ^ f.F * 2 ^ (-f.F) := by
    rw [mul_assoc, ← zpow_add₀ (by norm_num : (2 : R) ≠ 0)]; simp
  have e2 : ((f.cvt x : ℚ) : R) - x = ((quant f.Q (x * 2 ^ f.F) : R) - x * 2 ^ f.F) * 2 ^ (-f.F) := by
    rw [e, sub_mul, ← hx]
  rw [e2, abs_mul, abs_of_pos (two_zpow_pos (R := R) (-f.F))]
  have := quant_err f.Q (x * 2 ^ f.F)
  calc |(quant f.Q (x * 2 ^ f.F) : R) - x * 2 ^ f.F| * 2 ^ (-f.F) < 1 * 2 ^ (-f.F) :=
        mul_lt_mul_of_pos_right this (two_zpow_pos _)
    _ = _ := one_mul _

/-- Position of a number inside an open cell of width 2^-j. -/
theorem cell_facts {y : R} {m : ℤ} {j : ℕ} (hj : 1 ≤ j) (h0 : (m : R) < y * 2 ^ j) (h1 : y * 2 ^ j < m + 1) :
    ⌊y⌋ = m / 2 ^ j ∧ (Int.fract y = 0 ↔ False) ∧ (1 / 2 ≤ Int.fract y ↔ 2 ^ (j - 1) ≤ m % 2 ^ j) ∧
      (1 / 2 < Int.fract y ↔ 2 ^ (j - 1) ≤ m % 2 ^ j) := by
  have hp : (0 : R) < 2 ^ j := by positivity
  have hpz := two_pow_pos' j
  have e := two_pow_succ_pred hj
  have eR : (2 : R) ^ j = 2 * 2 ^ (j - 1) := by exact_mod_cast congrArg (Int.cast (R := R)) e
  have hdm := Int.mul_ediv_add_emod m (2 ^ j)
  have hm0 := Int.emod_nonneg m (ne_of_gt hpz)
  have hm1 := Int.emod_lt_of_pos m hpz
  have hdmR : (2 : R) ^ j * ((m / 2 ^ j : ℤ) : R) + ((m % 2 ^ j : ℤ) : R) = m := by exact_mod_cast congrArg (Int.cast (R := R)) hdm
  have hfl : ⌊y⌋ = m / 2 ^ j := by
    rw [Int.floor_eq_iff]
    have hm0R : (0 : R) ≤ ((m % 2 ^ j : ℤ) : R) := by exact_mod_cast hm0
    have hm1R : ((m % 2 ^ j : ℤ) : R) + 1 ≤ 2 ^ j := by exact_mod_cast hm1
    constructor
    · have : ((m / 2 ^ j : ℤ) : R) * 2 ^ j ≤ y * 2 ^ j := by linarith
      exact le_of_mul_le_mul_right this hp
    · have : y * 2 ^ j < (((m / 2 ^ j : ℤ) : R) + 1) * 2 ^ j := by linarith
      exact lt_of_mul_lt_mul_right this hp.le
  have hfr : Int.fract y * 2 ^ j = y * 2 ^ j - 2 ^ j * ((m / 2 ^ j : ℤ) : R) := by
    unfold Int.fract; rw [hfl]; ring
  have hf0 : ((m % 2 ^ j : ℤ) : R) < Int.fract y * 2 ^ j := by rw [hfr]; linarith
  have hf1 : Int.fract y * 2 ^ j < ((m % 2 ^ j : ℤ) : R) + 1 := by rw [hfr]; linarith
  have hge : 2 ^ (j - 1) ≤ m % 2 ^ j → 1 / 2 < Int.fract y := by
    intro h
    have h' : (2 : R) ^ (j - 1) ≤ ((m % 2 ^ j : ℤ) : R) := by exact_mod_cast h
    have : 1 / 2 * (2 : R) ^ j < Int.fract y * 2 ^ j := by rw [eR] at *; linarith
    exact lt_of_mul_lt_mul_right this hp.le
  have hlt : 1 / 2 ≤ Int.fract y → 2 ^ (j - 1) ≤ m % 2 ^ j := by
    intro h
    by_contra hc
    rw [not_le] at hc
    have h' : ((m % 2 ^ j : ℤ) : R) + 1 ≤ 2 ^ (j - 1) := by exact_mod_cast hc
    have := mul_le_mul_of_nonneg_right h hp.le
    rw [eR] at *
    linarith
  refine ⟨hfl, ?_, ⟨hlt, fun h => (hge h).le⟩, ⟨fun h => hlt h.le, hge⟩⟩
  constructor
  · intro h
    rw [h, zero_mul] at hf0
    have : (0 : R) ≤ ((m % 2 ^ j : ℤ) : R) := by exact_mod_cast hm0
    linarith
  · exact False.elim

/-- Position of a number inside a left-closed cell of width 2^-j: floor, and the half test when `1 ≤ j`. -/
theorem cell_facts_closed {y : R} {m : ℤ} {j : ℕ} (h0 : (m : R) ≤ y * 2 ^ j) (h1 : y * 2 ^ j < m + 1) :
    ⌊y⌋ = m / 2 ^ j ∧ (1 ≤ j → (1 / 2 ≤ Int.fract y ↔ 2 ^ (j - 1) ≤ m % 2 ^ j)) := by
  have hp : (0 : R) < 2 ^ j := by positivity
  have hpz := two_pow_pos' j
  have hdm := Int.mul_ediv_add_emod m (2 ^ j)
  have hm0 := Int.emod_nonneg m (ne_of_gt hpz)
  have hm1 := Int.emod_lt_of_pos m hpz
  have hdmR : (2 : R) ^ j * ((m / 2 ^ j : ℤ) : R) + ((m % 2 ^ j : ℤ) : R) = m := by exact_mod_cast congrArg (Int.cast (R := R)) hdm
  have hfl : ⌊y⌋ = m / 2 ^ j := by
    rw [Int.floor_eq_iff]
    have hm0R : (0 : R) ≤ ((m % 2 ^ j : ℤ) : R) := by exact_mod_cast hm0
    have hm1R : ((m % 2 ^ j : ℤ) : R) + 1 ≤ 2 ^ j := by exact_mod_cast hm1
    constructor
    · have : ((m / 2 ^ j : ℤ) : R) * 2 ^ j ≤ y * 2 ^ j := by linarith
      exact le_of_mul_le_mul_right this hp
    · have : y * 2 ^ j < (((m / 2 ^ j : ℤ) : R) + 1) * 2 ^ j := by linarith
      exact lt_of_mul_lt_mul_right this hp.le
  refine ⟨hfl, fun hj => ?_⟩
  have e := two_pow_succ_pred hj
  have eR : (2 : R) ^ j = 2 * 2 ^ (j - 1) := by exact_mod_cast congrArg (Int.cast (R := R)) e
  have hfr : Int.fract y * 2 ^ j = y * 2 ^ j - 2 ^ j * ((m / 2 ^ j : ℤ) : R) := by
    unfold Int.fract; rw [hfl]; ring
  have hf0 : ((m % 2 ^ j : ℤ) : R) ≤ Int.fract y * 2 ^ j := by rw [hfr]; linarith
  have hf1 : Int.fract y * 2 ^ j < ((m % 2 ^ j : ℤ) : R) + 1 := by rw [hfr]; linarith
  constructor
  · intro h
    by_contra hc
    rw [not_le] at hc
    have h' : ((m % 2 ^ j : ℤ) : R) + 1 ≤ 2 ^ (j - 1) := by exact_mod_cast hc
    have := mul_le_mul_of_nonneg_right h hp.le
    rw [eR] at *
    linarith
  · intro h
    have h' : (2 : R) ^ (j - 1) ≤ ((m % 2 ^ j : ℤ) : R) := by exact_mod_cast h
    have : 1 / 2 * (2 : R) ^ j ≤ Int.fract y * 2 ^ j := by rw [eR] at *; linarith
    exact le_of_mul_le_mul_right this hp

variable {R' : Type*} [Field R'] [LinearOrder R'] [IsStrictOrderedRing R'] [FloorRing R']

theorem scale_eq (f : Fmt) {g : ℤ} (hg : f.F ≤ g) (v : R) :
    v * 2 ^ f.F * 2 ^ (g - f.F).toNat = v * 2 ^ g := by
  have : (2 : R) ^ (g - f.F).toNat = 2 ^ (g - f.F) := by
    rw [← zpow_natCast, Int.toNat_of_nonneg (by linarith)]
  rw [this, mul_assoc, ← zpow_add₀ (by norm_num : (2 : R) ≠ 0)]
  congr 2; ring

/-- **Sticky rounding.** Two numbers strictly inside the same cell of width `2^-g`, with `g` at least one bit finer
than the target, are converted alike in every rounding and overflow mode. -/
theorem cvt_cell {f : Fmt} {g m : ℤ} (hg : f.F + 1 ≤ g) {v : R} {w : R'}
    (hv0 : (m : R) < v * 2 ^ g) (hv1 : v * 2 ^ g < m + 1) (hw0 : (m : R') < w * 2 ^ g) (hw1 : w * 2 ^ g < m + 1) :
    f.cvt v = f.cvt w := by
  have hj : 1 ≤ (g - f.F).toNat := by omega
  rw [← scale_eq f (by linarith) v] at hv0 hv1
  rw [← scale_eq f (by linarith) w] at hw0 hw1
  obtain ⟨a1, a2, a3, a4⟩ := cell_facts hj hv0 hv1
  obtain ⟨b1, b2, b3, b4⟩ := cell_facts hj hw0 hw1
  unfold cvt cvtRaw
  rw [quant_congr f.Q (a1.trans b1.symm) (a2.trans b2.symm) (a3.trans b3.symm) (a4.trans b4.symm)]

/-- Truncation to a cell of width `2^-g` does not change the conversion in the modes that only look at a
left-closed cell. -/
theorem cvt_cell_closed {f : Fmt} {g m : ℤ} {v : R} {w : R'}
    (hq : (f.Q = .TRN ∧ f.F ≤ g) ∨ (f.Q = .RND ∧ f.F + 1 ≤ g) ∨ (f.Q = .TRN_ZERO ∧ f.F ≤ g ∧ 0 ≤ v) ∨
      (f.Q = .RND_INF ∧ f.F + 1 ≤ g ∧ 0 ≤ v))
    (hv0 : (m : R) ≤ v * 2 ^ g) (hv1 : v * 2 ^ g < m + 1) (hw0 : (m : R') ≤ w * 2 ^ g) (hw1 : w * 2 ^ g < m + 1) :
    f.cvt v = f.cvt w := by
  have hg : f.F ≤ g := by rcases hq with h | h | h | h <;> omega
  rw [← scale_eq f (by linarith) v] at hv0 hv1
  rw [← scale_eq f (by linarith) w] at hw0 hw1
  obtain ⟨a1, a3⟩ := cell_facts_closed hv0 hv1
  obtain ⟨b1, b3⟩ := cell_facts_closed hw0 hw1
  unfold cvt cvtRaw
  congr 2
  rcases hq with h | h | h | h
  · have hfl := a1.trans b1.symm
    rw [h.1]; simp only [quant]; exact hfl
  · have hj : 1 ≤ (g - f.F).toNat := by omega
    exact quant_congr_cell _ (a1.trans b1.symm) ((a3 hj).trans (b3 hj).symm) (by simp [h.1])
  · have hfl := a1.trans b1.symm
    have hv : ¬ v * 2 ^ f.F < 0 := not_lt.mpr (mul_nonneg h.2.2 (two_zpow_pos _).le)
    have hw : ¬ w * 2 ^ f.F < 0 := by
      rw [neg_iff_floor_neg, ← hfl, ← neg_iff_floor_neg]; exact hv
    rw [h.1]; simp only [quant, hv, hw, if_false]; exact hfl
  · have hj : 1 ≤ (g - f.F).toNat := by omega
    exact quant_congr_cell _ (a1.trans b1.symm) ((a3 hj).trans (b3 hj).symm)
      (by simp [h.1]; exact mul_nonneg h.2.2 (two_zpow_pos _).le)

/-- Both above the range: same saturated result. -/
theorem cvt_over {f : Fmt} (ho : f.O ≠ .WRAP) {v : R} {w : R'}
    (hv : ((maxRaw f.W f.S + 1 : ℤ) : R) ≤ v * 2 ^ f.F) (hw : ((maxRaw f.W f.S + 1 : ℤ) : R') ≤ w * 2 ^ f.F) :
    f.cvt v = f.cvt w := by
  unfold cvt cvtRaw
  rw [ovf_over ho (m := quant f.Q (v * 2 ^ f.F)) (n := quant f.Q (w * 2 ^ f.F))]
  · have := le_quant (q := f.Q) hv; linarith
  · have := le_quant (q := f.Q) hw; linarith

/-- Both below the range: same saturated result. -/
theorem cvt_under {f : Fmt} (ho : f.O ≠ .WRAP) {v : R} {w : R'}
    (hv : v * 2 ^ f.F ≤ ((minRaw f.W f.S - 1 : ℤ) : R)) (hw : w * 2 ^ f.F ≤ ((minRaw f.W f.S - 1 : ℤ) : R')) :
    f.cvt v = f.cvt w := by
  unfold cvt cvtRaw
  rw [ovf_under ho (m := quant f.Q (v * 2 ^ f.F)) (n := quant f.Q (w * 2 ^ f.F))]
  · have := quant_le (q := f.Q) hv; linarith
  · have := quant_le (q := f.Q) hw; linarith

/-- Wrapping conversions of numbers that differ by a multiple of the range (and agree in sign, when the rounding
mode looks at it). -/
theorem cvt_wrap_add {f : Fmt} (hW : 1 ≤ f.W) (ho : f.O = .WRAP) {v w : R} (k : ℤ)
    (h : w * 2 ^ f.F = v * 2 ^ f.F + ((k * 2 ^ f.W : ℤ) : R))
    (hs : f.Q.signFree = true ∨ (v < 0 ↔ w < 0)) : f.cvt v = f.cvt w := by
  unfold cvt cvtRaw
  have he : (k * 2 ^ f.W) % 2 = 0 := by
    obtain ⟨n, hn⟩ : ∃ n, f.W = n + 1 := ⟨f.W - 1, by omega⟩
    rw [hn, pow_succ, ← mul_assoc]; simp
  have hp : (0 : R) < 2 ^ f.F := two_zpow_pos _
  have hneg : ∀ z : R, z * 2 ^ f.F < 0 ↔ z < 0 := fun z => by
    constructor
    · intro h; by_contra hc; exact absurd h (not_lt.mpr (mul_nonneg (not_lt.mp hc) hp.le))
    · intro h; exact mul_neg_of_neg_of_pos h hp
  have hq : quant f.Q (w * 2 ^ f.F) = quant f.Q (v * 2 ^ f.F) + k * 2 ^ f.W := by
    rw [h]
    rcases hs with hs | hs
    · exact quant_add_int' hs _ _ he
    · apply quant_add_int _ _ _ he
      rw [← h, hneg, hneg]; exact hs
  rw [hq, ho]
  congr 1
  apply ovf_wrap_congr
  have : (k * 2 ^ f.W : ℤ) ≡ 0 [ZMOD 2 ^ f.W] := (Int.modEq_zero_iff_dvd).mpr (Dvd.intro_left k rfl)
  simpa using (Int.ModEq.add_left (quant f.Q (v * 2 ^ f.F)) this).symm

end

end Fmt
end Ac
