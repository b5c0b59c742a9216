import Verif.Proof.Normalize

/-! # C12: ac_normalize is lossless and in range -/

namespace Props.Normalize
open Ac Model.Bits Model.Normalize Proof.Normalize

/-- The condition under which the property holds: under AC_SAT_SYM, a signed input must not be the negative of a power
of two (in units of its last place). -/
def NotSymPow (f : Fmt) (X : ℤ) : Prop := f.O = .SAT_SYM → f.S = true → ∀ k : ℕ, X ≠ -2 ^ k

theorem normalize_sym {f : Fmt} (hW : 1 ≤ f.W) {X : ℤ} (h : NotSymPow f X) {ls : ℕ} (hls : ls ≤ f.W - f.S.toNat) :
    f.O ≠ .SAT_SYM ∨ f.S = false ∨ X * 2 ^ ls ≠ minRaw f.W f.S := by
  by_cases h1 : f.O = .SAT_SYM
  · right
    cases hS : f.S
    · exact Or.inl rfl
    · right
      intro hc
      apply h h1 hS (f.W - 1 - ls)
      rw [hS] at hls
      simp only [Bool.toNat_true] at hls
      simp only [minRaw, if_true] at hc
      have hp := two_pow_pos' ls
      have e : (2 : ℤ) ^ (f.W - 1) = 2 ^ (f.W - 1 - ls) * 2 ^ ls := by
        rw [← pow_add]; congr 1; omega
      rw [e, ← neg_mul] at hc
      exact mul_right_cancel₀ (ne_of_gt hp) hc
  · exact Or.inl h1

theorem leadingSignU_le (K m : ℕ) : leadingSignU K m ≤ K := by
  unfold leadingSignU; split_ifs <;> omega

/-- The normalized value and exponent in closed form. -/
theorem normalize_eq {f : Fmt} (hW : 1 ≤ f.W) {X : ℤ} (hX : minRaw f.W f.S ≤ X ∧ X ≤ maxRaw f.W f.S)
    (hsym : NotSymPow f X) :
    let ls := leadingSignU (f.W - f.S.toNat) (mag X)
    (normalize f X).1 = (nfmt f).val (X * 2 ^ ls) ∧ -1 ≤ (normalize f X).1 ∧ (normalize f X).1 < 1 := by
  intro ls
  have hm := mag_lt hX
  obtain ⟨s1, s2, s3, s4, s5⟩ := shift_summary hW hX hm (shift_facts hm).1
  have e : (normalize f X).1 = (nfmt f).val (X * 2 ^ ls) := by
    show (nfmt f).cvt ((nfmt f).val (wrap f.W f.S (X * 2 ^ ls))) = _
    rw [s1]
    exact cvt_exact hW s2 s3 (normalize_sym hW hsym (leadingSignU_le _ _))
  rw [e]
  exact ⟨rfl, s4, s5⟩

/-- **C12**, losslessness. What is missing from the full statement: AC_SAT_SYM with an input that is the negative of a
power of two, for which it is false (`C12_lossless_wrong`). -/
theorem C12_lossless_partial {f : Fmt} (hW : 1 ≤ f.W) {X : ℤ} (hX : minRaw f.W f.S ≤ X ∧ X ≤ maxRaw f.W f.S)
    (hsym : NotSymPow f X) :
    f.val X = (normalize f X).1 * 2 ^ (normalize f X).2 := by
  obtain ⟨e, -, -⟩ := normalize_eq hW hX hsym
  rw [e]
  by_cases h0 : X = 0
  · subst h0; simp [Fmt.val]
  · have : (normalize f X).2 = f.I - nfmt.S f - leadingSignU (f.W - f.S.toNat) (mag X) := by
      simp [normalize, h0, leadingSign]
    rw [this, val_scale _ _ _ hW]

/-- **C12**, range for nonzero input (same exclusion). -/
theorem C12_range_partial {f : Fmt} (hW : 1 ≤ f.W) {X : ℤ} (hX : minRaw f.W f.S ≤ X ∧ X ≤ maxRaw f.W f.S)
    (hsym : NotSymPow f X) :
    (0 < X → 1 / 2 ≤ (normalize f X).1 ∧ (normalize f X).1 < 1) ∧
    (X < 0 → -1 ≤ (normalize f X).1 ∧ (normalize f X).1 < -1 / 2) := by
  obtain ⟨e, r0, r1⟩ := normalize_eq hW hX hsym
  have hm := mag_lt hX
  obtain ⟨f1, f2⟩ := shift_facts hm
  obtain ⟨-, -, b3, b4, -⟩ := val_bounds hW (X * 2 ^ leadingSignU (f.W - f.S.toNat) (mag X))
  have hp := two_pow_pos' (leadingSignU (f.W - f.S.toNat) (mag X))
  constructor
  · intro hx
    refine ⟨?_, r1⟩
    rw [e, ← b3]
    have := mag_nonneg hx.le
    have := f2 (by omega)
    rwa [mag_nonneg hx.le] at this
  · intro hx
    refine ⟨r0, ?_⟩
    rw [e, ← b4]
    by_cases hm0 : mag X = 0
    · have hX1 : X = -1 := by have := mag_neg hx; omega
      have hl : leadingSignU (f.W - f.S.toNat) (mag X) = f.W - f.S.toNat := by simp [leadingSignU, hm0]
      have := two_pow_pos' (f.W - f.S.toNat)
      rw [hl, hX1]; linarith
    · have := f2 hm0
      rw [mag_neg hx] at this
      rw [sub_mul, one_mul] at this
      linarith

/-- **C12**, zero input. -/
theorem C12_zero (f : Fmt) (hW : 1 ≤ f.W) : normalize f 0 = (0, 0) := by
  have hX : minRaw f.W f.S ≤ 0 ∧ 0 ≤ maxRaw f.W f.S := ⟨minRaw_nonpos _ _, maxRaw_nonneg _ _⟩
  obtain ⟨e, -, -⟩ := normalize_eq hW hX (X := 0) (fun _ _ k => by have := two_pow_pos' k; omega)
  have h2 : (normalize f 0).2 = 0 := by simp [normalize]
  ext
  · rw [e]; simp [Fmt.val]
  · exact h2

/-- A signed saturating format and an ordinary negative input meet the hypotheses. -/
example : NotSymPow ⟨8, 4, true, .TRN, .SAT⟩ (-37) ∧ (minRaw 8 true ≤ -37 ∧ (-37 : ℤ) ≤ maxRaw 8 true) ∧
    normalize ⟨8, 4, true, .TRN, .SAT⟩ (-37) = (-37 / 64, 2) :=
  ⟨fun h => by simp at h, by decide, by decide +kernel⟩

/-- So does AC_SAT_SYM away from powers of two. -/
example : NotSymPow ⟨8, 4, true, .TRN, .SAT_SYM⟩ (-3) := by
  intro _ _ k h
  have h3 : (2 : ℤ) ^ k = 3 := by omega
  rcases Nat.eq_zero_or_pos k with rfl | hk
  · norm_num at h3
  · have := two_pow_succ_pred hk; omega

/-- **C12 is false** under symmetric saturation for every negative power of two, whatever the width: the normalized
value would have to be -1, which the output type does not hold. -/
theorem C12_lossless_wrong {f : Fmt} (hW : 1 ≤ f.W) (hS : f.S = true) (hO : f.O = .SAT_SYM) {k : ℕ}
    (hk : k ≤ f.W - 1) : f.val (-2 ^ k) ≠ (normalize f (-2 ^ k)).1 * 2 ^ (normalize f (-2 ^ k)).2 := by
  have hp := two_pow_pos' k
  have hpw := two_pow_pos' (f.W - 1)
  have hle : (2 : ℤ) ^ k ≤ 2 ^ (f.W - 1) := pow_le_pow_right₀ (by norm_num) hk
  have hX : minRaw f.W f.S ≤ -2 ^ k ∧ -2 ^ k ≤ maxRaw f.W f.S := by
    simp only [hS, minRaw, maxRaw, if_true]; constructor <;> linarith
  have hm := mag_lt hX
  obtain ⟨s1, s2, s3, -, -⟩ := shift_summary hW hX hm (shift_facts hm).1
  set ls := leadingSignU (f.W - f.S.toNat) (mag (-2 ^ k)) with hls
  have hlsk : ls = f.W - 1 - k := by
    have hmag := mag_neg (show (-2 ^ k : ℤ) < 0 by linarith)
    have hmag' : mag (-2 ^ k) = 2 ^ k - 1 := by
      have h1 : ((2 ^ k - 1 : ℕ) : ℤ) = 2 ^ k - 1 := by rw [Nat.cast_sub Nat.one_le_two_pow]; norm_num
      have : ((mag (-2 ^ k) : ℕ) : ℤ) = ((2 ^ k - 1 : ℕ) : ℤ) := by rw [hmag, h1]; ring
      exact_mod_cast this
    rw [hls, hmag', hS]
    simp only [Bool.toNat_true, leadingSignU]
    rcases Nat.eq_zero_or_pos k with rfl | hk0
    · simp
    · obtain ⟨j, rfl⟩ : ∃ j, k = j + 1 := ⟨k - 1, by omega⟩
      have hne : 2 ^ (j + 1) - 1 ≠ 0 := by have := Nat.one_lt_two_pow (n := j + 1) (by omega); omega
      rw [if_neg hne]
      have : Nat.log2 (2 ^ (j + 1) - 1) = j := by
        rw [Nat.log2_eq_iff hne]
        have := Nat.two_pow_pos j
        rw [pow_succ]; omega
      rw [this]; omega
  have ht : (-2 ^ k : ℤ) * 2 ^ ls = -2 ^ (f.W - 1) := by
    rw [neg_mul, ← pow_add, hlsk]; congr 2; omega
  have hne : (-2 ^ k : ℤ) ≠ 0 := by linarith
  have e1 : (normalize f (-2 ^ k)).1 = (nfmt f).val (-(2 ^ (f.W - 1) - 1)) := by
    show (nfmt f).cvt ((nfmt f).val (wrap f.W f.S (-2 ^ k * 2 ^ ls))) = _
    rw [s1, ht]
    unfold Fmt.cvt Fmt.cvtRaw
    rw [Fmt.val_mul_pow, quant_intCast]
    congr 1
    show ovf f.W f.S f.O _ = _
    rw [hO, hS]
    simp only [ovf, maxRaw, if_true]
    rw [if_neg (by linarith), if_pos (by linarith)]
  have e2 : (normalize f (-2 ^ k)).2 = f.I - nfmt.S f - ls := by
    simp only [normalize, ne_eq, hne, not_false_eq_true, if_true]; rfl
  rw [e1, e2, ← val_scale f (-2 ^ k) ls hW, ht]
  intro hc
  have hz : (2 : ℚ) ^ (f.I - nfmt.S f - ls) ≠ 0 := ne_of_gt (Fmt.two_zpow_pos _)
  have := Fmt.val_inj.mp (mul_right_cancel₀ hz hc)
  linarith

example : normalize ⟨8, 4, true, .TRN, .SAT_SYM⟩ (-4) = (-127 / 128, -2) ∧ (⟨8, 4, true, .TRN, .SAT_SYM⟩ : Fmt).val (-4) =
    -1 / 4 := by decide +kernel

/-- **C12**, complex version: a common exponent, both parts lossless and in [-1,1), and the part of larger magnitude
has magnitude at least one half (same exclusion for AC_SAT_SYM, on each part). -/
theorem C12_complex_partial {f : Fmt} (hW : 1 ≤ f.W) {R I : ℤ} (hR : minRaw f.W f.S ≤ R ∧ R ≤ maxRaw f.W f.S)
    (hI : minRaw f.W f.S ≤ I ∧ I ≤ maxRaw f.W f.S) (hsR : NotSymPow f R) (hsI : NotSymPow f I) :
    let n := normalizeC f R I
    f.val R = n.1 * 2 ^ n.2.2 ∧ f.val I = n.2.1 * 2 ^ n.2.2 ∧
    (-1 ≤ n.1 ∧ n.1 < 1) ∧ (-1 ≤ n.2.1 ∧ n.2.1 < 1) ∧
    (R = 0 ∧ I = 0 → n = (0, 0, 0)) ∧
    (R ≠ 0 ∨ I ≠ 0 → (|f.val I| ≤ |f.val R| → 1 / 2 ≤ |n.1|) ∧ (|f.val R| ≤ |f.val I| → 1 / 2 ≤ |n.2.1|)) := by
  intro n
  have hmR := mag_lt hR
  have hmI := mag_lt hI
  have hor : mag R ||| mag I < 2 ^ (f.W - f.S.toNat) := Nat.or_lt_two_pow hmR hmI
  obtain ⟨o1, o2, o3⟩ := or_facts hmR hmI
  -- the two ways of forming the indicator word agree
  have hind : mag (if f.S then ((mag R ||| mag I : ℕ) : ℤ) else ((R.toNat ||| I.toNat : ℕ) : ℤ)) = mag R ||| mag I := by
    cases hS : f.S
    · have hr0 : 0 ≤ R := by simpa [hS, minRaw] using hR.1
      have hi0 : 0 ≤ I := by simpa [hS, minRaw] using hI.1
      have a : mag R = R.toNat := by have := mag_nonneg hr0; omega
      have b : mag I = I.toNat := by have := mag_nonneg hi0; omega
      have := mag_nonneg (x := ((R.toNat ||| I.toNat : ℕ) : ℤ)) (by positivity)
      rw [a, b]; simp only [Bool.false_eq_true, if_false]; exact_mod_cast this
    · have := mag_nonneg (x := ((mag R ||| mag I : ℕ) : ℤ)) (by positivity)
      simp only [if_true]; exact_mod_cast this
  set ls := leadingSignU (f.W - f.S.toNat) (mag R ||| mag I) with hls
  obtain ⟨r1, r2, r3, r4, r5⟩ := shift_summary hW hR hor o1
  obtain ⟨i1, i2, i3, i4, i5⟩ := shift_summary hW hI hor o2
  have eR : n.1 = (nfmt f).val (R * 2 ^ ls) := by
    show (nfmt f).cvt ((nfmt f).val (wrap f.W f.S (R * 2 ^ leadingSign f.W f.S _))) = _
    unfold leadingSign
    rw [hind, ← hls, r1]
    exact cvt_exact hW r2 r3 (normalize_sym hW hsR (leadingSignU_le _ _))
  have eI : n.2.1 = (nfmt f).val (I * 2 ^ ls) := by
    show (nfmt f).cvt ((nfmt f).val (wrap f.W f.S (I * 2 ^ leadingSign f.W f.S _))) = _
    unfold leadingSign
    rw [hind, ← hls, i1]
    exact cvt_exact hW i2 i3 (normalize_sym hW hsI (leadingSignU_le _ _))
  have eE : n.2.2 = if R ≠ 0 ∨ I ≠ 0 then f.I - nfmt.S f - ls else 0 := by
    show (if R ≠ 0 ∨ I ≠ 0 then f.I - nfmt.S f - leadingSign f.W f.S _ else 0) = _
    unfold leadingSign
    rw [hind]
  have hz : R = 0 ∧ I = 0 → n = (0, 0, 0) := by
    rintro ⟨h1, h2⟩
    ext
    · rw [eR, h1]; simp [Fmt.val]
    · rw [eI, h2]; simp [Fmt.val]
    · rw [eE, h1, h2]; simp
  have lossR : f.val R = n.1 * 2 ^ n.2.2 := by
    by_cases hne : R ≠ 0 ∨ I ≠ 0
    · rw [eR, eE, if_pos hne, val_scale f R ls hW]
    · simp only [ne_eq, not_or, not_not] at hne
      rw [hz hne, hne.1]; simp [Fmt.val]
  have lossI : f.val I = n.2.1 * 2 ^ n.2.2 := by
    by_cases hne : R ≠ 0 ∨ I ≠ 0
    · rw [eI, eE, if_pos hne, val_scale f I ls hW]
    · simp only [ne_eq, not_or, not_not] at hne
      rw [hz hne, hne.2]; simp [Fmt.val]
  have hE : (0 : ℚ) < 2 ^ n.2.2 := Fmt.two_zpow_pos _
  have big : ∀ X : ℤ, (minRaw f.W f.S ≤ X ∧ X ≤ maxRaw f.W f.S) → X ≠ 0 → 2 ^ (f.W - f.S.toNat) ≤ 2 * ((mag X : ℤ) * 2 ^ ls) →
      1 / 2 ≤ |(nfmt f).val (X * 2 ^ ls)| := by
    intro X hX hX0 h
    obtain ⟨-, -, b3, -, b5⟩ := val_bounds hW (X * 2 ^ ls)
    have hp := two_pow_pos' ls
    rcases lt_or_gt_of_ne hX0 with hx | hx
    · rw [mag_neg hx, sub_mul, one_mul] at h
      have := b5.mp (by linarith)
      rw [abs_of_nonpos (by linarith)]; linarith
    · rw [mag_nonneg hx.le] at h
      exact le_trans (b3.mp h) (le_abs_self _)
  refine ⟨lossR, lossI, ?_, ?_, hz, ?_⟩
  · rw [eR]; exact ⟨r4, r5⟩
  · rw [eI]; exact ⟨i4, i5⟩
  · intro hne
    -- one of the parts is at least one half in magnitude
    have hone : 1 / 2 ≤ |n.1| ∨ 1 / 2 ≤ |n.2.1| := by
      by_cases hm0 : mag R ≠ 0 ∨ mag I ≠ 0
      · rcases o3 hm0 with h | h
        · left; rw [eR]
          refine big R hR ?_ h
          rintro rfl
          have := two_pow_pos' (f.W - f.S.toNat)
          simp [mag] at h; linarith
        · right; rw [eI]
          refine big I hI ?_ h
          rintro rfl
          have := two_pow_pos' (f.W - f.S.toNat)
          simp [mag] at h; linarith
      · simp only [ne_eq, not_or, not_not] at hm0
        have hl : ls = f.W - f.S.toNat := by rw [hls, hm0.1, hm0.2]; simp [leadingSignU]
        have small : ∀ X : ℤ, mag X = 0 → X ≠ 0 → 1 / 2 ≤ |(nfmt f).val (X * 2 ^ ls)| := by
          intro X h hx
          have hX1 : X = -1 := by
            rcases lt_or_ge X 0 with h' | h'
            · have := mag_neg h'; omega
            · have := mag_nonneg h'; omega
          obtain ⟨-, -, -, -, b5⟩ := val_bounds hW (X * 2 ^ ls)
          have := two_pow_pos' (f.W - f.S.toNat)
          have := b5.mp (by rw [hX1, hl]; linarith)
          rw [abs_of_nonpos (by linarith)]; linarith
        rcases hne with h | h
        · left; rw [eR]; exact small R hm0.1 h
        · right; rw [eI]; exact small I hm0.2 h
    have hcmp : |f.val I| ≤ |f.val R| ↔ |n.2.1| ≤ |n.1| := by
      rw [lossR, lossI, abs_mul, abs_mul, abs_of_pos hE]
      exact mul_le_mul_iff_of_pos_right hE
    have hcmp' : |f.val R| ≤ |f.val I| ↔ |n.1| ≤ |n.2.1| := by
      rw [lossR, lossI, abs_mul, abs_mul, abs_of_pos hE]
      exact mul_le_mul_iff_of_pos_right hE
    constructor
    · intro h; rw [hcmp] at h
      rcases hone with h' | h' <;> linarith
    · intro h; rw [hcmp'] at h
      rcases hone with h' | h' <;> linarith

example : normalizeC ⟨8, 4, true, .TRN, .SAT⟩ (-37) 5 = (-37 / 64, 5 / 64, 2) := by decide +kernel

end Props.Normalize
