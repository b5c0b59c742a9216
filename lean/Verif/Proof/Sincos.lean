import Verif.Proof.SincosReal
import Verif.Ac.Arith
import Verif.Proof.Pwl
import Verif.Proof.DivFixed
import Mathlib.Tactic.IntervalCases
import Mathlib.Analysis.SpecialFunctions.Trigonometric.Bounds
import Mathlib.Analysis.Real.Pi.Bounds

namespace Proof.Sincos
open Ac Model.Sincos

/-- What is read for an octant `o` and an index `li`: sign, column (0 cosine, 1 sine, 2 the constant) and entry. -/
abbrev Key := Bool × ℕ × ℕ

/-- The entry of the table. -/
def tidx (o li : ℕ) : ℕ := if o % 2 = 1 then 512 - li else li

def keyS (o li : ℕ) : Key :=
  if o % 2 = 1 ∧ li = 0 then (decide (o = 5 ∨ o = 7), 2, 0)
  else if o = 0 ∨ o = 3 then (false, 1, tidx o li) else if o = 2 ∨ o = 1 then (false, 0, tidx o li)
  else if o = 7 ∨ o = 4 then (true, 1, tidx o li) else (true, 0, tidx o li)

def keyC (o li : ℕ) : Key :=
  if o % 2 = 1 ∧ li = 0 then (decide (o = 3 ∨ o = 5), 2, 0)
  else if o = 6 ∨ o = 1 then (false, 1, tidx o li) else if o = 3 ∨ o = 4 then (true, 0, tidx o li)
  else if o = 2 ∨ o = 5 then (true, 1, tidx o li) else (false, 0, tidx o li)

def kb (t : Fmt) (k : Key) : ℚ :=
  if k.2.1 = 2 then half else if k.2.1 = 0 then (lutFmt t).cvt (dbl (literals.getD k.2.2 (0, 0)).1)
  else (lutFmt t).cvt (dbl (literals.getD k.2.2 (0, 0)).2)

def kv (t : Fmt) (k : Key) : ℚ := if k.1 then -kb t k else kb t k

theorem literals_length : literals.length = 512 := by decide +kernel

theorem entry_eq (t : Fmt) {k : ℕ} (hk : k < 512) :
    entry t k = some ((lutFmt t).cvt (dbl (literals.getD k (0, 0)).1), (lutFmt t).cvt (dbl (literals.getD k (0, 0)).2)) := by
  unfold entry
  have h : k < literals.length := by rw [literals_length]; exact hk
  rw [List.getD_eq_getElem?_getD, List.getElem?_eq_getElem h]
  rfl

/-- The index of the header. -/
theorem lutIndex_facts {n : ℕ} (hn : 3 ≤ n) {p : ℤ} (h0 : 0 ≤ p) (h1 : p < 2 ^ n) :
    0 ≤ p / 2 ^ (n - 3) ∧ p / 2 ^ (n - 3) ≤ 7 ∧ 0 ≤ lutIndex n p ∧ lutIndex n p ≤ 511 ∧
    (n ≤ 12 → 512 * (p / 2 ^ (n - 3)) + lutIndex n p = p * 2 ^ (12 - n)) ∧
    (12 < n → |(512 * (p / 2 ^ (n - 3)) + lutIndex n p) * 2 ^ (n - 12) - p| ≤ 2 ^ (n - 12)) ∧
    (lutIndex n p = 0 ↔ p = p / 2 ^ (n - 3) * 2 ^ (n - 3)) := by
  have hM : (0 : ℤ) < 2 ^ (n - 3) := by positivity
  have hMn : (2 : ℤ) ^ n = 8 * 2 ^ (n - 3) := by
    rw [show n = (n - 3) + 3 by omega, pow_add]; simp; ring
  have ho0 : 0 ≤ p / 2 ^ (n - 3) := Int.ediv_nonneg h0 hM.le
  have ho7 : p / 2 ^ (n - 3) ≤ 7 := by
    have : p / 2 ^ (n - 3) < 8 := Int.ediv_lt_of_lt_mul hM (by rw [← hMn]; exact h1)
    omega
  refine ⟨ho0, ho7, ?_⟩
  have hdm := Int.mul_ediv_add_emod p (2 ^ (n - 3))
  have hr0 := Int.emod_nonneg p hM.ne'
  have hr1 := Int.emod_lt_of_pos p hM
  set o := p / 2 ^ (n - 3) with hod
  unfold lutIndex index1
  by_cases h4 : 4 ≤ n
  · rw [show max (n - 3) 1 = n - 3 by omega]
    set i1 := p % 2 ^ (n - 3) with hi1
    by_cases h12 : n ≤ 12
    · simp only [h4, h12, and_self, if_true]
      have e : (2 : ℤ) ^ (n - 3) * 2 ^ (12 - n) = 512 := by
        rw [← pow_add, show n - 3 + (12 - n) = 9 by omega]; norm_num
      have hK : (0 : ℤ) < 2 ^ (12 - n) := by positivity
      have hb : i1 * 2 ^ (12 - n) < 512 := by rw [← e]; exact mul_lt_mul_of_pos_right hr1 hK
      have hb0 : 0 ≤ i1 * 2 ^ (12 - n) := mul_nonneg hr0 hK.le
      rw [wrapU_of_lt hb0 (by norm_num; exact hb)]
      refine ⟨hb0, by omega, fun _ => ?_, fun h => absurd h12 (by omega), ?_⟩
      · rw [← e, ← hdm]; ring
      · rw [mul_eq_zero]
        constructor
        · rintro (h | h)
          · rw [h, add_zero] at hdm; rw [mul_comm]; exact hdm.symm
          · exact absurd h hK.ne'
        · intro h; left; rw [mul_comm] at h; omega
    · simp only [show ¬(4 ≤ n ∧ n ≤ 12) by omega, show 12 < n by omega, if_true, if_false]
      obtain ⟨j, rfl⟩ : ∃ j, n = j + 13 := ⟨n - 13, by omega⟩
      rw [show j + 13 - 12 = j + 1 by omega, show j + 13 - 13 = j by omega] at *
      rw [show j + 13 - 3 = j + 10 by omega] at *
      set h : ℤ := 2 ^ j with hh
      have hh0 : 0 < h := by rw [hh]; positivity
      have hd : (2 : ℤ) ^ (j + 1) = 2 * h := by rw [pow_succ]; ring
      have hM2 : (2 : ℤ) ^ (j + 10) = 1024 * h := by rw [pow_add]; norm_num; ring
      have hdq : (2 : ℚ) ^ (j + 1) = 2 * (h : ℚ) := by rw [hh, pow_succ]; push_cast; ring
      rw [hd, hdq]
      rw [hM2] at hdm hr1 ⊢
      have q1 := Int.mul_ediv_add_emod i1 (2 * h)
      have q2 := Int.emod_nonneg i1 (show 2 * h ≠ 0 by omega)
      have q3 := Int.emod_lt_of_pos i1 (show 0 < 2 * h by omega)
      set q := i1 / (2 * h) with hq
      set r := i1 % (2 * h) with hr
      have qn : 0 ≤ q := Int.ediv_nonneg hr0 (by omega)
      have qm : q ≤ 511 := by
        have : q < 512 := Int.ediv_lt_of_lt_mul (by omega) (by linarith)
        omega
      have hcond : ((i1 : ℚ) / (2 * (h : ℚ)) > 511 + 1 / 2) ↔ 1023 * h < i1 := by
        have hhq : (0 : ℚ) < 2 * h := by have : (0 : ℚ) < h := by exact_mod_cast hh0
                                         linarith
        rw [gt_iff_lt, lt_div_iff₀ hhq]
        constructor
        · intro hc
          have : ((1023 * h : ℤ) : ℚ) < i1 := by push_cast; linarith
          exact_mod_cast this
        · intro hc
          have : ((1023 * h : ℤ) : ℚ) < i1 := by exact_mod_cast hc
          push_cast at this; linarith
      rw [wrapU_of_lt qn (by norm_num; omega)]
      simp only [hcond]
      have hmain : ∀ L : ℤ, 0 ≤ L → L ≤ 511 → |L * (2 * h) - i1| ≤ 2 * h → (L = 0 ↔ i1 = 0) →
          0 ≤ L ∧ L ≤ 511 ∧ (j + 13 ≤ 12 → 512 * o + L = p * 2 ^ (12 - (j + 13))) ∧
          (True → |(512 * o + L) * (2 * h) - p| ≤ 2 * h) ∧ (L = 0 ↔ p = o * (1024 * h)) := by
        intro L l0 l1 l2 l3
        refine ⟨l0, l1, fun hc => by omega, fun _ => ?_, ?_⟩
        · rw [show (512 * o + L) * (2 * h) - p = L * (2 * h) - i1 by linarith]; exact l2
        · rw [l3]; constructor <;> intro hx <;> linarith
      by_cases c1 : i1 ≤ h ∧ i1 ≠ 0
      · rw [if_pos c1]
        refine hmain 1 (by norm_num) (by norm_num) ?_ (by omega)
        rw [abs_le]; constructor <;> omega
      · rw [if_neg c1]
        by_cases c2 : 1023 * h < i1
        · rw [if_pos c2]
          refine hmain 511 (by norm_num) (by norm_num) ?_ ⟨by norm_num, fun hx => by omega⟩
          rw [abs_le]; constructor <;> omega
        · rw [if_neg c2]
          by_cases c3 : r > h
          · rw [if_pos c3]
            have hq5 : q ≤ 510 := by
              by_contra hc
              have : q = 511 := by omega
              rw [this] at q1
              omega
            rw [wrapU_of_lt (by omega) (by norm_num; omega)]
            refine hmain (q + 1) (by omega) (by omega) ?_ ⟨by omega, fun hx => ?_⟩
            · rw [show (q + 1) * (2 * h) - i1 = 2 * h - r by linarith, abs_le]; constructor <;> omega
            · exfalso
              rw [hx] at hr; simp at hr; omega
          · rw [if_neg c3]
            refine hmain q qn qm ?_ ⟨fun hx => ?_, fun hx => ?_⟩
            · rw [show q * (2 * h) - i1 = -r by linarith, abs_le]; constructor <;> omega
            · rw [hx, mul_zero, zero_add] at q1
              by_contra hc
              exact c1 ⟨by omega, hc⟩
            · rw [hq, hx, Int.zero_ediv]
  · have h3 : n = 3 := by omega
    subst h3
    simp only [show ¬(4 ≤ 3 ∧ 3 ≤ 12) by omega, show ¬(12 < 3) by omega, if_false]
    norm_num at *
    omega

theorem keys_cases {n : ℕ} (hn : 3 ≤ n) {p : ℤ} (h0 : 0 ≤ p) (h1 : p < 2 ^ n) (j : ℤ) :
    ((p : ℚ) / 2 ^ n = j / 8) ↔ (p / 2 ^ (n - 3) = j ∧ lutIndex n p = 0) := by
  obtain ⟨-, -, -, -, -, -, h⟩ := lutIndex_facts hn h0 h1
  have hM : (0 : ℤ) < 2 ^ (n - 3) := by positivity
  have hMn : (2 : ℚ) ^ n = 8 * 2 ^ (n - 3) := by
    rw [show n = (n - 3) + 3 by omega, pow_add]; simp; ring
  have hMq : (0 : ℚ) < 2 ^ (n - 3) := by positivity
  rw [h, hMn]
  have e : ((p : ℚ) / (8 * 2 ^ (n - 3)) = j / 8) ↔ p = j * 2 ^ (n - 3) := by
    rw [div_eq_div_iff (by positivity) (by norm_num)]
    constructor
    · intro hx
      have : (p : ℚ) = ((j * 2 ^ (n - 3) : ℤ) : ℚ) := by push_cast; linarith
      exact_mod_cast this
    · intro hx
      rw [hx]; push_cast; ring
  rw [e]
  constructor
  · intro hx
    have : p / 2 ^ (n - 3) = j := by rw [hx]; exact Int.mul_ediv_cancel _ hM.ne'
    exact ⟨this, by rw [this]; exact hx⟩
  · rintro ⟨hx, hy⟩
    rw [hx] at hy; exact hy

theorem cvt_one {t : Fmt} (hI : 1 ≤ t.I) (hF : t.I ≤ t.W) : (lutFmt t).cvt (1 : ℚ) = 1 := by
  refine Fmt.cvt_rep (f := lutFmt t) (by simp [lutFmt]; omega) (by simp [lutFmt]) ?_
  rw [Fmt.rep_iff (by simp [lutFmt]; omega)]
  constructor
  · simp only [Fmt.Bnd, lutFmt, Bool.false_eq_true, if_false]
    refine ⟨by norm_num, ?_⟩
    have := Fmt.z_le hI
    rw [zpow_one] at this
    linarith
  · obtain ⟨n, hn⟩ : ∃ n : ℕ, (lutFmt t).F = n := ⟨(lutFmt t).F.toNat, by
      have : 0 ≤ (lutFmt t).F := by simp [lutFmt, Fmt.F]; omega
      omega⟩
    refine ⟨2 ^ n, ?_⟩
    unfold Fmt.val
    rw [hn, zpow_neg, zpow_natCast]; push_cast
    field_simp

theorem cvt_zero {t : Fmt} (hW : 1 ≤ t.W) : (lutFmt t).cvt (0 : ℚ) = 0 := by
  refine Fmt.cvt_rep (f := lutFmt t) (by simpa [lutFmt] using hW) (by simp [lutFmt]) ?_
  refine ⟨0, by simp [lutFmt, minRaw], ?_, by simp [Fmt.val]⟩
  simp only [lutFmt, maxRaw, Bool.false_eq_true, if_false]
  have : (1 : ℤ) ≤ 2 ^ t.W := one_le_pow₀ (by norm_num)
  omega

theorem kb_one {t : Fmt} (hI : 1 ≤ t.I) (hF : t.I ≤ t.W) (b : Bool) : kb t (b, 0, 0) = 1 := by
  unfold kb
  simp only [show ¬((0 : ℕ) = 2) by omega, if_false, if_true]
  rw [show dbl (literals.getD 0 (0, 0)).1 = 1 by decide +kernel, cvt_one hI hF]

theorem kb_zero {t : Fmt} (hW : 1 ≤ t.W) (b : Bool) : kb t (b, 1, 0) = 0 := by
  unfold kb
  simp only [show ¬((1 : ℕ) = 2) by omega, show ¬((1 : ℕ) = 0) by omega, if_false]
  rw [show dbl (literals.getD 0 (0, 0)).2 = 0 by decide +kernel, cvt_zero hW]

/-- The index of the angle among the 4096 of the table. -/
def ang (n : ℕ) (p : ℤ) : ℕ :=
  if 3 ≤ n then (512 * (p / 2 ^ (n - 3)) + lutIndex n p).toNat else (p * 2 ^ (12 - n)).toNat

theorem ang_facts {n : ℕ} (hn : 1 ≤ n) {p : ℤ} (h0 : 0 ≤ p) (h1 : p < 2 ^ n) :
    ang n p < 4096 ∧ (n ≤ 12 → (ang n p : ℤ) = p * 2 ^ (12 - n)) ∧
      (12 < n → |(ang n p : ℤ) * 2 ^ (n - 12) - p| ≤ 2 ^ (n - 12)) := by
  unfold ang
  by_cases h3 : 3 ≤ n
  · obtain ⟨o0, o7, l0, l1, f1, f2, f3⟩ := lutIndex_facts h3 h0 h1
    rw [if_pos h3, Int.toNat_of_nonneg (by omega)]
    exact ⟨by omega, f1, f2⟩
  · rw [if_neg h3, Int.toNat_of_nonneg (mul_nonneg h0 (by positivity))]
    refine ⟨?_, fun _ => rfl, fun h => by omega⟩
    have : n = 1 ∨ n = 2 := by omega
    rcases this with rfl | rfl <;> norm_num at h1 ⊢ <;> omega

/-- Half a turn further is half the circle further. -/
theorem ang_half {n : ℕ} (hn : 1 ≤ n) {p : ℤ} (h0 : 0 ≤ p) (h1 : p < 2 ^ n) :
    ang n ((p + 2 ^ (n - 1)) % 2 ^ n) = (ang n p + 2048) % 4096 := by
  have hp0 : 0 ≤ (p + 2 ^ (n - 1)) % 2 ^ n := Int.emod_nonneg _ (by positivity)
  have hp1 : (p + 2 ^ (n - 1)) % 2 ^ n < 2 ^ n := Int.emod_lt_of_pos _ (by positivity)
  by_cases h3 : 3 ≤ n
  · obtain ⟨a0, a7, l0, l1, -⟩ := lutIndex_facts h3 h0 h1
    obtain ⟨b0, b7, -⟩ := lutIndex_facts h3 hp0 hp1
    unfold ang
    rw [if_pos h3, if_pos h3]
    obtain ⟨m, rfl⟩ : ∃ m, n = m + 3 := ⟨n - 3, by omega⟩
    have e1 : (2 : ℤ) ^ (m + 3 - 1) = 4 * 2 ^ m := by rw [show m + 3 - 1 = m + 2 by omega, pow_add]; ring
    have e2 : (2 : ℤ) ^ (m + 3) = 8 * 2 ^ m := by rw [pow_add]; ring
    rw [show m + 3 - 3 = m by omega] at *
    have hM : (0 : ℤ) < 2 ^ m := by positivity
    obtain ⟨c, hc, hp⟩ : ∃ c : ℤ, (c = 4 ∨ c = -4) ∧ (p + 2 ^ (m + 3 - 1)) % 2 ^ (m + 3) = p + c * 2 ^ m := by
      rw [e2] at h1
      rw [e1, e2]
      by_cases hlt : p < 4 * 2 ^ m
      · exact ⟨4, Or.inl rfl, Int.emod_eq_of_lt (by linarith) (by linarith)⟩
      · refine ⟨-4, Or.inr rfl, ?_⟩
        rw [show p + 4 * 2 ^ m = (p + -4 * 2 ^ m) + 8 * 2 ^ m * 1 by ring, Int.add_mul_emod_self_left]
        exact Int.emod_eq_of_lt (by linarith) (by linarith)
    rw [hp] at b0 b7 ⊢
    have ho : (p + c * 2 ^ m) / 2 ^ m = p / 2 ^ m + c := Int.add_mul_ediv_right _ _ hM.ne'
    have hl : lutIndex (m + 3) (p + c * 2 ^ m) = lutIndex (m + 3) p := by
      have hi : index1 (m + 3) (p + c * 2 ^ m) = index1 (m + 3) p := by
        unfold index1
        rw [show m + 3 - 3 = m by omega]
        by_cases hm : 1 ≤ m
        · rw [show max m 1 = m by omega, mul_comm c, Int.add_mul_emod_self_left]
        · have : m = 0 := by omega
          subst this
          rcases hc with rfl | rfl <;> norm_num <;> omega
      unfold lutIndex
      rw [hi]
    rw [hl, ho]
    rw [ho] at b0 b7
    rcases hc with rfl | rfl <;> omega
  · unfold ang
    rw [if_neg h3, if_neg h3]
    have : n = 1 ∨ n = 2 := by omega
    rcases this with rfl | rfl
    · norm_num at h1
      interval_cases p <;> decide
    · norm_num at h1
      interval_cases p <;> decide

/-- The opposite angle. -/
theorem ang_neg {n : ℕ} (hn : 1 ≤ n) (h12 : n ≤ 12) {p : ℤ} (h0 : 0 ≤ p) (h1 : p < 2 ^ n) :
    ang n (-p % 2 ^ n) = (4096 - ang n p) % 4096 := by
  have hp0 : 0 ≤ -p % 2 ^ n := Int.emod_nonneg _ (by positivity)
  have hp1 : -p % 2 ^ n < 2 ^ n := Int.emod_lt_of_pos _ (by positivity)
  obtain ⟨f1, f2, -⟩ := ang_facts hn h0 h1
  obtain ⟨g1, g2, -⟩ := ang_facts hn hp0 hp1
  have f2 := f2 h12
  have g2 := g2 h12
  have e : (2 : ℤ) ^ n * 2 ^ (12 - n) = 4096 := by
    rw [← pow_add, show n + (12 - n) = 12 by omega]; norm_num
  by_cases hz : p = 0
  · subst hz
    simp at f2 g2 ⊢
    simp [f2]
  · have : -p % 2 ^ n = 2 ^ n - p := by
      rw [show -p = (2 ^ n - p) + 2 ^ n * (-1) by ring, Int.add_mul_emod_self_left]
      exact Int.emod_eq_of_lt (by linarith) (by omega)
    have e2 : (ang n (-p % 2 ^ n) : ℤ) = 4096 - ang n p := by rw [g2, f2, this, sub_mul, e]
    have : 0 < (ang n p : ℤ) := by rw [f2]; exact mul_pos (by omega) (by positivity)
    omega

/-- The function in terms of the index of the angle. -/
theorem sincos_eq {f t : Fmt} (hn : f.I < f.W) (hI : 1 ≤ t.I) (hF : t.I ≤ t.W) (x : ℚ) {a : ℕ}
    (ha : a = ang (f.W - f.I).toNat (f.raw x % 2 ^ (f.W - f.I).toNat)) :
    sincos f t x = some (t.cvt (kv t (keyC (a / 512) (a % 512))), t.cvt (kv t (keyS (a / 512) (a % 512)))) := by
  subst ha
  unfold sincos
  simp only
  have hn1 : 1 ≤ (f.W - f.I).toNat := by omega
  generalize (f.W - f.I).toNat = n at *
  have h0 : 0 ≤ f.raw x % 2 ^ n := Int.emod_nonneg _ (by positivity)
  have h1 : f.raw x % 2 ^ n < 2 ^ n := Int.emod_lt_of_pos _ (by positivity)
  generalize f.raw x % 2 ^ n = p at *
  unfold ang
  by_cases h3 : 3 ≤ n
  · obtain ⟨o0, o7, l0, l1, f1, f2, f3⟩ := lutIndex_facts h3 h0 h1
    have ks := keys_cases h3 h0 h1
    obtain ⟨o, ho⟩ : ∃ o : ℕ, p / 2 ^ (n - 3) = o := ⟨_, (Int.toNat_of_nonneg o0).symm⟩
    obtain ⟨li, hli⟩ : ∃ li : ℕ, lutIndex n p = li := ⟨_, (Int.toNat_of_nonneg l0).symm⟩
    rw [ho] at o7
    rw [hli] at l1
    have ho7 : o ≤ 7 := by omega
    have hl : li ≤ 511 := by omega
    rw [if_pos h3, if_pos h3, ho, hli, show (512 * (o : ℤ) + li).toNat = 512 * o + li by omega]
    rw [show (512 * o + li) / 512 = o by omega, show (512 * o + li) % 512 = li by omega]
    have k1 := ks 1
    have k3 := ks 3
    have k5 := ks 5
    have k7 := ks 7
    rw [ho, hli] at k1 k3 k5 k7
    push_cast at k1 k3 k5 k7
    simp only [k1, k3, k5, k7]
    have hidx : (if (o : ℤ) % 2 = 1 then wrap 9 false (512 - (li : ℤ)) else (li : ℤ)).toNat = if li = 0 then 0 else tidx o li := by
      unfold tidx
      by_cases hl0 : li = 0
      · subst hl0
        simp only [if_true]
        split_ifs
        · simp [wrap]
        · simp
      · rw [if_neg hl0]
        split_ifs with c d d
        · rw [wrapU_of_lt (by omega) (by norm_num; omega)]; omega
        · omega
        · omega
        · simp
    rw [hidx]
    have hlt : (if li = 0 then 0 else tidx o li) < 512 := by
      unfold tidx; split_ifs <;> omega
    simp only [entry_eq t hlt, Option.bind_eq_bind, Option.bind_some]
    by_cases hl0 : li = 0
    · subst hl0
      simp only [if_true, and_true, Nat.cast_zero]
      interval_cases o <;> simp [keyC, keyS, kv, kb, tidx]
    · have : ¬((li : ℤ) = 0) := by omega
      simp only [hl0, this, if_false, and_false, or_false]
      interval_cases o <;> simp [keyC, keyS, kv, kb, tidx, hl0]
  · simp only [h3, if_false]
    have hW1 : 1 ≤ t.W := by omega
    have z0 : ∀ b, kv t (b, 1, 0) = 0 := by intro b; unfold kv; rw [kb_zero hW1]; simp
    have z1 : kv t (false, 0, 0) = 1 := by unfold kv; rw [kb_one hI hF]; simp
    have z2 : kv t (true, 0, 0) = -1 := by unfold kv; rw [kb_one hI hF]; simp
    have : n = 1 ∨ n = 2 := by omega
    rcases this with rfl | rfl
    · norm_num at h1
      interval_cases p <;> norm_num [keyC, keyS, tidx, z0, z1, z2, show Int.toNat 2048 = 2048 from rfl]
    · norm_num at h1
      interval_cases p <;> norm_num [keyC, keyS, tidx, z0, z1, z2, show Int.toNat 1024 = 1024 from rfl,
        show Int.toNat 2048 = 2048 from rfl, show Int.toNat 3072 = 3072 from rfl]

/-! ## Errors -/

theorem rnd_err (y : ℚ) : |(quant .RND y : ℚ) - y| ≤ 1 / 2 := by
  unfold quant
  have h1 := Int.floor_le (y + 1 / 2)
  have h2 := Int.lt_floor_add_one (y + 1 / 2)
  rw [abs_le]; constructor <;> linarith

/-- The type of the table holds the numbers from 0 to 1. -/
theorem lut_cvt {t : Fmt} (hI : 1 ≤ t.I) (hF : t.I ≤ t.W) {y : ℚ} (h0 : 0 ≤ y) (h1 : y ≤ 1) :
    ∃ r : ℤ, 0 ≤ r ∧ r ≤ 2 ^ t.F.toNat ∧ (lutFmt t).cvt y = t.val r ∧ |(lutFmt t).cvt y - y| ≤ 2 ^ (-t.F) / 2 := by
  have hFe : (lutFmt t).F = t.F := rfl
  have hz := Fmt.z_pos t.F
  have hFn : ((t.F.toNat : ℤ)) = t.F := Int.toNat_of_nonneg (by simp [Fmt.F]; omega)
  have hpw : ((2 ^ t.F.toNat : ℤ) : ℚ) = (2 : ℚ) ^ t.F := by
    rw [← hFn]; push_cast; rw [hFn]; rw [← zpow_natCast, hFn]
  have r0 : 0 ≤ quant .RND (y * 2 ^ t.F) := le_quant (by push_cast; exact mul_nonneg h0 hz.le)
  have r1 : quant .RND (y * 2 ^ t.F) ≤ 2 ^ t.F.toNat := quant_le (by
    rw [hpw]; exact mul_le_of_le_one_left hz.le h1)
  have hov : ovf t.W false .WRAP (quant .RND (y * 2 ^ t.F)) = quant .RND (y * 2 ^ t.F) := by
    refine ovf_of_range (by omega) (by simpa [loRaw, minRaw] using r0) ?_
    simp only [maxRaw, Bool.false_eq_true, if_false]
    have : (2 : ℤ) ^ t.F.toNat * 2 ≤ 2 ^ t.W := by
      rw [← pow_succ]
      refine pow_le_pow_right₀ (by norm_num) ?_
      have : t.F = t.W - t.I := rfl
      omega
    have : (1 : ℤ) ≤ 2 ^ t.F.toNat := one_le_pow₀ (by norm_num)
    omega
  have e : (lutFmt t).cvt y = t.val (quant .RND (y * 2 ^ t.F)) := by
    unfold Fmt.cvt Fmt.cvtRaw Fmt.val
    rw [hFe]
    simp only [lutFmt]
    rw [hov]
  refine ⟨_, r0, r1, e, ?_⟩
  rw [e]
  unfold Fmt.val
  have hz' := Fmt.z_pos (-t.F)
  have hy : y = y * 2 ^ t.F * 2 ^ (-t.F) := by
    rw [mul_assoc, ← zpow_add₀ (by norm_num : (2 : ℚ) ≠ 0)]; simp
  conv_lhs => rw [hy]
  have := rnd_err (y * 2 ^ t.F)
  rw [show y * 2 ^ t.F * 2 ^ (-t.F) * 2 ^ t.F = y * 2 ^ t.F by rw [← hy]]
  rw [← sub_mul, abs_mul, abs_of_pos hz']
  calc _ ≤ 1 / 2 * 2 ^ (-t.F) := mul_le_mul_of_nonneg_right this hz'.le
    _ = _ := by ring

theorem half_err : |(half : ℝ) - √2 / 2| ≤ 1 / 2 ^ 50 := by
  have hs : (√2) ^ 2 = 2 := Real.sq_sqrt (by norm_num)
  have hs0 := Real.sqrt_nonneg 2
  have e : half = 6369051672525773 / 2 ^ 53 := by decide +kernel
  rw [e, abs_le]
  push_cast
  constructor <;> nlinarith

theorem kb_spec {t : Fmt} (hI : 1 ≤ t.I) (hF : t.I ≤ t.W) (b : Bool) {i : ℕ} (hi : i < 512) :
    |(kb t (b, 0, i) : ℝ) - Real.cos (i * θ)| ≤ 2 ^ (-t.F) / 2 + 1 / 2 ^ 47 ∧
    |(kb t (b, 1, i) : ℝ) - Real.sin (i * θ)| ≤ 2 ^ (-t.F) / 2 + 1 / 2 ^ 47 ∧
    (∃ r : ℤ, 0 ≤ r ∧ r ≤ 2 ^ t.F.toNat ∧ kb t (b, 0, i) = t.val r) ∧
    (∃ r : ℤ, 0 ≤ r ∧ r ≤ 2 ^ t.F.toNat ∧ kb t (b, 1, i) = t.val r) := by
  obtain ⟨l1, l2, l3, l4⟩ := literal_err hi
  obtain ⟨r, r0, r1, re, rr⟩ := lut_cvt hI hF (dbl_nonneg (literals.getD i (0, 0)).1) (dbl_le_one l3)
  obtain ⟨q, q0, q1, qe, qq⟩ := lut_cvt hI hF (dbl_nonneg (literals.getD i (0, 0)).2) (dbl_le_one l4)
  have e1 : kb t (b, 0, i) = (lutFmt t).cvt (dbl (literals.getD i (0, 0)).1) := by simp [kb]
  have e2 : kb t (b, 1, i) = (lutFmt t).cvt (dbl (literals.getD i (0, 0)).2) := by simp [kb]
  rw [e1, e2]
  refine ⟨?_, ?_, ⟨r, r0, r1, re⟩, ⟨q, q0, q1, qe⟩⟩
  · have : |(((lutFmt t).cvt (dbl (literals.getD i (0, 0)).1) : ℚ) : ℝ) - (dbl (literals.getD i (0, 0)).1 : ℚ)| ≤ 2 ^ (-t.F) / 2 := by
      have := Rat.cast_le (K := ℝ) |>.2 rr
      push_cast at this; exact this
    exact le_trans (abs_sub_le _ _ _) (add_le_add this l1)
  · have : |(((lutFmt t).cvt (dbl (literals.getD i (0, 0)).2) : ℚ) : ℝ) - (dbl (literals.getD i (0, 0)).2 : ℚ)| ≤ 2 ^ (-t.F) / 2 := by
      have := Rat.cast_le (K := ℝ) |>.2 qq
      push_cast at this; exact this
    exact le_trans (abs_sub_le _ _ _) (add_le_add this l2)

theorem abs_neg_sub_neg' (a b : ℝ) : |-a - -b| = |a - b| := by
  rw [← abs_neg]; congr 1; ring

theorem quarter (a : ℕ) : (((512 * a : ℕ) : ℝ)) * θ = a * (Real.pi / 4) := by
  unfold θ; push_cast; ring

theorem kv_special {a : ℕ} (ho : a / 512 ≤ 7) (hk : (keyC (a / 512) (a % 512)).2 = (2, 0)) :
    |((if (keyC (a / 512) (a % 512)).1 then -half else half : ℚ) : ℝ) - Real.cos (a * θ)| ≤ 1 / 2 ^ 50 ∧
    |((if (keyS (a / 512) (a % 512)).1 then -half else half : ℚ) : ℝ) - Real.sin (a * θ)| ≤ 1 / 2 ^ 50 := by
  have hsp : (a / 512) % 2 = 1 ∧ a % 512 = 0 := by
    by_contra hsp
    revert hk
    unfold keyC
    rw [if_neg hsp]
    split_ifs <;> simp
  have hh := half_err
  have hn : |-(half : ℝ) - -(√2 / 2)| ≤ 1 / 2 ^ 50 := by rw [abs_neg_sub_neg']; exact hh
  have hcs : a = 512 ∨ a = 512 * 3 ∨ a = 512 * 5 ∨ a = 512 * 7 := by omega
  have c0 := Real.cos_pi_div_four
  have s0 := Real.sin_pi_div_four
  rcases hcs with rfl | rfl | rfl | rfl
  · rw [show ((512 : ℕ) : ℝ) * θ = Real.pi / 4 by unfold θ; push_cast; ring, c0, s0]
    norm_num [keyC, keyS] at hh ⊢
    exact hh
  · rw [show ((512 * 3 : ℕ) : ℝ) * θ = Real.pi - Real.pi / 4 by unfold θ; push_cast; ring, Real.cos_pi_sub,
      Real.sin_pi_sub, c0, s0]
    norm_num [keyC, keyS] at hh hn ⊢
    exact ⟨hn, hh⟩
  · rw [show ((512 * 5 : ℕ) : ℝ) * θ = Real.pi / 4 + Real.pi by unfold θ; push_cast; ring, Real.cos_add_pi,
      Real.sin_add_pi, c0, s0]
    norm_num [keyC, keyS] at hn ⊢
    exact hn
  · rw [show ((512 * 7 : ℕ) : ℝ) * θ = 2 * Real.pi - Real.pi / 4 by unfold θ; push_cast; ring, Real.cos_two_pi_sub,
      Real.sin_two_pi_sub, c0, s0]
    norm_num [keyC, keyS] at hh hn ⊢
    exact ⟨hh, hn⟩

/-- The number chosen is near the cosine or sine of the indexed angle. -/
theorem kv_err {t : Fmt} (hI : 1 ≤ t.I) (hF : t.I ≤ t.W) {o li : ℕ} (ho : o ≤ 7) (hl : li ≤ 511) :
    |(kv t (keyC o li) : ℝ) - Real.cos ((512 * o + li : ℕ) * θ)| ≤ 2 ^ (-t.F) / 2 + 1 / 2 ^ 47 ∧
    |(kv t (keyS o li) : ℝ) - Real.sin ((512 * o + li : ℕ) * θ)| ≤ 2 ^ (-t.F) / 2 + 1 / 2 ^ 47 := by
  have hz : (0 : ℝ) < 2 ^ (-t.F) := zpow_pos (by norm_num) _
  by_cases hsp : o % 2 = 1 ∧ li = 0
  · obtain ⟨h1, rfl⟩ := hsp
    have hh : |(half : ℝ) - √2 / 2| ≤ 2 ^ (-t.F) / 2 + 1 / 2 ^ 47 := by
      refine le_trans half_err ?_
      have : (1 : ℝ) / 2 ^ 50 ≤ 1 / 2 ^ 47 := by norm_num
      linarith
    have hcs : o = 1 ∨ o = 3 ∨ o = 5 ∨ o = 7 := by omega
    have c0 := Real.cos_pi_div_four
    have s0 := Real.sin_pi_div_four
    have b1 : ∀ b : Bool, kb t (b, 2, 0) = half := fun b => by simp [kb]
    rcases hcs with rfl | rfl | rfl | rfl
    · rw [show ((512 * 1 + 0 : ℕ) : ℝ) * θ = Real.pi / 4 by unfold θ; push_cast; ring, c0, s0]
      simp [keyC, keyS, kv, b1]
      simpa using hh
    · rw [show ((512 * 3 + 0 : ℕ) : ℝ) * θ = Real.pi - Real.pi / 4 by unfold θ; push_cast; ring, Real.cos_pi_sub,
        Real.sin_pi_sub, c0, s0]
      simp [keyC, keyS, kv, b1]
      exact ⟨by simpa [abs_neg_sub_neg'] using (abs_neg_sub_neg' (half : ℝ) (√2 / 2)).trans_le hh, by simpa using hh⟩
    · rw [show ((512 * 5 + 0 : ℕ) : ℝ) * θ = Real.pi / 4 + Real.pi by unfold θ; push_cast; ring, Real.cos_add_pi,
        Real.sin_add_pi, c0, s0]
      simp [keyC, keyS, kv, b1]
      simpa [abs_neg_sub_neg'] using (abs_neg_sub_neg' (half : ℝ) (√2 / 2)).trans_le hh
    · rw [show ((512 * 7 + 0 : ℕ) : ℝ) * θ = 2 * Real.pi - Real.pi / 4 by unfold θ; push_cast; ring, Real.cos_two_pi_sub,
        Real.sin_two_pi_sub, c0, s0]
      simp [keyC, keyS, kv, b1]
      exact ⟨by simpa using hh, by simpa [abs_neg_sub_neg'] using (abs_neg_sub_neg' (half : ℝ) (√2 / 2)).trans_le hh⟩
  · have hidx : tidx o li < 512 := by unfold tidx; split_ifs <;> omega
    have hks : ∀ b, _ := fun b => kb_spec hI hF b hidx
    have h1 : ∀ b, |(kb t (b, 0, tidx o li) : ℝ) - Real.cos (tidx o li * θ)| ≤ 2 ^ (-t.F) / 2 + 1 / 2 ^ 47 := fun b => (hks b).1
    have h2 : ∀ b, |(kb t (b, 1, tidx o li) : ℝ) - Real.sin (tidx o li * θ)| ≤ 2 ^ (-t.F) / 2 + 1 / 2 ^ 47 := fun b => (hks b).2.1
    have n1 : ∀ b, |-(kb t (b, 0, tidx o li) : ℝ) - -Real.cos (tidx o li * θ)| ≤ 2 ^ (-t.F) / 2 + 1 / 2 ^ 47 := fun b => by
      rw [abs_neg_sub_neg']; exact h1 b
    have n2 : ∀ b, |-(kb t (b, 1, tidx o li) : ℝ) - -Real.sin (tidx o li * θ)| ≤ 2 ^ (-t.F) / 2 + 1 / 2 ^ 47 := fun b => by
      rw [abs_neg_sub_neg']; exact h2 b
    have hodd : o % 2 = 1 → ((tidx o li : ℕ) : ℝ) = 512 - li := by
      intro h; unfold tidx; rw [if_pos h, Nat.cast_sub (by omega)]; norm_num
    have heven : ¬ o % 2 = 1 → ((tidx o li : ℕ) : ℝ) = li := by
      intro h; unfold tidx; rw [if_neg h]
    have hcs : o = 0 ∨ o = 1 ∨ o = 2 ∨ o = 3 ∨ o = 4 ∨ o = 5 ∨ o = 6 ∨ o = 7 := by omega
    unfold keyC keyS
    rw [if_neg hsp, if_neg hsp]
    generalize hT : tidx o li = T at *
    rcases hcs with rfl | rfl | rfl | rfl | rfl | rfl | rfl | rfl
    · have e := heven (by norm_num)
      rw [show ((512 * 0 + li : ℕ) : ℝ) * θ = T * θ by rw [e]; push_cast; ring]
      simp [kv]
      exact ⟨by simpa using h1 false, by simpa using h2 false⟩
    · have e := hodd (by norm_num)
      rw [show ((512 * 1 + li : ℕ) : ℝ) * θ = Real.pi / 2 - T * θ by rw [e]; unfold θ; push_cast; ring, Real.cos_pi_div_two_sub,
        Real.sin_pi_div_two_sub]
      simp [kv]
      exact ⟨by simpa using h2 false, by simpa using h1 false⟩
    · have e := heven (by norm_num)
      rw [show ((512 * 2 + li : ℕ) : ℝ) * θ = T * θ + Real.pi / 2 by rw [e]; unfold θ; push_cast; ring, Real.cos_add_pi_div_two,
        Real.sin_add_pi_div_two]
      have := n2 true
      have := h1 false
      simp [kv]
      exact ⟨by simpa using n2 true, by simpa using h1 false⟩
    · have e := hodd (by norm_num)
      rw [show ((512 * 3 + li : ℕ) : ℝ) * θ = Real.pi - T * θ by rw [e]; unfold θ; push_cast; ring, Real.cos_pi_sub,
        Real.sin_pi_sub]
      simp [kv]
      exact ⟨by simpa using n1 true, by simpa using h2 false⟩
    · have e := heven (by norm_num)
      rw [show ((512 * 4 + li : ℕ) : ℝ) * θ = T * θ + Real.pi by rw [e]; unfold θ; push_cast; ring, Real.cos_add_pi,
        Real.sin_add_pi]
      simp [kv]
      exact ⟨by simpa using n1 true, by simpa using n2 true⟩
    · have e := hodd (by norm_num)
      rw [show ((512 * 5 + li : ℕ) : ℝ) * θ = Real.pi / 2 - T * θ + Real.pi by rw [e]; unfold θ; push_cast; ring, Real.cos_add_pi,
        Real.sin_add_pi, Real.cos_pi_div_two_sub, Real.sin_pi_div_two_sub]
      simp [kv]
      exact ⟨by simpa using n2 true, by simpa using n1 true⟩
    · have e := heven (by norm_num)
      rw [show ((512 * 6 + li : ℕ) : ℝ) * θ = T * θ + Real.pi / 2 + Real.pi by rw [e]; unfold θ; push_cast; ring, Real.cos_add_pi,
        Real.sin_add_pi, Real.cos_add_pi_div_two, Real.sin_add_pi_div_two, neg_neg]
      simp [kv]
      exact ⟨by simpa using h2 false, by simpa using n1 true⟩
    · have e := hodd (by norm_num)
      rw [show ((512 * 7 + li : ℕ) : ℝ) * θ = 2 * Real.pi - T * θ by rw [e]; unfold θ; push_cast; ring, Real.cos_two_pi_sub,
        Real.sin_two_pi_sub]
      simp [kv]
      exact ⟨by simpa using h1 false, by simpa using n2 true⟩

/-! ## Outputs -/

theorem key_kind {o li : ℕ} (hl : li ≤ 511) :
    ((keyC o li).2 = (2, 0) ∧ (keyS o li).2 = (2, 0)) ∨ (¬(o % 2 = 1 ∧ li = 0) ∧
      ((keyC o li).2.1 = 0 ∨ (keyC o li).2.1 = 1) ∧ (keyC o li).2.2 < 512 ∧
      ((keyS o li).2.1 = 0 ∨ (keyS o li).2.1 = 1) ∧ (keyS o li).2.2 < 512) := by
  by_cases hsp : o % 2 = 1 ∧ li = 0
  · left; simp [keyC, keyS, hsp]
  · right
    refine ⟨hsp, ?_⟩
    have hidx : tidx o li < 512 := by unfold tidx; split_ifs <;> omega
    unfold keyC keyS
    rw [if_neg hsp, if_neg hsp]
    split_ifs <;> simp [hidx]

theorem kv_grid {t : Fmt} (hI : 1 ≤ t.I) (hF : t.I ≤ t.W) {k : Key} (h1 : k.2.1 = 0 ∨ k.2.1 = 1) (h2 : k.2.2 < 512) :
    ∃ r : ℤ, -2 ^ t.F.toNat ≤ r ∧ r ≤ 2 ^ t.F.toNat ∧ kv t k = t.val r := by
  obtain ⟨b, c, i⟩ := k
  simp only at h1 h2
  obtain ⟨-, -, ⟨r, r0, r1, re⟩, ⟨q, q0, q1, qe⟩⟩ := kb_spec hI hF b h2
  have hneg : ∀ n : ℤ, t.val (-n) = -t.val n := fun n => by unfold Fmt.val; push_cast; ring
  have hp : (0 : ℤ) < 2 ^ t.F.toNat := by positivity
  unfold kv
  rcases h1 with rfl | rfl
  · rw [re]
    cases b
    · exact ⟨r, by omega, r1, by simp⟩
    · exact ⟨-r, by omega, by omega, by rw [hneg]; simp⟩
  · rw [qe]
    cases b
    · exact ⟨q, by omega, q1, by simp⟩
    · exact ⟨-q, by omega, by omega, by rw [hneg]; simp⟩

/-- The output types of the theorems: signed, with room for the number 1 or saturating. -/
def Out (t : Fmt) : Prop :=
  t.S = true ∧ t.I ≤ t.W ∧ (2 ≤ t.I ∨ (t.I = 1 ∧ 3 ≤ t.W ∧ (t.O = .SAT ∨ t.O = .SAT_SYM)))

theorem range_W {t : Fmt} (hI : 1 ≤ t.I) (hF : t.I ≤ t.W) : t.F.toNat + t.I.toNat = t.W := by
  have : t.F = t.W - t.I := rfl
  omega

theorem fits {t : Fmt} (ht : Out t) {r : ℤ} (h0 : -2 ^ t.F.toNat < r) (h1 : r < 2 ^ t.F.toNat) :
    loRaw t.W t.S t.O ≤ r ∧ r ≤ maxRaw t.W t.S := by
  obtain ⟨hS, hF, hI⟩ := ht
  have hI1 : 1 ≤ t.I := by omega
  have hW := range_W hI1 hF
  have hp : (2 : ℤ) ^ t.F.toNat ≤ 2 ^ (t.W - 1) := pow_le_pow_right₀ (by norm_num) (by omega)
  rw [hS]
  cases t.O <;> simp only [loRaw, minRaw, maxRaw, if_true] <;> constructor <;> omega

theorem fits2 {t : Fmt} (ht : Out t) (h2 : 2 ≤ t.I) {r : ℤ} (h0 : -2 ^ t.F.toNat ≤ r) (h1 : r ≤ 2 ^ t.F.toNat) :
    loRaw t.W t.S t.O ≤ r ∧ r ≤ maxRaw t.W t.S := by
  obtain ⟨hS, hF, hI⟩ := ht
  have hW := range_W (by omega) hF
  have hp : (2 : ℤ) ^ (t.F.toNat + 1) ≤ 2 ^ (t.W - 1) := pow_le_pow_right₀ (by norm_num) (by omega)
  rw [pow_succ] at hp
  have hq : (0 : ℤ) < 2 ^ t.F.toNat := by positivity
  rw [hS]
  cases t.O <;> simp only [loRaw, minRaw, maxRaw, if_true] <;> constructor <;> omega

theorem F_pow {t : Fmt} (hF : t.I ≤ t.W) : ((2 ^ t.F.toNat : ℤ) : ℚ) * 2 ^ (-t.F) = 1 := by
  have hFn : ((t.F.toNat : ℤ)) = t.F := Int.toNat_of_nonneg (by simp [Fmt.F]; omega)
  have : ((2 ^ t.F.toNat : ℤ) : ℚ) = (2 : ℚ) ^ t.F := by
    rw [← hFn]; push_cast; rw [hFn, ← zpow_natCast, hFn]
  rw [this, ← zpow_add₀ (by norm_num)]; simp

/-- Conversion of a number on the grid of the output type. -/
theorem out_grid {t : Fmt} (ht : Out t) {r : ℤ} (h0 : -2 ^ t.F.toNat ≤ r) (h1 : r ≤ 2 ^ t.F.toNat) {y ε : ℝ}
    (hy : |y| ≤ 1) (he : |(t.val r : ℝ) - y| ≤ 2 ^ (-t.F) / 2 + ε) (hε : 0 ≤ ε) : |(t.cvt (t.val r) : ℝ) - y| ≤ 2 ^ (-t.F) + ε := by
  have hz : (0 : ℝ) < 2 ^ (-t.F) := zpow_pos (by norm_num) _
  have hW1 : 1 ≤ t.W := by have := ht.2.1; rcases ht.2.2 with h | h <;> omega
  have hF1 := F_pow ht.2.1
  have hF1R : ((2 ^ t.F.toNat : ℤ) : ℝ) * 2 ^ (-t.F) = 1 := by
    have := congrArg (Rat.cast : ℚ → ℝ) hF1
    rw [Rat.cast_mul, Rat.cast_zpow, Rat.cast_intCast, Rat.cast_one, Rat.cast_ofNat] at this
    exact this
  by_cases hin : loRaw t.W t.S t.O ≤ r ∧ r ≤ maxRaw t.W t.S
  · rw [Fmt.cvt_val hW1 hin.1 hin.2]; linarith
  · have hI1 : ¬ 2 ≤ t.I := fun h => hin (fits2 ht h h0 h1)
    obtain ⟨hS, hF, hI⟩ := ht
    have hsat : t.I = 1 ∧ 3 ≤ t.W ∧ (t.O = .SAT ∨ t.O = .SAT_SYM) := by tauto
    obtain ⟨hI1, hW3, hO⟩ := hsat
    have hWF : t.W - 1 = t.F.toNat := by have := range_W (by omega) hF; omega
    have hends : r = 2 ^ t.F.toNat ∨ r = -2 ^ t.F.toNat := by
      by_contra hc
      exact hin (fits ⟨hS, hF, Or.inr ⟨hI1, hW3, hO⟩⟩ (by omega) (by omega))
    have hc : t.cvt (t.val r) = t.val (ovf t.W t.S t.O r) := by
      unfold Fmt.cvt Fmt.cvtRaw
      rw [Fmt.val_mul_pow, quant_intCast]
    have hp : (0 : ℤ) < 2 ^ t.F.toNat := by positivity
    rw [hc]
    have hy' := abs_le.1 hy
    have he' := abs_le.1 he
    rcases hends with rfl | rfl
    · have : ovf t.W t.S t.O (2 ^ t.F.toNat) = 2 ^ t.F.toNat - 1 := by
        rcases hO with hO | hO <;> rw [hO, hS] <;> simp [ovf, maxRaw, minRaw, hWF]
      rw [this]
      have e1 : ((t.val (2 ^ t.F.toNat : ℤ) : ℚ) : ℝ) = 1 := by
        unfold Fmt.val; rw [Rat.cast_mul, Rat.cast_zpow, Rat.cast_intCast, Rat.cast_ofNat]; exact hF1R
      have e2 : ((t.val (2 ^ t.F.toNat - 1 : ℤ) : ℚ) : ℝ) = 1 - 2 ^ (-t.F) := by
        unfold Fmt.val
        rw [Rat.cast_mul, Rat.cast_zpow, Rat.cast_intCast, Int.cast_sub, sub_mul, Rat.cast_ofNat, hF1R]; simp
      rw [e1] at he'
      rw [e2, abs_le]; constructor <;> linarith [hy'.1, hy'.2, he'.1, he'.2]
    · have e1 : ((t.val (-2 ^ t.F.toNat : ℤ) : ℚ) : ℝ) = -1 := by
        unfold Fmt.val; rw [Rat.cast_mul, Rat.cast_zpow, Rat.cast_intCast, Int.cast_neg, neg_mul, Rat.cast_ofNat, hF1R]
      rw [e1] at he'
      rcases hO with hO | hO
      · exfalso; apply hin
        rw [hO, hS]
        simp [loRaw, maxRaw, minRaw, hWF]
      · have : ovf t.W t.S t.O (-2 ^ t.F.toNat) = -2 ^ t.F.toNat + 1 := by
          rw [hO, hS]; simp [ovf, maxRaw, minRaw, hWF]; omega
        have e2 : ((t.val (-2 ^ t.F.toNat + 1 : ℤ) : ℚ) : ℝ) = -1 + 2 ^ (-t.F) := by
          unfold Fmt.val
          rw [Rat.cast_mul, Rat.cast_zpow, Rat.cast_intCast, Int.cast_add, Int.cast_neg, add_mul, neg_mul, Rat.cast_ofNat, hF1R]
          simp
        rw [this, e2, abs_le]; constructor <;> linarith [hy'.1, hy'.2, he'.1, he'.2]

/-- Conversion of any other number. -/
theorem out_half {t : Fmt} (ht : Out t) (b : Bool) {y : ℝ} (he : |((if b then -half else half : ℚ) : ℝ) - y| ≤ 1 / 2 ^ 50) :
    |(t.cvt (if b then -half else half : ℚ) : ℝ) - y| ≤ 2 ^ (-t.F) + 1 / 2 ^ 47 := by
  have hW1 : 1 ≤ t.W := by have := ht.2.1; rcases ht.2.2 with h | h <;> omega
  have hz := Fmt.z_pos t.F
  have e : half = 6369051672525773 / 2 ^ 53 := by decide +kernel
  have hFn : ((t.F.toNat : ℤ)) = t.F := Int.toNat_of_nonneg (by have := ht.2.1; simp [Fmt.F]; omega)
  have hpw : (2 : ℚ) ^ t.F = ((2 ^ t.F.toNat : ℤ) : ℚ) := by
    rw [← hFn]; push_cast; rw [hFn, ← zpow_natCast, hFn]
  have key : ∀ v : ℚ, |v| ≤ 3 / 4 → (loRaw t.W t.S t.O : ℚ) ≤ v * 2 ^ t.F ∧ v * 2 ^ t.F ≤ maxRaw t.W t.S := by
    intro v hv
    obtain ⟨v0, v1⟩ := abs_le.1 hv
    rcases ht.2.2 with h2 | ⟨hI1, hW3, hO⟩
    · have hp0 : (0 : ℤ) < 2 ^ t.F.toNat := by positivity
      obtain ⟨a0, a1⟩ := fits2 ht h2 (r := -2 ^ t.F.toNat) le_rfl (by omega)
      obtain ⟨b0, b1⟩ := fits2 ht h2 (r := 2 ^ t.F.toNat) (by omega) le_rfl
      have a0' : ((loRaw t.W t.S t.O : ℤ) : ℚ) ≤ ((-2 ^ t.F.toNat : ℤ) : ℚ) := by exact_mod_cast a0
      have b1' : ((2 ^ t.F.toNat : ℤ) : ℚ) ≤ ((maxRaw t.W t.S : ℤ) : ℚ) := by exact_mod_cast b1
      rw [Int.cast_neg] at a0'
      rw [← hpw] at a0' b1'
      constructor
      · refine le_trans a0' ?_
        have := mul_le_mul_of_nonneg_right (show -1 ≤ v by linarith) hz.le
        linarith
      · refine le_trans ?_ b1'
        have := mul_le_mul_of_nonneg_right (show v ≤ 1 by linarith) hz.le
        linarith
    · have h4 : (4 : ℤ) ≤ 2 ^ t.F.toNat := by
        have hWF : t.W - 1 = t.F.toNat := by have := range_W (by omega) ht.2.1; omega
        calc (4 : ℤ) = 2 ^ 2 := by norm_num
          _ ≤ 2 ^ t.F.toNat := pow_le_pow_right₀ (by norm_num) (by omega)
      have h4' : (4 : ℚ) ≤ 2 ^ t.F := by rw [hpw]; exact_mod_cast h4
      obtain ⟨a0, -⟩ := fits ht (r := -2 ^ t.F.toNat + 1) (by omega) (by omega)
      obtain ⟨-, b1⟩ := fits ht (r := 2 ^ t.F.toNat - 1) (by omega) (by omega)
      have a0' : ((loRaw t.W t.S t.O : ℤ) : ℚ) ≤ ((-2 ^ t.F.toNat + 1 : ℤ) : ℚ) := by exact_mod_cast a0
      have b1' : ((2 ^ t.F.toNat - 1 : ℤ) : ℚ) ≤ ((maxRaw t.W t.S : ℤ) : ℚ) := by exact_mod_cast b1
      rw [Int.cast_add, Int.cast_neg, Int.cast_one] at a0'
      rw [Int.cast_sub, Int.cast_one] at b1'
      rw [← hpw] at a0' b1'
      constructor
      · refine le_trans a0' ?_
        have := mul_le_mul_of_nonneg_right v0 hz.le
        linarith
      · refine le_trans ?_ b1'
        have := mul_le_mul_of_nonneg_right v1 hz.le
        linarith
  obtain ⟨k0, k1⟩ := key (if b then -half else half) (by
    cases b <;> simp <;> rw [e] <;> norm_num [abs_of_pos])
  have h1 := Fmt.cvt_err hW1 k0 k1
  have h1' : |((t.cvt (if b then -half else half : ℚ) : ℚ) : ℝ) - ((if b then -half else half : ℚ) : ℝ)| ≤ 2 ^ (-t.F) := by
    have h1 := h1.le
    rw [Rat.cast_id] at h1
    have := Rat.cast_le (K := ℝ) |>.2 h1
    rw [Rat.cast_abs, Rat.cast_sub, Rat.cast_zpow, Rat.cast_ofNat] at this
    exact this
  have h47 : (1 : ℝ) / 2 ^ 50 ≤ 1 / 2 ^ 47 := by norm_num
  exact le_trans (abs_sub_le _ _ _) (add_le_add h1' (le_trans he h47))

theorem out_err {t : Fmt} (ht : Out t) {a : ℕ} (ha : a < 4096) :
    |(t.cvt (kv t (keyC (a / 512) (a % 512))) : ℝ) - Real.cos (a * θ)| ≤ 2 ^ (-t.F) + 1 / 2 ^ 47 ∧
    |(t.cvt (kv t (keyS (a / 512) (a % 512))) : ℝ) - Real.sin (a * θ)| ≤ 2 ^ (-t.F) + 1 / 2 ^ 47 := by
  have hI : 1 ≤ t.I := by rcases ht.2.2 with h | h <;> omega
  have hF := ht.2.1
  have ho : a / 512 ≤ 7 := by omega
  have hl : a % 512 ≤ 511 := by omega
  have hadd : 512 * (a / 512) + a % 512 = a := by omega
  have hke := kv_err hI hF ho hl
  rw [hadd] at hke
  rcases key_kind hl (o := a / 512) with ⟨h1, h2⟩ | ⟨hns, c1, c2, s1, s2⟩
  · have hv : ∀ k : Key, k.2 = (2, 0) → kv t k = if k.1 then -half else half := by
      rintro ⟨b, k2⟩ h; simp only at h; subst h; simp [kv, kb]
    have hh := kv_special (a := a) ho h1
    rw [hv _ h1, hv _ h2] at *
    exact ⟨out_half ht _ hh.1, out_half ht _ hh.2⟩
  · obtain ⟨r, r0, r1, re⟩ := kv_grid hI hF c1 c2
    obtain ⟨q, q0, q1, qe⟩ := kv_grid hI hF s1 s2
    rw [re, qe] at hke ⊢
    exact ⟨out_grid ht r0 r1 (Real.abs_cos_le_one _) hke.1 (by norm_num),
      out_grid ht q0 q1 (Real.abs_sin_le_one _) hke.2 (by norm_num)⟩

/-- The angle meant by the input against the angle indexed. -/
theorem angle_near {f : Fmt} (hn : f.I < f.W) (r : ℤ) {a : ℕ}
    (ha : a = ang (f.W - f.I).toNat (r % 2 ^ (f.W - f.I).toNat)) :
    |Real.cos (a * θ) - Real.cos (2 * Real.pi * (f.val r : ℚ))| ≤ (if f.W - f.I ≤ 12 then 0 else 1 / 650) ∧
    |Real.sin (a * θ) - Real.sin (2 * Real.pi * (f.val r : ℚ))| ≤ (if f.W - f.I ≤ 12 then 0 else 1 / 650) := by
  obtain ⟨n, hnn⟩ : ∃ n : ℕ, f.W - f.I = n := ⟨(f.W - f.I).toNat, by omega⟩
  have hn1 : 1 ≤ n := by omega
  rw [hnn, Int.toNat_natCast] at ha
  rw [hnn]
  have h0 : 0 ≤ r % 2 ^ n := Int.emod_nonneg _ (by positivity)
  have h1 : r % 2 ^ n < 2 ^ n := Int.emod_lt_of_pos _ (by positivity)
  obtain ⟨-, f1, f2⟩ := ang_facts hn1 h0 h1
  rw [← ha] at f1 f2
  have hdm := Int.mul_ediv_add_emod r (2 ^ n)
  set p := r % 2 ^ n with hp
  have hval : 2 * Real.pi * ((f.val r : ℚ) : ℝ) = 2 * Real.pi * p / 2 ^ n + (r / 2 ^ n : ℤ) * (2 * Real.pi) := by
    have hF : f.F = n := hnn
    unfold Fmt.val
    rw [hF, Rat.cast_mul, Rat.cast_zpow, Rat.cast_intCast, Rat.cast_ofNat, zpow_neg, zpow_natCast, ← hdm]
    push_cast
    have h2 : (2 : ℝ) ^ n ≠ 0 := by positivity
    rw [hdm]
    field_simp
    ring
  rw [hval, Real.cos_add_int_mul_two_pi, Real.sin_add_int_mul_two_pi]
  have hpi := Real.pi_pos
  by_cases h12 : n ≤ 12
  · rw [if_pos (by exact_mod_cast h12)]
    have : (a : ℝ) * θ = 2 * Real.pi * p / 2 ^ n := by
      have e := f1 h12
      have e' : (a : ℝ) = p * 2 ^ (12 - n) := by exact_mod_cast e
      rw [e']
      have e2 : (2 : ℝ) ^ (12 - n) = 4096 / 2 ^ n := by
        rw [eq_div_iff (by positivity), ← pow_add, show 12 - n + n = 12 by omega]; norm_num
      rw [e2]; unfold θ; field_simp; ring
    rw [this]; simp
  · rw [if_neg (by intro hc; exact h12 (by exact_mod_cast hc))]
    have e := f2 (by omega)
    have e' : |(a : ℝ) * 2 ^ (n - 12) - p| ≤ 2 ^ (n - 12) := by exact_mod_cast e
    have e2 : (2 : ℝ) ^ n = 2 ^ (n - 12) * 4096 := by
      rw [show (4096 : ℝ) = 2 ^ 12 by norm_num, ← pow_add, show n - 12 + 12 = n by omega]
    have hK : (0 : ℝ) < 2 ^ (n - 12) := by positivity
    have hd : |(a : ℝ) * θ - 2 * Real.pi * p / 2 ^ n| ≤ 1 / 650 := by
      have : (a : ℝ) * θ - 2 * Real.pi * p / 2 ^ n = (a * 2 ^ (n - 12) - p) * (Real.pi / (2048 * 2 ^ (n - 12))) := by
        rw [e2]; unfold θ; field_simp; ring
      rw [this, abs_mul, abs_of_pos (show 0 < Real.pi / (2048 * 2 ^ (n - 12)) by positivity)]
      calc _ ≤ 2 ^ (n - 12) * (Real.pi / (2048 * 2 ^ (n - 12))) := mul_le_mul_of_nonneg_right e' (by positivity)
        _ = Real.pi / 2048 := by field_simp
        _ ≤ 1 / 650 := by have := Real.pi_lt_d4; linarith
    exact ⟨le_trans (Real.abs_cos_sub_cos_le _ _) hd, le_trans (Real.abs_sin_sub_sin_le _ _) hd⟩

/-! ## Symmetries -/

/-- The constant is used exactly at the odd eighths of a turn. -/
theorem odd_eighth {f : Fmt} (hf : f.I < f.W) {n : ℕ} (hn : f.W - f.I = n) {r : ℤ} {a : ℕ} (ha : a = ang n (r % 2 ^ n))
    (h1 : (a / 512) % 2 = 1) (h2 : a % 512 = 0) : ∃ m : ℤ, 8 * f.val r = 2 * m + 1 := by
  have hn1 : 1 ≤ n := by omega
  have hm0 : 0 ≤ r % 2 ^ n := Int.emod_nonneg _ (by positivity)
  have hm1 : r % 2 ^ n < 2 ^ n := Int.emod_lt_of_pos _ (by positivity)
  have hF : f.F = n := hn
  have hdm := Int.mul_ediv_add_emod r (2 ^ n)
  have h3 : 3 ≤ n := by
    by_contra h3
    have := (ang_facts hn1 hm0 hm1).2.1 (by omega)
    rw [← ha] at this
    have : n = 1 ∨ n = 2 := by omega
    rcases this with rfl | rfl <;> norm_num at * <;> omega
  obtain ⟨o0, o7, l0, l1, -, -, f3⟩ := lutIndex_facts h3 hm0 hm1
  unfold ang at ha
  rw [if_pos h3] at ha
  have hl : lutIndex n (r % 2 ^ n) = 0 := by omega
  have ho : (r % 2 ^ n / 2 ^ (n - 3)) % 2 = 1 := by omega
  have hp := f3.1 hl
  set o := r % 2 ^ n / 2 ^ (n - 3)
  refine ⟨o / 2 + 4 * (r / 2 ^ n), ?_⟩
  have hMn : (2 : ℚ) ^ n = 8 * 2 ^ (n - 3) := by
    rw [show n = (n - 3) + 3 by omega, pow_add]; simp; ring
  have e1 : o = 2 * (o / 2) + 1 := by omega
  have e2 : (o : ℚ) = 2 * ((o / 2 : ℤ) : ℚ) + 1 := by exact_mod_cast e1
  have hr : (r : ℚ) = 2 ^ n * ((r / 2 ^ n : ℤ) : ℚ) + o * 2 ^ (n - 3) := by
    rw [hp] at hdm; exact_mod_cast hdm.symm
  unfold Fmt.val
  rw [hF, zpow_neg, zpow_natCast, hr]
  have hM : (2 : ℚ) ^ (n - 3) ≠ 0 := by positivity
  rw [hMn, Int.cast_add, Int.cast_mul]
  field_simp
  push_cast
  rw [e2]
  ring

def norm (k : Key) : Key := if k.2 = (1, 0) then (false, 1, 0) else k

theorem kv_norm {t : Fmt} (hW : 1 ≤ t.W) (k : Key) : kv t (norm k) = kv t k := by
  unfold norm
  split_ifs with h
  · obtain ⟨b, k2⟩ := k
    simp only at h
    subst h
    unfold kv
    rw [kb_zero hW, kb_zero hW]; simp
  · rfl

def flip (k : Key) : Key := (!k.1, k.2)

theorem kv_flip (t : Fmt) (k : Key) : kv t (flip k) = -kv t k := by
  obtain ⟨b, k2⟩ := k
  cases b <;> simp [kv, flip, kb]

def keyC' (a : ℕ) : Key := keyC (a / 512) (a % 512)
def keyS' (a : ℕ) : Key := keyS (a / 512) (a % 512)

def symOk (a : ℕ) : Bool :=
  keyC' ((a + 2048) % 4096) == flip (keyC' a) && keyS' ((a + 2048) % 4096) == flip (keyS' a) &&
  norm (keyC' ((4096 - a) % 4096)) == norm (keyC' a) && norm (keyS' ((4096 - a) % 4096)) == norm (flip (keyS' a))

theorem symOk0 : Proof.Pwl.allLt 512 (fun k => symOk (512 * 0 + k)) = true := by decide +kernel
theorem symOk1 : Proof.Pwl.allLt 512 (fun k => symOk (512 * 1 + k)) = true := by decide +kernel
theorem symOk2 : Proof.Pwl.allLt 512 (fun k => symOk (512 * 2 + k)) = true := by decide +kernel
theorem symOk3 : Proof.Pwl.allLt 512 (fun k => symOk (512 * 3 + k)) = true := by decide +kernel
theorem symOk4 : Proof.Pwl.allLt 512 (fun k => symOk (512 * 4 + k)) = true := by decide +kernel
theorem symOk5 : Proof.Pwl.allLt 512 (fun k => symOk (512 * 5 + k)) = true := by decide +kernel
theorem symOk6 : Proof.Pwl.allLt 512 (fun k => symOk (512 * 6 + k)) = true := by decide +kernel
theorem symOk7 : Proof.Pwl.allLt 512 (fun k => symOk (512 * 7 + k)) = true := by decide +kernel

theorem sym_all : Proof.Pwl.allLt 4096 symOk = true := by
  refine Proof.Pwl.allLt_iff.2 (Proof.Pwl.chunks 512 (c := 8) (by norm_num) ?_)
  intro j hj
  interval_cases j
  · exact symOk0
  · exact symOk1
  · exact symOk2
  · exact symOk3
  · exact symOk4
  · exact symOk5
  · exact symOk6
  · exact symOk7

theorem sym_spec {t : Fmt} (hW : 1 ≤ t.W) {a : ℕ} (ha : a < 4096) :
    kv t (keyC' ((a + 2048) % 4096)) = -kv t (keyC' a) ∧ kv t (keyS' ((a + 2048) % 4096)) = -kv t (keyS' a) ∧
    kv t (keyC' ((4096 - a) % 4096)) = kv t (keyC' a) ∧ kv t (keyS' ((4096 - a) % 4096)) = -kv t (keyS' a) := by
  have h := Proof.Pwl.allLt_iff.1 sym_all a ha
  unfold symOk at h
  simp only [Bool.and_eq_true, beq_iff_eq] at h
  obtain ⟨⟨⟨h1, h2⟩, h3⟩, h4⟩ := h
  refine ⟨by rw [h1, kv_flip], by rw [h2, kv_flip], ?_, ?_⟩
  · rw [← kv_norm hW, h3, kv_norm hW]
  · rw [← kv_norm hW, h4, kv_norm hW, kv_flip]

theorem ovf_neg {t : Fmt} {r : ℤ} (h1 : loRaw t.W t.S t.O ≤ r) (h2 : r ≤ maxRaw t.W t.S) (h3 : loRaw t.W t.S t.O ≤ -r)
    (h4 : -r ≤ maxRaw t.W t.S) (hW : 1 ≤ t.W) : ovf t.W t.S t.O (-r) = -ovf t.W t.S t.O r := by
  rw [ovf_of_range hW h1 h2, ovf_of_range hW h3 h4]

/-- Conversion commutes with the sign: always on the grid, for the constant if the rounding is symmetric. -/
theorem cvt_neg_kv {t : Fmt} (hS : t.S = true) (hI : 2 ≤ t.I) (hF : t.I ≤ t.W) {a : ℕ}
    (hQ : Model.DivFixed.symm t.Q = true ∨ ¬((a / 512) % 2 = 1 ∧ a % 512 = 0)) :
    t.cvt (-kv t (keyC' a)) = -t.cvt (kv t (keyC' a)) ∧ t.cvt (-kv t (keyS' a)) = -t.cvt (kv t (keyS' a)) := by
  have hW1 : 1 ≤ t.W := by omega
  have hneg : ∀ n : ℤ, t.val (-n) = -t.val n := fun n => by unfold Fmt.val; push_cast; ring
  have ht : Out t := ⟨hS, hF, Or.inl hI⟩
  have hl : a % 512 ≤ 511 := by omega
  have hgrid : ∀ k : Key, (k.2.1 = 0 ∨ k.2.1 = 1) → k.2.2 < 512 → t.cvt (-kv t k) = -t.cvt (kv t k) := by
    intro k h1 h2
    obtain ⟨r, r0, r1, re⟩ := kv_grid (by omega) hF h1 h2
    obtain ⟨a0, a1⟩ := fits2 ht hI r0 r1
    obtain ⟨b0, b1⟩ := fits2 ht hI (r := -r) (by omega) (by omega)
    rw [re, ← hneg, Fmt.cvt_val hW1 a0 a1, Fmt.cvt_val hW1 b0 b1, hneg]
  rcases key_kind hl (o := a / 512) with ⟨h1, h2⟩ | ⟨hns, c1, c2, s1, s2⟩
  · have hsy : Model.DivFixed.symm t.Q = true := by
      rcases hQ with h | h
      · exact h
      · exfalso
        apply h
        by_contra hsp
        revert h1
        unfold keyC
        rw [if_neg hsp]
        split_ifs <;> simp
    have hh : t.cvt (-half) = -t.cvt half := by
      have e : half = 6369051672525773 / 2 ^ 53 := by decide +kernel
      have hz := Fmt.z_pos t.F
      have hFn : ((t.F.toNat : ℤ)) = t.F := Int.toNat_of_nonneg (by simp [Fmt.F]; omega)
      have hpw : (2 : ℚ) ^ t.F = ((2 ^ t.F.toNat : ℤ) : ℚ) := by
        rw [← hFn]; push_cast; rw [hFn, ← zpow_natCast, hFn]
      have q0 : 0 ≤ quant t.Q (half * 2 ^ t.F) := le_quant (by rw [e]; push_cast; positivity)
      have q1 : quant t.Q (half * 2 ^ t.F) ≤ 2 ^ t.F.toNat := quant_le (by
        rw [← hpw, e]
        have : (6369051672525773 / 2 ^ 53 : ℚ) ≤ 1 := by norm_num
        exact mul_le_of_le_one_left hz.le this)
      have hp : (0 : ℤ) < 2 ^ t.F.toNat := by positivity
      obtain ⟨a0, a1⟩ := fits2 ht hI (r := quant t.Q (half * 2 ^ t.F)) (by omega) q1
      obtain ⟨b0, b1⟩ := fits2 ht hI (r := -quant t.Q (half * 2 ^ t.F)) (by omega) (by omega)
      unfold Fmt.cvt Fmt.cvtRaw
      rw [neg_mul, Proof.DivFixed.quant_neg hsy, ovf_neg a0 a1 b0 b1 hW1, hneg]
    have hv : ∀ k : Key, k.2 = (2, 0) → t.cvt (-kv t k) = -t.cvt (kv t k) := by
      rintro ⟨b, k2⟩ h
      simp only at h; subst h
      have : kv t (b, 2, 0) = if b then -half else half := by simp [kv, kb]
      rw [this]
      cases b
      · simpa using hh
      · simp [hh]
    exact ⟨hv _ h1, hv _ h2⟩
  · exact ⟨hgrid _ c1 c2, hgrid _ s1 s2⟩

end Proof.Sincos
