import Verif.Model.Pwl
import Verif.Proof.Shift
import Mathlib.Tactic.Linarith
import Mathlib.Tactic.FieldSimp
import Mathlib.Tactic.IntervalCases

/-! # Lemmas shared by the piecewise linear functions -/

namespace Proof.Pwl
open Ac Model.Pwl

/-- Bounded check written so that the kernel evaluates it step by step. -/
def allLt : ℕ → (ℕ → Bool) → Bool
  | 0, _ => true
  | n + 1, p => p n && allLt n p

theorem allLt_iff {n : ℕ} {p : ℕ → Bool} : allLt n p = true ↔ ∀ i < n, p i = true := by
  induction n with
  | zero => simp [allLt]
  | succ n ih =>
    simp only [allLt, Bool.and_eq_true, ih]
    constructor
    · rintro ⟨h1, h2⟩ i hi
      rcases Nat.lt_succ_iff_lt_or_eq.1 hi with h | h
      · exact h2 i h
      · exact h ▸ h1
    · exact fun h => ⟨h n (by omega), fun i hi => h i (by omega)⟩

/-- A long check in pieces, so that the kernel frees its memory in between. -/
theorem chunks {p : ℕ → Bool} (m : ℕ) {c : ℕ} (hm : 0 < m) (h : ∀ j < c, allLt m (fun k => p (m * j + k)) = true) :
    ∀ k < m * c, p k = true := by
  intro k hk
  have h1 := allLt_iff.1 (h (k / m) ((Nat.div_lt_iff_lt_mul hm).2 (by rwa [mul_comm]))) (k % m) (Nat.mod_lt _ hm)
  rwa [Nat.div_add_mod] at h1

/-- Piecewise linear function with integer break points. -/
def pw (m c : ℕ → ℚ) (s : ℚ) : ℚ := m ⌊s⌋.toNat * Int.fract s + c ⌊s⌋.toNat

theorem floor_toNat_lt {s : ℚ} {n : ℕ} (h0 : 0 ≤ s) (h : s < n) : ⌊s⌋.toNat < n := by
  have h1 : ⌊s⌋ < n := by rw [Int.floor_lt]; exact_mod_cast h
  have h2 : 0 ≤ ⌊s⌋ := Int.floor_nonneg.2 h0
  omega

theorem pw_mono {m c : ℕ → ℚ} {n : ℕ} (hm : ∀ i < n, 0 ≤ m i) (hc : ∀ i, i + 1 < n → c i + m i ≤ c (i + 1)) {s t : ℚ}
    (h0 : 0 ≤ s) (hst : s ≤ t) (ht : t < n) : pw m c s ≤ pw m c t := by
  have hcm : ∀ k i, i + k < n → c i ≤ c (i + k) := by
    intro k
    induction k with
    | zero => intro i _; exact le_refl _
    | succ k ih =>
      intro i hi
      have h1 := ih i (by omega)
      have h2 := hc (i + k) (by omega)
      have h3 := hm (i + k) (by omega)
      rw [show i + (k + 1) = i + k + 1 by ring]; linarith
  have hs' : s < n := lt_of_le_of_lt hst ht
  have is := floor_toNat_lt h0 hs'
  have it := floor_toNat_lt (le_trans h0 hst) ht
  have hfl : ⌊s⌋ ≤ ⌊t⌋ := Int.floor_le_floor hst
  have hs0 : 0 ≤ ⌊s⌋ := Int.floor_nonneg.2 h0
  have ffs := Int.fract_nonneg s
  have ffs1 := Int.fract_lt_one s
  have fft := Int.fract_nonneg t
  unfold pw
  rcases eq_or_lt_of_le hfl with he | hl
  · have : Int.fract s ≤ Int.fract t := by
      unfold Int.fract; rw [he]; linarith
    rw [he]
    have := mul_le_mul_of_nonneg_left this (hm _ it)
    linarith
  · set i := ⌊s⌋.toNat
    set j := ⌊t⌋.toNat with hj
    have hij : i + 1 ≤ j := by omega
    have h1 := hc i (by omega)
    have h2 := hcm (j - (i + 1)) (i + 1) (by omega)
    rw [show i + 1 + (j - (i + 1)) = j by omega] at h2
    have h3 : m i * Int.fract s ≤ m i := by
      have := mul_le_mul_of_nonneg_left ffs1.le (hm i is); linarith
    have h4 : 0 ≤ m j * Int.fract t := mul_nonneg (hm j it) fft
    linarith

/-- Truncation to `n` fraction bits. -/
def trunc (n : ℕ) (x : ℚ) : ℚ := ⌊x * 2 ^ n⌋ / 2 ^ n

theorem trunc_le (n : ℕ) (x : ℚ) : trunc n x ≤ x := by
  unfold trunc
  rw [div_le_iff₀ (by positivity)]
  exact Int.floor_le _

theorem lt_trunc (n : ℕ) (x : ℚ) : x < trunc n x + 1 / 2 ^ n := by
  unfold trunc
  rw [← add_div, lt_div_iff₀ (by positivity)]
  exact Int.lt_floor_add_one _

theorem trunc_mono (n : ℕ) {x y : ℚ} (h : x ≤ y) : trunc n x ≤ trunc n y := by
  unfold trunc
  have hp : (0 : ℚ) < 2 ^ n := by positivity
  have : ⌊x * 2 ^ n⌋ ≤ ⌊y * 2 ^ n⌋ := Int.floor_le_floor (mul_le_mul_of_nonneg_right h hp.le)
  exact div_le_div_of_nonneg_right (by exact_mod_cast this) hp.le

theorem trunc_nonneg (n : ℕ) {x : ℚ} (h : 0 ≤ x) : 0 ≤ trunc n x := by
  unfold trunc
  have hp : (0 : ℚ) < 2 ^ n := by positivity
  have : 0 ≤ ⌊x * 2 ^ n⌋ := Int.floor_nonneg.2 (mul_nonneg h hp.le)
  exact div_nonneg (by exact_mod_cast this) hp.le

/-- Conversion to an unsigned truncating type without overflow. -/
theorem cvt_trunc {I n : ℕ} {x : ℚ} (h0 : 0 ≤ x) (h1 : x < 2 ^ I) :
    (⟨I + n, I, false, .TRN, .WRAP⟩ : Fmt).cvt x = trunc n x := by
  have hF : (⟨I + n, I, false, .TRN, .WRAP⟩ : Fmt).F = n := by unfold Fmt.F; push_cast; ring
  unfold Fmt.cvt Fmt.cvtRaw
  rw [hF]
  simp only [ovf, quant]
  rw [zpow_natCast, wrapU_of_lt]
  · unfold Fmt.val trunc
    rw [hF, zpow_neg, zpow_natCast, div_eq_mul_inv]
  · exact Int.floor_nonneg.2 (by positivity)
  · rw [Int.floor_lt]
    push_cast
    rw [pow_add]
    exact mul_lt_mul_of_pos_right h1 (by positivity)

/-- The magnitude of a representable input. -/
theorem magnitude_eq {f : Fmt} (hW : 1 ≤ f.W) {x : ℚ} (hx : f.Rep x) : magnitude f x = |x| := by
  obtain ⟨r, h0, h1, rfl⟩ := hx
  have hz := Fmt.z_pos (-f.F)
  have hp : (2 : ℤ) ^ f.W = 2 * 2 ^ (f.W - 1) := two_pow_succ_pred hW
  have hK : (0 : ℤ) < 2 ^ (f.W - 1) := by positivity
  have key : ∀ k : ℤ, 0 ≤ k → k < 2 ^ f.W → (uns f).cvt (f.val k) = f.val k := by
    intro k k0 k1
    have : f.val k = (uns f).val k := rfl
    rw [this]
    exact Fmt.cvt_val (f := uns f) hW (by simp [loRaw, uns, minRaw]; exact k0) (by simp [uns, maxRaw]; omega)
  unfold magnitude
  have hneg : f.val r < 0 ↔ r < 0 := by
    have h : f.val 0 = 0 := by unfold Fmt.val; simp
    rw [← h, Fmt.val_lt]
  by_cases hc : f.S ∧ f.val r < 0
  · rw [if_pos hc, abs_of_neg hc.2]
    have : -f.val r = f.val (-r) := by unfold Fmt.val; push_cast; ring
    rw [this]
    have hr := hneg.1 hc.2
    apply key
    · omega
    · simp [minRaw, hc.1] at h0; omega
  · rw [if_neg hc]
    have hr : 0 ≤ r := by
      by_contra hr
      cases hS : f.S
      · simp [minRaw, hS] at h0; omega
      · exact hc ⟨hS, hneg.2 (by omega)⟩
    rw [abs_of_nonneg (by unfold Fmt.val; exact mul_nonneg (by exact_mod_cast hr) hz.le)]
    apply key _ hr
    cases hS : f.S <;> simp [maxRaw, hS] at h1 <;> omega

/-- The fraction bits of a value on the grid. -/
theorem fracBits_eq {I n : ℕ} {k : ℤ} : fracBits (⟨I + n, I, false, .TRN, .WRAP⟩ : Fmt) n (k / 2 ^ n) = Int.fract ((k : ℚ) / 2 ^ n) := by
  have hF : (⟨I + n, I, false, .TRN, .WRAP⟩ : Fmt).F = n := by unfold Fmt.F; push_cast; ring
  have hF2 : (⟨n, 0, false, .TRN, .WRAP⟩ : Fmt).F = n := by unfold Fmt.F; push_cast; ring
  unfold fracBits Fmt.raw
  rw [hF, zpow_natCast, div_mul_cancel₀ _ (by positivity), Int.floor_intCast]
  unfold Fmt.val
  rw [hF2, zpow_neg, zpow_natCast, ← div_eq_mul_inv]
  have h := Rat.floor_intCast_div_natCast k (2 ^ n)
  unfold Int.fract
  push_cast at h
  rw [h, eq_sub_iff_add_eq, div_add' _ _ _ (by positivity)]
  congr 1
  have := Int.emod_add_mul_ediv k (2 ^ n)
  have h2 : ((k % 2 ^ n + 2 ^ n * (k / 2 ^ n) : ℤ) : ℚ) = k := by rw [this]
  push_cast at h2
  linarith

theorem index_eq {n : ℕ} {s : ℚ} (h0 : 0 ≤ s) (h1 : s < 2 ^ n) : index n s = ⌊s⌋.toNat := by
  unfold index
  rw [wrapU_of_lt (Int.floor_nonneg.2 h0) (by rw [Int.floor_lt]; exact_mod_cast h1)]

theorem index_lt (n : ℕ) (s : ℚ) : index n s < 2 ^ n := by
  unfold index
  have h0 := wrapU_nonneg n ⌊s⌋
  have h1 := wrapU_lt n ⌊s⌋
  zify; omega

/-- An unsigned fraction type of `n` bits holds `k / 2^n` exactly, whatever the rounding mode. -/
theorem cvt_exactU {n : ℕ} (hn : 1 ≤ n) {q : QMode} {k : ℤ} (h0 : 0 ≤ k) (h1 : k < 2 ^ n) :
    (⟨n, 0, false, q, .WRAP⟩ : Fmt).cvt ((k : ℚ) / 2 ^ n) = k / 2 ^ n := by
  have hF : (⟨n, 0, false, q, .WRAP⟩ : Fmt).F = n := by unfold Fmt.F; push_cast; ring
  have hv : ((k : ℚ) / 2 ^ n) = (⟨n, 0, false, q, .WRAP⟩ : Fmt).val k := by
    unfold Fmt.val; rw [hF, zpow_neg, zpow_natCast, div_eq_mul_inv]
  rw [hv]
  exact Fmt.cvt_val hn (by simp [loRaw, minRaw]; exact h0) (by simp [maxRaw]; omega)

/-- A signed type with one integer bit and `n` fraction bits holds `k / 2^n` exactly. -/
theorem cvt_exactS {n : ℕ} {q : QMode} {k : ℤ} (h0 : -2 ^ n ≤ k) (h1 : k < 2 ^ n) :
    (⟨n + 1, 1, true, q, .WRAP⟩ : Fmt).cvt ((k : ℚ) / 2 ^ n) = k / 2 ^ n := by
  have hF : (⟨n + 1, 1, true, q, .WRAP⟩ : Fmt).F = n := by unfold Fmt.F; push_cast; ring
  have hv : ((k : ℚ) / 2 ^ n) = (⟨n + 1, 1, true, q, .WRAP⟩ : Fmt).val k := by
    unfold Fmt.val; rw [hF, zpow_neg, zpow_natCast, div_eq_mul_inv]
  rw [hv]
  exact Fmt.cvt_val (by simp) (by simp [loRaw, minRaw]; exact h0) (by simp [maxRaw]; omega)

end Proof.Pwl

namespace Proof.Pwl
open Ac Model.Pwl

/-- Entry `i` of a table with `n` fraction bits. -/
def tab (t : List ℤ) (n : ℕ) (i : ℕ) : ℚ := fx n (t.getD i 0)

/-- The raw value, with `p + n` fraction bits, of the segment function at the scaled input `k / 2^n`. -/
def segRaw (m c : List ℤ) (n k : ℕ) : ℤ := m.getD (k / 2 ^ n) 0 * (k % 2 ^ n : ℕ) + c.getD (k / 2 ^ n) 0 * 2 ^ n

theorem floor_div_pow (k n : ℕ) : ⌊((k : ℤ) : ℚ) / 2 ^ n⌋ = (k / 2 ^ n : ℕ) := by
  have h := Rat.floor_intCast_div_natCast k (2 ^ n)
  push_cast at h ⊢
  rw [h]

theorem fract_div_pow (k n : ℕ) : Int.fract (((k : ℤ) : ℚ) / 2 ^ n) = ((k % 2 ^ n : ℕ) : ℚ) / 2 ^ n := by
  unfold Int.fract
  rw [floor_div_pow, sub_eq_iff_eq_add, div_add' _ _ _ (by positivity)]
  congr 1
  have := Nat.mod_add_div k (2 ^ n)
  have h2 : ((k % 2 ^ n + 2 ^ n * (k / 2 ^ n) : ℕ) : ℚ) = k := by rw [this]
  rw [Nat.cast_add, Nat.cast_mul, Nat.cast_pow] at h2
  rw [Int.cast_natCast, Int.cast_natCast]
  push_cast at h2
  linarith

theorem pw_tab (m c : List ℤ) (p n k : ℕ) : pw (tab m p) (tab c p) ((k : ℤ) / 2 ^ n) = segRaw m c n k / 2 ^ (p + n) := by
  unfold pw
  rw [floor_div_pow, fract_div_pow, Int.toNat_natCast]
  unfold tab fx segRaw
  generalize k % 2 ^ n = r
  push_cast
  field_simp
  ring

/-- Reading both tables inside their bounds. -/
theorem rd_lt {t : List ℤ} {i : ℕ} (h : i < t.length) : rd t i = some (t.getD i 0) := by
  unfold rd
  rw [List.getElem?_eq_getElem h]; simp [List.getD, h]

/-- `segRaw` stays below `2^(p+n)` when every segment ends at or below one. -/
theorem segRaw_lt {m c : List ℤ} {p n k N : ℕ} (hk : k < N * 2 ^ n)
    (h : ∀ i < N, 0 ≤ m.getD i 0 ∧ 0 ≤ c.getD i 0 ∧ m.getD i 0 + c.getD i 0 ≤ 2 ^ p ∧ c.getD i 0 < 2 ^ p) :
    0 ≤ segRaw m c n k ∧ segRaw m c n k < 2 ^ (p + n) := by
  have hi : k / 2 ^ n < N := Nat.div_lt_of_lt_mul (by rwa [Nat.mul_comm])
  obtain ⟨h1, h2, h3, h4⟩ := h _ hi
  have hP : (0 : ℤ) < 2 ^ n := by positivity
  have hr : ((k % 2 ^ n : ℕ) : ℤ) < 2 ^ n := by exact_mod_cast Nat.mod_lt k (by positivity)
  have hr0 : (0 : ℤ) ≤ (k % 2 ^ n : ℕ) := by positivity
  unfold segRaw
  set a := m.getD (k / 2 ^ n) 0
  set b := c.getD (k / 2 ^ n) 0
  set r := ((k % 2 ^ n : ℕ) : ℤ)
  refine ⟨by positivity, ?_⟩
  rw [pow_add]
  rcases eq_or_lt_of_le h1 with ha | ha
  · rw [← ha, zero_mul, zero_add]; exact mul_lt_mul_of_pos_right h4 hP
  · have e1 : a * r < a * 2 ^ n := mul_lt_mul_of_pos_left hr ha
    have e2 : (a + b) * 2 ^ n ≤ 2 ^ p * 2 ^ n := mul_le_mul_of_nonneg_right h3 hP.le
    linarith

theorem trunc_nat {n : ℕ} {x : ℚ} (h : 0 ≤ x) : trunc n x = ((⌊x * 2 ^ n⌋.toNat : ℕ) : ℤ) / 2 ^ n := by
  unfold trunc
  rw [Int.toNat_of_nonneg (Int.floor_nonneg.2 (by positivity))]

end Proof.Pwl
