import Verif.Ac.Types
import Verif.Ac.Lemmas
import Mathlib.Tactic.Linarith
import Mathlib.Tactic.Ring
import Mathlib.Tactic.FieldSimp
import Mathlib.Algebra.Order.Round

/-! # Lemmas about quantization and overflow -/

namespace Ac

section Quant
variable {R : Type*} [Field R] [LinearOrder R] [IsStrictOrderedRing R] [FloorRing R]

theorem floor_add_half (x : R) : ⌊x + 1 / 2⌋ = ⌊x⌋ + (if 1 / 2 ≤ Int.fract x then 1 else 0) := by
  have h0 := Int.fract_nonneg x
  have h1 := Int.fract_lt_one x
  have hx := Int.floor_add_fract x
  split_ifs with h
  · rw [Int.floor_eq_iff]; push_cast; constructor <;> linarith
  · rw [Int.floor_eq_iff]; push_cast; rw [not_le] at h; constructor <;> linarith

theorem ceil_sub_half (x : R) : ⌈x - 1 / 2⌉ = ⌊x⌋ + (if 1 / 2 < Int.fract x then 1 else 0) := by
  have h0 := Int.fract_nonneg x
  have h1 := Int.fract_lt_one x
  have hx := Int.floor_add_fract x
  split_ifs with h
  · rw [Int.ceil_eq_iff]; push_cast; constructor <;> linarith
  · rw [Int.ceil_eq_iff]; push_cast; rw [not_lt] at h; constructor <;> linarith

theorem ceil_eq_floor_add (x : R) : ⌈x⌉ = ⌊x⌋ + (if Int.fract x = 0 then 0 else 1) := by
  have h0 := Int.fract_nonneg x
  have h1 := Int.fract_lt_one x
  have hx := Int.floor_add_fract x
  split_ifs with h
  · rw [Int.ceil_eq_iff]; push_cast; constructor <;> linarith
  · have : 0 < Int.fract x := lt_of_le_of_ne h0 (Ne.symm h)
    rw [Int.ceil_eq_iff]; push_cast; constructor <;> linarith

theorem neg_iff_floor_neg (x : R) : x < 0 ↔ ⌊x⌋ < 0 := by
  rw [Int.floor_lt]; simp

/-- Whether a mode rounds up from the floor, from the sign, the parity of the floor, and the position of the
fractional part relative to 0 and 1/2. -/
def up (q : QMode) (neg odd zero geHalf gtHalf : Prop) [Decidable neg] [Decidable odd] [Decidable zero]
    [Decidable geHalf] [Decidable gtHalf] : Bool :=
  match q with
  | .TRN => false
  | .RND => geHalf
  | .TRN_ZERO => neg ∧ ¬ zero
  | .RND_ZERO => if neg then geHalf else gtHalf
  | .RND_INF => if neg then gtHalf else geHalf
  | .RND_MIN_INF => gtHalf
  | .RND_CONV => gtHalf ∨ (geHalf ∧ odd)
  | .RND_CONV_ODD => gtHalf ∨ (geHalf ∧ ¬ odd)

theorem quant_eq_up (q : QMode) (x : R) :
    quant q x = ⌊x⌋ + (if up q (⌊x⌋ < 0) (⌊x⌋ % 2 = 1) (Int.fract x = 0) (1 / 2 ≤ Int.fract x) (1 / 2 < Int.fract x)
      then 1 else 0) := by
  cases q
  · simp [quant, up]
  · simp only [quant, up, floor_add_half, decide_eq_true_eq]
  · simp only [quant, up, ceil_eq_floor_add, decide_eq_true_eq, neg_iff_floor_neg x]
    by_cases h : ⌊x⌋ < 0 <;> by_cases h' : Int.fract x = 0 <;> simp [h, h']
  · simp only [quant, up, neg_iff_floor_neg x, floor_add_half, ceil_sub_half]
    by_cases h : ⌊x⌋ < 0 <;> simp [h]
  · simp only [quant, up, neg_iff_floor_neg x, floor_add_half, ceil_sub_half]
    by_cases h : ⌊x⌋ < 0 <;> simp [h]
  · simp only [quant, up, ceil_sub_half, decide_eq_true_eq]
  · simp only [quant, up]
    have hf : x - ⌊x⌋ = Int.fract x := rfl
    rw [hf]
    rcases lt_trichotomy (Int.fract x) (1 / 2) with h | h | h
    · simp only [h, not_le.mpr h, not_lt.mpr h.le, if_true, false_or, false_and, decide_false, Bool.false_eq_true, if_false, add_zero]
    · have h2 : ¬ Int.fract x < 1 / 2 := by rw [h]; exact lt_irrefl _
      have h3 : ¬ 1 / 2 < Int.fract x := by rw [h]; exact lt_irrefl _
      have h4 : 1 / 2 ≤ Int.fract x := h.ge
      simp only [h2, h3, h4, if_false, false_or, true_and]
      rcases Int.emod_two_eq_zero_or_one ⌊x⌋ with h5 | h5 <;> simp [h5]
    · simp only [h, not_lt.mpr h.le, if_true, true_or, decide_true, if_false]
  · simp only [quant, up]
    have hf : x - ⌊x⌋ = Int.fract x := rfl
    rw [hf]
    rcases lt_trichotomy (Int.fract x) (1 / 2) with h | h | h
    · simp only [h, not_le.mpr h, not_lt.mpr h.le, if_true, false_or, false_and, decide_false, Bool.false_eq_true, if_false, add_zero]
    · have h2 : ¬ Int.fract x < 1 / 2 := by rw [h]; exact lt_irrefl _
      have h3 : ¬ 1 / 2 < Int.fract x := by rw [h]; exact lt_irrefl _
      have h4 : 1 / 2 ≤ Int.fract x := h.ge
      simp only [h2, h3, h4, if_false, false_or, true_and]
      rcases Int.emod_two_eq_zero_or_one ⌊x⌋ with h5 | h5 <;> simp [h5]
    · simp only [h, not_lt.mpr h.le, if_true, true_or, decide_true, if_false]

theorem quant_intCast (q : QMode) (n : ℤ) : quant q (n : R) = n := by
  rw [quant_eq_up]
  simp only [Int.floor_intCast, Int.fract_intCast]
  by_cases hn : n < 0 <;> cases q <;> simp [up, hn]

theorem floor_le_quant (q : QMode) (x : R) : ⌊x⌋ ≤ quant q x := by
  rw [quant_eq_up]; split_ifs <;> omega

theorem quant_le_floor_add_one (q : QMode) (x : R) : quant q x ≤ ⌊x⌋ + 1 := by
  rw [quant_eq_up]; split_ifs <;> omega

theorem le_quant {q : QMode} {x : R} {n : ℤ} (h : (n : R) ≤ x) : n ≤ quant q x :=
  le_trans (Int.le_floor.mpr h) (floor_le_quant q x)

theorem quant_le {q : QMode} {x : R} {n : ℤ} (h : x ≤ n) : quant q x ≤ n := by
  rcases eq_or_lt_of_le h with h' | h'
  · rw [h', quant_intCast]
  · have := quant_le_floor_add_one q x
    have : ⌊x⌋ < n := Int.floor_lt.mpr h'
    omega

/-- Rounding error below one unit for every mode. -/
theorem quant_err (q : QMode) (x : R) : |(quant q x : R) - x| < 1 := by
  have h0 := Int.fract_nonneg x
  have h1 := Int.fract_lt_one x
  have hx := Int.floor_add_fract x
  rw [abs_lt]
  have key : quant q x = ⌊x⌋ ∨ (quant q x = ⌊x⌋ + 1 ∧ Int.fract x ≠ 0) := by
    rw [quant_eq_up]
    split_ifs with h
    · right
      refine ⟨rfl, fun hz => ?_⟩
      rw [hz] at h
      cases q <;> simp [up] at h
      all_goals revert h; norm_num
    · left; simp
  rcases key with h | ⟨h, hz⟩
  · rw [h]; constructor <;> linarith
  · rw [h]; push_cast
    have : 0 < Int.fract x := lt_of_le_of_ne h0 (Ne.symm hz)
    constructor <;> linarith

variable {R' : Type*} [Field R'] [LinearOrder R'] [IsStrictOrderedRing R'] [FloorRing R']

/-- Two numbers (possibly of different fields) with the same floor and the same position relative to the midpoint
are rounded alike. -/
theorem quant_congr (q : QMode) {x : R} {y : R'} (h : ⌊x⌋ = ⌊y⌋) (h0 : Int.fract x = 0 ↔ Int.fract y = 0)
    (h1 : 1 / 2 ≤ Int.fract x ↔ 1 / 2 ≤ Int.fract y) (h2 : 1 / 2 < Int.fract x ↔ 1 / 2 < Int.fract y) :
    quant q x = quant q y := by
  rw [quant_eq_up, quant_eq_up, h]
  congr 2
  simp only [eq_iff_iff]
  cases q <;> simp only [up, decide_eq_true_eq, h0, h1, h2]

/-- Truncation and round-half-up only depend on a left-closed cell. -/
theorem quant_congr_cell (q : QMode) {x : R} {y : R'} (h : ⌊x⌋ = ⌊y⌋)
    (h1 : 1 / 2 ≤ Int.fract x ↔ 1 / 2 ≤ Int.fract y)
    (hq : q = .TRN ∨ q = .RND ∨ (q = .TRN_ZERO ∧ 0 ≤ x) ∨ (q = .RND_INF ∧ 0 ≤ x)) :
    quant q x = quant q y := by
  rw [quant_eq_up, quant_eq_up, h]
  congr 2
  simp only [eq_iff_iff]
  rcases hq with rfl | rfl | ⟨rfl, hx⟩ | ⟨rfl, hx⟩
  · simp [up]
  · simp only [up, decide_eq_true_eq, h1]
  · have : ¬ ⌊y⌋ < 0 := by rw [← h]; simpa using Int.floor_nonneg.mpr hx
    simp [up, this]
  · have : ¬ ⌊y⌋ < 0 := by rw [← h]; simpa using Int.floor_nonneg.mpr hx
    simp only [up, decide_eq_true_eq, this, if_false, h1]

/-- Adding an even integer commutes with rounding when the sign does not change. -/
theorem quant_add_int (q : QMode) (x : R) (m : ℤ) (hm : m % 2 = 0) (hs : x < 0 ↔ x + m < 0) :
    quant q (x + m) = quant q x + m := by
  rw [quant_eq_up, quant_eq_up, Int.floor_add_intCast, Int.fract_add_intCast]
  have e1 : (⌊x⌋ + m) % 2 = ⌊x⌋ % 2 := by omega
  have e2 : (⌊x⌋ + m < 0) ↔ (⌊x⌋ < 0) := by
    rw [← neg_iff_floor_neg x, hs, neg_iff_floor_neg (x + m), Int.floor_add_intCast]
  have : up q (⌊x⌋ + m < 0) ((⌊x⌋ + m) % 2 = 1) (Int.fract x = 0) (1 / 2 ≤ Int.fract x) (1 / 2 < Int.fract x) =
      up q (⌊x⌋ < 0) (⌊x⌋ % 2 = 1) (Int.fract x = 0) (1 / 2 ≤ Int.fract x) (1 / 2 < Int.fract x) := by
    cases q <;> simp only [up, e1, e2]
  rw [this]; ring

/-- The modes whose result does not depend on the sign. -/
def QMode.signFree (q : QMode) : Bool :=
  match q with
  | .TRN | .RND | .RND_MIN_INF | .RND_CONV | .RND_CONV_ODD => true
  | .TRN_ZERO | .RND_ZERO | .RND_INF => false

theorem quant_add_int' {q : QMode} (hq : q.signFree = true) (x : R) (m : ℤ) (hm : m % 2 = 0) :
    quant q (x + m) = quant q x + m := by
  rw [quant_eq_up, quant_eq_up, Int.floor_add_intCast, Int.fract_add_intCast]
  have e1 : (⌊x⌋ + m) % 2 = ⌊x⌋ % 2 := by omega
  have : up q (⌊x⌋ + m < 0) ((⌊x⌋ + m) % 2 = 1) (Int.fract x = 0) (1 / 2 ≤ Int.fract x) (1 / 2 < Int.fract x) =
      up q (⌊x⌋ < 0) (⌊x⌋ % 2 = 1) (Int.fract x = 0) (1 / 2 ≤ Int.fract x) (1 / 2 < Int.fract x) := by
    cases q <;> simp [QMode.signFree] at hq <;> simp only [up, e1]
  rw [this]; ring

/-- Rounding is monotone. -/
theorem quant_mono (q : QMode) {x y : R} (h : x ≤ y) : quant q x ≤ quant q y := by
  have hf : ⌊x⌋ ≤ ⌊y⌋ := Int.floor_le_floor h
  rcases lt_or_eq_of_le hf with hlt | heq
  · have := quant_le_floor_add_one q x
    have := floor_le_quant q y
    omega
  · rw [quant_eq_up, quant_eq_up, heq]
    have hfr : Int.fract x ≤ Int.fract y := by
      have h1 := Int.floor_add_fract x
      have h2 := Int.floor_add_fract y
      have h3 : (⌊x⌋ : R) = ⌊y⌋ := by exact_mod_cast heq
      linarith
    have i1 : (1 : R) / 2 ≤ Int.fract x → 1 / 2 ≤ Int.fract y := fun h => le_trans h hfr
    have i2 : (1 : R) / 2 < Int.fract x → 1 / 2 < Int.fract y := fun h => lt_of_lt_of_le h hfr
    have i3 : Int.fract y = 0 → Int.fract x = 0 := fun h => le_antisymm (h ▸ hfr) (Int.fract_nonneg x)
    have : up q (⌊y⌋ < 0) (⌊y⌋ % 2 = 1) (Int.fract x = 0) (1 / 2 ≤ Int.fract x) (1 / 2 < Int.fract x) = true →
        up q (⌊y⌋ < 0) (⌊y⌋ % 2 = 1) (Int.fract y = 0) (1 / 2 ≤ Int.fract y) (1 / 2 < Int.fract y) = true := by
      cases q <;> simp only [up, decide_eq_true_eq]
      · simp
      · exact i1
      · exact fun h => ⟨h.1, fun h' => h.2 (i3 h')⟩
      · by_cases hn : ⌊y⌋ < 0 <;> simp only [hn, if_true, if_false, decide_eq_true_eq]
        · exact i1
        · exact i2
      · by_cases hn : ⌊y⌋ < 0 <;> simp only [hn, if_true, if_false, decide_eq_true_eq]
        · exact i2
        · exact i1
      · exact i2
      · rintro (h | h)
        · exact Or.inl (i2 h)
        · exact Or.inr ⟨i1 h.1, h.2⟩
      · rintro (h | h)
        · exact Or.inl (i2 h)
        · exact Or.inr ⟨i1 h.1, h.2⟩
    by_cases hu : up q (⌊y⌋ < 0) (⌊y⌋ % 2 = 1) (Int.fract x = 0) (1 / 2 ≤ Int.fract x) (1 / 2 < Int.fract x) = true
    · rw [if_pos hu, if_pos (this hu)]
    · rw [if_neg hu]; split_ifs <;> omega

/-- Rounding does not depend on the field the number is seen in. -/
theorem quant_ratCast (q : QMode) (x : ℚ) : quant q (x : R) = quant q x := by
  have hfl : ⌊(x : R)⌋ = ⌊x⌋ := Rat.floor_cast x
  have hfr : Int.fract (x : R) = ((Int.fract x : ℚ) : R) := by
    unfold Int.fract; rw [hfl]; push_cast; rfl
  apply quant_congr q hfl
  · rw [hfr]; exact_mod_cast Iff.rfl
  · rw [hfr, show (1 / 2 : R) = ((1 / 2 : ℚ) : R) by push_cast; rfl, Rat.cast_le]
  · rw [hfr, show (1 / 2 : R) = ((1 / 2 : ℚ) : R) by push_cast; rfl, Rat.cast_lt]

end Quant

end Ac
