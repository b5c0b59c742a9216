import Verif.Ac.Cvt

/-! # Result types of ac_fixed arithmetic

`ac_fixed<W,I,S>::rt` of ac_fixed.h (not in /repo; part of the trusted base).  An ac_int is the case `W = I`.
The lemmas show that `+`, `-` and `*` are exact in these types, so that the model may write exact rational arithmetic
wherever the code combines ac_fixed operands without an intermediate assignment. -/

namespace Ac
namespace Fmt

/-- Integer bits of an operand once both operands are made signed if one of them is. -/
def widI (f g : Fmt) : ℤ := f.I + (if g.S ∧ ¬ f.S then 1 else 0)

/-- Format from integer bits, fraction bits and sign; default modes. -/
def mk' (I F : ℤ) (S : Bool) : Fmt := ⟨(I + F).toNat, I, S, .TRN, .WRAP⟩

/-- Result type of `+`. -/
def plus (f g : Fmt) : Fmt := mk' (max (f.widI g) (g.widI f) + 1) (max f.F g.F) (f.S || g.S)

/-- Result type of `-`. -/
def minus (f g : Fmt) : Fmt := mk' (max (f.widI g) (g.widI f) + 1) (max f.F g.F) true

/-- Result type of `*`. -/
def mult (f g : Fmt) : Fmt := ⟨f.W + g.W, f.I + g.I, f.S || g.S, .TRN, .WRAP⟩

/-- `rt_unary::set<n>::sum`: room for `n` terms. -/
def sumOf (n : ℕ) (f : Fmt) : Fmt := ⟨f.W + log2Ceil n, f.I + log2Ceil n, f.S, .TRN, .WRAP⟩

/-- Bounds of the representable values, half open. -/
def Bnd (f : Fmt) (x : ℚ) : Prop :=
  if f.S then -2 ^ (f.I - 1) ≤ x ∧ x < 2 ^ (f.I - 1) else 0 ≤ x ∧ x < 2 ^ f.I

/-- On the grid of the format. -/
def Grid (f : Fmt) (x : ℚ) : Prop := ∃ r : ℤ, x = f.val r

theorem z_pos (k : ℤ) : (0 : ℚ) < 2 ^ k := two_zpow_pos k

theorem z_add (a b : ℤ) : (2 : ℚ) ^ a * 2 ^ b = 2 ^ (a + b) := (zpow_add₀ (by norm_num) a b).symm

theorem z_le {a b : ℤ} (h : a ≤ b) : (2 : ℚ) ^ a ≤ 2 ^ b := zpow_le_zpow_right₀ (by norm_num) h

theorem z_succ (a : ℤ) : (2 : ℚ) ^ (a + 1) = 2 * 2 ^ a := by rw [zpow_add₀ (by norm_num)]; norm_num; ring

theorem rep_iff {f : Fmt} (hW : 1 ≤ f.W) (x : ℚ) : f.Rep x ↔ f.Bnd x ∧ f.Grid x := by
  have hp := z_pos (-f.F)
  have hkey : ∀ (n : ℕ) (k : ℤ), k = (n : ℤ) - f.F → ((2 ^ n : ℤ) : ℚ) * 2 ^ (-f.F) = 2 ^ k := by
    intro n k hk
    push_cast
    rw [← zpow_natCast, z_add, hk]; congr 1
  have e1 : ((2 ^ f.W : ℤ) : ℚ) * 2 ^ (-f.F) = 2 ^ f.I := hkey _ _ (by unfold Fmt.F; ring)
  have e2 : ((2 ^ (f.W - 1) : ℤ) : ℚ) * 2 ^ (-f.F) = 2 ^ (f.I - 1) := hkey _ _ (by unfold Fmt.F; push_cast [hW]; ring)
  have hle : ∀ a b : ℤ, a ≤ b ↔ (a : ℚ) * 2 ^ (-f.F) ≤ (b : ℚ) * 2 ^ (-f.F) := by
    intro a b; rw [mul_le_mul_iff_left₀ hp]; exact_mod_cast Iff.rfl
  have hlt : ∀ a b : ℤ, a < b ↔ (a : ℚ) * 2 ^ (-f.F) < (b : ℚ) * 2 ^ (-f.F) := by
    intro a b; rw [mul_lt_mul_iff_left₀ hp]; exact_mod_cast Iff.rfl
  unfold Rep Bnd Grid
  constructor
  · rintro ⟨r, h0, h1, rfl⟩
    refine ⟨?_, r, rfl⟩
    unfold Fmt.val
    cases hS : f.S
    · rw [hS] at h0 h1
      simp only [minRaw, maxRaw, Bool.false_eq_true, if_false] at h0 h1 ⊢
      refine ⟨mul_nonneg (by exact_mod_cast h0) hp.le, ?_⟩
      rw [← e1, ← hlt]; omega
    · rw [hS] at h0 h1
      simp only [minRaw, maxRaw, if_true] at h0 h1 ⊢
      rw [← e2]
      constructor
      · have := (hle _ _).mp h0
        push_cast at this ⊢; linarith
      · rw [← hlt]; omega
  · rintro ⟨hb, r, rfl⟩
    refine ⟨r, ?_, ?_, rfl⟩
    all_goals
      unfold Fmt.val at hb
      cases hS : f.S
      · simp only [hS, Bool.false_eq_true, if_false] at hb
        obtain ⟨h0, h1⟩ := hb
        rw [← e1, ← hlt] at h1
        have h0' : 0 ≤ r := by
          have := (hle 0 r).mpr (by simpa using h0); exact this
        simp [minRaw, maxRaw]; omega
      · simp only [hS, if_true] at hb
        obtain ⟨h0, h1⟩ := hb
        rw [← e2] at h0 h1
        rw [← hlt] at h1
        have h0' : -2 ^ (f.W - 1) ≤ r := by
          apply (hle _ _).mpr; push_cast at h0 ⊢; linarith
        simp [minRaw, maxRaw]; omega

/-- Assigning a representable value to a wrapping variable stores it exactly. -/
theorem cvt_rep {f : Fmt} (hW : 1 ≤ f.W) (hO : f.O ≠ .SAT_SYM) {x : ℚ} (h : f.Rep x) : f.cvt x = x := by
  obtain ⟨r, h0, h1, rfl⟩ := h
  apply cvt_val hW _ h1
  revert hO h0
  cases f.O <;> simp [loRaw]

/-- Assigning a stored value again changes nothing. -/
theorem cvt_idem {f : Fmt} (hW : 1 ≤ f.W) (x : ℚ) : f.cvt (f.cvt x) = f.cvt x := by
  have h := ovf_range (S := f.S) hW f.O (quant f.Q (x * 2 ^ f.F))
  refine cvt_val hW ?_ h.2
  unfold cvtRaw
  unfold loRaw
  split_ifs with hc
  · rw [hc.1]
    simp only [ovf, hc.2, if_true]
    have := maxRaw_nonneg f.W true
    split_ifs <;> omega
  · exact h.1

theorem cvt_zero' {f : Fmt} (hW : 1 ≤ f.W) : f.cvt (0 : ℚ) = 0 := by
  have h := cvt_val (f := f) hW (r := 0) (loRaw_nonpos _ _ _) (maxRaw_nonneg _ _)
  rwa [show f.val 0 = 0 by simp [val]] at h

theorem grid_mono {f g : Fmt} (h : f.F ≤ g.F) {x : ℚ} (hx : f.Grid x) : g.Grid x := by
  obtain ⟨r, rfl⟩ := hx
  refine ⟨r * 2 ^ (g.F - f.F).toNat, ?_⟩
  unfold Fmt.val
  push_cast
  rw [mul_assoc, ← zpow_natCast, z_add]; congr 2; omega

theorem grid_add {f : Fmt} {x y : ℚ} (hx : f.Grid x) (hy : f.Grid y) : f.Grid (x + y) := by
  obtain ⟨r, rfl⟩ := hx
  obtain ⟨s, rfl⟩ := hy
  exact ⟨r + s, by unfold Fmt.val; push_cast; ring⟩

theorem grid_neg {f : Fmt} {x : ℚ} (hx : f.Grid x) : f.Grid (-x) := by
  obtain ⟨r, rfl⟩ := hx
  exact ⟨-r, by unfold Fmt.val; push_cast; ring⟩

theorem grid_sub {f : Fmt} {x y : ℚ} (hx : f.Grid x) (hy : f.Grid y) : f.Grid (x - y) := by
  rw [sub_eq_add_neg]; exact grid_add hx (grid_neg hy)

theorem grid_zero (f : Fmt) : f.Grid 0 := ⟨0, by unfold Fmt.val; simp⟩

/-- The width of `mk'` is positive and its fraction bits are `F`. -/
theorem mk'_F {I F : ℤ} {S : Bool} (h : 0 ≤ I + F) : (mk' I F S).F = F := by
  unfold mk' Fmt.F; simp only; omega

/-- Bounds as a symmetric statement usable for both signs. -/
theorem bnd_signed {f : Fmt} {x : ℚ} (h : f.Bnd x) {I : ℤ} (hI : (f.I + if f.S then 0 else 1) ≤ I) :
    -2 ^ (I - 1) ≤ x ∧ x < 2 ^ (I - 1) := by
  unfold Bnd at h
  have hp := z_pos (I - 1)
  cases hS : f.S <;> simp only [hS, Bool.false_eq_true, if_false, if_true] at h hI
  · have : (2 : ℚ) ^ f.I ≤ 2 ^ (I - 1) := z_le (by omega)
    constructor <;> linarith
  · have : (2 : ℚ) ^ (f.I - 1) ≤ 2 ^ (I - 1) := z_le (by omega)
    constructor <;> linarith

theorem widI_ge (f g : Fmt) : f.I ≤ f.widI g := by unfold widI; split_ifs <;> omega

theorem widths_pos {f g : Fmt} (hf : 1 ≤ f.W) : 1 ≤ max (f.widI g) (g.widI f) + 1 + max f.F g.F := by
  have h1 := widI_ge f g
  have h2 := le_max_left (f.widI g) (g.widI f)
  have h3 := le_max_left f.F g.F
  unfold Fmt.F at *
  omega

/-- `+` is exact in its result type. -/
theorem rep_plus {f g : Fmt} (hf : 1 ≤ f.W) (hg : 1 ≤ g.W) {x y : ℚ} (hx : f.Rep x) (hy : g.Rep y) :
    (f.plus g).Rep (x + y) := by
  rw [rep_iff hf] at hx
  rw [rep_iff hg] at hy
  have hw := widths_pos (g := g) hf
  set I := max (f.widI g) (g.widI f) with hI
  have hW : 1 ≤ (f.plus g).W := by unfold plus mk'; simp only; rw [← hI]; omega
  have hF : (f.plus g).F = max f.F g.F := mk'_F (by rw [← hI]; omega)
  rw [rep_iff hW]
  refine ⟨?_, grid_add (grid_mono (by rw [hF]; exact le_max_left _ _) hx.2)
    (grid_mono (by rw [hF]; exact le_max_right _ _) hy.2)⟩
  have i1 : f.widI g ≤ I := le_max_left _ _
  have i2 : g.widI f ≤ I := le_max_right _ _
  unfold widI at i1 i2
  have hsg : (f.plus g).S = (f.S || g.S) := rfl
  have hIe : (f.plus g).I = I + 1 := rfl
  unfold Bnd
  rw [hsg, hIe, z_succ, add_sub_cancel_right]
  have e : (2 : ℚ) ^ I = 2 * 2 ^ (I - 1) := by rw [← z_succ]; congr 1; ring
  cases hSf : f.S <;> cases hSg : g.S <;> simp [hSf, hSg] at i1 i2 ⊢
  · have a := hx.1
    have b := hy.1
    simp only [Bnd, hSf, hSg, Bool.false_eq_true, if_false] at a b
    have : (2 : ℚ) ^ f.I ≤ 2 ^ I := z_le i1
    have : (2 : ℚ) ^ g.I ≤ 2 ^ I := z_le i2
    constructor <;> linarith
  all_goals
    have a := bnd_signed hx.1 (I := I) (by simp [hSf]; omega)
    have b := bnd_signed hy.1 (I := I) (by simp [hSg]; omega)
    constructor <;> linarith

/-- `-` is exact in its result type. -/
theorem rep_minus {f g : Fmt} (hf : 1 ≤ f.W) (hg : 1 ≤ g.W) {x y : ℚ} (hx : f.Rep x) (hy : g.Rep y) :
    (f.minus g).Rep (x - y) := by
  rw [rep_iff hf] at hx
  rw [rep_iff hg] at hy
  have hw := widths_pos (g := g) hf
  set I := max (f.widI g) (g.widI f) with hI
  have hW : 1 ≤ (f.minus g).W := by unfold minus mk'; simp only; rw [← hI]; omega
  have hF : (f.minus g).F = max f.F g.F := mk'_F (by rw [← hI]; omega)
  rw [rep_iff hW]
  refine ⟨?_, grid_sub (grid_mono (by rw [hF]; exact le_max_left _ _) hx.2)
    (grid_mono (by rw [hF]; exact le_max_right _ _) hy.2)⟩
  have i1 : f.widI g ≤ I := le_max_left _ _
  have i2 : g.widI f ≤ I := le_max_right _ _
  unfold widI at i1 i2
  have hIe : (f.minus g).I = I + 1 := rfl
  have hsg : (f.minus g).S = true := rfl
  unfold Bnd
  rw [hsg, hIe, add_sub_cancel_right, if_pos rfl]
  have e : (2 : ℚ) ^ I = 2 * 2 ^ (I - 1) := by rw [← z_succ]; congr 1; ring
  cases hSf : f.S <;> cases hSg : g.S <;> simp [hSf, hSg] at i1 i2
  · have a := hx.1
    have b := hy.1
    simp only [Bnd, hSf, hSg, Bool.false_eq_true, if_false] at a b
    have : (2 : ℚ) ^ f.I ≤ 2 ^ I := z_le i1
    have : (2 : ℚ) ^ g.I ≤ 2 ^ I := z_le i2
    constructor <;> linarith
  all_goals
    have a := bnd_signed hx.1 (I := I) (by simp [hSf]; omega)
    have b := bnd_signed hy.1 (I := I) (by simp [hSg]; omega)
    constructor <;> linarith

theorem mult_F (f g : Fmt) : (f.mult g).F = f.F + g.F := by unfold mult Fmt.F; simp only; push_cast; ring

theorem grid_mult {f g : Fmt} {x y : ℚ} (hx : f.Grid x) (hy : g.Grid y) : (f.mult g).Grid (x * y) := by
  obtain ⟨r, rfl⟩ := hx
  obtain ⟨s, rfl⟩ := hy
  refine ⟨r * s, ?_⟩
  unfold Fmt.val
  rw [mult_F, neg_add, ← z_add]; push_cast; ring

/-- `*` is exact in its result type; moreover the largest product leaves one value of room unless both operands are
signed. -/
theorem rep_mult {f g : Fmt} (hf : 1 ≤ f.W) (hg : 1 ≤ g.W) {x y : ℚ} (hx : f.Rep x) (hy : g.Rep y) :
    (f.mult g).Rep (x * y) := by
  rw [rep_iff hf] at hx
  rw [rep_iff hg] at hy
  have hW : 1 ≤ (f.mult g).W := by unfold mult; simp only; omega
  rw [rep_iff hW]
  refine ⟨?_, grid_mult hx.2 hy.2⟩
  have hsg : (f.mult g).S = (f.S || g.S) := rfl
  have hIe : (f.mult g).I = f.I + g.I := rfl
  have a := hx.1
  have b := hy.1
  unfold Bnd at *
  rw [hsg, hIe]
  have p1 := z_pos f.I
  have p2 := z_pos g.I
  have p3 := z_pos (f.I - 1)
  have p4 := z_pos (g.I - 1)
  cases hSf : f.S <;> cases hSg : g.S <;> simp only [hSf, hSg, Bool.false_eq_true, if_false, if_true, Bool.or_false,
    Bool.or_true, Bool.false_or] at a b ⊢
  · refine ⟨mul_nonneg a.1 b.1, ?_⟩
    rw [← z_add]
    exact mul_lt_mul'' a.2 b.2 a.1 b.1
  · have e : (2 : ℚ) ^ (f.I + g.I - 1) = 2 ^ f.I * 2 ^ (g.I - 1) := by rw [z_add]; congr 1; ring
    rw [e]
    constructor
    · have h1 := mul_le_mul_of_nonneg_left b.1 a.1
      have h2 := mul_le_mul_of_nonneg_right a.2.le p4.le
      linarith
    · have h1 := mul_le_mul_of_nonneg_left b.2.le a.1
      have h2 := mul_lt_mul_of_pos_right a.2 p4
      linarith
  · have e : (2 : ℚ) ^ (f.I + g.I - 1) = 2 ^ (f.I - 1) * 2 ^ g.I := by rw [z_add]; congr 1; ring
    rw [e]
    constructor
    · have h1 := mul_le_mul_of_nonneg_right a.1 b.1
      have h2 := mul_le_mul_of_nonneg_left b.2.le p3.le
      linarith
    · have h1 := mul_le_mul_of_nonneg_right a.2.le b.1
      have h2 := mul_lt_mul_of_pos_left b.2 p3
      linarith
  · have e : (2 : ℚ) ^ (f.I + g.I - 1) = 2 * (2 ^ (f.I - 1) * 2 ^ (g.I - 1)) := by
      rw [z_add, ← z_succ]; congr 1; ring
    rw [e]
    have ha : |x| ≤ 2 ^ (f.I - 1) := abs_le.mpr ⟨a.1, a.2.le⟩
    have hb : |y| ≤ 2 ^ (g.I - 1) := abs_le.mpr ⟨b.1, b.2.le⟩
    have hab : |x * y| ≤ 2 ^ (f.I - 1) * 2 ^ (g.I - 1) := by
      rw [abs_mul]; exact mul_le_mul ha hb (abs_nonneg _) p3.le
    have hpp := mul_pos p3 p4
    have := abs_le.mp hab
    constructor <;> linarith

end Fmt
end Ac
