import Verif.Proof.AtanReal
import Verif.Proof.PwlHa
import Verif.Proof.Reciprocal
import Verif.Model.Atan
import Mathlib.Analysis.Real.Pi.Bounds

/-! # Lemmas for C43 -/

namespace Proof.Atan
open Ac Model.Pwl Model.PwlFixed Model.PwlHa Model.Atan Proof.Pwl Proof.PwlFixed

/-- What is checked of a table of `2^ib` segments, on the 64 cells of the grid: it stays within `e` of the bounds of the
arctangent. `r` is the number of cells in a segment. -/
def cellOk (m c : List ℤ) (p r : ℕ) (e : ℚ) (j : ℕ) : Bool :=
  let mi := m.getD (j / r) 0
  let P0 : ℚ := (c.getD (j / r) 0 * r + mi * (j % r : ℕ) : ℤ) / (2 ^ p * r : ℕ)
  let P1 : ℚ := P0 + mi / (2 ^ p * r : ℕ)
  let s : ℚ := 1 / 128 * (1 / (1 + ((2 * j + 1 : ℚ) / 128) ^ 2))
  decide (P0 ≤ lo (2 * j) / 2 ^ 40 + e) && decide (P1 ≤ lo (2 * j + 2) / 2 ^ 40 + e) &&
  decide (up (2 * j + 1) / 2 ^ 40 - s ≤ P0 + e) && decide (up (2 * j + 1) / 2 ^ 40 + s ≤ P1 + e)

structure Good (m c : List ℤ) (p ib fb : ℕ) (pi2 e : ℚ) : Prop where
  lm : m.length = 2 ^ ib
  lc : c.length = 2 ^ ib
  pos : ∀ i < 2 ^ ib, 0 ≤ m.getD i 0
  step : ∀ i < 2 ^ ib - 1, c.getD i 0 + m.getD i 0 ≤ c.getD (i + 1) 0
  bd : ∀ i < 2 ^ ib, 0 ≤ c.getD i 0 ∧ 0 ≤ c.getD i 0 + m.getD i 0 ∧ c.getD i 0 ≤ 2 ^ p ∧ c.getD i 0 + m.getD i 0 ≤ 2 ^ p
  ib6 : ib ≤ 6
  fbi : ib < fb
  cells : ∀ j < 64, cellOk m c p (2 ^ (6 - ib)) e j = true
  half : ∃ R : ℤ, pi2 = R / 2 ^ (p + (fb - ib)) ∧ 2 ^ (p + (fb - ib)) ≤ R ∧ R < 2 ^ (p + (fb - ib) + 1) ∧
    2 * segRaw m c (fb - ib) (2 ^ fb - 1) ≤ R

variable {m c : List ℤ} {p ib fb : ℕ} {pi2 e : ℚ}

/-- The table as a function of an argument below one. -/
def A (m c : List ℤ) (p ib : ℕ) (n : ℚ) : ℚ := pw (tab m p) (tab c p) (n * 2 ^ ib)

theorem A_mono (G : Good m c p ib fb pi2 e) {a b : ℚ} (h0 : 0 ≤ a) (h : a ≤ b) (h1 : b < 1) : A m c p ib a ≤ A m c p ib b := by
  have hI : (0 : ℚ) < 2 ^ ib := by positivity
  have hP : (0 : ℚ) < 2 ^ p := by positivity
  refine pw_mono (n := 2 ^ ib) ?_ ?_ (by positivity) (mul_le_mul_of_nonneg_right h hI.le) ?_
  · intro i hi
    unfold tab fx
    exact div_nonneg (by exact_mod_cast G.pos i hi) hP.le
  · intro i hi
    unfold tab fx
    rw [← add_div]
    exact div_le_div_of_nonneg_right (by exact_mod_cast G.step i (by omega)) hP.le
  · push_cast
    have := mul_lt_mul_of_pos_right h1 hI
    linarith

theorem A_err (G : Good m c p ib fb pi2 e) {n : ℚ} (h0 : 0 ≤ n) (h1 : n < 1) :
    |(A m c p ib n : ℝ) - Real.arctan n| ≤ (e : ℝ) := by
  obtain ⟨j, hj, -, l1, l2⟩ := cell (N := 0) (ib := 6) (v := n * 64) (by linarith) (by norm_num; linarith)
  rw [pow_zero, mul_one] at hj l1 l2
  norm_num at hj
  have hc := G.cells j hj
  unfold cellOk at hc
  simp only [Bool.and_eq_true, decide_eq_true_eq] at hc
  obtain ⟨⟨⟨c1, c2⟩, c3⟩, c4⟩ := hc
  have hr : (0 : ℕ) < 2 ^ (6 - ib) := by positivity
  have hrI : 2 ^ (6 - ib) * 2 ^ ib = 64 := by rw [← pow_add, Nat.sub_add_cancel G.ib6]; norm_num
  set r := 2 ^ (6 - ib) with hrd
  have hrq : (0 : ℚ) < r := by exact_mod_cast hr
  have hrIq : (r : ℚ) * 2 ^ ib = 64 := by exact_mod_cast hrI
  have hI : n * 2 ^ ib = n * 64 / r := by
    rw [eq_div_iff hrq.ne', mul_assoc, mul_comm ((2 : ℚ) ^ ib), hrIq]
  have hdm : r * (j / r) + j % r = j := Nat.div_add_mod j r
  have hdmq : (r : ℚ) * (j / r : ℕ) + (j % r : ℕ) = j := by exact_mod_cast hdm
  have hmod : j % r < r := Nat.mod_lt _ hr
  generalize j / r = i at *
  generalize j % r = u at *
  have hu0 : (0 : ℚ) ≤ u := Nat.cast_nonneg u
  have hu1 : (u : ℚ) + 1 ≤ r := by exact_mod_cast hmod
  have hfl : ⌊n * 2 ^ ib⌋ = ((i : ℕ) : ℤ) := by
    rw [hI, Int.floor_eq_iff]
    constructor
    · rw [le_div_iff₀ hrq]
      rw [Int.cast_natCast]
      linarith
    · rw [div_lt_iff₀ hrq]
      rw [Int.cast_natCast]
      linarith
  have hA : A m c p ib n = tab m p i * (n * 64 / r - i) + tab c p i := by
    unfold A pw
    rw [Int.fract, hfl, Int.toNat_natCast, hI]; push_cast; rfl
  set P0 : ℚ := ((c.getD i 0 * r + m.getD i 0 * u : ℤ) : ℚ) / (2 ^ p * r : ℕ) with hP0
  set P1 : ℚ := P0 + m.getD i 0 / (2 ^ p * r : ℕ) with hP1
  have hP : (0 : ℚ) < 2 ^ p := by positivity
  have key : A m c p ib n = (1 - (n * 64 - j)) * P0 + (n * 64 - j) * P1 := by
    rw [hA, hP1, hP0]
    unfold tab fx
    have e1 : (u : ℚ) = (j : ℚ) - r * i := by linarith
    push_cast
    rw [e1]
    field_simp
    ring
  have := cell_err c1 c2 c3 c4 (t := ((n * 64 - j : ℚ) : ℝ)) (by exact_mod_cast (by linarith : 0 ≤ n * 64 - j))
    (by exact_mod_cast (by linarith : n * 64 - j ≤ 1))
  have e2 : ((j : ℝ) + ((n * 64 - j : ℚ) : ℝ)) / 64 = n := by push_cast; ring
  rw [e2] at this
  rw [key]
  push_cast at this ⊢
  exact this

/-- The type of the normalized input. -/
def nf (fb : ℕ) (q : QMode) : Fmt := ⟨fb, 0, false, q, .SAT⟩

theorem nf_F (fb : ℕ) (q : QMode) : (nf fb q).F = (fb : ℤ) := by unfold nf Fmt.F; simp

theorem nf_max (fb : ℕ) (q : QMode) : (nf fb q).maxVal = 1 - 1 / 2 ^ fb := by
  unfold Fmt.maxVal Fmt.val
  rw [nf_F, zpow_neg, zpow_natCast]
  have : maxRaw (nf fb q).W (nf fb q).S = 2 ^ fb - 1 := by simp [nf, maxRaw]
  rw [this]
  push_cast
  have : (2 : ℚ) ^ fb ≠ 0 := by positivity
  field_simp

/-- A value of the normalized input. -/
theorem nf_rep (hfb : 1 ≤ fb) (q : QMode) (w : ℚ) : ∃ k : ℕ, k < 2 ^ fb ∧ (nf fb q).cvt w = ((k : ℕ) : ℤ) / 2 ^ fb := by
  obtain ⟨r, r0, r1, hr⟩ := Fmt.rep_cvt (f := nf fb q) hfb w
  simp [nf, minRaw, maxRaw] at r0 r1
  refine ⟨r.toNat, ?_, ?_⟩
  · have : (r.toNat : ℤ) < (2 ^ fb : ℕ) := by rw [Int.toNat_of_nonneg r0]; push_cast; omega
    exact_mod_cast this
  · rw [hr, Int.toNat_of_nonneg r0]
    unfold Fmt.val; rw [nf_F, zpow_neg, zpow_natCast, div_eq_mul_inv]

theorem nf_range (hfb : 1 ≤ fb) (q : QMode) (w : ℚ) : 0 ≤ (nf fb q).cvt w ∧ (nf fb q).cvt w ≤ 1 - 1 / 2 ^ fb := by
  obtain ⟨k, hk, e⟩ := nf_rep hfb q w
  have hP : (0 : ℚ) < 2 ^ fb := by positivity
  rw [e]
  refine ⟨by positivity, ?_⟩
  rw [div_le_iff₀ hP, sub_mul, one_mul, div_mul_cancel₀ _ hP.ne']
  have : (k : ℚ) + 1 ≤ 2 ^ fb := by exact_mod_cast hk
  push_cast; linarith

theorem nf_low (hfb : 1 ≤ fb) (q : QMode) {w : ℚ} (h0 : 0 ≤ w) (h1 : w ≤ 1 - 1 / 2 ^ fb) :
    |(nf fb q).cvt w - w| ≤ 1 / 2 ^ fb := by
  have hP : (0 : ℚ) < 2 ^ fb := by positivity
  have a0 : ((loRaw (nf fb q).W (nf fb q).S (nf fb q).O : ℤ) : ℚ) ≤ w * 2 ^ (nf fb q).F := by
    have : ((loRaw (nf fb q).W (nf fb q).S (nf fb q).O : ℤ) : ℚ) ≤ 0 := by exact_mod_cast loRaw_nonpos _ _ _
    have := mul_nonneg h0 (Fmt.z_pos (nf fb q).F).le
    linarith
  have a1 : w * 2 ^ (nf fb q).F ≤ ((maxRaw (nf fb q).W (nf fb q).S : ℤ) : ℚ) := by
    have : maxRaw (nf fb q).W (nf fb q).S = 2 ^ fb - 1 := by simp [nf, maxRaw]
    rw [this, nf_F, zpow_natCast]
    push_cast
    have := mul_le_mul_of_nonneg_right h1 hP.le
    rw [sub_mul, one_mul, div_mul_cancel₀ _ hP.ne'] at this
    exact this
  have := Fmt.cvt_err (f := nf fb q) hfb a0 a1
  rw [nf_F, zpow_neg, zpow_natCast] at this
  have h : |(nf fb q).cvt w - w| < (2 ^ fb)⁻¹ := by simpa using this
  rw [one_div]; exact h.le

theorem nf_mono (q : QMode) {w w' : ℚ} (h : w ≤ w') : (nf fb q).cvt w ≤ (nf fb q).cvt w' :=
  Fmt.cvt_mono (Or.inl rfl) h

theorem nf_high (hfb : 1 ≤ fb) (q : QMode) {w : ℚ} (h1 : 1 - 1 / 2 ^ fb ≤ w) : (nf fb q).cvt w = 1 - 1 / 2 ^ fb := by
  apply le_antisymm (nf_range hfb q w).2
  have a := nf_mono (fb := fb) q h1
  have : (nf fb q).cvt (1 - 1 / 2 ^ fb : ℚ) = 1 - 1 / 2 ^ fb := by
    rw [← nf_max fb q]
    unfold Fmt.maxVal
    exact Fmt.cvt_val (f := nf fb q) hfb (le_trans (loRaw_nonpos _ _ _) (maxRaw_nonneg _ _)) le_rfl
  rw [this] at a; exact a

theorem nf_err (hfb : 1 ≤ fb) (q : QMode) {w u ε : ℚ} (h0 : 0 ≤ w) (hu1 : u ≤ 1) (hε : |w - u| ≤ ε) :
    |(nf fb q).cvt w - u| ≤ ε + 1 / 2 ^ fb := by
  have hP : (0 : ℚ) < 1 / 2 ^ fb := by positivity
  rcases le_total w (1 - 1 / 2 ^ fb) with h | h
  · have := nf_low hfb q h0 h
    calc |(nf fb q).cvt w - u| = |((nf fb q).cvt w - w) + (w - u)| := by ring_nf
      _ ≤ |(nf fb q).cvt w - w| + |w - u| := abs_add_le _ _
      _ ≤ _ := by linarith
  · rw [nf_high hfb q h]
    have := abs_le.1 hε
    rw [abs_le]
    constructor <;> linarith [abs_nonneg (w - u)]

/-- The body after the argument has been normalized. -/
theorem body (G : Good m c p ib fb pi2 e) (q : QMode) (w : ℚ) :
    segVal m c p ib (fb - ib) ((nf fb q).cvt w * 2 ^ ib) = some (A m c p ib ((nf fb q).cvt w)) ∧
    (⟨fb - ib + p + 1, 1, false, q, .WRAP⟩ : Fmt).cvt (A m c p ib ((nf fb q).cvt w)) = A m c p ib ((nf fb q).cvt w) ∧
    (⟨fb - ib + p + 1, 1, false, q, .WRAP⟩ : Fmt).cvt (pi2 - A m c p ib ((nf fb q).cvt w)) =
      pi2 - A m c p ib ((nf fb q).cvt w) ∧
    0 ≤ A m c p ib ((nf fb q).cvt w) ∧ 2 * A m c p ib ((nf fb q).cvt w) ≤ pi2 := by
  have hfb : 1 ≤ fb := by have := G.fbi; omega
  obtain ⟨k, hk, hn⟩ := nf_rep hfb q w
  have hr := nf_range hfb q w
  set n := (nf fb q).cvt w with hnd
  have hI : (0 : ℚ) < 2 ^ ib := by positivity
  have hP : (0 : ℚ) < 2 ^ fb := by positivity
  have hlt : n < 1 := by
    have : (0 : ℚ) < 1 / 2 ^ fb := by positivity
    linarith [hr.2]
  have hv0 : 0 ≤ n * 2 ^ ib := mul_nonneg hr.1 hI.le
  have hv1 : n * 2 ^ ib < 2 ^ ib := by have := mul_lt_mul_of_pos_right hlt hI; linarith
  have hg : n * 2 ^ ib = ((k : ℕ) : ℤ) / 2 ^ (fb - ib) := by
    have : (2 : ℚ) ^ fb = 2 ^ (fb - ib) * 2 ^ ib := by rw [← pow_add, Nat.sub_add_cancel G.fbi.le]
    rw [hn, this]; field_simp
  have hk2 : k < 2 ^ ib * 2 ^ (fb - ib) := by
    rw [← pow_add, Nat.add_sub_cancel' G.fbi.le]; exact hk
  have hAk : A m c p ib n = segRaw m c (fb - ib) k / 2 ^ (p + (fb - ib)) := by
    unfold A; rw [hg, pw_tab]
  obtain ⟨b1, b2⟩ := segRaw_bounds (m := m) (c := c) (n := fb - ib) (k := k) (N := 2 ^ ib) hk2 G.bd
  obtain ⟨R, hR, R1, R2, R3⟩ := G.half
  have hQ : (0 : ℤ) < 2 ^ (p + (fb - ib)) := by positivity
  rw [← pow_add] at b2
  rw [zero_mul] at b1
  set o : Fmt := ⟨fb - ib + p + 1, 1, false, q, .WRAP⟩ with ho
  have hF : o.F = (p + (fb - ib) : ℕ) := by simp [ho, Fmt.F]; ring
  have hmax : maxRaw o.W o.S = 2 * 2 ^ (p + (fb - ib)) - 1 := by
    simp [ho, maxRaw]; rw [show fb - ib + p + 1 = p + (fb - ib) + 1 by ring, pow_succ]; ring
  have hmin : minRaw o.W o.S = 0 := by simp [ho, minRaw]
  have w1 := cvt_word (f := o) (by simp [ho]) hF rfl (k := segRaw m c (fb - ib) k) (by rw [hmin]; exact b1) (by rw [hmax]; linarith)
  have hR2 : R < 2 * 2 ^ (p + (fb - ib)) := by rw [pow_succ] at R2; linarith
  have w2 := cvt_word (f := o) (by simp [ho]) hF rfl (k := R - segRaw m c (fb - ib) k) (by rw [hmin]; linarith)
    (by rw [hmax]; omega)
  refine ⟨?_, ?_, ?_, ?_, ?_⟩
  · rw [segVal_eq G.lm G.lc p _ hv0 hv1, trunc_grid hg]; rfl
  · rw [hAk]; exact w1.1
  · rw [hAk, hR, ← sub_div, ← Int.cast_sub]; exact w2.1
  · rw [hAk]; exact div_nonneg (by exact_mod_cast b1) (by positivity)
  · have h1 := A_mono G hr.1 hr.2 (by have : (0 : ℚ) < 1 / 2 ^ fb := by positivity
                                      linarith)
    have h2 : (1 - 1 / 2 ^ fb) * 2 ^ ib = (((2 ^ fb - 1 : ℕ) : ℤ) : ℚ) / 2 ^ (fb - ib) := by
      have : (2 : ℚ) ^ fb = 2 ^ (fb - ib) * 2 ^ ib := by rw [← pow_add, Nat.sub_add_cancel G.fbi.le]
      rw [Int.cast_natCast, Nat.cast_sub (Nat.one_le_two_pow), this]
      push_cast
      rw [this]
      field_simp
    have h3 : A m c p ib (1 - 1 / 2 ^ fb) = segRaw m c (fb - ib) (2 ^ fb - 1) / 2 ^ (p + (fb - ib)) := by
      unfold A; rw [h2, pw_tab]
    rw [h3] at h1
    have h4 : (2 * segRaw m c (fb - ib) (2 ^ fb - 1) : ℚ) ≤ R := by exact_mod_cast R3
    have h5 : 2 * ((segRaw m c (fb - ib) (2 ^ fb - 1) : ℚ) / 2 ^ (p + (fb - ib))) ≤ R / 2 ^ (p + (fb - ib)) := by
      rw [← mul_div_assoc]; exact div_le_div_of_nonneg_right h4 (by positivity)
    rw [hR]; linarith

/-- The value before it is converted to the output type, with `ρ` for the reciprocal. -/
def val (m c : List ℤ) (p ib fb : ℕ) (pi2 : ℚ) (q : QMode) (ρ : ℚ → ℚ) (x : ℚ) : ℚ :=
  if 1 < x then pi2 - A m c p ib ((nf fb q).cvt (ρ x)) else A m c p ib ((nf fb q).cvt x)

theorem exceeds {f : Fmt} (hS : f.S = false) {x : ℚ} (hx : f.Rep x) : (1 ≤ f.I ∧ 1 < x) ↔ 1 < x := by
  constructor
  · exact fun h => h.2
  · intro h
    refine ⟨?_, h⟩
    by_contra hI
    obtain ⟨r, -, r1, rfl⟩ := hx
    simp only [maxRaw, hS] at r1
    have : f.val r < 1 := by
      unfold Fmt.val Fmt.F
      rw [show -((f.W : ℤ) - f.I) = f.I - f.W by ring, zpow_sub₀ (by norm_num), zpow_natCast]
      have a : (r : ℚ) < 2 ^ f.W := by
        have : r < 2 ^ f.W := by simp at r1; omega
        exact_mod_cast this
      have b : (2 : ℚ) ^ f.I ≤ 1 := by
        have := Fmt.z_le (show f.I ≤ 0 by omega)
        simpa using this
      have hz := Fmt.z_pos f.I
      have hW : (0 : ℚ) < 2 ^ f.W := by positivity
      rw [mul_div_assoc', div_lt_one hW]
      calc (r : ℚ) * 2 ^ f.I < 2 ^ f.W * 2 ^ f.I := mul_lt_mul_of_pos_right a hz
        _ ≤ 2 ^ f.W * 1 := mul_le_mul_of_nonneg_left b hW.le
        _ = _ := by ring
    linarith

theorem atan_eq (G : Good m c p ib fb pi2 e) {rec : Fmt → Fmt → ℚ → Option ℚ} {q : QMode} {f out : Fmt} (hS : f.S = false)
    {ρ : ℚ → ℚ} {x : ℚ} (hρ : 1 < x → rec f (nf fb q) x = some ((nf fb q).cvt (ρ x))) (hx : f.Rep x) :
    atan m c p ib fb pi2 rec q f out x = some (out.cvt (val m c p ib fb pi2 q ρ x)) := by
  unfold atan val
  simp only [exceeds hS hx]
  by_cases h : 1 < x
  · simp only [h, if_true]
    have : (⟨fb, 0, false, q, .SAT⟩ : Fmt) = nf fb q := rfl
    rw [this, hρ h]
    obtain ⟨b1, b2, b3, -⟩ := body G q (ρ x)
    simp only [Option.bind_eq_bind, Option.bind_some, b1, b2, b3]
  · simp only [h, if_false]
    have : (⟨fb, 0, false, q, .SAT⟩ : Fmt) = nf fb q := rfl
    rw [this]
    obtain ⟨b1, b2, b3, -⟩ := body G q x
    simp only [Option.bind_eq_bind, Option.bind_some, b1, b2]

theorem atan_some (hm : m.length = 2 ^ ib) (hc : c.length = 2 ^ ib) {rec : Fmt → Fmt → ℚ → Option ℚ}
    (hr : ∀ f g x, (rec f g x).isSome) (q : QMode) (f out : Fmt) (x : ℚ) :
    (atan m c p ib fb pi2 rec q f out x).isSome := by
  unfold atan
  have hs : ∀ (n : ℚ) (g : ℚ → ℚ), ((segVal m c p ib (fb - ib) n).bind (fun y => some (g y))).isSome := by
    intro n g
    obtain ⟨y, hy⟩ := segVal_isSome hm hc p (fb - ib) n
    rw [hy]; rfl
  by_cases h : 1 ≤ f.I ∧ 1 < x
  · obtain ⟨n, hn⟩ := Option.isSome_iff_exists.1 (hr f ⟨fb, 0, false, q, .SAT⟩ x)
    simp only [h, hn, and_self, if_true, Option.bind_eq_bind, Option.bind_some]
    exact hs _ _
  · simp only [h, if_false, Option.bind_eq_bind, Option.bind_some]
    exact hs _ _

theorem val_mono (G : Good m c p ib fb pi2 e) (q : QMode) {ρ : ℚ → ℚ} {x x' : ℚ} (h : x ≤ x')
    (hρ : 1 < x → ρ x' ≤ ρ x) : val m c p ib fb pi2 q ρ x ≤ val m c p ib fb pi2 q ρ x' := by
  have hfb : 1 ≤ fb := by have := G.fbi; omega
  have hl : ∀ w, (nf fb q).cvt w < 1 := fun w => by
    have := (nf_range hfb q w).2
    have : (0 : ℚ) < 1 / 2 ^ fb := by positivity
    linarith
  unfold val
  by_cases h1 : 1 < x
  · rw [if_pos h1, if_pos (by linarith)]
    have := A_mono G (nf_range hfb q (ρ x')).1 (nf_mono q (hρ h1)) (hl _)
    linarith
  · rw [if_neg h1]
    by_cases h2 : 1 < x'
    · rw [if_pos h2]
      have a := (body G q x).2.2.2.2
      have b := (body G q (ρ x')).2.2.2.2
      linarith
    · rw [if_neg h2]
      exact A_mono G (nf_range hfb q x).1 (nf_mono q h) (hl _)

theorem val_range (G : Good m c p ib fb pi2 e) (q : QMode) (ρ : ℚ → ℚ) (x : ℚ) :
    0 ≤ val m c p ib fb pi2 q ρ x ∧ val m c p ib fb pi2 q ρ x ≤ pi2 := by
  unfold val
  split_ifs
  · obtain ⟨-, -, -, a, b⟩ := body G q (ρ x)
    constructor <;> linarith
  · obtain ⟨-, -, -, a, b⟩ := body G q x
    constructor <;> linarith

theorem val_err (G : Good m c p ib fb pi2 e) (q : QMode) {ρ : ℚ → ℚ} {x ε δ : ℚ} (hx0 : 0 ≤ x)
    (hπ : |(pi2 : ℝ) - Real.pi / 2| ≤ δ) (hρ : 1 < x → 0 < ρ x ∧ |ρ x * x - 1| ≤ ε) :
    (x ≤ 1 → |(val m c p ib fb pi2 q ρ x : ℝ) - Real.arctan x| ≤ ((e + 1 / 2 ^ fb : ℚ) : ℝ)) ∧
    (1 < x → |(val m c p ib fb pi2 q ρ x : ℝ) - Real.arctan x| ≤ ((δ + e + ε + 1 / 2 ^ fb : ℚ) : ℝ)) := by
  have hfb : 1 ≤ fb := by have := G.fbi; omega
  have hl : ∀ w, (nf fb q).cvt w < 1 := fun w => by
    have := (nf_range hfb q w).2
    have : (0 : ℚ) < 1 / 2 ^ fb := by positivity
    linarith
  unfold val
  constructor
  · intro h
    rw [if_neg (by linarith)]
    have a := A_err G (nf_range hfb q x).1 (hl x)
    have b := nf_err hfb q hx0 h (show |x - x| ≤ 0 by simp)
    rw [zero_add] at b
    have b' := Rat.cast_le (K := ℝ) |>.2 b
    rw [Rat.cast_abs, Rat.cast_sub] at b'
    have l := le_trans (lipschitz ((nf fb q).cvt x : ℚ) x) b'
    rw [Rat.cast_add]
    calc _ = |((A m c p ib ((nf fb q).cvt x) : ℚ) - Real.arctan ((nf fb q).cvt x : ℚ)) + (Real.arctan ((nf fb q).cvt x : ℚ) - Real.arctan x)| := by ring_nf
      _ ≤ _ := abs_add_le _ _
      _ ≤ _ := add_le_add a l
  · intro h
    rw [if_pos h]
    obtain ⟨r0, r1⟩ := hρ h
    have hx : 0 < x := by linarith
    have hu : |ρ x - 1 / x| ≤ ε := by
      have : ρ x - 1 / x = (ρ x * x - 1) / x := by field_simp
      rw [this, abs_div, abs_of_pos hx, div_le_iff₀ hx]
      have : 0 ≤ ε := le_trans (abs_nonneg _) r1
      nlinarith
    have hu1 : 1 / x ≤ 1 := by rw [div_le_one hx]; linarith
    have a := A_err G (nf_range hfb q (ρ x)).1 (hl (ρ x))
    have b := nf_err hfb q r0.le hu1 hu
    have b' := Rat.cast_le (K := ℝ) |>.2 b
    rw [Rat.cast_abs, Rat.cast_sub] at b'
    have l := le_trans (lipschitz ((nf fb q).cvt (ρ x) : ℚ) (1 / x : ℚ)) b'
    have hi := Real.arctan_inv_of_pos (x := (x : ℝ)) (by exact_mod_cast hx)
    have hinv : (((1 / x : ℚ)) : ℝ) = (x : ℝ)⁻¹ := by push_cast; ring
    rw [hinv, hi] at l
    rw [show δ + e + ε + 1 / 2 ^ fb = δ + (e + (ε + 1 / 2 ^ fb)) by ring, Rat.cast_add, Rat.cast_add e]
    set y : ℝ := ((A m c p ib ((nf fb q).cvt (ρ x)) : ℚ) : ℝ)
    calc |((pi2 - A m c p ib ((nf fb q).cvt (ρ x)) : ℚ) : ℝ) - Real.arctan x|
        = |((pi2 : ℝ) - Real.pi / 2) + (-(y - Real.arctan ((nf fb q).cvt (ρ x) : ℚ)) + -(Real.arctan ((nf fb q).cvt (ρ x) : ℚ) - (Real.pi / 2 - Real.arctan x)))| := by
          rw [Rat.cast_sub]; congr 1; change _ - y - _ = _; ring
      _ ≤ |(pi2 : ℝ) - Real.pi / 2| + |-(y - Real.arctan ((nf fb q).cvt (ρ x) : ℚ)) + -(Real.arctan ((nf fb q).cvt (ρ x) : ℚ) - (Real.pi / 2 - Real.arctan x))| := abs_add_le _ _
      _ ≤ _ := by
        refine add_le_add hπ (le_trans (abs_add_le _ _) ?_)
        rw [abs_neg, abs_neg]
        exact add_le_add a l

theorem good : Good atanM atanC 10 2 14 (1608 / 1024) (1 / 318) where
  lm := by decide
  lc := by decide
  pos := by decide
  step := by decide
  bd := by decide +kernel
  ib6 := by decide
  fbi := by decide
  cells := by rw [← allLt_iff]; decide +kernel
  half := ⟨1608 * 2 ^ 12, by norm_num, by norm_num, by norm_num, by decide +kernel⟩

theorem goodHa : Good atanHaM atanHaC 16 5 32 (3373259426 / 2147483648) (1 / 15051) where
  lm := by decide +kernel
  lc := by decide +kernel
  pos := by decide +kernel
  step := by decide +kernel
  bd := by decide +kernel
  ib6 := by decide
  fbi := by decide
  cells := by rw [← allLt_iff]; decide +kernel
  half := ⟨3373259426 * 2 ^ 12, by norm_num, by norm_num, by norm_num, by decide +kernel⟩

theorem goodVha : Good atanVhaM atanVhaC 18 6 15 (51471 / 32768) (1 / 59081) where
  lm := by decide +kernel
  lc := by decide +kernel
  pos := by decide +kernel
  step := by decide +kernel
  bd := by decide +kernel
  ib6 := by decide
  fbi := by decide
  cells := by rw [← allLt_iff]; decide +kernel
  half := ⟨51471 * 2 ^ 12, by norm_num, by norm_num, by norm_num, by decide +kernel⟩

/-- What the property needs of a reciprocal. -/
structure Recip (rec : Fmt → Fmt → ℚ → Option ℚ) (ρ : Fmt → ℚ → ℚ) (ε : ℚ) : Prop where
  some : ∀ f g x, (rec f g x).isSome
  eq : ∀ {f g : Fmt}, 1 ≤ f.W → 1 ≤ g.W → g.S = false → ∀ {x : ℚ}, f.Rep x → 0 < x → rec f g x = .some (g.cvt (ρ f x))
  err : ∀ {f : Fmt}, 1 ≤ f.W → ∀ {x : ℚ}, f.Rep x → 0 < x → 0 < ρ f x ∧ |ρ f x * x - 1| ≤ ε
  anti : ∀ {f : Fmt}, 1 ≤ f.W → ∀ {x x' : ℚ}, f.Rep x → f.Rep x' → 0 < x → x ≤ x' → ρ f x' ≤ ρ f x

theorem recip (q : QMode) : Recip (reciprocal q) (fun f x => Proof.Reciprocal.core f |x|) (1 / 512) where
  some f g x := by
    unfold reciprocal
    obtain ⟨y, hy⟩ := segVal_isSome (m := recM) (c := recC) (ib := 3) rfl rfl 10 (scBits 10 (f.W - 4 - (if f.S then 1 else 0)))
      (((Model.Normalize.normalize (uns f) ((uns f).raw (magnitude f x))).1 - 1 / 2) * 16)
    simp only [hy, Option.bind_eq_bind, Option.bind_some]
    split_ifs <;> rfl
  eq hW hg hS x hx h := by
    rw [Proof.Reciprocal.reciprocal_eq q hW hg hx h.ne', if_neg (fun c => absurd c.2 (by linarith))]
  err hW x hx h := by
    obtain ⟨a, b⟩ := Proof.Reciprocal.core_pos hW hx h.ne'
    refine ⟨b, ?_⟩
    nth_rw 2 [abs_of_pos h] at a
    exact a
  anti hW x x' hx hx' h hle :=
    Proof.Reciprocal.core_anti hW hx hx' h.ne' (by linarith : x' ≠ 0) (by rw [abs_of_pos h, abs_of_pos (by linarith)]; exact hle)

theorem recipG {m c : List ℤ} {p ib : ℕ} {E lo hi : ℤ} (G : Proof.PwlHa.Good m c p ib E lo hi) (hp : 1 ≤ p) (q : QMode) :
    Recip (Model.PwlHa.recip m c p ib true q) (fun f x => Proof.PwlHa.core m c p ib true f |x|) ((E + 2) / 2 ^ (p + ib + 1)) where
  some f g x := by
    obtain ⟨y, hy, -⟩ := Proof.PwlHa.recip_isSome (p := p) G.lm G.lc true q f g x
    rw [hy]; rfl
  eq hW hg hS x hx h := by
    rw [Proof.PwlHa.recip_eq G hp q hW hg hx h.ne' (Or.inl rfl), if_neg (fun c => absurd c.2 (by linarith))]
  err hW x hx h := by
    obtain ⟨a, b⟩ := Proof.PwlHa.core_pos G hW hx h.ne' (Or.inl rfl : Proof.PwlHa.Norm true _ _)
    refine ⟨b, ?_⟩
    nth_rw 2 [abs_of_pos h] at a
    exact a
  anti hW x x' hx hx' h hle :=
    Proof.PwlHa.core_anti G hW hx hx' h.ne' (by linarith : x' ≠ 0) (Or.inl rfl) (Or.inl rfl)
      (by rw [abs_of_pos h, abs_of_pos (by linarith)]; exact hle)

/-- The property for one of the functions. -/
theorem spec (G : Good m c p ib fb pi2 e) {rec : Fmt → Fmt → ℚ → Option ℚ} {ρ : Fmt → ℚ → ℚ} {ε : ℚ} (H : Recip rec ρ ε)
    {δ E1 E2 : ℚ} (hπ : |(pi2 : ℝ) - Real.pi / 2| ≤ δ) (h1 : e + 1 / 2 ^ fb ≤ E1) (h2 : δ + e + ε + 1 / 2 ^ fb ≤ E2)
    (q : QMode) {f : Fmt} (out : Fmt) (hW : 1 ≤ f.W) (hS : f.S = false) {x x' : ℚ} (hx : f.Rep x) (hx' : f.Rep x') :
    ∃ r r' : ℚ, atan m c p ib fb pi2 rec q f out x = some (out.cvt r) ∧
    atan m c p ib fb pi2 rec q f out x' = some (out.cvt r') ∧
    (x ≤ 1 → |(r : ℝ) - Real.arctan x| ≤ E1) ∧ (1 < x → |(r : ℝ) - Real.arctan x| ≤ E2) ∧
    0 ≤ r ∧ r ≤ pi2 ∧ (x ≤ x' → r ≤ r') := by
  have hfb : 1 ≤ fb := by have := G.fbi; omega
  have hx0 : 0 ≤ x := by
    obtain ⟨r, r0, -, rfl⟩ := hx
    unfold Fmt.val
    have : 0 ≤ r := by simpa [minRaw, hS] using r0
    exact mul_nonneg (by exact_mod_cast this) (Fmt.z_pos _).le
  refine ⟨_, _, atan_eq G hS (fun h => H.eq hW hfb rfl hx (by linarith)) hx,
    atan_eq G hS (fun h => H.eq hW hfb rfl hx' (by linarith)) hx', ?_, ?_, (val_range G q _ x).1, (val_range G q _ x).2, ?_⟩
  · intro h
    exact le_trans ((val_err G q hx0 hπ (fun h => H.err hW hx (by linarith))).1 h) (Rat.cast_le (K := ℝ) |>.2 h1)
  · intro h
    exact le_trans ((val_err G q hx0 hπ (fun h => H.err hW hx (by linarith))).2 h) (Rat.cast_le (K := ℝ) |>.2 h2)
  · intro h
    exact val_mono G q h (fun h' => H.anti hW hx hx' (by linarith) h)

/-- What the output is when its type can hold a quarter turn. -/
theorem output {out : Fmt} (ho : 1 ≤ out.W) {r v B : ℝ} {s : ℚ} (hr : r = s) (h0 : 0 ≤ s) (hs : s ≤ out.maxVal)
    (he : |r - v| ≤ B) : |((out.cvt s : ℚ) : ℝ) - v| < B + 2 ^ (-out.F) := by
  have hz := Fmt.z_pos out.F
  have hmax : s * 2 ^ out.F ≤ maxRaw out.W out.S := by
    have := mul_le_mul_of_nonneg_right hs hz.le
    unfold Fmt.maxVal at this
    rwa [Fmt.val_mul_pow] at this
  have hlo : ((loRaw out.W out.S out.O : ℤ) : ℚ) ≤ s * 2 ^ out.F := by
    have : ((loRaw out.W out.S out.O : ℤ) : ℚ) ≤ 0 := by exact_mod_cast loRaw_nonpos _ _ _
    have : 0 ≤ s * 2 ^ out.F := mul_nonneg h0 hz.le
    linarith
  have e1 := Fmt.cvt_err ho hlo hmax
  have e2 : |out.cvt s - s| < 2 ^ (-out.F) := by simpa using e1
  have e3 := Rat.cast_lt (K := ℝ) |>.2 e2
  rw [Rat.cast_abs, Rat.cast_sub, ← hr] at e3
  push_cast at e3
  calc |((out.cvt s : ℚ) : ℝ) - v| = |(((out.cvt s : ℚ) : ℝ) - r) + (r - v)| := by ring_nf
    _ ≤ |((out.cvt s : ℚ) : ℝ) - r| + |r - v| := abs_add_le _ _
    _ < _ := by linarith

theorem pi2_err {a δ : ℚ} (h1 : a ≤ 1.570796 + δ) (h2 : 1.570797 ≤ a + δ) : |(a : ℝ) - Real.pi / 2| ≤ δ := by
  have a1 := Real.pi_gt_d6
  have a2 := Real.pi_lt_d6
  have b1 := Rat.cast_le (K := ℝ) |>.2 h1
  have b2 := Rat.cast_le (K := ℝ) |>.2 h2
  push_cast at b1 b2
  rw [abs_le]
  constructor <;> linarith

end Proof.Atan
