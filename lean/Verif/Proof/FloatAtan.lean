import Verif.Model.FloatAtan
import Verif.Proof.Atan
import Verif.Proof.PwlNorm
import Verif.Proof.FloatCvt
import Verif.Proof.FloatDiv
import Verif.Props.FloatRec

/-! # Lemmas for the ac_float arctangents -/

namespace Proof.FloatAtan
open Ac Model.Float Model.FloatAtan Proof.Atan Proof.FloatCvt Proof.PwlFixed

/-- The exponent of the power of two above the largest number of the type. -/
def top (s : FFmt) : ℤ := s.I - 1 + (2 ^ (s.E - 1) - 1)

/-- The smallest distance of two numbers of the type. -/
def eta (s : FFmt) : ℚ := 2 ^ (s.I - s.W - 2 ^ (s.E - 1))

theorem max_eq {s : FFmt} (hW : 1 ≤ s.W) : s.maxVal = 2 ^ top s - 2 ^ (top s + 1 - s.W) := by
  unfold FFmt.maxVal Fmt.maxVal Fmt.val top
  have h : ((maxRaw s.mant.W s.mant.S : ℤ) : ℚ) = 2 ^ ((s.W : ℤ) - 1) - 1 := by
    simp only [FFmt.mant, maxRaw, if_true]
    push_cast
    rw [← zpow_natCast, Nat.cast_sub hW]; rfl
  rw [h, sub_mul, sub_mul, one_mul, Fmt.z_add, Fmt.z_add, Fmt.z_add]
  unfold FFmt.mant Fmt.F
  congr 2 <;> ring

theorem max_cvt {s : FFmt} (hW : 1 ≤ s.W) : s.cvt s.maxVal = s.maxVal := by
  unfold FFmt.maxVal
  have hp : (0 : ℤ) < 2 ^ (s.E - 1) := by positivity
  exact Proof.FloatDiv.cvt_num hW ⟨_, le_trans (minRaw_nonpos _ _) (maxRaw_nonneg _ _), le_rfl, rfl⟩ (by omega) (by omega)

theorem cvt_le (s : FFmt) (x : ℚ) : s.cvt x ≤ s.maxVal := by
  have h0 := max_nonneg s
  have h1 := min_nonpos s
  unfold FFmt.cvt
  split_ifs with h
  · exact h0
  · simp only []
    split_ifs <;> linarith

theorem cvt_nonneg {s : FFmt} (hW : 2 ≤ s.W) {x : ℚ} (h : 0 ≤ x) : 0 ≤ s.cvt x := by
  have := cvt_mono (t := s) hW h
  have z : s.cvt 0 = 0 := by simp [FFmt.cvt]
  rwa [z] at this

/-- The conversion of a number below the top of the type. -/
theorem cvt_near {s : FFmt} (hW : 2 ≤ s.W) {x : ℚ} (h0 : 0 ≤ x) (h1 : x < 2 ^ top s) :
    |s.cvt x - x| ≤ x * 2 ^ (2 - (s.W : ℤ)) + eta s := by
  rcases le_or_gt x s.maxVal with h | h
  · have := cvt_abs (t := s) (le_trans (min_nonpos s) h0) h
    rwa [abs_of_nonneg h0] at this
  · have e1 : s.cvt x = s.maxVal := by
      apply le_antisymm (cvt_le s x)
      have := cvt_mono (t := s) hW h.le
      rwa [max_cvt (by omega)] at this
    have hz := Fmt.z_pos (s.I - s.W - 2 ^ (s.E - 1))
    have hm := max_eq (s := s) (by omega)
    have e2 : (2 : ℚ) ^ (top s + 1 - s.W) = 2 ^ (top s - 1) * 2 ^ (2 - (s.W : ℤ)) := by
      rw [Fmt.z_add]; congr 1; ring
    have e3 : (2 : ℚ) ^ (top s - 1) ≤ x := by
      have : (2 : ℚ) ^ (top s + 1 - s.W) ≤ 2 ^ (top s - 1) := Fmt.z_le (by omega)
      have : (2 : ℚ) ^ top s = 2 ^ (top s - 1) + 2 ^ (top s - 1) := by
        conv_lhs => rw [show top s = top s - 1 + 1 by ring, zpow_add_one₀ (by norm_num)]
        ring
      linarith
    have e4 := mul_le_mul_of_nonneg_right e3 (Fmt.z_pos (2 - (s.W : ℤ))).le
    unfold eta
    rw [e1, abs_of_nonpos (by linarith)]
    linarith

/-- A number of a type is below its top. -/
theorem num_lt {t : FFmt} (hW : 1 ≤ t.W) {m : ℚ} {e : ℤ} (hm : Props.FloatRec.Num t m e) : m * 2 ^ e < 2 ^ top t := by
  obtain ⟨⟨r, r0, r1, rfl⟩, -, he⟩ := hm
  have a : t.mant.val r ≤ t.mant.maxVal := by unfold Fmt.maxVal; exact Fmt.val_le.2 r1
  have b : t.mant.val r * 2 ^ e ≤ t.maxVal := by
    unfold FFmt.maxVal
    have hz : (2 : ℚ) ^ e ≤ 2 ^ ((2 : ℤ) ^ (t.E - 1) - 1) := Fmt.z_le (by omega)
    refine le_trans (mul_le_mul_of_nonneg_right a (Fmt.z_pos e).le) (mul_le_mul_of_nonneg_left hz ?_)
    unfold Fmt.maxVal Fmt.val
    exact mul_nonneg (by exact_mod_cast maxRaw_nonneg _ _) (Fmt.z_pos _).le
  have c := max_eq hW
  have := Fmt.z_pos (top t + 1 - t.W)
  linarith

/-- The output format of the fixed-point function. -/
def of (w : ℕ) : Fmt := ⟨w + 1, 1, false, .TRN, .WRAP⟩

theorem of_mul {w : ℕ} {v : ℚ} (h : v ≤ 1.6) (hw : 2 ≤ w) : v * 2 ^ (of w).F ≤ 2 ^ (of w).W - 1 := by
  have hF : (of w).F = (w : ℤ) := by unfold of Fmt.F; push_cast; ring
  have hP : (4 : ℚ) ≤ 2 ^ w := by
    calc (4 : ℚ) = 2 ^ 2 := by norm_num
      _ ≤ 2 ^ w := pow_le_pow_right₀ (by norm_num) hw
  rw [hF, zpow_natCast, show (of w).W = w + 1 from rfl, pow_succ]
  have := mul_le_mul_of_nonneg_right h (show (0 : ℚ) ≤ 2 ^ w by positivity)
  have e1 : (1.6 : ℚ) * 2 ^ w = 8 / 5 * 2 ^ w := by norm_num
  linarith

theorem of_err {w : ℕ} (hw : 2 ≤ w) {v : ℚ} (h0 : 0 ≤ v) (h : v ≤ 1.6) :
    0 ≤ (of w).cvt v ∧ (of w).cvt v ≤ v ∧ v - 1 / 2 ^ w ≤ (of w).cvt v := by
  have hF : (of w).F = (w : ℤ) := by unfold of Fmt.F; push_cast; ring
  obtain ⟨a, -, b⟩ := cvt_fit (o := of w) (by unfold of; simp) rfl rfl h0 (of_mul h hw)
  have hz := Fmt.z_pos (of w).F
  have hz' := Fmt.z_pos (-(of w).F)
  have e1 : v * 2 ^ (of w).F * 2 ^ (-(of w).F) = v := by rw [mul_assoc, Fmt.z_add]; simp
  refine ⟨?_, ?_, ?_⟩
  · rw [a]
    unfold Fmt.val
    have : (0 : ℤ) ≤ quant (of w).Q (v * 2 ^ (of w).F) := Int.floor_nonneg.2 (mul_nonneg h0 hz.le)
    exact mul_nonneg (by exact_mod_cast this) hz'.le
  · rw [a]
    unfold Fmt.val
    have : ((quant (of w).Q (v * 2 ^ (of w).F) : ℤ) : ℚ) ≤ v * 2 ^ (of w).F := Int.floor_le _
    have := mul_le_mul_of_nonneg_right this hz'.le
    linarith
  · have := (abs_lt.1 b).1
    rw [hF, zpow_neg, zpow_natCast] at this
    rw [one_div]; linarith

theorem of_mono {w : ℕ} (hw : 2 ≤ w) {u v : ℚ} (h0 : 0 ≤ u) (h : u ≤ v) (h1 : v ≤ 1.6) : (of w).cvt u ≤ (of w).cvt v :=
  cvt_fit_mono (o := of w) (by unfold of; simp) rfl rfl h0 h (of_mul h1 hw)

variable {m c : List ℤ} {p ib fb : ℕ} {pi2 e : ℚ}

/-- The table at a converted value. -/
def B (m c : List ℤ) (p ib fb : ℕ) (qi : QMode) (w : ℕ) (v : ℚ) : ℚ := (of w).cvt (A m c p ib ((nf fb qi).cvt v))

/-- The value before it is converted to the output type, with `ρ` for the reciprocal. -/
def V (m c : List ℤ) (p ib fb : ℕ) (pi2 : ℚ) (qi : QMode) (w : ℕ) (s : FFmt) (ρ : ℚ → ℚ) (x : ℚ) : ℚ :=
  if 1 ≤ x then (of w).cvt (pi2 - B m c p ib fb qi w (s.cvt (ρ x))) else B m c p ib fb qi w (s.cvt x)

/-- The fixed-point function on a number below one. -/
theorem fix_eq (G : Good m c p ib fb pi2 e) {rec : Fmt → Fmt → ℚ → Option ℚ} (q qi : QMode) (w : ℕ) (v : ℚ) :
    Model.Atan.atan m c p ib fb pi2 rec q (nf fb qi) (of w) ((nf fb qi).cvt v) = some (B m c p ib fb qi w v) := by
  have hfb : 1 ≤ fb := by have := G.fbi; omega
  have hr : (nf fb qi).Rep ((nf fb qi).cvt v) := Fmt.rep_cvt (f := nf fb qi) hfb v
  have hl : (nf fb qi).cvt v < 1 := by
    have := (nf_range hfb qi v).2
    have : (0 : ℚ) < 1 / 2 ^ fb := by positivity
    linarith
  rw [atan_eq (ρ := id) G (f := nf fb qi) rfl (fun h => absurd h (by linarith)) hr]
  unfold val B
  rw [if_neg (by linarith)]
  have hr' : (nf fb q).Rep ((nf fb qi).cvt v) := hr
  rw [Fmt.cvt_rep (f := nf fb q) hfb (show OMode.SAT ≠ .SAT_SYM by decide) hr']

theorem model_eq (G : Good m c p ib fb pi2 e) {rec : FFmt → QMode → Dst → ℚ → ℤ → Option ℚ} {rf : Fmt → Fmt → ℚ → Option ℚ}
    (q qi : QMode) (w : ℕ) {s t : FFmt} (d : Dst) {ρ : ℚ → ℚ} {n : ℚ} {k : ℤ}
    (hρ : 1 ≤ n * 2 ^ k → rec t s.Q s.dst n k = some (s.dst.cvt (ρ (n * 2 ^ k)))) :
    atan rec (Model.Atan.atan m c p ib fb pi2 rf q) pi2 s (nf fb qi) (of w) t d n k =
      some (d.cvt (V m c p ib fb pi2 qi w s ρ (n * 2 ^ k))) := by
  unfold atan V
  by_cases h : 1 ≤ n * 2 ^ k
  · rw [if_pos h, if_pos h, hρ h]
    simp only [Option.bind_eq_bind, Option.bind_some]
    rw [fix_eq G]; simp only [Option.bind_some, if_pos h]; rfl
  · rw [if_neg h, if_neg h]
    simp only [Option.bind_eq_bind, Option.bind_some]
    rw [fix_eq G]; simp only [Option.bind_some, if_neg h]

theorem B_facts (G : Good m c p ib fb pi2 e) (hp : pi2 ≤ 1.6) (qi : QMode) {w : ℕ} (hw : 2 ≤ w) (v : ℚ) :
    0 ≤ B m c p ib fb qi w v ∧ 2 * B m c p ib fb qi w v ≤ pi2 ∧ B m c p ib fb qi w v ≤ A m c p ib ((nf fb qi).cvt v) ∧
    2 * A m c p ib ((nf fb qi).cvt v) ≤ pi2 ∧ A m c p ib ((nf fb qi).cvt v) - 1 / 2 ^ w ≤ B m c p ib fb qi w v := by
  obtain ⟨-, -, -, a, b⟩ := body G qi v
  obtain ⟨c1, c2, c3⟩ := of_err hw a (by linarith)
  exact ⟨c1, by unfold B; linarith, c2, b, c3⟩

theorem B_mono (G : Good m c p ib fb pi2 e) (hp : pi2 ≤ 1.6) (qi : QMode) {w : ℕ} (hw : 2 ≤ w) {v v' : ℚ} (h : v ≤ v') :
    B m c p ib fb qi w v ≤ B m c p ib fb qi w v' := by
  have hfb : 1 ≤ fb := by have := G.fbi; omega
  obtain ⟨-, -, -, a, b⟩ := body G qi v
  obtain ⟨-, -, -, a', b'⟩ := body G qi v'
  refine of_mono hw a (A_mono G (nf_range hfb qi v).1 (nf_mono qi h) ?_) (by linarith)
  have := (nf_range hfb qi v').2
  have : (0 : ℚ) < 1 / 2 ^ fb := by positivity
  linarith

theorem V_range (G : Good m c p ib fb pi2 e) (hp : pi2 ≤ 1.6) (qi : QMode) {w : ℕ} (hw : 2 ≤ w) (s : FFmt) (ρ : ℚ → ℚ) (x : ℚ) :
    0 ≤ V m c p ib fb pi2 qi w s ρ x ∧ V m c p ib fb pi2 qi w s ρ x ≤ pi2 := by
  unfold V
  split_ifs
  · obtain ⟨a, b, -⟩ := B_facts G hp qi hw (s.cvt (ρ x))
    obtain ⟨c1, c2, -⟩ := of_err hw (v := pi2 - B m c p ib fb qi w (s.cvt (ρ x))) (by linarith) (by linarith)
    exact ⟨c1, by linarith⟩
  · obtain ⟨a, b, -⟩ := B_facts G hp qi hw (s.cvt x)
    exact ⟨a, by linarith⟩

theorem V_mono (G : Good m c p ib fb pi2 e) (hp : pi2 ≤ 1.6) (qi : QMode) {w : ℕ} (hw : 2 ≤ w) {s : FFmt} (hs : 2 ≤ s.W)
    {ρ : ℚ → ℚ} (hρ : ∀ x x' : ℚ, 0 < x → x ≤ x' → ρ x' ≤ ρ x) {x x' : ℚ} (h : x ≤ x') :
    V m c p ib fb pi2 qi w s ρ x ≤ V m c p ib fb pi2 qi w s ρ x' := by
  unfold V
  by_cases h1 : 1 ≤ x
  · rw [if_pos h1, if_pos (by linarith)]
    have := B_mono G hp qi hw (cvt_mono (t := s) hs (hρ x x' (by linarith) h))
    obtain ⟨a, b, -⟩ := B_facts G hp qi hw (s.cvt (ρ x))
    obtain ⟨a', b', -⟩ := B_facts G hp qi hw (s.cvt (ρ x'))
    exact of_mono hw (by linarith) (by linarith) (by linarith)
  · rw [if_neg h1]
    by_cases h2 : 1 ≤ x'
    · rw [if_pos h2]
      obtain ⟨a, b, -, b2, -⟩ := B_facts G hp qi hw (s.cvt x)
      obtain ⟨a', b', -⟩ := B_facts G hp qi hw (s.cvt (ρ x'))
      obtain ⟨-, -, -, c1, -⟩ := body G qi (s.cvt x)
      exact of_mono hw c1 (by linarith) (by linarith)
    · rw [if_neg h2]
      exact B_mono G hp qi hw (cvt_mono (t := s) hs h)

theorem B_err (G : Good m c p ib fb pi2 e) (hp : pi2 ≤ 1.6) (qi : QMode) {w : ℕ} (hw : 2 ≤ w) {v u ε : ℚ} (h0 : 0 ≤ v)
    (hu : u ≤ 1) (hε : |v - u| ≤ ε) :
    |(B m c p ib fb qi w v : ℝ) - Real.arctan u| ≤ ((e + ε + 1 / 2 ^ fb + 1 / 2 ^ w : ℚ) : ℝ) := by
  have hfb : 1 ≤ fb := by have := G.fbi; omega
  have hl : (nf fb qi).cvt v < 1 := by
    have := (nf_range hfb qi v).2
    have : (0 : ℚ) < 1 / 2 ^ fb := by positivity
    linarith
  have a := A_err G (nf_range hfb qi v).1 hl
  have b' := Rat.cast_le (K := ℝ) |>.2 (nf_err hfb qi h0 hu hε)
  rw [Rat.cast_abs, Rat.cast_sub] at b'
  have l := le_trans (lipschitz ((nf fb qi).cvt v : ℚ) u) b'
  obtain ⟨-, -, c1, -, c2⟩ := B_facts G hp qi hw v
  have d1 := Rat.cast_le (K := ℝ) |>.2 c1
  have d2 := Rat.cast_le (K := ℝ) |>.2 c2
  push_cast at d2 l ⊢
  obtain ⟨a1, a2⟩ := abs_le.1 a
  obtain ⟨l1, l2⟩ := abs_le.1 l
  have : (0 : ℝ) < 1 / 2 ^ w := by positivity
  rw [abs_le]
  constructor <;> linarith

theorem V_low (G : Good m c p ib fb pi2 e) (hp : pi2 ≤ 1.6) (qi : QMode) {w : ℕ} (hw : 2 ≤ w) {s : FFmt} (hs : 2 ≤ s.W)
    (ρ : ℚ → ℚ) {x : ℚ} (h0 : 0 ≤ x) (h1 : x < 1) (ht : x < 2 ^ top s) :
    |(V m c p ib fb pi2 qi w s ρ x : ℝ) - Real.arctan x| ≤
      ((e + (2 ^ (2 - (s.W : ℤ)) + eta s) + 1 / 2 ^ fb + 1 / 2 ^ w : ℚ) : ℝ) := by
  unfold V
  rw [if_neg (by linarith)]
  refine B_err G hp qi hw (cvt_nonneg hs h0) h1.le (le_trans (cvt_near hs h0 ht) ?_)
  have := mul_le_mul_of_nonneg_right h1.le (Fmt.z_pos (2 - (s.W : ℤ))).le
  linarith

theorem V_high (G : Good m c p ib fb pi2 e) (hp : pi2 ≤ 1.6) (qi : QMode) {w : ℕ} (hw : 2 ≤ w) {s : FFmt} (hs : 2 ≤ s.W)
    {ρ : ℚ → ℚ} {x ε δ : ℚ} (h1 : 1 ≤ x) (ht : 1 ≤ top s) (hπ : |(pi2 : ℝ) - Real.pi / 2| ≤ δ) (hρ : |ρ x * x - 1| ≤ ε)
    (hε : ε < 1) :
    |(V m c p ib fb pi2 qi w s ρ x : ℝ) - Real.arctan x| ≤
      ((δ + (e + (ε + (1 + ε) * 2 ^ (2 - (s.W : ℤ)) + eta s) + 1 / 2 ^ fb + 2 / 2 ^ w) : ℚ) : ℝ) := by
  have hx : 0 < x := by linarith
  have hu : |ρ x - 1 / x| ≤ ε := by
    have : ρ x - 1 / x = (ρ x * x - 1) / x := by field_simp
    rw [this, abs_div, abs_of_pos hx, div_le_iff₀ hx]
    have e0 : 0 ≤ ε := le_trans (abs_nonneg _) hρ
    have := mul_le_mul_of_nonneg_left h1 e0
    linarith
  have hu1 : 1 / x ≤ 1 := by rw [div_le_one hx]; linarith
  have r0 : 0 ≤ ρ x := by
    by_contra hc
    have := mul_neg_of_neg_of_pos (not_le.1 hc) hx
    have := (abs_le.1 hρ).1
    linarith
  have r1 : ρ x ≤ 1 + ε := by linarith [(abs_le.1 hu).2]
  have r2 : ρ x < 2 ^ top s := by
    have : (2 : ℚ) ^ (1 : ℤ) ≤ 2 ^ top s := Fmt.z_le ht
    norm_num at this; linarith
  have n1 := cvt_near hs r0 r2
  have n2 : |s.cvt (ρ x) - 1 / x| ≤ ε + (1 + ε) * 2 ^ (2 - (s.W : ℤ)) + eta s := by
    have := abs_sub_le (s.cvt (ρ x)) (ρ x) (1 / x)
    have := mul_le_mul_of_nonneg_right r1 (Fmt.z_pos (2 - (s.W : ℤ))).le
    linarith
  have b := B_err G hp qi hw (cvt_nonneg hs r0) hu1 n2
  have hi := Real.arctan_inv_of_pos (x := (x : ℝ)) (by exact_mod_cast hx)
  have hinv : (((1 / x : ℚ)) : ℝ) = (x : ℝ)⁻¹ := by push_cast; ring
  rw [hinv, hi] at b
  obtain ⟨a1, a2, -⟩ := B_facts G hp qi hw (s.cvt (ρ x))
  obtain ⟨-, c2, c3⟩ := of_err hw (v := pi2 - B m c p ib fb qi w (s.cvt (ρ x))) (by linarith) (by linarith)
  unfold V
  rw [if_pos h1]
  generalize B m c p ib fb qi w (s.cvt (ρ x)) = y at *
  generalize (of w).cvt (pi2 - y) = z at *
  generalize (2 : ℚ) ^ (2 - (s.W : ℤ)) = u1 at *
  generalize eta s = u2 at *
  have d1 := Rat.cast_le (K := ℝ) |>.2 c2
  have d2 := Rat.cast_le (K := ℝ) |>.2 c3
  push_cast at d1 d2 b ⊢
  obtain ⟨b1, b2⟩ := abs_le.1 b
  obtain ⟨p1, p2⟩ := abs_le.1 hπ
  have : (0 : ℝ) < 1 / 2 ^ w := by positivity
  have : (2 : ℝ) / 2 ^ w = 2 * (1 / 2 ^ w) := by ring
  rw [abs_le]
  constructor <;> linarith

/-- The exponent of the temporary of the second and third versions has enough bits. -/
theorem recE_big (t : FFmt) : max (2 * t.I - 3) 1 + 2 ^ (t.E - 1) ≤ 2 ^ (recE t - 1) := by
  unfold recE
  rw [Nat.add_sub_cancel]
  have h := Model.Bits.lt_two_pow_nbits ((max (2 * t.I - 3) 1).toNat + 2 ^ (t.E - 1) - 1)
  have h3 : ((max (2 * t.I - 3) 1).toNat + 2 ^ (t.E - 1) : ℕ) ≤ 2 ^ nbits ((max (2 * t.I - 3) 1).toNat + 2 ^ (t.E - 1) - 1) := by omega
  have h4 : (((max (2 * t.I - 3) 1).toNat + 2 ^ (t.E - 1) : ℕ) : ℤ) ≤ ((2 ^ nbits ((max (2 * t.I - 3) 1).toNat + 2 ^ (t.E - 1) - 1) : ℕ) : ℤ) := by
    exact_mod_cast h3
  push_cast at h4
  rwa [Int.toNat_of_nonneg (le_trans (by norm_num) (le_max_right (2 * t.I - 3) (1 : ℤ)))] at h4

/-- A mantissa is a mantissa of every wider type. -/
theorem wide {s t : FFmt} (hI : s.I = t.I) (hW : t.W ≤ s.W) (h1 : 1 ≤ t.W) {m : ℚ} (hm : t.mant.Rep m) : s.mant.Rep m := by
  obtain ⟨r, r0, r1, rfl⟩ := hm
  simp only [FFmt.mant, minRaw, maxRaw, if_true] at r0 r1
  have hp : (0 : ℤ) < 2 ^ (s.W - t.W) := by positivity
  have e1 : (2 : ℤ) ^ (s.W - 1) = 2 ^ (t.W - 1) * 2 ^ (s.W - t.W) := by rw [← pow_add]; congr 1; omega
  refine ⟨r * 2 ^ (s.W - t.W), ?_, ?_, ?_⟩
  · simp only [FFmt.mant, minRaw, if_true]
    rw [e1, ← neg_mul]; exact mul_le_mul_of_nonneg_right r0 hp.le
  · simp only [FFmt.mant, maxRaw, if_true]
    have := mul_le_mul_of_nonneg_right r1 hp.le
    rw [sub_mul] at this
    rw [e1]; omega
  · unfold Fmt.val FFmt.mant Fmt.F
    push_cast
    rw [mul_assoc, ← zpow_natCast, Fmt.z_add, Nat.cast_sub hW, hI]
    congr 2; ring

theorem V_exact (G : Good m c p ib fb pi2 e) (hp : pi2 ≤ 1.6) (qi : QMode) {w : ℕ} (hw : 2 ≤ w) {s : FFmt}
    (ρ : ℚ → ℚ) {x : ℚ} (h0 : 0 ≤ x) (h1 : x < 1) (hc : s.cvt x = x) :
    |(V m c p ib fb pi2 qi w s ρ x : ℝ) - Real.arctan x| ≤ ((e + 1 / 2 ^ fb + 1 / 2 ^ w : ℚ) : ℝ) := by
  unfold V
  rw [if_neg (by linarith), hc]
  have := B_err G hp qi hw h0 h1.le (show |x - x| ≤ 0 by simp)
  rwa [add_zero] at this

theorem top_pos {t : FFmt} (hW : 1 ≤ t.W) {m : ℚ} {e : ℤ} (hm : Props.FloatRec.Num t m e) (h : 1 ≤ m * 2 ^ e) : 1 ≤ top t := by
  by_contra hc
  have := num_lt hW hm
  have : (2 : ℚ) ^ top t ≤ 2 ^ (0 : ℤ) := Fmt.z_le (by omega)
  rw [zpow_zero] at this
  linarith

theorem top_le {t s : FFmt} (hI : s.I = t.I) (hE : s.E = recE t) : top t ≤ top s := by
  have := recE_big t
  have := le_max_right (2 * t.I - 3) 1
  unfold top
  rw [hI, hE]; omega

theorem eta_le {t s : FFmt} (hI : s.I = t.I) (hE : s.E = recE t) : eta s ≤ 2 ^ (-(s.W : ℤ)) := by
  have a := recE_big t
  have : (0 : ℤ) < 2 ^ (t.E - 1) := by positivity
  unfold eta
  apply Fmt.z_le
  rw [hI, hE]
  generalize (2 : ℤ) ^ (t.E - 1) = u at *
  generalize (2 : ℤ) ^ (recE t - 1) = v at *
  omega

end Proof.FloatAtan
