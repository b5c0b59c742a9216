import Verif.Proof.HcordicLog
import Mathlib.Analysis.Complex.ExponentialBounds

/-! # The error of the reduced logarithm with at least 13 bits -/

namespace Proof.Hcordic
open Ac Model.Hcordic

/-- What the entries of the table are measured in. -/
noncomputable def csc (sc : Scale) : ℝ := if sc = .one then 1 else Real.log 2

theorem ent_err' (sc : Scale) {F j : ℕ} (hF : F ≤ 53) (hj : j < 60) : |(2 : ℝ) ^ F * ang (Sj j) - csc sc * ent sc F j| ≤ 1 + 1 / 512 := by
  cases sc
  · unfold csc; rw [if_pos rfl, one_mul]; exact ent_err hF hj
  · obtain ⟨s0, s1⟩ := sj_range hj
    have h := tb_err (show Sj j - 1 < 57 by omega)
    rw [show Sj j - 1 + 1 = Sj j by omega] at h
    unfold ent tabI csc
    rw [if_neg (by decide), if_neg (by decide)]
    have d := div_near (TB (Sj j - 1)) (63 - F)
    have l1 := Real.log_two_lt_d9
    have l0 : 0 < Real.log 2 := Real.log_pos (by norm_num)
    have hp : (0 : ℝ) < 2 ^ F := by positivity
    have h1 : (2 : ℝ) ^ F * |ang (Sj j) - (TB (Sj j - 1) : ℝ) / 2 ^ 63 * Real.log 2| ≤ 1 / 512 := by
      calc _ ≤ (2 : ℝ) ^ F * (2 / 2 ^ 63) := mul_le_mul_of_nonneg_left h hp.le
        _ ≤ 2 ^ 53 * (2 / 2 ^ 63) := mul_le_mul_of_nonneg_right (pow_le_pow_right₀ (by norm_num) hF) (by norm_num)
        _ = _ := by norm_num
    rw [← abs_of_pos hp, ← abs_mul] at h1
    have e : (2 : ℝ) ^ F * ((TB (Sj j - 1) : ℝ) / 2 ^ 63 * Real.log 2) = Real.log 2 * ((TB (Sj j - 1) : ℝ) * (1 / 2 ^ (63 - F))) := by
      rw [show (2 : ℝ) ^ 63 = 2 ^ F * 2 ^ (63 - F) by rw [← pow_add]; congr 1; omega]
      field_simp
    rw [mul_sub, e] at h1
    obtain ⟨a, b⟩ := abs_le.1 h1
    have m1 := mul_le_mul_of_nonneg_left d.1 l0.le
    have m2 := mul_le_mul_of_nonneg_left d.2 l0.le
    rw [abs_le]; constructor <;> linarith

/-- The logarithm of a slightly changed number. -/
theorem log_pert {N A e m : ℝ} (hN : 1000000 ≤ N) (hA : 0.399 * N ≤ A) (hm : m ≤ 2) (he : |e| ≤ m) :
    0 < A + e ∧ |Real.log (A + e) - Real.log A| ≤ 2.51 * m / N := by
  obtain ⟨e0, e1⟩ := abs_le.1 he
  have hA0 : 0 < A := by linarith
  have hAe : 0 < A + e := by linarith
  have hN0 : 0 < N := by linarith
  have hm0 : 0 ≤ m := le_trans (abs_nonneg e) he
  refine ⟨hAe, ?_⟩
  have u1 : Real.log (A + e) - Real.log A ≤ e / A := by
    rw [← Real.log_div hAe.ne' hA0.ne']
    have := Real.log_le_sub_one_of_pos (div_pos hAe hA0)
    have e : (A + e) / A - 1 = e / A := by field_simp; ring
    linarith
  have u2 : Real.log A - Real.log (A + e) ≤ -e / (A + e) := by
    rw [← Real.log_div hA0.ne' hAe.ne']
    have := Real.log_le_sub_one_of_pos (div_pos hA0 hAe)
    have e : A / (A + e) - 1 = -e / (A + e) := by field_simp; ring
    linarith
  have b1 : e / A ≤ 2.51 * m / N := by
    rw [div_le_div_iff₀ hA0 hN0]
    have h1 : e * N ≤ m * N := mul_le_mul_of_nonneg_right e1 hN0.le
    have h2 : 2.51 * m * (0.399 * N) ≤ 2.51 * m * A := mul_le_mul_of_nonneg_left hA (by linarith)
    have h3 : 0 ≤ m * N := mul_nonneg hm0 hN0.le
    linarith
  have b2 : -e / (A + e) ≤ 2.51 * m / N := by
    rw [div_le_div_iff₀ hAe hN0]
    have h1 : -e * N ≤ m * N := mul_le_mul_of_nonneg_right (by linarith) hN0.le
    have h2 : 2.51 * m * (0.39899 * N) ≤ 2.51 * m * (A + e) := mul_le_mul_of_nonneg_left (by linarith) (by linarith)
    have h3 : 0 ≤ m * N := mul_nonneg hm0 hN0.le
    linarith
  rw [abs_le]
  constructor <;> linarith

theorem ang_def (s : ℕ) (hs : 1 ≤ s) : ang s = 1 / 2 * (Real.log (1 + 1 / 2 ^ s) - Real.log (1 - 1 / 2 ^ s)) := by
  have h : (1 : ℝ) / 2 ^ s ≤ 1 / 2 := by
    calc (1 : ℝ) / 2 ^ s ≤ 1 / 2 ^ 1 := one_div_le_one_div_of_le (by norm_num) (pow_le_pow_right₀ (by norm_num) hs)
      _ = _ := by norm_num
  have h0 : (0 : ℝ) < 1 / 2 ^ s := by positivity
  unfold ang
  rw [Real.log_div (by linarith) (by linarith)]

theorem ang_le (s : ℕ) (hs : 1 ≤ s) : ang s ≤ 1 / 2 * Real.log 3 := by
  have h : (1 : ℝ) / 2 ^ s ≤ 1 / 2 := by
    calc (1 : ℝ) / 2 ^ s ≤ 1 / 2 ^ 1 := one_div_le_one_div_of_le (by norm_num) (pow_le_pow_right₀ (by norm_num) hs)
      _ = _ := by norm_num
  have h0 : (0 : ℝ) < 1 / 2 ^ s := by positivity
  unfold ang
  have : (1 + 1 / 2 ^ s) / (1 - 1 / 2 ^ s) ≤ (3 : ℝ) := by rw [div_le_iff₀ (by linarith)]; linarith
  have := Real.log_le_log (div_pos (by linarith) (by linarith)) this
  linarith

/-- The angle of the vector. -/
noncomputable def th (s : IS) : ℝ := 1 / 2 * (Real.log (s.x + s.y) - Real.log (s.x - s.y))

/-- One step, `p` being the sign of the rotation. -/
theorem real_step {N U V U' V' t p : ℝ} {s : ℕ} (hs : 1 ≤ s) (hp : p = 1 ∨ p = -1) (ht : t = 1 / 2 ^ s) (hN : 1000000 ≤ N) (hU : 0 < U) (hV : 0 < V)
    (hA : 0.399 * N ≤ U * (1 + p * t)) (hB : 0.399 * N ≤ V * (1 - p * t)) (eU : |U' - U * (1 + p * t)| ≤ 2) (eV : |V' - V * (1 - p * t)| ≤ 1) :
    0 < U' ∧ 0 < V' ∧
    |1 / 2 * (Real.log U' - Real.log V') - (1 / 2 * (Real.log U - Real.log V) + p * ang s)| ≤ 3.78 / N := by
  obtain ⟨a0, a1⟩ := log_pert hN hA (le_refl 2) eU
  obtain ⟨b0, b1⟩ := log_pert hN hB (by norm_num) eV
  rw [add_sub_cancel] at a0 a1 b0 b1
  have h : t ≤ 1 / 2 := by
    rw [ht]
    calc (1 : ℝ) / 2 ^ s ≤ 1 / 2 ^ 1 := one_div_le_one_div_of_le (by norm_num) (pow_le_pow_right₀ (by norm_num) hs)
      _ = _ := by norm_num
  have h0 : 0 < t := by rw [ht]; positivity
  have hN0 : 0 < N := by linarith
  have p1 : 0 < 1 + p * t := by rcases hp with h | h <;> rw [h] <;> linarith
  have p2 : 0 < 1 - p * t := by rcases hp with h | h <;> rw [h] <;> linarith
  rw [Real.log_mul hU.ne' p1.ne'] at a1
  rw [Real.log_mul hV.ne' p2.ne'] at b1
  have ha : Real.log (1 + p * t) - Real.log (1 - p * t) = 2 * (p * ang s) := by
    rw [ang_def s hs, ← ht]
    rcases hp with h | h <;> rw [h]
    · rw [one_mul]; ring
    · rw [show (1 : ℝ) + -1 * t = 1 - t by ring, show (1 : ℝ) - -1 * t = 1 + t by ring]; ring
  refine ⟨a0, b0, ?_⟩
  obtain ⟨a1, a2⟩ := abs_le.1 a1
  obtain ⟨b1, b2⟩ := abs_le.1 b1
  have e1 : 2.51 * 2 / N = 5.02 * (1 / N) := by ring
  have e2 : 2.51 * 1 / N = 2.51 * (1 / N) := by ring
  have e3 : 3.78 / N = 3.78 * (1 / N) := by ring
  have hn : 0 < 1 / N := by positivity
  rw [e1] at a1 a2
  rw [e2] at b1 b2
  rw [e3, abs_le]
  constructor <;> linarith

/-- Lower bound of `x`, in units of one. -/
def xl : ℕ → ℚ
  | 0 => 3 / 2
  | j + 1 => xl j * (1 - 501 / 1000 / 2 ^ Sj j) - 1 / 1000000

theorem xl_all : Proof.Pwl.allLt 61 (fun j => decide (8 / 10 ≤ xl j)) = true := by decide +kernel

theorem xl_ge {j : ℕ} (hj : j ≤ 60) : (0.8 : ℝ) ≤ xl j := by
  have := of_decide_eq_true (Proof.Pwl.allLt_iff.1 xl_all j (by omega))
  have := Rat.cast_le (K := ℝ) |>.2 this
  push_cast at this; norm_num at this ⊢; exact this

structure LInv (sc : Scale) (F : ℕ) (θ : ℝ) (R : ℕ → ℤ) (j : ℕ) (s : IS) : Prop where
  x0 : (xl j : ℝ) * 2 ^ F ≤ s.x
  U : (0 : ℝ) < s.x + s.y
  V : (0 : ℝ) < s.x - s.y
  cap : |th s| ≤ 1 / 2 * Real.log 3.006
  r : |th s| * 2 ^ F ≤ R j
  z : |(θ - th s) * 2 ^ F - csc sc * s.z| ≤ 4.8 * j

theorem log3 : 1 / 2 * Real.log 3 + 3.78 / 1000000 ≤ 1 / 2 * Real.log 3.006 := by
  have h : Real.log 3 - Real.log 3.006 ≤ 3 / 3.006 - 1 := by
    rw [← Real.log_div (by norm_num) (by norm_num)]
    exact Real.log_le_sub_one_of_pos (by norm_num)
  norm_num at h ⊢; linarith

/-- The bound of the angle is a bound of the quotient. -/
theorem cap_ratio {U V : ℝ} (hU : 0 < U) (hV : 0 < V) (h : |1 / 2 * (Real.log U - Real.log V)| ≤ 1 / 2 * Real.log 3.006) :
    U ≤ 3.006 * V ∧ V ≤ 3.006 * U := by
  obtain ⟨a, b⟩ := abs_le.1 h
  constructor
  · have : Real.log U ≤ Real.log (3.006 * V) := by rw [Real.log_mul (by norm_num) hV.ne']; linarith
    exact (Real.log_le_log_iff hU (by positivity)).1 this
  · have : Real.log V ≤ Real.log (3.006 * U) := by rw [Real.log_mul (by norm_num) hU.ne']; linarith
    exact (Real.log_le_log_iff hV (by positivity)).1 this

set_option maxHeartbeats 1000000 in
theorem linv_step {sc : Scale} {F j : ℕ} {θ : ℝ} {R : ℕ → ℤ} (hF : F ≤ 53) (hF2 : 20 ≤ F) (hj : j < 60)
    (hR : R (j + 1) = R j - ent .one F j + 5) (hR2 : ent .one F j + 5 ≤ R (j + 1)) (hent : 5 ≤ ent .one F j) {s : IS}
    (h : LInv sc F θ R j s) : LInv sc F θ R (j + 1) (istep .rotY sc F j s) := by
  obtain ⟨x0, hU, hV, cap, r, z⟩ := h
  obtain ⟨s0, s1⟩ := sj_range hj
  have hxl := xl_ge (show j ≤ 60 by omega)
  have hN : (1000000 : ℝ) ≤ 2 ^ F := by
    calc (1000000 : ℝ) ≤ 2 ^ 20 := by norm_num
      _ ≤ 2 ^ F := pow_le_pow_right₀ (by norm_num) hF2
  have a1 := ent_err hF hj
  have a2 := ent_err' sc hF hj
  set N : ℝ := 2 ^ F with hNd
  have hN0 : 0 < N := by linarith
  obtain ⟨rUV, rVU⟩ := cap_ratio hU hV cap
  have hX : 0.8 * N ≤ s.x := by
    have := mul_le_mul_of_nonneg_right hxl hN0.le
    linarith
  set t : ℝ := 1 / 2 ^ Sj j with ht
  have t0 : 0 < t := by positivity
  have t1 : t ≤ 1 / 2 := by
    rw [ht]
    calc (1 : ℝ) / 2 ^ Sj j ≤ 1 / 2 ^ 1 := one_div_le_one_div_of_le (by norm_num) (pow_le_pow_right₀ (by norm_num) s0)
      _ = _ := by norm_num
  have dx := div_near s.x (Sj j)
  have dy := div_near s.y (Sj j)
  rw [← ht] at dx dy
  have hY0 : -(0.501 * (s.x : ℝ)) ≤ s.y := by linarith
  have hY1 : (s.y : ℝ) ≤ 0.501 * s.x := by linarith
  have hxlj : ((xl (j + 1) : ℚ) : ℝ) = xl j * (1 - 0.501 * t) - 1 / 1000000 := by
    rw [ht]; simp only [xl]; push_cast; ring
  have xnew : (xl (j + 1) : ℝ) * N ≤ s.x * (1 - 0.501 * t) - 1 := by
    rw [hxlj]
    have : (xl j : ℝ) * N * (1 - 0.501 * t) ≤ s.x * (1 - 0.501 * t) := mul_le_mul_of_nonneg_right x0 (by linarith)
    have : 1 ≤ 1 / 1000000 * N := by linarith
    linarith
  have R1 : (R (j + 1) : ℝ) = R j - ent .one F j + 5 := by rw [hR]; push_cast; ring
  have R2 : (ent .one F j : ℝ) + 5 ≤ R (j + 1) := by exact_mod_cast hR2
  have he5 : (5 : ℝ) ≤ ent .one F j := by exact_mod_cast hent
  obtain ⟨a10, a11⟩ := abs_le.1 a1
  have hang := ang_le (Sj j) s0
  have hl3 := log3
  have hn : (3.78 : ℝ) / N ≤ 3.78 / 1000000 := div_le_div_of_nonneg_left (by norm_num) (by norm_num) hN
  have hnN : 3.78 / N * N = 3.78 := by field_simp
  have hangN : 3.78 / N ≤ ang (Sj j) := by
    rw [div_le_iff₀ hN0]; linarith
  -- the new angle
  have fin : ∀ (p δ θ' : ℝ) (zz : ℤ), (p = 1 ∧ th s ≤ 0 ∧ zz = s.z - ent sc F j ∨ p = -1 ∧ 0 ≤ th s ∧ zz = s.z + ent sc F j) →
      |θ' - (th s + p * ang (Sj j))| ≤ 3.78 / N →
      |θ'| ≤ 1 / 2 * Real.log 3.006 ∧ |θ'| * N ≤ R (j + 1) ∧ |(θ - θ') * N - csc sc * zz| ≤ 4.8 * ((j + 1 : ℕ) : ℝ) := by
    intro p δ θ' zz hp hθ
    obtain ⟨q0, q1⟩ := abs_le.1 hθ
    have hθN : |θ' * N - (th s * N + p * (N * ang (Sj j)))| ≤ 3.78 := by
      have := mul_le_mul_of_nonneg_right hθ hN0.le
      rw [hnN, ← abs_of_pos hN0, ← abs_mul] at this
      have e : θ' * N - (th s * N + p * (N * ang (Sj j))) = (θ' - (th s + p * ang (Sj j))) * N := by ring
      rw [e]; exact this
    obtain ⟨n0, n1⟩ := abs_le.1 hθN
    obtain ⟨c0, c1⟩ := abs_le.1 cap
    obtain ⟨z0, z1⟩ := abs_le.1 z
    obtain ⟨a20, a21⟩ := abs_le.1 a2
    have rr : |th s * N| ≤ R j := by rw [abs_mul, abs_of_pos hN0]; exact r
    obtain ⟨r0, r1⟩ := abs_le.1 rr
    rcases hp with ⟨rfl, hth, rfl⟩ | ⟨rfl, hth, rfl⟩
    · have hthN : th s * N ≤ 0 := mul_nonpos_of_nonpos_of_nonneg hth hN0.le
      refine ⟨?_, ?_, ?_⟩
      · rw [abs_le]; constructor <;> linarith
      · rw [← abs_of_pos hN0, ← abs_mul, abs_le]; constructor <;> linarith
      · push_cast; rw [abs_le]; constructor <;> linarith
    · have hthN : 0 ≤ th s * N := mul_nonneg hth hN0.le
      refine ⟨?_, ?_, ?_⟩
      · rw [abs_le]; constructor <;> linarith
      · rw [← abs_of_pos hN0, ← abs_mul, abs_le]; constructor <;> linarith
      · push_cast; rw [abs_le]; constructor <;> linarith
  have h1t : 0 ≤ 1 - t := by linarith
  unfold istep
  simp only [if_true]
  by_cases hc : s.y < 0
  · rw [if_pos hc]
    have hy : (s.y : ℝ) < 0 := by exact_mod_cast hc
    have hthn : th s ≤ 0 := by
      unfold th
      have := Real.log_le_log hU (show (s.x : ℝ) + s.y ≤ s.x - s.y by linarith)
      linarith
    have hA : 0.399 * N ≤ ((s.x : ℝ) + s.y) * (1 + 1 * t) := by
      have := mul_nonneg hU.le t0.le
      linarith
    have hB : 0.399 * N ≤ ((s.x : ℝ) - s.y) * (1 - 1 * t) := by
      have : (s.x : ℝ) * (1 / 2) ≤ ((s.x : ℝ) - s.y) * (1 - t) := mul_le_mul (by linarith) (by linarith) (by norm_num) hV.le
      linarith
    have eU : |((s.x + s.y / 2 ^ Sj j : ℤ) : ℝ) + ((s.y + s.x / 2 ^ Sj j : ℤ) : ℝ) - ((s.x : ℝ) + s.y) * (1 + 1 * t)| ≤ 2 := by
      rw [Int.cast_add, Int.cast_add, abs_le]; constructor <;> linarith
    have eV : |((s.x + s.y / 2 ^ Sj j : ℤ) : ℝ) - ((s.y + s.x / 2 ^ Sj j : ℤ) : ℝ) - ((s.x : ℝ) - s.y) * (1 - 1 * t)| ≤ 1 := by
      rw [Int.cast_add, Int.cast_add, abs_le]; constructor <;> linarith
    obtain ⟨u1, v1, st⟩ := real_step s0 (Or.inl rfl) ht hN hU hV hA hB eU eV
    obtain ⟨f1, f2, f3⟩ := fin 1 0 (th ⟨s.x + s.y / 2 ^ Sj j, s.y + s.x / 2 ^ Sj j, s.z - ent sc F j⟩) _ (Or.inl ⟨rfl, hthn, rfl⟩) st
    refine ⟨?_, u1, v1, f1, f2, f3⟩
    have : -(0.501 * (s.x : ℝ)) * t ≤ s.y * t := mul_le_mul_of_nonneg_right hY0 t0.le
    rw [Int.cast_add]
    linarith
  · rw [if_neg hc]
    push Not at hc
    have hy : (0 : ℝ) ≤ s.y := by exact_mod_cast hc
    have hthn : 0 ≤ th s := by
      unfold th
      have := Real.log_le_log hV (show (s.x : ℝ) - s.y ≤ s.x + s.y by linarith)
      linarith
    have hA : 0.399 * N ≤ ((s.x : ℝ) + s.y) * (1 + -1 * t) := by
      have : (s.x : ℝ) * (1 / 2) ≤ ((s.x : ℝ) + s.y) * (1 + -1 * t) := mul_le_mul (by linarith) (by linarith) (by norm_num) hU.le
      linarith
    have hB : 0.399 * N ≤ ((s.x : ℝ) - s.y) * (1 - -1 * t) := by
      have := mul_nonneg hV.le t0.le
      linarith
    have eU : |((s.x - s.y / 2 ^ Sj j : ℤ) : ℝ) + ((s.y - s.x / 2 ^ Sj j : ℤ) : ℝ) - ((s.x : ℝ) + s.y) * (1 + -1 * t)| ≤ 2 := by
      rw [Int.cast_sub, Int.cast_sub, abs_le]; constructor <;> linarith
    have eV : |((s.x - s.y / 2 ^ Sj j : ℤ) : ℝ) - ((s.y - s.x / 2 ^ Sj j : ℤ) : ℝ) - ((s.x : ℝ) - s.y) * (1 - -1 * t)| ≤ 1 := by
      rw [Int.cast_sub, Int.cast_sub, abs_le]; constructor <;> linarith
    obtain ⟨u1, v1, st⟩ := real_step s0 (Or.inr rfl) ht hN hU hV hA hB eU eV
    obtain ⟨f1, f2, f3⟩ := fin (-1) 0 (th ⟨s.x - s.y / 2 ^ Sj j, s.y - s.x / 2 ^ Sj j, s.z + ent sc F j⟩) _ (Or.inr ⟨rfl, hthn, rfl⟩) st
    refine ⟨?_, u1, v1, f1, f2, f3⟩
    have : (s.y : ℝ) * t ≤ 0.501 * (s.x : ℝ) * t := mul_le_mul_of_nonneg_right hY1 t0.le
    rw [Int.cast_sub]
    linarith

/-- Bound of the angle before step `j`, if it is at most `c` in the end. -/
def rl (F L : ℕ) (c : ℤ) (j : ℕ) : ℤ := c + (dsum .one F L - dsum .one F j) - 5 * (L - j)

/-- Bound of the angle after the last step. -/
def cl (F L : ℕ) : ℤ := (List.range L).foldl (fun c j => max c (ent .one F j + 5 - rl F L 0 (j + 1))) 0

theorem fineL_all : Proof.Pwl.allLt 46 (fun f => decide (f < 14) || (decide (20 ≤ fl f ∧
    35 * 2 ^ fl f ≤ 100 * rl (fl f) (iters f) (cl (fl f) (iters f)) 0 ∧
    2 * (10 * cl (fl f) (iters f) + 48 * (iters f : ℤ)) * 10000 ≤ 3 * 6931 * 10 * 2 ^ (fl f - (f - 1))) &&
    Proof.Pwl.allLt (iters f) (fun j => decide (5 ≤ ent .one (fl f) j ∧
      ent .one (fl f) j + 5 ≤ rl (fl f) (iters f) (cl (fl f) (iters f)) (j + 1))))) = true := by
  decide +kernel

theorem fineL {f : ℕ} (h14 : 14 ≤ f) (h45 : f ≤ 45) : 20 ≤ fl f ∧
    35 * 2 ^ fl f ≤ 100 * rl (fl f) (iters f) (cl (fl f) (iters f)) 0 ∧
    2 * (10 * cl (fl f) (iters f) + 48 * (iters f : ℤ)) * 10000 ≤ 3 * 6931 * 10 * 2 ^ (fl f - (f - 1)) ∧
    ∀ j < iters f, 5 ≤ ent .one (fl f) j ∧ ent .one (fl f) j + 5 ≤ rl (fl f) (iters f) (cl (fl f) (iters f)) (j + 1) := by
  have := Proof.Pwl.allLt_iff.1 fineL_all f (by omega)
  rw [Bool.or_eq_true, Bool.and_eq_true] at this
  rcases this with h | ⟨h, h'⟩
  · exact absurd (of_decide_eq_true h) (by omega)
  · obtain ⟨a, b, c⟩ := of_decide_eq_true h
    exact ⟨a, b, c, fun j hj => of_decide_eq_true (Proof.Pwl.allLt_iff.1 h' j hj)⟩

theorem lrun_linv (sc : Scale) {f : ℕ} (h14 : 14 ≤ f) (h45 : f ≤ 45) {X : ℤ} (hX0 : 2 ^ (f - 2) ≤ X) (hX1 : X < 2 ^ (f - 1)) {n : ℕ}
    (hn : n ≤ iters f) : LInv sc (fl f) (1 / 2 * Real.log ((X : ℝ) / 2 ^ (f - 1))) (rl (fl f) (iters f) (cl (fl f) (iters f))) n
      (lrun sc f X n) := by
  obtain ⟨a, b, c, d, -⟩ := l_facts (show 4 ≤ f by omega) h45
  obtain ⟨f1, f2, -, f4⟩ := fineL h14 h45
  induction n with
  | zero =>
    have hX0' : (2 : ℝ) ^ (f - 2) ≤ X := by exact_mod_cast hX0
    have hX1' : (X : ℝ) < 2 ^ (f - 1) := by exact_mod_cast hX1
    have hq : (0 : ℝ) < 2 ^ (fl f - (f - 1)) := by positivity
    have hF : (2 : ℝ) ^ fl f = 2 ^ (f - 1) * 2 ^ (fl f - (f - 1)) := by rw [← pow_add]; congr 1; omega
    have hf1 : (2 : ℝ) ^ (f - 1) = 2 * 2 ^ (f - 2) := by rw [← pow_succ']; congr 1; omega
    have hf2 : (0 : ℝ) < 2 ^ (f - 2) := by positivity
    set P : ℝ := 2 ^ (f - 2)
    set Q : ℝ := 2 ^ (fl f - (f - 1))
    have hXp : (0 : ℝ) < X := by linarith
    have ex : ((lrun sc f X 0).x : ℝ) = (X + 2 ^ (f - 1)) * Q := by simp [lrun, iloop, Q]
    have ey : ((lrun sc f X 0).y : ℝ) = (X - 2 ^ (f - 1)) * Q := by simp [lrun, iloop, Q]
    have ez : (lrun sc f X 0).z = 0 := rfl
    have eU : ((lrun sc f X 0).x : ℝ) + (lrun sc f X 0).y = X * (2 * Q) := by rw [ex, ey]; ring
    have eV : ((lrun sc f X 0).x : ℝ) - (lrun sc f X 0).y = 2 ^ (f - 1) * (2 * Q) := by rw [ex, ey]; ring
    have eth : th (lrun sc f X 0) = 1 / 2 * Real.log ((X : ℝ) / 2 ^ (f - 1)) := by
      unfold th
      rw [eU, eV, Real.log_mul hXp.ne' (by positivity), Real.log_mul (show (2 : ℝ) ^ (f - 1) ≠ 0 by positivity) (by positivity),
        Real.log_div hXp.ne' (by positivity)]
      ring
    have hl0 : Real.log ((X : ℝ) / 2 ^ (f - 1)) ≤ 0 := Real.log_nonpos (by positivity) (by rw [div_le_one (by positivity)]; exact hX1'.le)
    have hl1 : -Real.log 2 ≤ Real.log ((X : ℝ) / 2 ^ (f - 1)) := by
      rw [← Real.log_inv]
      refine Real.log_le_log (by norm_num) ?_
      rw [le_div_iff₀ (by positivity), hf1]; linarith
    have l2 := Real.log_two_lt_d9
    have habs : |th (lrun sc f X 0)| ≤ 1 / 2 * Real.log 2 := by
      rw [eth, abs_le]; constructor <;> linarith
    have hNp : (0 : ℝ) < 2 ^ fl f := by positivity
    refine ⟨?_, ?_, ?_, ?_, ?_, ?_⟩
    · rw [ex, hF, show ((xl 0 : ℚ) : ℝ) = 3 / 2 by simp [xl], ← mul_assoc]
      refine mul_le_mul_of_nonneg_right ?_ hq.le
      rw [hf1]; linarith
    · rw [eU]; positivity
    · rw [eV]; positivity
    · refine habs.trans ?_
      have := Real.log_le_log (show (0 : ℝ) < 2 by norm_num) (show (2 : ℝ) ≤ 3.006 by norm_num)
      linarith
    · have h1 : |th (lrun sc f X 0)| * 2 ^ fl f ≤ 0.35 * 2 ^ fl f := mul_le_mul_of_nonneg_right (by linarith) hNp.le
      have h2 : (35 : ℝ) * 2 ^ fl f ≤ 100 * (rl (fl f) (iters f) (cl (fl f) (iters f)) 0 : ℤ) := by exact_mod_cast f2
      linarith
    · rw [eth, ez]; simp
  | succ n ih =>
    have := ih (by omega)
    refine linv_step (by omega) f1 (by omega) ?_ (f4 n (by omega)).2 (f4 n (by omega)).1 this
    unfold rl
    simp only [dsum]
    push_cast
    ring

/-- The error, in units of `2^(-ew)`. -/
theorem lo_err (sc : Scale) {ew : ℕ} (h13 : 13 ≤ ew) (h44 : ew ≤ 44) {X : ℤ} (hX0 : 2 ^ (ew - 1) ≤ X) (hX1 : X < 2 ^ ew) :
    |(lo sc ew X : ℝ) - 2 ^ ew * (Real.log ((X : ℝ) / 2 ^ ew) / csc sc)| ≤ 4 := by
  have h14 : 14 ≤ ew + 1 := by omega
  have h45 : ew + 1 ≤ 45 := by omega
  obtain ⟨a, b, c, d, -⟩ := l_facts (show 4 ≤ ew + 1 by omega) h45
  obtain ⟨f1, f2, f3, f4⟩ := fineL h14 h45
  have h := lrun_linv sc h14 h45 hX0 hX1 (le_refl (iters (ew + 1)))
  rw [show ew + 1 - 1 = ew by omega] at h f3
  set F := fl (ew + 1) with hF
  set L := iters (ew + 1) with hL
  have r := h.r
  have z := h.z
  have hr : rl F L (cl F L) L = cl F L := by unfold rl; simp
  rw [hr] at r
  set s := lrun sc (ew + 1) X L with hs
  have hN : (2 : ℝ) ^ F = 2 * 2 ^ ew * 2 ^ (F - (ew + 1)) := by
    rw [← pow_succ', ← pow_add]; congr 1; omega
  have hG : (2 : ℝ) ^ (F - ew) = 2 * 2 ^ (F - (ew + 1)) := by rw [← pow_succ']; congr 1; omega
  have hN0 : (0 : ℝ) < 2 ^ F := by positivity
  set g : ℝ := Real.log ((X : ℝ) / 2 ^ ew) with hg
  have tot : |1 / 2 * g * 2 ^ F - csc sc * s.z| ≤ cl F L + 4.8 * L := by
    have e : 1 / 2 * g * 2 ^ F - csc sc * s.z = ((1 / 2 * g - th s) * 2 ^ F - csc sc * s.z) + th s * 2 ^ F := by ring
    rw [e]
    refine (abs_add_le _ _).trans ?_
    rw [abs_mul (th s), abs_of_pos hN0]
    linarith
  have f3' : (2 : ℝ) * (10 * cl F L + 48 * (L : ℝ)) * 10000 ≤ 3 * 6931 * 10 * 2 ^ (F - ew) := by exact_mod_cast f3
  have d1 := div_near s.z (F - (ew + 1))
  have hlo : (lo sc ew X : ℤ) = s.z / 2 ^ (F - (ew + 1)) := rfl
  rw [hlo]
  set q : ℝ := ((s.z / 2 ^ (F - (ew + 1)) : ℤ) : ℝ) with hq
  have hK : (0 : ℝ) < 2 ^ (F - (ew + 1)) := by positivity
  rw [hG] at f3'
  rw [hN] at tot
  set K : ℝ := 2 ^ (F - (ew + 1)) with hKd
  set E : ℝ := 2 ^ ew with hE
  have c0 : 0.6931 ≤ csc sc := by
    unfold csc; split_ifs
    · norm_num
    · have := Real.log_two_gt_d9; linarith
  have cp : 0 < csc sc := by linarith
  have m : |g * E * K - csc sc * s.z| ≤ 3 * csc sc * K := by
    have e : 1 / 2 * g * (2 * E * K) = g * E * K := by ring
    rw [e] at tot
    have : 3 * 0.6931 * K ≤ 3 * csc sc * K := mul_le_mul_of_nonneg_right (by linarith) hK.le
    linarith
  have m2 : |E * (g / csc sc) - s.z * (1 / K)| ≤ 3 := by
    have e : E * (g / csc sc) - s.z * (1 / K) = (g * E * K - csc sc * s.z) / (csc sc * K) := by field_simp
    rw [e, abs_div, abs_of_pos (mul_pos cp hK), div_le_iff₀ (mul_pos cp hK)]
    linarith
  obtain ⟨p, q⟩ := abs_le.1 m2
  rw [abs_le]; constructor <;> linarith

end Proof.Hcordic
