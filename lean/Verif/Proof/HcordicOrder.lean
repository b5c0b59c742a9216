import Verif.Proof.HcordicExact
import Verif.Proof.HcordicOrderSmall

/-! # The reduced logarithm to base 2 keeps the order of its arguments -/

namespace Proof.Hcordic
open Ac Model.Hcordic

/-- Bound of the angle before step `j`. -/
def rb (j : ℕ) : ℚ := [35 / 100, 57 / 100, 32 / 100, 19 / 100, 127 / 1000, 64 / 1000, 33 / 1000, 2 / 100, 2 / 100].getD j (5 / 1000)

/-- Lower bound of `x` before step `j`. -/
def xb (j : ℕ) : ℚ := [141 / 100, 122 / 100].getD j (117 / 100)

/-- Lower bound of `x^2 - y^2` before step `j`. -/
def pb : ℕ → ℚ
  | 0 => 2
  | j + 1 => pb j * (1 - 1 / 4 ^ Sj j) - 25 / 1000000

/-- Lower bound of both products of step `j`. -/
def kb (j : ℕ) : ℚ := min (xb j * (1 - 1 / 2 ^ Sj j)) (xb j * (1 - rb j) * (1 + 1 / 2 ^ Sj j))

/-- Bound of the change of the angle by the rounding of step `j`, in units of the table. -/
def cb (j : ℕ) : ℚ := [205 / 100, 221 / 100, 162 / 100, 144 / 100, 133 / 100, 128 / 100, 126 / 100, 126 / 100, 126 / 100].getD j (124 / 100)

theorem ob_all : Proof.Pwl.allLt 60 (fun j => decide (0 < xb j ∧ 0 ≤ rb j ∧ rb j < 1 ∧ xb j ^ 2 ≤ pb j ∧ 1 / 2 ≤ kb j ∧
    1 ≤ 6931 / 10000 * cb j * (kb j - 2 / 1000000))) = true := by
  decide +kernel

theorem ob {j : ℕ} (hj : j < 60) : 0 < xb j ∧ 0 ≤ rb j ∧ rb j < 1 ∧ xb j ^ 2 ≤ pb j ∧ 1 / 2 ≤ kb j ∧
    1 ≤ 6931 / 10000 * cb j * (kb j - 2 / 1000000) :=
  of_decide_eq_true (Proof.Pwl.allLt_iff.1 ob_all j hj)

/-- What the table drops at step `j`, and its own error. -/
def drop (F j : ℕ) : ℚ := (((TB (Sj j - 1) % 2 ^ (63 - F) : ℤ) : ℚ) + 3) / 2 ^ (63 - F)

/-- Bounds before step `j`: the angle that remains and the difference from the angle of the vector. -/
def db (F : ℕ) : ℕ → ℚ × ℚ
  | 0 => (50001 / 100000 * 2 ^ F, 0)
  | j + 1 => (max ((db F j).1 - ent .ln2 F j) (ent .ln2 F j + (db F j).2), (db F j).2 + (cb j + drop F j))

/-- The checks of the steps, one pass. -/
def dchk (F : ℕ) : ℕ → (ℚ × ℚ) → ℕ → Bool
  | _, _, 0 => true
  | j, d, n + 1 => decide ((d.1 + d.2) * 69315 / 100000 ≤ rb j * 2 ^ F) &&
      dchk F (j + 1) (max (d.1 - ent .ln2 F j) (ent .ln2 F j + d.2), d.2 + (cb j + drop F j)) n

theorem dchk_ok {F n j : ℕ} (h : dchk F j (db F j) n = true) : ∀ i < n, ((db F (j + i)).1 + (db F (j + i)).2) * 69315 / 100000 ≤ rb (j + i) * 2 ^ F := by
  induction n generalizing j with
  | zero => intro i hi; omega
  | succ n ih =>
    simp only [dchk, Bool.and_eq_true] at h
    intro i hi
    rcases i with _ | i
    · exact of_decide_eq_true h.1
    · have := ih (j := j + 1) h.2 i (by omega)
      rwa [show j + 1 + i = j + (i + 1) by omega] at this

theorem d_all : Proof.Pwl.allLt 46 (fun f => decide (f < 14) || (decide (21 ≤ fl f ∧ fl f ≤ 53 ∧
    4 * 69315 / 100000 * (db (fl f) (iters f)).1 ≤ 2 ^ (fl f - (f - 1))) &&
    dchk (fl f) 0 (50001 / 100000 * 2 ^ fl f, 0) (iters f))) = true := by
  decide +kernel

theorem d_facts {f : ℕ} (h14 : 14 ≤ f) (h45 : f ≤ 45) : 21 ≤ fl f ∧ fl f ≤ 53 ∧
    4 * 69315 / 100000 * (db (fl f) (iters f)).1 ≤ 2 ^ (fl f - (f - 1)) ∧
    ∀ j < iters f, ((db (fl f) j).1 + (db (fl f) j).2) * 69315 / 100000 ≤ rb j * 2 ^ fl f := by
  have := Proof.Pwl.allLt_iff.1 d_all f (by omega)
  rw [Bool.or_eq_true, Bool.and_eq_true] at this
  rcases this with h | ⟨h, h'⟩
  · exact absurd (of_decide_eq_true h) (by omega)
  · obtain ⟨a, b, c⟩ := of_decide_eq_true h
    refine ⟨a, b, c, fun j hj => ?_⟩
    have := dchk_ok (j := 0) (show dchk (fl f) 0 (db (fl f) 0) (iters f) = true from h') j hj
    rwa [Nat.zero_add] at this

/-- The sides of a vector against its angle. -/
theorem side_le {x y : ℝ} (hy : 0 ≤ y) (hV : 0 < x - y) : y ≤ x * (1 / 2 * (Real.log (x + y) - Real.log (x - y))) := by
  have hx : 0 < x := by linarith
  set u := y / x with hu
  have u0 : 0 ≤ u := by positivity
  have u1 : u < 1 := by rw [hu, div_lt_one hx]; linarith
  have hs := Real.hasSum_log_sub_log_of_abs_lt_one (x := u) (by rw [abs_of_nonneg u0]; exact u1)
  have h := le_hasSum hs 0 (fun k _ => by positivity)
  have e1 : x + y = x * (1 + u) := by rw [hu]; field_simp
  have e2 : x - y = x * (1 - u) := by rw [hu]; field_simp
  rw [e1, e2, Real.log_mul hx.ne' (by linarith), Real.log_mul hx.ne' (by linarith)]
  have e3 : y = x * u := by rw [hu]; field_simp
  norm_num at h
  rw [e3]
  have : u ≤ 1 / 2 * (Real.log (1 + u) - Real.log (1 - u)) := by linarith
  have := mul_le_mul_of_nonneg_left this hx.le
  linarith

/-- The logarithm of a slightly changed number, `m` being a lower bound. -/
theorem log_move {A e m : ℝ} (hm : 2 < m) (hA : m ≤ A) (he : |e| ≤ 2) : 0 < A + e ∧ |Real.log (A + e) - Real.log A| ≤ |e| / (m - 2) := by
  obtain ⟨e0, e1⟩ := abs_le.1 he
  have hA0 : 0 < A := by linarith
  have hAe : 0 < A + e := by linarith
  have hm2 : 0 < m - 2 := by linarith
  refine ⟨hAe, ?_⟩
  have u1 : Real.log (A + e) - Real.log A ≤ e / A := by
    rw [← Real.log_div hAe.ne' hA0.ne']
    have := Real.log_le_sub_one_of_pos (div_pos hAe hA0)
    have e : (A + e) / A - 1 = e / A := by field_simp; ring
    linarith
  have u2 : Real.log A - Real.log (A + e) ≤ -e / (A + e) := by
    rw [← Real.log_div hA0.ne' hAe.ne']
    have := Real.log_le_sub_one_of_pos (div_pos hA0 hAe)
    have e : A / (A + e) - 1 = -e / (A + e) := by field_simp; ring
    linarith
  have b1 : e / A ≤ |e| / (m - 2) := by
    calc e / A ≤ |e| / A := div_le_div_of_nonneg_right (le_abs_self e) hA0.le
      _ ≤ _ := div_le_div_of_nonneg_left (abs_nonneg e) hm2 (by linarith)
  have b2 : -e / (A + e) ≤ |e| / (m - 2) := by
    calc -e / (A + e) ≤ |e| / (A + e) := div_le_div_of_nonneg_right (neg_le_abs e) hAe.le
      _ ≤ _ := div_le_div_of_nonneg_left (abs_nonneg e) hm2 (by linarith)
  rw [abs_le]
  constructor <;> linarith

/-- One step: the angle and the product. -/
theorem real_move {N U V U' V' t p m : ℝ} {s : ℕ} (hs : 1 ≤ s) (hp : p = 1 ∨ p = -1) (ht : t = 1 / 2 ^ s) (hU : 0 < U) (hV : 0 < V)
    (hm : 2 < m) (hA : m ≤ U * (1 + p * t)) (hB : m ≤ V * (1 - p * t)) (hUN : U ≤ 4 * N) (hVN : V ≤ 4 * N) (hN : 1000000 ≤ N)
    (eUV : |U' - U * (1 + p * t)| + |V' - V * (1 - p * t)| ≤ 2) :
    0 < U' ∧ 0 < V' ∧
    |1 / 2 * (Real.log U' - Real.log V') - (1 / 2 * (Real.log U - Real.log V) + p * ang s)| ≤ 1 / (m - 2) ∧
    U * V * (1 - t ^ 2) - 25 * N ≤ U' * V' := by
  set a := U' - U * (1 + p * t) with ha
  set b := V' - V * (1 - p * t) with hb
  have a2 : |a| ≤ 2 := by have := abs_nonneg b; linarith
  have b2 : |b| ≤ 2 := by have := abs_nonneg a; linarith
  obtain ⟨a0, a1⟩ := log_move hm hA a2
  obtain ⟨b0, b1⟩ := log_move hm hB b2
  have ea : U * (1 + p * t) + a = U' := by rw [ha]; ring
  have eb : V * (1 - p * t) + b = V' := by rw [hb]; ring
  rw [ea] at a0 a1
  rw [eb] at b0 b1
  have h : t ≤ 1 / 2 := by
    rw [ht]
    calc (1 : ℝ) / 2 ^ s ≤ 1 / 2 ^ 1 := one_div_le_one_div_of_le (by norm_num) (pow_le_pow_right₀ (by norm_num) hs)
      _ = _ := by norm_num
  have h0 : 0 < t := by rw [ht]; positivity
  have p1 : 0 < 1 + p * t := by rcases hp with h | h <;> rw [h] <;> linarith
  have p2 : 0 < 1 - p * t := by rcases hp with h | h <;> rw [h] <;> linarith
  have p3 : 1 + p * t ≤ 3 / 2 := by rcases hp with h | h <;> rw [h] <;> linarith
  have p4 : 1 - p * t ≤ 3 / 2 := by rcases hp with h | h <;> rw [h] <;> linarith
  rw [Real.log_mul hU.ne' p1.ne'] at a1
  rw [Real.log_mul hV.ne' p2.ne'] at b1
  have hl : Real.log (1 + p * t) - Real.log (1 - p * t) = 2 * (p * ang s) := by
    rw [ang_def s hs, ← ht]
    rcases hp with h | h <;> rw [h]
    · rw [one_mul]; ring
    · rw [show (1 : ℝ) + -1 * t = 1 - t by ring, show (1 : ℝ) - -1 * t = 1 + t by ring]; ring
  have hm2 : 0 < m - 2 := by linarith
  have hs2 : |a| / (m - 2) + |b| / (m - 2) ≤ 2 * (1 / (m - 2)) := by
    rw [← add_div, mul_one_div]
    exact div_le_div_of_nonneg_right eUV hm2.le
  refine ⟨a0, b0, ?_, ?_⟩
  · obtain ⟨a3, a4⟩ := abs_le.1 a1
    obtain ⟨b3, b4⟩ := abs_le.1 b1
    rw [abs_le]
    constructor <;> linarith
  · obtain ⟨a3, a4⟩ := abs_le.1 a2
    obtain ⟨b3, b4⟩ := abs_le.1 b2
    have hA6 : U * (1 + p * t) ≤ 6 * N := by
      have := mul_le_mul hUN p3 p1.le (by linarith)
      linarith
    have hB6 : V * (1 - p * t) ≤ 6 * N := by
      have := mul_le_mul hVN p4 p2.le (by linarith)
      linarith
    have e : U' * V' = U * V * (1 - t ^ 2) + a * (V * (1 - p * t)) + b * (U * (1 + p * t)) + a * b := by
      rw [← ea, ← eb]
      have : p * p = 1 := by rcases hp with h | h <;> rw [h] <;> norm_num
      have e2 : U * (1 + p * t) * (V * (1 - p * t)) = U * V * (1 - t ^ 2) := by
        calc _ = U * V * (1 - p * p * t ^ 2) := by ring
          _ = _ := by rw [this, one_mul]
      rw [← e2]; ring
    rw [e]
    have q1 : -(2 * (6 * N)) ≤ a * (V * (1 - p * t)) := by
      have := mul_le_mul_of_nonneg_right a3 (show 0 ≤ V * (1 - p * t) by linarith)
      linarith
    have q2 : -(2 * (6 * N)) ≤ b * (U * (1 + p * t)) := by
      have := mul_le_mul_of_nonneg_right b3 (show 0 ≤ U * (1 + p * t) by linarith)
      linarith
    have q3 : -4 ≤ a * b := by
      have := abs_mul a b
      have := mul_le_mul a2 b2 (abs_nonneg b) (by norm_num)
      have := neg_abs_le (a * b)
      linarith
    linarith

/-- The invariant: `θ` is the angle of the input. -/
structure MInv (F : ℕ) (θ : ℝ) (j : ℕ) (s : IS) : Prop where
  U : (0 : ℝ) < s.x + s.y
  V : (0 : ℝ) < s.x - s.y
  prod : (pb j : ℝ) * (2 ^ F * 2 ^ F) ≤ (s.x + s.y) * (s.x - s.y)
  dev : |th s * 2 ^ F - (θ * 2 ^ F - Real.log 2 * s.z)| ≤ Real.log 2 * (db F j).2
  res : |θ * 2 ^ F - Real.log 2 * s.z| ≤ Real.log 2 * (db F j).1

/-- The table against the angle. -/
theorem ent_drop {F j : ℕ} (hF : F ≤ 53) (hj : j < 60) : |(2 : ℝ) ^ F * ang (Sj j) - Real.log 2 * ent .ln2 F j| ≤ Real.log 2 * drop F j := by
  obtain ⟨s0, s1⟩ := sj_range hj
  have h := tb_err (show Sj j - 1 < 57 by omega)
  rw [show Sj j - 1 + 1 = Sj j by omega] at h
  unfold ent tabI drop
  rw [if_neg (by decide)]
  set T := TB (Sj j - 1)
  have hm := Int.emod_add_mul_ediv T (2 ^ (63 - F))
  have m0 := Int.emod_nonneg T (show (2 : ℤ) ^ (63 - F) ≠ 0 by positivity)
  have l0 := Real.log_two_gt_d9
  have hp : (0 : ℝ) < 2 ^ F := by positivity
  have hq : (0 : ℝ) < 2 ^ (63 - F) := by positivity
  have hpq : (2 : ℝ) ^ 63 = 2 ^ F * 2 ^ (63 - F) := by rw [← pow_add]; congr 1; omega
  push_cast
  set M : ℝ := ((T % 2 ^ (63 - F) : ℤ) : ℝ) with hM
  set E : ℝ := ((T / 2 ^ (63 - F) : ℤ) : ℝ) with hE
  have hm' : M + 2 ^ (63 - F) * E = T := by rw [hM, hE]; exact_mod_cast hm
  have m0' : 0 ≤ M := by rw [hM]; exact_mod_cast m0
  have h1 := mul_le_mul_of_nonneg_left h hp.le
  rw [hpq] at h1
  rw [← abs_of_pos hp, ← abs_mul, abs_of_pos hp] at h1
  set Q : ℝ := 2 ^ (63 - F)
  set P : ℝ := 2 ^ F
  have e1 : P * (ang (Sj j) - (T : ℝ) / (P * Q) * Real.log 2) = P * ang (Sj j) - Real.log 2 * E - Real.log 2 * (M / Q) := by
    rw [← hm']; field_simp; ring
  have e2 : P * (2 / (P * Q)) = 2 / Q := by field_simp
  rw [e1, e2] at h1
  have hMQ : 0 ≤ M / Q := by positivity
  have e3 : Real.log 2 * ((M + 3) / Q) = Real.log 2 * (M / Q) + Real.log 2 * 3 * (1 / Q) := by field_simp
  have e4 : 2 / Q = 2 * (1 / Q) := by ring
  have hQ1 : 0 < 1 / Q := by positivity
  rw [e4] at h1
  rw [e3]
  obtain ⟨a, b⟩ := abs_le.1 h1
  have c1 : 2 * (1 / Q) ≤ Real.log 2 * 3 * (1 / Q) := mul_le_mul_of_nonneg_right (by linarith) hQ1.le
  have c2 : 0 ≤ Real.log 2 * (M / Q) := mul_nonneg (by linarith) hMQ
  rw [abs_le]
  constructor <;> linarith

set_option maxHeartbeats 1000000 in
theorem minv_step {F j : ℕ} {θ : ℝ} (hF : F ≤ 53) (hF2 : 21 ≤ F) (hj : j < 60)
    (hr : ((db F j).1 + (db F j).2) * 69315 / 100000 ≤ rb j * 2 ^ F) {s : IS} (hx2 : s.x ≤ 2 * 2 ^ F)
    (h : MInv F θ j s) : MInv F θ (j + 1) (istep .rotY .ln2 F j s) := by
  obtain ⟨hU, hV, prod, dev, res⟩ := h
  obtain ⟨s0, s1⟩ := sj_range hj
  obtain ⟨x0, r0, r1, xp, k0, kc⟩ := ob hj
  have hN : (2000000 : ℝ) ≤ 2 ^ F := by
    calc (2000000 : ℝ) ≤ 2 ^ 21 := by norm_num
      _ ≤ 2 ^ F := pow_le_pow_right₀ (by norm_num) hF2
  have hent := ent_drop hF hj
  have hx2' : (s.x : ℝ) ≤ 2 * 2 ^ F := by exact_mod_cast hx2
  have hr' : (((db F j).1 : ℝ) + (db F j).2) * 69315 / 100000 ≤ rb j * 2 ^ F := by
    have := Rat.cast_le (K := ℝ) |>.2 hr
    push_cast at this; exact this
  have x0' : (0 : ℝ) < xb j := by exact_mod_cast x0
  have r0' : (0 : ℝ) ≤ rb j := by exact_mod_cast r0
  have r1' : (rb j : ℝ) < 1 := by exact_mod_cast r1
  have xp' : (xb j : ℝ) ^ 2 ≤ pb j := by exact_mod_cast xp
  have k0' : (1 : ℝ) / 2 ≤ kb j := by
    have := Rat.cast_le (K := ℝ) |>.2 k0
    push_cast at this; exact this
  have kc' : (1 : ℝ) ≤ 6931 / 10000 * cb j * (kb j - 2 / 1000000) := by
    have := Rat.cast_le (K := ℝ) |>.2 kc
    push_cast at this; exact this
  have k1 : (kb j : ℝ) ≤ xb j * (1 - 1 / 2 ^ Sj j) := by
    have := Rat.cast_le (K := ℝ) |>.2 (show kb j ≤ _ from min_le_left _ _)
    push_cast at this; exact this
  have k2 : (kb j : ℝ) ≤ xb j * (1 - rb j) * (1 + 1 / 2 ^ Sj j) := by
    have := Rat.cast_le (K := ℝ) |>.2 (show kb j ≤ _ from min_le_right _ _)
    push_cast at this; exact this
  have l0 := Real.log_two_gt_d9
  have l1 := Real.log_two_lt_d9
  have d1 : (((db F (j + 1)).1 : ℚ) : ℝ) = max (((db F j).1 : ℝ) - ent .ln2 F j) (ent .ln2 F j + (db F j).2) := by
    simp only [db]; push_cast; rfl
  have d2 : (((db F (j + 1)).2 : ℚ) : ℝ) = (db F j).2 + (cb j + drop F j) := by simp only [db]; push_cast; rfl
  have p1 : ((pb (j + 1) : ℚ) : ℝ) = pb j * (1 - (1 / 2 ^ Sj j) ^ 2) - 25 / 1000000 := by
    simp only [pb]; push_cast
    rw [show ((4 : ℝ)) ^ Sj j = (2 ^ Sj j) ^ 2 by rw [← pow_mul, mul_comm, pow_mul]; norm_num, div_pow, one_pow]
  have dx := div_near s.x (Sj j)
  have dy := div_near s.y (Sj j)
  set N : ℝ := 2 ^ F with hNd
  have hN0 : 0 < N := by linarith
  set t : ℝ := 1 / 2 ^ Sj j with ht
  have t0 : 0 < t := by positivity
  have t1 : t ≤ 1 / 2 := by
    rw [ht]
    calc (1 : ℝ) / 2 ^ Sj j ≤ 1 / 2 ^ 1 := one_div_le_one_div_of_le (by norm_num) (pow_le_pow_right₀ (by norm_num) s0)
      _ = _ := by norm_num
  have hx : (0 : ℝ) < s.x := by linarith
  set R : ℝ := Rat.cast (db F j).1
  set D : ℝ := Rat.cast (db F j).2
  set c : ℝ := Real.log 2 with hc
  set E : ℝ := Int.cast (ent .ln2 F j) with hE
  have hE0 : 0 ≤ E := by rw [hE]; exact_mod_cast (ent_range .ln2 (show F ≤ 63 by omega) hj).1
  set a : ℝ := θ * N - c * s.z with ha
  have hc0 : 0 < c := by linarith
  have hD0 : 0 ≤ D := by
    have := (abs_nonneg _).trans dev
    exact nonneg_of_mul_nonneg_right this hc0
  have hR0 : 0 ≤ R := by
    have := (abs_nonneg _).trans res
    exact nonneg_of_mul_nonneg_right this hc0
  -- x
  have hxN : (xb j : ℝ) * N ≤ s.x := by
    have h1 : ((xb j : ℝ) * N) ^ 2 ≤ (s.x : ℝ) ^ 2 := by
      have e : ((xb j : ℝ) * N) ^ 2 = (xb j : ℝ) ^ 2 * (N * N) := by ring
      have h2 := mul_le_mul_of_nonneg_right xp' (mul_pos hN0 hN0).le
      have h3 : ((s.x : ℝ) + s.y) * (s.x - s.y) = (s.x : ℝ) ^ 2 - (s.y : ℝ) ^ 2 := by ring
      have := sq_nonneg (s.y : ℝ)
      linarith
    exact (sq_le_sq₀ (mul_pos x0' hN0).le hx.le).1 h1
  -- the angle
  have hthN : |th s| * N ≤ rb j * N := by
    have h1 : |th s * N| ≤ c * (R + D) := by
      have := abs_sub_abs_le_abs_sub (th s * N) a
      linarith
    rw [abs_mul, abs_of_pos hN0] at h1
    have := mul_le_mul_of_nonneg_right (show c ≤ 69315 / 100000 by linarith) (show 0 ≤ R + D by linarith)
    linarith
  have hth : |th s| ≤ rb j := le_of_mul_le_mul_right hthN hN0
  obtain ⟨th0, th1⟩ := abs_le.1 hth
  have hkN : 2 < kb j * N := by
    have := mul_le_mul_of_nonneg_right k0' hN0.le
    linarith
  have hcost : N * (1 / (kb j * N - 2)) ≤ c * cb j := by
    rw [mul_one_div, div_le_iff₀ (by linarith)]
    have cb0 : 0 < (cb j : ℝ) := by
      by_contra hn
      have h1 : 6931 / 10000 * (cb j : ℝ) ≤ 0 := by linarith
      have := mul_nonpos_of_nonpos_of_nonneg h1 (show (0 : ℝ) ≤ kb j - 2 / 1000000 by linarith)
      linarith
    have h1 : (6931 / 10000 * cb j * (kb j - 2 / 1000000)) * N ≤ c * cb j * (kb j * N - 2) := by
      rw [mul_assoc]
      refine mul_le_mul (mul_le_mul_of_nonneg_right (by linarith) cb0.le) (by linarith) ?_ (by positivity)
      exact mul_nonneg (by linarith) hN0.le
    have := mul_le_mul_of_nonneg_right kc' hN0.le
    linarith
  obtain ⟨v0, v1⟩ := abs_le.1 dev
  obtain ⟨w0, w1⟩ := abs_le.1 res
  obtain ⟨n0, n1⟩ := abs_le.1 hent
  -- what follows from one move
  have fin : ∀ (p : ℝ) (s' : IS), (p = 1 ∧ th s ≤ 0 ∧ s'.z = s.z - ent .ln2 F j ∨ p = -1 ∧ 0 ≤ th s ∧ s'.z = s.z + ent .ln2 F j) →
      kb j * N ≤ ((s.x : ℝ) + s.y) * (1 + p * t) → kb j * N ≤ ((s.x : ℝ) - s.y) * (1 - p * t) →
      |((s'.x : ℝ) + s'.y) - ((s.x : ℝ) + s.y) * (1 + p * t)| + |((s'.x : ℝ) - s'.y) - ((s.x : ℝ) - s.y) * (1 - p * t)| ≤ 2 →
      MInv F θ (j + 1) s' := by
    intro p s' hp hA hB eUV
    obtain ⟨u1, u2, u3, u4⟩ := real_move (N := N) s0 (by rcases hp with h | h; exacts [Or.inl h.1, Or.inr h.1]) ht hU hV hkN hA hB
      (by linarith) (by linarith) (by linarith) eUV
    have hst : |th s' * N - (th s * N + p * (N * ang (Sj j)))| ≤ c * cb j := by
      have := mul_le_mul_of_nonneg_left u3 hN0.le
      rw [← abs_of_pos hN0, ← abs_mul, abs_of_pos hN0] at this
      have e : th s' * N - (th s * N + p * (N * ang (Sj j))) =
          N * (1 / 2 * (Real.log (s'.x + s'.y) - Real.log (s'.x - s'.y)) - (1 / 2 * (Real.log (s.x + s.y) - Real.log (s.x - s.y)) + p * ang (Sj j))) := by
        unfold th; ring
      rw [e]; exact this.trans hcost
    obtain ⟨q0, q1⟩ := abs_le.1 hst
    refine ⟨u1, u2, ?_, ?_, ?_⟩
    · rw [p1]
      have h1 : (pb j : ℝ) * (N * N) * (1 - t ^ 2) ≤ (s.x + s.y) * (s.x - s.y) * (1 - t ^ 2) :=
        mul_le_mul_of_nonneg_right prod (sub_nonneg.2 (pow_le_one₀ t0.le (by linarith)))
      have h2 : 25 * N ≤ 25 / 1000000 * (N * N) := by
        have := mul_le_mul_of_nonneg_right hN hN0.le
        linarith
      rw [← hNd]
      linarith
    · rw [d2, ← hNd]
      rcases hp with ⟨rfl, -, hz⟩ | ⟨rfl, -, hz⟩ <;> rw [hz] <;> push_cast <;> rw [← hE, abs_le] <;> constructor <;> linarith
    · rw [d1, ← hNd]
      have m1 := mul_le_mul_of_nonneg_left (le_max_left (R - E) (E + D)) hc0.le
      have m2 := mul_le_mul_of_nonneg_left (le_max_right (R - E) (E + D)) hc0.le
      rcases hp with ⟨rfl, hs, hz⟩ | ⟨rfl, hs, hz⟩
      · have := mul_nonpos_of_nonpos_of_nonneg hs hN0.le
        rw [hz]; push_cast; rw [← hE, abs_le]; constructor <;> linarith
      · have := mul_nonneg hs hN0.le
        rw [hz]; push_cast; rw [← hE, abs_le]; constructor <;> linarith
  have kN1 : kb j * N ≤ s.x * (1 - t) := by
    calc kb j * N ≤ xb j * (1 - t) * N := mul_le_mul_of_nonneg_right k1 hN0.le
      _ = xb j * N * (1 - t) := by ring
      _ ≤ _ := mul_le_mul_of_nonneg_right hxN (by linarith)
  have kN2 : kb j * N ≤ s.x * (1 - rb j) * (1 + t) := by
    calc kb j * N ≤ xb j * (1 - rb j) * (1 + t) * N := mul_le_mul_of_nonneg_right k2 hN0.le
      _ = xb j * N * ((1 - rb j) * (1 + t)) := by ring
      _ ≤ s.x * ((1 - rb j) * (1 + t)) := mul_le_mul_of_nonneg_right hxN (mul_nonneg (by linarith) (by linarith))
      _ = _ := by ring
  unfold istep
  simp only [if_true]
  by_cases hcn : s.y < 0
  · rw [if_pos hcn]
    have hy : (s.y : ℝ) < 0 := by exact_mod_cast hcn
    have hthn : th s ≤ 0 := by
      unfold th
      have := Real.log_le_log hU (show (s.x : ℝ) + s.y ≤ s.x - s.y by linarith)
      linarith
    have hs := side_le (x := s.x) (y := -s.y) (by linarith) (by linarith)
    have hs' : -(s.y : ℝ) ≤ s.x * rb j := by
      have e : 1 / 2 * (Real.log ((s.x : ℝ) + -s.y) - Real.log (s.x - -s.y)) = -th s := by
        unfold th; rw [sub_neg_eq_add, ← sub_eq_add_neg]; ring
      rw [e] at hs
      exact hs.trans (mul_le_mul_of_nonneg_left (by linarith) hx.le)
    refine fin 1 _ (Or.inl ⟨rfl, hthn, rfl⟩) ?_ ?_ ?_
    · refine kN2.trans ?_
      rw [one_mul]
      exact mul_le_mul_of_nonneg_right (by linarith) (by linarith)
    · refine kN1.trans ?_
      rw [one_mul]
      exact mul_le_mul_of_nonneg_right (by linarith) (by linarith)
    · simp only []
      rw [Int.cast_add, Int.cast_add]
      rcases abs_cases ((s.x : ℝ) + ((s.y / 2 ^ Sj j : ℤ) : ℝ) + (s.y + ((s.x / 2 ^ Sj j : ℤ) : ℝ)) - (s.x + s.y) * (1 + 1 * t)) with ⟨h1, -⟩ | ⟨h1, -⟩ <;>
      rcases abs_cases ((s.x : ℝ) + ((s.y / 2 ^ Sj j : ℤ) : ℝ) - (s.y + ((s.x / 2 ^ Sj j : ℤ) : ℝ)) - (s.x - s.y) * (1 - 1 * t)) with ⟨h2, -⟩ | ⟨h2, -⟩ <;>
      rw [h1, h2] <;> linarith
  · rw [if_neg hcn]
    push Not at hcn
    have hy : (0 : ℝ) ≤ s.y := by exact_mod_cast hcn
    have hthn : 0 ≤ th s := by
      unfold th
      have := Real.log_le_log hV (show (s.x : ℝ) - s.y ≤ s.x + s.y by linarith)
      linarith
    have hs := side_le hy hV
    have hs' : (s.y : ℝ) ≤ s.x * rb j := by
      refine hs.trans (mul_le_mul_of_nonneg_left ?_ hx.le)
      exact th1
    refine fin (-1) _ (Or.inr ⟨rfl, hthn, rfl⟩) ?_ ?_ ?_
    · refine kN1.trans ?_
      rw [show (1 : ℝ) + -1 * t = 1 - t by ring]
      exact mul_le_mul_of_nonneg_right (by linarith) (by linarith)
    · refine kN2.trans ?_
      rw [show (1 : ℝ) - -1 * t = 1 + t by ring]
      exact mul_le_mul_of_nonneg_right (by linarith) (by linarith)
    · simp only []
      rw [Int.cast_sub, Int.cast_sub]
      rcases abs_cases ((s.x : ℝ) - ((s.y / 2 ^ Sj j : ℤ) : ℝ) + (s.y - ((s.x / 2 ^ Sj j : ℤ) : ℝ)) - (s.x + s.y) * (1 + -1 * t)) with ⟨h1, -⟩ | ⟨h1, -⟩ <;>
      rcases abs_cases ((s.x : ℝ) - ((s.y / 2 ^ Sj j : ℤ) : ℝ) - (s.y - ((s.x / 2 ^ Sj j : ℤ) : ℝ)) - (s.x - s.y) * (1 - -1 * t)) with ⟨h2, -⟩ | ⟨h2, -⟩ <;>
      rw [h1, h2] <;> linarith

theorem lrun_minv {f : ℕ} (h14 : 14 ≤ f) (h45 : f ≤ 45) {X : ℤ} (hX0 : 2 ^ (f - 2) ≤ X) (hX1 : X < 2 ^ (f - 1)) {n : ℕ}
    (hn : n ≤ iters f) : MInv (fl f) (1 / 2 * Real.log ((X : ℝ) / 2 ^ (f - 1))) n (lrun .ln2 f X n) := by
  obtain ⟨a, b, c, d, -⟩ := l_facts (show 4 ≤ f by omega) h45
  obtain ⟨f1, f2, -, f4⟩ := d_facts h14 h45
  induction n with
  | zero =>
    have hX0' : (2 : ℝ) ^ (f - 2) ≤ X := by exact_mod_cast hX0
    have hX1' : (X : ℝ) < 2 ^ (f - 1) := by exact_mod_cast hX1
    have hq : (0 : ℝ) < 2 ^ (fl f - (f - 1)) := by positivity
    have hF : (2 : ℝ) ^ fl f = 2 ^ (f - 1) * 2 ^ (fl f - (f - 1)) := by rw [← pow_add]; congr 1; omega
    have hf1 : (2 : ℝ) ^ (f - 1) = 2 * 2 ^ (f - 2) := by rw [← pow_succ']; congr 1; omega
    have hf2 : (0 : ℝ) < 2 ^ (f - 2) := by positivity
    set P : ℝ := 2 ^ (f - 2)
    set Q : ℝ := 2 ^ (fl f - (f - 1))
    have hXp : (0 : ℝ) < X := by linarith
    have ex : ((lrun .ln2 f X 0).x : ℝ) = (X + 2 ^ (f - 1)) * Q := by simp [lrun, iloop, Q]
    have ey : ((lrun .ln2 f X 0).y : ℝ) = (X - 2 ^ (f - 1)) * Q := by simp [lrun, iloop, Q]
    have ez : (lrun .ln2 f X 0).z = 0 := rfl
    have eU : ((lrun .ln2 f X 0).x : ℝ) + (lrun .ln2 f X 0).y = X * (2 * Q) := by rw [ex, ey]; ring
    have eV : ((lrun .ln2 f X 0).x : ℝ) - (lrun .ln2 f X 0).y = 2 ^ (f - 1) * (2 * Q) := by rw [ex, ey]; ring
    have eth : th (lrun .ln2 f X 0) = 1 / 2 * Real.log ((X : ℝ) / 2 ^ (f - 1)) := by
      unfold th
      rw [eU, eV, Real.log_mul hXp.ne' (by positivity), Real.log_mul (show (2 : ℝ) ^ (f - 1) ≠ 0 by positivity) (by positivity),
        Real.log_div hXp.ne' (by positivity)]
      ring
    have hl0 : Real.log ((X : ℝ) / 2 ^ (f - 1)) ≤ 0 := Real.log_nonpos (by positivity) (by rw [div_le_one (by positivity)]; exact hX1'.le)
    have hl1 : -Real.log 2 ≤ Real.log ((X : ℝ) / 2 ^ (f - 1)) := by
      rw [← Real.log_inv]
      refine Real.log_le_log (by norm_num) ?_
      rw [le_div_iff₀ (by positivity), hf1]; linarith
    have l2 := Real.log_two_gt_d9
    have hNp : (0 : ℝ) < 2 ^ fl f := by positivity
    refine ⟨?_, ?_, ?_, ?_, ?_⟩
    · rw [eU]; positivity
    · rw [eV]; positivity
    · rw [eU, eV, show ((pb 0 : ℚ) : ℝ) = 2 by simp [pb], hF, hf1]
      have : P * (P * (Q * Q)) ≤ X * (P * (Q * Q)) := mul_le_mul_of_nonneg_right hX0' (by positivity)
      linarith
    · rw [eth, ez]; simp [db]
    · rw [ez, Int.cast_zero, mul_zero, sub_zero, abs_mul, abs_of_pos hNp, show (((db (fl f) 0).1 : ℚ) : ℝ) = 50001 / 100000 * 2 ^ fl f by simp [db],
        ← mul_assoc]
      refine mul_le_mul_of_nonneg_right ?_ hNp.le
      rw [abs_le]; constructor <;> linarith
  | succ n ih =>
    have := ih (by omega)
    exact minv_step f2 f1 (by omega) (f4 n (by omega)) (lrun_inv .ln2 (by omega) h45 hX0 hX1 (show n ≤ iters f by omega)).x1 this

/-- At least 13 bits: the results are in order. -/
theorem lo_mono_large {ew : ℕ} (h13 : 13 ≤ ew) (h44 : ew ≤ 44) {X Y : ℤ} (hX0 : 2 ^ (ew - 1) ≤ X) (hXY : X < Y) (hY1 : Y < 2 ^ ew) :
    lo .ln2 ew X ≤ lo .ln2 ew Y := by
  have h14 : 14 ≤ ew + 1 := by omega
  have h45 : ew + 1 ≤ 45 := by omega
  obtain ⟨a, b, c, d, -⟩ := l_facts (show 4 ≤ ew + 1 by omega) h45
  obtain ⟨f1, f2, f3, f4⟩ := d_facts h14 h45
  have hx := (lrun_minv h14 h45 hX0 (hXY.trans hY1) (le_refl (iters (ew + 1)))).res
  have hy := (lrun_minv h14 h45 (hX0.trans hXY.le) hY1 (le_refl (iters (ew + 1)))).res
  rw [show ew + 1 - 1 = ew by omega] at hx hy f3
  unfold lo
  apply Int.ediv_le_ediv (by positivity)
  set F := fl (ew + 1)
  set L := iters (ew + 1)
  set zx := (lrun .ln2 (ew + 1) X L).z
  set zy := (lrun .ln2 (ew + 1) Y L).z
  have f3' : 4 * 69315 / 100000 * ((db F L).1 : ℝ) ≤ 2 ^ (F - ew) := by
    have := Rat.cast_le (K := ℝ) |>.2 f3
    push_cast at this; exact this
  set R : ℝ := Rat.cast (db F L).1
  have l0 := Real.log_two_gt_d9
  have l1 := Real.log_two_lt_d9
  have hE : (0 : ℝ) < 2 ^ ew := by positivity
  have hX0' : (2 : ℝ) ^ (ew - 1) ≤ X := by exact_mod_cast hX0
  have hXp : (0 : ℝ) < X := lt_of_lt_of_le (by positivity) hX0'
  have hXY' : (X : ℝ) + 1 ≤ Y := by exact_mod_cast hXY
  have hY1' : (Y : ℝ) + 1 ≤ 2 ^ ew := by exact_mod_cast hY1
  have hYp : (0 : ℝ) < Y := by linarith
  have hN : (2 : ℝ) ^ F = 2 ^ ew * 2 ^ (F - ew) := by rw [← pow_add]; congr 1; omega
  have hK : (0 : ℝ) < 2 ^ (F - ew) := by positivity
  have hlog : 1 / 2 ^ ew ≤ Real.log ((Y : ℝ) / 2 ^ ew) - Real.log ((X : ℝ) / 2 ^ ew) := by
    rw [Real.log_div hYp.ne' hE.ne', Real.log_div hXp.ne' hE.ne']
    have h1 := Real.log_le_sub_one_of_pos (div_pos hXp hYp)
    rw [Real.log_div hXp.ne' hYp.ne'] at h1
    have h2 : 1 / 2 ^ ew ≤ 1 - (X : ℝ) / Y := by
      rw [show 1 - (X : ℝ) / Y = (Y - X) / Y by field_simp, div_le_div_iff₀ hE hYp]
      have := mul_le_mul_of_nonneg_right (show (1 : ℝ) ≤ Y - X by linarith) hE.le
      linarith
    linarith
  have hR0 : 0 ≤ R := nonneg_of_mul_nonneg_right ((abs_nonneg _).trans hx) (by linarith)
  obtain ⟨x0, x1⟩ := abs_le.1 hx
  obtain ⟨y0, y1⟩ := abs_le.1 hy
  have hcR : Real.log 2 * R ≤ 69315 / 100000 * R := mul_le_mul_of_nonneg_right (by linarith) hR0
  have hg : 2 ^ (F - ew) ≤ (Real.log ((Y : ℝ) / 2 ^ ew) - Real.log ((X : ℝ) / 2 ^ ew)) * 2 ^ F := by
    have := mul_le_mul_of_nonneg_right hlog (show (0 : ℝ) ≤ 2 ^ F by positivity)
    have e : 1 / 2 ^ ew * (2 : ℝ) ^ F = 2 ^ (F - ew) := by rw [hN]; field_simp
    rwa [e] at this
  have hz : Real.log 2 * (zx : ℝ) ≤ Real.log 2 * zy := by linarith
  have := le_of_mul_le_mul_left hz (by linarith)
  exact_mod_cast this

/-- The reduced logarithm to base 2 keeps the order. -/
theorem lo_mono {ew : ℕ} (h3 : 3 ≤ ew) (h44 : ew ≤ 44) {X Y : ℤ} (hX0 : 2 ^ (ew - 1) ≤ X) (hXY : X ≤ Y) (hY1 : Y < 2 ^ ew) :
    lo .ln2 ew X ≤ lo .ln2 ew Y := by
  rcases hXY.lt_or_eq with hlt | rfl
  swap
  · exact le_refl _
  by_cases h : 13 ≤ ew
  · exact lo_mono_large h h44 hX0 hlt hY1
  · have hs : steps ew (2 ^ (ew - 1)) (2 ^ (ew - 1) - 1) (lo .ln2 ew ((2 ^ (ew - 1) : ℕ) : ℤ)) = true := by
      by_cases h11 : ew < 11
      · have := Proof.Pwl.allLt_iff.1 steps_small ew h11
        rw [Bool.or_eq_true] at this
        rcases this with h | h
        · exact absurd (of_decide_eq_true h) (by omega)
        · exact h
      · have : ew = 11 ∨ ew = 12 := by omega
        rcases this with rfl | rfl
        · exact steps_11
        · exact steps_12
    have he : (2 : ℤ) ^ ew = 2 * 2 ^ (ew - 1) := by rw [← pow_succ']; congr 1; omega
    have hc : ((2 ^ (ew - 1) : ℕ) : ℤ) = 2 ^ (ew - 1) := by push_cast; rfl
    have hp : 0 < 2 ^ (ew - 1) := by positivity
    generalize 2 ^ (ew - 1) = p at hs hc hp
    have := steps_ok hs (Y - p).toNat (by omega) (X - p).toNat (by omega)
    rw [show ((p + (X - p).toNat : ℕ) : ℤ) = X by omega, show ((p + (Y - p).toNat : ℕ) : ℤ) = Y by omega] at this
    exact this

end Proof.Hcordic
