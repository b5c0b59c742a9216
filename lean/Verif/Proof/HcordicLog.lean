import Verif.Proof.HcordicExp

/-! # The reduced logarithm: the result on integers -/

namespace Proof.Hcordic
open Ac Model.Hcordic

/-- Fraction bits of `dp_t` in the logarithm, `f` being those of the type of `z`. -/
def fl (f : ℕ) : ℕ := lw f - 3

/-- Lower bound of `x`. -/
def bl (F : ℕ) : ℕ → ℤ
  | 0 => 3 * 2 ^ (F - 1)
  | j + 1 => bl F j - 2 ^ F / 2 ^ Sj j - 1

theorem l_all : Proof.Pwl.allLt 46 (fun f => decide (f < 4) || (decide (f ≤ fl f ∧ fl f + 3 = lw f ∧ iters f ≤ 50 ∧ lw f ≤ 56 ∧
    dsum .one (fl f) (iters f) < 2 * 2 ^ fl f ∧ dsum .ln2 (fl f) (iters f) < 2 * 2 ^ fl f) &&
    Proof.Pwl.allLt (iters f + 1) (fun j => decide (0 ≤ bl (fl f) j)))) = true := by
  decide +kernel

theorem l_facts {f : ℕ} (h4 : 4 ≤ f) (h45 : f ≤ 45) : f ≤ fl f ∧ fl f + 3 = lw f ∧ iters f ≤ 50 ∧ lw f ≤ 56 ∧
    (∀ sc, dsum sc (fl f) (iters f) < 2 * 2 ^ fl f) ∧ ∀ j ≤ iters f, 0 ≤ bl (fl f) j := by
  have := Proof.Pwl.allLt_iff.1 l_all f (by omega)
  rw [Bool.or_eq_true, Bool.and_eq_true] at this
  rcases this with h | ⟨h, h'⟩
  · exact absurd (of_decide_eq_true h) (by omega)
  · obtain ⟨a, b, c, d, e, g⟩ := of_decide_eq_true h
    refine ⟨a, b, c, d, ?_, fun j hj => of_decide_eq_true (Proof.Pwl.allLt_iff.1 h' j (by omega))⟩
    intro sc; cases sc
    · exact e
    · exact g

theorem dsum_le (sc : Scale) {F : ℕ} (hF : F ≤ 63) {n m : ℕ} (hnm : n ≤ m) (hm : m ≤ 60) : dsum sc F n ≤ dsum sc F m := by
  induction m with
  | zero => rw [Nat.le_zero.1 hnm]
  | succ m ih =>
    rcases Nat.lt_or_ge n (m + 1) with h | h
    · have := ih (by omega) (by omega)
      have := (ent_range sc hF (show m < 60 by omega)).1
      simp only [dsum]; linarith
    · rw [show n = m + 1 by omega]

/-- The ranges. -/
structure RInv (sc : Scale) (F j : ℕ) (s : IS) : Prop where
  x0 : bl F j ≤ s.x
  x1 : s.x ≤ 2 * 2 ^ F
  y : |s.y| ≤ 2 ^ F
  z : |s.z| ≤ dsum sc F j

theorem rinv_step {sc : Scale} {F j : ℕ} (hF : F ≤ 63) (hj : j < 60) (hb : 0 ≤ bl F j) {s : IS} (h : RInv sc F j s) :
    RInv sc F (j + 1) (istep .rotY sc F j s) := by
  obtain ⟨x0, x1, y, z⟩ := h
  obtain ⟨s0, s1⟩ := sj_range hj
  obtain ⟨t0, -⟩ := ent_range sc hF hj
  obtain ⟨y0, y1⟩ := abs_le.1 y
  obtain ⟨z0, z1⟩ := abs_le.1 z
  have hp : (0 : ℤ) < 2 ^ Sj j := by positivity
  have h2 : (2 : ℤ) ≤ 2 ^ Sj j := by
    calc (2 : ℤ) = 2 ^ 1 := by norm_num
      _ ≤ 2 ^ Sj j := pow_le_pow_right₀ (by norm_num) s0
  have hx : 0 ≤ s.x := by linarith
  have xd0 : 0 ≤ s.x / 2 ^ Sj j := Int.ediv_nonneg hx hp.le
  have xd1 : s.x / 2 ^ Sj j ≤ 2 ^ F := by
    apply Int.ediv_le_of_le_mul hp
    have : (0 : ℤ) < 2 ^ F := by positivity
    nlinarith
  unfold istep
  simp only [if_true]
  by_cases hc : s.y < 0
  · rw [if_pos hc]
    have yd1 : s.y / 2 ^ Sj j ≤ 0 := by
      have := Int.ediv_neg_of_neg_of_pos hc hp; omega
    have yd0 : -(2 ^ F / 2 ^ Sj j) - 1 ≤ s.y / 2 ^ Sj j := by
      apply Int.le_ediv_of_mul_le hp
      have := Int.lt_ediv_add_one_mul_self (2 ^ F) hp
      linarith
    refine ⟨?_, ?_, ?_, ?_⟩ <;> simp only [bl, dsum]
    · linarith
    · linarith
    · rw [abs_le]; constructor <;> linarith
    · rw [abs_le]; constructor <;> linarith
  · rw [if_neg hc]
    push Not at hc
    have yd0 : 0 ≤ s.y / 2 ^ Sj j := Int.ediv_nonneg hc hp.le
    have yd1 : s.y / 2 ^ Sj j ≤ 2 ^ F / 2 ^ Sj j := Int.ediv_le_ediv hp y1
    refine ⟨?_, ?_, ?_, ?_⟩ <;> simp only [bl, dsum]
    · linarith
    · linarith
    · rw [abs_le]; constructor <;> linarith
    · rw [abs_le]; constructor <;> linarith

/-- The integers of the loop for the input `X / 2^(f - 1)`. -/
def lrun (sc : Scale) (f : ℕ) (X : ℤ) (n : ℕ) : IS :=
  iloop .rotY sc (fl f) ⟨(X + 2 ^ (f - 1)) * 2 ^ (fl f - (f - 1)), (X - 2 ^ (f - 1)) * 2 ^ (fl f - (f - 1)), 0⟩ n

theorem lrun_inv (sc : Scale) {f : ℕ} (h4 : 4 ≤ f) (h45 : f ≤ 45) {X : ℤ} (hX0 : 2 ^ (f - 2) ≤ X) (hX1 : X < 2 ^ (f - 1)) {n : ℕ}
    (hn : n ≤ iters f) : RInv sc (fl f) n (lrun sc f X n) := by
  obtain ⟨a, b, c, d, e, g⟩ := l_facts h4 h45
  induction n with
  | zero =>
    have hq : (0 : ℤ) < 2 ^ (fl f - (f - 1)) := by positivity
    have hF : (2 : ℤ) ^ fl f = 2 ^ (f - 1) * 2 ^ (fl f - (f - 1)) := by rw [← pow_add]; congr 1; omega
    have hf1 : (2 : ℤ) ^ (f - 1) = 2 * 2 ^ (f - 2) := by rw [← pow_succ']; congr 1; omega
    have hF1 : (2 : ℤ) ^ (fl f - 1) = 2 ^ (f - 2) * 2 ^ (fl f - (f - 1)) := by rw [← pow_add]; congr 1; omega
    have hf2 : (0 : ℤ) < 2 ^ (f - 2) := by positivity
    set P : ℤ := 2 ^ (f - 2)
    set Q : ℤ := 2 ^ (fl f - (f - 1))
    refine ⟨?_, ?_, ?_, by simp [lrun, iloop, dsum]⟩ <;> simp only [lrun, iloop, bl]
    · rw [hF1, hf1]; nlinarith
    · rw [hF, hf1]; rw [hf1] at hX1; nlinarith
    · rw [hF, hf1, abs_le]; rw [hf1] at hX1; constructor <;> nlinarith
  | succ n ih =>
    have := ih (by omega)
    exact rinv_step (by omega) (by omega) (g n (by omega)) this

theorem lrun_range (sc : Scale) {f : ℕ} (h4 : 4 ≤ f) (h45 : f ≤ 45) {X : ℤ} (hX0 : 2 ^ (f - 2) ≤ X) (hX1 : X < 2 ^ (f - 1)) {n : ℕ}
    (hn : n ≤ iters f) : (lrun sc f X n).InR (lw f) := by
  obtain ⟨a, b, c, d, e, g⟩ := l_facts h4 h45
  obtain ⟨x0, x1, y, z⟩ := lrun_inv sc h4 h45 hX0 hX1 hn
  have := g n hn
  have hd := dsum_le sc (F := fl f) (by omega) hn (by omega)
  have := e sc
  have hp : (2 : ℤ) ^ (lw f - 1) = 4 * 2 ^ fl f := by
    rw [show lw f - 1 = 2 + fl f by omega, pow_add]; norm_num
  have hp0 : (0 : ℤ) < 2 ^ fl f := by positivity
  obtain ⟨y0, y1⟩ := abs_le.1 y
  obtain ⟨z0, z1⟩ := abs_le.1 z
  refine ⟨?_, ?_, ?_⟩ <;> unfold InR <;> rw [hp] <;> constructor <;> linarith

theorem dpL {f : ℕ} (h4 : 4 ≤ f) (h45 : f ≤ 45) : Dp (dpFmt 2 f) (fl f) (lw f) := by
  obtain ⟨a, b, c, d, -⟩ := l_facts h4 h45
  refine ⟨by unfold dpFmt; simp only []; omega, rfl, rfl, rfl, ?_, by unfold dpFmt; norm_num, by omega, by omega, by omega⟩
  unfold dpFmt Fmt.F; simp only []; omega

/-- The reduced logarithm on integers, in units of `2^(-ew)`. -/
def lo (sc : Scale) (ew : ℕ) (X : ℤ) : ℤ := (lrun sc (ew + 1) X (iters (ew + 1))).z / 2 ^ (fl (ew + 1) - (ew + 1))

theorem logRr_eq (sc : Scale) {fa fz : Fmt} {ew : ℕ} (hew : max fa.F fz.F = ew) (h3 : 3 ≤ ew) (h44 : ew ≤ 44) {X : ℤ}
    (hX0 : 2 ^ (ew - 1) ≤ X) (hX1 : X < 2 ^ ew) {x : ℚ} (hx : x = X / 2 ^ ew) :
    logRr sc fa fz x = some (fz.cvt ((lo sc ew X : ℚ) / 2 ^ ew)) := by
  have h4 : 4 ≤ ew + 1 := by omega
  have h45 : ew + 1 ≤ 45 := by omega
  obtain ⟨a, b, c, d, e, g⟩ := l_facts h4 h45
  have dp := dpL h4 h45
  set t := dpFmt 2 (ew + 1) with ht
  have htW : t.W = lw (ew + 1) := rfl
  have hfc : ∀ v : ℤ, -(2 * 2 ^ ew) ≤ v → v < 2 * 2 ^ ew → (⟨ew + 2, 2, true, .TRN, .WRAP⟩ : Fmt).cvt ((v : ℚ) / 2 ^ ew) = (v : ℚ) / 2 ^ ew := by
    intro v v0 v1
    have e : (v : ℚ) / 2 ^ ew = (⟨ew + 2, 2, true, .TRN, .WRAP⟩ : Fmt).val v := by
      unfold Fmt.val Fmt.F; simp [div_eq_mul_inv]
    have hp' : (2 : ℤ) ^ (ew + 2 - 1) = 2 * 2 ^ ew := by rw [show ew + 2 - 1 = 1 + ew by omega, pow_add]; norm_num
    rw [e]
    refine Proof.Atan2.cvt_raw (by simp) rfl ?_ ?_
    · simp only [minRaw, if_true]; linarith
    · simp only [maxRaw, if_true]; linarith
  have hpe : (0 : ℤ) < 2 ^ ew := by positivity
  have hpq : (2 : ℚ) ^ ew ≠ 0 := by positivity
  have hXp : 0 ≤ X := le_trans (by positivity) hX0
  have c1 := hfc X (by linarith) (by linarith)
  have e2 : (X : ℚ) / 2 ^ ew + 1 = ((X + 2 ^ ew : ℤ) : ℚ) / 2 ^ ew := by push_cast; field_simp
  have e3 : (X : ℚ) / 2 ^ ew - 1 = ((X - 2 ^ ew : ℤ) : ℚ) / 2 ^ ew := by push_cast; field_simp
  have c2 := hfc (X + 2 ^ ew) (by linarith) (by linarith)
  have c3 := hfc (X - 2 ^ ew) (by linarith) (by linarith)
  have hv : ∀ v : ℤ, (v : ℚ) / 2 ^ ew = t.val (v * 2 ^ (fl (ew + 1) - ew)) := by
    intro v
    unfold Fmt.val
    rw [dp.hF, div_eq_mul_inv]
    push_cast
    rw [mul_assoc, ← zpow_natCast (2 : ℚ) (fl (ew + 1) - ew), ← zpow_add₀ (by norm_num : (2 : ℚ) ≠ 0), ← zpow_natCast (2 : ℚ) ew, ← zpow_neg]
    congr 2
    omega
  have r0 := lrun_range sc h4 h45 hX0 hX1 (Nat.zero_le (iters (ew + 1)))
  have cz : (⟨ew + 3, 2, true, .TRN, .WRAP⟩ : Fmt).cvt (0 : ℚ) = 0 := by
    have e : (0 : ℚ) = (⟨ew + 3, 2, true, .TRN, .WRAP⟩ : Fmt).val 0 := by unfold Fmt.val; simp
    rw [e]
    refine Proof.Atan2.cvt_raw (by simp) rfl ?_ ?_
    · simp only [minRaw, if_true]; have : (0 : ℤ) < 2 ^ (ew + 3 - 1) := by positivity
      linarith
    · simp only [maxRaw, if_true]; have : (0 : ℤ) < 2 ^ (ew + 3 - 1) := by positivity
      linarith
  have t0 : (0 : ℚ) = t.val 0 := by unfold Fmt.val; simp
  have hl := loop_eq dp .rotY sc (n := iters (ew + 1)) (by omega)
    (s := ⟨(X + 2 ^ ew) * 2 ^ (fl (ew + 1) - ew), (X - 2 ^ ew) * 2 ^ (fl (ew + 1) - ew), 0⟩)
    (fun k hk => lrun_range sc h4 h45 hX0 hX1 hk)
  have i1 := dp.cvt (v := (X + 2 ^ ew) * 2 ^ (fl (ew + 1) - ew)) (by rw [htW]; exact r0.1)
  have i2 := dp.cvt (v := (X - 2 ^ ew) * 2 ^ (fl (ew + 1) - ew)) (by rw [htW]; exact r0.2.1)
  have i3 := dp.cvt (v := 0) (by rw [htW]; exact r0.2.2)
  unfold toSt at hl
  unfold logRr hcordic
  simp only []
  rw [hew, Int.toNat_natCast, hx, c1, e2, e3, c2, c3, cz,
    show (⟨ew + 3, 2, true, .TRN, .WRAP⟩ : Fmt).F.toNat = ew + 1 by unfold Fmt.F; simp; omega, ← ht, hv, hv, t0, i1, i2, i3, hl]
  simp only [Option.map_some]
  congr 2
  -- the truncation of z
  have rz := (lrun_inv sc h4 h45 hX0 hX1 (le_refl (iters (ew + 1)))).z
  obtain ⟨z0, z1⟩ := abs_lt.1 (lt_of_le_of_lt rz (e sc))
  have hz : (⟨ew + 3, 2, true, .TRN, .WRAP⟩ : Fmt).cvt (t.val (lrun sc (ew + 1) X (iters (ew + 1))).z) =
      (⟨ew + 3, 2, true, .TRN, .WRAP⟩ : Fmt).val (lo sc ew X) := by
    unfold Fmt.val
    rw [dp.hF, ← Fmt.val]
    have hq : (0 : ℤ) < 2 ^ (fl (ew + 1) - (ew + 1)) := by positivity
    have hpf : (2 : ℤ) ^ fl (ew + 1) = 2 ^ (ew + 1) * 2 ^ (fl (ew + 1) - (ew + 1)) := by rw [← pow_add]; congr 1; omega
    have g0 : -(2 * 2 ^ (ew + 1)) ≤ (lrun sc (ew + 1) X (iters (ew + 1))).z / 2 ^ (fl (ew + 1) - (ew + 1)) := by
      apply Int.le_ediv_of_mul_le hq
      rw [hpf] at z0; linarith
    have g1 : (lrun sc (ew + 1) X (iters (ew + 1))).z / 2 ^ (fl (ew + 1) - (ew + 1)) < 2 * 2 ^ (ew + 1) := by
      apply Int.ediv_lt_of_lt_mul hq
      rw [hpf] at z1; linarith
    have hp' : (2 : ℤ) ^ (ew + 3 - 1) = 2 * 2 ^ (ew + 1) := by rw [show ew + 3 - 1 = 1 + (ew + 1) by omega, pow_add]; norm_num
    refine cvt_trunc (by simp) rfl rfl (by unfold Fmt.F; simp; omega) a ?_ ?_
    · simp only [minRaw, if_true]; linarith
    · simp only [maxRaw, if_true]; linarith
  unfold lrun at hz
  rw [show ew + 1 - 1 = ew by omega] at hz
  rw [hz]
  unfold Fmt.val Fmt.F
  simp only []
  rw [show -(((ew + 3 : ℕ) : ℤ) - 2) = -(ew : ℤ) + -1 by push_cast; ring, zpow_add₀ (by norm_num : (2 : ℚ) ≠ 0), zpow_neg, zpow_natCast,
    div_eq_mul_inv]
  norm_num; ring

end Proof.Hcordic
