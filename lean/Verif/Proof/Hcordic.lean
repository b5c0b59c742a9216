import Verif.Proof.HcordicTable
import Verif.Proof.Atan2

/-! # The loop of the hyperbolic CORDIC on integers -/

namespace Proof.Hcordic
open Ac Model.Hcordic
open Proof.Cordic (val_add val_sub)

/-- Shift distance of iteration `j`. -/
def Sj (j : ℕ) : ℕ := shiftDist.getD j 0

def tabI (sc : Scale) (i : ℕ) : ℤ := if sc = .one then TA i else TB i

/-- The angle of iteration `j` in units of `2^-F`. -/
def ent (sc : Scale) (F j : ℕ) : ℤ := tabI sc (Sj j - 1) / 2 ^ (63 - F)

/-- The three variables of the loop as integers. -/
structure IS where
  x : ℤ
  y : ℤ
  z : ℤ
  deriving DecidableEq

def istep (mode : Mode) (sc : Scale) (F j : ℕ) (s : IS) : IS :=
  if (if mode = .rotY then s.y < 0 else 0 ≤ s.z) then
    ⟨s.x + s.y / 2 ^ Sj j, s.y + s.x / 2 ^ Sj j, s.z - ent sc F j⟩
  else ⟨s.x - s.y / 2 ^ Sj j, s.y - s.x / 2 ^ Sj j, s.z + ent sc F j⟩

def iloop (mode : Mode) (sc : Scale) (F : ℕ) (s : IS) : ℕ → IS
  | 0 => s
  | n + 1 => istep mode sc F n (iloop mode sc F s n)

theorem sj_all : Proof.Pwl.allLt 60 (fun j => decide (1 ≤ Sj j ∧ Sj j ≤ 57)) = true := by decide +kernel

theorem sj_range {j : ℕ} (hj : j < 60) : 1 ≤ Sj j ∧ Sj j ≤ 57 := of_decide_eq_true (Proof.Pwl.allLt_iff.1 sj_all j hj)

theorem sj_get {j : ℕ} (hj : j < 60) : shiftDist[j]? = some (Sj j) := by
  have hl : j < shiftDist.length := by rw [show shiftDist.length = 60 by rfl]; exact hj
  unfold Sj
  rw [List.getD_eq_getElem?_getD, List.getElem?_eq_getElem hl, Option.getD_some]

theorem tab_get (sc : Scale) {i : ℕ} (hi : i < 57) : (if sc = .one then table else tableInvLn2)[i]? = some (tabI sc i) := by
  have hl : i < table.length := by rw [show table.length = 57 by rfl]; exact hi
  have hl' : i < tableInvLn2.length := by rw [show tableInvLn2.length = 57 by rfl]; exact hi
  unfold tabI TA TB
  by_cases h : sc = .one
  · simp only [if_pos h]
    rw [List.getD_eq_getElem?_getD, List.getElem?_eq_getElem hl, Option.getD_some]
  · simp only [if_neg h]
    rw [List.getD_eq_getElem?_getD, List.getElem?_eq_getElem hl', Option.getD_some]

theorem tab_range (sc : Scale) {i : ℕ} (hi : i < 57) : 0 ≤ tabI sc i ∧ tabI sc i < 2 ^ 63 := by
  have h1 := of_decide_eq_true (Proof.Pwl.allLt_iff.1 ta_range i hi)
  obtain ⟨h2, h3, -⟩ := of_decide_eq_true (Proof.Pwl.allLt_iff.1 tb_all i hi)
  unfold tabI
  split_ifs
  · exact h1
  · exact ⟨h2, h3⟩

/-- Truncation of `r` in units of `2^-n` to `k` fraction bits. -/
theorem cvt_trunc {g : Fmt} (hW : 1 ≤ g.W) (hQ : g.Q = .TRN) (hO : g.O = .WRAP) {r : ℤ} {n k : ℕ} (hk : g.F = k) (hkn : k ≤ n)
    (h0 : minRaw g.W g.S ≤ r / 2 ^ (n - k)) (h1 : r / 2 ^ (n - k) ≤ maxRaw g.W g.S) :
    g.cvt ((r : ℚ) * 2 ^ (-(n : ℤ))) = g.val (r / 2 ^ (n - k)) := by
  have : ⌊(r : ℚ) * 2 ^ (-(n : ℤ)) * 2 ^ g.F⌋ = r / 2 ^ (n - k) := by
    rw [hk, mul_assoc, ← zpow_add₀ (by norm_num : (2 : ℚ) ≠ 0), show -(n : ℤ) + k = -((n - k : ℕ) : ℤ) by omega, zpow_neg,
      zpow_natCast, ← div_eq_mul_inv]
    have := Rat.floor_intCast_div_natCast r (2 ^ (n - k))
    push_cast at this
    exact this
  rw [Proof.Atan2.cvt_floor hW hQ hO (by rw [this]; exact h0) (by rw [this]; exact h1), this]

theorem tableAt_eq (sc : Scale) {zw i : ℕ} (hz : 1 ≤ zw) (hz2 : zw ≤ 63) (hi : i < 57) :
    tableAt sc zw i = some (((tabI sc i / 2 ^ (63 - zw) : ℤ) : ℚ) * 2 ^ (-(zw : ℤ))) := by
  unfold tableAt
  rw [tab_get sc hi, Option.map_some]
  congr 1
  obtain ⟨h0, h1⟩ := tab_range sc hi
  have hF : (⟨zw, 0, false, .TRN, .WRAP⟩ : Fmt).F = zw := by unfold Fmt.F; simp
  have hp : (0 : ℤ) < 2 ^ (63 - zw) := by positivity
  have := cvt_trunc (g := ⟨zw, 0, false, .TRN, .WRAP⟩) (r := tabI sc i) (n := 63) hz rfl rfl hF hz2
    (by simpa [minRaw] using Int.ediv_nonneg h0 hp.le)
    (by
      have : tabI sc i / 2 ^ (63 - zw) < 2 ^ zw := by
        apply Int.ediv_lt_of_lt_mul hp
        rw [← pow_add, show zw + (63 - zw) = 63 by omega]; exact h1
      simp only [maxRaw]
      simpa using Int.le_sub_one_of_lt this)
  rw [show (tabI sc i : ℚ) / 2 ^ 63 = (tabI sc i : ℚ) * 2 ^ (-((63 : ℕ) : ℤ)) by rw [zpow_neg, zpow_natCast, div_eq_mul_inv], this]
  unfold Fmt.val
  rw [hF]

/-- Integers of a signed word. -/
def InR (W : ℕ) (v : ℤ) : Prop := -2 ^ (W - 1) ≤ v ∧ v < 2 ^ (W - 1)

theorem inR_div {W : ℕ} {v : ℤ} (h : InR W v) (d : ℕ) : InR W (v / 2 ^ d) := by
  obtain ⟨h0, h1⟩ := h
  have hp : (1 : ℤ) ≤ 2 ^ d := one_le_pow₀ (by norm_num)
  have hq : (0 : ℤ) < 2 ^ (W - 1) := by positivity
  constructor
  · apply Int.le_ediv_of_mul_le (by linarith)
    nlinarith
  · apply Int.ediv_lt_of_lt_mul (by linarith)
    nlinarith

/-- The properties of `dp_t` the loop needs. -/
structure Dp (t : Fmt) (F zw : ℕ) : Prop where
  W1 : 1 ≤ t.W
  S : t.S = true
  Q : t.Q = .TRN
  O : t.O = .WRAP
  hF : t.F = F
  I : 1 < t.I
  le : F ≤ zw
  z1 : 1 ≤ zw
  z63 : zw ≤ 63

variable {t : Fmt} {F zw : ℕ}

theorem Dp.min (h : Dp t F zw) {v : ℤ} (hv : InR t.W v) : minRaw t.W t.S ≤ v := by
  rw [h.S]; exact hv.1

theorem Dp.max (h : Dp t F zw) {v : ℤ} (hv : InR t.W v) : v ≤ maxRaw t.W t.S := by
  rw [h.S]; simp only [maxRaw, if_true]; linarith [hv.2]

theorem Dp.cvt (h : Dp t F zw) {v : ℤ} (hv : InR t.W v) : t.cvt (t.val v) = t.val v :=
  Proof.Atan2.cvt_raw h.W1 h.O (h.min hv) (h.max hv)

theorem Dp.shr (h : Dp t F zw) {v : ℤ} (hv : InR t.W v) (d : ℕ) : t.cvt (t.shr (t.val v) d) = t.val (v / 2 ^ d) := by
  rw [Proof.Atan2.shr_raw h.W1 d (h.min (inR_div hv d)) (h.max (inR_div hv d)), h.cvt (inR_div hv d)]

theorem ent_range (sc : Scale) (hF : F ≤ 63) {j : ℕ} (hj : j < 60) : 0 ≤ ent sc F j ∧ ent sc F j < 2 ^ F := by
  obtain ⟨s0, s1⟩ := sj_range hj
  obtain ⟨h0, h1⟩ := tab_range sc (show Sj j - 1 < 57 by omega)
  unfold ent
  refine ⟨Int.ediv_nonneg h0 (by positivity), ?_⟩
  apply Int.ediv_lt_of_lt_mul (by positivity)
  rw [← pow_add, show F + (63 - F) = 63 by omega]
  exact h1

theorem Dp.W_gt (h : Dp t F zw) : F ≤ t.W - 1 := by
  have := h.hF; have := h.I; unfold Fmt.F at *; omega

theorem Dp.entry (h : Dp t F zw) (sc : Scale) {j : ℕ} (hj : j < 60) :
    (tableAt sc zw (Sj j - 1)).map (fun a => t.cvt a) = some (t.val (ent sc F j)) := by
  obtain ⟨s0, s1⟩ := sj_range hj
  rw [tableAt_eq sc h.z1 h.z63 (by omega), Option.map_some]
  congr 1
  have e : tabI sc (Sj j - 1) / 2 ^ (63 - zw) / 2 ^ (zw - F) = ent sc F j := by
    unfold ent
    rw [Int.ediv_ediv_of_nonneg (by positivity), ← pow_add]
    have := h.le; have := h.z63
    rw [show 63 - zw + (zw - F) = 63 - F by omega]
  obtain ⟨e0, e1⟩ := ent_range sc (h.le.trans h.z63) hj
  have hw : (2 : ℤ) ^ F ≤ 2 ^ (t.W - 1) := pow_le_pow_right₀ (by norm_num) h.W_gt
  have hr : InR t.W (ent sc F j) := ⟨by have : (0 : ℤ) < 2 ^ (t.W - 1) := by positivity
                                        linarith, by linarith⟩
  rw [← e] at hr ⊢
  exact cvt_trunc h.W1 h.Q h.O h.hF h.le (h.min hr) (h.max hr)

def IS.InR (W : ℕ) (s : IS) : Prop := Hcordic.InR W s.x ∧ Hcordic.InR W s.y ∧ Hcordic.InR W s.z

/-- The state of the model with the values `s`. -/
def toSt (t : Fmt) (s : IS) : St := ⟨t.val s.x, t.val s.y, t.val s.z⟩

theorem step_eq (h : Dp t F zw) (mode : Mode) (sc : Scale) {j : ℕ} (hj : j < 60) {s : IS} (h0 : s.InR t.W)
    (h1 : (istep mode sc F j s).InR t.W) : step mode sc t zw j (toSt t s) = some (toSt t (istep mode sc F j s)) := by
  have he := h.entry sc hj
  obtain ⟨a, ha, he⟩ := Option.map_eq_some_iff.1 he
  unfold step
  rw [sj_get hj]
  simp only [Option.bind_eq_bind, Option.bind_some, ha, toSt]
  rw [he, h.shr h0.1, h.shr h0.2.1]
  have c1 : (t.val s.y < 0) ↔ s.y < 0 := by
    have := Fmt.val_lt (f := t) (r := s.y) (s := 0)
    rwa [show t.val 0 = 0 by unfold Fmt.val; simp] at this
  have c2 : (0 ≤ t.val s.z) ↔ 0 ≤ s.z := by
    have := Fmt.val_le (f := t) (r := 0) (s := s.z)
    rwa [show t.val 0 = 0 by unfold Fmt.val; simp] at this
  unfold istep at h1 ⊢
  rw [val_add, val_add, val_add, val_sub, val_sub, val_sub]
  cases mode
  · simp only [if_true, c1, decide_eq_true_eq] at h1 ⊢
    split_ifs at h1 ⊢ <;> rw [h.cvt h1.1, h.cvt h1.2.1, h.cvt h1.2.2]
  · simp only [reduceCtorEq, if_false, c2, decide_eq_true_eq] at h1 ⊢
    split_ifs at h1 ⊢ <;> rw [h.cvt h1.1, h.cvt h1.2.1, h.cvt h1.2.2]

theorem loop_eq (h : Dp t F zw) (mode : Mode) (sc : Scale) {n : ℕ} (hn : n ≤ 60) {s : IS}
    (hr : ∀ k ≤ n, (iloop mode sc F s k).InR t.W) :
    loop mode sc t zw n (toSt t s) = some (toSt t (iloop mode sc F s n)) := by
  induction n with
  | zero => rfl
  | succ n ih =>
    have := ih (by omega) (fun k hk => hr k (by omega))
    unfold loop at this ⊢
    rw [show ∀ (g : ℕ → Option St → Option St) (a : Option St), forUp g (n + 1) a = g n (forUp g n a) from fun _ _ => rfl, this,
      Option.bind_some]
    exact step_eq h mode sc (by omega) (hr n (by omega)) (hr (n + 1) le_rfl)

end Proof.Hcordic
