import Verif.Proof.Sincos

/-! # Order of the results of the table lookup -/

namespace Proof.SincosOrder
open Ac Model.Sincos Proof.Sincos

/-- Cosine and sine of a row of the table, as doubles. -/
def cd (i : ℕ) : ℚ := dbl (literals.getD i (0, 0)).1
def sd (i : ℕ) : ℚ := dbl (literals.getD i (0, 0)).2

def rowOk (i : ℕ) : Bool := decide (cd (i + 1) ≤ cd i) && decide (sd i ≤ sd (i + 1))

theorem rows : Proof.Pwl.allLt 511 rowOk = true := by decide +kernel

theorem cd_anti {i j : ℕ} (h : i ≤ j) (hj : j ≤ 511) : cd j ≤ cd i := by
  induction j, h using Nat.le_induction with
  | base => exact le_refl _
  | succ j hij ih =>
    have := Proof.Pwl.allLt_iff.1 rows j (by omega)
    simp only [rowOk, Bool.and_eq_true, decide_eq_true_eq] at this
    exact this.1.trans (ih (by omega))

theorem sd_mono {i j : ℕ} (h : i ≤ j) (hj : j ≤ 511) : sd i ≤ sd j := by
  induction j, h using Nat.le_induction with
  | base => exact le_refl _
  | succ j hij ih =>
    have := Proof.Pwl.allLt_iff.1 rows j (by omega)
    simp only [rowOk, Bool.and_eq_true, decide_eq_true_eq] at this
    exact (ih (by omega)).trans this.2

/-- The rounding mode of the output keeps the constant of the odd eighths between its neighbours in the table. -/
def Keeps (q : QMode) (F : ℤ) : Prop :=
  q ∈ [QMode.RND, .RND_ZERO, .RND_INF, .RND_MIN_INF, .RND_CONV, .RND_CONV_ODD] ∨
    (q = .TRN_ZERO ∧ F ∉ [(0 : ℤ), 2, 3, 5]) ∨ F = 7 ∨ 9 ≤ F

instance (q : QMode) (F : ℤ) : Decidable (Keeps q F) := by unfold Keeps; infer_instance

/-- The constant keeps its place between the neighbouring rows of the table. -/
def smallOk (q : QMode) (F : ℕ) : Bool :=
  decide (quant .RND (sd 511 * 2 ^ F) ≤ quant q (half * 2 ^ F)) && decide (quant q (half * 2 ^ F) ≤ quant .RND (cd 511 * 2 ^ F)) &&
  decide (-quant .RND (cd 511 * 2 ^ F) ≤ quant q (-half * 2 ^ F)) && decide (quant q (-half * 2 ^ F) ≤ -quant .RND (sd 511 * 2 ^ F))

theorem small : ∀ F : ℕ, F < 9 → ∀ q ∈ [QMode.TRN, .RND, .TRN_ZERO, .RND_ZERO, .RND_INF, .RND_MIN_INF, .RND_CONV, .RND_CONV_ODD],
    Keeps q F → smallOk q F = true := by decide +kernel

theorem gap : sd 511 + 1 / 1000 ≤ half ∧ half + 1 / 1000 ≤ cd 511 := by decide +kernel

theorem quant_ge (q : QMode) {x y : ℚ} (h : x + 1 / 2 ≤ y) : quant .RND x ≤ quant q y :=
  (Int.floor_le_floor h).trans (floor_le_quant q y)

theorem quant_le' (q : QMode) {x y : ℚ} (h : y + 1 / 2 ≤ x) : quant q y ≤ quant .RND x := by
  refine (quant_le_floor_add_one q y).trans ?_
  unfold quant
  rw [← Int.floor_add_one]
  exact Int.floor_le_floor (by linarith)

theorem quant_neg_ge (q : QMode) {x y : ℚ} (h : y + 1 / 2 ≤ x) : -quant .RND x ≤ quant q (-y) := by
  refine le_trans ?_ (floor_le_quant q (-y))
  rw [Int.le_floor]
  have := Int.lt_floor_add_one (x + 1 / 2)
  unfold quant
  push_cast
  have h2 : (⌈y⌉ : ℚ) ≤ ⌊x + 1 / 2⌋ := by
    exact_mod_cast Int.le_floor.2 (by have := Int.ceil_lt_add_one y; linarith)
  have := Int.le_ceil y
  linarith

theorem quant_neg_le (q : QMode) {x y : ℚ} (h : x + 1 / 2 ≤ y) : quant q (-y) ≤ -quant .RND x := by
  refine quant_le ?_
  unfold quant
  push_cast
  have := Int.floor_le (x + 1 / 2)
  linarith

theorem mid (q : QMode) (F : ℕ) (h : Keeps q F) : smallOk q F = true := by
  by_cases h9 : F < 9
  · exact small F h9 q (by cases q <;> simp) h
  · have hp : (512 : ℚ) ≤ 2 ^ F := by
      calc (512 : ℚ) = 2 ^ 9 := by norm_num
        _ ≤ 2 ^ F := pow_le_pow_right₀ (by norm_num) (by omega)
    obtain ⟨g1, g2⟩ := gap
    have e1 : sd 511 * 2 ^ F + 1 / 2 ≤ half * 2 ^ F := by
      have := mul_le_mul_of_nonneg_right g1 (by linarith : (0 : ℚ) ≤ 2 ^ F)
      linarith
    have e2 : half * 2 ^ F + 1 / 2 ≤ cd 511 * 2 ^ F := by
      have := mul_le_mul_of_nonneg_right g2 (by linarith : (0 : ℚ) ≤ 2 ^ F)
      linarith
    simp only [smallOk, Bool.and_eq_true, decide_eq_true_eq, neg_mul]
    exact ⟨⟨⟨quant_ge q e1, quant_le' q e2⟩, quant_neg_ge q e2⟩, quant_neg_le q e1⟩

/-- The number of a key, from the numbers of the rows and of the constant. -/
def krA (C S : ℕ → ℤ) (H H' : ℤ) (k : Key) : ℤ :=
  if k.2.1 = 2 then (if k.1 then H' else H) else (if k.1 then -1 else 1) * (if k.2.1 = 0 then C k.2.2 else S k.2.2)

/-- The raw number of a key, before the overflow mode. -/
def kr (q : QMode) (F : ℕ) (k : Key) : ℤ :=
  krA (fun i => quant .RND (cd i * 2 ^ F)) (fun i => quant .RND (sd i * 2 ^ F)) (quant q (half * 2 ^ F)) (quant q (-half * 2 ^ F)) k

/-- The order of two keys, from the order of the rows. -/
def leS (k k' : Key) : Bool :=
  decide (k.2.2 < 512) && decide (k'.2.2 < 512) && decide (k.2.1 < 3) && decide (k'.2.1 < 3) &&
  match k.1, k.2.1, k'.1, k'.2.1 with
  | false, 0, false, 0 => decide (k'.2.2 ≤ k.2.2)
  | false, 1, false, 1 => decide (k.2.2 ≤ k'.2.2)
  | true, 0, true, 0 => decide (k.2.2 ≤ k'.2.2)
  | true, 1, true, 1 => decide (k'.2.2 ≤ k.2.2)
  | true, 1, false, 1 => true
  | false, 1, true, 1 => decide (k.2.2 = 0) && decide (k'.2.2 = 0)
  | false, 1, false, 2 => true
  | false, 2, false, 0 => true
  | true, 0, true, 2 => true
  | true, 2, true, 1 => true
  | _, _, _, _ => false

theorem leS_krA {C S : ℕ → ℤ} {H H' : ℤ} (hC : ∀ i j, i ≤ j → j ≤ 511 → C j ≤ C i) (hS : ∀ i j, i ≤ j → j ≤ 511 → S i ≤ S j)
    (hS0 : S 0 = 0) (hSn : ∀ i, 0 ≤ S i) (m1 : S 511 ≤ H) (m2 : H ≤ C 511) (m3 : -C 511 ≤ H') (m4 : H' ≤ -S 511)
    {k k' : Key} (hk : leS k k' = true) : krA C S H H' k ≤ krA C S H H' k' := by
  obtain ⟨b, c, i⟩ := k
  obtain ⟨b', c', i'⟩ := k'
  simp only [leS, Bool.and_eq_true, decide_eq_true_eq] at hk
  obtain ⟨⟨⟨⟨hi, hi'⟩, hc⟩, hc'⟩, hm⟩ := hk
  have a1 := hC i 511 (by omega) le_rfl
  have a2 := hC i' 511 (by omega) le_rfl
  have a3 := hS i 511 (by omega) le_rfl
  have a4 := hS i' 511 (by omega) le_rfl
  have a5 := hSn i
  have a6 := hSn i'
  have b1 := hC i i'
  have b2 := hC i' i
  have b3 := hS i i'
  have b4 := hS i' i
  interval_cases c <;> interval_cases c' <;> cases b <;> cases b' <;>
    simp only [Bool.false_eq_true, decide_eq_true_eq, Bool.and_eq_true] at hm <;>
    simp only [krA, Bool.false_eq_true, if_true, if_false, OfNat.zero_ne_ofNat, OfNat.one_ne_ofNat, one_ne_zero] <;>
    first
    | omega
    | (obtain ⟨rfl, rfl⟩ := hm; omega)

theorem leS_kr {q : QMode} {F : ℕ} (h : Keeps q F) {k k' : Key} (hk : leS k k' = true) :
    kr q F k ≤ kr q F k' := by
  have hm := mid q F h
  simp only [smallOk, Bool.and_eq_true, decide_eq_true_eq] at hm
  obtain ⟨⟨⟨m1, m2⟩, m3⟩, m4⟩ := hm
  have hp : (0 : ℚ) ≤ 2 ^ F := by positivity
  have mo : ∀ {x y : ℚ}, x ≤ y → quant .RND (x * 2 ^ F) ≤ quant .RND (y * 2 ^ F) := fun h =>
    quant_mono _ (mul_le_mul_of_nonneg_right h hp)
  have s0 : ∀ i, 0 ≤ quant .RND (sd i * 2 ^ F) := fun i => le_quant (by
    push_cast; exact mul_nonneg (dbl_nonneg _) hp)
  have sz : quant .RND (sd 0 * 2 ^ F) = 0 := by
    rw [show sd 0 = 0 by decide +kernel, zero_mul]; decide +kernel
  exact leS_krA (fun i j hij hj => mo (cd_anti hij hj)) (fun i j hij hj => mo (sd_mono hij hj)) sz s0 m1 m2 m3 m4 hk

/-- Conversion to the output type keeps the order of the raw numbers from -1 to 1. -/
theorem ovf_le {t : Fmt} (ht : Out t) {r s : ℤ} (h : r ≤ s) (h0 : -2 ^ t.F.toNat ≤ r) (h1 : s ≤ 2 ^ t.F.toNat) :
    ovf t.W t.S t.O r ≤ ovf t.W t.S t.O s := by
  obtain ⟨hS, hF, hI⟩ := ht
  rcases hI with h2 | ⟨-, -, ho⟩
  · have ht : Out t := ⟨hS, hF, Or.inl h2⟩
    obtain ⟨a0, a1⟩ := fits2 ht h2 h0 (h.trans h1)
    obtain ⟨b0, b1⟩ := fits2 ht h2 (h0.trans h) h1
    rw [ovf_of_range (by omega) a0 a1, ovf_of_range (by omega) b0 b1]
    exact h
  · exact ovf_sat_mono ho h

theorem cvt_kr {t : Fmt} (hI : 1 ≤ t.I) (hF : t.I ≤ t.W) {k : Key} (h1 : k.2.1 < 3) (h2 : k.2.2 < 512) :
    t.cvt (kv t k) = t.val (ovf t.W t.S t.O (kr t.Q t.F.toNat k)) ∧
      -2 ^ t.F.toNat ≤ kr t.Q t.F.toNat k ∧ kr t.Q t.F.toNat k ≤ 2 ^ t.F.toNat := by
  have hFn : ((t.F.toNat : ℤ)) = t.F := Int.toNat_of_nonneg (by simp [Fmt.F]; omega)
  have hpw : (2 : ℚ) ^ t.F = 2 ^ t.F.toNat := by rw [← zpow_natCast, hFn]
  have hz : (0 : ℚ) < 2 ^ t.F.toNat := by positivity
  have hzi : (0 : ℤ) < 2 ^ t.F.toNat := by positivity
  obtain ⟨b, c, i⟩ := k
  have bnd : ∀ {q : QMode} {y : ℚ}, -1 ≤ y → y ≤ 1 →
      -2 ^ t.F.toNat ≤ quant q (y * 2 ^ t.F.toNat) ∧ quant q (y * 2 ^ t.F.toNat) ≤ 2 ^ t.F.toNat := by
    intro q y y0 y1
    constructor
    · refine le_quant ?_
      push_cast
      have := mul_le_mul_of_nonneg_right y0 hz.le
      linarith
    · refine quant_le ?_
      push_cast
      exact mul_le_of_le_one_left hz.le y1
  obtain ⟨-, -, l3, l4⟩ := literal_err h2
  by_cases hc : c = 2
  · subst hc
    have e : kv t (b, 2, i) = if b then -half else half := by cases b <;> simp [kv, kb]
    have hh : (0 : ℚ) ≤ half ∧ half ≤ 1 := by decide +kernel
    refine ⟨?_, ?_⟩
    · rw [e]
      unfold Fmt.cvt Fmt.cvtRaw kr krA
      rw [hpw]
      cases b <;> simp
    · simp only [kr, krA, if_true]
      cases b
      · exact bnd (by linarith [hh.1]) hh.2
      · exact bnd (by linarith [hh.2]) (by linarith [hh.1])
  · have key : ∀ y : ℚ, 0 ≤ y → y ≤ 1 → (lutFmt t).cvt y = t.val (quant .RND (y * 2 ^ t.F.toNat)) := by
      intro y y0 y1
      have hov : ovf t.W false .WRAP (quant .RND (y * 2 ^ t.F.toNat)) = quant .RND (y * 2 ^ t.F.toNat) := by
        have r0 : 0 ≤ quant .RND (y * 2 ^ t.F.toNat) := le_quant (by push_cast; exact mul_nonneg y0 hz.le)
        have r1 := (bnd (q := .RND) (by linarith) y1).2
        refine ovf_of_range (by omega) (by simpa [loRaw, minRaw] using r0) ?_
        simp only [maxRaw, Bool.false_eq_true, if_false]
        have : (2 : ℤ) ^ t.F.toNat * 2 ≤ 2 ^ t.W := by
          rw [← pow_succ]
          refine pow_le_pow_right₀ (by norm_num) ?_
          have : t.F = t.W - t.I := rfl
          omega
        omega
      unfold Fmt.cvt Fmt.cvtRaw Fmt.val
      rw [show (lutFmt t).F = t.F from rfl, hpw]
      simp only [lutFmt]
      rw [hov]
    have hb : kb t (b, c, i) = t.val (quant .RND ((if c = 0 then cd i else sd i) * 2 ^ t.F.toNat)) := by
      unfold kb
      simp only [hc, if_false]
      split_ifs
      · exact key _ (dbl_nonneg _) (dbl_le_one l3)
      · exact key _ (dbl_nonneg _) (dbl_le_one l4)
    have hd : (0 : ℚ) ≤ (if c = 0 then cd i else sd i) ∧ (if c = 0 then cd i else sd i) ≤ 1 := by
      split_ifs
      · exact ⟨dbl_nonneg _, dbl_le_one l3⟩
      · exact ⟨dbl_nonneg _, dbl_le_one l4⟩
    have hr0 : 0 ≤ quant .RND ((if c = 0 then cd i else sd i) * 2 ^ t.F.toNat) :=
      le_quant (by push_cast; exact mul_nonneg hd.1 hz.le)
    have hr1 := (bnd (q := .RND) (by linarith [hd.1]) hd.2).2
    have e : kr t.Q t.F.toNat (b, c, i) = (if b then -1 else 1) * quant .RND ((if c = 0 then cd i else sd i) * 2 ^ t.F.toNat) := by
      simp only [kr, krA, hc, if_false]
      split_ifs <;> rfl
    rw [e]
    generalize quant .RND ((if c = 0 then cd i else sd i) * 2 ^ t.F.toNat) = n at *
    have e2 : kv t (b, c, i) = t.val ((if b then -1 else 1) * n) := by
      unfold kv
      rw [hb]
      cases b <;> simp [Fmt.val]
    refine ⟨?_, by cases b <;> simp <;> omega⟩
    rw [e2]
    unfold Fmt.cvt Fmt.cvtRaw
    rw [Fmt.val_mul_pow, quant_intCast]

/-- One step of the table. -/
def stepOk (a : ℕ) : Bool :=
  (if a < 2048 then leS (keyC' ((a + 1) % 4096)) (keyC' a) else leS (keyC' a) (keyC' ((a + 1) % 4096))) &&
  (if a < 1024 ∨ 3072 ≤ a then leS (keyS' a) (keyS' ((a + 1) % 4096)) else leS (keyS' ((a + 1) % 4096)) (keyS' a))

theorem step0 : Proof.Pwl.allLt 512 (fun k => stepOk (512 * 0 + k)) = true := by decide +kernel
theorem step1 : Proof.Pwl.allLt 512 (fun k => stepOk (512 * 1 + k)) = true := by decide +kernel
theorem step2 : Proof.Pwl.allLt 512 (fun k => stepOk (512 * 2 + k)) = true := by decide +kernel
theorem step3 : Proof.Pwl.allLt 512 (fun k => stepOk (512 * 3 + k)) = true := by decide +kernel
theorem step4 : Proof.Pwl.allLt 512 (fun k => stepOk (512 * 4 + k)) = true := by decide +kernel
theorem step5 : Proof.Pwl.allLt 512 (fun k => stepOk (512 * 5 + k)) = true := by decide +kernel
theorem step6 : Proof.Pwl.allLt 512 (fun k => stepOk (512 * 6 + k)) = true := by decide +kernel
theorem step7 : Proof.Pwl.allLt 512 (fun k => stepOk (512 * 7 + k)) = true := by decide +kernel

theorem steps {a : ℕ} (ha : a < 4096) : stepOk a = true := by
  refine Proof.Pwl.chunks 512 (c := 8) (by norm_num) ?_ a ha
  intro j hj
  interval_cases j
  · exact step0
  · exact step1
  · exact step2
  · exact step3
  · exact step4
  · exact step5
  · exact step6
  · exact step7

/-- The outputs at an index of the circle. -/
def oc (t : Fmt) (e : ℤ) : ℚ := t.cvt (kv t (keyC' (e % 4096).toNat))
def os (t : Fmt) (e : ℤ) : ℚ := t.cvt (kv t (keyS' (e % 4096).toNat))

theorem leS_cvt {t : Fmt} (ht : Out t) (h : Keeps t.Q t.F) {k k' : Key}
    (hk : leS k k' = true) : t.cvt (kv t k) ≤ t.cvt (kv t k') := by
  have hI : 1 ≤ t.I := by have := ht.2.2; omega
  have hk2 := hk
  simp only [leS, Bool.and_eq_true, decide_eq_true_eq] at hk2
  obtain ⟨⟨⟨⟨hi, hi'⟩, hc⟩, hc'⟩, -⟩ := hk2
  obtain ⟨e1, l1, u1⟩ := cvt_kr hI ht.2.1 hc hi
  obtain ⟨e2, l2, u2⟩ := cvt_kr hI ht.2.1 hc' hi'
  rw [e1, e2, Fmt.val_le]
  refine ovf_le ht (leS_kr ?_ hk) l1 u2
  rwa [Int.toNat_of_nonneg (by simp [Fmt.F]; have := ht.2.1; omega)]

theorem step {t : Fmt} (ht : Out t) (h : Keeps t.Q t.F) (e : ℤ) :
    (e % 4096 < 2048 → oc t (e + 1) ≤ oc t e) ∧ (2048 ≤ e % 4096 → oc t e ≤ oc t (e + 1)) ∧
    (e % 4096 < 1024 ∨ 3072 ≤ e % 4096 → os t e ≤ os t (e + 1)) ∧
    (1024 ≤ e % 4096 ∧ e % 4096 < 3072 → os t (e + 1) ≤ os t e) := by
  have hs := steps (a := (e % 4096).toNat) (by omega)
  have hn : ((e + 1) % 4096).toNat = ((e % 4096).toNat + 1) % 4096 := by omega
  simp only [stepOk, Bool.and_eq_true] at hs
  obtain ⟨h1, h2⟩ := hs
  unfold oc os
  rw [hn]
  refine ⟨fun hh => ?_, fun hh => ?_, fun hh => ?_, fun hh => ?_⟩
  · rw [if_pos (by omega)] at h1; exact leS_cvt ht h h1
  · rw [if_neg (by omega)] at h1; exact leS_cvt ht h h1
  · rw [if_pos (by omega)] at h2; exact leS_cvt ht h h2
  · rw [if_neg (by omega)] at h2; exact leS_cvt ht h h2

theorem up {g : ℤ → ℚ} {lo hi : ℤ} (h : ∀ e, lo ≤ e → e < hi → g e ≤ g (e + 1)) {a b : ℤ} (h0 : lo ≤ a) (hab : a ≤ b)
    (h1 : b ≤ hi) : g a ≤ g b := by
  induction b, hab using Int.leInduction with
  | base => exact le_refl _
  | succ b hb ih => exact (ih (by omega)).trans (h b (by omega) (by omega))

theorem down {g : ℤ → ℚ} {lo hi : ℤ} (h : ∀ e, lo ≤ e → e < hi → g (e + 1) ≤ g e) {a b : ℤ} (h0 : lo ≤ a) (hab : a ≤ b)
    (h1 : b ≤ hi) : g b ≤ g a := by
  induction b, hab using Int.leInduction with
  | base => exact le_refl _
  | succ b hb ih => exact (h b (by omega) (by omega)).trans (ih (by omega))

/-- Rounding to the next row, within an octant. -/
theorem lutIndex_mono {n : ℕ} (hn : 12 < n) {p q : ℤ} (h : p ≤ q)
    (ho : p / 2 ^ (n - 3) = q / 2 ^ (n - 3)) : lutIndex n p ≤ lutIndex n q := by
  have hi : index1 n p ≤ index1 n q := by
    unfold index1
    rw [show max (n - 3) 1 = n - 3 by omega, Int.emod_def, Int.emod_def, ho]
    omega
  have hb : ∀ r, 0 ≤ index1 n r ∧ index1 n r < 512 * 2 ^ (n - 12) := by
    intro r
    unfold index1
    rw [show max (n - 3) 1 = n - 3 by omega]
    have : (512 : ℤ) * 2 ^ (n - 12) = 2 ^ (n - 3) := by
      rw [show n - 3 = 9 + (n - 12) by omega, pow_add]; norm_num
    rw [this]
    exact ⟨Int.emod_nonneg _ (by positivity), Int.emod_lt_of_pos _ (by positivity)⟩
  obtain ⟨p0, p1⟩ := hb p
  obtain ⟨q0, q1⟩ := hb q
  unfold lutIndex
  simp only [show ¬(4 ≤ n ∧ n ≤ 12) by omega, if_false, hn, if_true]
  generalize index1 n p = i at *
  generalize index1 n q = j at *
  obtain ⟨m, rfl⟩ : ∃ m, n = m + 13 := ⟨n - 13, by omega⟩
  rw [show m + 13 - 12 = m + 1 by omega, show m + 13 - 13 = m by omega] at *
  have hM : (0 : ℤ) < 2 ^ m := by positivity
  have e2 : (2 : ℤ) ^ (m + 1) = 2 * 2 ^ m := by rw [pow_succ]; ring
  have c : ∀ i : ℤ, ((i : ℚ) / 2 ^ (m + 1) > 511 + 1 / 2) ↔ 1023 * 2 ^ m < i := by
    intro i
    rw [gt_iff_lt, lt_div_iff₀ (by positivity), pow_succ]
    constructor
    · intro h
      have : (((1023 * 2 ^ m : ℤ)) : ℚ) < i := by push_cast; linarith
      exact_mod_cast this
    · intro h
      have : (((1023 * 2 ^ m : ℤ)) : ℚ) < i := by exact_mod_cast h
      push_cast at this; linarith
  simp only [c]
  have w : ∀ x : ℤ, wrap 9 false x = x % 512 := fun x => by simp [wrap]
  simp only [w, e2]
  rw [e2] at p1 q1
  generalize (2 : ℤ) ^ m = M at *
  have d1 := Int.emod_add_mul_ediv i (2 * M)
  have d2 := Int.emod_add_mul_ediv j (2 * M)
  have r1 := Int.emod_nonneg i (show 2 * M ≠ 0 by omega)
  have r2 := Int.emod_lt_of_pos i (show 0 < 2 * M by omega)
  have r3 := Int.emod_nonneg j (show 2 * M ≠ 0 by omega)
  have r4 := Int.emod_lt_of_pos j (show 0 < 2 * M by omega)
  have u0 : 0 ≤ i / (2 * M) := Int.ediv_nonneg p0 (by omega)
  have v0 : 0 ≤ j / (2 * M) := Int.ediv_nonneg q0 (by omega)
  have u1 : i / (2 * M) < 512 := Int.ediv_lt_of_lt_mul (by omega) (by linarith)
  have v1 : j / (2 * M) < 512 := Int.ediv_lt_of_lt_mul (by omega) (by linarith)
  have uv : i / (2 * M) ≤ j / (2 * M) := Int.ediv_le_ediv (by omega) hi
  generalize i % (2 * M) = ri at *
  generalize j % (2 * M) = rj at *
  generalize i / (2 * M) = u at *
  generalize j / (2 * M) = v at *
  have same : u = v → ri ≤ rj := by rintro rfl; linarith
  have hu : u = 511 → M < ri → 1023 * M < i := by rintro rfl h; linarith
  have hv : v = 511 → M < rj → 1023 * M < j := by rintro rfl h; linarith
  have hu' : 1023 * M < i → u = 511 := by
    intro h
    by_contra hne
    have : u ≤ 510 := by omega
    have : 2 * M * u ≤ 2 * M * 510 := mul_le_mul_of_nonneg_left this (by omega)
    linarith
  have zu : i ≤ M → u = 0 := by
    intro h
    by_contra hne
    have : 2 * M * 1 ≤ 2 * M * u := mul_le_mul_of_nonneg_left (by omega) (by omega)
    linarith
  have zv : j ≤ M → v = 0 := by
    intro h
    by_contra hne
    have : 2 * M * 1 ≤ 2 * M * v := mul_le_mul_of_nonneg_left (by omega) (by omega)
    linarith
  have nu : u = 0 → i = ri := by rintro rfl; linarith
  have nv : v = 0 → j = rj := by rintro rfl; linarith
  clear d1 d2 c
  split_ifs <;> omega

theorem ang_mono {n : ℕ} {p q : ℤ} (hp : 0 ≤ p) (hq : q < 2 ^ n) (h : p ≤ q) (hn : 1 ≤ n) : ang n p ≤ ang n q := by
  by_cases h12 : n ≤ 12
  · have e1 := (ang_facts hn hp (lt_of_le_of_lt h hq)).2.1 h12
    have e2 := (ang_facts hn (hp.trans h) hq).2.1 h12
    have : p * 2 ^ (12 - n) ≤ q * 2 ^ (12 - n) := mul_le_mul_of_nonneg_right h (by positivity)
    omega
  · obtain ⟨a0, a7, l0, l1, -⟩ := lutIndex_facts (by omega) hp (lt_of_le_of_lt h hq)
    obtain ⟨b0, b7, m0, m1, -⟩ := lutIndex_facts (by omega) (hp.trans h) hq
    unfold ang
    rw [if_pos (by omega), if_pos (by omega)]
    have : p / 2 ^ (n - 3) ≤ q / 2 ^ (n - 3) := Int.ediv_le_ediv (by positivity) h
    rcases this.lt_or_eq with h1 | h1
    · omega
    · have := lutIndex_mono (by omega) h h1
      omega

/-- The index of an angle on the line, 4096 for each turn. -/
def idx (n : ℕ) (r : ℤ) : ℤ := 4096 * (r / 2 ^ n) + ang n (r % 2 ^ n)

theorem idx_mod {n : ℕ} (hn : 1 ≤ n) (r : ℤ) : (idx n r % 4096).toNat = ang n (r % 2 ^ n) := by
  have := (ang_facts hn (Int.emod_nonneg r (by positivity)) (Int.emod_lt_of_pos r (by positivity))).1
  unfold idx
  omega

theorem idx_mono {n : ℕ} (hn : 1 ≤ n) {r s : ℤ} (h : r ≤ s) : idx n r ≤ idx n s := by
  have hr0 := Int.emod_nonneg r (show (2 : ℤ) ^ n ≠ 0 by positivity)
  have hs1 := Int.emod_lt_of_pos s (show (0 : ℤ) < 2 ^ n by positivity)
  have h1 := (ang_facts hn hr0 (Int.emod_lt_of_pos r (by positivity))).1
  have h2 : r / 2 ^ n ≤ s / 2 ^ n := Int.ediv_le_ediv (by positivity) h
  unfold idx
  rcases h2.lt_or_eq with h2 | h2
  · omega
  · have : r % 2 ^ n ≤ s % 2 ^ n := by
      rw [Int.emod_def, Int.emod_def, h2]; omega
    have := ang_mono hr0 hs1 this hn
    omega

/-- Quarters of a turn have their own index. -/
theorem idx_quarter {n : ℕ} (hn : 1 ≤ n) {r j : ℤ} :
    (j * 2 ^ n ≤ 4 * r → 1024 * j ≤ idx n r) ∧ (4 * r ≤ j * 2 ^ n → idx n r ≤ 1024 * j) := by
  have hdm := Int.emod_add_mul_ediv r (2 ^ n)
  by_cases h12 : n ≤ 12
  · have e1 := (ang_facts hn (Int.emod_nonneg r (by positivity)) (Int.emod_lt_of_pos r (by positivity))).2.1 h12
    have e : (2 : ℤ) ^ n * 2 ^ (12 - n) = 4096 := by
      rw [← pow_add, show n + (12 - n) = 12 by omega]; norm_num
    have : idx n r = r * 2 ^ (12 - n) := by
      unfold idx
      rw [e1]
      conv_rhs => rw [← hdm]
      rw [add_mul, mul_right_comm, e]; ring
    rw [this]
    have hP : (0 : ℤ) ≤ 2 ^ (12 - n) := by positivity
    constructor
    · intro h
      have := mul_le_mul_of_nonneg_right h hP
      rw [mul_assoc, e] at this
      linarith
    · intro h
      have := mul_le_mul_of_nonneg_right h hP
      rw [mul_assoc j, e] at this
      linarith
  · have e4 : (2 : ℤ) ^ n = 4 * 2 ^ (n - 2) := by
      rw [show n = 2 + (n - 2) by omega, pow_add]; simp
    have key : idx n (j * 2 ^ (n - 2)) = 1024 * j := by
      have hq : (j * 2 ^ (n - 2)) / 2 ^ n = j / 4 := by
        rw [e4]; exact Int.mul_ediv_mul_of_pos_left _ _ (by positivity)
      have hm : (j * 2 ^ (n - 2)) % 2 ^ n = (j % 4) * 2 ^ (n - 2) := by
        rw [Int.emod_def, hq, e4, Int.emod_def]; ring
      have hm0 : 0 ≤ (j % 4) * 2 ^ (n - 2) := mul_nonneg (by omega) (by positivity)
      have hm1 : (j % 4) * 2 ^ (n - 2) < 2 ^ n := by
        rw [e4]; exact mul_lt_mul_of_pos_right (by omega) (by positivity)
      obtain ⟨-, -, -, -, -, -, hz⟩ := lutIndex_facts (by omega) hm0 hm1
      have e3 : (2 : ℤ) ^ (n - 2) = 2 * 2 ^ (n - 3) := by
        rw [show n - 2 = 1 + (n - 3) by omega, pow_add]; simp
      have ho : (j % 4) * 2 ^ (n - 2) / 2 ^ (n - 3) = 2 * (j % 4) := by
        rw [e3, show (j % 4) * (2 * 2 ^ (n - 3)) = (2 * (j % 4)) * 2 ^ (n - 3) by ring]
        exact Int.mul_ediv_cancel _ (by positivity)
      have hl := hz.2 (by rw [ho, e3]; ring)
      unfold idx ang
      rw [hq, hm, if_pos (by omega), hl, ho]
      omega
    rw [← key]
    constructor
    · intro h
      refine idx_mono hn ?_
      rw [e4] at h; linarith
    · intro h
      refine idx_mono hn ?_
      rw [e4] at h; linarith

/-- The outputs by the index on the line. -/
theorem sincos_idx {f t : Fmt} (hn : f.I < f.W) (hI : 1 ≤ t.I) (hF : t.I ≤ t.W) (x : ℚ) :
    sincos f t x = some (oc t (idx (f.W - f.I).toNat (f.raw x)), os t (idx (f.W - f.I).toNat (f.raw x))) := by
  unfold oc os
  rw [idx_mod (by omega)]
  exact sincos_eq hn hI hF x rfl

/-- The places of two ordered angles. -/
theorem place {f : Fmt} (hn : f.I < f.W) {x y : ℚ} (hx : f.Rep x) (hy : f.Rep y) {j l : ℤ} (h0 : (j : ℚ) / 4 ≤ x) (h : x ≤ y)
    (h1 : y ≤ (l : ℚ) / 4) :
    1024 * j ≤ idx (f.W - f.I).toNat (f.raw x) ∧ idx (f.W - f.I).toNat (f.raw x) ≤ idx (f.W - f.I).toNat (f.raw y) ∧
      idx (f.W - f.I).toNat (f.raw y) ≤ 1024 * l := by
  obtain ⟨r, -, -, rfl⟩ := hx
  obtain ⟨s, -, -, rfl⟩ := hy
  rw [Fmt.raw_val, Fmt.raw_val]
  obtain ⟨n, hnn⟩ : ∃ n : ℕ, f.W - f.I = n := ⟨(f.W - f.I).toNat, by omega⟩
  have hF : f.F = n := hnn
  have hn1 : 1 ≤ n := by omega
  have hp : (0 : ℚ) < 2 ^ n := by positivity
  have v : ∀ r : ℤ, f.val r = r / 2 ^ n := fun r => by
    unfold Fmt.val; rw [hF, zpow_neg, zpow_natCast]; rfl
  rw [hnn, Int.toNat_natCast]
  rw [v] at h0 h
  rw [v] at h h1
  refine ⟨(idx_quarter hn1).1 ?_, idx_mono hn1 ?_, (idx_quarter hn1).2 ?_⟩
  · rw [div_le_div_iff₀ (by norm_num) hp] at h0
    have : ((j * 2 ^ n : ℤ) : ℚ) ≤ ((4 * r : ℤ) : ℚ) := by push_cast; linarith
    exact_mod_cast this
  · have := (div_le_div_iff_of_pos_right hp).1 h
    exact_mod_cast this
  · rw [div_le_div_iff₀ hp (by norm_num)] at h1
    have : ((4 * s : ℤ) : ℚ) ≤ ((l * 2 ^ n : ℤ) : ℚ) := by push_cast; linarith
    exact_mod_cast this

end Proof.SincosOrder
