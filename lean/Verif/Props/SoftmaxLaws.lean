import Verif.Props.Softmax
import Verif.Props.SoftmaxOld

/-! # C97: laws of softmax -/

namespace Props.SoftmaxLaws
open Ac Model.Softmax

theorem range_perm {K : ℕ} (σ : Equiv.Perm ℕ) (hσ : ∀ i, σ i < K ↔ i < K) (g : ℕ → ℚ) :
    ∑ i ∈ Finset.range K, g (σ i) = ∑ i ∈ Finset.range K, g i :=
  Finset.sum_equiv σ (fun i => by simp [hσ]) fun _ _ => rfl

/-! ## ac_softmax_pwl_new -/

/-- **C97**, permutations: permuting the inputs permutes the outputs, bit for bit. -/
theorem C97_new_permute {e : ℕ} (he : 1 ≤ e) (l : ℕ) (q : QMode) {f : Fmt} (hW : 1 ≤ f.W) (hI : 0 ≤ f.I) (out : Fmt) {K : ℕ}
    (hK : 1 ≤ K) {x : ℕ → ℚ} (hx : ∀ i < K, f.Rep (x i)) (junk junk' : ℤ) {σ : Equiv.Perm ℕ} (hσ : ∀ i, σ i < K ↔ i < K) :
    ∃ y : ℕ → ℚ, softmaxNew e l q f out K x junk = some ((List.range K).map y) ∧
      softmaxNew e l q f out K (fun i => x (σ i)) junk' = some ((List.range K).map fun i => y (σ i)) := by
  obtain ⟨m, hm, R, hle, heq, -, -, hr⟩ := Proof.Softmax.softmax_full e he l q hW hI out hK hx junk
  obtain ⟨m', hm', R', hle', heq', -, -, hr'⟩ := Proof.Softmax.softmax_full e he l q hW hI out hK (x := fun i => x (σ i))
    (fun i hi => hx _ ((hσ i).2 hi)) junk'
  have hmax : ⌊Proof.Softmax.T l (x (σ m'))⌋ = ⌊Proof.Softmax.T l (x m)⌋ := by
    refine le_antisymm (hle _ ((hσ m').2 hm')) ?_
    have := hle' (σ.symm m) ((hσ _).1 (by rwa [Equiv.apply_symm_apply]))
    simpa only [Equiv.apply_symm_apply] using this
  simp only [hmax] at heq' hr'
  rw [range_perm σ hσ fun i => Proof.Pwl.trunc e (Proof.Softmax.H l f (x i) * 2 ^ (-⌊Proof.Softmax.T l (x m)⌋)), hr,
    Option.some_inj] at hr'
  rw [← hr'] at heq'
  exact ⟨_, heq, heq'⟩

/-- **C97**, equal inputs have equal outputs; if all inputs are equal every unrounded output is `1/K` up to 0.2 %. In general the
largest input has at least that share and the smallest at most. -/
theorem C97_new_shares {e : ℕ} (he : 1 ≤ e) (l : ℕ) (q : QMode) {f : Fmt} (hW : 1 ≤ f.W) (hI : 0 ≤ f.I) (out : Fmt) {K : ℕ}
    (hK : 1 ≤ K) {x : ℕ → ℚ} (hx : ∀ i < K, f.Rep (x i)) :
    ∃ r : ℕ → ℚ, (∀ junk, softmaxNew e l q f out K x junk = some ((List.range K).map fun i => out.cvt (r i))) ∧
      (∀ i < K, ∀ j < K, x i = x j → r i = r j) ∧
      (∀ i < K, (∀ j < K, x j ≤ x i) → (1 - 1 / 500) / K ≤ r i) ∧
      (∀ i < K, (∀ j < K, x i ≤ x j) → r i ≤ (1 + 1 / 500) / K) := by
  obtain ⟨r, h1, h2, h3, h4⟩ := Props.Softmax.C36_order_total he l q hW hI out hK hx
  have hK' : (0 : ℚ) < K := by exact_mod_cast hK
  obtain ⟨a, b⟩ := abs_le.1 h3
  refine ⟨r, h1, fun i hi j hj h => le_antisymm (h4 i hi j hj h.le) (h4 j hj i hi h.ge), fun i hi h => ?_, fun i hi h => ?_⟩
  · have := Finset.sum_le_card_nsmul (Finset.range K) r (r i) fun j hj => h4 j (Finset.mem_range.1 hj) i hi (h j (Finset.mem_range.1 hj))
    rw [Finset.card_range, nsmul_eq_mul] at this
    rw [div_le_iff₀ hK']; linarith
  · have := Finset.card_nsmul_le_sum (Finset.range K) r (r i) fun j hj => h4 i hi j (Finset.mem_range.1 hj) (h j (Finset.mem_range.1 hj))
    rw [Finset.card_range, nsmul_eq_mul] at this
    rw [le_div_iff₀ hK']; linarith

/-- **C97**, adding a constant to all inputs changes no unrounded output by more than 0.02. -/
theorem C97_new_shift {e : ℕ} (he : 1 ≤ e) (l : ℕ) (q : QMode) {f g : Fmt} (hW : 1 ≤ f.W) (hI : 0 ≤ f.I) (hWg : 1 ≤ g.W)
    (hIg : 0 ≤ g.I) (out : Fmt) {K : ℕ} (hK : 1 ≤ K) (hKe : 400 * K ≤ 2 ^ e) {x : ℕ → ℚ} {c : ℚ} (hx : ∀ i < K, f.Rep (x i))
    (hxc : ∀ i < K, g.Rep (x i + c)) (junk junk' : ℤ) :
    ∃ r s : ℕ → ℚ, softmaxNew e l q f out K x junk = some ((List.range K).map fun i => out.cvt (r i)) ∧
      softmaxNew e l q g out K (fun i => x i + c) junk' = some ((List.range K).map fun i => out.cvt (s i)) ∧
      ∀ i < K, |r i - s i| ≤ 1 / 50 := by
  obtain ⟨κ, -, h⟩ := Props.Softmax.C36_error l
  obtain ⟨r, hr, er⟩ := h he q hW hI out hK hKe hx junk
  obtain ⟨s, hs, es⟩ := h he q hWg hIg out hK hKe (x := fun i => x i + c) hxc junk'
  refine ⟨r, s, hr, hs, fun i hi => ?_⟩
  have e1 := abs_le.1 (er i hi)
  have e2 := abs_le.1 (es i hi)
  have hc : Real.exp (κ * ((x i + c : ℚ) : ℝ)) / ∑ j ∈ Finset.range K, Real.exp (κ * ((x j + c : ℚ) : ℝ)) =
      Real.exp (κ * x i) / ∑ j ∈ Finset.range K, Real.exp (κ * x j) := by
    have : ∀ j, Real.exp (κ * ((x j + c : ℚ) : ℝ)) = Real.exp (κ * x j) * Real.exp (κ * c) := by
      intro j; rw [← Real.exp_add]; push_cast; congr 1; ring
    simp only [this]
    rw [← Finset.sum_mul, mul_div_mul_right _ _ (Real.exp_pos _).ne']
  rw [hc] at e2
  have : |((r i - s i : ℚ) : ℝ)| ≤ ((1 / 50 : ℚ) : ℝ) := by
    push_cast
    rw [abs_le]; constructor <;> linarith [e1.1, e1.2, e2.1, e2.2]
  exact_mod_cast this

/-- Three inputs, the same exchanged, and the same with 1 added. -/
example : let f : Fmt := ⟨8, 4, true, .TRN, .WRAP⟩
    let o : Fmt := ⟨16, 1, false, .TRN, .WRAP⟩
    (∀ i, Equiv.swap 0 2 i < 3 ↔ i < 3) ∧
    softmaxNew (defaultE f) 16 .TRN f o 3 (fun i => (i : ℚ) - 1 / 2) 7 = some [737 / 8192, 8009 / 32768, 5455 / 8192] ∧
    softmaxNew (defaultE f) 16 .TRN f o 3 (fun i => ((Equiv.swap 0 2 i : ℕ) : ℚ) - 1 / 2) 0 =
      some [5455 / 8192, 8009 / 32768, 737 / 8192] ∧ 400 * 3 ≤ 2 ^ defaultE f ∧
    ∀ i : ℕ, i < 3 → f.Rep ((i : ℚ) - 1 / 2) ∧ f.Rep ((i : ℚ) - 1 / 2 + 1) := by
  refine ⟨fun i => ?_, by decide +kernel, by decide +kernel, by decide, fun i hi =>
    ⟨⟨16 * i - 8, ?_, ?_, ?_⟩, ⟨16 * i + 8, ?_, ?_, ?_⟩⟩⟩
  · rw [Equiv.swap_apply_def]; split_ifs <;> omega
  · simp [minRaw]; omega
  · simp [maxRaw]; omega
  · simp [Fmt.val, Fmt.F]; ring
  · simp [minRaw]; omega
  · simp [maxRaw]; omega
  · simp [Fmt.val, Fmt.F]; ring

/-! ## ac_softmax_pwl -/

/-- **C97**, permutations for `ac_softmax_pwl`, bit for bit. -/
theorem C97_permute (q : QMode) {f : Fmt} (hW : 1 ≤ f.W) (hI : 0 ≤ f.I - (if f.S then 1 else 0 : ℤ)) (out : Fmt) {K : ℕ}
    {x : ℕ → ℚ} (hx : ∀ i < K, f.Rep (x i)) {σ : Equiv.Perm ℕ} (hσ : ∀ i, σ i < K ↔ i < K) :
    ∃ y : ℕ → ℚ, softmax q f out K x = some ((List.range K).map y) ∧
      softmax q f out K (fun i => x (σ i)) = some ((List.range K).map fun i => y (σ i)) := by
  obtain ⟨R, heq, -, -, hr⟩ := Proof.SoftmaxOld.softmax_full q hW hI out hx
  obtain ⟨R', heq', -, -, hr'⟩ := Proof.SoftmaxOld.softmax_full q hW hI out (x := fun i => x (σ i)) fun i hi => hx _ ((hσ i).2 hi)
  rw [range_perm σ hσ fun i => Proof.Pwl.trunc (defaultE f) (Proof.SoftmaxOld.E f (x i)), hr, Option.some_inj] at hr'
  rw [← hr'] at heq'
  exact ⟨_, heq, heq'⟩

/-- **C97**, shares for `ac_softmax_pwl`, if some input is at least -7 (C40). -/
theorem C97_shares (q : QMode) {f : Fmt} (hW : 1 ≤ f.W) (hI : 0 ≤ f.I - (if f.S then 1 else 0 : ℤ)) (out : Fmt) {K : ℕ}
    {x : ℕ → ℚ} (hx : ∀ i < K, f.Rep (x i)) (h7 : ∃ i < K, -7 ≤ x i) :
    ∃ r : ℕ → ℚ, softmax q f out K x = some ((List.range K).map fun i => out.cvt (r i)) ∧
      (∀ i < K, ∀ j < K, x i = x j → r i = r j) ∧
      (∀ i < K, (∀ j < K, x j ≤ x i) → (1 - 1 / 500) / K ≤ r i) ∧
      (∀ i < K, (∀ j < K, x i ≤ x j) → r i ≤ (1 + 1 / 500) / K) := by
  obtain ⟨r, h1, h3, h4⟩ := Props.SoftmaxOld.C40_total_partial q hW hI out hx h7
  obtain ⟨k, hk, -⟩ := h7
  have hK' : (0 : ℚ) < K := by exact_mod_cast (by omega : 0 < K)
  obtain ⟨a, b⟩ := abs_le.1 h3
  refine ⟨r, h1, fun i hi j hj h => le_antisymm (h4 i hi j hj h.le) (h4 j hj i hi h.ge), fun i hi h => ?_, fun i hi h => ?_⟩
  · have := Finset.sum_le_card_nsmul (Finset.range K) r (r i) fun j hj => h4 j (Finset.mem_range.1 hj) i hi (h j (Finset.mem_range.1 hj))
    rw [Finset.card_range, nsmul_eq_mul] at this
    rw [div_le_iff₀ hK']; linarith
  · have := Finset.card_nsmul_le_sum (Finset.range K) r (r i) fun j hj => h4 i hi j (Finset.mem_range.1 hj) (h j (Finset.mem_range.1 hj))
    rw [Finset.card_range, nsmul_eq_mul] at this
    rw [le_div_iff₀ hK']; linarith

/-- **C97**, adding a constant to all inputs of `ac_softmax_pwl` changes no unrounded output by more than 0.027, if the types
have at most 5 integer bits besides the sign and some input is not negative, before and after (C40). -/
theorem C97_shift (q : QMode) {f g : Fmt} (hW : 1 ≤ f.W) (hI : 0 ≤ f.I - (if f.S then 1 else 0 : ℤ))
    (hIu : f.I - (if f.S then 1 else 0 : ℤ) ≤ 5) (hWg : 1 ≤ g.W) (hIg : 0 ≤ g.I - (if g.S then 1 else 0 : ℤ))
    (hIug : g.I - (if g.S then 1 else 0 : ℤ) ≤ 5) (out : Fmt) {K : ℕ} (hKe : 400 * K ≤ 2 ^ defaultE f)
    (hKg : 400 * K ≤ 2 ^ defaultE g) {x : ℕ → ℚ} {c : ℚ} (hx : ∀ i < K, f.Rep (x i)) (hxc : ∀ i < K, g.Rep (x i + c))
    (h0 : ∃ i < K, 0 ≤ x i) (h0c : ∃ i < K, 0 ≤ x i + c) :
    ∃ r s : ℕ → ℚ, softmax q f out K x = some ((List.range K).map fun i => out.cvt (r i)) ∧
      softmax q g out K (fun i => x i + c) = some ((List.range K).map fun i => out.cvt (s i)) ∧
      ∀ i < K, |r i - s i| ≤ 2 / 75 := by
  obtain ⟨r, hr, er⟩ := Props.SoftmaxOld.C40_error_partial q hW hI hIu out hKe hx h0
  obtain ⟨s, hs, es⟩ := Props.SoftmaxOld.C40_error_partial q hWg hIg hIug out hKg (x := fun i => x i + c) hxc h0c
  refine ⟨r, s, hr, hs, fun i hi => ?_⟩
  have e1 := abs_le.1 (er i hi)
  have e2 := abs_le.1 (es i hi)
  have hc : Real.exp ((x i + c : ℚ) : ℝ) / ∑ j ∈ Finset.range K, Real.exp ((x j + c : ℚ) : ℝ) =
      Real.exp (x i) / ∑ j ∈ Finset.range K, Real.exp (x j) := by
    have : ∀ j, Real.exp ((x j + c : ℚ) : ℝ) = Real.exp (x j) * Real.exp c := by
      intro j; rw [← Real.exp_add]; push_cast; rfl
    simp only [this]
    rw [← Finset.sum_mul, mul_div_mul_right _ _ (Real.exp_pos _).ne']
  rw [hc] at e2
  have : |((r i - s i : ℚ) : ℝ)| ≤ ((2 / 75 : ℚ) : ℝ) := by
    push_cast
    rw [abs_le]; constructor <;> linarith [e1.1, e1.2, e2.1, e2.2]
  exact_mod_cast this

/-- The conditions on the inputs of `ac_softmax_pwl` are needed: two equal inputs -10 have the shares 0, two equal inputs 2
nearly one half. -/
theorem C97_shift_wrong : let f : Fmt := ⟨8, 5, true, .TRN, .WRAP⟩
    let o : Fmt := ⟨16, 1, false, .TRN, .WRAP⟩
    softmax .TRN f o 2 (fun _ => -10) = some [0, 0] ∧ softmax .TRN f o 2 (fun _ => -10 + 12) = some [16389 / 32768, 16389 / 32768] := by
  decide +kernel

/-- Three inputs that meet the hypotheses, before and after adding 1. -/
example : let f : Fmt := ⟨8, 5, true, .TRN, .WRAP⟩
    0 ≤ f.I - (if f.S then 1 else 0 : ℤ) ∧ f.I - (if f.S then 1 else 0 : ℤ) ≤ 5 ∧ 400 * 3 ≤ 2 ^ defaultE f ∧
    (∃ i < 3, 0 ≤ (i : ℚ) - 1 / 2) ∧ ∀ i : ℕ, i < 3 → f.Rep ((i : ℚ) - 1 / 2) ∧ f.Rep ((i : ℚ) - 1 / 2 + 1) := by
  refine ⟨by decide, by decide, by decide, ⟨1, by norm_num, by norm_num⟩, fun i hi =>
    ⟨⟨8 * i - 4, ?_, ?_, ?_⟩, ⟨8 * i + 4, ?_, ?_, ?_⟩⟩⟩
  · simp [minRaw]; omega
  · simp [maxRaw]; omega
  · simp [Fmt.val, Fmt.F]; ring
  · simp [minRaw]; omega
  · simp [maxRaw]; omega
  · simp [Fmt.val, Fmt.F]; ring

end Props.SoftmaxLaws
