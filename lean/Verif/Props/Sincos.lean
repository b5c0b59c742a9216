import Verif.Proof.Sincos

/-! # Sine and cosine by table lookup (C37)

`sincos f t x` is the cosine and sine of `x` turns: `f` is the type of the angle, `t` the type of the two outputs; `none`
would be an access outside the table. -/

namespace Props.Sincos
open Ac Model.Sincos

/-- No access leaves the table, and both outputs are within one unit of the output type and `2^-47` of the cosine and sine;
an angle with more than 12 fraction bits adds one step of the table. Output types are signed, with room for 1 or saturating. -/
theorem C37_error {f t : Fmt} (hf : f.I < f.W) (hS : t.S = true) (hW : t.I ≤ t.W)
    (hI : 2 ≤ t.I ∨ (t.I = 1 ∧ 3 ≤ t.W ∧ (t.O = .SAT ∨ t.O = .SAT_SYM))) {x : ℚ} (hx : f.Rep x) :
    ∃ c s : ℚ, sincos f t x = some (c, s) ∧
      |(c : ℝ) - Real.cos (2 * Real.pi * x)| ≤ 2 ^ (-t.F) + 1 / 2 ^ 47 + (if f.W - f.I ≤ 12 then 0 else 1 / 650) ∧
      |(s : ℝ) - Real.sin (2 * Real.pi * x)| ≤ 2 ^ (-t.F) + 1 / 2 ^ 47 + (if f.W - f.I ≤ 12 then 0 else 1 / 650) := by
  obtain ⟨r, -, -, rfl⟩ := hx
  have h1 : 1 ≤ t.I := by omega
  have hr : f.raw (f.val r) = r := Fmt.raw_val f r
  obtain ⟨n1, n2⟩ := Proof.Sincos.angle_near hf r rfl
  have hlt := (Proof.Sincos.ang_facts (n := (f.W - f.I).toNat) (p := r % 2 ^ (f.W - f.I).toNat) (by omega)
    (Int.emod_nonneg _ (by positivity)) (Int.emod_lt_of_pos _ (by positivity))).1
  obtain ⟨e1, e2⟩ := Proof.Sincos.out_err ⟨hS, hW, hI⟩ hlt
  refine ⟨_, _, Proof.Sincos.sincos_eq hf h1 hW _ (by rw [hr]), ?_, ?_⟩
  · exact le_trans (abs_sub_le _ _ _) (add_le_add e1 n1)
  · exact le_trans (abs_sub_le _ _ _) (add_le_add e2 n2)

example : ∃ c s : ℚ, sincos ⟨12, 2, true, .TRN, .WRAP⟩ ⟨16, 2, true, .TRN, .WRAP⟩ (-77 / 64) = some (c, s) ∧
    |(c : ℝ) - Real.cos (2 * Real.pi * (-77 / 64 : ℚ))| ≤ 2 ^ (-14 : ℤ) + 1 / 2 ^ 47 + 0 := by
  obtain ⟨c, s, h, h1, -⟩ := C37_error (f := ⟨12, 2, true, .TRN, .WRAP⟩) (t := ⟨16, 2, true, .TRN, .WRAP⟩) (by norm_num) rfl
    (by norm_num) (Or.inl (by norm_num)) (x := -77 / 64) ⟨-1232, by norm_num [minRaw], by norm_num [maxRaw], by norm_num [Fmt.val, Fmt.F]⟩
  exact ⟨c, s, h, by simpa [Fmt.F] using h1⟩

/-- The function is periodic: angles that differ by whole turns give the same outputs. -/
theorem C37_periodic {f : Fmt} (t : Fmt) (hf : f.I < f.W) {x y : ℚ} (hx : f.Rep x) (hy : f.Rep y) (k : ℤ) (h : y = x + k) :
    sincos f t y = sincos f t x := by
  obtain ⟨r, -, -, rfl⟩ := hx
  obtain ⟨q, -, -, rfl⟩ := hy
  have : f.raw (f.val q) % 2 ^ (f.W - f.I).toNat = f.raw (f.val r) % 2 ^ (f.W - f.I).toNat := by
    rw [Fmt.raw_val, Fmt.raw_val]
    obtain ⟨n, hnn⟩ : ∃ n : ℕ, f.W - f.I = n := ⟨(f.W - f.I).toNat, by omega⟩
    have hF : f.F = n := hnn
    rw [hnn, Int.toNat_natCast]
    have : q = r + 2 ^ n * k := by
      unfold Fmt.val at h
      rw [hF, zpow_neg, zpow_natCast] at h
      have h2 : (2 : ℚ) ^ n ≠ 0 := by positivity
      field_simp at h
      exact_mod_cast h
    rw [this, Int.add_mul_emod_self_left]
  unfold sincos
  simp only [this]

example : sincos ⟨12, 4, true, .TRN, .WRAP⟩ ⟨16, 2, true, .TRN, .WRAP⟩ (-77 / 64) =
    sincos ⟨12, 4, true, .TRN, .WRAP⟩ ⟨16, 2, true, .TRN, .WRAP⟩ (371 / 64) :=
  C37_periodic _ (by norm_num) ⟨1484, by norm_num [minRaw], by norm_num [maxRaw], by norm_num [Fmt.val, Fmt.F]⟩
    ⟨-308, by norm_num [minRaw], by norm_num [maxRaw], by norm_num [Fmt.val, Fmt.F]⟩ (-7) (by norm_num)

/-- An odd eighth of a turn: the four angles whose outputs do not come from the table. -/
def OddEighth (x : ℚ) : Prop := ∃ m : ℤ, 8 * x = 2 * m + 1

/-- Half a turn further both outputs change sign (any input type). Partial: at the odd eighths only for the
rounding modes that treat both signs alike. -/
theorem C37_half_turn_partial {f t : Fmt} (hf : f.I < f.W) (hS : t.S = true) (hI : 2 ≤ t.I) (hW : t.I ≤ t.W) {x y : ℚ}
    (hx : f.Rep x) (hy : f.Rep y) (k : ℤ) (h : y = x + 1 / 2 + k)
    (hQ : t.Q ∈ [QMode.RND_ZERO, .RND_INF, .RND_CONV, .RND_CONV_ODD, .TRN_ZERO] ∨ ¬OddEighth x) :
    ∃ c s : ℚ, sincos f t x = some (c, s) ∧ sincos f t y = some (-c, -s) := by
  have hx' := hx
  obtain ⟨r, -, -, rfl⟩ := hx
  obtain ⟨q, -, -, rfl⟩ := hy
  have h1 : 1 ≤ t.I := by omega
  obtain ⟨n, hnn⟩ : ∃ n : ℕ, f.W - f.I = n := ⟨(f.W - f.I).toNat, by omega⟩
  have hn1 : 1 ≤ n := by omega
  have hF : f.F = n := hnn
  have hq : q = r + 2 ^ (n - 1) + 2 ^ n * k := by
    unfold Fmt.val at h
    rw [hF, zpow_neg, zpow_natCast] at h
    have h2 : (2 : ℚ) ^ n ≠ 0 := by positivity
    have h3 : (2 : ℚ) ^ n = 2 * 2 ^ (n - 1) := by rw [← pow_succ']; congr 1; omega
    have : (q : ℚ) = r + 2 ^ (n - 1) + 2 ^ n * k := by
      field_simp at h
      linarith
    exact_mod_cast this
  set a := Proof.Sincos.ang n (r % 2 ^ n) with ha
  have hm0 : 0 ≤ r % 2 ^ n := Int.emod_nonneg _ (by positivity)
  have hm1 : r % 2 ^ n < 2 ^ n := Int.emod_lt_of_pos _ (by positivity)
  have hlt : a < 4096 := (Proof.Sincos.ang_facts hn1 hm0 hm1).1
  have hb : (a + 2048) % 4096 = Proof.Sincos.ang n (q % 2 ^ n) := by
    rw [hq, Int.add_mul_emod_self_left, ha, ← Proof.Sincos.ang_half hn1 hm0 hm1, Int.emod_add_emod]
  have e1 := Proof.Sincos.sincos_eq (t := t) hf h1 hW (f.val r) (a := a) (by rw [Fmt.raw_val, hnn, Int.toNat_natCast])
  have e2 := Proof.Sincos.sincos_eq (t := t) hf h1 hW (f.val q) (a := (a + 2048) % 4096)
    (by rw [Fmt.raw_val, hnn, Int.toNat_natCast]; exact hb)
  obtain ⟨s1, s2, -, -⟩ := Proof.Sincos.sym_spec (t := t) (by omega) hlt
  have hq' : Model.DivFixed.symm t.Q = true ∨ ¬((a / 512) % 2 = 1 ∧ a % 512 = 0) := by
    rcases hQ with h | h
    · left; simpa [Model.DivFixed.symm] using h
    · right; rintro ⟨u, v⟩; exact h (Proof.Sincos.odd_eighth hf hnn ha u v)
  obtain ⟨c1, c2⟩ := Proof.Sincos.cvt_neg_kv hS hI hW hq'
  refine ⟨_, _, e1, ?_⟩
  rw [e2]
  simp only [Proof.Sincos.keyC', Proof.Sincos.keyS'] at s1 s2 c1 c2
  rw [s1, s2, c1, c2]

example : ∃ c s : ℚ, sincos ⟨16, 1, true, .TRN, .WRAP⟩ ⟨16, 2, true, .TRN, .WRAP⟩ (-77 / 2 ^ 15) = some (c, s) ∧
    sincos ⟨16, 1, true, .TRN, .WRAP⟩ ⟨16, 2, true, .TRN, .WRAP⟩ (-77 / 2 ^ 15 + 1 / 2) = some (-c, -s) :=
  C37_half_turn_partial (by norm_num) rfl (by norm_num) (by norm_num)
    ⟨-77, by norm_num [minRaw], by norm_num [maxRaw], by norm_num [Fmt.val, Fmt.F]⟩
    ⟨-77 + 2 ^ 14, by norm_num [minRaw], by norm_num [maxRaw], by norm_num [Fmt.val, Fmt.F]⟩ 0 (by norm_num)
    (Or.inr (by
      rintro ⟨m, hm⟩
      have : ((8 * -77 : ℤ) : ℚ) = ((2 ^ 15 * (2 * m + 1) : ℤ) : ℚ) := by push_cast; linarith
      have := Int.cast_injective this
      omega))

/-- The cosine is even and the sine is odd, for angles of at most 12 fraction bits. Partial: as above at the odd eighths. -/
theorem C37_parity_partial {f t : Fmt} (hf : f.I < f.W) (h12 : f.W - f.I ≤ 12) (hS : t.S = true) (hI : 2 ≤ t.I)
    (hW : t.I ≤ t.W) {x y : ℚ} (hx : f.Rep x) (hy : f.Rep y) (k : ℤ) (h : y = -x + k)
    (hQ : t.Q ∈ [QMode.RND_ZERO, .RND_INF, .RND_CONV, .RND_CONV_ODD, .TRN_ZERO] ∨ ¬OddEighth x) :
    ∃ c s : ℚ, sincos f t x = some (c, s) ∧ sincos f t y = some (c, -s) := by
  obtain ⟨r, -, -, rfl⟩ := hx
  obtain ⟨q, -, -, rfl⟩ := hy
  have h1 : 1 ≤ t.I := by omega
  obtain ⟨n, hnn⟩ : ∃ n : ℕ, f.W - f.I = n := ⟨(f.W - f.I).toNat, by omega⟩
  have hn1 : 1 ≤ n := by omega
  have hF : f.F = n := hnn
  have hq : q = -r + 2 ^ n * k := by
    unfold Fmt.val at h
    rw [hF, zpow_neg, zpow_natCast] at h
    have h2 : (2 : ℚ) ^ n ≠ 0 := by positivity
    field_simp at h
    exact_mod_cast h
  set a := Proof.Sincos.ang n (r % 2 ^ n) with ha
  have hm0 : 0 ≤ r % 2 ^ n := Int.emod_nonneg _ (by positivity)
  have hm1 : r % 2 ^ n < 2 ^ n := Int.emod_lt_of_pos _ (by positivity)
  have hlt : a < 4096 := (Proof.Sincos.ang_facts hn1 hm0 hm1).1
  have hb : (4096 - a) % 4096 = Proof.Sincos.ang n (q % 2 ^ n) := by
    rw [hq, Int.add_mul_emod_self_left, ha, ← Proof.Sincos.ang_neg hn1 (by omega) hm0 hm1]
    congr 1
    have := Int.mul_ediv_add_emod r (2 ^ n)
    rw [show -r = -(r % 2 ^ n) + 2 ^ n * (-(r / 2 ^ n)) by linarith, Int.add_mul_emod_self_left]
  have e1 := Proof.Sincos.sincos_eq (t := t) hf h1 hW (f.val r) (a := a) (by rw [Fmt.raw_val, hnn, Int.toNat_natCast])
  have e2 := Proof.Sincos.sincos_eq (t := t) hf h1 hW (f.val q) (a := (4096 - a) % 4096)
    (by rw [Fmt.raw_val, hnn, Int.toNat_natCast]; exact hb)
  obtain ⟨-, -, s1, s2⟩ := Proof.Sincos.sym_spec (t := t) (by omega) hlt
  have hq' : Model.DivFixed.symm t.Q = true ∨ ¬((a / 512) % 2 = 1 ∧ a % 512 = 0) := by
    rcases hQ with h | h
    · left; simpa [Model.DivFixed.symm] using h
    · right; rintro ⟨u, v⟩; exact h (Proof.Sincos.odd_eighth hf hnn ha u v)
  obtain ⟨c1, c2⟩ := Proof.Sincos.cvt_neg_kv hS hI hW hq'
  refine ⟨_, _, e1, ?_⟩
  rw [e2]
  simp only [Proof.Sincos.keyC', Proof.Sincos.keyS'] at s1 s2 c2
  rw [s1, s2, c2]

example : ∃ c s : ℚ, sincos ⟨12, 1, true, .TRN, .WRAP⟩ ⟨16, 2, true, .RND_CONV, .WRAP⟩ (3 / 8) = some (c, s) ∧
    sincos ⟨12, 1, true, .TRN, .WRAP⟩ ⟨16, 2, true, .RND_CONV, .WRAP⟩ (-3 / 8) = some (c, -s) :=
  C37_parity_partial (by norm_num) (by norm_num) rfl (by norm_num) (by norm_num)
    ⟨768, by norm_num [minRaw], by norm_num [maxRaw], by norm_num [Fmt.val, Fmt.F]⟩
    ⟨-768, by norm_num [minRaw], by norm_num [maxRaw], by norm_num [Fmt.val, Fmt.F]⟩ 0 (by norm_num) (Or.inl (by decide))

/-- With a truncating output type neither symmetry holds at an eighth of a turn: the sine of 1/8 is 45/64, those of
5/8 and of -1/8 are -23/32. -/
theorem C37_symmetry_wrong :
    sincos ⟨8, 2, true, .TRN, .WRAP⟩ ⟨8, 2, true, .TRN, .WRAP⟩ (1 / 8) = some (45 / 64, 45 / 64) ∧
    sincos ⟨8, 2, true, .TRN, .WRAP⟩ ⟨8, 2, true, .TRN, .WRAP⟩ (5 / 8) = some (-23 / 32, -23 / 32) ∧
    sincos ⟨8, 2, true, .TRN, .WRAP⟩ ⟨8, 2, true, .TRN, .WRAP⟩ (-1 / 8) = some (45 / 64, -23 / 32) := by
  decide +kernel

/-- A wrapping output type without room for 1 gives the sine of a quarter turn the wrong sign. -/
theorem C37_wrap_wrong : sincos ⟨8, 2, true, .TRN, .WRAP⟩ ⟨8, 1, true, .TRN, .WRAP⟩ (1 / 4) = some (0, -1) := by
  decide +kernel

end Props.Sincos
