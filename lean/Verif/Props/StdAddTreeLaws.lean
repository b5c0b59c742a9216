import Verif.Proof.StdAddTree5
import Verif.Props.StdAddTreeValue

/-! # C105: laws of the IEEE adder tree

Numbers are bit patterns as in C76; `X` is the number of extra bits of the accumulator, `q` the rounding mode. -/

namespace Props.StdAddTreeLaws
open Ac Model.StdAddTree Spec.StdFloat Props.StdAddTreeValue
open Props.StdAddTree (IsFinite infinity arr)

/-- Magnitude as a multiple of the unit in the last place. -/
theorem mag {nosub : Bool} {M E d : ℕ} :
    ∃ j : ℕ, j < 2 ^ (M + 1) ∧ |value nosub M E d| = j * 2 ^ ((expField M E d : ℤ) - bias E - M) := by
  obtain ⟨j, hj⟩ := C76_aligned (nosub := nosub) (M := M) (E := E) (X := 0) (em := expField M E d) (d := d) (by omega)
  have e : unit M E 0 (expField M E d) = 2 ^ ((expField M E d : ℤ) - bias E - M) := by unfold unit; simp
  rw [e] at hj
  have u : (0 : ℚ) < 2 ^ ((expField M E d : ℤ) - bias E - M) := zpow_pos (by norm_num) _
  have h := Proof.StdAddTree.value_abs_lt (nosub := nosub) (M := M) (E := E) (d := d)
  have h1 : |value nosub M E d| = (j.natAbs : ℚ) * 2 ^ ((expField M E d : ℤ) - bias E - M) := by rw [hj, natAbs_mul u]
  refine ⟨j.natAbs, ?_, h1⟩
  rw [h1] at h
  have e2 : (2 : ℚ) ^ ((expo M E d : ℤ) + 1 - bias E) = 2 ^ (M + 1) * 2 ^ ((expField M E d : ℤ) - bias E - M) := by
    rw [← zpow_natCast, ← zpow_add₀ (by norm_num)]
    congr 1
    change (expField M E d : ℤ) + 1 - bias E = _
    push_cast; ring
  rw [e2] at h
  have := lt_of_mul_lt_mul_right h u.le
  exact_mod_cast this

/-- Finite numbers are at most the largest finite number. -/
theorem le_largest {nosub : Bool} {M E d : ℕ} (hE : 1 ≤ E) (hf : IsFinite M E d) : |value nosub M E d| ≤ largest M E := by
  obtain ⟨j, hj, e⟩ := mag (nosub := nosub) (M := M) (E := E) (d := d)
  have hb := Proof.StdAddTree.two_bias hE
  have hl : expField M E d < 2 ^ E := Nat.mod_lt _ (by positivity)
  have hl' : expField M E d ≠ 2 ^ E - 1 := hf
  have h2 : (expField M E d : ℤ) ≤ 2 ^ E - 2 := by
    have : expField M E d + 2 ≤ 2 ^ E := by omega
    have : ((expField M E d + 2 : ℕ) : ℤ) ≤ (2 ^ E : ℕ) := by exact_mod_cast this
    push_cast at this
    linarith
  rw [e]
  unfold largest
  have j1 : (j : ℚ) ≤ 2 ^ (M + 1) - 1 := by
    have : j + 1 ≤ 2 ^ (M + 1) := hj
    have : ((j + 1 : ℕ) : ℚ) ≤ (2 ^ (M + 1) : ℕ) := by exact_mod_cast this
    push_cast at this
    linarith
  have u : (2 : ℚ) ^ ((expField M E d : ℤ) - bias E - M) ≤ 2 ^ (bias E - M) :=
    zpow_le_zpow_right₀ (by norm_num) (by linarith)
  have u0 : (0 : ℚ) < 2 ^ ((expField M E d : ℤ) - bias E - M) := zpow_pos (by norm_num) _
  exact mul_le_mul j1 u u0.le ((Nat.cast_nonneg j).trans j1)

theorem smallest_le {nosub : Bool} {M E d : ℕ} (hn : 1 ≤ expField M E d) : smallest E ≤ |value nosub M E d| := by
  refine le_trans ?_ (Proof.StdAddTree.value_abs_ge (nosub := nosub) (M := M) hn)
  unfold smallest
  refine zpow_le_zpow_right₀ (by norm_num) ?_
  have : (1 : ℤ) ≤ (expo M E d : ℤ) := by exact_mod_cast hn
  linarith

/-- **C105**, neutral element: if all operands but one are zeros (of either sign), the sum is that operand, for any number of
operands.  The operand is normal; see C26_subnormal_wrong for subnormal ones. -/
theorem C105_zeros {q : QMode} {nosub : Bool} {M E X N k0 : ℕ} (hE : 1 ≤ E) (hX : 1 ≤ X) (hcap : M + 1 + X ≤ 2 ^ nbits (M + 2) - 1)
    (x : ℕ → ℕ) (hk : k0 < N) (hf : IsFinite M E (x k0)) (hn : 1 ≤ expField M E (x k0))
    (hz : ∀ k < N, k ≠ k0 → x k % 2 ^ M = 0 ∧ expField M E (x k) = 0) :
    value nosub M E (faddTree q nosub M E X N x) = value nosub M E (x k0) := by
  have hv : ∀ k < N, k ≠ k0 → value nosub M E (x k) = 0 := fun k hk h => by
    unfold value; rw [if_pos (hz k hk h).2, (hz k hk h).1]; simp
  have hs : exact nosub M E N x = value nosub M E (x k0) :=
    Finset.sum_eq_single k0 (fun k hk h => hv k (Finset.mem_range.1 hk) h) fun h => absurd (Finset.mem_range.2 hk) h
  obtain ⟨j, hj, e⟩ := mag (nosub := nosub) (M := M) (E := E) (d := x k0)
  have hfin : ∀ k < N, IsFinite M E (x k) := fun k hk => by
    by_cases h : k = k0
    · rw [h]; exact hf
    · have := (hz k hk h).2
      change expField M E (x k) ≠ _
      rw [this]
      have : 2 ≤ 2 ^ E := le_self_pow₀ (by norm_num) (by omega)
      omega
  have t := C76_exact (q := q) (nosub := nosub) hE hX (by omega) hcap x hfin (em := expField M E (x k0))
    ⟨⟨k0, hk, rfl⟩, fun k hk => by
      by_cases h : k = k0
      · rw [h]
      · rw [(hz k hk h).2]; omega⟩
    (fun k hk => by
      by_cases h : k = k0
      · rw [h]; exact C76_aligned (by omega)
      · exact ⟨0, by rw [hv k hk h]; simp⟩)
    (by rw [hs]; exact smallest_le hn) (by rw [hs]; exact le_largest hE hf) (j := j)
    (i := (expField M E (x k0) : ℤ) - bias E - M) hj (by rw [hs]; exact e)
  rw [t.2, hs]

/-- 1 + 2^-23 among three zeros. -/
example : value false 23 8 (faddTree .RND_CONV false 23 8 3 4 (arr [0, 0x80000000, 0x3f800001])) = value false 23 8 0x3f800001 :=
  C105_zeros (k0 := 2) (by decide) (by decide) (by decide) _ (by decide) (by unfold IsFinite; decide) (by decide) (by decide)

/-- **C105**, doubling: the sum of a power of two of equal normal numbers is exact if it does not overflow. -/
theorem C105_equal {q : QMode} {nosub : Bool} {M E X n d : ℕ} (hE : 1 ≤ E) (hX : 1 ≤ X) (hcap : M + 1 + X ≤ 2 ^ nbits (M + 2) - 1)
    (x : ℕ → ℕ) (hx : ∀ k < 2 ^ n, x k = d) (hf : IsFinite M E d) (hn : 1 ≤ expField M E d)
    (ho : 2 ^ n * |value nosub M E d| ≤ largest M E) :
    value nosub M E (faddTree q nosub M E X (2 ^ n) x) = 2 ^ n * value nosub M E d := by
  have hs : exact nosub M E (2 ^ n) x = 2 ^ n * value nosub M E d := by
    unfold exact
    rw [Finset.sum_congr rfl fun k hk => by rw [hx k (Finset.mem_range.1 hk)], Finset.sum_const, Finset.card_range, nsmul_eq_mul]
    push_cast; rfl
  have ha : |exact nosub M E (2 ^ n) x| = 2 ^ n * |value nosub M E d| := by
    rw [hs, abs_mul, abs_of_pos (by positivity : (0 : ℚ) < 2 ^ n)]
  obtain ⟨j, hj, e⟩ := mag (nosub := nosub) (M := M) (E := E) (d := d)
  have one : (1 : ℚ) ≤ 2 ^ n := one_le_pow₀ (by norm_num)
  have t := C76_exact (q := q) (nosub := nosub) hE hX Nat.one_le_two_pow hcap x (fun k hk => by rw [hx k hk]; exact hf)
    (em := expField M E d) ⟨⟨0, by positivity, by rw [hx 0 (by positivity)]⟩, fun k hk => by rw [hx k hk]⟩
    (fun k hk => by rw [hx k hk]; exact C76_aligned (by omega))
    (by
      rw [ha]
      have := smallest_le (nosub := nosub) hn
      nlinarith [abs_nonneg (value nosub M E d)])
    (by rw [ha]; exact ho) (j := j) (i := (n : ℤ) + ((expField M E d : ℤ) - bias E - M)) hj
    (by rw [ha, e, zpow_add₀ (by norm_num), zpow_natCast]; ring)
  rw [t.2, hs]

/-- Eight times 1 + 2^-23. -/
example : value false 23 8 (faddTree .TRN_ZERO false 23 8 3 (2 ^ 3) (fun _ => 0x3f800001)) = 2 ^ 3 * value false 23 8 0x3f800001 :=
  C105_equal (by decide) (by decide) (by decide) _ (fun _ _ => rfl) (by unfold IsFinite; decide) (by decide) (by decide +kernel)

theorem sum_two (nosub : Bool) (M E : ℕ) (x : ℕ → ℕ) :
    exact nosub M E 2 x = value nosub M E (x 0) + value nosub M E (x 1) := by
  unfold exact
  rw [Finset.sum_range_succ, Finset.sum_range_succ, Finset.sum_range_zero, zero_add]

/-- **C105**, opposite numbers: a finite number plus its negative is positive zero. -/
theorem C105_opposite {q : QMode} {nosub : Bool} {M E X : ℕ} (hE : 1 ≤ E) (hX : 1 ≤ X) (hcap : M + 1 + X ≤ 2 ^ nbits (M + 2) - 1)
    (x : ℕ → ℕ) (hf : IsFinite M E (x 0)) (ho : Negated M E (x 0) (x 1)) : faddTree q nosub M E X 2 x = 0 := by
  have two : ∀ k < 2, k = 0 ∨ k = 1 := by omega
  refine C76_zero hE hX (by omega) hcap x (fun k hk => ?_) (em := expField M E (x 0)) ⟨⟨0, by omega, rfl⟩, fun k hk => ?_⟩
    (fun k hk => ?_) ?_
  · rcases two k hk with rfl | rfl
    · exact hf
    · change expField M E (x 1) ≠ _
      rw [ho.2.1]; exact hf
  · rcases two k hk with rfl | rfl
    · rfl
    · exact ho.2.1.le
  · rcases two k hk with rfl | rfl
    · exact C76_aligned (by omega)
    · exact C76_aligned (by have := ho.2.1; omega)
  · rw [sum_two]
    obtain ⟨h1, h2, h3⟩ := ho
    unfold value
    rw [h1, h2, h3]
    generalize (if expField M E (x 0) = 0 then _ else _ : ℚ) = v
    cases (x 0).testBit (M + E) <;> simp

example : faddTree .RND_CONV false 23 8 3 2 (arr [0x3fffffff, 0xbfffffff]) = 0 :=
  C105_opposite (by decide) (by decide) (by decide) _ (by unfold IsFinite; decide) (by unfold Negated; decide)

/-- **C105**, differences: the difference of two normal numbers whose quotient lies between one half and two is exact, in every rounding
mode, also if it is subnormal. -/
theorem C105_difference {q : QMode} {M E X : ℕ} (hE : 1 ≤ E) (hX : 1 ≤ X) (hcap : M + 1 + X ≤ 2 ^ nbits (M + 2) - 1) (x : ℕ → ℕ)
    (hf : ∀ k < 2, IsFinite M E (x k)) (hn : ∀ k < 2, 1 ≤ expField M E (x k))
    (hs : value false M E (x 0) * value false M E (x 1) ≤ 0) (h1 : |value false M E (x 0)| ≤ 2 * |value false M E (x 1)|)
    (h2 : |value false M E (x 1)| ≤ 2 * |value false M E (x 0)|) :
    value false M E (faddTree q false M E X 2 x) = value false M E (x 0) + value false M E (x 1) := by
  have two : ∀ k < 2, k = 0 ∨ k = 1 := by omega
  have ab : |value false M E (x 0) + value false M E (x 1)| ≤ |value false M E (x 0)| ∧
      |value false M E (x 0) + value false M E (x 1)| ≤ |value false M E (x 1)| := by
    rcases mul_nonpos_iff.1 hs with ⟨ha, hb⟩ | ⟨ha, hb⟩
    · rw [abs_of_nonneg ha, abs_of_nonpos hb] at *
      constructor <;> rw [abs_le] <;> constructor <;> linarith
    · rw [abs_of_nonpos ha, abs_of_nonneg hb] at *
      constructor <;> rw [abs_le] <;> constructor <;> linarith
  rcases lt_or_ge |value false M E (x 0) + value false M E (x 1)| (smallest E) with hl | hl
  · exact (C76_subnormal_two hE hX hcap x hf hl).1 rfl
  have close : ∀ a b : ℕ, 1 ≤ expField M E a → |value false M E a| ≤ 2 * |value false M E b| →
      expField M E a ≤ expField M E b + 1 := by
    intro a b ha h
    have l := Proof.StdAddTree.value_abs_ge (nosub := false) (M := M) (E := E) (d := a) ha
    have r := Proof.StdAddTree.value_abs_lt (nosub := false) (M := M) (E := E) (d := b)
    have : (2 : ℚ) ^ ((expo M E a : ℤ) - bias E) < 2 ^ ((expo M E b : ℤ) + 2 - bias E) := by
      have e : (2 : ℚ) ^ ((expo M E b : ℤ) + 2 - bias E) = 2 * 2 ^ ((expo M E b : ℤ) + 1 - bias E) := by
        rw [show (expo M E b : ℤ) + 2 - bias E = ((expo M E b : ℤ) + 1 - bias E) + 1 by ring, zpow_add_one₀ (by norm_num)]; ring
      rw [e]
      linarith
    have := (zpow_lt_zpow_iff_right₀ (by norm_num : (1 : ℚ) < 2)).1 this
    have : (expo M E a : ℤ) < expo M E b + 2 := by linarith
    change expo M E a ≤ expo M E b + 1
    omega
  have c1 := close _ _ (hn 0 (by omega)) h1
  have c2 := close _ _ (hn 1 (by omega)) h2
  -- the unit of the smaller exponent
  obtain ⟨m, hm0, hm1, hm⟩ : ∃ m, m ≤ expField M E (x 0) ∧ m ≤ expField M E (x 1) ∧
      |value false M E (x 0) + value false M E (x 1)| < 2 ^ ((m : ℤ) + 1 - bias E) := by
    rcases le_total (expField M E (x 0)) (expField M E (x 1)) with h | h
    · exact ⟨_, le_rfl, h, ab.1.trans_lt (Proof.StdAddTree.value_abs_lt (M := M))⟩
    · exact ⟨_, h, le_rfl, ab.2.trans_lt (Proof.StdAddTree.value_abs_lt (M := M))⟩
  obtain ⟨j0, e0⟩ := C76_aligned (nosub := false) (M := M) (E := E) (X := 0) (em := m) (d := x 0) (by omega)
  obtain ⟨j1, e1⟩ := C76_aligned (nosub := false) (M := M) (E := E) (X := 0) (em := m) (d := x 1) (by omega)
  have u : unit M E 0 m = 2 ^ ((m : ℤ) - bias E - M) := by unfold unit; simp
  have u0 : (0 : ℚ) < 2 ^ ((m : ℤ) - bias E - M) := zpow_pos (by norm_num) _
  have e : |value false M E (x 0) + value false M E (x 1)| = ((j0 + j1).natAbs : ℚ) * 2 ^ ((m : ℤ) - bias E - M) := by
    rw [← natAbs_mul u0, e0, e1, u]
    push_cast
    rw [add_mul]
  have hj : (j0 + j1).natAbs < 2 ^ (M + 1) := by
    rw [e] at hm
    have e2 : (2 : ℚ) ^ ((m : ℤ) + 1 - bias E) = 2 ^ (M + 1) * 2 ^ ((m : ℤ) - bias E - M) := by
      rw [← zpow_natCast, ← zpow_add₀ (by norm_num)]
      congr 1
      push_cast; ring
    rw [e2] at hm
    have := lt_of_mul_lt_mul_right hm u0.le
    exact_mod_cast this
  have t := C76_exact (q := q) (nosub := false) hE hX (by omega) hcap x hf (em := max (expField M E (x 0)) (expField M E (x 1)))
    ⟨by
      rcases le_total (expField M E (x 0)) (expField M E (x 1)) with h | h
      · exact ⟨1, by omega, (max_eq_right h).symm⟩
      · exact ⟨0, by omega, (max_eq_left h).symm⟩, fun k hk => by
      rcases two k hk with rfl | rfl
      · exact le_max_left _ _
      · exact le_max_right _ _⟩
    (fun k hk => by
      rcases two k hk with rfl | rfl
      · exact C76_aligned (by omega)
      · exact C76_aligned (by omega))
    (by rw [sum_two]; exact hl) (by rw [sum_two]; exact ab.1.trans (le_largest hE (hf 0 (by omega))))
    hj (by rw [sum_two]; exact e)
  rw [t.2, sum_two]

/-- 2 - (1 + 2^-23), whose exponents differ. -/
example : value false 23 8 (faddTree .RND_CONV false 23 8 3 2 (arr [0x40000000, 0xbf800001])) =
    value false 23 8 0x40000000 + value false 23 8 0xbf800001 :=
  C105_difference (by decide) (by decide) (by decide) _ (by unfold IsFinite; decide) (by decide) (by decide +kernel)
    (by decide +kernel) (by decide +kernel)

/-- `y` is the normal number `x` times `2^c`, or both are the same zero. -/
def Scaled (M E c x y : ℕ) : Prop :=
  y % 2 ^ M = x % 2 ^ M ∧ y.testBit (M + E) = x.testBit (M + E) ∧
    ((1 ≤ expField M E x ∧ expField M E y = expField M E x + c) ∨ (expField M E x = 0 ∧ expField M E y = 0 ∧ x % 2 ^ M = 0))

/-- The values of scaled numbers. -/
theorem scaled_value {nosub : Bool} {M E c x y : ℕ} (h : Scaled M E c x y) : value nosub M E y = 2 ^ c * value nosub M E x := by
  obtain ⟨h1, h2, ⟨h3, h4⟩ | ⟨h3, h4, h5⟩⟩ := h
  · unfold value
    rw [h1, h2, h4, if_neg (show ¬ expField M E x + c = 0 by omega), if_neg (show ¬ expField M E x = 0 by omega)]
    push_cast
    rw [show (expField M E x : ℤ) + c - bias E - M = c + ((expField M E x : ℤ) - bias E - M) by ring, zpow_add₀ (by norm_num),
      zpow_natCast]
    ring
  · unfold value
    rw [h1, if_pos h3, if_pos h4, h5]
    simp

/-- **C105**, scaling: multiplying all operands (normal numbers and zeros) by a power of two adds its exponent to that of the sum and
changes no other bit, as long as the sum lies in the normal range before and after. -/
theorem C105_scale {q : QMode} {nosub : Bool} {M E X N em c : ℕ} (hE : 1 ≤ E) (hX : 1 ≤ X) (hN : 1 ≤ N)
    (hcap : M + 1 + X ≤ 2 ^ nbits (M + 2) - 1) (x y : ℕ → ℕ) (hx : ∀ k < N, IsFinite M E (x k)) (hy : ∀ k < N, IsFinite M E (y k))
    (hem : MaxExp M E N x em) (he1 : 1 ≤ em) (hxy : ∀ k < N, Scaled M E c (x k) (y k))
    (h0 : smallest E + N * unit M E X em ≤ |exact nosub M E N x|)
    (h1 : 2 ^ c * (|exact nosub M E N x| + N * unit M E X em) ≤ largest M E) :
    faddTree q nosub M E X N y = faddTree q nosub M E X N x + c * 2 ^ M := by
  have he : emax M E N x = em := Proof.StdAddTree.emax_unique hN hem.1 hem.2
  have he' : emax M E N y = em + c := by
    obtain ⟨⟨k, hk, h⟩, h2⟩ := hem
    refine Proof.StdAddTree.emax_unique hN ⟨k, hk, ?_⟩ fun j hj => ?_
    · change expField M E (y k) = _
      rcases (hxy k hk).2.2 with ⟨-, h4⟩ | ⟨h3, -, -⟩
      · rw [h4, h]
      · omega
    · change expField M E (y j) ≤ _
      have := h2 j hj
      rcases (hxy j hj).2.2 with ⟨-, h4⟩ | ⟨-, h4, -⟩ <;> omega
  have ht : ∀ k < N, Proof.StdAddTree.term nosub M E X (em + c) (y k) = Proof.StdAddTree.term nosub M E X em (x k) := by
    intro k hk
    obtain ⟨e1, e2, e3⟩ := hxy k hk
    have s : sgn M E (y k) = sgn M E (x k) := e2
    unfold Proof.StdAddTree.term
    rw [s]
    rcases e3 with ⟨h3, h4⟩ | ⟨h3, h4, h5⟩
    · change 1 ≤ expo M E (x k) at h3
      change expo M E (y k) = expo M E (x k) + c at h4
      have m : mu nosub M E (y k) = mu nosub M E (x k) := by
        unfold mu mantZero
        rw [e1, h4]
        have a : ¬ expo M E (x k) + c = 0 := by omega
        have b : ¬ expo M E (x k) = 0 := by omega
        simp [a, b]
      have d : eDifSat M (em + c) (expo M E (y k)) = eDifSat M em (expo M E (x k)) := by
        unfold eDifSat
        rw [h4, Nat.add_sub_add_right]
      rw [m, d]
    · change expo M E (x k) = 0 at h3
      change expo M E (y k) = 0 at h4
      have m : ∀ d, expo M E d = 0 → d % 2 ^ M = 0 → mu nosub M E d = 0 := by
        intro d a b
        unfold mu mantZero
        rw [a, b]
        cases nosub <;> simp
      rw [m _ h3 h5, m _ h4 (e1.trans h5)]
      simp [addOp]
  have h2 := Proof.StdAddTree.sum_err (nosub := nosub) hX hcap hem.2
  obtain ⟨S, hS⟩ : ∃ S, ∑ k ∈ Finset.range N, Proof.StdAddTree.term nosub M E X em (x k) = S := ⟨_, rfl⟩
  have hS' : ∑ k ∈ Finset.range N, Proof.StdAddTree.term nosub M E X (em + c) (y k) = S := by
    rw [← hS]
    exact Finset.sum_congr rfl fun k hk => ht k (Finset.mem_range.1 hk)
  rw [hS] at h2
  have hu := Proof.StdAddTree.accUnit_pos M E X em
  change 0 < unit M E X em at hu
  change |exact nosub M E N x - S * unit M E X em| ≤ N * unit M E X em at h2
  obtain ⟨c1, c2⟩ := abs_close h2
  rw [natAbs_mul hu] at c1 c2
  have u : unit M E X (em + c) = 2 ^ c * unit M E X em := by
    unfold unit
    push_cast
    rw [show (em : ℤ) + c - bias E - M - X = c + ((em : ℤ) - bias E - M - X) by ring, zpow_add₀ (by norm_num), zpow_natCast]
  refine Proof.StdAddTree.scale_eq hE hX hN hx hy (S := S) (by rw [he]; exact hS) (by rw [he']; exact hS') (by rw [he, he']) ?_ ?_
  · rw [he]
    exact le_trans (by linarith) c1
  · rw [he']
    change (S.natAbs : ℚ) * unit M E X (em + c) ≤ _
    rw [u, mul_left_comm]
    exact (mul_le_mul_of_nonneg_left c2 (by positivity)).trans h1

/-- 1 + (1 + 2^-23) + 0 and four times these. -/
example : faddTree .RND_CONV false 23 8 3 3 (arr [0x40800000, 0x40800001, 0]) =
    faddTree .RND_CONV false 23 8 3 3 (arr [0x3f800000, 0x3f800001, 0]) + 2 * 2 ^ 23 :=
  C105_scale (em := 127) (by decide) (by decide) (by decide) (by decide) _ _ (by unfold IsFinite; decide) (by unfold IsFinite; decide)
    (by unfold MaxExp; decide) (by decide) (by unfold Scaled; decide) (by decide +kernel) (by decide +kernel)

end Props.StdAddTreeLaws
