import Verif.Proof.StdAddTree4
import Verif.Props.StdAddTree

/-! # C76: sums of the IEEE adder tree

A number is its bit pattern (Verif/Spec/StdFloat.lean).  `em` is the largest exponent field of the operands; the
accumulator counts in units of `2^(em - bias - M - X)`. -/

namespace Props.StdAddTreeValue
open Ac Model.StdAddTree Spec.StdFloat
open Props.StdAddTree (IsFinite infinity arr)

/-- The unit of the accumulator. -/
def unit (M E X em : ℕ) : ℚ := 2 ^ ((em : ℤ) - bias E - M - X)

/-- Relative error of rounding to `M+1` bits, in units in the last place: one for truncation, a half for the rounding
modes plus the bit that normalization shifts out. -/
def roundErr (q : QMode) (X N : ℕ) : ℚ := if q = .TRN ∨ q = .TRN_ZERO then 1 else 1 / 2 + 1 / 2 ^ (X + nbits (N - 1))

/-- `em` is the largest exponent field of the operands. -/
def MaxExp (M E N : ℕ) (x : ℕ → ℕ) (em : ℕ) : Prop := (∃ k < N, expField M E (x k) = em) ∧ ∀ k < N, expField M E (x k) ≤ em

/-- The exact sum. -/
def exact (nosub : Bool) (M E N : ℕ) (x : ℕ → ℕ) : ℚ := ∑ k ∈ Finset.range N, value nosub M E (x k)

theorem abs_close {a b d : ℚ} (h : |a - b| ≤ d) : |a| - d ≤ |b| ∧ |b| ≤ |a| + d := by
  have h1 := abs_sub_abs_le_abs_sub a b
  have h2 := abs_sub_abs_le_abs_sub b a
  rw [abs_sub_comm b a] at h2
  constructor <;> linarith

theorem natAbs_mul {S : ℤ} {u : ℚ} (hu : 0 < u) : |(S : ℚ) * u| = (S.natAbs : ℚ) * u := by
  rw [abs_mul, abs_of_pos hu, Nat.cast_natAbs]; push_cast; rfl

theorem neg_iff {S : ℤ} {u s d : ℚ} (hu : 0 < u) (h : |s - S * u| ≤ d) (hs : d < |s|) : decide (S < 0) = decide (s < 0) := by
  rw [decide_eq_decide]
  obtain ⟨h1, h2⟩ := abs_le.1 h
  constructor
  · intro h3
    by_contra h4
    rw [abs_of_nonneg (not_lt.1 h4)] at hs
    have : (S : ℚ) * u < 0 := mul_neg_of_neg_of_pos (by exact_mod_cast h3) hu
    linarith
  · intro h3
    by_contra h4
    rw [abs_of_neg h3] at hs
    have : 0 ≤ (S : ℚ) * u := mul_nonneg (by exact_mod_cast not_lt.1 h4) hu.le
    linarith

/-- **C76**, error: with at least one extra bit, and no more than the alignment can shift out, the sum of `N` finite
numbers is off by at most one unit of the accumulator per operand and one rounding, as long as it stays between the
smallest normal number and the largest finite one. -/
theorem C76_error {q : QMode} {nosub : Bool} {M E X N em : ℕ} (hE : 1 ≤ E) (hX : 1 ≤ X) (hN : 1 ≤ N)
    (hcap : M + 1 + X ≤ 2 ^ nbits (M + 2) - 1) (x : ℕ → ℕ) (hfin : ∀ k < N, IsFinite M E (x k)) (hem : MaxExp M E N x em)
    (h0 : smallest E + N * unit M E X em ≤ |exact nosub M E N x|)
    (h1 : |exact nosub M E N x| + N * unit M E X em ≤ largest M E) :
    IsFinite M E (faddTree q nosub M E X N x) ∧
    |value nosub M E (faddTree q nosub M E X N x) - exact nosub M E N x| ≤
      N * unit M E X em + roundErr q X N / 2 ^ M * (|exact nosub M E N x| + N * unit M E X em) := by
  have he : emax M E N x = em := Proof.StdAddTree.emax_unique hN hem.1 hem.2
  subst he
  have hu := Proof.StdAddTree.accUnit_pos M E X (emax M E N x)
  have h2 := Proof.StdAddTree.sum_err (nosub := nosub) hX hcap hem.2
  obtain ⟨S, hS⟩ : ∃ S, ∑ k ∈ Finset.range N, Proof.StdAddTree.term nosub M E X (emax M E N x) (x k) = S := ⟨_, rfl⟩
  rw [hS] at h2
  change |exact nosub M E N x - _| ≤ N * unit M E X (emax M E N x) at h2
  change 0 < unit M E X (emax M E N x) at hu
  change |exact nosub M E N x - S * unit M E X (emax M E N x)| ≤ N * unit M E X (emax M E N x) at h2
  obtain ⟨c1, c2⟩ := abs_close h2
  rw [natAbs_mul hu] at c1 c2
  obtain ⟨r1, r2, -⟩ := Proof.StdAddTree.normal_eq (q := q) hE hX hN hfin hS (c1.trans' (by linarith)) (c2.trans h1)
  refine ⟨r1, ?_⟩
  change |_ - S * unit M E X (emax M E N x)| ≤ roundErr q X N / 2 ^ M * (_ * unit M E X (emax M E N x)) at r2
  have hr0 : 0 ≤ roundErr q X N / 2 ^ M := by
    unfold roundErr
    split_ifs <;> positivity
  have r3 := r2.trans (mul_le_mul_of_nonneg_left c2 hr0)
  rw [abs_sub_comm] at h2
  refine (abs_sub_le _ ((S : ℚ) * unit M E X (emax M E N x)) _).trans ?_
  linarith

example : |value false 23 8 (faddTree .RND_CONV false 23 8 3 3 (arr [0x40490fdb, 0xc02df854, 0x3f9e377a])) -
    exact false 23 8 3 (arr [0x40490fdb, 0xc02df854, 0x3f9e377a])| ≤
    3 * unit 23 8 3 128 + roundErr .RND_CONV 3 3 / 2 ^ 23 *
      (|exact false 23 8 3 (arr [0x40490fdb, 0xc02df854, 0x3f9e377a])| + 3 * unit 23 8 3 128) :=
  (C76_error (by decide) (by decide) (by decide) (by decide) _ (by unfold IsFinite; decide)
    (by unfold MaxExp; decide) (by decide +kernel) (by decide +kernel)).2

/-- **C76**, exact sums: if every operand is a multiple of the unit of the accumulator (in particular if no exponent is
more than `X` below the largest) and the exact sum is a normal number of the format, the result is the exact sum. -/
theorem C76_exact {q : QMode} {nosub : Bool} {M E X N em : ℕ} (hE : 1 ≤ E) (hX : 1 ≤ X) (hN : 1 ≤ N)
    (hcap : M + 1 + X ≤ 2 ^ nbits (M + 2) - 1) (x : ℕ → ℕ) (hfin : ∀ k < N, IsFinite M E (x k)) (hem : MaxExp M E N x em)
    (hal : ∀ k < N, ∃ j : ℤ, value nosub M E (x k) = j * unit M E X em)
    (h0 : smallest E ≤ |exact nosub M E N x|) (h1 : |exact nosub M E N x| ≤ largest M E)
    {j : ℕ} {i : ℤ} (hj : j < 2 ^ (M + 1)) (hs : |exact nosub M E N x| = j * 2 ^ i) :
    IsFinite M E (faddTree q nosub M E X N x) ∧ value nosub M E (faddTree q nosub M E X N x) = exact nosub M E N x := by
  have he : emax M E N x = em := Proof.StdAddTree.emax_unique hN hem.1 hem.2
  subst he
  have hu := Proof.StdAddTree.accUnit_pos M E X (emax M E N x)
  have h2 := Proof.StdAddTree.sum_exact (nosub := nosub) hX hcap hem.2 hal
  obtain ⟨S, hS⟩ : ∃ S, ∑ k ∈ Finset.range N, Proof.StdAddTree.term nosub M E X (emax M E N x) (x k) = S := ⟨_, rfl⟩
  rw [hS] at h2
  change exact nosub M E N x = _ at h2
  rw [h2, natAbs_mul hu] at h0 h1 hs
  obtain ⟨r1, -, r3⟩ := Proof.StdAddTree.normal_eq (q := q) hE hX hN hfin hS h0 h1
  exact ⟨r1, by rw [h2]; exact r3 j i hj hs⟩

example : value false 23 8 (faddTree .TRN_ZERO false 23 8 3 3 (arr [0x3f800001, 0x3f800000, 0x3f800001])) =
    exact false 23 8 3 (arr [0x3f800001, 0x3f800000, 0x3f800001]) :=
  (C76_exact (by decide) (by decide) (by decide) (by decide) _ (by unfold IsFinite; decide)
    (em := 127) (by unfold MaxExp; decide)
    (fun k hk => by
      have : k = 0 ∨ k = 1 ∨ k = 2 := by omega
      rcases this with rfl | rfl | rfl
      · exact ⟨8388609 * 8, by decide +kernel⟩
      · exact ⟨8388608 * 8, by decide +kernel⟩
      · exact ⟨8388609 * 8, by decide +kernel⟩)
    (by decide +kernel) (by decide +kernel) (j := 12582913) (i := -22) (by decide) (by decide +kernel)).2

/-- Close exponents meet the alignment condition of `C76_exact`. -/
theorem C76_aligned {nosub : Bool} {M E X em d : ℕ} (h : em ≤ expField M E d + X) :
    ∃ j : ℤ, value nosub M E d = j * unit M E X em := Proof.StdAddTree.aligned h

example : ∃ j : ℤ, value false 23 8 0x3f800001 = j * unit 23 8 3 130 := C76_aligned (by decide)

/-- **C76**, cancellation: aligned operands whose exact sum is zero give positive zero. -/
theorem C76_zero {q : QMode} {nosub : Bool} {M E X N em : ℕ} (hE : 1 ≤ E) (hX : 1 ≤ X) (hN : 1 ≤ N)
    (hcap : M + 1 + X ≤ 2 ^ nbits (M + 2) - 1) (x : ℕ → ℕ) (hfin : ∀ k < N, IsFinite M E (x k)) (hem : MaxExp M E N x em)
    (hal : ∀ k < N, ∃ j : ℤ, value nosub M E (x k) = j * unit M E X em) (h0 : exact nosub M E N x = 0) :
    faddTree q nosub M E X N x = 0 := by
  have he : emax M E N x = em := Proof.StdAddTree.emax_unique hN hem.1 hem.2
  subst he
  have hu := Proof.StdAddTree.accUnit_pos M E X (emax M E N x)
  have h2 := Proof.StdAddTree.sum_exact (nosub := nosub) hX hcap hem.2 hal
  change exact nosub M E N x = _ at h2
  rw [h0] at h2
  refine Proof.StdAddTree.zero_eq hE hX hN hfin ?_
  have := mul_eq_zero.1 h2.symm
  rcases this with h | h
  · exact_mod_cast h
  · exact absurd h hu.ne'

example : faddTree .RND_CONV false 23 8 3 3 (arr [0x3f800000, 0x3f800000, 0xc0000000]) = 0 :=
  C76_zero (by decide) (by decide) (by decide) (by decide) _ (by unfold IsFinite; decide)
    (em := 128) (by unfold MaxExp; decide)
    (fun k hk => by
      have : k = 0 ∨ k = 1 ∨ k = 2 := by omega
      rcases this with rfl | rfl | rfl <;> exact C76_aligned (by decide))
    (by decide +kernel)

/-- **C26**, overflow (partial: sums beyond the largest finite number by a binade or more wrap around, see `C26_overflow_wrong`): a sum beyond the largest finite number by less than a binade is the
infinity with the sign of the sum, and the largest finite number with that sign under truncation. -/
theorem C26_overflow_partial {q : QMode} {nosub : Bool} {M E X N em : ℕ} (hE : 1 ≤ E) (hX : 1 ≤ X) (hN : 1 ≤ N)
    (hcap : M + 1 + X ≤ 2 ^ nbits (M + 2) - 1) (x : ℕ → ℕ) (hfin : ∀ k < N, IsFinite M E (x k)) (hem : MaxExp M E N x em)
    (h0 : 2 ^ (bias E + 1) + N * unit M E X em ≤ |exact nosub M E N x|)
    (h1 : N ≤ 2 ∨ |exact nosub M E N x| + N * unit M E X em ≤ 2 * largest M E) :
    faddTree q nosub M E X N x = if q = .TRN_ZERO then largestBits M E (decide (exact nosub M E N x < 0))
      else infinity M E (decide (exact nosub M E N x < 0)) := by
  have he : emax M E N x = em := Proof.StdAddTree.emax_unique hN hem.1 hem.2
  subst he
  have hu := Proof.StdAddTree.accUnit_pos M E X (emax M E N x)
  have h2 := Proof.StdAddTree.sum_err (nosub := nosub) hX hcap hem.2
  obtain ⟨S, hS⟩ : ∃ S, ∑ k ∈ Finset.range N, Proof.StdAddTree.term nosub M E X (emax M E N x) (x k) = S := ⟨_, rfl⟩
  rw [hS] at h2
  change 0 < unit M E X (emax M E N x) at hu
  change |exact nosub M E N x - S * unit M E X (emax M E N x)| ≤ N * unit M E X (emax M E N x) at h2
  obtain ⟨c1, c2⟩ := abs_close h2
  have hpos : (0 : ℚ) < 2 ^ (bias E + 1) := by positivity
  rw [← neg_iff hu h2 (by linarith)]
  rw [natAbs_mul hu] at c1 c2
  refine Proof.StdAddTree.overflow_eq hE hX hN hfin hS (c1.trans' (by linarith)) ?_
  rcases h1 with h1 | h1
  · exact Proof.StdAddTree.two_bound hE hX hN h1 hfin hS
  · exact c2.trans h1

example : faddTree .RND_CONV false 23 8 3 2 (arr [0xff400000, 0xff400000]) = 0xff800000 := by
  rw [C26_overflow_partial (by decide) (by decide) (by decide) (by decide) _ (by unfold IsFinite; decide)
    (em := 254) (by unfold MaxExp; decide) (by decide +kernel) (Or.inl (by decide))]
  decide +kernel

/-- **C76**, subnormal sums of two numbers: they are exact (for three or more operands see `C26_subnormal_wrong`); with
subnormal numbers switched off they are flushed to zero. -/
theorem C76_subnormal_two {q : QMode} {nosub : Bool} {M E X : ℕ} (hE : 1 ≤ E) (hX : 1 ≤ X)
    (hcap : M + 1 + X ≤ 2 ^ nbits (M + 2) - 1) (x : ℕ → ℕ) (hfin : ∀ k < 2, IsFinite M E (x k))
    (hs : |value nosub M E (x 0) + value nosub M E (x 1)| < smallest E) :
    (nosub = false → value nosub M E (faddTree q nosub M E X 2 x) = value nosub M E (x 0) + value nosub M E (x 1)) ∧
    (nosub = true → faddTree q nosub M E X 2 x % 2 ^ (M + E) = 0) :=
  Proof.StdAddTree.sub_eq hE hX hcap hfin hs

example : value false 23 8 (faddTree .RND_CONV false 23 8 3 2 (arr [0x00800001, 0x807fffff])) =
    value false 23 8 0x00800001 + value false 23 8 0x807fffff :=
  (C76_subnormal_two (by decide) (by decide) (by decide) _ (by unfold IsFinite; decide) (by decide +kernel)).1 rfl

theorem anyLoop_congr {N : ℕ} {p p' : ℕ → Bool} (h : (∃ k < N, p k = true) ↔ ∃ k < N, p' k = true) : anyLoop N p = anyLoop N p' := by
  rw [Bool.eq_iff_iff, Proof.StdAddTree.anyLoop_iff, Proof.StdAddTree.anyLoop_iff]
  exact h

/-- **C76**, order: the result does not depend on the order of the operands, whatever they are. -/
theorem C76_order {q : QMode} {nosub : Bool} {M E X N : ℕ} (hN : 1 ≤ N) (x : ℕ → ℕ) (p : Equiv.Perm ℕ)
    (hp : ∀ k, p k < N ↔ k < N) :
    faddTree q nosub M E X N (fun k => x (p k)) = faddTree q nosub M E X N x := by
  have hex : ∀ f : ℕ → Bool, (∃ k < N, f (p k) = true) ↔ ∃ k < N, f k = true := by
    intro f
    constructor
    · rintro ⟨k, hk, h⟩; exact ⟨p k, (hp k).2 hk, h⟩
    · rintro ⟨k, hk, h⟩
      exact ⟨p.symm k, (hp _).1 (by rw [Equiv.apply_symm_apply]; exact hk), by rw [Equiv.apply_symm_apply]; exact h⟩
  have hany : ∀ f : ℕ → Bool, anyLoop N (fun k => f (x (p k))) = anyLoop N (fun k => f (x k)) :=
    fun f => anyLoop_congr (hex fun k => f (x k))
  have he : emax M E N (fun k => x (p k)) = emax M E N x := by
    obtain ⟨⟨k, hk, h1⟩, h2⟩ := Proof.StdAddTree.emax_spec (M := M) (E := E) hN x
    refine Proof.StdAddTree.emax_unique hN ⟨p.symm k, ?_, ?_⟩ fun j hj => h2 _ ((hp j).2 hj)
    · exact (hp _).1 (by rw [Equiv.apply_symm_apply]; exact hk)
    · rw [Equiv.apply_symm_apply]; exact h1.symm
  have ht : total nosub M E X N (fun k => x (p k)) = total nosub M E X N x := by
    rw [Proof.StdAddTree.total_wrap, Proof.StdAddTree.total_wrap, he]
    congr 1
    refine Finset.sum_equiv p ?_ ?_
    · intro k; rw [Finset.mem_range, Finset.mem_range]; exact (hp k).symm
    · intro k _; rfl
  unfold faddTree
  simp only [hany (fun d => inf M E d), hany (fun d => nan M E d), hany (fun d => inf M E d && sgn M E d),
    hany (fun d => inf M E d && !sgn M E d), he, ht]

example : faddTree .RND_CONV false 23 8 3 3 (fun k => arr [0x3fffffff, 0x3e000011, 0xff800000] (Equiv.swap 0 2 k)) =
    faddTree .RND_CONV false 23 8 3 3 (arr [0x3fffffff, 0x3e000011, 0xff800000]) :=
  C76_order (by decide) _ _ (fun k => by
    rw [Equiv.swap_apply_def]; split_ifs <;> omega)

/-- `y` is `x` with the sign bit flipped. -/
def Negated (M E x y : ℕ) : Prop :=
  y % 2 ^ M = x % 2 ^ M ∧ expField M E y = expField M E x ∧ y.testBit (M + E) = !x.testBit (M + E)

/-- **C76**, symmetry: negating every finite operand negates the sum (all modes round the magnitude). -/
theorem C76_neg {q : QMode} {nosub : Bool} {M E X N : ℕ} (hE : 1 ≤ E) (hX : 1 ≤ X) (hN : 1 ≤ N) (x y : ℕ → ℕ)
    (hfin : ∀ k < N, IsFinite M E (x k)) (hxy : ∀ k < N, Negated M E (x k) (y k)) :
    value nosub M E (faddTree q nosub M E X N y) = -value nosub M E (faddTree q nosub M E X N x) := by
  have hexp : ∀ k < N, expo M E (y k) = expo M E (x k) := fun k hk => (hxy k hk).2.1
  have he : emax M E N y = emax M E N x := by
    obtain ⟨⟨k, hk, h1⟩, h2⟩ := Proof.StdAddTree.emax_spec (M := M) (E := E) hN x
    refine Proof.StdAddTree.emax_unique hN ⟨k, hk, ?_⟩ fun j hj => ?_
    · rw [hexp k hk, h1]
    · rw [hexp j hj]; exact h2 j hj
  have hmu : ∀ k < N, mu nosub M E (y k) = mu nosub M E (x k) := by
    intro k hk
    unfold mu mantZero
    rw [hexp k hk, (hxy k hk).1]
  obtain ⟨S, hS⟩ : ∃ S, ∑ k ∈ Finset.range N, Proof.StdAddTree.term nosub M E X (emax M E N x) (x k) = S := ⟨_, rfl⟩
  have hSy : ∑ k ∈ Finset.range N, Proof.StdAddTree.term nosub M E X (emax M E N y) (y k) = -S := by
    rw [← hS, he, ← Finset.sum_neg_distrib]
    refine Finset.sum_congr rfl fun k hk => ?_
    have hk := Finset.mem_range.1 hk
    unfold Proof.StdAddTree.term
    rw [hexp k hk, hmu k hk]
    have : sgn M E (y k) = !sgn M E (x k) := (hxy k hk).2.2
    rw [this]
    cases sgn M E (x k) <;> simp
  have hfy : ∀ k < N, IsFinite M E (y k) := by
    intro k hk h
    exact hfin k hk ((hxy k hk).2.1.symm.trans h)
  obtain ⟨-, fx⟩ := Proof.StdAddTree.finite_eq (q := q) hE hX hN hfin hS
  obtain ⟨-, fy⟩ := Proof.StdAddTree.finite_eq (q := q) hE hX hN hfy hSy
  rw [he, Int.natAbs_neg] at fy
  by_cases hS0 : S = 0
  · subst hS0
    rw [Proof.StdAddTree.zero_eq hE hX hN hfin hS, Proof.StdAddTree.zero_eq hE hX hN hfy (by rw [hSy]; rfl)]
    simp [value, expField]
  have hsg : decide (-S < 0) = !decide (S < 0) := by
    rw [← decide_not, decide_eq_decide]; omega
  rw [hsg] at fy
  rw [fx, fy]
  have hb := Proof.StdAddTree.normalize_eb_lt q M E X N (emax M E N x) S.natAbs
  obtain ⟨l1, l2⟩ := Proof.StdAddTree.packF_lt (q := q) (nosub := nosub) (M := M) (E := E) (isInf := false) (isNan := false)
    (negInf := false) (posInf := false) (rsign := decide (S < 0)) (rz := decide (S.natAbs = 0)) hb
  generalize Model.StdAddTree.normalize q M E X N (emax M E N x) S.natAbs = n at *
  have hpk : Proof.StdAddTree.packF q nosub M E false false false false (!decide (S < 0)) (decide (S.natAbs = 0)) n =
      { Proof.StdAddTree.packF q nosub M E false false false false (decide (S < 0)) (decide (S.natAbs = 0)) n with
        s := !decide (S < 0) } := by
    unfold Proof.StdAddTree.packF
    simp only
    split_ifs <;> simp_all
  have hps : (Proof.StdAddTree.packF q nosub M E false false false false (decide (S < 0)) (decide (S.natAbs = 0)) n).s = decide (S < 0) := by
    unfold Proof.StdAddTree.packF
    simp only
    split_ifs <;> simp_all
  rw [hpk, hps]
  simp only
  obtain ⟨a1, a2, a3, -⟩ := Proof.StdAddTree.fields (decide (S < 0)) l1 l2
  obtain ⟨b1, b2, b3, -⟩ := Proof.StdAddTree.fields (!decide (S < 0)) l1 l2
  unfold sgn at a3 b3
  unfold expo at a2 b2
  unfold value expField
  rw [a1, a2, a3, b1, b2, b3, ← neg_mul]
  congr 1
  cases decide (S < 0) <;> simp

example : value false 23 8 (faddTree .RND_CONV false 23 8 3 2 (arr [0xbfffffff, 0x3e000011])) =
    -value false 23 8 (faddTree .RND_CONV false 23 8 3 2 (arr [0x3fffffff, 0xbe000011])) :=
  C76_neg (by decide) (by decide) (by decide) _ _ (by unfold IsFinite; decide) (by unfold Negated; decide)

/-- **C76** is false when `AccExtraLSBs` exceeds what the saturated shift can align: with 40 extra bits the binary32 sum
`1 - 1 + 2^-100` is `2^-31`, although three units of the accumulator are only `3·2^-63`. -/
theorem C76_many_extra_bits_wrong :
    faddTree .RND_CONV false 23 8 40 3 (arr [0x3f800000, 0xbf800000, 0x0d800000]) = 0x30000000 ∧
    exact false 23 8 3 (arr [0x3f800000, 0xbf800000, 0x0d800000]) = 2 ^ (-100 : ℤ) ∧
    value false 23 8 0x30000000 = 2 ^ (-31 : ℤ) ∧ 3 * unit 23 8 40 127 = 3 * 2 ^ (-63 : ℤ) := by
  decide +kernel

end Props.StdAddTreeValue
