import Verif.Proof.StdAddTree

/-! # C26: special values of the IEEE adder tree

A number is its bit pattern `d`: `M` mantissa bits, `E` exponent bits, one sign bit. -/

namespace Props.StdAddTree
open Ac Model.StdAddTree

/-- Exponent field. -/
def expField (M E d : ℕ) : ℕ := d / 2 ^ M % 2 ^ E
/-- Mantissa field. -/
def mantField (M d : ℕ) : ℕ := d % 2 ^ M
/-- Sign bit. -/
def signBit (M E d : ℕ) : Bool := d.testBit (M + E)

/-- IEEE-754: not a number. -/
def IsNaN (M E d : ℕ) : Prop := expField M E d = 2 ^ E - 1 ∧ mantField M d ≠ 0
/-- IEEE-754: an infinity. -/
def IsInf (M E d : ℕ) : Prop := expField M E d = 2 ^ E - 1 ∧ mantField M d = 0
/-- IEEE-754: a finite number. -/
def IsFinite (M E d : ℕ) : Prop := expField M E d ≠ 2 ^ E - 1

/-- The bit pattern of an infinity. -/
def infinity (M E : ℕ) (negative : Bool) : ℕ := (2 ^ E - 1) * 2 ^ M + if negative then 2 ^ (M + E) else 0

/-- The binary32 bit patterns of a list, padded with zeros. -/
def arr (l : List ℕ) : ℕ → ℕ := fun k => l.getD k 0

theorem isNaN_iff (M E d : ℕ) : nan M E d = true ↔ IsNaN M E d := by
  unfold nan IsNaN expField mantField expo mantZero
  rw [Bool.and_eq_true, decide_eq_true_eq]
  simp

theorem isInf_iff (M E d : ℕ) : inf M E d = true ↔ IsInf M E d := by
  unfold inf IsInf expField mantField expo mantZero
  rw [Bool.and_eq_true, decide_eq_true_eq, decide_eq_true_eq]

/-- The result as packed fields. -/
theorem result_eq {q : QMode} {nosub : Bool} {M E X N : ℕ} (hE : 1 ≤ E) (x : ℕ → ℕ) :
    ∃ rsign rz n, n.eb < 2 ^ E ∧
      (let negInf := anyLoop N fun k => inf M E (x k) && sgn M E (x k)
       let posInf := anyLoop N fun k => inf M E (x k) && !sgn M E (x k)
       let F := Proof.StdAddTree.packF q nosub M E (anyLoop N fun k => inf M E (x k))
        ((anyLoop N fun k => nan M E (x k)) || (negInf && posInf)) negInf posInf rsign rz n
       faddTree q nosub M E X N x = F.m + F.e * 2 ^ M + (if F.s then 2 ^ (M + E) else 0)) := by
  let t := total nosub M E X N x
  let R := (wrap (opBits M N + X) false (if decide (t < 0) then -t else t)).toNat
  refine ⟨decide (t < 0), decide (R = 0), normalize q M E X N (emax M E N x) R,
    Proof.StdAddTree.normalize_eb_lt _ _ _ _ _ _ _, ?_⟩
  exact Proof.StdAddTree.pack_eq hE (Proof.StdAddTree.normalize_eb_lt _ _ _ _ _ _ _)

/-- **C26**, NaN: the result is NaN exactly when some operand is NaN or infinities of both signs occur. -/
theorem C26_nan {q : QMode} {nosub : Bool} {M E X N : ℕ} (hM : 1 ≤ M) (hE : 1 ≤ E) (x : ℕ → ℕ) :
    IsNaN M E (faddTree q nosub M E X N x) ↔
      (∃ k < N, IsNaN M E (x k)) ∨
      (∃ k < N, IsInf M E (x k) ∧ signBit M E (x k) = true) ∧ (∃ k < N, IsInf M E (x k) ∧ signBit M E (x k) = false) := by
  obtain ⟨rsign, rz, n, hn, h⟩ := result_eq (q := q) (nosub := nosub) (M := M) (X := X) (N := N) hE x
  simp only at h
  have e1 : ((anyLoop N fun k => nan M E (x k)) || ((anyLoop N fun k => inf M E (x k) && sgn M E (x k)) &&
      (anyLoop N fun k => inf M E (x k) && !sgn M E (x k)))) = true ↔
      (∃ k < N, IsNaN M E (x k)) ∨
      (∃ k < N, IsInf M E (x k) ∧ signBit M E (x k) = true) ∧ (∃ k < N, IsInf M E (x k) ∧ signBit M E (x k) = false) := by
    simp only [Bool.or_eq_true, Bool.and_eq_true, Proof.StdAddTree.anyLoop_iff, isNaN_iff, isInf_iff,
      Bool.not_eq_true', sgn, signBit]
  rw [← e1]
  obtain ⟨hm, he⟩ := Proof.StdAddTree.packF_lt (q := q) (nosub := nosub) (M := M) (E := E)
    (isInf := anyLoop N fun k => inf M E (x k))
    (isNan := (anyLoop N fun k => nan M E (x k)) || ((anyLoop N fun k => inf M E (x k) && sgn M E (x k)) &&
      (anyLoop N fun k => inf M E (x k) && !sgn M E (x k))))
    (negInf := anyLoop N fun k => inf M E (x k) && sgn M E (x k))
    (posInf := anyLoop N fun k => inf M E (x k) && !sgn M E (x k)) (rsign := rsign) (rz := rz) hn
  rw [h]
  generalize ((anyLoop N fun k => nan M E (x k)) || ((anyLoop N fun k => inf M E (x k) && sgn M E (x k)) &&
      (anyLoop N fun k => inf M E (x k) && !sgn M E (x k)))) = isNan at hm he ⊢
  generalize (anyLoop N fun k => inf M E (x k)) = isInf at hm he ⊢
  generalize (anyLoop N fun k => inf M E (x k) && sgn M E (x k)) = negInf at hm he ⊢
  generalize (anyLoop N fun k => inf M E (x k) && !sgn M E (x k)) = posInf at hm he ⊢
  obtain ⟨f1, f2, -, -⟩ := Proof.StdAddTree.fields
    (Proof.StdAddTree.packF q nosub M E isInf isNan negInf posInf rsign rz n).s hm he
  unfold IsNaN expField mantField
  unfold expo at f2
  rw [f1, f2]
  have hM2 : 2 ≤ 2 ^ M := by
    calc 2 = 2 ^ 1 := rfl
      _ ≤ 2 ^ M := Nat.pow_le_pow_right (by norm_num) hM
  have hE2 : 2 ≤ 2 ^ E := by
    calc 2 = 2 ^ 1 := rfl
      _ ≤ 2 ^ E := Nat.pow_le_pow_right (by norm_num) hE
  unfold Proof.StdAddTree.packF
  simp only
  cases isNan
  · simp only [Bool.false_eq_true, if_false, iff_false]
    split_ifs with h1 h2 h3 h4
    all_goals first
      | (simp; done)
      | (simp_all; done)
      | (simp only; omega)
  · simp only [if_true, true_and, iff_true]
    omega

example : IsNaN 23 8 (faddTree .RND_CONV false 23 8 3 3 (arr [0x7f800000, 0x3f800000, 0xff800000])) :=
  (C26_nan (by decide) (by decide) _).2 (Or.inr ⟨⟨2, by decide, by unfold IsInf; decide, by decide⟩,
    ⟨0, by decide, by unfold IsInf; decide, by decide⟩⟩)

/-- **C26**, infinities: if there is no NaN and the infinities among the operands all have the same sign, the result is
exactly the infinity of that sign. -/
theorem C26_inf {q : QMode} {nosub : Bool} {M E X N : ℕ} (hE : 1 ≤ E) (x : ℕ → ℕ) (s : Bool)
    (hnan : ∀ k < N, ¬ IsNaN M E (x k)) (hex : ∃ k < N, IsInf M E (x k))
    (hs : ∀ k < N, IsInf M E (x k) → signBit M E (x k) = s) :
    faddTree q nosub M E X N x = infinity M E s := by
  obtain ⟨rsign, rz, n, hn, h⟩ := result_eq (q := q) (nosub := nosub) (M := M) (X := X) (N := N) hE x
  simp only at h
  rw [h]
  have e1 : (anyLoop N fun k => nan M E (x k)) = false := by
    rw [← Bool.not_eq_true, Proof.StdAddTree.anyLoop_iff]
    rintro ⟨k, hk, h⟩
    exact hnan k hk ((isNaN_iff _ _ _).1 h)
  have e2 : (anyLoop N fun k => inf M E (x k)) = true := by
    rw [Proof.StdAddTree.anyLoop_iff]
    obtain ⟨k, hk, h⟩ := hex
    exact ⟨k, hk, (isInf_iff _ _ _).2 h⟩
  have e3 : (anyLoop N fun k => inf M E (x k) && sgn M E (x k)) = s := by
    rw [Bool.eq_iff_iff, Proof.StdAddTree.anyLoop_iff]
    constructor
    · rintro ⟨k, hk, h⟩
      rw [Bool.and_eq_true, isInf_iff] at h
      rw [← hs k hk h.1]; exact h.2
    · intro h
      obtain ⟨k, hk, h1⟩ := hex
      refine ⟨k, hk, ?_⟩
      rw [Bool.and_eq_true, isInf_iff]
      exact ⟨h1, (hs k hk h1).trans h⟩
  have e4 : (anyLoop N fun k => inf M E (x k) && !sgn M E (x k)) = !s := by
    rw [Bool.eq_iff_iff, Proof.StdAddTree.anyLoop_iff]
    constructor
    · rintro ⟨k, hk, h⟩
      rw [Bool.and_eq_true, isInf_iff] at h
      rw [← hs k hk h.1]; exact h.2
    · intro h
      obtain ⟨k, hk, h1⟩ := hex
      refine ⟨k, hk, ?_⟩
      rw [Bool.and_eq_true, isInf_iff]
      refine ⟨h1, ?_⟩
      have : sgn M E (x k) = s := hs k hk h1
      rw [this]; exact h
  rw [e1, e2, e3, e4]
  unfold Proof.StdAddTree.packF infinity
  cases s <;> simp

example : faddTree .RND_CONV false 23 8 3 3 (arr [0x3f800000, 0xff800000, 0xff800000]) = 0xff800000 := by
  have := C26_inf (q := .RND_CONV) (nosub := false) (M := 23) (E := 8) (X := 3) (N := 3) (by decide)
    (arr [0x3f800000, 0xff800000, 0xff800000]) true (by unfold IsNaN; decide)
    ⟨1, by decide, by unfold IsInf; decide⟩ (by unfold IsInf; decide)
  simpa [infinity] using this

/-- **C26 is false for finite sums that overflow by a binade or more** (three or more operands): the E-bit exponent
register wraps.  Four binary32 operands `1.5·2^127` add up to `0x00400000`, about 5.9e-39, instead of infinity; under
truncation, to the same small number instead of the largest finite one. -/
theorem C26_overflow_wrong :
    faddTree .RND_CONV false 23 8 3 4 (fun _ => 0x7f400000) = 0x00400000 ∧
    faddTree .TRN_ZERO false 23 8 3 4 (fun _ => 0x7f400000) = 0x00400000 ∧
    faddTree .RND_CONV false 23 8 3 8 (fun _ => 0x7f7fffff) = 0x00ffffff := by
  decide +kernel

/-- **C26**: subnormal results are wrong for three or more operands.  Adding zeros to a subnormal number halves it
(four operands) or divides it by four (eight operands); with two operands it is right. -/
theorem C26_subnormal_wrong :
    faddTree .RND_CONV false 23 8 3 4 (arr [0x00400000]) = 0x00200000 ∧
    faddTree .RND_CONV false 23 8 3 8 (arr [0x00400000]) = 0x00100000 ∧
    faddTree .RND_CONV false 23 8 3 2 (arr [0x00400000]) = 0x00400000 := by
  decide +kernel

/-- **C26**: with the default three extra bits the sum of two binary32 numbers is not always the correctly rounded one:
the sticky bit is lost when the sum carries out.  `0x3fffffff + 0x3e000011` is `0x40080000` instead of `0x40080001`
(which four extra bits give). -/
theorem C26_rounding_wrong :
    faddTree .RND_CONV false 23 8 3 2 (arr [0x3fffffff, 0x3e000011]) = 0x40080000 ∧
    faddTree .RND_CONV false 23 8 4 2 (arr [0x3fffffff, 0x3e000011]) = 0x40080001 := by
  decide +kernel

/-- **C26**: with `AccExtraLSBs = 0` the last mantissa bit of every operand is replaced by its sticky bit, so adding
zero changes odd mantissas. -/
theorem C26_no_extra_bits_wrong :
    faddTree .RND_CONV false 23 8 0 2 (arr [0x3f800001]) = 0x3f800000 := by
  decide +kernel

end Props.StdAddTree
