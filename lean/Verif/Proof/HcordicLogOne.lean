import Verif.Proof.HcordicLogCheck

/-! # The error of the reduced logarithm with 3 to 12 bits: every input, base e -/

namespace Proof.Hcordic
open Ac Model.Hcordic

theorem small_one_3_0 : ∀ i : ℕ, 4 ≤ i → i < 8 → GoodL .one 3 i :=
  chunkL .one 3 0 4 (a := 0) (h := 0) (by norm_num) (by decide +kernel) (by decide +kernel)

theorem small_one_4_0 : ∀ i : ℕ, 8 ≤ i → i < 16 → GoodL .one 4 i :=
  chunkL .one 4 0 8 (a := 0) (h := 0) (by norm_num) (by decide +kernel) (by decide +kernel)

theorem small_one_5_0 : ∀ i : ℕ, 16 ≤ i → i < 32 → GoodL .one 5 i :=
  chunkL .one 5 0 16 (a := 0) (h := 0) (by norm_num) (by decide +kernel) (by decide +kernel)

theorem small_one_6_0 : ∀ i : ℕ, 32 ≤ i → i < 64 → GoodL .one 6 i :=
  chunkL .one 6 0 32 (a := 0) (h := 0) (by norm_num) (by decide +kernel) (by decide +kernel)

theorem small_one_7_0 : ∀ i : ℕ, 64 ≤ i → i < 128 → GoodL .one 7 i :=
  chunkL .one 7 0 64 (a := 0) (h := 0) (by norm_num) (by decide +kernel) (by decide +kernel)

theorem small_one_8_0 : ∀ i : ℕ, 128 ≤ i → i < 256 → GoodL .one 8 i :=
  chunkL .one 8 0 128 (a := 0) (h := 0) (by norm_num) (by decide +kernel) (by decide +kernel)

theorem small_one_9_0 : ∀ i : ℕ, 256 ≤ i → i < 512 → GoodL .one 9 i :=
  chunkL .one 9 0 256 (a := 0) (h := 0) (by norm_num) (by decide +kernel) (by decide +kernel)

theorem small_one_10_0 : ∀ i : ℕ, 512 ≤ i → i < 1024 → GoodL .one 10 i :=
  chunkL .one 10 0 512 (a := 0) (h := 0) (by norm_num) (by decide +kernel) (by decide +kernel)

theorem small_one_11_0 : ∀ i : ℕ, 1536 ≤ i → i < 2048 → GoodL .one 11 i :=
  chunkL .one 11 0 512 (a := 0) (h := 0) (by norm_num) (by decide +kernel) (by decide +kernel)

theorem small_one_11_1 : ∀ i : ℕ, 1024 ≤ i → i < 1536 → GoodL .one 11 i :=
  chunkL .one 11 512 512 (a := 316309775019) (h := 316309801002) (by norm_num) (by decide +kernel) (by decide +kernel)

theorem small_one_12_0 : ∀ i : ℕ, 3584 ≤ i → i < 4096 → GoodL .one 12 i :=
  chunkL .one 12 0 512 (a := 0) (h := 0) (by norm_num) (by decide +kernel) (by decide +kernel)

theorem small_one_12_1 : ∀ i : ℕ, 3072 ≤ i → i < 3584 → GoodL .one 12 i :=
  chunkL .one 12 512 512 (a := 146819317775) (h := 146819320786) (by norm_num) (by decide +kernel) (by decide +kernel)

theorem small_one_12_2 : ∀ i : ℕ, 2560 ≤ i → i < 3072 → GoodL .one 12 i :=
  chunkL .one 12 1024 512 (a := 316309781137) (h := 316309788517) (by norm_num) (by decide +kernel) (by decide +kernel)

theorem small_one_12_3 : ∀ i : ℕ, 2048 ≤ i → i < 2560 → GoodL .one 12 i :=
  chunkL .one 12 1536 512 (a := 516774450434) (h := 516774464736) (by norm_num) (by decide +kernel) (by decide +kernel)

theorem small_one {ew : ℕ} (h3 : 3 ≤ ew) (h12 : ew ≤ 12) {i : ℕ} (h0 : 2 ^ (ew - 1) ≤ i) (h1 : i < 2 ^ ew) :
    GoodL .one ew i := by
  interval_cases ew <;> norm_num at h0 h1
  · exact small_one_3_0 i h0 h1
  · exact small_one_4_0 i h0 h1
  · exact small_one_5_0 i h0 h1
  · exact small_one_6_0 i h0 h1
  · exact small_one_7_0 i h0 h1
  · exact small_one_8_0 i h0 h1
  · exact small_one_9_0 i h0 h1
  · exact small_one_10_0 i h0 h1
  · by_cases g0 : 1536 ≤ i
    · exact small_one_11_0 i (by omega) (by omega)
    exact small_one_11_1 i (by omega) (by omega)
  · by_cases g0 : 3584 ≤ i
    · exact small_one_12_0 i (by omega) (by omega)
    by_cases g1 : 3072 ≤ i
    · exact small_one_12_1 i (by omega) (by omega)
    by_cases g2 : 2560 ≤ i
    · exact small_one_12_2 i (by omega) (by omega)
    exact small_one_12_3 i (by omega) (by omega)

end Proof.Hcordic
