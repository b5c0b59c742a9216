import Verif.Proof.AtanReal
import Verif.Proof.PwlNorm
import Verif.Proof.Reciprocal
import Verif.Model.Tan

/-! # C44: the table of the tangent -/

namespace Proof.Tan
open Ac Model.Pwl Model.PwlFixed Model.Tan Proof.Pwl Proof.PwlFixed
open Proof.Atan (lo up grid tangent chord lipschitz)

/-! ## Nonnegative values into an unsigned type -/

/-- What the assignment does when an overflow cannot happen or saturates. -/
def clip (f : Fmt) (x : ℚ) : ℚ := f.val (min (quant f.Q (x * 2 ^ f.F)) (maxRaw f.W f.S))

theorem cvt_clip {f : Fmt} (hW : 1 ≤ f.W) (hS : f.S = false) {x : ℚ} (h0 : 0 ≤ x)
    (h : x * 2 ^ f.F ≤ maxRaw f.W f.S ∨ (x * 2 ^ f.F < maxRaw f.W f.S + 1 ∧ (f.Q = .TRN ∨ f.Q = .TRN_ZERO)) ∨
      f.O = .SAT ∨ f.O = .SAT_SYM) : f.cvt x = clip f x := by
  have hz := Fmt.z_pos f.F
  have hx : 0 ≤ x * 2 ^ f.F := mul_nonneg h0 hz.le
  have q0 : 0 ≤ quant f.Q (x * 2 ^ f.F) := le_quant (by simpa using hx)
  have lo0 : loRaw f.W f.S f.O = 0 := by unfold loRaw; rw [hS]; cases f.O <;> simp [minRaw]
  have small : quant f.Q (x * 2 ^ f.F) ≤ maxRaw f.W f.S → f.cvt x = clip f x := by
    intro hq
    unfold Fmt.cvt Fmt.cvtRaw clip
    rw [ovf_of_range hW (by rw [lo0]; exact q0) hq, min_eq_left hq]
  rcases h with h | ⟨h, hq⟩ | h
  · exact small (quant_le h)
  · apply small
    have : ⌊x * 2 ^ f.F⌋ ≤ maxRaw f.W f.S := by
      rw [← Int.lt_add_one_iff, Int.floor_lt]; push_cast; exact h
    rcases hq with hq | hq
    · rw [hq]; exact this
    · rw [hq]; unfold quant; simp only [not_lt.2 hx, if_false]; exact this
  · rcases le_or_gt (quant f.Q (x * 2 ^ f.F)) (maxRaw f.W f.S) with h1 | h1
    · exact small h1
    · unfold Fmt.cvt Fmt.cvtRaw clip
      rw [min_eq_right h1.le]
      congr 1
      rcases h with h | h <;> rw [h] <;> simp [ovf, h1]

theorem clip_mono (f : Fmt) {x y : ℚ} (h : x ≤ y) : clip f x ≤ clip f y := by
  unfold clip
  rw [Fmt.val_le]
  exact min_le_min_right _ (quant_mono _ (mul_le_mul_of_nonneg_right h (Fmt.z_pos _).le))

theorem clip_nonneg (f : Fmt) {x : ℚ} (h : 0 ≤ x) : 0 ≤ clip f x := by
  unfold clip Fmt.val
  have hz := Fmt.z_pos f.F
  have q0 : 0 ≤ quant f.Q (x * 2 ^ f.F) := le_quant (by simpa using mul_nonneg h hz.le)
  exact mul_nonneg (by exact_mod_cast le_min q0 (maxRaw_nonneg _ _)) (Fmt.z_pos _).le

theorem clip_err (f : Fmt) {x : ℚ} (h : x * 2 ^ f.F ≤ maxRaw f.W f.S + 1) : |clip f x - x| ≤ 2 ^ (-f.F) := by
  have hz := Fmt.z_pos f.F
  have hi : (2 : ℚ) ^ (-f.F) * 2 ^ f.F = 1 := by rw [← zpow_add₀ (by norm_num)]; simp
  have hz' := Fmt.z_pos (-f.F)
  have e : clip f x - x = (((min (quant f.Q (x * 2 ^ f.F)) (maxRaw f.W f.S) : ℤ) : ℚ) - x * 2 ^ f.F) * 2 ^ (-f.F) := by
    unfold clip Fmt.val
    rw [sub_mul, mul_assoc, mul_comm ((2 : ℚ) ^ f.F), hi, mul_one]
  rw [e, abs_mul, abs_of_pos hz']
  have : |((min (quant f.Q (x * 2 ^ f.F)) (maxRaw f.W f.S) : ℤ) : ℚ) - x * 2 ^ f.F| ≤ 1 := by
    have a := abs_lt.1 (quant_err f.Q (x * 2 ^ f.F))
    rw [abs_le]
    rcases le_total (quant f.Q (x * 2 ^ f.F)) (maxRaw f.W f.S) with h1 | h1
    · rw [min_eq_left h1]; constructor <;> linarith
    · rw [min_eq_right h1]
      have : ((maxRaw f.W f.S : ℤ) : ℚ) ≤ quant f.Q (x * 2 ^ f.F) := by exact_mod_cast h1
      constructor <;> linarith
  nlinarith

theorem clip_exact (f : Fmt) {x : ℚ} {n : ℤ} (hn : x * 2 ^ f.F = n) (h : n ≤ maxRaw f.W f.S) : clip f x = x := by
  unfold clip
  rw [hn, quant_intCast, min_eq_left h]
  unfold Fmt.val
  rw [← hn, mul_assoc, ← zpow_add₀ (by norm_num)]
  simp

/-! ## The table -/

/-- `lo` up to 129. -/
def loT : List ℤ := [
  0, 8589759829, 17178471274, 25765086718, 34348560079, 42927847571, 51501908464, 60069705838, 68630207329,
  77182385868, 85725220409, 94257696649, 102778807730, 111287554936, 119782948369, 128264007610, 136729762369,
  145179253110, 153611531664, 162025661817, 170420719880, 178795795242, 187149990893, 195482423932, 203792226048,
  212078543981, 220340539953, 228577392083, 236788294770, 244972459056, 253129112963, 261257501803, 269356888465,
  277426553676, 285465796239, 293473933241, 301450300243, 309394251440, 317305159801, 325182417182, 333025434416,
  340833641384, 348606487058, 356343439525, 364043985990, 371707632755, 379333905182, 386922347633, 394472523394,
  401984014577, 409456422006, 416889365090, 424282481673, 431635427872, 438947877903, 446219523888, 453450075651,
  460639260503, 467786823013, 474892524769, 481956144129, 488977475961, 495956331377, 502892537456, 509785936962,
  516636388054, 523443763988, 530207952818, 536928857090, 543606393530, 550240492731, 556831098836, 563378169219,
  569881674165, 576341596544, 582757931491, 589130686081, 595459879004, 601745540243, 607987710751, 614186442131,
  620341796314, 626453845244, 632522670561, 638548363288, 644531023524, 650470760135, 656367690451, 662221939968,
  668033642051, 673802937644, 679529974982, 685214909309, 690857902598, 696459123280, 702018745974, 707536951224,
  713013925239, 718449859641, 723844951216, 729199401672, 734513417399, 739787209239, 745020992257, 750214985520,
  755369411881, 760484497765, 765560472969, 770597570455, 775596026159, 780556078800, 785477969696, 790361942583,
  795208243441, 800017120327, 804788823208, 809523603803, 814221715427, 818883412845, 823508952123, 828098590491,
  832652586205, 837171198419, 841654687055, 846103312683, 850517336402, 854897019728, 859242624481, 863554412682,
  867832646451]
/-- `up` up to 129. -/
def upT : List ℤ := [
  0, 8589759836, 17178471288, 25765086740, 34348560108, 42927847607, 51501908507, 60069705888, 68630207386,
  77182385932, 85725220481, 94257696728, 102778807817, 111287555030, 119782948470, 128264007718, 136729762484,
  145179253232, 153611531793, 162025661952, 170420720022, 178795795390, 187149991047, 195482424092, 203792226215,
  212078544154, 220340540132, 228577392268, 236788294961, 244972459253, 253129113166, 261257502012, 269356888680,
  277426553897, 285465796465, 293473933473, 301450300480, 309394251683, 317305160049, 325182417435, 333025434674,
  340833641647, 348606487326, 356343439798, 364043986267, 371707633037, 379333905469, 386922347925, 394472523690,
  401984014877, 409456422310, 416889365398, 424282481985, 431635428188, 438947878223, 446219524212, 453450075979,
  460639260835, 467786823349, 474892525109, 481956144472, 488977476307, 495956331726, 502892537808, 509785937317,
  516636388412, 523443764349, 530207953182, 536928857457, 543606393899, 550240493102, 556831099210, 563378169596,
  569881674544, 576341596925, 582757931874, 589130686466, 595459879391, 601745540632, 607987711143, 614186442525,
  620341796711, 626453845643, 632522670962, 638548363692, 644531023930, 650470760543, 656367690861, 662221940380,
  668033642465, 673802938060, 679529975400, 685214909729, 690857903020, 696459123704, 702018746400, 707536951651,
  713013925667, 718449860070, 723844951647, 729199402104, 734513417833, 739787209675, 745020992695, 750214985960,
  755369412322, 760484498208, 765560473413, 770597570900, 775596026605, 780556079248, 785477970145, 790361943033,
  795208243893, 800017120780, 804788823662, 809523604258, 814221715883, 818883413302, 823508952581, 828098590950,
  832652586666, 837171198881, 841654687518, 846103313147, 850517336868, 854897020195, 859242624949, 863554413151,
  867832646921]

theorem loT_eq : ∀ j < 129, loT.getD j 0 = lo j := by decide +kernel
theorem upT_eq : ∀ j < 129, upT.getD j 0 = up j := by decide +kernel

/-- What is checked at each of the 8192 places of the table: the arctangent of the value there is within 1/670 of the
two ends of the place. -/
def tanOk (k : ℕ) : Bool :=
  let Y := (segRaw tanM tanC 10 k).toNat
  let j := Y / 8192
  let u : ℤ := (Y % 8192 : ℕ)
  decide (0 ≤ segRaw tanM tanC 10 k) && decide (j < 128) &&
  decide ((k + 1) * 670 * 9007199254740992 ≤ (((8192 - u) * loT.getD j 0 + u * loT.getD (j + 1) 0) * 670 + 9007199254740992) * 10433) &&
  decide ((upT.getD j 0 * (16384 + j * j) + u * 1048576 * 16384) * (670 * 10433) ≤
    (k * 670 + 10433) * (1099511627776 * (16384 + j * j)))

theorem tanOk0 : Proof.Pwl.allLt 1024 (fun k => tanOk (1024 * 0 + k)) = true := by decide +kernel
theorem tanOk1 : Proof.Pwl.allLt 1024 (fun k => tanOk (1024 * 1 + k)) = true := by decide +kernel
theorem tanOk2 : Proof.Pwl.allLt 1024 (fun k => tanOk (1024 * 2 + k)) = true := by decide +kernel
theorem tanOk3 : Proof.Pwl.allLt 1024 (fun k => tanOk (1024 * 3 + k)) = true := by decide +kernel
theorem tanOk4 : Proof.Pwl.allLt 1024 (fun k => tanOk (1024 * 4 + k)) = true := by decide +kernel
theorem tanOk5 : Proof.Pwl.allLt 1024 (fun k => tanOk (1024 * 5 + k)) = true := by decide +kernel
theorem tanOk6 : Proof.Pwl.allLt 1024 (fun k => tanOk (1024 * 6 + k)) = true := by decide +kernel
theorem tanOk7 : Proof.Pwl.allLt 1024 (fun k => tanOk (1024 * 7 + k)) = true := by decide +kernel

theorem tanOk_all : ∀ k < 8192, tanOk k = true := by
  refine chunks 1024 (c := 8) (by norm_num) ?_
  intro j hj
  interval_cases j
  · exact tanOk0
  · exact tanOk1
  · exact tanOk2
  · exact tanOk3
  · exact tanOk4
  · exact tanOk5
  · exact tanOk6
  · exact tanOk7

/-- The table value at place `k`. -/
def Y (k : ℕ) : ℚ := segRaw tanM tanC 10 k / 2 ^ 20

theorem Y_err {k : ℕ} (hk : k < 8192) {v : ℝ} (h0 : (k : ℝ) / 10433 ≤ v) (h1 : v ≤ (k + 1) / 10433) :
    |Real.arctan (Y k) - v| ≤ 1 / 670 := by
  have h := tanOk_all k hk
  unfold tanOk at h
  simp only [Bool.and_eq_true, decide_eq_true_eq] at h
  obtain ⟨⟨⟨h2, h3⟩, h4⟩, h5⟩ := h
  rw [loT_eq _ (by omega), loT_eq _ (by omega)] at h4
  rw [upT_eq _ (by omega)] at h5
  obtain ⟨n, hn⟩ := Int.eq_ofNat_of_zero_le h2
  have hY : Y k = n / 2 ^ 20 := by unfold Y; rw [hn]; simp
  rw [hn, Int.toNat_natCast] at h3 h4 h5
  have hdm : 8192 * (n / 8192) + n % 8192 = n := Nat.div_add_mod n 8192
  have hu : n % 8192 < 8192 := Nat.mod_lt _ (by norm_num)
  generalize n / 8192 = j at *
  generalize n % 8192 = u at *
  have hnr : (n : ℝ) = 8192 * j + u := by exact_mod_cast hdm.symm
  have hur : (u : ℝ) ≤ 8192 := by exact_mod_cast hu.le
  have hY' : ((Y k : ℚ) : ℝ) = (1 - u / 8192) * (j / 128) + u / 8192 * ((j + 1 : ℕ) / 128) := by
    rw [hY]; push_cast; rw [hnr]; ring
  have g1 := (grid j).1
  have g2 := (grid (j + 1)).1
  have g3 := (grid j).2
  push_cast at g1 g2 g3
  have ch := chord (a := j / 128) (b := (j + 1 : ℕ) / 128) (t := u / 8192) (by positivity) (by positivity) (by positivity)
    (by rw [div_le_one (by norm_num)]; exact hur)
  rw [← hY'] at ch
  have tg := tangent (u := (Y k : ℚ)) (v := j / 128) (by rw [hY]; push_cast; positivity) (by positivity)
  have hd : ((Y k : ℚ) : ℝ) - j / 128 = u / 1048576 := by rw [hY]; push_cast; rw [hnr]; ring
  have hj : (0 : ℝ) < 16384 + j * j := by positivity
  have ht : (1 : ℝ) / (1 + (j / 128) ^ 2) = 16384 / (16384 + j * j) := by
    field_simp
    ring
  rw [hd, ht] at tg
  rw [abs_le]
  constructor
  · have c : ((k + 1) * 670 * 9007199254740992 : ℝ) ≤ (((8192 - u) * lo j + u * lo (j + 1)) * 670 + 9007199254740992) * 10433 := by
      have := Int.cast_le (R := ℝ) |>.2 h4
      push_cast at this
      linarith
    push_cast at ch
    have k1 := mul_le_mul_of_nonneg_left g1 (show (0 : ℝ) ≤ 1 - u / 8192 by
      rw [sub_nonneg, div_le_one (by norm_num)]; exact hur)
    have k2 := mul_le_mul_of_nonneg_left g2 (show (0 : ℝ) ≤ u / 8192 by positivity)
    have c' : ((k : ℝ) + 1) / 10433 ≤ ((8192 - u) * lo j + u * lo (j + 1)) / 9007199254740992 + 1 / 670 := by
      rw [div_add_div _ _ (by norm_num) (by norm_num), div_le_div_iff₀ (by norm_num) (by norm_num)]
      linarith
    have e : (1 - (u : ℝ) / 8192) * (lo j / 2 ^ 40) + u / 8192 * (lo (j + 1) / 2 ^ 40) =
        ((8192 - u) * lo j + u * lo (j + 1)) / 9007199254740992 := by ring
    linarith
  · have c : ((up j * (16384 + j * j) + u * 1048576 * 16384) * (670 * 10433) : ℝ) ≤
        (k * 670 + 10433) * (1099511627776 * (16384 + j * j)) := by
      have := Int.cast_le (R := ℝ) |>.2 h5
      push_cast at this
      linarith
    have c' : ((up j * (16384 + j * j) + u * 1048576 * 16384) : ℝ) / (1099511627776 * (16384 + j * j)) ≤ k / 10433 + 1 / 670 := by
      rw [div_add_div _ _ (by norm_num) (by norm_num), div_le_div_iff₀ (by positivity) (by norm_num)]
      linarith
    have e : ((up j * (16384 + j * j) + u * 1048576 * 16384) : ℝ) / (1099511627776 * (16384 + j * j)) =
        up j / 2 ^ 40 + u / 1048576 * (16384 / (16384 + j * j)) := by
      field_simp
      ring
    linarith

theorem Y_mono {k k' : ℕ} (h : k ≤ k') (h' : k' < 8192) : Y k ≤ Y k' := by
  have hP : (0 : ℚ) < 2 ^ 10 := by positivity
  have key := pw_mono (m := tab tanM 10) (c := tab tanC 10) (n := 8) (s := ((k : ℕ) : ℤ) / 2 ^ 10) (t := ((k' : ℕ) : ℤ) / 2 ^ 10)
    (by decide +kernel)
    (by
      have : ∀ i < 7, tab tanC 10 i + tab tanM 10 i ≤ tab tanC 10 (i + 1) := by decide +kernel
      exact fun i hi => this i (by omega))
    (by positivity) (div_le_div_of_nonneg_right (by exact_mod_cast h) hP.le)
    (by
      rw [div_lt_iff₀ hP]
      have : (k' : ℚ) < 8192 := by exact_mod_cast h'
      norm_num; linarith)
  rw [pw_tab, pw_tab] at key
  exact key

theorem Y_range {k : ℕ} (h : k < 8192) : 0 ≤ segRaw tanM tanC 10 k ∧ segRaw tanM tanC 10 k ≤ 2 ^ 20 - 1 := by
  obtain ⟨b1, b2⟩ := segRaw_bounds (m := tanM) (c := tanC) (n := 10) (k := k) (N := 8) (lo := 0) (hi := 1022)
    (by norm_num; exact h) (by decide +kernel)
  constructor
  · simpa using b1
  · norm_num at b2 ⊢; linarith

/-- The table at the argument `v`. -/
theorem seg {v : ℚ} (h0 : 0 ≤ v) (h1 : v ≤ 804 / 1024 + 1 / 2 ^ 18) (q : QMode) : ∃ k : ℕ, k < 8192 ∧ (k : ℚ) ≤ v * 10433 ∧
    v * 10433 < k + 1 ∧ segVal tanM tanC 10 3 10 (v * (10433 / 1024)) = some (Y k) ∧
    (⟨20, 0, false, q, .WRAP⟩ : Fmt).cvt (Y k) = Y k := by
  obtain ⟨k, hk, ht, l1, l2⟩ := cell (N := 10) (ib := 3) (v := v * (10433 / 1024)) (by linarith) (by linarith)
  have hk' : k < 8192 := by norm_num at hk; exact hk
  have e : v * (10433 / 1024) * 2 ^ 10 = v * 10433 := by ring
  rw [e] at l1 l2
  refine ⟨k, hk', l1, l2, ?_, ?_⟩
  · rw [segVal_eq rfl rfl 10 10 (by linarith) (by linarith), ht, pw_tab]
    rfl
  · obtain ⟨a, b⟩ := Y_range hk'
    exact (cvt_word (f := ⟨20, 0, false, q, .WRAP⟩) (n := 20) (by norm_num) (by norm_num [Fmt.F]) rfl a b).1

theorem place_mono {v v' : ℚ} {k k' : ℕ} (h : v ≤ v') (l : (k : ℚ) ≤ v * 10433) (l' : v' * 10433 < k' + 1) : k ≤ k' := by
  have : (k : ℚ) < k' + 1 := by linarith
  have : k < k' + 1 := by exact_mod_cast this
  omega

end Proof.Tan
