import Verif.Model.Bits
import Verif.Spec.Bits
import Verif.Ac.Lemmas

/-! # Helper lemmas for the bit-level functions -/

namespace Model.Bits
open Ac

/-! ## nbits -/

theorem lt_two_pow_nbits (n : ℕ) : n < 2 ^ nbits n := by
  unfold nbits
  split_ifs with h
  · subst h; norm_num
  · exact Nat.lt_log2_self

theorem two_pow_nbits_le {n i : ℕ} (hn : n ≠ 0) (hi : i < nbits n) : 2 ^ i ≤ n := by
  unfold nbits at hi
  rw [if_neg hn] at hi
  exact le_trans (Nat.pow_le_pow_right (by norm_num) (by omega)) (Nat.log2_self_le hn)

/-! ## barrel shift -/

theorem shiftLayer_rot {N din s i : ℕ} (hd : din < 2 ^ N) (hi : 2 ^ i ≤ N) :
    Spec.RotR N din (if s.testBit i then 2 ^ i else 0) (shiftLayer N din s i) := by
  refine ⟨Nat.mod_lt _ (Nat.two_pow_pos N), fun j hj => ?_⟩
  have hdup : din + din * 2 ^ N = 2 ^ N * din + din := by ring
  simp only [shiftLayer, hdup]
  rw [Nat.testBit_mod_two_pow]
  simp only [hj, decide_true, Bool.true_and]
  have hb : ∀ m, m < 2 * N → (2 ^ N * din + din).testBit m = din.testBit (m % N) := by
    intro m hm
    rw [Nat.testBit_two_pow_mul_add _ hd]
    split_ifs with h
    · rw [Nat.mod_eq_of_lt h]
    · congr 1
      rw [Nat.mod_eq_sub_mod (by omega), Nat.mod_eq_of_lt (by omega)]
  split_ifs with h
  · rw [Nat.testBit_div_two_pow, hb _ (by omega)]
  · rw [hb _ (by omega), Nat.add_zero]

theorem rot_comp {N x s t y z : ℕ} (h1 : Spec.RotR N x s y) (h2 : Spec.RotR N y t z) :
    Spec.RotR N x (s + t) z := by
  refine ⟨h2.1, fun j hj => ?_⟩
  rw [h2.2 j hj, h1.2 _ (Nat.mod_lt _ (by omega)), Nat.mod_add_mod]
  congr 2; ring

theorem barrelLoop_rot {N s : ℕ} (n : ℕ) : ∀ {i din : ℕ}, din < 2 ^ N → (∀ k, k < i + n → 2 ^ k ≤ N) →
    Spec.RotR N din (s / 2 ^ i % 2 ^ n * 2 ^ i) (barrelLoop N s n i din) := by
  induction n with
  | zero =>
    intro i din hd _
    refine ⟨hd, fun j hj => ?_⟩
    simp [barrelLoop, Nat.mod_one, Nat.mod_eq_of_lt hj]
  | succ n ih =>
    intro i din hd hk
    have h1 := shiftLayer_rot (s := s) hd (hk i (by omega))
    have h2 := ih (i := i + 1) h1.1 (fun k hk' => hk k (by omega))
    have h3 := rot_comp h1 h2
    have e : (if s.testBit i then 2 ^ i else 0) + s / 2 ^ (i + 1) % 2 ^ n * 2 ^ (i + 1) = s / 2 ^ i % 2 ^ (n + 1) * 2 ^ i := by
      have hs : s / 2 ^ (i + 1) = s / 2 ^ i / 2 := by rw [pow_succ, Nat.div_div_eq_div_mul]
      have hm : s / 2 ^ i % 2 ^ (n + 1) = s / 2 ^ i % 2 + 2 * (s / 2 ^ i / 2 % 2 ^ n) := by
        rw [pow_succ, mul_comm, Nat.mod_mul]
      have hb : (if s.testBit i then 2 ^ i else 0) = s / 2 ^ i % 2 * 2 ^ i := by
        rw [Nat.testBit_eq_decide_div_mod_eq]
        rcases Nat.mod_two_eq_zero_or_one (s / 2 ^ i) with h | h <;> simp [h]
      rw [hb, hs, hm]; ring
    rw [e] at h3
    exact h3

theorem barrelShift_rot {N din s : ℕ} (hN : 1 ≤ N) (hd : din < 2 ^ N) (hs : s < 2 ^ nbits (N - 1)) :
    Spec.RotR N din s (barrelShift N din s) := by
  have h := barrelLoop_rot (N := N) (s := s) (nbits (N - 1)) (i := 0) hd (by
    intro k hk
    rcases Nat.eq_or_lt_of_le hN with h1 | h1
    · subst h1
      simp [nbits] at hk; subst hk; norm_num
    · exact le_trans (two_pow_nbits_le (n := N - 1) (by omega) (by omega)) (by omega))
  unfold barrelShift
  simpa [Nat.mod_eq_of_lt hs] using h

theorem rot_unique {N x s y z : ℕ} (h1 : Spec.RotR N x s y) (h2 : Spec.RotR N x s z) : y = z := by
  apply Nat.eq_of_testBit_eq
  intro j
  rcases lt_or_ge j N with h | h
  · rw [h1.2 j h, h2.2 j h]
  · have hp : 2 ^ N ≤ 2 ^ j := Nat.pow_le_pow_right (by norm_num) h
    rw [Nat.testBit_lt_two_pow (lt_of_lt_of_le h1.1 hp), Nat.testBit_lt_two_pow (lt_of_lt_of_le h2.1 hp)]

theorem rot_mod {N x s y : ℕ} : Spec.RotR N x (s % N) y ↔ Spec.RotR N x s y := by
  simp [Spec.RotR]

/-! ## searches -/

theorem leadingSignU_eq_W {W x : ℕ} (hW : 1 ≤ W) : leadingSignU W x = W ↔ x = 0 := by
  unfold leadingSignU
  split_ifs with h
  · simp [h]
  · constructor
    · intro h'; omega
    · intro h'; exact absurd h' h

theorem lead1_spec {RB W x : ℕ} (hW : 1 ≤ W) (hx : x < 2 ^ W) (hRB : W - 1 < 2 ^ RB) :
    ((lead1 RB W x).1 = true ↔ ∃ j < W, x.testBit j = true) ∧
    ((lead1 RB W x).1 = true → Spec.Highest true W x (lead1 RB W x).2) ∧
    ((lead1 RB W x).1 = false → (lead1 RB W x).2 = 0) := by
  by_cases h0 : x = 0
  · subst h0
    simp [lead1, leadingSignU]
  · have hl : Nat.log2 x < W := (Nat.log2_lt h0).mpr hx
    have hls : leadingSignU W x = W - 1 - Nat.log2 x := by simp [leadingSignU, h0]
    have h1 : (lead1 RB W x).1 = true := by simp [lead1, hls]; omega
    have h2 : (lead1 RB W x).2 = Nat.log2 x := by
      have : ¬ W - 1 - Nat.log2 x = W := by omega
      simp only [lead1, hls, this, if_false]
      rw [Nat.mod_eq_of_lt (by omega)]; omega
    have hb := Nat.testBit_log2 h0
    refine ⟨⟨fun _ => ⟨_, hl, hb⟩, fun _ => h1⟩, fun _ => ⟨by rw [h2]; exact hl, by rw [h2]; exact hb, ?_⟩, fun h => by simp [h1] at h⟩
    intro j hj _
    rw [h2] at hj
    rw [Nat.testBit_lt_two_pow (lt_of_lt_of_le Nat.lt_log2_self (Nat.pow_le_pow_right (by norm_num) hj))]
    simp

theorem rev_lt (W x : ℕ) : rev W x < 2 ^ W := Nat.ofBits_lt_two_pow _

theorem rev_testBit {W x i : ℕ} (hi : i < W) : (rev W x).testBit i = x.testBit (W - 1 - i) := by
  unfold rev; rw [Nat.testBit_ofBits_lt _ _ hi]

theorem trail1_spec {RB W x : ℕ} (hW : 1 ≤ W) (hRB : W - 1 < 2 ^ RB) :
    ((trail1 RB W x).1 = true ↔ ∃ j < W, x.testBit j = true) ∧
    ((trail1 RB W x).1 = true → Spec.Lowest true W x (trail1 RB W x).2) ∧
    ((trail1 RB W x).1 = false → (trail1 RB W x).2 = 0) := by
  obtain ⟨h1, h2, h3⟩ := lead1_spec (RB := RB) hW (rev_lt W x) hRB
  have hf : (trail1 RB W x).1 = (lead1 RB W (rev W x)).1 := rfl
  have hex : (∃ j < W, (rev W x).testBit j = true) ↔ ∃ j < W, x.testBit j = true := by
    constructor
    · rintro ⟨j, hj, h⟩
      exact ⟨W - 1 - j, by omega, by rwa [rev_testBit hj] at h⟩
    · rintro ⟨j, hj, h⟩
      refine ⟨W - 1 - j, by omega, ?_⟩
      rw [rev_testBit (by omega)]
      rwa [show W - 1 - (W - 1 - j) = j by omega]
  refine ⟨by rw [hf, h1, hex], ?_, ?_⟩
  · intro h
    rw [hf] at h
    have a := h2 h
    clear h1 h2 h3 hex
    have hne : leadingSignU W (rev W x) ≠ W := by
      intro h'; simp [lead1, h'] at h
    have hle : leadingSignU W (rev W x) ≤ W - 1 := by
      unfold leadingSignU at hne ⊢
      split_ifs with hz
      · simp [hz] at hne
      · omega
    have hr : (trail1 RB W x).2 = W - 1 - (lead1 RB W (rev W x)).2 := by
      simp only [trail1, lead1, hne, if_false]
      rw [Nat.mod_eq_of_lt (by omega), Nat.mod_eq_of_lt (by omega)]; omega
    obtain ⟨a1, a2, a3⟩ := a
    rw [rev_testBit a1, ← hr] at a2
    refine ⟨by rw [hr]; omega, a2, ?_⟩
    intro j hj
    have := a3 (W - 1 - j) (by omega) (by omega)
    rw [rev_testBit (by omega), show W - 1 - (W - 1 - j) = j by omega] at this
    exact this
  · intro h
    have h' : leadingSignU W (rev W x) = W := by
      by_contra hne
      simp [trail1, Ne.symm hne] at h
    simp [trail1, h']

theorem compl_testBit {W x i : ℕ} (hx : x < 2 ^ W) (hi : i < W) : (compl W x).testBit i = !x.testBit i := by
  unfold compl
  have := Nat.testBit_two_pow_sub_succ hx i
  rw [show 2 ^ W - 1 - x = 2 ^ W - (x + 1) by omega, this]
  simp [hi]

theorem compl_lt (W x : ℕ) : compl W x < 2 ^ W := by
  have := Nat.two_pow_pos W
  unfold compl; omega

theorem lead0_spec {RB W x : ℕ} (hW : 1 ≤ W) (hx : x < 2 ^ W) (hRB : W - 1 < 2 ^ RB) :
    ((lead0 RB W x).1 = true ↔ ∃ j < W, x.testBit j = false) ∧
    ((lead0 RB W x).1 = true → Spec.Highest false W x (lead0 RB W x).2) ∧
    ((lead0 RB W x).1 = false → (lead0 RB W x).2 = 0) := by
  obtain ⟨h1, h2, h3⟩ := lead1_spec (RB := RB) hW (compl_lt W x) hRB
  refine ⟨?_, ?_, h3⟩
  · show (lead1 RB W (compl W x)).1 = true ↔ _
    rw [h1]
    constructor
    · rintro ⟨j, hj, h⟩; exact ⟨j, hj, by rw [compl_testBit hx hj] at h; simpa using h⟩
    · rintro ⟨j, hj, h⟩; exact ⟨j, hj, by rw [compl_testBit hx hj]; simpa using h⟩
  · intro h
    obtain ⟨a1, a2, a3⟩ := h2 h
    refine ⟨a1, by rw [compl_testBit hx a1] at a2; exact Bool.not_eq_true' _ ▸ a2, ?_⟩
    intro j hj hjW
    have := a3 j hj hjW
    rw [compl_testBit hx hjW] at this
    simpa using this

theorem trail0_spec {RB W x : ℕ} (hW : 1 ≤ W) (hx : x < 2 ^ W) (hRB : W - 1 < 2 ^ RB) :
    ((trail0 RB W x).1 = true ↔ ∃ j < W, x.testBit j = false) ∧
    ((trail0 RB W x).1 = true → Spec.Lowest false W x (trail0 RB W x).2) ∧
    ((trail0 RB W x).1 = false → (trail0 RB W x).2 = 0) := by
  obtain ⟨h1, h2, h3⟩ := trail1_spec (RB := RB) (x := compl W x) hW hRB
  refine ⟨?_, ?_, h3⟩
  · show (trail1 RB W (compl W x)).1 = true ↔ _
    rw [h1]
    constructor
    · rintro ⟨j, hj, h⟩; exact ⟨j, hj, by rw [compl_testBit hx hj] at h; simpa using h⟩
    · rintro ⟨j, hj, h⟩; exact ⟨j, hj, by rw [compl_testBit hx hj]; simpa using h⟩
  · intro h
    obtain ⟨a1, a2, a3⟩ := h2 h
    refine ⟨a1, by rw [compl_testBit hx a1] at a2; exact Bool.not_eq_true' _ ▸ a2, ?_⟩
    intro j hj
    have := a3 j hj
    rw [compl_testBit hx (by unfold trail0 at hj; omega)] at this
    simpa using this

/-! ## abs -/

theorem absMag_eq {XW : ℕ} (hXW : 1 ≤ XW) {x : ℤ} (h0 : -2 ^ (XW - 1) ≤ x) (h1 : x < 2 ^ (XW - 1)) :
    absMag XW x = |x| := by
  have e := two_pow_succ_pred hXW
  have hp := two_pow_pos' (XW - 1)
  unfold absMag
  by_cases h : x < 0
  · have hn : ~~~x = -x - 1 := by
      show Int.not x = _
      cases x <;> simp [Int.not] at * <;> omega
    have hw1 : wrap 1 false (-1) = 1 := by decide
    simp only [h, if_true, hn, hw1]
    rw [if_neg (by norm_num), wrapS_of_range hXW (by linarith) (by linarith), abs_of_neg h,
      wrapU_of_lt (by linarith) (by linarith)]
    ring
  · have hw0 : wrap 1 false 0 = 0 := by decide
    simp only [h, if_false, hw0, if_true]
    rw [wrapS_of_range hXW (by linarith) (by linarith), abs_of_nonneg (by linarith),
      wrapU_of_lt (by linarith) (by linarith)]
    ring

end Model.Bits

/-! ## the template leading-one detector -/

namespace Model.Bits
open Ac

theorem nbits_mono {m n : ℕ} (h : m ≤ n) : nbits m ≤ nbits n := by
  unfold nbits
  split_ifs with h1 h2 h2
  · exact le_refl _
  · omega
  · omega
  · have : m.log2 ≤ n.log2 := (Nat.le_log2 h2).mpr (le_trans (Nat.log2_self_le h1) h)
    omega

theorem nbits_lt_self {N : ℕ} (hN : 2 ≤ N) : nbits ((N + 1) / 2) < N ∧ 1 ≤ nbits ((N + 1) / 2) := by
  have h0 : (N + 1) / 2 ≠ 0 := by omega
  unfold nbits
  rw [if_neg h0]
  have h1 := Nat.log2_self_le h0
  have h2 : ((N + 1) / 2).log2 < 2 ^ ((N + 1) / 2).log2 := Nat.lt_two_pow_self
  omega

theorem leadingOnesAux_fuel : ∀ (f N d : ℕ), N ≤ f → leadingOnesAux f N d = leadingOnesAux N N d := by
  intro f
  induction f using Nat.strong_induction_on with
  | _ f ih =>
    intro N d hN
    rcases Nat.eq_zero_or_pos f with h | h
    · have : N = 0 := by omega
      subst h; subst this; rfl
    obtain ⟨f, rfl⟩ : ∃ g, f = g + 1 := ⟨f - 1, by omega⟩
    rcases Nat.eq_zero_or_pos N with h' | h'
    · subst h'; simp [leadingOnesAux]
    obtain ⟨N, rfl⟩ : ∃ g, N = g + 1 := ⟨N - 1, by omega⟩
    by_cases h1 : N + 1 ≤ 1
    · simp [leadingOnesAux, h1]
    · obtain ⟨hp1, hp2⟩ := nbits_lt_self (N := N + 1) (by omega)
      simp only [leadingOnesAux, h1, if_false]
      rw [ih f (by omega) _ _ (by omega), ih f (by omega) (nbits ((N + 1 + 1) / 2)) _ (by omega),
        ← ih N (by omega) _ _ (by omega : N + 1 - nbits ((N + 1 + 1) / 2) ≤ N),
        ← ih N (by omega) _ _ (by omega : nbits ((N + 1 + 1) / 2) ≤ N)]

/-- On a word below `2^P2` the detector is the detector of the low part. -/
theorem leadingOnes_low {N d : ℕ} (hN : 2 ≤ N) (hd : d < 2 ^ nbits ((N + 1) / 2)) :
    (leadingOnes N d).2 = (leadingOnes (nbits ((N + 1) / 2)) d).2 % 2 ^ log2Ceil N := by
  obtain ⟨hp1, hp2⟩ := nbits_lt_self hN
  obtain ⟨n, rfl⟩ : ∃ g, N = g + 1 := ⟨N - 1, by omega⟩
  have h1 : ¬ n + 1 ≤ 1 := by omega
  unfold leadingOnes
  rw [leadingOnesAux]
  simp only [h1, if_false]
  rw [Nat.div_eq_of_lt hd, Nat.zero_mod, Nat.mod_eq_of_lt hd]
  simp only [ne_eq, not_true, if_false]
  rw [leadingOnesAux_fuel n _ _ (by omega)]

theorem two_pow_log2Ceil_ge {m : ℕ} (hm : 1 ≤ m) : m ≤ 2 ^ log2Ceil m := by
  unfold log2Ceil
  split_ifs with h
  · simpa using h
  · have := Nat.lt_log2_self (n := m - 1)
    omega

theorem log2Ceil_mono {m n : ℕ} (h : m ≤ n) : log2Ceil m ≤ log2Ceil n := by
  unfold log2Ceil
  split_ifs with h1 h2 h2
  · exact le_refl _
  · omega
  · omega
  · have : (m - 1).log2 ≤ (n - 1).log2 := (Nat.le_log2 (by omega)).mpr (le_trans (Nat.log2_self_le (by omega)) (by omega))
    omega

theorem leadingOnes_lt {N d : ℕ} : (leadingOnes N d).2 < 2 ^ log2Ceil N := by
  unfold leadingOnes
  rcases Nat.eq_zero_or_pos N with h | h
  · subst h; simp [leadingOnesAux]
  obtain ⟨n, rfl⟩ : ∃ g, N = g + 1 := ⟨N - 1, by omega⟩
  rw [leadingOnesAux]
  split_ifs with h1
  · simp
  · simp only
    split_ifs
    · exact Nat.mod_lt _ (Nat.two_pow_pos _)
    · exact Nat.mod_lt _ (Nat.two_pow_pos _)

theorem leadingOnes_wrong (N : ℕ) (hN : 5 ≤ N) : ∃ j < N, (leadingOnes N (2 ^ j)).2 ≠ j := by
  induction N using Nat.strong_induction_on with
  | _ N ih =>
    rcases le_or_gt N 30 with h | h
    · have key : ∀ N ≤ 30, 5 ≤ N → ∃ j < N, (leadingOnes N (2 ^ j)).2 ≠ j := by decide +kernel
      exact key N h hN
    · obtain ⟨hp1, hp2⟩ := nbits_lt_self (N := N) (by omega)
      have h5 : 5 ≤ nbits ((N + 1) / 2) := by
        have : nbits 16 ≤ nbits ((N + 1) / 2) := nbits_mono (by omega)
        have e : nbits 16 = 5 := by decide
        omega
      obtain ⟨j, hj, hne⟩ := ih _ hp1 h5
      refine ⟨j, by omega, ?_⟩
      rw [leadingOnes_low (by omega) (Nat.pow_lt_pow_right (by norm_num) hj), Nat.mod_eq_of_lt]
      · exact hne
      · exact lt_of_lt_of_le leadingOnes_lt (Nat.pow_le_pow_right (by norm_num) (log2Ceil_mono (by omega)))

end Model.Bits
