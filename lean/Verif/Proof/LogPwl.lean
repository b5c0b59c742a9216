import Verif.Proof.PwlNorm

/-! # Lemmas for C34 -/

namespace Proof.LogPwl
open Ac Model.Pwl Model.PwlFixed Model.Normalize Proof.Pwl Proof.PwlFixed Proof.Shift

/-- The value for the normalized input `n`. -/
def g (n : ℚ) : ℚ := pw (tab logM 11) (tab logC 11) (trunc 11 ((n - 1 / 2) * 16))

theorem g_mono {a b : ℚ} (h0 : 1 / 2 ≤ a) (h : a ≤ b) (h1 : b < 1) : g a ≤ g b := by
  refine pw_mono (n := 8) (by decide +kernel) ?_ (trunc_nonneg _ (by linarith)) (trunc_mono _ (by linarith)) ?_
  · intro i hi
    have : ∀ i < 7, tab logC 11 i + tab logM 11 i ≤ tab logC 11 (i + 1) := by decide +kernel
    exact this i (by omega)
  · have := trunc_le 11 ((b - 1 / 2) * 16)
    norm_num; linarith

theorem g_cell {n : ℚ} (h0 : 1 / 2 ≤ n) (h1 : n < 1) : ∃ k : ℕ, k < 16384 ∧ g n = segRaw logM logC 11 k / 2 ^ 22 ∧
    -2045 * 2 ^ 11 ≤ segRaw logM logC 11 k ∧ segRaw logM logC 11 k ≤ 1 * 2 ^ 11 := by
  obtain ⟨k, hk, ht, l1, l2⟩ := cell (N := 11) (ib := 3) (v := (n - 1 / 2) * 16) (by linarith) (by linarith)
  have hk' : k < 16384 := by norm_num at hk; exact hk
  obtain ⟨b1, b2⟩ := segRaw_bounds (m := logM) (c := logC) (n := 11) (k := k) (N := 8) (lo := -2045) (hi := 1)
    (by norm_num; exact hk') (by decide +kernel)
  exact ⟨k, hk', by unfold g; rw [ht, pw_tab], b1, b2⟩

theorem g_bounds {n : ℚ} (h0 : 1 / 2 ≤ n) (h1 : n < 1) : -2045 / 2048 ≤ g n ∧ g n ≤ 1 / 2048 := by
  obtain ⟨k, -, hg, b1, b2⟩ := g_cell h0 h1
  have c1 : ((-2045 * 2 ^ 11 : ℤ) : ℚ) ≤ (segRaw logM logC 11 k : ℚ) := by exact_mod_cast b1
  have c2 : (segRaw logM logC 11 k : ℚ) ≤ ((1 * 2 ^ 11 : ℤ) : ℚ) := by exact_mod_cast b2
  push_cast at c1 c2
  rw [hg]
  constructor
  · rw [le_div_iff₀ (by norm_num)]; linarith
  · rw [div_le_iff₀ (by norm_num)]; linarith

/-- The result before it is converted to the output type. -/
def core (cn : Bool) (f : Fmt) (x : ℚ) : ℚ := g (norm cn f x).1 + (norm cn f x).2

theorem core_mono {cn : Bool} {f : Fmt} (hW : 1 ≤ f.W) (hS : f.S = false) {x x' : ℚ} (hx : f.Rep x)
    (hx' : f.Rep x') (h : 0 < x) (hc : cn = true ∨ 2 ^ (f.I - 1) ≤ x) (hle : x ≤ x') : core cn f x ≤ core cn f x' := by
  obtain ⟨a1, a2, a3, -⟩ := norm_pos hW hS hx h hc 3
  obtain ⟨b1, b2, b3, -⟩ := norm_pos (cn := cn) hW hS hx' (by linarith) (hc.imp_right (fun h => le_trans h hle)) 3
  unfold core
  generalize norm cn f x = ne at *
  generalize norm cn f x' = ne' at *
  obtain ⟨n, e⟩ := ne
  obtain ⟨n', e'⟩ := ne'
  simp only at a1 a2 a3 b1 b2 b3 ⊢
  have he : e ≤ e' := exp_le_of_le a2 b3 (by rw [← a1, ← b1]; exact hle)
  rcases eq_or_lt_of_le he with h1 | h1
  · subst h1
    have hn : n ≤ n' := by
      rw [a1, b1] at hle
      exact le_of_mul_le_mul_right hle (Fmt.z_pos e)
    have := g_mono a2 hn b3
    linarith
  · have h2 : ((e + 1 : ℤ) : ℚ) ≤ e' := by exact_mod_cast h1
    push_cast at h2
    have := (g_bounds a2 a3).2
    have := (g_bounds b2 b3).1
    linarith

/-- The result depends on the value of the input only, and on its exponent by an addition. -/
theorem core_shift {cn cn' : Bool} {f f' : Fmt} (hW : 1 ≤ f.W) (hW' : 1 ≤ f'.W) (hS : f.S = false) (hS' : f'.S = false) {x x' : ℚ}
    (hx : f.Rep x) (hx' : f'.Rep x') (h : 0 < x) (hc : cn = true ∨ 2 ^ (f.I - 1) ≤ x) (hc' : cn' = true ∨ 2 ^ (f'.I - 1) ≤ x') {k : ℤ}
    (hk : x' = x * 2 ^ k) : core cn' f' x' = core cn f x + k := by
  have h' : 0 < x' := by rw [hk]; exact mul_pos h (Fmt.z_pos k)
  obtain ⟨a1, a2, a3, -⟩ := norm_pos hW hS hx h hc 3
  obtain ⟨b1, b2, b3, -⟩ := norm_pos hW' hS' hx' h' hc' 3
  unfold core
  generalize norm cn f x = ne at *
  generalize norm cn' f' x' = ne' at *
  obtain ⟨n, e⟩ := ne
  obtain ⟨n', e'⟩ := ne'
  simp only at a1 a2 a3 b1 b2 b3 ⊢
  have heq : n' * 2 ^ e' = n * 2 ^ (e + k) := by rw [← b1, hk, a1, mul_assoc, Fmt.z_add]
  have he : e' = e + k := le_antisymm (exp_le_of_le b2 a3 heq.le) (exp_le_of_le a2 b3 heq.ge)
  rw [he] at heq
  have hn : n' = n := mul_right_cancel₀ (Fmt.z_pos _).ne' heq
  rw [hn, he]; push_cast; ring

theorem log2_eq (q : QMode) (cn : Bool) {f out : Fmt} (hW : 1 ≤ f.W) (hS : f.S = false) {x : ℚ} (hx : f.Rep x) (h : 0 < x)
    (hc : cn = true ∨ 2 ^ (f.I - 1) ≤ x) : log2 q cn f out x = some (out.cvt (core cn f x)) := by
  obtain ⟨a1, a2, a3, -⟩ := norm_pos hW hS hx h hc 3
  unfold log2 core
  generalize norm cn f x = ne at *
  obtain ⟨n, e⟩ := ne
  simp only at a1 a2 a3 ⊢
  rw [segVal_eq (m := logM) (c := logC) (ib := 3) rfl rfl 11 11 (by linarith) (by linarith)]
  simp only [Option.bind_eq_bind, Option.bind_some, h.ne', if_false]
  have hg : pw (tab logM 11) (tab logC 11) (trunc 11 ((n - 1 / 2) * 16)) = g n := rfl
  rw [hg]
  obtain ⟨k, -, hk, b1, b2⟩ := g_cell a2 a3
  obtain ⟨w1, -, -⟩ := cvt_word (f := ⟨23, 1, true, q, .WRAP⟩) (by simp) (n := 22) (by simp [Fmt.F]) rfl (k := segRaw logM logC 11 k)
    (by simp only [minRaw, if_true]; norm_num at b1 ⊢; linarith) (by simp only [maxRaw, if_true]; norm_num at b2 ⊢; linarith)
  rw [hk, w1]

theorem log2_some (q : QMode) (cn : Bool) (f out : Fmt) (x : ℚ) : ∃ y, log2 q cn f out x = some y ∧ (x = 0 → y = out.minVal) := by
  unfold log2
  obtain ⟨y, hy⟩ := segVal_isSome (m := logM) (c := logC) (ib := 3) rfl rfl 11 11 (((norm cn f x).1 - 1 / 2) * 16)
  simp only [hy, Option.bind_eq_bind, Option.bind_some]
  refine ⟨_, rfl, ?_⟩
  intro h; rw [if_pos h]

/-- The bounds of the exponent. -/
theorem norm_exp {f : Fmt} (hW : 1 ≤ f.W) (hS : f.S = false) {x : ℚ} (hx : f.Rep x) (h : 0 < x) :
    f.I - f.W < (norm true f x).2 ∧ (norm true f x).2 ≤ f.I := by
  obtain ⟨a1, a2, a3, -⟩ := norm_pos (cn := true) hW hS hx h (Or.inl rfl) 3
  obtain ⟨r, r0, r1, rfl⟩ := hx
  have hr : 0 < r := by
    have : f.val 0 < f.val r := by simpa [Fmt.val] using h
    exact Fmt.val_lt.1 this
  simp only [norm, if_true, Fmt.raw_val] at a1 a2 a3 ⊢
  obtain ⟨ls, b1, b2⟩ := normalize_shift hW hS hr r1
  refine ⟨?_, by rw [b2]; omega⟩
  by_contra hc
  have h2 := Fmt.z_le (not_lt.1 hc)
  have h3 : f.val r < 2 ^ (f.I - f.W : ℤ) := by
    rw [a1]
    have := mul_lt_mul_of_pos_right a3 (Fmt.z_pos (normalize f r).2)
    linarith
  unfold Fmt.val Fmt.F at h3
  rw [show -((f.W : ℤ) - f.I) = f.I - f.W by ring] at h3
  have h4 : ((r : ℤ) : ℚ) < 1 := by
    have := Fmt.z_pos (f.I - f.W)
    by_contra h5
    have := mul_le_mul_of_nonneg_right (not_lt.1 h5) this.le
    linarith
  have : r < 1 := by exact_mod_cast h4
  omega

end Proof.LogPwl
