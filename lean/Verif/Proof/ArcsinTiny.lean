import Verif.Proof.ArcsinOut
import Verif.Proof.SincosReal

/-! # The arcsine and the arccosine for outputs of one to five fraction bits

The argument is truncated to at most 13 bits, so that the loop can be run for all of them. -/

namespace Proof.Arcsin
open Ac Model.Arcsin
open Proof.Sincos (ec es θ rc rs table_err)

variable {p g : ℕ}

/-- `x`, `y`, `tn` and `theta` in units. -/
abbrev Quad := ℤ × ℤ × ℤ × ℤ

/-- A power of two. -/
def pw (k : ℕ) : ℤ := Int.ofNat (Nat.pow 2 k)

@[inherit_doc pw] def pw10 (k : ℕ) : ℤ := Int.ofNat (Nat.pow 10 k)

theorem pw_eq (k : ℕ) : pw k = 2 ^ k := by
  unfold pw
  rw [Int.ofNat_eq_natCast, Nat.pow_eq]; push_cast; rfl

/-- `|z| < 2^k` -/
def small (z : ℤ) (k : ℕ) : Bool := Nat.blt z.natAbs (Nat.pow 2 k)

theorem small_iff {z : ℤ} {k : ℕ} : small z k = true ↔ |z| < 2 ^ k := by
  unfold small
  rw [Nat.blt_eq, Nat.pow_eq, Int.abs_eq_natAbs]
  exact_mod_cast Iff.rfl

/-- `0 ≤ z` -/
def nn (z : ℤ) : Bool := match z with | .ofNat _ => true | .negSucc _ => false

theorem nn_eq (z : ℤ) : nn z = decide (0 ≤ z) := by
  unfold nn
  cases z with
  | ofNat a => simp
  | negSucc a => simp

/-- Evaluates `z` before the rest of a computation. -/
def force {α : Type} (z : ℤ) (k : ℤ → α) : α := match z with | .ofNat a => k (.ofNat a) | .negSucc a => k (.negSucc a)

theorem force_eq {α : Type} (z : ℤ) (k : ℤ → α) : force z k = k z := by cases z <;> rfl

def iselSin (x y n : ℤ) : Bool := cond (nn (Int.sub n y)) (nn x) (not (nn x))

def iselCos (x y n : ℤ) : Bool := cond (nn (Int.sub x n)) (nn y) (not (nn y))

/-- One step in integers, which fails if a variable leaves its range. -/
def istep (p g : ℕ) (f : ℤ → ℤ → ℤ → Bool) (i : ℕ) (s : Quad) (k : Quad → Bool) : Bool :=
  match s with
  | (x, y, n, t) =>
    let yd := Int.ediv y (pw (i - 1))
    let xd := Int.ediv x (pw (i - 1))
    let x' := Int.sub x (Int.ediv x (pw (2 * i)))
    let y' := Int.sub y (Int.ediv y (pw (2 * i)))
    let n' := Int.add n (Int.ediv n (pw (2 * i)))
    let a := Int.ediv (T i) (pw (128 - p))
    match f x y n with
    | true => force (Int.sub x' yd) fun X => force (Int.add y' xd) fun Y => force n' fun N => force (Int.add t a) fun Θ =>
        and (small X (p + 4)) (and (small Y (p + 4)) (and (small N (p + 4)) (and (small Θ (p + g - 1)) (k (X, Y, N, Θ)))))
    | false => force (Int.add x' yd) fun X => force (Int.sub y' xd) fun Y => force n' fun N => force (Int.sub t a) fun Θ =>
        and (small X (p + 4)) (and (small Y (p + 4)) (and (small N (p + 4)) (and (small Θ (p + g - 1)) (k (X, Y, N, Θ)))))

/-- `m` steps from step `i` on. -/
def irun (p g : ℕ) (f : ℤ → ℤ → ℤ → Bool) (k : Quad → Bool) : ℕ → ℕ → Quad → Bool
  | 0, _, s => k s
  | m + 1, i, s => istep p g f i s (irun p g f k m (i + 1))

theorem istep_ok {f : ℤ → ℤ → ℤ → Bool} {i : ℕ} {x y n t : ℤ} {k : Quad → Bool} (h : istep p g f i (x, y, n, t) k = true) :
    let σ := sg (f x y n)
    let X := x - x / 2 ^ (2 * i) - σ * (y / 2 ^ (i - 1))
    let Y := y - y / 2 ^ (2 * i) + σ * (x / 2 ^ (i - 1))
    let N := n + n / 2 ^ (2 * i)
    let Θ := t + σ * dang p i
    |X| < 2 ^ (p + 4) ∧ |Y| < 2 ^ (p + 4) ∧ |N| < 2 ^ (p + 4) ∧ |Θ| < 2 ^ (p + g - 1) ∧ k (X, Y, N, Θ) = true := by
  have d : ∀ z : ℤ, ∀ k, Int.ediv z (pw k) = z / 2 ^ k := fun z k => by rw [pw_eq]; rfl
  have d1 : ∀ z w : ℤ, Int.sub z w = z - w := fun _ _ => rfl
  have d2 : ∀ z w : ℤ, Int.add z w = z + w := fun _ _ => rfl
  unfold istep at h
  dsimp only at h
  unfold sg dang
  cases c : f x y n <;> rw [c] at h <;> simp only [force_eq, Bool.and_eq_true, small_iff, d, d1, d2] at h <;>
    simpa [sub_eq_add_neg] using h

def toSt (p g : ℕ) (x y n t : ℤ) : St := ⟨(dp p).val x, (dp p).val y, (dp p).val n, (dpTheta p g).val t⟩

theorem sel_sin (hp : p ≤ 20) (x y n t : ℤ) : selSin p (toSt p g x y n t) = iselSin x y n := by
  have z : (0 : ℚ) = (dp p).val 0 := by simp [Fmt.val]
  have d1 : Int.sub n y = n - y := rfl
  unfold selSin iselSin toSt
  simp only []
  rw [if_neg (by omega), z]
  simp only [Fmt.val_le, Fmt.val_lt, nn_eq, d1, Int.sub_nonneg]
  by_cases c1 : y ≤ n <;> by_cases c2 : 0 ≤ x <;> simp [c1, c2] <;> omega

theorem sel_cos (x y n t : ℤ) : selCos (toSt p g x y n t) = iselCos x y n := by
  have z : (0 : ℚ) = (dp p).val 0 := by simp [Fmt.val]
  have d1 : Int.sub x n = x - n := rfl
  unfold selCos iselCos toSt
  simp only []
  rw [z]
  simp only [Fmt.val_le, Fmt.val_lt, nn_eq, d1, Int.sub_nonneg]
  by_cases c1 : n ≤ x <;> by_cases c2 : 0 ≤ y <;> simp [c1, c2] <;> omega

theorem irun_ok (h1 : 1 ≤ p) (hp : p ≤ 128) (hg : 1 ≤ g) {f : ℤ → ℤ → ℤ → Bool} {sel : St → Bool}
    (hf : ∀ x y n t, sel (toSt p g x y n t) = f x y n) {k : Quad → Bool} (s0 : Option St) :
    ∀ m i : ℕ, 1 ≤ i → i + m ≤ 130 → ∀ x y n t, |x| < 2 ^ (p + 4) → |y| < 2 ^ (p + 4) → |n| < 2 ^ (p + 4) →
      forUp (fun i s => s.bind fun s => rotate p g i (sel s) s) i s0 = some (toSt p g x y n t) → irun p g f k m i (x, y, n, t) = true →
      ∃ x' y' n' t', forUp (fun i s => s.bind fun s => rotate p g i (sel s) s) (i + m) s0 = some (toSt p g x' y' n' t') ∧
        k (x', y', n', t') = true := by
  intro m
  induction m with
  | zero =>
    intro i _ _ x y n t _ _ _ h0 h
    exact ⟨x, y, n, t, h0, h⟩
  | succ m ih =>
    intro i hi hm x y n t hx hy hn h0 h
    rw [irun] at h
    obtain ⟨c1, c2, c3, c4, c5⟩ := istep_ok h
    rw [show i + (m + 1) = (i + 1) + m by omega]
    refine ih (i + 1) (by omega) (by omega) _ _ _ _ c1 c2 c3 ?_ c5
    rw [abs_lt] at c4
    rw [forUp, h0, Option.bind_some, hf]
    exact rotate_eq h1 hp hg hi (by omega) (f x y n) hx hy hn c1 c2 c3 c4.1.le c4.2

/-- The whole loop. -/
theorem loop_ok (h1 : 1 ≤ p) (hp : p ≤ 128) (hg : 1 ≤ g) {f : ℤ → ℤ → ℤ → Bool} {sel : St → Bool}
    (hf : ∀ x y n t, sel (toSt p g x y n t) = f x y n) {k : Quad → Bool} {t : ℚ} (ht : |t| ≤ 1) (hs : sel (start p g t) = true)
    (h : irun p g f k (p + 1) 1 (0, pw (p + 3), Int.mul 2 ⌊|t| * 2 ^ (p + 2)⌋, pw (p - 1)) = true) :
    ∃ x' y' n' t', forUp (fun i s => s.bind fun s => rotate p g i (sel s) s) (p + 2) (some (start p g t)) = some (toSt p g x' y' n' t') ∧
        k (x', y', n', t') = true := by
  obtain ⟨e, n0, n1⟩ := start_eq (p := p) hg ht
  have q1 : (2 : ℤ) ^ (p + 3) = 2 * 2 ^ (p + 2) := by rw [pow_succ]; ring
  have q2 : (2 : ℤ) ^ (p + 4) = 4 * 2 ^ (p + 2) := by rw [pow_add, pow_add]; ring
  have q0 : (0 : ℤ) < 2 ^ (p + 2) := by positivity
  have d : Int.mul 2 ⌊|t| * 2 ^ (p + 2)⌋ = 2 * ⌊|t| * 2 ^ (p + 2)⌋ := rfl
  rw [show p + 2 = 1 + (p + 1) by omega]
  rw [d, pw_eq, pw_eq] at h
  refine irun_ok h1 hp hg hf _ (p + 1) 1 le_rfl (by omega) _ _ _ _ ?_ ?_ ?_ ?_ h
  · simp
  · rw [abs_of_pos (by positivity)]; linarith
  · rw [abs_of_nonneg (by linarith)]; linarith
  · rw [forUp, forUp, Option.bind_some, hs, e]
    exact rotate_zero h1 hp hg n0 n1

/-- Upper and lower bounds of `10^30 sin (kπ/2048)`. -/
def hiS (k : ℕ) : ℤ :=
  Int.add (cond (Nat.blt k 512) (es k) (cond (Nat.beq k 512) (ec 511) (ec (Nat.sub 1024 k)))) (pw10 11)

@[inherit_doc hiS] def loS (k : ℕ) : ℤ :=
  Int.sub (cond (Nat.blt k 512) (es k) (cond (Nat.beq k 512) (es 511) (ec (Nat.sub 1024 k)))) (pw10 11)

theorem hiS_eq (k : ℕ) : hiS k = if k < 512 then es k + 10 ^ 11 else if k = 512 then ec 511 + 10 ^ 11 else ec (1024 - k) + 10 ^ 11 := by
  have d2 : ∀ z w : ℤ, Int.add z w = z + w := fun _ _ => rfl
  have d5 : pw10 11 = 10 ^ 11 := by decide +kernel
  unfold hiS
  rw [d2, d5]
  by_cases c : k < 512
  · rw [if_pos c, show Nat.blt k 512 = true by rw [Nat.blt_eq]; exact c]; rfl
  · have c' : Nat.blt k 512 = false := by rw [← Bool.not_eq_true, Nat.blt_eq]; exact c
    rw [if_neg c, c']
    by_cases c2 : k = 512
    · rw [if_pos c2, c2]; rfl
    · have c2' : Nat.beq k 512 = false := by rw [← Bool.not_eq_true, Nat.beq_eq]; exact c2
      rw [if_neg c2, c2']; rfl

theorem loS_eq (k : ℕ) : loS k = if k < 512 then es k - 10 ^ 11 else if k = 512 then es 511 - 10 ^ 11 else ec (1024 - k) - 10 ^ 11 := by
  have d2 : ∀ z w : ℤ, Int.sub z w = z - w := fun _ _ => rfl
  have d5 : pw10 11 = 10 ^ 11 := by decide +kernel
  unfold loS
  rw [d2, d5]
  by_cases c : k < 512
  · rw [if_pos c, show Nat.blt k 512 = true by rw [Nat.blt_eq]; exact c]; rfl
  · have c' : Nat.blt k 512 = false := by rw [← Bool.not_eq_true, Nat.blt_eq]; exact c
    rw [if_neg c, c']
    by_cases c2 : k = 512
    · rw [if_pos c2, c2]; rfl
    · have c2' : Nat.beq k 512 = false := by rw [← Bool.not_eq_true, Nat.beq_eq]; exact c2
      rw [if_neg c2, c2']; rfl

theorem sin_compl {k : ℕ} (hk : k ≤ 1024) : Real.cos (((1024 - k : ℕ) : ℝ) * θ) = Real.sin (k * θ) := by
  rw [← Real.cos_pi_div_two_sub]
  congr 1
  unfold θ
  rw [Nat.cast_sub hk]; push_cast; ring

theorem sin_mono {j k : ℕ} (h : j ≤ k) (hk : k ≤ 1024) : Real.sin (j * θ) ≤ Real.sin (k * θ) := by
  have hpi := Real.pi_pos
  have hj : (j : ℝ) ≤ k := by exact_mod_cast h
  have hk' : (k : ℝ) ≤ 1024 := by exact_mod_cast hk
  have j0 : (0 : ℝ) ≤ j := by positivity
  refine Real.sin_le_sin_of_le_of_le_pi_div_two ?_ ?_ ?_
  · have : 0 ≤ (j : ℝ) * θ := by unfold θ; positivity
    linarith
  · unfold θ
    have := mul_le_mul_of_nonneg_right hk' (show 0 ≤ Real.pi / 2048 by positivity)
    linarith
  · exact mul_le_mul_of_nonneg_right hj (by unfold θ; positivity)

theorem sin_bounds {k : ℕ} (hk : k ≤ 1024) : (loS k : ℝ) / 10 ^ 30 ≤ Real.sin (k * θ) ∧ Real.sin (k * θ) ≤ (hiS k : ℝ) / 10 ^ 30 := by
  have hs : ∀ {j : ℕ}, j < 512 → ((es j : ℝ) - 100000000000) / 10 ^ 30 ≤ Real.sin (j * θ) ∧ Real.sin (j * θ) ≤ ((es j : ℝ) + 100000000000) / 10 ^ 30 := by
    intro j hj
    have h := (table_err hj).2
    unfold rs at h
    rw [abs_le] at h
    rw [sub_div, add_div]
    have : (100000000000 : ℝ) / 10 ^ 30 = 1 / 10 ^ 19 := by norm_num
    rw [this]
    constructor <;> linarith [h.1, h.2]
  have hc : ∀ {j : ℕ}, j < 512 → ((ec j : ℝ) - 100000000000) / 10 ^ 30 ≤ Real.cos (j * θ) ∧ Real.cos (j * θ) ≤ ((ec j : ℝ) + 100000000000) / 10 ^ 30 := by
    intro j hj
    have h := (table_err hj).1
    unfold rc at h
    rw [abs_le] at h
    rw [sub_div, add_div]
    have : (100000000000 : ℝ) / 10 ^ 30 = 1 / 10 ^ 19 := by norm_num
    rw [this]
    constructor <;> linarith [h.1, h.2]
  rw [loS_eq, hiS_eq]
  by_cases c : k < 512
  · rw [if_pos c, if_pos c]; push_cast; exact hs c
  · rw [if_neg c, if_neg c]
    by_cases c2 : k = 512
    · rw [if_pos c2, if_pos c2]
      push_cast
      refine ⟨le_trans (hs (show 511 < 512 by norm_num)).1 (sin_mono (show 511 ≤ k by omega) hk), ?_⟩
      refine le_trans (sin_mono (show k ≤ 513 by omega) (show 513 ≤ 1024 by norm_num)) ?_
      rw [← sin_compl (show 513 ≤ 1024 by norm_num)]
      exact (hc (show 511 < 512 by norm_num)).2
    · rw [if_neg c2, if_neg c2]
      push_cast
      rw [← sin_compl hk]
      exact hc (show 1024 - k < 512 by omega)

/-- The angle `m`, in units of `π/2048`, is within `c` units of the arcsine of all numbers that are truncated to `n/2^F`. -/
def near (F : ℕ) (n m c : ℤ) : Bool :=
  force (Int.sub m c) fun d => force (Int.add m c) fun e =>
    and (or (nn (Int.neg d)) (and (nn (Int.sub 1024 d)) (nn (Int.sub (Int.mul n (pw10 30)) (Int.mul (hiS d.toNat) (pw F))))))
      (or (nn (Int.sub e 1024)) (and (nn e) (nn (Int.sub (Int.mul (loS e.toNat) (pw F)) (Int.mul (Int.add n 1) (pw10 30))))))

theorem near_iff {F : ℕ} {n m c : ℤ} : near F n m c = true ↔
    (m - c ≤ 0 ∨ (m - c ≤ 1024 ∧ hiS (m - c).toNat * 2 ^ F ≤ n * 10 ^ 30)) ∧
    (1024 ≤ m + c ∨ (0 ≤ m + c ∧ (n + 1) * 10 ^ 30 ≤ loS (m + c).toNat * 2 ^ F)) := by
  have d1 : ∀ z w : ℤ, Int.sub z w = z - w := fun _ _ => rfl
  have d2 : ∀ z w : ℤ, Int.add z w = z + w := fun _ _ => rfl
  have d3 : ∀ z w : ℤ, Int.mul z w = z * w := fun _ _ => rfl
  have d4 : ∀ z : ℤ, Int.neg z = -z := fun _ => rfl
  have d5 : pw10 30 = 10 ^ 30 := by decide +kernel
  unfold near
  simp only [force_eq, Bool.and_eq_true, Bool.or_eq_true, nn_eq, decide_eq_true_eq, d1, d2, d3, d4, d5, pw_eq, Int.sub_nonneg, Int.neg_nonneg]

theorem near_ok {F : ℕ} {x : ℝ} (h0 : 0 ≤ x) {n m c : ℤ} (hn : (n : ℝ) ≤ x * 2 ^ F) (hn' : x * 2 ^ F ≤ n + 1)
    (h : near F n m c = true) : |(m : ℝ) / 2048 - Real.arcsin x / Real.pi| ≤ c / 2048 := by
  have hpi := Real.pi_pos
  have hF : (0 : ℝ) < 2 ^ F := by positivity
  have ha0 := Real.arcsin_nonneg.2 h0
  have ha1 := Real.arcsin_le_pi_div_two x
  have eθ : ∀ z : ℝ, z * θ / Real.pi = z / 2048 := by intro z; unfold θ; field_simp
  rw [near_iff] at h
  obtain ⟨hl, hr⟩ := h
  rw [abs_le]
  constructor
  · suffices Real.arcsin x / Real.pi ≤ ((m : ℝ) + c) / 2048 by rw [add_div] at this; linarith
    rcases hr with hr | ⟨hr0, hr⟩
    · have : (1024 : ℝ) ≤ (m : ℝ) + c := by exact_mod_cast hr
      have h2 : Real.arcsin x / Real.pi ≤ 1 / 2 := by rw [div_le_iff₀ hpi]; linarith
      linarith
    · obtain ⟨k, hk⟩ := Int.eq_ofNat_of_zero_le hr0
      by_cases c1 : 1024 ≤ k
      · have : (1024 : ℝ) ≤ (m : ℝ) + c := by exact_mod_cast (by omega : (1024 : ℤ) ≤ m + c)
        have h2 : Real.arcsin x / Real.pi ≤ 1 / 2 := by rw [div_le_iff₀ hpi]; linarith
        linarith
      rw [hk, Int.toNat_natCast] at hr
      have hb := (sin_bounds (show k ≤ 1024 by omega)).1
      have hr' : ((n : ℝ) + 1) * 10 ^ 30 ≤ loS k * 2 ^ F := by exact_mod_cast hr
      have hx : x ≤ Real.sin (k * θ) := by
        refine le_trans ?_ hb
        rw [le_div_iff₀ (by positivity)]
        have : x * 2 ^ F * 10 ^ 30 ≤ loS k * 2 ^ F := le_trans (mul_le_mul_of_nonneg_right hn' (by positivity)) hr'
        have e : x * 10 ^ 30 * 2 ^ F ≤ loS k * 2 ^ F := by linarith
        exact le_of_mul_le_mul_right e hF
      have k1 : (k : ℝ) ≤ 1024 := by exact_mod_cast (by omega : k ≤ 1024)
      have hk2 : (k : ℝ) * θ ≤ Real.pi / 2 := by
        unfold θ
        have := mul_le_mul_of_nonneg_right k1 (show 0 ≤ Real.pi / 2048 by positivity)
        linarith
      have hk3 : 0 ≤ (k : ℝ) * θ := by unfold θ; positivity
      have := Real.monotone_arcsin hx
      rw [Real.arcsin_sin (by linarith) hk2] at this
      have h3 := div_le_div_of_nonneg_right this hpi.le
      rw [eθ] at h3
      have e : ((m : ℝ) + c) = k := by exact_mod_cast hk
      rw [e]; exact h3
  · suffices ((m : ℝ) - c) / 2048 ≤ Real.arcsin x / Real.pi by rw [sub_div] at this; linarith
    have hq : 0 ≤ Real.arcsin x / Real.pi := by positivity
    by_cases c0 : m ≤ c
    · have : (m : ℝ) ≤ c := by exact_mod_cast c0
      linarith
    rcases hl with hl | ⟨hl0, hl⟩
    · omega
    · obtain ⟨k, hk⟩ := Int.eq_ofNat_of_zero_le (show 0 ≤ m - c by omega)
      rw [hk, Int.toNat_natCast] at hl
      have hb := (sin_bounds (show k ≤ 1024 by omega)).2
      have hl' : (hiS k : ℝ) * 2 ^ F ≤ n * 10 ^ 30 := by exact_mod_cast hl
      have hx : Real.sin (k * θ) ≤ x := by
        refine le_trans hb ?_
        rw [div_le_iff₀ (by positivity)]
        have : hiS k * 2 ^ F ≤ x * 2 ^ F * 10 ^ 30 := le_trans hl' (mul_le_mul_of_nonneg_right hn (by positivity))
        have e : hiS k * 2 ^ F ≤ x * 10 ^ 30 * 2 ^ F := by linarith
        exact le_of_mul_le_mul_right e hF
      have k1 : (k : ℝ) ≤ 1024 := by exact_mod_cast (by omega : k ≤ 1024)
      have hk2 : (k : ℝ) * θ ≤ Real.pi / 2 := by
        unfold θ
        have := mul_le_mul_of_nonneg_right k1 (show 0 ≤ Real.pi / 2048 by positivity)
        linarith
      have hk3 : 0 ≤ (k : ℝ) * θ := by unfold θ; positivity
      have := Real.monotone_arcsin hx
      rw [Real.arcsin_sin (by linarith) hk2] at this
      have h3 := div_le_div_of_nonneg_right this hpi.le
      rw [eθ] at h3
      have e : ((m : ℝ) - c) = k := by exact_mod_cast hk
      rw [e]; exact h3

/-- What is checked of `theta` after the loop of the arcsine for an argument of `n` units: it is in range and within three quarters
of a unit of the output. -/
def okSin (h n : ℕ) (s : Quad) : Bool :=
  small s.2.2.2 (2 * h) && near (2 * h + 2) (Int.ofNat n) (Int.mul (Int.ofNat s.2.2.2.natAbs) (pw (11 - 2 * h))) (Int.mul 3 (pw (9 - h)))

/-- The same for the arccosine. -/
def okCos (h n : ℕ) (s : Quad) : Bool :=
  small s.2.2.2 (2 * h) &&
    near (2 * h + 2) (Int.ofNat n) (Int.sub 1024 (Int.mul (Int.ofNat s.2.2.2.natAbs) (pw (11 - 2 * h)))) (Int.mul 3 (pw (9 - h)))

def chkSin (h n : ℕ) : Bool :=
  irun (2 * h) 1 iselSin (okSin h n) (2 * h + 1) 1 (0, pw (2 * h + 3), Int.mul 2 (Int.ofNat n), pw (2 * h - 1))

def chkCos (h n : ℕ) : Bool :=
  irun (2 * h) 2 iselCos (okCos h n) (2 * h + 1) 1 (0, pw (2 * h + 3), Int.mul 2 (Int.ofNat n), pw (2 * h - 1))

/-- The argument in units, as a natural number. -/
theorem arg_nat {p : ℕ} {t : ℚ} (ht : |t| ≤ 1) : ∃ n : ℕ, ⌊|t| * 2 ^ (p + 2)⌋ = Int.ofNat n ∧ n ≤ 2 ^ (p + 2) ∧
    ((Int.ofNat n : ℤ) : ℝ) ≤ ((|t| : ℚ) : ℝ) * 2 ^ (p + 2) ∧ ((|t| : ℚ) : ℝ) * 2 ^ (p + 2) ≤ ((Int.ofNat n : ℤ) : ℝ) + 1 := by
  obtain ⟨-, n0, n1⟩ := start_eq (p := p) (g := 1) le_rfl ht
  obtain ⟨n, hn⟩ := Int.eq_ofNat_of_zero_le n0
  have h1 := Rat.cast_le (K := ℝ) |>.2 (Int.floor_le (|t| * 2 ^ (p + 2)))
  have h2 := Rat.cast_lt (K := ℝ) |>.2 (Int.lt_floor_add_one (|t| * 2 ^ (p + 2)))
  rw [hn] at h1 h2 n1
  refine ⟨n, hn, by exact_mod_cast n1, ?_, ?_⟩
  · push_cast at h1 ⊢; exact h1
  · push_cast at h2 ⊢; exact h2.le

theorem start_sin {p : ℕ} (hp : p ≤ 20) {t : ℚ} (ht : |t| ≤ 1) : selSin p (start p 1 t) = true := by
  obtain ⟨e, n0, n1⟩ := start_eq (p := p) (g := 1) le_rfl ht
  rw [e]
  refine (sel_sin (g := 1) hp _ _ _ _).trans ?_
  have d1 : Int.sub ⌊|t| * 2 ^ (p + 2)⌋ 0 = ⌊|t| * 2 ^ (p + 2)⌋ := Int.sub_zero _
  have : (0 : ℤ) ≤ 2 ^ (p + 2) := by positivity
  simp [iselSin, nn_eq, d1, n0, this]

theorem start_cos {p : ℕ} {t : ℚ} (ht : |t| ≤ 1) : selCos (start p 2 t) = true := by
  obtain ⟨e, n0, n1⟩ := start_eq (p := p) (g := 2) (by norm_num) ht
  rw [e]
  refine (sel_cos (g := 2) _ _ _ _).trans ?_
  have d1 : Int.sub (2 ^ (p + 2)) ⌊|t| * 2 ^ (p + 2)⌋ = 2 ^ (p + 2) - ⌊|t| * 2 ^ (p + 2)⌋ := rfl
  simp [iselCos, nn_eq, d1, n1]

theorem unit_eq {h : ℕ} (h5 : h ≤ 5) (Θ : ℤ) : ((Int.mul (Int.ofNat Θ.natAbs) (pw (11 - 2 * h)) : ℤ) : ℝ) / 2048 = |(Θ : ℝ) / 2 ^ (2 * h)| ∧
    ((Int.mul 3 (pw (9 - h)) : ℤ) : ℝ) / 2048 = 3 / 4 / 2 ^ h := by
  have d3 : ∀ z w : ℤ, Int.mul z w = z * w := fun _ _ => rfl
  have d4 : ((Int.ofNat Θ.natAbs : ℤ) : ℝ) = |(Θ : ℝ)| := by
    rw [Int.ofNat_eq_natCast, ← Int.abs_eq_natAbs, Int.cast_abs]
  rw [d3, d3, pw_eq, pw_eq, abs_div, Int.cast_mul, d4]
  interval_cases h <;> norm_num <;> ring

/-- The arcsine for an output of `h` fraction bits if the check succeeds. -/
theorem sin_tiny {o : Fmt} {h : ℕ} (ho : pF o = 2 * h) (h1 : 1 ≤ h) (h5 : h ≤ 5) (chk : ∀ n ≤ 2 ^ (2 * h + 2), chkSin h n = true)
    {t : ℚ} (ht : |t| ≤ 1) :
    ∃ r : ℚ, arcsin o t = some (o.cvt r) ∧ |r| < 1 ∧ |(r : ℝ) - Real.arcsin (t : ℝ) / Real.pi| ≤ 3 / 4 / 2 ^ h := by
  obtain ⟨n, hn, n1, n2, n3⟩ := arg_nat (p := 2 * h) ht
  have hc := chk n n1
  unfold chkSin at hc
  rw [← hn] at hc
  obtain ⟨x', y', n', Θ, e, hk⟩ := loop_ok (p := 2 * h) (g := 1) (by omega) (by omega) le_rfl (sel_sin (by omega)) ht (start_sin (by omega) ht) hc
  simp only [okSin, Bool.and_eq_true, small_iff] at hk
  obtain ⟨k1, k2⟩ := hk
  have k3 := near_ok (x := ((|t| : ℚ) : ℝ)) (by push_cast; exact abs_nonneg _) n2 n3 k2
  rw [(unit_eq h5 Θ).1, (unit_eq h5 Θ).2] at k3
  have eq : 1 / 2 - β t / Real.pi = Real.arcsin ((|t| : ℚ) : ℝ) / Real.pi := by
    have := Real.pi_pos
    unfold β; rw [Real.arccos_eq_pi_div_two_sub_arcsin]; field_simp; ring
  rw [← eq] at k3
  obtain ⟨r, r1, r2, r3⟩ := sin_out (o := o) (t := t) k1 k3
  refine ⟨r, ?_, r2, r3⟩
  unfold arcsin runSin
  rw [ho, e, Option.map_some, ← r1]
  rfl

theorem cos_tiny {o : Fmt} {h : ℕ} (ho : pF o = 2 * h) (h1 : 1 ≤ h) (h5 : h ≤ 5) (chk : ∀ n ≤ 2 ^ (2 * h + 2), chkCos h n = true)
    {t : ℚ} (ht : |t| ≤ 1) :
    ∃ r : ℚ, arccos o t = some (o.cvt r) ∧ 0 ≤ r ∧ r ≤ 1 ∧ |(r : ℝ) - Real.arccos (t : ℝ) / Real.pi| ≤ 3 / 4 / 2 ^ h := by
  obtain ⟨n, hn, n1, n2, n3⟩ := arg_nat (p := 2 * h) ht
  have hc := chk n n1
  unfold chkCos at hc
  rw [← hn] at hc
  obtain ⟨x', y', n', Θ, e, hk⟩ := loop_ok (p := 2 * h) (g := 2) (by omega) (by omega) (by norm_num) sel_cos ht (start_cos ht) hc
  simp only [okCos, Bool.and_eq_true, small_iff] at hk
  obtain ⟨k1, k2⟩ := hk
  have k3 := near_ok (x := ((|t| : ℚ) : ℝ)) (by push_cast; exact abs_nonneg _) n2 n3 k2
  have d1 : ∀ w : ℤ, ((Int.sub 1024 w : ℤ) : ℝ) / 2048 = 1 / 2 - (w : ℝ) / 2048 := by
    intro w
    rw [show Int.sub 1024 w = 1024 - w from rfl]; push_cast; ring
  rw [d1, (unit_eq h5 Θ).1, (unit_eq h5 Θ).2] at k3
  have eq : β t / Real.pi = 1 / 2 - Real.arcsin ((|t| : ℚ) : ℝ) / Real.pi := by
    have := Real.pi_pos
    unfold β; rw [Real.arccos_eq_pi_div_two_sub_arcsin]; field_simp
  have k4 : |(|(Θ : ℝ) / 2 ^ (2 * h)| - β t / Real.pi)| ≤ 3 / 4 / 2 ^ h := by
    rw [eq, ← abs_neg]
    convert k3 using 2
    ring
  rw [← ho] at k1 k4 e
  exact cos_out (s := toSt (pF o) 2 x' y' n' Θ) (by unfold runCos; exact e) rfl k1 k4

end Proof.Arcsin
