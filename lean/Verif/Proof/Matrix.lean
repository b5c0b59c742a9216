import Verif.Model.Matrix

/-! # Proofs about ac_matrix -/

namespace Ac.Fmt

/-- Adding on the grid of a wrapping format: intermediate wrap-arounds do not change the final value. -/
theorem cvt_add_wrap {f : Fmt} (hO : f.O = .WRAP) {x y : ℚ} (hx : f.Grid x) (hy : f.Grid y) :
    f.cvt (f.cvt x + y) = f.cvt (x + y) := by
  obtain ⟨r, rfl⟩ := hx
  obtain ⟨s, rfl⟩ := hy
  have h1 : ∀ n : ℤ, f.cvt (f.val n) = f.val (wrap f.W f.S n) := by
    intro n
    unfold cvt cvtRaw
    rw [val_mul_pow, quant_intCast, hO]; rfl
  have h2 : ∀ a b : ℤ, f.val a + f.val b = f.val (a + b) := by
    intro a b; unfold val; push_cast; ring
  rw [h1, h2, h2, h1, h1, wrap_add_wrap]

theorem cvt_cvt_wrap {f : Fmt} (hO : f.O = .WRAP) {x : ℚ} (hx : f.Grid x) : f.cvt (f.cvt x) = f.cvt x := by
  have := cvt_add_wrap hO hx (grid_zero f)
  rwa [add_zero, add_zero] at this

theorem grid_sum {ι : Type*} {f : Fmt} (s : Finset ι) (g : ι → ℚ) (h : ∀ i ∈ s, f.Grid (g i)) :
    f.Grid (∑ i ∈ s, g i) := by
  classical
  induction s using Finset.induction_on with
  | empty => simpa using grid_zero f
  | insert a s ha ih =>
    rw [Finset.sum_insert ha]
    exact grid_add (h a (Finset.mem_insert_self _ _)) (ih fun i hi => h i (Finset.mem_insert_of_mem hi))

theorem cvt_grid {f : Fmt} (x : ℚ) : f.Grid (f.cvt x) := ⟨f.cvtRaw x, rfl⟩

/-- A wrapping accumulator over values on its grid ends with the exact sum, wrapped once. -/
theorem acc_wrap {f : Fmt} (hO : f.O = .WRAP) (g : ℕ → ℚ) (n : ℕ) (hg : ∀ k < n, f.Grid (g k)) :
    forUp (fun k t => f.cvt (t + g k)) n (f.cvt (0 : ℚ)) = f.cvt (∑ k : Fin n, g k) := by
  induction n with
  | zero => simp [forUp]
  | succ n ih =>
    rw [forUp, ih (fun k hk => hg k (by omega)), Fin.sum_univ_castSucc,
      cvt_add_wrap hO (grid_sum _ (fun k : Fin n => g k) fun k _ => hg k (by omega)) (hg n (by omega))]
    rfl

theorem sumOf_F (n : ℕ) (f : Fmt) : (f.sumOf n).F = f.F := by unfold sumOf Fmt.F; simp only; push_cast; ring

theorem log2Ceil_le (n : ℕ) : n ≤ 2 ^ log2Ceil n := by
  unfold log2Ceil
  split_ifs with h
  · simpa using h
  · have := (Nat.log2_lt (n := n - 1) (k := Nat.log2 (n - 1) + 1) (by omega)).mp (Nat.lt_succ_self _)
    omega

theorem grid_same_F {f g : Fmt} (h : f.F = g.F) {x : ℚ} (hx : f.Grid x) : g.Grid x := grid_mono h.le hx

/-- Enough room: the sum of `n` values of the format fits `sumOf m` when `n ≤ 2^ceil(log2 m)`. -/
theorem rep_sum {f : Fmt} (hW : 1 ≤ f.W) {n m : ℕ} (hn : n ≤ 2 ^ log2Ceil m) (g : Fin n → ℚ)
    (hg : ∀ i, f.Rep (g i)) (h1 : 1 ≤ n) : (f.sumOf m).Rep (∑ i, g i) := by
  have hW' : 1 ≤ (f.sumOf m).W := by unfold sumOf; simp only; omega
  rw [rep_iff hW']
  have hg' := fun i => (rep_iff hW (g i)).mp (hg i)
  refine ⟨?_, grid_sum _ _ fun i _ => grid_same_F (sumOf_F m f).symm (hg' i).2⟩
  have hIe : (f.sumOf m).I = f.I + log2Ceil m := rfl
  have hS : (f.sumOf m).S = f.S := rfl
  have hnq : (n : ℚ) ≤ 2 ^ (log2Ceil m : ℤ) := by rw [zpow_natCast]; exact_mod_cast hn
  have hne : (Finset.univ : Finset (Fin n)).Nonempty := ⟨⟨0, by omega⟩, Finset.mem_univ _⟩
  unfold Bnd
  rw [hIe, hS]
  have hub : ∀ b : ℚ, (∀ i, g i < b) → ∑ i, g i < n * b := by
    intro b hb
    have := Finset.sum_lt_sum_of_nonempty hne (fun i _ => hb i)
    simpa using this
  have hlb : ∀ b : ℚ, (∀ i, b ≤ g i) → n * b ≤ ∑ i, g i := by
    intro b hb
    have := Finset.sum_le_sum (s := Finset.univ) (fun i _ => hb i)
    simpa using this
  cases hSf : f.S <;> simp only [Bool.false_eq_true, if_false, if_true]
  · have hb : ∀ i, 0 ≤ g i ∧ g i < 2 ^ f.I := fun i => by
      have := (hg' i).1; unfold Bnd at this; simpa [hSf] using this
    refine ⟨Finset.sum_nonneg fun i _ => (hb i).1, ?_⟩
    have h2 := hub _ fun i => (hb i).2
    have h3 := mul_le_mul_of_nonneg_right hnq (z_pos f.I).le
    rw [z_add, add_comm] at h3
    linarith
  · have hb : ∀ i, -2 ^ (f.I - 1) ≤ g i ∧ g i < 2 ^ (f.I - 1) := fun i => by
      have := (hg' i).1; unfold Bnd at this; simpa [hSf] using this
    have h2 := hub _ fun i => (hb i).2
    have h3 := mul_le_mul_of_nonneg_right hnq (z_pos (f.I - 1)).le
    rw [z_add, show (log2Ceil m : ℤ) + (f.I - 1) = f.I + log2Ceil m - 1 by ring] at h3
    have h4 := hlb _ fun i => (hb i).1
    constructor <;> linarith

end Ac.Fmt

namespace Proof.Matrix
open Ac Model.Matrix

theorem mult_W {f g : Fmt} (hf : 1 ≤ f.W) : 1 ≤ (f.mult g).W := by unfold Fmt.mult; simp only; omega

theorem plus_W {f g : Fmt} (hf : 1 ≤ f.W) : 1 ≤ (f.plus g).W := by
  have := Fmt.widths_pos (g := g) hf
  unfold Fmt.plus Fmt.mk'; simp only; omega

theorem minus_W {f g : Fmt} (hf : 1 ≤ f.W) : 1 ≤ (f.minus g).W := by
  have := Fmt.widths_pos (g := g) hf
  unfold Fmt.minus Fmt.mk'; simp only; omega

theorem add_eq {fa fb : Fmt} (ha : 1 ≤ fa.W) (hb : 1 ≤ fb.W) (M N : ℕ) (A B junk : Mem ℚ)
    (hA : ∀ i < M, ∀ j < N, fa.Rep (A i j)) (hB : ∀ i < M, ∀ j < N, fb.Rep (B i j)) {i j : ℕ} (hi : i < M) (hj : j < N) :
    add fa fb M N A B junk i j = A i j + B i j := by
  unfold add
  rw [fill_eq, if_pos ⟨hi, hj⟩]
  have h := Fmt.rep_plus ha hb (hA i hi j hj) (hB i hi j hj)
  unfold Model.Matrix.get
  rw [Fmt.cvt_rep (plus_W ha) (by simp [Fmt.plus, Fmt.mk']) h, Fmt.cvt_rep (plus_W ha) (by simp [Fmt.plus, Fmt.mk']) h]

theorem sub_eq {fa fb : Fmt} (ha : 1 ≤ fa.W) (hb : 1 ≤ fb.W) (M N : ℕ) (A B junk : Mem ℚ)
    (hA : ∀ i < M, ∀ j < N, fa.Rep (A i j)) (hB : ∀ i < M, ∀ j < N, fb.Rep (B i j)) {i j : ℕ} (hi : i < M) (hj : j < N) :
    sub fa fb M N A B junk i j = A i j - B i j := by
  unfold sub
  rw [fill_eq, if_pos ⟨hi, hj⟩]
  have h := Fmt.rep_minus ha hb (hA i hi j hj) (hB i hi j hj)
  unfold Model.Matrix.get
  rw [Fmt.cvt_rep (minus_W ha) (by simp [Fmt.minus, Fmt.mk']) h,
    Fmt.cvt_rep (minus_W ha) (by simp [Fmt.minus, Fmt.mk']) h]

theorem pwisemult_eq {fa fb : Fmt} (ha : 1 ≤ fa.W) (hb : 1 ≤ fb.W) (M N : ℕ) (A B junk : Mem ℚ)
    (hA : ∀ i < M, ∀ j < N, fa.Rep (A i j)) (hB : ∀ i < M, ∀ j < N, fb.Rep (B i j)) {i j : ℕ} (hi : i < M) (hj : j < N) :
    pwisemult fa fb M N A B junk i j = A i j * B i j := by
  unfold pwisemult
  rw [fill_eq, if_pos ⟨hi, hj⟩]
  have h := Fmt.rep_mult ha hb (hA i hi j hj) (hB i hi j hj)
  unfold Model.Matrix.get
  rw [Fmt.cvt_rep (mult_W ha) (by simp [Fmt.mult]) h, Fmt.cvt_rep (mult_W ha) (by simp [Fmt.mult]) h]

theorem addAssign_eq {fa : Fmt} (ha : 1 ≤ fa.W) (M N : ℕ) (A B : Mem ℚ)
    (hA : ∀ i < M, ∀ j < N, fa.Rep (A i j)) (hB : ∀ i < M, ∀ j < N, fa.Rep (B i j)) {i j : ℕ} (hi : i < M) (hj : j < N) :
    addAssign fa M N A B i j = fa.cvt (A i j + B i j) := by
  unfold addAssign
  rw [update_eq M N (fun i j v => fa.cvt ((fa.plus fa).cvt (v + Model.Matrix.get B i j))), if_pos ⟨hi, hj⟩]
  unfold Model.Matrix.get
  rw [Fmt.cvt_rep (plus_W ha) (by simp [Fmt.plus, Fmt.mk']) (Fmt.rep_plus ha ha (hA i hi j hj) (hB i hi j hj))]

theorem subAssign_eq {fa : Fmt} (ha : 1 ≤ fa.W) (M N : ℕ) (A B : Mem ℚ)
    (hA : ∀ i < M, ∀ j < N, fa.Rep (A i j)) (hB : ∀ i < M, ∀ j < N, fa.Rep (B i j)) {i j : ℕ} (hi : i < M) (hj : j < N) :
    subAssign fa M N A B i j = fa.cvt (A i j - B i j) := by
  unfold subAssign
  rw [update_eq M N (fun i j v => fa.cvt ((fa.minus fa).cvt (v - Model.Matrix.get B i j))), if_pos ⟨hi, hj⟩]
  unfold Model.Matrix.get
  rw [Fmt.cvt_rep (minus_W ha) (by simp [Fmt.minus, Fmt.mk']) (Fmt.rep_minus ha ha (hA i hi j hj) (hB i hi j hj))]

theorem scale_eq {fs fa : Fmt} (hs : 1 ≤ fs.W) (ha : 1 ≤ fa.W) (M N : ℕ) {s : ℚ} (hrs : fs.Rep s) (A junk : Mem ℚ)
    (hA : ∀ i < M, ∀ j < N, fa.Rep (A i j)) {i j : ℕ} (hi : i < M) (hj : j < N) :
    scale fs fa M N s A junk i j = fa.cvt (s * A i j) := by
  unfold scale
  rw [fill_eq, if_pos ⟨hi, hj⟩]
  unfold Model.Matrix.get
  rw [Fmt.cvt_rep (mult_W hs) (by simp [Fmt.mult]) (Fmt.rep_mult hs ha hrs (hA i hi j hj))]

/-- One element of the product: the exact inner product, wrapped once into `Tsum`. -/
theorem mul_eq {fa fb : Fmt} (ha : 1 ≤ fa.W) (hb : 1 ≤ fb.W) (M N Q : ℕ) (A B junk : Mem ℚ)
    (hA : ∀ i < M, ∀ j < N, fa.Rep (A i j)) (hB : ∀ i < N, ∀ j < Q, fb.Rep (B i j)) {i j : ℕ} (hi : i < M) (hj : j < Q) :
    mul fa fb M N Q A B junk i j = (sumFmt fa fb N).cvt (∑ k : Fin N, A i k * B k j) := by
  unfold mul
  rw [fill_eq, if_pos ⟨hi, hj⟩]
  have hO : (sumFmt fa fb N).O = .WRAP := rfl
  have hrep : ∀ k < N, (fa.mult fb).Rep (A i k * B k j) := fun k hk =>
    Fmt.rep_mult ha hb (hA i hi k hk) (hB k hk j hj)
  have hgrid : ∀ k < N, (sumFmt fa fb N).Grid (A i k * B k j) := fun k hk =>
    Fmt.grid_same_F (Fmt.sumOf_F _ _).symm ((Fmt.rep_iff (mult_W ha) _).mp (hrep k hk)).2
  have hdot : dot fa fb N A B i j = (sumFmt fa fb N).cvt (∑ k : Fin N, A i k * B k j) := by
    unfold dot Model.Matrix.get
    have hext : ∀ (n : ℕ) (s : ℚ), n ≤ N →
        forUp (fun k t => (sumFmt fa fb N).cvt (t + (fa.mult fb).cvt (A i k * B k j))) n s =
        forUp (fun k t => (sumFmt fa fb N).cvt (t + A i k * B k j)) n s := by
      intro n s hn
      induction n with
      | zero => rfl
      | succ n ih =>
        rw [forUp, forUp, ih (by omega), Fmt.cvt_rep (mult_W ha) (by simp [Fmt.mult]) (hrep n (by omega))]
    rw [hext N _ le_rfl]
    exact Fmt.acc_wrap hO (fun k => A i k * B k j) N hgrid
  rw [hdot, Fmt.cvt_cvt_wrap hO (Fmt.grid_sum _ (fun k : Fin N => A i k * B k j) fun k _ => hgrid k k.2)]

theorem transpose_eq {α : Type} (M N : ℕ) (A junk : Mem α) {i j : ℕ} (hi : i < N) (hj : j < M) :
    transpose M N A junk i j = A j i := by
  unfold transpose
  rw [fillT_eq, if_pos ⟨hj, hi⟩]; rfl

theorem submatrix_eq {α : Type} (R S : ℕ) (A : Mem α) (row col : ℕ) (junk : Mem α) {i j : ℕ} (hi : i < R) (hj : j < S) :
    submatrix R S A row col junk i j = A (i + row) (j + col) := by
  unfold submatrix
  rw [fill_eq, if_pos ⟨hi, hj⟩]; rfl

theorem ne_iff {α : Type} [DecidableEq α] (M N M2 N2 : ℕ) (A B : Mem α) :
    ne M N M2 N2 A B = true ↔ M2 ≠ M ∨ N2 ≠ N ∨ ∃ i < M, ∃ j < N, A i j ≠ B i j := by
  unfold ne Model.Matrix.get
  split_ifs with h1 h2
  · simp [h1]
  · simp [h2]
  · push Not at h1 h2
    simp [h1, h2]

/-- The running total of `sum`. -/
theorem sum_eq {fa : Fmt} (hO : fa.O = .WRAP) (M N : ℕ) (A : Mem ℚ) (hA : ∀ i < M, ∀ j < N, fa.Grid (A i j)) :
    sum fa M N A = fa.cvt (∑ i : Fin M, ∑ j : Fin N, A i j) := by
  have inner : ∀ (i n : ℕ) (x : ℚ), i < M → n ≤ N → fa.Grid x →
      forUp (fun j t => fa.cvt (t + Model.Matrix.get A i j)) n (fa.cvt x) = fa.cvt (x + ∑ j : Fin n, A i j) := by
    intro i n x hi hn hx
    induction n with
    | zero => simp [forUp]
    | succ n ih =>
      rw [forUp, ih (by omega), Fin.sum_univ_castSucc]
      unfold Model.Matrix.get
      rw [Fmt.cvt_add_wrap hO _ (hA i hi n (by omega)), add_assoc]
      · rfl
      · exact Fmt.grid_add hx (Fmt.grid_sum _ (fun k : Fin n => A i k) fun k _ => hA i hi k (by omega))
  unfold sum
  have outer : ∀ m ≤ M, forUp (fun i t => forUp (fun j t => fa.cvt (t + Model.Matrix.get A i j)) N t) m (fa.cvt (0 : ℚ)) =
      fa.cvt (∑ i : Fin m, ∑ j : Fin N, A i j) := by
    intro m hm
    induction m with
    | zero => simp [forUp]
    | succ m ih =>
      rw [forUp, ih (by omega), Fin.sum_univ_castSucc, inner m N _ (by omega) le_rfl]
      · rfl
      · exact Fmt.grid_sum _ (fun k : Fin m => ∑ j : Fin N, A k j) fun k _ => Fmt.grid_sum _ (fun l : Fin N => A k l) fun l _ => hA k (by omega) l l.2
  exact outer M le_rfl

/-! ## Initializer lists -/

/-- The list constructor as a recursion on the list. -/
def fillFrom {α : Type} (M N : ℕ) : List α → ℕ → Mem α → Option (Mem α)
  | [], _, m => some m
  | v :: l, k, m => if k / M < M ∧ k % N < N then fillFrom M N l (k + 1) (m.put (k / M) (k % N) v) else none

theorem ofList_eq {α : Type} (M N : ℕ) (l : List α) (junk : Mem α) :
    ofList M N l junk = if l.length ≤ M * N then fillFrom M N l 0 junk else none := by
  unfold ofList
  split_ifs with h
  · clear h
    have hnone : ∀ (l : List α) (k : ℕ), (l.foldl (fun (s : Option (Mem α) × ℕ) v =>
        (s.1.bind fun m => if s.2 / M < M ∧ s.2 % N < N then some (m.put (s.2 / M) (s.2 % N) v) else none, s.2 + 1))
        (none, k)).1 = none := by
      intro l
      induction l with
      | nil => intro k; rfl
      | cons v l ih => intro k; simp only [List.foldl, Option.bind_none]; exact ih (k + 1)
    have : ∀ (l : List α) (k : ℕ) (m : Mem α), (l.foldl (fun (s : Option (Mem α) × ℕ) v =>
        (s.1.bind fun m => if s.2 / M < M ∧ s.2 % N < N then some (m.put (s.2 / M) (s.2 % N) v) else none, s.2 + 1))
        (some m, k)).1 = fillFrom M N l k m := by
      intro l
      induction l with
      | nil => intro k m; rfl
      | cons v l ih =>
        intro k m
        simp only [List.foldl, Option.bind_some, fillFrom]
        split_ifs with h
        · exact ih (k + 1) _
        · exact hnone l (k + 1)
    exact this l 0 junk
  · rfl

theorem fillFrom_square {α : Type} {N : ℕ} (hN : 1 ≤ N) (l : List α) :
    ∀ (k : ℕ) (m : Mem α), k + l.length ≤ N * N → ∃ m', fillFrom N N l k m = some m' ∧
      (∀ n (h : n < l.length), m' ((k + n) / N) ((k + n) % N) = l[n]) ∧
      (∀ i j, j < N → (i * N + j < k ∨ k + l.length ≤ i * N + j) → m' i j = m i j) := by
  induction l with
  | nil => intro k m _; exact ⟨m, rfl, fun n h => absurd h (by simp), fun _ _ _ _ => rfl⟩
  | cons v l ih =>
    intro k m hk
    rw [List.length_cons] at hk
    have hr : k / N < N ∧ k % N < N := ⟨Nat.div_lt_of_lt_mul (by omega), Nat.mod_lt _ (by omega)⟩
    obtain ⟨m', e1, e2, e3⟩ := ih (k + 1) (m.put (k / N) (k % N) v) (by omega)
    refine ⟨m', ?_, ?_, ?_⟩
    · rw [fillFrom, if_pos hr, e1]
    · intro n hn
      cases n with
      | zero =>
        have hkk := Nat.div_add_mod k N
        rw [add_zero, e3 (k / N) (k % N) hr.2 (Or.inl (by rw [mul_comm]; omega))]
        simp [Mem.put]
      | succ n =>
        have := e2 n (by simpa using hn)
        rw [show k + (n + 1) = k + 1 + n by ring]
        simpa using this
    · intro i j hj h
      rw [List.length_cons] at h
      rw [e3 i j hj (by omega)]
      unfold Mem.put
      rw [if_neg]
      rintro ⟨rfl, rfl⟩
      have := Nat.div_add_mod k N
      rw [mul_comm] at this
      omega

theorem fillFrom_wide {α : Type} {M N : ℕ} (hM : 1 ≤ M) (hMN : M < N) (l : List α) :
    ∀ (k : ℕ) (m : Mem α), k ≤ M * M → M * M < k + l.length → fillFrom M N l k m = none := by
  induction l with
  | nil => intro k m h1 h2; simp at h2; omega
  | cons v l ih =>
    intro k m h1 h2
    rw [List.length_cons] at h2
    rw [fillFrom]
    split_ifs with h
    · rcases eq_or_lt_of_le h1 with h' | h'
      · rw [h', Nat.mul_div_cancel _ (by omega)] at h; omega
      · exact ih (k + 1) _ (by omega) (by omega)
    · rfl

theorem fillFrom_tall {α : Type} {M N : ℕ} (hN : 1 ≤ N) (hMN : N < M) (l : List α) :
    ∀ (k : ℕ) (m : Mem α), k + l.length ≤ M * N → ∃ m', fillFrom M N l k m = some m' ∧
      ∀ i j, N ≤ i → m' i j = m i j := by
  induction l with
  | nil => intro k m _; exact ⟨m, rfl, fun _ _ _ => rfl⟩
  | cons v l ih =>
    intro k m hk
    rw [List.length_cons] at hk
    have hq : k / M < N := Nat.div_lt_of_lt_mul (by omega)
    have hr : k / M < M ∧ k % N < N := ⟨by omega, Nat.mod_lt _ (by omega)⟩
    obtain ⟨m', e1, e2⟩ := ih (k + 1) (m.put (k / M) (k % N) v) (by omega)
    refine ⟨m', ?_, ?_⟩
    · rw [fillFrom, if_pos hr, e1]
    · intro i j hi
      rw [e2 i j hi]
      unfold Mem.put
      rw [if_neg]
      rintro ⟨rfl, rfl⟩
      omega

end Proof.Matrix
