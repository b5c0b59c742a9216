import Verif.Model.Chol
import Mathlib.Tactic.Linarith
import Mathlib.Tactic.Ring

/-! # Proofs about ac_chol_d: storage and refinement of the loops -/

namespace Proof.Chol
open Ac Model.Chol

/-! ## Packed storage -/

/-- Offset of row `i`. -/
def tri (i : ℕ) : ℕ := i * (i + 1) / 2

theorem two_tri (i : ℕ) : 2 * tri i = i * (i + 1) := by
  unfold tri
  exact Nat.mul_div_cancel' (Nat.even_mul_succ_self i).two_dvd

theorem tri_succ (i : ℕ) : tri (i + 1) = tri i + i + 1 := by
  have h1 := two_tri i
  have h2 := two_tri (i + 1)
  have : (i + 1) * (i + 1 + 1) = i * (i + 1) + 2 * (i + 1) := by ring
  omega

theorem tri_mono {i k : ℕ} (h : i < k) : tri i + i + 1 ≤ tri k := by
  induction k with
  | zero => omega
  | succ k ih =>
    rw [tri_succ]
    rcases Nat.lt_succ_iff_lt_or_eq.mp h with h' | rfl
    · have := ih h'; omega
    · omega

theorem lt_two_pow_nbits (n : ℕ) : n < 2 ^ nbits n := by
  unfold nbits
  split_ifs with h
  · simp [h]
  · exact Nat.lt_log2_self

theorem off_lt {M i j : ℕ} (hi : i < M) (hj : j ≤ i) : tri i + j < size M := by
  have := tri_mono hi
  change tri i + j < tri M
  omega

theorem indConv_eq {M i j : ℕ} (hi : i < M) (hj : j ≤ i) : indConv M i j = tri i + j := by
  unfold indConv
  apply Nat.mod_eq_of_lt
  have h1 := off_lt hi hj
  have h2 := lt_two_pow_nbits (size M - 1)
  change tri i + j < _
  omega

theorem indConv_inj {M i j i' j' : ℕ} (hi : i < M) (hj : j ≤ i) (hi' : i' < M) (hj' : j' ≤ i')
    (h : indConv M i j = indConv M i' j') : i = i' ∧ j = j' := by
  rw [indConv_eq hi hj, indConv_eq hi' hj'] at h
  rcases lt_trichotomy i i' with hlt | rfl | hlt
  · have := tri_mono hlt; omega
  · exact ⟨rfl, by omega⟩
  · have := tri_mono hlt; omega

theorem indConv_lt {M i j : ℕ} (hi : i < M) (hj : j ≤ i) : indConv M i j < size M := by
  rw [indConv_eq hi hj]; exact off_lt hi hj

theorem indConv_surj {M k : ℕ} (hk : k < size M) : ∃ i j, i < M ∧ j ≤ i ∧ indConv M i j = k := by
  have key : ∀ M k, k < tri M → ∃ i j, i < M ∧ j ≤ i ∧ tri i + j = k := by
    intro M
    induction M with
    | zero => intro k hk; simp [tri] at hk
    | succ M ih =>
      intro k hk
      rw [tri_succ] at hk
      by_cases h : k < tri M
      · obtain ⟨i, j, h1, h2, h3⟩ := ih k h
        exact ⟨i, j, by omega, h2, h3⟩
      · exact ⟨M, k - tri M, by omega, by omega, by omega⟩
  obtain ⟨i, j, h1, h2, h3⟩ := key M k hk
  exact ⟨i, j, h1, h2, by rw [indConv_eq h1 h2, h3]⟩

/-! ## The loops compute the Crout recurrences -/

variable {α τ σd σ ρ : Type}

/-- `L` and the pivots `p` satisfy the Cholesky-Crout recurrences in the first `c` columns. -/
structure Crout (o : Ops α τ σd σ ρ) (M : ℕ) (A : Mem α) (L : Mem τ) (p : ℕ → σd) (c : ℕ) : Prop where
  pivot : ∀ j < c, p j = forUp (fun k s => o.dStep s (L j k)) j (o.dInit (A j j))
  diag : ∀ j < c, L j j = o.diag (p j)
  below : ∀ j < c, ∀ i < M, j < i →
    L i j = o.off (o.recip (p j)) (forUp (fun k s => o.oStep s (L i k) (L j k)) j (o.oInit (A i j)))

/-- The packed array holds `L` in the first `c` columns. -/
def HoldsCols (M : ℕ) (m : Packed τ) (L : Mem τ) (c : ℕ) : Prop :=
  ∀ k < c, ∀ i < M, k ≤ i → m (indConv M i k) = some (L i k)

theorem dLoop_eq (o : Ops α τ σd σ ρ) {M : ℕ} {m : Packed τ} {L : Mem τ} {j : ℕ} (hj : j < M)
    (hm : HoldsCols M m L j) (s0 : σd) : dLoop o M m j M 0 s0 = some (forUp (fun k s => o.dStep s (L j k)) j s0) := by
  have key : ∀ n k, k + n = M → k ≤ j → dLoop o M m j n k (forUp (fun k s => o.dStep s (L j k)) k s0) =
      some (forUp (fun k s => o.dStep s (L j k)) j s0) := by
    intro n
    induction n with
    | zero => intro k hk hkj; omega
    | succ n ih =>
      intro k hk hkj
      rw [dLoop]
      split_ifs with h
      · rw [h]
      · have hlt : k < j := by omega
        rw [rd, if_pos (indConv_lt hj hkj), hm k hlt j hj hkj, Option.bind_some]
        exact ih (k + 1) (by omega) (by omega)
  exact key M 0 (by omega) (Nat.zero_le _)

theorem oLoop_eq (o : Ops α τ σd σ ρ) {M : ℕ} {m : Packed τ} {L : Mem τ} {i j : ℕ} (hi : i < M) (hj : j ≤ i)
    (hm : HoldsCols M m L j) (s0 : σ) :
    oLoop o M m i j M 0 s0 = some (forUp (fun k s => o.oStep s (L i k) (L j k)) j s0) := by
  have key : ∀ n k, k + n = M → k ≤ j → oLoop o M m i j n k (forUp (fun k s => o.oStep s (L i k) (L j k)) k s0) =
      some (forUp (fun k s => o.oStep s (L i k) (L j k)) j s0) := by
    intro n
    induction n with
    | zero => intro k hk hkj; omega
    | succ n ih =>
      intro k hk hkj
      rw [oLoop]
      split_ifs with h
      · rw [h]
      · have hlt : k < j := by omega
        rw [rd, if_pos (indConv_lt hi (by omega)), hm k hlt i hi (by omega), Option.bind_some,
          rd, if_pos (indConv_lt (by omega) hkj), hm k hlt j (by omega) hkj, Option.bind_some]
        exact ih (k + 1) (by omega) (by omega)
  exact key M 0 (by omega) (Nat.zero_le _)

theorem holds_put {M : ℕ} {m : Packed τ} {L : Mem τ} {i j : ℕ} (hi : i < M) (hj : j ≤ i) (hm : HoldsCols M m L j) (v : τ) :
    HoldsCols M (fun k => if k = indConv M i j then some v else m k) L j := by
  intro k hk i' hi' hki
  simp only
  rw [if_neg, hm k hk i' hi' hki]
  intro h
  have := (indConv_inj hi' hki hi hj h).2
  omega

/-- The row loop fills column `j` from row `n` down to row `j+1`. -/
theorem rowLoop_eq (o : Ops α τ σd σ ρ) {M : ℕ} (A : Mem α) {L : Mem τ} {j : ℕ} (r : ρ) :
    ∀ (n : ℕ) (m : Packed τ), n < M → j ≤ n → HoldsCols M m L j → ∃ m', rowLoop o M A j r n m = some m' ∧
      HoldsCols M m' L j ∧ (∀ i, j < i → i ≤ n → m' (indConv M i j) =
        some (o.off r (forUp (fun k s => o.oStep s (L i k) (L j k)) j (o.oInit (A i j))))) ∧
      (∀ i < M, j ≤ i → (i = j ∨ n < i) → m' (indConv M i j) = m (indConv M i j)) := by
  intro n
  induction n with
  | zero =>
    intro m _ hj hm
    exact ⟨m, rfl, hm, fun i h1 h2 => by omega, fun i _ _ _ => rfl⟩
  | succ n ih =>
    intro m hn hj hm
    rw [rowLoop, oLoop_eq o hn hj hm, Option.bind_some]
    split_ifs with h
    · exact ⟨m, rfl, hm, fun i h1 h2 => by omega, fun i _ _ _ => rfl⟩
    · rw [wr, if_pos (indConv_lt hn hj), Option.bind_some]
      obtain ⟨m', e1, e2, e3, e4⟩ := ih _ (by omega) (by omega) (holds_put hn hj hm _)
      refine ⟨m', e1, e2, ?_, ?_⟩
      · intro i h1 h2
        rcases Nat.lt_or_ge i (n + 1) with hlt | hge
        · exact e3 i h1 (by omega)
        · obtain rfl : i = n + 1 := by omega
          rw [e4 (n + 1) hn hj (Or.inr (by omega)), if_pos rfl]
      · intro i hi hji hc
        rw [e4 i hi hji (by omega), if_neg]
        intro he
        have := (indConv_inj hi hji hn hj he).1
        omega

theorem forUp_congr {β : Type*} {f g : ℕ → β → β} {n : ℕ} (h : ∀ k < n, ∀ s, f k s = g k s) (s : β) :
    forUp f n s = forUp g n s := by
  induction n with
  | zero => rfl
  | succ n ih => rw [forUp, forUp, ih fun k hk => h k (by omega), h n (by omega)]

theorem columns_eq (o : Ops α τ σd σ ρ) (M : ℕ) (A : Mem α) (L0 : Mem τ) (p0 : ℕ → σd) :
    ∀ c ≤ M, ∃ m b L p, forUp (fun j st => Option.bind st (column o M A j)) c (some (fun _ => none, true)) = some (m, b) ∧
      Crout o M A L p c ∧ HoldsCols M m L c ∧ (b = true ↔ ∀ j < c, o.nonPos (p j) = false) := by
  intro c
  induction c with
  | zero =>
    intro _
    exact ⟨fun _ => none, true, L0, p0, rfl, ⟨fun j h => by omega, fun j h => by omega, fun j h => by omega⟩,
      fun k h => by omega, by simp⟩
  | succ c ih =>
    intro hc
    obtain ⟨m, b, L, p, e, hC, hm, hb⟩ := ih (by omega)
    have hcM : c < M := by omega
    rw [forUp, e, Option.bind_some, column, dLoop_eq o hcM hm, Option.bind_some]
    set s := forUp (fun k s => o.dStep s (L c k)) c (o.dInit (A c c)) with hs
    rw [wr, if_pos (indConv_lt hcM le_rfl), Option.bind_some]
    obtain ⟨m', e1, e2, e3, e4⟩ := rowLoop_eq o A (o.recip s) (M - 1) _ (by omega) (by omega)
      (holds_put hcM le_rfl hm (o.diag s))
    rw [e1]
    let L' : Mem τ := fun i k => if k = c then
      (if i = c then o.diag s
        else o.off (o.recip s) (forUp (fun k s => o.oStep s (L i k) (L c k)) c (o.oInit (A i c)))) else L i k
    let p' : ℕ → σd := fun j => if j = c then s else p j
    have hL : ∀ i k, k < c → L' i k = L i k := fun i k hk => by simp only [L']; rw [if_neg (by omega)]
    have hp : ∀ j < c, p' j = p j := fun j hj => by simp only [p']; rw [if_neg (by omega)]
    have hpc : p' c = s := by simp [p']
    refine ⟨m', b && !o.nonPos s, L', p', rfl, ⟨?_, ?_, ?_⟩, ?_, ?_⟩
    · intro j hj
      rcases Nat.lt_or_ge j c with h | h
      · rw [hp j h, hC.pivot j h]
        exact forUp_congr (fun k hk s => by rw [hL j k (by omega)]) _
      · obtain rfl : j = c := by omega
        rw [hpc, hs]
        exact forUp_congr (fun k hk s => by rw [hL j k hk]) _
    · intro j hj
      rcases Nat.lt_or_ge j c with h | h
      · rw [hp j h, hL j j h, hC.diag j h]
      · obtain rfl : j = c := by omega
        rw [hpc]; simp [L']
    · intro j hj i hi hji
      rcases Nat.lt_or_ge j c with h | h
      · rw [hp j h, hL i j h, hC.below j h i hi hji]
        congr 1
        exact forUp_congr (fun k hk s => by rw [hL i k (by omega), hL j k (by omega)]) _
      · obtain rfl : j = c := by omega
        rw [hpc]
        have : L' i j = o.off (o.recip s) (forUp (fun k s => o.oStep s (L i k) (L j k)) j (o.oInit (A i j))) := by
          simp only [L', if_true]; rw [if_neg (by omega)]
        rw [this]
        congr 1
        exact forUp_congr (fun k hk s => by rw [hL i k hk, hL j k hk]) _
    · intro k hk i hi hki
      rcases Nat.lt_or_ge k c with h | h
      · rw [e2 k h i hi hki, hL i k h]
      · obtain rfl : k = c := by omega
        rcases Nat.eq_or_lt_of_le hki with rfl | hlt
        · rw [e4 k hcM le_rfl (Or.inl rfl), if_pos rfl]; simp [L']
        · rw [e3 i hlt (by omega)]; simp only [L', if_true]; rw [if_neg (by omega)]
    · rw [Bool.and_eq_true, hb, Bool.not_eq_true']
      constructor
      · rintro ⟨h1, h2⟩ j hj
        rcases Nat.lt_or_ge j c with h | h
        · rw [hp j h]; exact h1 j h
        · obtain rfl : j = c := by omega
          rw [hpc]; exact h2
      · intro h
        exact ⟨fun j hj => by have := h j (by omega); rwa [hp j hj] at this,
          by have := h c (by omega); rwa [hpc] at this⟩

theorem outputLoop_eq (o : Ops α τ σd σ ρ) (M : ℕ) {m : Packed τ} {L' : Mem τ} (b : Bool) (L : Mem τ)
    (hm : HoldsCols M m L' M) : ∃ R, outputLoop o M m b L = some R ∧ ∀ i j, R i j =
      if i < M ∧ j < M then (if j > i ∨ b = false then o.zero else L' i j) else L i j := by
  have inner : ∀ (r : ℕ) (hr : r < M) (n : ℕ), n ≤ M → ∀ L : Mem τ, ∃ R,
      forUp (fun j (L : Option (Mem τ)) => L.bind fun L => if j > r ∨ b = false then some (L.put r j o.zero)
        else (rd M m (indConv M r j)).map fun x => L.put r j x) n (some L) = some R ∧
      ∀ i j, R i j = if i = r ∧ j < n then (if j > r ∨ b = false then o.zero else L' i j) else L i j := by
    intro r hr n
    induction n with
    | zero => intro _ L; exact ⟨L, rfl, by simp⟩
    | succ n ih =>
      intro hn L
      obtain ⟨R, e1, e2⟩ := ih (by omega) L
      rw [forUp, e1, Option.bind_some]
      have : ∃ v, (if n > r ∨ b = false then some (R.put r n o.zero)
          else (rd M m (indConv M r n)).map fun x => R.put r n x) = some (R.put r n v) ∧
          v = if n > r ∨ b = false then o.zero else L' r n := by
        split_ifs with h
        · exact ⟨_, rfl, rfl⟩
        · have hle : n ≤ r := by omega
          rw [rd, if_pos (indConv_lt hr hle), hm n (by omega) r hr hle]
          exact ⟨_, rfl, rfl⟩
      obtain ⟨v, ev, hv⟩ := this
      refine ⟨_, ev, ?_⟩
      intro i j
      unfold Mem.put
      by_cases h1 : i = r
      · by_cases h2 : j = n
        · rw [if_pos ⟨h1, h2⟩, if_pos ⟨h1, by omega⟩, h1, h2, hv]
        · rw [if_neg (by tauto), e2]
          by_cases h3 : j < n
          · rw [if_pos ⟨h1, h3⟩, if_pos (show i = r ∧ j < n + 1 from ⟨h1, by omega⟩)]
          · rw [if_neg (by tauto), if_neg (by omega)]
      · rw [if_neg (by tauto), e2, if_neg (by tauto), if_neg (by tauto)]
  have outer : ∀ n ≤ M, ∃ R, forUp (fun i L => forUp (fun j (L : Option (Mem τ)) => L.bind fun L =>
      if j > i ∨ b = false then some (L.put i j o.zero)
      else (rd M m (indConv M i j)).map fun x => L.put i j x) M L) n (some L) = some R ∧
      ∀ i j, R i j = if i < n ∧ j < M then (if j > i ∨ b = false then o.zero else L' i j) else L i j := by
    intro n
    induction n with
    | zero => intro _; exact ⟨L, rfl, by simp⟩
    | succ n ih =>
      intro hn
      obtain ⟨R, e1, e2⟩ := ih (by omega)
      obtain ⟨R', f1, f2⟩ := inner n (by omega) M le_rfl R
      refine ⟨R', by rw [forUp, e1, f1], ?_⟩
      intro i j
      rw [f2, e2]
      by_cases h1 : i = n
      · subst h1
        by_cases h2 : j < M
        · rw [if_pos ⟨rfl, h2⟩, if_pos (show i < i + 1 ∧ j < M from ⟨by omega, h2⟩)]
        · rw [if_neg (by tauto), if_neg (by tauto), if_neg (by tauto)]
      · rw [if_neg (by tauto)]
        by_cases h2 : i < n ∧ j < M
        · rw [if_pos h2, if_pos (show i < n + 1 ∧ j < M from ⟨by omega, h2.2⟩)]
        · rw [if_neg h2, if_neg (by omega)]
  exact outer M le_rfl

/-- `ac_chol_d` computes the recurrences in all columns. -/
theorem chol_eq (o : Ops α τ σd σ ρ) (M : ℕ) (A : Mem α) (L : Mem τ) (p0 : ℕ → σd) :
    ∃ R L' p, chol o M A L = some R ∧ Crout o M A L' p M ∧
      ∀ i j, R i j = if i < M ∧ j < M then
        (if j > i ∨ ¬ (∀ k < M, o.nonPos (p k) = false) then o.zero else L' i j) else L i j := by
  obtain ⟨m, b, L', p, e, hC, hm, hb⟩ := columns_eq o M A L p0 M le_rfl
  obtain ⟨R, e1, e2⟩ := outputLoop_eq o M b L hm
  refine ⟨R, L', p, by unfold chol columns; rw [e, Option.bind_some, e1], hC, ?_⟩
  intro i j
  rw [e2]
  have : b = false ↔ ¬ (∀ k < M, o.nonPos (p k) = false) := by rw [← hb]; cases b <;> simp
  simp only [this]

end Proof.Chol
