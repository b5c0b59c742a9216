import Verif.Model.Array
import Mathlib.Tactic.Tauto

/-! # C28: ac_array -/

namespace Props.Array
open Model.Arr

variable {α : Type}

/-- The indices of an array: one index below each dimension. -/
inductive Valid : List ℕ → List ℕ → Prop
  | nil : Valid [] []
  | cons {d i : ℕ} {ds is : List ℕ} : i < d → Valid ds is → Valid (d :: ds) (i :: is)

theorem valid_cons {d : ℕ} {ds is : List ℕ} (h : Valid (d :: ds) is) :
    ∃ i js, is = i :: js ∧ i < d ∧ Valid ds js := by
  cases h with
  | cons h1 h2 => exact ⟨_, _, rfl, h1, h2⟩

theorem read_cons {d : ℕ} {ds : List ℕ} (a : Arr α (d :: ds)) {i : ℕ} (hi : i < d) (is : List ℕ) :
    read a (i :: is) = read (a.at i) is := by
  cases a with
  | arr f => simp only [Model.Arr.read, if_pos hi, Arr.at]

theorem read_out {d : ℕ} {ds : List ℕ} (a : Arr α (d :: ds)) {i : ℕ} (hi : ¬ i < d) (is : List ℕ) :
    read a (i :: is) = none := by
  cases a with
  | arr f => simp only [Model.Arr.read, if_neg hi]

theorem read_upd {d : ℕ} {ds : List ℕ} (a : Arr α (d :: ds)) (i : ℕ) (r : Arr α ds) {k : ℕ} (hk : k ≠ i) (is : List ℕ) :
    read (a.upd i r) (k :: is) = read a (k :: is) := by
  by_cases h : k < d
  · rw [read_cons _ h, read_cons _ h]; simp only [Arr.upd, Arr.at, if_neg hk]
  · rw [read_out _ h, read_out _ h]

theorem at_upd {d : ℕ} {ds : List ℕ} (a : Arr α (d :: ds)) (i : ℕ) (r : Arr α ds) (k : ℕ) :
    (a.upd i r).at k = if k = i then r else a.at k := by
  simp only [Arr.upd, Arr.at]

/-- Every element can be read. -/
theorem C28_read {ds : List ℕ} (a : Arr α ds) {is : List ℕ} (h : Valid ds is) : ∃ v, read a is = some v := by
  induction ds generalizing is with
  | nil => cases h; cases a with | elem v => exact ⟨v, rfl⟩
  | cons d ds ih =>
    obtain ⟨i, js, rfl, hi, hj⟩ := valid_cons h
    rw [read_cons a hi]
    exact ih (a.at i) hj

/-- Reading after a write: the written element has the value, every other element is unchanged. -/
theorem C28_write {ds : List ℕ} (a : Arr α ds) {is : List ℕ} (h : Valid ds is) (v : α) :
    ∃ a', write a is v = some a' ∧ read a' is = some v ∧ ∀ js, js ≠ is → read a' js = read a js := by
  induction ds generalizing is with
  | nil => cases h; cases a with | elem w => exact ⟨.elem v, rfl, rfl, fun js hjs => by cases js with
      | nil => exact absurd rfl hjs
      | cons _ _ => rfl⟩
  | cons d ds ih =>
    obtain ⟨i, is, rfl, hi, hv⟩ := valid_cons h
    obtain ⟨r, e1, e2, e3⟩ := ih (a.at i) hv
    refine ⟨a.upd i r, ?_, ?_, ?_⟩
    · cases a with
      | arr f =>
        simp only [Arr.at] at e1
        simp only [write, if_pos hi, e1, Option.map_some]
    · rw [read_cons _ hi, at_upd, if_pos rfl]; exact e2
    · intro js hjs
      cases js with
      | nil => cases a; rfl
      | cons j js =>
        by_cases hj : j = i
        · subst hj
          rw [read_cons _ hi, read_cons _ hi, at_upd, if_pos rfl, e3 js (fun h => hjs (by rw [h]))]
        · exact read_upd a i r hj js

/-- `set(v)`, `operator=(v)` and the constructor from a value store `v` in every element. -/
theorem C28_setAll {ds : List ℕ} (a : Arr α ds) (v : α) {is : List ℕ} (h : Valid ds is) :
    read (setAll a v) is = some v := by
  induction ds generalizing is with
  | nil => cases h; rfl
  | cons d ds ih =>
    obtain ⟨i, js, rfl, hi, hj⟩ := valid_cons h
    rw [read_cons _ hi]
    have key : ∀ n i, i < n → ∃ b, (Ac.forUp (fun i (m : Arr α (d :: ds)) => m.upd i (setAll (m.at i) v)) n a).at i =
        setAll b v := by
      intro n
      induction n with
      | zero => intro i hi; omega
      | succ n ihn =>
        intro i hi
        rw [Ac.forUp, at_upd]
        by_cases hin : i = n
        · subst hin; rw [if_pos rfl]; exact ⟨_, rfl⟩
        · rw [if_neg hin]; exact ihn i (by omega)
    obtain ⟨b, hb⟩ := key d i hi
    rw [setAll, hb]
    exact ih b hj

/-- `set(i, v)` stores `v` in every element of the `i`-th part and leaves the others. -/
theorem C28_setAt {d : ℕ} {ds : List ℕ} (a : Arr α (d :: ds)) {i : ℕ} (hi : i < d) (v : α) :
    ∃ a', setAt a i v = some a' ∧ (∀ is, Valid ds is → read a' (i :: is) = some v) ∧
      ∀ k is, k ≠ i → read a' (k :: is) = read a (k :: is) := by
  refine ⟨_, if_pos hi, ?_, fun k is hk => read_upd a i _ hk is⟩
  intro is his
  rw [read_cons _ hi, at_upd, if_pos rfl]
  exact C28_setAll (a.at i) v his

/-- `clear(i)` zeroes the `i`-th part and leaves the others. -/
theorem C28_clear {d : ℕ} {ds : List ℕ} (zero junk : α) (a : Arr α (d :: ds)) {i : ℕ} (hi : i < d) :
    ∃ a', clear zero junk a i false = some a' ∧ (∀ is, Valid ds is → read a' (i :: is) = some zero) ∧
      ∀ k is, k ≠ i → read a' (k :: is) = read a (k :: is) := by
  refine ⟨_, if_pos hi, ?_, fun k is hk => read_upd a i _ hk is⟩
  intro is his
  rw [read_cons _ hi, at_upd, if_pos rfl]
  exact C28_setAll (a.at i) _ his

/-- `clearAll()` zeroes every element. -/
theorem C28_clearAll {d : ℕ} {ds : List ℕ} (zero : α) (junk : ℕ → α) (a : Arr α (d :: ds)) :
    ∃ a', clearAll zero junk a false = some a' ∧ ∀ is, Valid (d :: ds) is → read a' is = some zero := by
  have key : ∀ n ≤ d, ∃ a', Ac.forUp (fun i m => Option.bind m fun m => clear zero (junk i) m i false) n (some a) = some a' ∧
      ∀ i is, i < n → Valid ds is → read a' (i :: is) = some zero := by
    intro n
    induction n with
    | zero => intro _; exact ⟨a, rfl, fun i _ hi => by omega⟩
    | succ n ihn =>
      intro hn
      obtain ⟨m, e1, e2⟩ := ihn (by omega)
      obtain ⟨m', f1, f2, f3⟩ := C28_clear zero (junk n) m (show n < d by omega)
      refine ⟨m', by rw [Ac.forUp, e1]; exact f1, ?_⟩
      intro i is hi his
      by_cases hin : i = n
      · subst hin; exact f2 is his
      · rw [f3 i is hin]; exact e2 i is (by omega) his
  obtain ⟨a', e1, e2⟩ := key d le_rfl
  refine ⟨a', e1, ?_⟩
  intro is his
  obtain ⟨i, js, rfl, hi, hj⟩ := valid_cons his
  exact e2 i js hi hj

theorem eqLoop_iff {β : Type} (ne : β → β → Bool) (a b : ℕ → β) (n : ℕ) :
    ∀ i, eqLoop ne a b n i = true ↔ ∀ k, i ≤ k → k < i + n → ne (a k) (b k) = false := by
  induction n with
  | zero => intro i; simp only [eqLoop, true_iff]; intro k h1 h2; omega
  | succ n ih =>
    intro i
    simp only [eqLoop]
    by_cases h : ne (a i) (b i) = true
    · simp only [h, if_true, Bool.false_eq_true, false_iff]
      intro hc
      rw [hc i le_rfl (by omega)] at h
      exact absurd h (by simp)
    · simp only [h, Bool.false_eq_true, if_false]
      rw [ih (i + 1)]
      constructor
      · intro hk k h1 h2
        by_cases hki : k = i
        · subst hki; simpa using h
        · exact hk k (by omega) (by omega)
      · intro hk k h1 h2
        exact hk k (by omega) (by omega)

/-- `operator==` holds exactly when all elements agree. -/
theorem C28_eq [DecidableEq α] {ds : List ℕ} (a b : Arr α ds) :
    eq a b = true ↔ ∀ is, Valid ds is → read a is = read b is := by
  induction ds with
  | nil =>
    cases a with | elem x => cases b with | elem y =>
    simp only [eq, decide_eq_true_eq]
    constructor
    · intro h is his; cases his; exact congrArg some h
    · intro h; exact Option.some.inj (h [] .nil)
  | cons d ds ih =>
    simp only [eq]
    rw [eqLoop_iff]
    constructor
    · intro h is his
      obtain ⟨i, js, rfl, hi, hj⟩ := valid_cons his
      rw [read_cons _ hi, read_cons _ hi]
      have := h i (Nat.zero_le _) (by omega)
      rw [Bool.not_eq_false'] at this
      exact (ih (a.at i) (b.at i)).mp this js hj
    · intro h k _ hk
      rw [Bool.not_eq_false']
      refine (ih (a.at k) (b.at k)).mpr fun js hj => ?_
      have := h (k :: js) (.cons (by omega) hj)
      rwa [read_cons _ (by omega), read_cons _ (by omega)] at this

/-- `operator!=` is its negation. -/
theorem C28_ne [DecidableEq α] {ds : List ℕ} (a b : Arr α ds) :
    ne a b = true ↔ ∃ is, Valid ds is ∧ read a is ≠ read b is := by
  unfold Model.Arr.ne
  rw [Bool.not_eq_true', ← Bool.not_eq_true, C28_eq]
  push Not
  rfl

/-- A sequence of element writes. -/
def puts {ds : List ℕ} : List (List ℕ × α) → Arr α ds → Option (Arr α ds)
  | [], a => some a
  | (is, v) :: h, a => (write a is v).bind (puts h)

/-- The last value written to an element by a history, if any. -/
def lastWrite (is : List ℕ) (h : List (List ℕ × α)) : Option α := ((h.filter (·.1 = is)).getLast?).map (·.2)

/-- After any history of element writes an element holds the last value written to it, or its old value. -/
theorem C28_history {ds : List ℕ} (h : List (List ℕ × α)) (a : Arr α ds) (hv : ∀ w ∈ h, Valid ds w.1) :
    ∃ a', puts h a = some a' ∧ ∀ is, read a' is = (lastWrite is h).or (read a is) := by
  induction h generalizing a with
  | nil => exact ⟨a, rfl, fun is => by simp [lastWrite]⟩
  | cons w h ih =>
    obtain ⟨is, v⟩ := w
    obtain ⟨b, e1, e2, e3⟩ := C28_write a (hv _ (List.mem_cons_self ..)) v
    obtain ⟨a', f1, f2⟩ := ih b fun w hw => hv w (List.mem_cons_of_mem _ hw)
    refine ⟨a', by rw [puts, e1]; exact f1, fun js => ?_⟩
    rw [f2 js]
    by_cases hj : js = is
    · subst hj
      have : lastWrite js ((js, v) :: h) = (lastWrite js h).or (some v) := by
        unfold lastWrite
        rw [List.filter_cons_of_pos (by simp), List.getLast?_cons]
        cases (h.filter (·.1 = js)).getLast? <;> rfl
      rw [this, e2]
      cases lastWrite js h <;> rfl
    · have : lastWrite js ((is, v) :: h) = lastWrite js h := by
        unfold lastWrite
        rw [List.filter_cons_of_neg (by simpa using fun h => hj h.symm)]
      rw [this, e3 js hj]

/-! The hypotheses are met: element `[1][2]` of a 2 by 3 array. -/

example : Valid [2, 3] [1, 2] := .cons (by omega) (.cons (by omega) .nil)
/-- A 2 by 3 array, for the examples. -/
def arr23 (f : ℕ → ℕ → ℤ) : Arr ℤ [2, 3] := .arr fun i => .arr fun j => .elem (f i j)

example : ∃ a', write (arr23 fun _ _ => 0) [1, 2] 7 = some a' ∧ read a' [1, 2] = some 7 ∧
    ∀ js, js ≠ [1, 2] → read a' js = read (arr23 fun _ _ => 0) js :=
  C28_write _ (.cons (by omega) (.cons (by omega) .nil)) 7
example : eq (arr23 fun _ _ => 0) (arr23 fun i j => if i < 2 ∧ j < 3 then 0 else 5) = true := by decide
example : ne (arr23 fun _ _ => 0) (arr23 fun i j => if i = 1 ∧ j = 2 then 1 else 0) = true := by decide
example : ∀ w ∈ [([1, 2], (7 : ℤ)), ([0, 0], 3), ([1, 2], 9)], Valid [2, 3] w.1 := by
  simp only [List.mem_cons, List.not_mem_nil, or_false, forall_eq_or_imp, forall_eq]
  exact ⟨.cons (by omega) (.cons (by omega) .nil), .cons (by omega) (.cons (by omega) .nil),
    .cons (by omega) (.cons (by omega) .nil)⟩
example : lastWrite [1, 2] [([1, 2], (7 : ℤ)), ([0, 0], 3), ([1, 2], 9)] = some 9 := by decide

end Props.Array
