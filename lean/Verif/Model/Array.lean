import Mathlib.Data.List.Basic
import Verif.Ac.Loop

/-! # Model of include/ac_array.h

`ac_array<T,D1,D2,D3>` has one, two or three dimensions; the model takes any list of dimensions `D1, D2, ...`, each
level being the base class `ac_array_b` instantiated with the array of the remaining dimensions as element type.
The degenerate specialization `ac_array<T,0,0,0>` (ac_array.h:226-236) is not modelled. -/

namespace Model.Arr

/-- The contents of an array with the given dimensions; positions beyond the dimension are other memory.
ac_array.h:187-188, 196-208, 214-224 -/
inductive Arr (α : Type) : List ℕ → Type
  /-- An element. -/
  | elem (v : α) : Arr α []
  /-- The member `d` of `ac_array_b`. -/
  | arr {D : ℕ} {ds : List ℕ} (d : ℕ → Arr α ds) : Arr α (D :: ds)

variable {α : Type}

/-- The member `d[i]`. -/
def Arr.at {D : ℕ} {ds : List ℕ} : Arr α (D :: ds) → ℕ → Arr α ds
  | .arr d, i => d i

/-- `d[i] = r`. -/
def Arr.upd {D : ℕ} {ds : List ℕ} (a : Arr α (D :: ds)) (i : ℕ) (r : Arr α ds) : Arr α (D :: ds) :=
  .arr fun k => if k = i then r else a.at k

/-- `a[i][j][k]`. ac_array.h:131-139.  `none`: an index is not below its dimension, or there are not as many indices
as dimensions. -/
def read {ds : List ℕ} : Arr α ds → List ℕ → Option α
  | .elem v, [] => some v
  | .elem _, _ :: _ => none
  | .arr _, [] => none
  | .arr (D := D) d, i :: is => if i < D then read (d i) is else none

/-- `a[i][j][k] = v` through the reference returned by `operator[]`. ac_array.h:131-134 -/
def write {ds : List ℕ} : Arr α ds → List ℕ → α → Option (Arr α ds)
  | .elem _, [], v => some (.elem v)
  | .elem _, _ :: _, _ => none
  | .arr _, [], _ => none
  | .arr (D := D) d, i :: is, v => if i < D then (write (d i) is v).map fun r => (Arr.arr d).upd i r else none

/-- `operator=(const T&)`, the constructor from a value and `set(ival)`: the loop assigns `ival` to every element,
which for an array element is again this operator. ac_array.h:143-147, 149-152, 202-207, 219-223 -/
def setAll : {ds : List ℕ} → Arr α ds → α → Arr α ds
  | [], _, v => .elem v
  | D :: ds, a, v => Ac.forUp (fun i (m : Arr α (D :: ds)) => m.upd i (setAll (m.at i) v)) D a

/-- `set(i, ival)`. ac_array.h:149-152; `none`: the index is not below the dimension. -/
def setAt {D : ℕ} {ds : List ℕ} (a : Arr α (D :: ds)) (i : ℕ) (v : α) : Option (Arr α (D :: ds)) :=
  if i < D then some (a.upd i (setAll (a.at i) v)) else none

/-- `clear(i, dc)`. ac_array.h:160-168; with `dc` the value is that of an uninitialised variable, `junk`. -/
def clear {D : ℕ} {ds : List ℕ} (zero junk : α) (a : Arr α (D :: ds)) (i : ℕ) (dc : Bool) : Option (Arr α (D :: ds)) :=
  if i < D then some (a.upd i (setAll (a.at i) (if dc then junk else zero))) else none

/-- `clearAll(dc)`; the uninitialised variable of the `i`-th call holds `junk i`. ac_array.h:154-158 -/
def clearAll {D : ℕ} {ds : List ℕ} (zero : α) (junk : ℕ → α) (a : Arr α (D :: ds)) (dc : Bool) :
    Option (Arr α (D :: ds)) :=
  Ac.forUp (fun i m => m.bind fun m => clear zero (junk i) m i dc) D (some a)

/-- The loop of `operator==` with its `break`. ac_array.h:173-179 -/
def eqLoop {β : Type} (ne : β → β → Bool) (a b : ℕ → β) : (fuel i : ℕ) → Bool
  | 0, _ => true
  | n + 1, i => if ne (a i) (b i) then false else eqLoop ne a b n (i + 1)

/-- `operator==`; on elements of class type `!=` is `operator!=`, the negation of this operator.
ac_array.h:172-185 -/
def eq [DecidableEq α] : {ds : List ℕ} → Arr α ds → Arr α ds → Bool
  | [], .elem x, .elem y => decide (x = y)
  | D :: _, a, b => eqLoop (fun x y => !eq x y) a.at b.at D 0

/-- `operator!=`. ac_array.h:183-185 -/
def ne [DecidableEq α] {ds : List ℕ} (a b : Arr α ds) : Bool := !eq a b

end Model.Arr
