import Verif.Model.Array
import Mathlib.Algebra.BigOperators.Group.List.Basic
import Mathlib.Tactic.Ring
import Mathlib.Tactic.Linarith
import Mathlib.Tactic.Push

/-!
# C27: array indexing

`Exact v dims offs access` is the specification of an access function of an array with dimensions `dims`, index offsets `offs`, and
memory at `v`: the index tuples that are accepted are exactly those in the index ranges, every accepted tuple refers to its position in
row-major order, and accepted tuples correspond one to one to the `dims.prod` elements at `v`.
-/

namespace Fftwpp.Arr

/-- The index tuple lies in the ranges `[o,o+n)`. -/
def Valid : List ℕ → List ℤ → List ℤ → Prop
  | [], [], [] => True
  | n :: ns, o :: os, i :: is => (o ≤ i ∧ i < o + n) ∧ Valid ns os is
  | _, _, _ => False

/-- Position of an index tuple in row-major order. -/
def pos : List ℕ → List ℤ → List ℤ → ℤ
  | _ :: ns, o :: os, i :: is => (i - o) * (ns.prod : ℕ) + pos ns os is
  | _, _, _ => 0

structure Exact (v : ℤ) (dims : List ℕ) (offs : List ℤ) (access : List ℤ → Option ℤ) : Prop where
  accepts : ∀ is, (access is).isSome ↔ Valid dims offs is
  rowMajor : ∀ is a, access is = some a → a = v + pos dims offs is
  bounds : ∀ is a, access is = some a → v ≤ a ∧ a < v + (dims.prod : ℕ)
  inj : ∀ is js a, access is = some a → access js = some a → is = js
  surj : ∀ a, v ≤ a → a < v + (dims.prod : ℕ) → ∃ is, access is = some a

theorem pos_bounds : ∀ {dims offs is}, Valid dims offs is →
    0 ≤ pos dims offs is ∧ pos dims offs is < (dims.prod : ℕ)
  | [], [], [], _ => by simp [pos]
  | n :: ns, o :: os, i :: is, h => by
    obtain ⟨⟨h1, h2⟩, h3⟩ := h
    obtain ⟨h4, h5⟩ := pos_bounds h3
    simp only [pos, List.prod_cons, Nat.cast_mul]
    have h6 : 0 ≤ i - o := by omega
    have h7 : i - o ≤ n - 1 := by omega
    generalize ((ns.prod : ℕ) : ℤ) = P at *
    have hP : 0 ≤ P := by omega
    constructor
    · have := mul_nonneg h6 hP; omega
    · have := mul_le_mul_of_nonneg_right h7 hP
      have e : ((n : ℤ) - 1) * P = n * P - P := by ring
      omega
  | [], [], _ :: _, h => by simp [Valid] at h
  | [], _ :: _, _, h => by simp [Valid] at h
  | _ :: _, [], _, h => by simp [Valid] at h
  | _ :: _, _ :: _, [], h => by simp [Valid] at h

theorem pos_inj : ∀ {dims offs is js}, Valid dims offs is → Valid dims offs js →
    pos dims offs is = pos dims offs js → is = js
  | [], [], [], [], _, _, _ => rfl
  | n :: ns, o :: os, i :: is, j :: js, h, h', e => by
    obtain ⟨⟨h1, h2⟩, h3⟩ := h
    obtain ⟨⟨h1', h2'⟩, h3'⟩ := h'
    obtain ⟨h4, h5⟩ := pos_bounds h3
    obtain ⟨h4', h5'⟩ := pos_bounds h3'
    simp only [pos] at e
    have hij : i = j := by
      generalize ((ns.prod : ℕ) : ℤ) = P at *
      rcases lt_trichotomy i j with h | h | h
      · exfalso; nlinarith
      · exact h
      · exfalso; nlinarith
    subst hij
    rw [pos_inj h3 h3' (by omega)]
  | [], [], _ :: _, _, h, _, _ => by simp [Valid] at h
  | [], [], [], _ :: _, _, h, _ => by simp [Valid] at h
  | [], _ :: _, _, _, h, _, _ => by simp [Valid] at h
  | _ :: _, [], _, _, h, _, _ => by simp [Valid] at h
  | _ :: _, _ :: _, [], _, h, _, _ => by simp [Valid] at h
  | _ :: _, _ :: _, _ :: _, [], _, h, _ => by simp [Valid] at h

theorem pos_surj : ∀ {dims : List ℕ} {offs : List ℤ}, dims.length = offs.length →
    ∀ a : ℤ, 0 ≤ a → a < (dims.prod : ℕ) → ∃ is, Valid dims offs is ∧ pos dims offs is = a
  | [], [], _, a, h0, h1 => ⟨[], trivial, by simp at h1; simp [pos]; omega⟩
  | n :: ns, o :: os, hl, a, h0, h1 => by
    simp only [List.prod_cons, Nat.cast_mul] at h1
    have hP : (0 : ℤ) < (ns.prod : ℕ) := by
      rcases Nat.eq_zero_or_pos ns.prod with h | h
      · rw [h] at h1; simp at h1; omega
      · exact_mod_cast h
    obtain ⟨is, hv, hp⟩ := pos_surj (dims := ns) (offs := os) (by simpa using hl) (a % (ns.prod : ℕ))
      (Int.emod_nonneg _ hP.ne') (Int.emod_lt_of_pos _ hP)
    refine ⟨(o + a / (ns.prod : ℕ)) :: is, ⟨⟨?_, ?_⟩, hv⟩, ?_⟩
    · have := Int.ediv_nonneg h0 hP.le; omega
    · have := Int.ediv_lt_of_lt_mul hP h1; omega
    · simp only [pos, hp]
      have := Int.mul_ediv_add_emod a (ns.prod : ℕ)
      rw [show o + a / ((ns.prod : ℕ) : ℤ) - o = a / ((ns.prod : ℕ) : ℤ) by ring, mul_comm]
      exact this
  | [], _ :: _, h, _, _, _ => by simp at h
  | _ :: _, [], h, _, _, _ => by simp at h

theorem Exact.of {v : ℤ} {dims offs} {access : List ℤ → Option ℤ} (hl : dims.length = offs.length)
    (h : ∀ is a, access is = some a ↔ Valid dims offs is ∧ a = v + pos dims offs is) : Exact v dims offs access where
  accepts is := by
    rw [Option.isSome_iff_exists]
    constructor
    · rintro ⟨a, ha⟩; exact ((h _ _).1 ha).1
    · intro hv; exact ⟨_, (h _ _).2 ⟨hv, rfl⟩⟩
  rowMajor is a ha := ((h _ _).1 ha).2
  bounds is a ha := by
    obtain ⟨hv, rfl⟩ := (h _ _).1 ha
    have := pos_bounds hv
    omega
  inj is js a ha hb := by
    obtain ⟨hv, e⟩ := (h _ _).1 ha
    obtain ⟨hv', e'⟩ := (h _ _).1 hb
    exact pos_inj hv hv' (by omega)
  surj a h0 h1 := by
    obtain ⟨is, hv, hp⟩ := pos_surj hl (a - v) (by omega) (by omega)
    exact ⟨is, (h _ _).2 ⟨hv, by omega⟩⟩

theorem check_eq {i : ℤ} {n : ℕ} (hn : n < 2 ^ 63) : check i n = if 0 ≤ i ∧ i < n then some () else none := by
  unfold check ptrdiff
  rw [if_pos hn]
  by_cases h : 0 ≤ i ∧ i < (n : ℤ)
  · rw [if_pos h, if_neg (by omega)]
  · rw [if_neg h, if_pos (by omega)]

/-- List forms of the access operators. -/
def on1 (f : ℤ → Option ℤ) : List ℤ → Option ℤ
  | [i] => f i
  | _ => none
def on2 (f : ℤ → ℤ → Option ℤ) : List ℤ → Option ℤ
  | [i, j] => f i j
  | _ => none
def on3 (f : ℤ → ℤ → ℤ → Option ℤ) : List ℤ → Option ℤ
  | [i, j, k] => f i j k
  | _ => none
def on4 (f : ℤ → ℤ → ℤ → ℤ → Option ℤ) : List ℤ → Option ℤ
  | [i, j, k, l] => f i j k l
  | _ => none
def on5 (f : ℤ → ℤ → ℤ → ℤ → ℤ → Option ℤ) : List ℤ → Option ℤ
  | [i, j, k, l, m] => f i j k l m
  | _ => none

theorem exact1 {v : ℤ} {n : ℕ} {o : ℤ} {f : ℤ → Option ℤ}
    (h : ∀ i, f i = if o ≤ i ∧ i < o + n then some (v + (i - o)) else none) :
    Exact v [n] [o] (on1 f) := by
  apply Exact.of rfl
  intro is a
  match is with
  | [] => simp [on1, Valid]
  | [i] =>
    simp only [on1, Valid, pos, h, List.prod_nil, Nat.cast_one]
    split_ifs with h1
    · simp only [Option.some.injEq, h1]; constructor <;> intro e <;> first | exact ⟨⟨⟨trivial, trivial⟩, trivial⟩, by omega⟩ | omega
    · simp; omega
  | i :: j :: is => simp [on1, Valid]

theorem exact2 {v : ℤ} {n1 n2 : ℕ} {o1 o2 : ℤ} {f : ℤ → ℤ → Option ℤ}
    (h : ∀ i j, f i j = if (o1 ≤ i ∧ i < o1 + n1) ∧ (o2 ≤ j ∧ j < o2 + n2) then some (v + ((i - o1) * n2 + (j - o2))) else none) :
    Exact v [n1, n2] [o1, o2] (on2 f) := by
  apply Exact.of rfl
  intro is a
  match is with
  | [] => simp [on2, Valid]
  | [i] => simp [on2, Valid]
  | [i, j] =>
    simp only [on2, Valid, pos, h, List.prod_nil, List.prod_cons, mul_one, Nat.cast_one, add_zero, and_true]
    split_ifs with h1
    · simp only [Option.some.injEq, h1, and_self, true_and]; exact eq_comm
    · simp; omega
  | i :: j :: k :: is => simp [on2, Valid]

theorem exact3 {v : ℤ} {n1 n2 n3 : ℕ} {o1 o2 o3 : ℤ} {f : ℤ → ℤ → ℤ → Option ℤ}
    (h : ∀ i j k, f i j k = if (o1 ≤ i ∧ i < o1 + n1) ∧ (o2 ≤ j ∧ j < o2 + n2) ∧ (o3 ≤ k ∧ k < o3 + n3) then
      some (v + ((i - o1) * (n2 * n3 : ℕ) + ((j - o2) * n3 + (k - o3)))) else none) :
    Exact v [n1, n2, n3] [o1, o2, o3] (on3 f) := by
  apply Exact.of rfl
  intro is a
  match is with
  | [] => simp [on3, Valid]
  | [i] => simp [on3, Valid]
  | [i, j] => simp [on3, Valid]
  | [i, j, k] =>
    simp only [on3, Valid, pos, h, List.prod_nil, List.prod_cons, mul_one, Nat.cast_one, add_zero, and_true]
    split_ifs with h1
    · simp only [Option.some.injEq, h1, and_self, true_and]; exact eq_comm
    · simp; omega
  | i :: j :: k :: l :: is => simp [on3, Valid]

theorem exact4 {v : ℤ} {n1 n2 n3 n4 : ℕ} {o1 o2 o3 o4 : ℤ} {f : ℤ → ℤ → ℤ → ℤ → Option ℤ}
    (h : ∀ i j k l, f i j k l = if (o1 ≤ i ∧ i < o1 + n1) ∧ (o2 ≤ j ∧ j < o2 + n2) ∧ (o3 ≤ k ∧ k < o3 + n3) ∧
        (o4 ≤ l ∧ l < o4 + n4) then
      some (v + ((i - o1) * (n2 * (n3 * n4) : ℕ) + ((j - o2) * (n3 * n4 : ℕ) + ((k - o3) * n4 + (l - o4))))) else none) :
    Exact v [n1, n2, n3, n4] [o1, o2, o3, o4] (on4 f) := by
  apply Exact.of rfl
  intro is a
  match is with
  | [] => simp [on4, Valid]
  | [i] => simp [on4, Valid]
  | [i, j] => simp [on4, Valid]
  | [i, j, k] => simp [on4, Valid]
  | [i, j, k, l] =>
    simp only [on4, Valid, pos, h, List.prod_nil, List.prod_cons, mul_one, Nat.cast_one, add_zero, and_true]
    split_ifs with h1
    · simp only [Option.some.injEq, h1, and_self, true_and]; exact eq_comm
    · simp; omega
  | i :: j :: k :: l :: m :: is => simp [on4, Valid]

theorem exact5 {v : ℤ} {n1 n2 n3 n4 n5 : ℕ} {o1 o2 o3 o4 o5 : ℤ} {f : ℤ → ℤ → ℤ → ℤ → ℤ → Option ℤ}
    (h : ∀ i j k l m, f i j k l m = if (o1 ≤ i ∧ i < o1 + n1) ∧ (o2 ≤ j ∧ j < o2 + n2) ∧ (o3 ≤ k ∧ k < o3 + n3) ∧
        (o4 ≤ l ∧ l < o4 + n4) ∧ (o5 ≤ m ∧ m < o5 + n5) then
      some (v + ((i - o1) * (n2 * (n3 * (n4 * n5)) : ℕ) + ((j - o2) * (n3 * (n4 * n5) : ℕ) + ((k - o3) * (n4 * n5 : ℕ) +
        ((l - o4) * n5 + (m - o5)))))) else none) :
    Exact v [n1, n2, n3, n4, n5] [o1, o2, o3, o4, o5] (on5 f) := by
  apply Exact.of rfl
  intro is a
  match is with
  | [] => simp [on5, Valid]
  | [i] => simp [on5, Valid]
  | [i, j] => simp [on5, Valid]
  | [i, j, k] => simp [on5, Valid]
  | [i, j, k, l] => simp [on5, Valid]
  | [i, j, k, l, m] =>
    simp only [on5, Valid, pos, h, List.prod_nil, List.prod_cons, mul_one, Nat.cast_one, add_zero, and_true]
    split_ifs with h1
    · simp only [Option.some.injEq, h1, and_self, true_and]; exact eq_comm
    · simp; omega
  | i :: j :: k :: l :: m :: n :: is => simp [on5, Valid]

theorem bind_check {α : Type} {i : ℤ} {n : ℕ} (hn : n < 2 ^ 63) (f : Unit → Option α) :
    (check i n).bind f = if 0 ≤ i ∧ i < n then f () else none := by
  rw [check_eq hn]; split_ifs <;> rfl

theorem ite_ite_and {α : Type} (p q : Prop) [Decidable p] [Decidable q] (b : Option α) :
    (if p then (if q then b else none) else none) = if p ∧ q then b else none := by
  by_cases hp : p <;> by_cases hq : q <;> simp [hp, hq]

theorem range_off {i o : ℤ} {n : ℕ} : (0 ≤ i - o ∧ i - o < n) ↔ (o ≤ i ∧ i < o + n) := by omega

/-! ### Classes without offsets -/

/-- `array1`: `A[i]` and `A(i)`. -/
theorem C27_array1 (nx : ℕ) (v : ℤ) (hx : nx < 2 ^ 63) :
    Exact v [nx] [0] (on1 (array1.new nx v).call) ∧ (array1.new nx v).idx = (array1.new nx v).call := by
  refine ⟨exact1 fun i => ?_, rfl⟩
  simp only [array1.call, array1.new, Option.bind_eq_bind, bind_check hx, zero_add, sub_zero]
  rfl

/-- `array2`: `A(i,j)`, the same element as `A[i][j]`, checked or not, and `A(i)` in the whole storage. -/
theorem C27_array2 (nx ny : ℕ) (v : ℤ) (hx : nx < 2 ^ 63) (hy : ny < 2 ^ 63) (hs : nx * ny < 2 ^ 63) :
    Exact v [nx, ny] [0, 0] (on2 (array2.new nx ny v).call) ∧
      (∀ i j, (do ((← (array2.new nx ny v).sub i).idx j)) = (array2.new nx ny v).call i j) ∧
      (∀ i j a, (array2.new nx ny v).call i j = some a → (array2.new nx ny v).row i + j = a) ∧
      Exact v [nx * ny] [0] (on1 (array2.new nx ny v).lin) := by
  refine ⟨exact2 fun i j => ?_, fun i j => ?_, fun i j a h => ?_, exact1 fun i => ?_⟩
  · simp only [array2.call, array2.new, Option.bind_eq_bind, bind_check hx, bind_check hy, zero_add, sub_zero, ite_ite_and]
    rfl
  · simp only [array2.call, array2.sub, array2.new, array1.idx, array1.new, Option.bind_eq_bind, bind_check hx, bind_check hy,
      Option.bind_some, pure]
    split_ifs <;> simp [bind_check hy, *, add_assoc]
  · simp only [array2.call, array2.new, Option.bind_eq_bind, bind_check hx, bind_check hy, pure] at h
    split_ifs at h
    simp only [Option.some.injEq] at h
    simp only [array2.row, array2.new]; omega
  · simp only [array2.lin, array2.new, Option.bind_eq_bind, bind_check hs, zero_add, sub_zero]
    rfl

/-- `array3`. -/
theorem C27_array3 (nx ny nz : ℕ) (v : ℤ) (hx : nx < 2 ^ 63) (hy : ny < 2 ^ 63) (hz : nz < 2 ^ 63) (hs : nx * (ny * nz) < 2 ^ 63) :
    Exact v [nx, ny, nz] [0, 0, 0] (on3 (array3.new nx ny nz v).call) ∧
      (∀ i j k, (do ((← (← (array3.new nx ny nz v).sub i).sub j).idx k)) = (array3.new nx ny nz v).call i j k) ∧
      (∀ i j k a, (array3.new nx ny nz v).call i j k = some a →
        ∃ B, (array3.new nx ny nz v).sub i = some B ∧ B.row j + k = a) ∧
      Exact v [nx * (ny * nz)] [0] (on1 (array3.new nx ny nz v).lin) := by
  refine ⟨exact3 fun i j k => ?_, fun i j k => ?_, fun i j k a h => ?_, exact1 fun i => ?_⟩
  · simp only [array3.call, array3.new, Option.bind_eq_bind, bind_check hx, bind_check hy, bind_check hz, zero_add, sub_zero,
      ite_ite_and, add_assoc]
    rfl
  · simp only [array3.call, array3.sub, array3.new, array2.sub, array2.new, array1.idx, array1.new, Option.bind_eq_bind,
      bind_check hx, bind_check hy, bind_check hz, Option.bind_some, pure]
    split_ifs <;> simp [bind_check hy, bind_check hz, *, add_assoc]
  · simp only [array3.call, array3.new, Option.bind_eq_bind, bind_check hx, bind_check hy, bind_check hz, pure] at h
    split_ifs at h with h1 h2 h3
    simp only [Option.some.injEq] at h
    refine ⟨_, by simp only [array3.sub, array3.new, Option.bind_eq_bind, bind_check hx, if_pos h1]; rfl, ?_⟩
    simp only [array2.row, array2.new]; omega
  · simp only [array3.lin, array3.new, Option.bind_eq_bind, bind_check hs, zero_add, sub_zero]
    rfl

/-- `array4`. -/
theorem C27_array4 (nx ny nz nw : ℕ) (v : ℤ) (hx : nx < 2 ^ 63) (hy : ny < 2 ^ 63) (hz : nz < 2 ^ 63) (hw : nw < 2 ^ 63)
    (hs : nx * (ny * (nz * nw)) < 2 ^ 63) :
    Exact v [nx, ny, nz, nw] [0, 0, 0, 0] (on4 (array4.new nx ny nz nw v).call) ∧
      (∀ i j k l, (do ((← (← (← (array4.new nx ny nz nw v).sub i).sub j).sub k).idx l)) = (array4.new nx ny nz nw v).call i j k l) ∧
      Exact v [nx * (ny * (nz * nw))] [0] (on1 (array4.new nx ny nz nw v).lin) := by
  refine ⟨exact4 fun i j k l => ?_, fun i j k l => ?_, exact1 fun i => ?_⟩
  · simp only [array4.call, array4.new, Option.bind_eq_bind, bind_check hx, bind_check hy, bind_check hz, bind_check hw, zero_add,
      sub_zero, ite_ite_and, add_assoc]
    rfl
  · simp only [array4.call, array4.sub, array4.new, array3.sub, array3.new, array2.sub, array2.new, array1.idx, array1.new,
      Option.bind_eq_bind, bind_check hx, bind_check hy, bind_check hz, bind_check hw, Option.bind_some, pure]
    split_ifs <;> simp [bind_check hy, bind_check hz, bind_check hw, *, add_assoc]
  · simp only [array4.lin, array4.new, Option.bind_eq_bind, bind_check hs, zero_add, sub_zero]
    rfl

/-- `array5`. -/
theorem C27_array5 (nx ny nz nw nv : ℕ) (v : ℤ) (hx : nx < 2 ^ 63) (hy : ny < 2 ^ 63) (hz : nz < 2 ^ 63) (hw : nw < 2 ^ 63)
    (hv : nv < 2 ^ 63) (hs : nx * (ny * (nz * (nw * nv))) < 2 ^ 63) :
    Exact v [nx, ny, nz, nw, nv] [0, 0, 0, 0, 0] (on5 (array5.new nx ny nz nw nv v).call) ∧
      (∀ i j k l m, (do ((← (← (← (← (array5.new nx ny nz nw nv v).sub i).sub j).sub k).sub l).idx m)) =
        (array5.new nx ny nz nw nv v).call i j k l m) ∧
      Exact v [nx * (ny * (nz * (nw * nv)))] [0] (on1 (array5.new nx ny nz nw nv v).lin) := by
  refine ⟨exact5 fun i j k l m => ?_, fun i j k l m => ?_, exact1 fun i => ?_⟩
  · simp only [array5.call, array5.new, Option.bind_eq_bind, bind_check hx, bind_check hy, bind_check hz, bind_check hw,
      bind_check hv, zero_add, sub_zero, ite_ite_and, add_assoc]
    rfl
  · simp only [array5.call, array5.sub, array5.new, array4.sub, array4.new, array3.sub, array3.new, array2.sub, array2.new,
      array1.idx, array1.new, Option.bind_eq_bind, bind_check hx, bind_check hy, bind_check hz, bind_check hw, bind_check hv,
      Option.bind_some, pure]
    split_ifs <;> simp [bind_check hy, bind_check hz, bind_check hw, bind_check hv, *, add_assoc]
  · simp only [array5.lin, array5.new, Option.bind_eq_bind, bind_check hs, zero_add, sub_zero]
    rfl

/-! ### Classes with offsets -/

/-- `Array1`: `A[i]` for `ox <= i < ox+nx`; `A(i)` ignores the offset. -/
theorem C27_Array1 (nx : ℕ) (v ox : ℤ) (hx : nx < 2 ^ 63) :
    Exact v [nx] [ox] (on1 (Array1.new nx v ox).idx) ∧ Exact v [nx] [0] (on1 (Array1.new nx v ox).lin) := by
  refine ⟨exact1 fun i => ?_, exact1 fun i => ?_⟩
  · simp only [Array1.idx, Array1.new, Option.bind_eq_bind, bind_check hx, range_off, pure]
    split_ifs
    · congr 1; ring
    · rfl
  · simp only [Array1.lin, Array1.new, Option.bind_eq_bind, bind_check hx, zero_add, sub_zero]
    rfl

/-- `Array2`. -/
theorem C27_Array2 (nx ny : ℕ) (v ox oy : ℤ) (hx : nx < 2 ^ 63) (hy : ny < 2 ^ 63) (hs : nx * ny < 2 ^ 63) :
    Exact v [nx, ny] [ox, oy] (on2 (Array2.new nx ny v ox oy).call) ∧
      (∀ i j, (do ((← (Array2.new nx ny v ox oy).sub i).idx j)) = (Array2.new nx ny v ox oy).call i j) ∧
      (∀ i j a, (Array2.new nx ny v ox oy).call i j = some a → (Array2.new nx ny v ox oy).row i + j = a) ∧
      Exact v [nx * ny] [0] (on1 (Array2.new nx ny v ox oy).lin) := by
  refine ⟨exact2 fun i j => ?_, fun i j => ?_, fun i j a h => ?_, exact1 fun i => ?_⟩
  · simp only [Array2.call, Array2.new, Option.bind_eq_bind, bind_check hx, bind_check hy, range_off, ite_ite_and, pure]
    split_ifs
    · congr 1; ring
    · rfl
  · simp only [Array2.call, Array2.sub, Array2.new, Array1.idx, Array1.new, Option.bind_eq_bind, bind_check hx, bind_check hy,
      range_off, pure]
    by_cases h1 : ox ≤ i ∧ i < ox + nx
    · simp only [if_pos h1, Option.bind_some, bind_check hy, range_off]
      by_cases h2 : oy ≤ j ∧ j < oy + ny
      · simp only [if_pos h2]; congr 1; ring
      · simp only [if_neg h2]
    · simp only [if_neg h1, Option.bind_none]
  · simp only [Array2.call, Array2.new, Option.bind_eq_bind, bind_check hx, bind_check hy, pure] at h
    split_ifs at h
    simp only [Option.some.injEq] at h
    simp only [Array2.row, Array2.new]; omega
  · simp only [Array2.lin, Array2.new, Option.bind_eq_bind, bind_check hs, zero_add, sub_zero]
    rfl

/-- `Array3`. -/
theorem C27_Array3 (nx ny nz : ℕ) (v ox oy oz : ℤ) (hx : nx < 2 ^ 63) (hy : ny < 2 ^ 63) (hz : nz < 2 ^ 63)
    (hs : nx * (ny * nz) < 2 ^ 63) :
    Exact v [nx, ny, nz] [ox, oy, oz] (on3 (Array3.new nx ny nz v ox oy oz).call) ∧
      (∀ i j k, (do ((← (← (Array3.new nx ny nz v ox oy oz).sub i).sub j).idx k)) = (Array3.new nx ny nz v ox oy oz).call i j k) ∧
      (∀ i j k a, (Array3.new nx ny nz v ox oy oz).call i j k = some a →
        ∃ B, (Array3.new nx ny nz v ox oy oz).sub i = some B ∧ B.row j + k = a) ∧
      Exact v [nx * (ny * nz)] [0] (on1 (Array3.new nx ny nz v ox oy oz).lin) := by
  refine ⟨exact3 fun i j k => ?_, fun i j k => ?_, fun i j k a h => ?_, exact1 fun i => ?_⟩
  · simp only [Array3.call, Array3.new, Option.bind_eq_bind, bind_check hx, bind_check hy, bind_check hz, range_off, ite_ite_and,
      pure]
    split_ifs
    · congr 1; ring
    · rfl
  · simp only [Array3.call, Array3.sub, Array3.new, Array2.sub, Array2.new, Array1.idx, Array1.new, Option.bind_eq_bind,
      bind_check hx, bind_check hy, bind_check hz, range_off, pure]
    by_cases h1 : ox ≤ i ∧ i < ox + nx
    · simp only [if_pos h1, Option.bind_some, bind_check hy, range_off]
      by_cases h2 : oy ≤ j ∧ j < oy + ny
      · simp only [if_pos h2, Option.bind_some, bind_check hz, range_off]
        by_cases h3 : oz ≤ k ∧ k < oz + nz
        · simp only [if_pos h3]; congr 1; ring
        · simp only [if_neg h3]
      · simp only [if_neg h2, Option.bind_none]
    · simp only [if_neg h1, Option.bind_none]
  · simp only [Array3.call, Array3.new, Option.bind_eq_bind, bind_check hx, bind_check hy, bind_check hz, pure] at h
    split_ifs at h with h1 h2 h3
    simp only [Option.some.injEq] at h
    refine ⟨_, by simp only [Array3.sub, Array3.new, Option.bind_eq_bind, bind_check hx, if_pos h1]; rfl, ?_⟩
    simp only [Array2.row, Array2.new, ← h]; ring
  · simp only [Array3.lin, Array3.new, Option.bind_eq_bind, bind_check hs, zero_add, sub_zero]
    rfl

/-- `Array4`. -/
theorem C27_Array4 (nx ny nz nw : ℕ) (v ox oy oz ow : ℤ) (hx : nx < 2 ^ 63) (hy : ny < 2 ^ 63) (hz : nz < 2 ^ 63)
    (hw : nw < 2 ^ 63) (hs : nx * (ny * (nz * nw)) < 2 ^ 63) :
    Exact v [nx, ny, nz, nw] [ox, oy, oz, ow] (on4 (Array4.new nx ny nz nw v ox oy oz ow).call) ∧
      (∀ i j k l, (do ((← (← (← (Array4.new nx ny nz nw v ox oy oz ow).sub i).sub j).sub k).idx l)) =
        (Array4.new nx ny nz nw v ox oy oz ow).call i j k l) ∧
      Exact v [nx * (ny * (nz * nw))] [0] (on1 (Array4.new nx ny nz nw v ox oy oz ow).lin) := by
  refine ⟨exact4 fun i j k l => ?_, fun i j k l => ?_, exact1 fun i => ?_⟩
  · simp only [Array4.call, Array4.new, Option.bind_eq_bind, bind_check hx, bind_check hy, bind_check hz, bind_check hw, range_off,
      ite_ite_and, pure]
    split_ifs
    · congr 1; ring
    · rfl
  · simp only [Array4.call, Array4.sub, Array4.new, Array3.sub, Array3.new, Array2.sub, Array2.new, Array1.idx, Array1.new,
      Option.bind_eq_bind, bind_check hx, bind_check hy, bind_check hz, bind_check hw, range_off, pure]
    by_cases h1 : ox ≤ i ∧ i < ox + nx
    · simp only [if_pos h1, Option.bind_some, bind_check hy, range_off]
      by_cases h2 : oy ≤ j ∧ j < oy + ny
      · simp only [if_pos h2, Option.bind_some, bind_check hz, range_off]
        by_cases h3 : oz ≤ k ∧ k < oz + nz
        · simp only [if_pos h3, Option.bind_some, bind_check hw, range_off]
          by_cases h4 : ow ≤ l ∧ l < ow + nw
          · simp only [if_pos h4]; congr 1; ring
          · simp only [if_neg h4]
        · simp only [if_neg h3, Option.bind_none]
      · simp only [if_neg h2, Option.bind_none]
    · simp only [if_neg h1, Option.bind_none]
  · simp only [Array4.lin, Array4.new, Option.bind_eq_bind, bind_check hs, zero_add, sub_zero]
    rfl

/-- `Array5`. -/
theorem C27_Array5 (nx ny nz nw nv : ℕ) (v ox oy oz ow ov : ℤ) (hx : nx < 2 ^ 63) (hy : ny < 2 ^ 63) (hz : nz < 2 ^ 63)
    (hw : nw < 2 ^ 63) (hv : nv < 2 ^ 63) (hs : nx * (ny * (nz * (nw * nv))) < 2 ^ 63) :
    Exact v [nx, ny, nz, nw, nv] [ox, oy, oz, ow, ov] (on5 (Array5.new nx ny nz nw nv v ox oy oz ow ov).call) ∧
      (∀ i j k l m, (do ((← (← (← (← (Array5.new nx ny nz nw nv v ox oy oz ow ov).sub i).sub j).sub k).sub l).idx m)) =
        (Array5.new nx ny nz nw nv v ox oy oz ow ov).call i j k l m) ∧
      Exact v [nx * (ny * (nz * (nw * nv)))] [0] (on1 (Array5.new nx ny nz nw nv v ox oy oz ow ov).lin) := by
  refine ⟨exact5 fun i j k l m => ?_, fun i j k l m => ?_, exact1 fun i => ?_⟩
  · simp only [Array5.call, Array5.new, Option.bind_eq_bind, bind_check hx, bind_check hy, bind_check hz, bind_check hw,
      bind_check hv, range_off, ite_ite_and, pure]
    split_ifs
    · congr 1; ring
    · rfl
  · simp only [Array5.call, Array5.sub, Array5.new, Array4.sub, Array4.new, Array3.sub, Array3.new, Array2.sub, Array2.new,
      Array1.idx, Array1.new, Option.bind_eq_bind, bind_check hx, bind_check hy, bind_check hz, bind_check hw, bind_check hv,
      range_off, pure]
    by_cases h1 : ox ≤ i ∧ i < ox + nx
    · simp only [if_pos h1, Option.bind_some, bind_check hy, range_off]
      by_cases h2 : oy ≤ j ∧ j < oy + ny
      · simp only [if_pos h2, Option.bind_some, bind_check hz, range_off]
        by_cases h3 : oz ≤ k ∧ k < oz + nz
        · simp only [if_pos h3, Option.bind_some, bind_check hw, range_off]
          by_cases h4 : ow ≤ l ∧ l < ow + nw
          · simp only [if_pos h4, Option.bind_some, bind_check hv, range_off]
            by_cases h5 : ov ≤ m ∧ m < ov + nv
            · simp only [if_pos h5]; congr 1; push_cast; ring
            · simp only [if_neg h5]
          · simp only [if_neg h4, Option.bind_none]
        · simp only [if_neg h3, Option.bind_none]
      · simp only [if_neg h2, Option.bind_none]
    · simp only [if_neg h1, Option.bind_none]
  · simp only [Array5.lin, Array5.new, Option.bind_eq_bind, bind_check hs, zero_add, sub_zero]
    rfl

/-- The hypotheses are met, for instance by a `3 x 4 x 5` array with index ranges `[-1,2)`, `[2,6)`, `[-3,2)`. -/
example : (Array3.new 3 4 5 100 (-1) 2 (-3)).call 1 5 1 = some 159 ∧ (Array3.new 3 4 5 100 (-1) 2 (-3)).call (-1) 2 (-3) = some 100 ∧
    (Array3.new 3 4 5 100 (-1) 2 (-3)).call 2 2 0 = none := by decide

/-- `array1(T *v0)` makes an array of size `SIZE_MAX`, which becomes `-1` in the bounds check: the checking mode rejects every index of
such an array. -/
theorem C27_unsized_refuted (v : ℤ) : ∀ i, (array1.ofPtr v).idx i = none := by
  intro i
  have h : ptrdiff (2 ^ 64 - 1) = -1 := by decide
  have : i < 0 ∨ i ≥ -1 := by omega
  simp only [array1.idx, array1.ofPtr, array1.new, check, h, if_pos this, Option.bind_eq_bind, Option.bind_none]

/-! ### Operations on the diagonal -/

theorem mem_steps {size inc : ℕ} (hi : 0 < inc) : ∀ {start i : ℕ}, i ∈ steps size inc start ↔ i < size ∧ ∃ k, i = start + k * inc := by
  intro start
  fun_induction steps size inc start with
  | case1 start h ih =>
    intro i
    rw [List.mem_cons, ih]
    constructor
    · rintro (rfl | ⟨h1, k, rfl⟩)
      · exact ⟨h.1, 0, by simp⟩
      · exact ⟨h1, k + 1, by ring⟩
    · rintro ⟨h1, k, rfl⟩
      rcases k with _ | k
      · left; simp
      · right; exact ⟨h1, k, by ring⟩
  | case2 start h =>
    intro i
    constructor
    · intro h; simp at h
    · rintro ⟨h1, k, rfl⟩; exfalso; apply h; exact ⟨by omega, hi⟩

theorem nodup_steps {size inc : ℕ} : ∀ {start : ℕ}, (steps size inc start).Nodup := by
  intro start
  fun_induction steps size inc start with
  | case1 start h ih =>
    rw [List.nodup_cons]
    refine ⟨fun hm => ?_, ih⟩
    obtain ⟨_, k, hk⟩ := (mem_steps h.2).1 hm
    omega
  | case2 start h => exact List.nodup_nil

theorem foldl_const {T : Type} (c : T) : ∀ (l : List ℕ) (m : ℕ → T) (i : ℕ),
    l.foldl (fun m i => Function.update m i c) m i = if i ∈ l then c else m i
  | [], m, i => by simp
  | j :: l, m, i => by
    rw [List.foldl_cons, foldl_const c l]
    by_cases h : i ∈ l
    · simp [h]
    · by_cases h' : i = j
      · subst h'; simp
      · simp [h, h']

theorem foldl_add {T : Type} [Add T] (c : T) : ∀ (l : List ℕ) (_ : l.Nodup) (m : ℕ → T) (i : ℕ),
    l.foldl (fun m i => Function.update m i (m i + c)) m i = if i ∈ l then m i + c else m i
  | [], _, m, i => by simp
  | j :: l, hn, m, i => by
    rw [List.nodup_cons] at hn
    rw [List.foldl_cons, foldl_add c l hn.2]
    by_cases h : i ∈ l
    · have : i ≠ j := by rintro rfl; exact hn.1 h
      simp [h, this]
    · by_cases h' : i = j
      · subst h'; simp [h]
      · simp [h, h']

theorem diag2_iff {nx ny ix iy : ℕ} (h : nx ≤ ny + 1) (hx : ix < nx) (hy : iy < ny) :
    ix * ny + iy ∈ steps (nx * ny) (ny + 1) 0 ↔ ix = iy := by
  rw [mem_steps (by omega)]
  constructor
  · rintro ⟨h1, k, hk⟩
    have hkn : k < ny := by
      by_contra hc
      have h2 : ny * (ny + 1) ≤ k * (ny + 1) := Nat.mul_le_mul_right _ (by omega)
      have h3 : nx * ny ≤ (ny + 1) * ny := Nat.mul_le_mul_right _ h
      have h4 : ny * (ny + 1) = (ny + 1) * ny := Nat.mul_comm _ _
      omega
    have e : ix * ny + iy = k * ny + k := by rw [hk]; ring
    have e1 := congrArg (· / ny) e
    have e2 := congrArg (· % ny) e
    simp only [Nat.mul_comm _ ny, Nat.mul_add_div (by omega : 0 < ny), Nat.div_eq_of_lt hy, Nat.div_eq_of_lt hkn,
      Nat.mul_add_mod, Nat.mod_eq_of_lt hy, Nat.mod_eq_of_lt hkn] at e1 e2
    omega
  · rintro rfl
    refine ⟨?_, ix, by ring⟩
    calc ix * ny + ix < ix * ny + ny := by omega
      _ = (ix + 1) * ny := by ring
      _ ≤ nx * ny := Nat.mul_le_mul_right _ hx

/-- `Identity()` makes an `nx x ny` array the identity matrix (ones where `ix=iy`), if `nx <= ny+1`, and changes nothing outside
the array. -/
theorem C27_identity {T : Type} [Zero T] [One T] (nx ny : ℕ) (v : ℤ) (h : nx ≤ ny + 1) (m : ℕ → T) :
    (∀ ix < nx, ∀ iy < ny, identity (array2.new nx ny v) m (ix * ny + iy) = if ix = iy then 1 else 0) ∧
      (∀ i, nx * ny ≤ i → identity (array2.new nx ny v) m i = m i) := by
  refine ⟨fun ix hx iy hy => ?_, fun i hi => ?_⟩
  · simp only [identity, array2.new, foldl_const, diag2_iff h hx hy]
    split_ifs with h1 h2
    · rfl
    · rfl
    · exfalso; apply h2
      rw [List.mem_range]
      calc ix * ny + iy < ix * ny + ny := by omega
        _ = (ix + 1) * ny := by ring
        _ ≤ nx * ny := Nat.mul_le_mul_right _ hx
  · simp only [identity, array2.new, foldl_const]
    rw [if_neg, if_neg]
    · rw [List.mem_range]; omega
    · rw [mem_steps (by omega)]; omega

/-- With more than `ny+1` rows `Identity()` also sets elements off the diagonal: the loop wraps around. -/
theorem C27_identity_refuted : ∃ nx ny ix iy : ℕ, ix < nx ∧ iy < ny ∧ ix ≠ iy ∧
    ∀ (v : ℤ) (m : ℕ → ℤ), identity (array2.new nx ny v) m (ix * ny + iy) = 1 := by
  refine ⟨3, 1, 2, 0, by omega, by omega, by omega, fun v m => ?_⟩
  simp only [identity, array2.new, foldl_const]
  rw [if_pos]
  rw [mem_steps (by omega)]
  exact ⟨by omega, 1, by omega⟩

/-- `A += a` adds `a` to the diagonal of an `nx x ny` array with `nx <= ny+1`, and changes nothing else. -/
theorem C27_addDiag2 {T : Type} [Add T] (nx ny : ℕ) (v : ℤ) (h : nx ≤ ny + 1) (a : T) (m : ℕ → T) :
    (∀ ix < nx, ∀ iy < ny, addDiag (array2.new nx ny v).size (array2.new nx ny v).inc a m (ix * ny + iy) =
        if ix = iy then m (ix * ny + iy) + a else m (ix * ny + iy)) ∧
      (∀ i, nx * ny ≤ i → addDiag (array2.new nx ny v).size (array2.new nx ny v).inc a m i = m i) := by
  refine ⟨fun ix hx iy hy => ?_, fun i hi => ?_⟩
  · simp only [addDiag, array2.new, array2.inc, foldl_add a _ nodup_steps, diag2_iff h hx hy]
  · simp only [addDiag, array2.new, array2.inc, foldl_add a _ nodup_steps]
    rw [if_neg]
    rw [mem_steps (by omega)]; omega

/-- Position `k*inc` of a cube is the `k`-th diagonal position, and the loop stops after `n` of them. -/
theorem mem_cube {n N inc : ℕ} (hn : 0 < n) (h : (n - 1) * inc + 1 = N) (hi : n ≤ inc + 1) (hinc : 0 < inc) {i : ℕ} :
    i ∈ steps N inc 0 ↔ ∃ k < n, i = k * inc := by
  rw [mem_steps hinc]
  constructor
  · rintro ⟨h1, k, hk⟩
    refine ⟨k, ?_, by omega⟩
    by_contra hc
    have h2 : n * inc ≤ k * inc := Nat.mul_le_mul_right _ (by omega)
    have h3 : n * inc = (n - 1) * inc + inc := by
      obtain ⟨n', rfl⟩ : ∃ n', n = n' + 1 := ⟨n - 1, by omega⟩
      simp; ring
    omega
  · rintro ⟨k, hk, rfl⟩
    refine ⟨?_, k, by omega⟩
    have : k * inc ≤ (n - 1) * inc := Nat.mul_le_mul_right _ (by omega)
    omega

/-- `A += a` on a cubic `array3` adds `a` exactly to the elements `(k,k,k)`. -/
theorem C27_addDiag3 {T : Type} [Add T] (n : ℕ) (v : ℤ) (hn : 0 < n) (a : T) (m : ℕ → T) (i : ℕ) :
    ((∃ k < n, i = (k * n + k) * n + k) → addDiag (array3.new n n n v).size (array3.new n n n v).inc a m i = m i + a) ∧
      ((¬ ∃ k < n, i = (k * n + k) * n + k) → addDiag (array3.new n n n v).size (array3.new n n n v).inc a m i = m i) := by
  have key : i ∈ steps (n * (n * n)) (n * n + n + 1) 0 ↔ ∃ k < n, i = (k * n + k) * n + k := by
    rw [mem_cube hn (by obtain ⟨p, rfl⟩ : ∃ p, n = p + 1 := ⟨n - 1, by omega⟩
                        simp; ring) (by nlinarith) (by omega)]
    constructor <;> rintro ⟨k, hk, rfl⟩ <;> exact ⟨k, hk, by ring⟩
  simp only [addDiag, array3.new, array3.inc, foldl_add a _ nodup_steps, key]
  exact ⟨fun h => if_pos h, fun h => if_neg h⟩

/-- `A += a` on a cubic `array4`. -/
theorem C27_addDiag4 {T : Type} [Add T] (n : ℕ) (v : ℤ) (hn : 0 < n) (a : T) (m : ℕ → T) (i : ℕ) :
    ((∃ k < n, i = ((k * n + k) * n + k) * n + k) → addDiag (array4.new n n n n v).size (array4.new n n n n v).inc a m i = m i + a) ∧
      ((¬ ∃ k < n, i = ((k * n + k) * n + k) * n + k) → addDiag (array4.new n n n n v).size (array4.new n n n n v).inc a m i = m i)
        := by
  have key : i ∈ steps (n * (n * (n * n))) (n * (n * n) + n * n + n + 1) 0 ↔ ∃ k < n, i = ((k * n + k) * n + k) * n + k := by
    rw [mem_cube hn (by obtain ⟨p, rfl⟩ : ∃ p, n = p + 1 := ⟨n - 1, by omega⟩
                        simp; ring) (by omega) (by omega)]
    constructor <;> rintro ⟨k, hk, rfl⟩ <;> exact ⟨k, hk, by ring⟩
  simp only [addDiag, array4.new, array4.inc, foldl_add a _ nodup_steps, key]
  exact ⟨fun h => if_pos h, fun h => if_neg h⟩

/-- `A += a` on a cubic `array5`. -/
theorem C27_addDiag5 {T : Type} [Add T] (n : ℕ) (v : ℤ) (hn : 0 < n) (a : T) (m : ℕ → T) (i : ℕ) :
    ((∃ k < n, i = (((k * n + k) * n + k) * n + k) * n + k) →
        addDiag (array5.new n n n n n v).size (array5.new n n n n n v).inc a m i = m i + a) ∧
      ((¬ ∃ k < n, i = (((k * n + k) * n + k) * n + k) * n + k) →
        addDiag (array5.new n n n n n v).size (array5.new n n n n n v).inc a m i = m i) := by
  have key : i ∈ steps (n * (n * (n * (n * n)))) (n * (n * (n * n)) + n * (n * n) + n * n + n + 1) 0 ↔
      ∃ k < n, i = (((k * n + k) * n + k) * n + k) * n + k := by
    rw [mem_cube hn (by obtain ⟨p, rfl⟩ : ∃ p, n = p + 1 := ⟨n - 1, by omega⟩
                        simp; ring) (by omega) (by omega)]
    constructor <;> rintro ⟨k, hk, rfl⟩ <;> exact ⟨k, hk, by ring⟩
  simp only [addDiag, array5.new, array5.inc, foldl_add a _ nodup_steps, key]
  exact ⟨fun h => if_pos h, fun h => if_neg h⟩

/-! ### Assignment -/

theorem bind_checkEqual {α : Type} (a b : ℤ) (f : Unit → Option α) :
    (checkEqual a b).bind f = if a = b then f () else none := by
  unfold checkEqual; split_ifs <;> rfl

theorem isSome_ite {α : Type} (p : Prop) [Decidable p] (x : Option α) : (if p then x else none).isSome ↔ p ∧ x.isSome := by
  by_cases h : p <;> simp [h]

/-- The assignment of an `array3` to an `Array3` is accepted exactly when the shapes agree and the offsets are zero. -/
theorem C27_assign3 (A : Array3) (B : array3) :
    (A.assignChecks B).isSome ↔ (A.nx = B.nx ∧ A.ny = B.ny ∧ A.nz = B.nz) ∧ A.ox = 0 ∧ A.oy = 0 ∧ A.oz = 0 := by
  simp only [Array3.assignChecks, Option.bind_eq_bind, bind_checkEqual]
  simp only [checkEqual, isSome_ite, Option.isSome_some, and_true,
    Nat.cast_inj]
  simp only [and_assoc]

/-- The assignment of an `array4` to an `Array4` of the same shape is accepted only when all four dimensions are equal. -/
theorem C27_assign4_refuted (A : Array4) (B : array4) :
    (A.assignChecks B).isSome ↔ ((A.nx = B.nx ∧ A.ny = B.ny ∧ A.nz = B.nz ∧ A.nw = B.nw) ∧
      (A.ox = 0 ∧ A.oy = 0 ∧ A.oz = 0 ∧ A.ow = 0)) ∧ (A.ny = A.nx ∧ A.nz = A.nx ∧ A.nw = A.nx) := by
  simp only [Array4.assignChecks, Option.bind_eq_bind, bind_checkEqual]
  simp only [checkEqual, isSome_ite, Option.isSome_some, and_true,
    Nat.cast_inj]
  constructor
  · rintro ⟨h1, h2, h3, h4, h5, h6, h7, h8, h9, h10, h11, h12⟩
    exact ⟨⟨⟨h1, h2, h3, h4⟩, h9, h10, h11, h12⟩, h6.trans h1.symm, h7.trans h1.symm, h8.trans h1.symm⟩
  · rintro ⟨⟨⟨h1, h2, h3, h4⟩, h9, h10, h11, h12⟩, h6, h7, h8⟩
    exact ⟨h1, h2, h3, h4, h1, h6.trans h1, h7.trans h1, h8.trans h1, h9, h10, h11, h12⟩

example : ¬ ((Array4.new 2 3 4 5 0 0 0 0 0).assignChecks (array4.new 2 3 4 5 100)).isSome := by decide

end Fftwpp.Arr
