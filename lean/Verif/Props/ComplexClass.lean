import Verif.Model.ComplexClass
import Mathlib.Analysis.SpecialFunctions.Pow.Real
import Mathlib.Tactic.Ring
import Mathlib.Tactic.FieldSimp
import Mathlib.Tactic.LinearCombination

/-!
# C63: the class `Complex` computes with complex numbers

The specification is Mathlib's field `ℂ`, its exponential and its power function (principal branch).
-/

namespace Fftwpp
namespace Cplx

/-- The complex number an object holds. -/
def Cx.val (x : Cx) : ℂ := ⟨x.re, x.im⟩

@[simp] theorem Cx.val_re (x : Cx) : x.val.re = x.re := rfl
@[simp] theorem Cx.val_im (x : Cx) : x.val.im = x.im := rfl

@[simp] theorem setRe_self (s : Store) (a : ℕ) (x : ℝ) : s.setRe a x a = ⟨x, (s a).im⟩ := by simp [Store.setRe]
@[simp] theorem setIm_self (s : Store) (a : ℕ) (x : ℝ) : s.setIm a x a = ⟨(s a).re, x⟩ := by simp [Store.setIm]
theorem setRe_ne {s : Store} {a c : ℕ} {x : ℝ} (h : c ≠ a) : s.setRe a x c = s c := by simp [Store.setRe, h]
theorem setIm_ne {s : Store} {a c : ℕ} {x : ℝ} (h : c ≠ a) : s.setIm a x c = s c := by simp [Store.setIm, h]

/-- `s'` is `s` with the object at `a` replaced by one that holds `v`. -/
def Becomes (s : Store) (a : ℕ) (v : ℂ) (s' : Store) : Prop := (s' a).val = v ∧ ∀ c ≠ a, s' c = s c

theorem den_ne {y : Cx} (h : y.val ≠ 0) : y.re * y.re + y.im * y.im ≠ 0 := by
  intro e
  exact h (Complex.normSq_eq_zero.1 (by rw [Complex.normSq_apply]; exact e))

theorem div_parts (x y : ℂ) : x / y = ⟨(x.re * y.re + x.im * y.im) / (y.re * y.re + y.im * y.im), (x.im * y.re - x.re * y.im) / (y.re * y.re + y.im * y.im)⟩ := by
  apply Complex.ext
  · rw [Complex.div_re, Complex.normSq_apply]; ring
  · rw [Complex.div_im, Complex.normSq_apply]; ring

/-- **C63**: the compound assignments, whether or not the two sides are the same object. -/
theorem C63_assign (a b : ℕ) (s : Store) (y : ℝ) :
    Becomes s a (s b).val (assign a b s) ∧
    Becomes s a ((s a).val + (s b).val) (addAssign a b s) ∧ Becomes s a ((s a).val + y) (addAssignR a y s) ∧
    Becomes s a ((s a).val - (s b).val) (subAssign a b s) ∧ Becomes s a ((s a).val - y) (subAssignR a y s) ∧
    Becomes s a ((s a).val * (s b).val) (mulAssign a b s) ∧ Becomes s a ((s a).val * y) (mulAssignR a y s) ∧
    ((s b).val ≠ 0 → Becomes s a ((s a).val / (s b).val) (divAssign a b s)) ∧
    (y ≠ 0 → Becomes s a ((s a).val / y) (divAssignR a y s)) := by
  refine ⟨⟨?_, ?_⟩, ⟨?_, ?_⟩, ⟨?_, ?_⟩, ⟨?_, ?_⟩, ⟨?_, ?_⟩, ⟨?_, ?_⟩, ⟨?_, ?_⟩, fun h => ⟨?_, ?_⟩, fun h => ⟨?_, ?_⟩⟩
  case refine_2 | refine_4 | refine_6 | refine_8 | refine_10 | refine_12 | refine_14 | refine_16 | refine_18 =>
    intro c hc
    simp [assign, addAssign, addAssignR, subAssign, subAssignR, mulAssign, mulAssignR, divAssign, divAssignR, setRe_ne hc, setIm_ne hc]
  case refine_5 | refine_9 | refine_13 => apply Complex.ext <;> simp [addAssignR, subAssignR, mulAssignR]
  case refine_17 => rw [div_parts]; apply Complex.ext <;> simp [divAssignR] <;> field_simp
  case refine_15 =>
    rw [div_parts]
    have := den_ne h
    rcases eq_or_ne b a with rfl | hb
    · apply Complex.ext <;> simp [divAssign] <;> field_simp <;> ring
    · apply Complex.ext <;> simp [divAssign] <;> field_simp <;> ring
  all_goals
    rcases eq_or_ne b a with rfl | hb
    · apply Complex.ext <;> simp [assign, addAssign, subAssign, mulAssign]
    · apply Complex.ext <;> simp [assign, addAssign, subAssign, mulAssign, setRe_ne hb, setIm_ne hb]

/-- **C63**: the operators. -/
theorem C63_operators (x y : Cx) (r : ℝ) :
    (neg x).val = -x.val ∧ (conj x).val = (starRingEnd ℂ) x.val ∧
    (add x y).val = x.val + y.val ∧ (addR x r).val = x.val + r ∧ (addL r y).val = r + y.val ∧
    (sub x y).val = x.val - y.val ∧ (subR x r).val = x.val - r ∧ (subL r y).val = r - y.val ∧
    (mul x y).val = x.val * y.val ∧ (mulR x r).val = x.val * r ∧ (mulL r y).val = r * y.val ∧ (multconj x y).val = x.val * (starRingEnd ℂ) y.val := by
  refine ⟨?_, ?_, ?_, ?_, ?_, ?_, ?_, ?_, ?_, ?_, ?_, ?_⟩ <;> apply Complex.ext <;> simp [neg, conj, add, addR, addL, sub, subR, subL, mul, mulR, mulL, multconj] <;> ring

/-- **C63**: the comparisons. -/
theorem C63_eq (x y : Cx) (r : ℝ) : (Eq' x y ↔ x.val = y.val) ∧ (EqR x r ↔ x.val = r) ∧ (Ne' x y ↔ x.val ≠ y.val) ∧ (NeR x r ↔ x.val ≠ r) := by
  refine ⟨?_, ?_, ?_, ?_⟩ <;> simp only [Eq', EqR, Ne', NeR, ne_eq, Complex.ext_iff, Cx.val_re, Cx.val_im, Complex.ofReal_re, Complex.ofReal_im] <;> tauto

/-- **C63**: division by anything but zero. -/
theorem C63_div (x y : Cx) (r : ℝ) :
    (y.val ≠ 0 → (div x y).val = x.val / y.val ∧ (divL r y).val = r / y.val) ∧ (r ≠ 0 → (divR x r).val = x.val / r) := by
  refine ⟨fun h => ⟨?_, ?_⟩, fun h => ?_⟩
  · rw [div_parts]; have := den_ne h; apply Complex.ext <;> simp [div] <;> field_simp <;> ring
  · rw [div_parts]; have := den_ne h; apply Complex.ext <;> simp [divL] <;> field_simp
  · rw [div_parts]; apply Complex.ext <;> simp [divR] <;> field_simp

/-- **C63**: `abs2` is the squared modulus, `abs` the modulus, `realProduct(x,y)` the real part of `conj(x)*y`. -/
theorem C63_abs (x y : Cx) : abs2 x = ‖x.val‖ ^ 2 ∧ abs x = ‖x.val‖ ∧ realProduct x y = ((starRingEnd ℂ) x.val * y.val).re := by
  have h : abs2 x = Complex.normSq x.val := by rw [Complex.normSq_apply]; rfl
  refine ⟨by rw [h, Complex.normSq_eq_norm_sq], ?_, ?_⟩
  · unfold abs; rw [h, Complex.norm_def]
  · simp [realProduct]

/-- **C63**: `expi(t)` is `e^{it}`, `polar(r,t)` is `r e^{it}`, `exp` is the exponential. -/
theorem C63_exp (z : Cx) (r t : ℝ) : (expi t).val = Complex.exp (t * Complex.I) ∧ (polar r t).val = r * Complex.exp (t * Complex.I) ∧ (exp z).val = Complex.exp z.val := by
  refine ⟨?_, ?_, ?_⟩ <;> apply Complex.ext <;> simp [expi, polar, exp, mulL, Complex.exp_re, Complex.exp_im]

/-- `z` is a negative real number. -/
def NegReal (z : Cx) : Prop := z.im = 0 ∧ z.re < 0

/-- **C63**: `arg` is the principal argument, except for negative real numbers. -/
theorem C63_arg {z : Cx} (h : ¬ NegReal z) : arg z = Complex.arg z.val := by
  unfold arg
  split
  · rfl
  · rename_i hi
    rw [not_not] at hi
    have hr : 0 ≤ z.re := by
      by_contra h'
      exact h ⟨hi, not_le.1 h'⟩
    symm
    rw [Complex.arg_eq_zero_iff]
    exact ⟨hr, hi⟩

/-- Of negative real numbers `arg` is 0, not `π`. -/
theorem C63_arg_refuted {z : Cx} (h : NegReal z) : arg z = 0 ∧ Complex.arg z.val = Real.pi := by
  refine ⟨?_, Complex.arg_eq_pi_iff.2 ⟨h.2, h.1⟩⟩
  unfold arg
  rw [if_neg (by rw [not_not]; exact h.1)]

theorem log_abs2 (z : Cx) : 0.5 * Real.log (abs2 z) = Real.log ‖z.val‖ := by
  rw [(C63_abs z z).1, Real.log_pow]
  norm_num
  ring

theorem eqR_zero (z : Cx) : EqR z 0 ↔ z.val = 0 := by
  have := (C63_eq z z 0).2.1
  simpa using this

/-- **C63**: `pow(z,w)` is the principal value of `z^w` (with `0^0=1`), unless `z` is a negative real number. -/
theorem C63_pow {z : Cx} (h : ¬ NegReal z) (w : Cx) (u : ℝ) : (pow z w).val = z.val ^ w.val ∧ (powR z u).val = z.val ^ (u : ℂ) := by
  by_cases hz : z.val = 0
  · rw [hz]
    refine ⟨?_, ?_⟩
    · unfold pow
      rw [if_pos ((eqR_zero z).2 hz)]
      by_cases hw : w.val = 0
      · rw [if_pos ((eqR_zero w).2 hw), hw, Complex.cpow_zero]; apply Complex.ext <;> simp
      · rw [if_neg (fun e => hw ((eqR_zero w).1 e)), Complex.zero_cpow hw]; apply Complex.ext <;> simp
    · unfold powR
      rw [if_pos ((eqR_zero z).2 hz)]
      by_cases hw : u = 0
      · rw [if_pos hw, hw, Complex.ofReal_zero, Complex.cpow_zero]; apply Complex.ext <;> simp
      · rw [if_neg hw, Complex.zero_cpow (Complex.ofReal_ne_zero.2 hw)]; apply Complex.ext <;> simp
  · have hl : ∀ v : ℂ, z.val ^ v = Complex.exp (Complex.log z.val * v) := fun v => Complex.cpow_def_of_ne_zero hz v
    have he : ¬ EqR z 0 := fun e => hz ((eqR_zero z).1 e)
    refine ⟨?_, ?_⟩
    · rw [hl]
      unfold pow
      rw [if_neg he, log_abs2, C63_arg h]
      apply Complex.ext <;> simp [mulL, Complex.exp_re, Complex.exp_im, Complex.log_re, Complex.log_im]
    · rw [hl]
      unfold powR
      rw [if_neg he, log_abs2, C63_arg h]
      apply Complex.ext <;> simp [mulL, Complex.exp_re, Complex.exp_im, Complex.log_re, Complex.log_im] <;> ring_nf

/-- For a negative real number `x` and real `u` the code gives `|x|^u`: `pow(Complex(-1),3)` is 1. -/
theorem C63_pow_refuted :
    (∀ x u : ℝ, x < 0 → (powR ⟨x, 0⟩ u).val = ((-x : ℝ) : ℂ) ^ (u : ℂ) ∧ (pow ⟨x, 0⟩ ⟨u, 0⟩).val = ((-x : ℝ) : ℂ) ^ (u : ℂ)) ∧
    (powR ⟨-1, 0⟩ 3).val = 1 ∧ (pow ⟨-1, 0⟩ ⟨3, 0⟩).val = 1 ∧ (⟨-1, 0⟩ : Cx).val ^ 3 = -1 := by
  have key : ∀ x u : ℝ, x < 0 → (powR ⟨x, 0⟩ u).val = ((-x : ℝ) : ℂ) ^ (u : ℂ) ∧ (pow ⟨x, 0⟩ ⟨u, 0⟩).val = ((-x : ℝ) : ℂ) ^ (u : ℂ) := by
    intro x u hx
    have ha : arg ⟨x, 0⟩ = 0 := (C63_arg_refuted ⟨rfl, hx⟩).1
    have he : ¬ EqR ⟨x, 0⟩ 0 := fun e => hx.ne e.2
    have hn : ‖(⟨x, 0⟩ : Cx).val‖ = -x := by
      rw [show (⟨x, 0⟩ : Cx).val = (x : ℂ) from Complex.ext rfl rfl, Complex.norm_real, Real.norm_eq_abs, abs_of_neg hx]
    have hl : ((-x : ℝ) : ℂ) ^ (u : ℂ) = ((Real.exp (Real.log (-x) * u) : ℝ) : ℂ) := by
      rw [← Complex.ofReal_cpow (by linarith), Real.rpow_def_of_pos (by linarith)]
    rw [hl]
    refine ⟨?_, ?_⟩
    · unfold powR
      rw [if_neg he, log_abs2, ha, hn]
      apply Complex.ext
      · rw [Complex.ofReal_re]; simp [mulL]
      · rw [Complex.ofReal_im]; simp [mulL]
    · unfold pow
      rw [if_neg he, log_abs2, ha, hn]
      apply Complex.ext
      · rw [Complex.ofReal_re]; simp [mulL]
      · rw [Complex.ofReal_im]; simp [mulL]
  refine ⟨key, ?_, ?_, ?_⟩
  · rw [(key (-1) 3 (by norm_num)).1]; simp
  · rw [(key (-1) 3 (by norm_num)).2]; simp
  · rw [show (⟨-1, 0⟩ : Cx).val = -1 from Complex.ext (by simp) (by simp)]; norm_num

/-- **C63**: `sqrt` is the principal square root: its square is the argument, its real part is not negative, and its imaginary part is not negative if its real part is
zero. -/
theorem C63_sqrt (x : Cx) : (sqrt x).val ^ 2 = x.val ∧ 0 ≤ (sqrt x).re ∧ ((sqrt x).re = 0 → 0 ≤ (sqrt x).im) ∧ (sqrt x).val = x.val ^ (1 / 2 : ℂ) := by
  have base : (sqrt x).val ^ 2 = x.val ∧ 0 ≤ (sqrt x).re ∧ ((sqrt x).re = 0 → 0 ≤ (sqrt x).im) := by
    have hm : abs x * abs x = x.re * x.re + x.im * x.im := Real.mul_self_sqrt (by unfold abs2; nlinarith [mul_self_nonneg x.re, mul_self_nonneg x.im])
    have h0 : 0 ≤ abs x := Real.sqrt_nonneg _
    have hle : |x.re| ≤ abs x := abs_le_of_sq_le_sq (by nlinarith [mul_self_nonneg x.im]) h0
    have hle1 : x.re ≤ abs x := (abs_le.1 hle).2
    have hle2 : -x.re ≤ abs x := by linarith [(abs_le.1 hle).1]
    unfold sqrt
    by_cases hz : abs x = 0
    · simp only [hz, if_true]
      have hr : x.re = 0 := by linarith
      have hi : x.im = 0 := by
        rw [hz, hr] at hm
        have : x.im * x.im = 0 := by linarith
        exact mul_self_eq_zero.1 this
      refine ⟨?_, le_refl _, fun _ => le_refl _⟩
      apply Complex.ext <;> simp [pow_two, hr, hi]
    · simp only [hz, if_false]
      by_cases hp : x.re > 0
      · simp only [hp, if_true]
        set q := Real.sqrt (0.5 * (abs x + x.re)) with hq
        have qq : q * q = 0.5 * (abs x + x.re) := Real.mul_self_sqrt (by nlinarith)
        have q0 : 0 < q := Real.sqrt_pos.2 (by nlinarith)
        refine ⟨?_, q0.le, fun e => absurd e q0.ne'⟩
        apply Complex.ext
        · simp [pow_two]
          field_simp
          nlinarith
        · simp [pow_two]
          field_simp
          ring
      · simp only [hp, if_false]
        have hp' : x.re ≤ 0 := not_lt.1 hp
        have hpos : 0 < abs x := lt_of_le_of_ne h0 (Ne.symm hz)
        set q := Real.sqrt (0.5 * (abs x - x.re)) with hq
        have qq : q * q = 0.5 * (abs x - x.re) := Real.mul_self_sqrt (by nlinarith)
        have q0 : 0 < q := Real.sqrt_pos.2 (by nlinarith)
        have sq : ∀ c : ℝ, c * c = q * q → c ≠ 0 → (⟨0.5 * x.im / c, c⟩ : Cx).val ^ 2 = x.val := by
          intro c hc c0
          apply Complex.ext
          · simp [pow_two]
            field_simp
            rw [pow_two] at *
            nlinarith
          · simp [pow_two]
            field_simp
            ring
        split
        · rename_i hi
          refine ⟨sq _ (by ring) (by linarith), ?_, ?_⟩
          · show 0 ≤ 0.5 * x.im / -q
            apply div_nonneg_of_nonpos <;> linarith
          · intro e
            exfalso
            have : 0.5 * x.im / -q = 0 := e
            rw [div_eq_zero_iff] at this
            rcases this with h | h <;> linarith
        · rename_i hi
          refine ⟨sq _ rfl q0.ne', ?_, fun _ => q0.le⟩
          show 0 ≤ 0.5 * x.im / q
          exact div_nonneg (by linarith) q0.le
  obtain ⟨h1, h2, h3⟩ := base
  refine ⟨h1, h2, h3, ?_⟩
  have := Complex.pow_cpow_nat_inv (x := (sqrt x).val) (n := 2) two_ne_zero ?_ ?_
  · rw [h1] at this
    rw [← this]
    congr 1
    norm_num
  · rw [show (-(Real.pi / ((2 : ℕ) : ℝ))) = -(Real.pi / 2) by norm_num]
    rw [Complex.neg_pi_div_two_lt_arg_iff]
    rcases h2.lt_or_eq with h | h
    · exact Or.inl h
    · exact Or.inr (h3 h.symm)
  · rw [show ((2 : ℕ) : ℝ) = 2 by norm_num, Complex.arg_le_pi_div_two_iff]
    exact Or.inl h2

/-! ## Cases meeting the hypotheses -/

example : ¬ NegReal ⟨-1, 1⟩ ∧ NegReal ⟨-1, 0⟩ := ⟨fun h => one_ne_zero h.1, rfl, by norm_num⟩
example : (⟨0, 2⟩ : Cx).val ≠ 0 := fun h => two_ne_zero (congrArg Complex.im h)

end Cplx
end Fftwpp
