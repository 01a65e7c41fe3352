import Verif.Proof.CIface
import Verif.Proof.BwdMany

/-! The explicit centered routines (`q=1`). -/

namespace Fftwpp
namespace Cent
open Finset ComplexConjugate
open Fft (copy1 zero1)
variable {o : Cent}

theorem Pre.upd {mem m' : Mem} {f F W : Ptr} {R : Ptr → Prop} (pre : o.Pre mem f F W) (u : mem.Upd m' R) : o.Pre m' f F W :=
  ⟨pre.fF, pre.fW, pre.sep, fun j hj c hc => Mem.valid_of_size u.size (pre.vf j hj c hc),
    fun j hj c hc => Mem.valid_of_size u.size (pre.vF j hj c hc), fun j hj c hc => Mem.valid_of_size u.size (pre.vW j hj c hc)⟩

/-- The command stores `v s c` in row `s`, column `c` of `X` for the rows in `A`. -/
def LoopSpec (o : Cent) (V : Mem → Prop) (X : Ptr) (A : ℕ → Prop) (v : Mem → ℕ → ℕ → ℂ) (cmd : Cmd Unit) : Prop :=
  ∀ mem, V mem → cmd.Ok mem fun _ m' => mem.Upd m' (fun p => ∃ s c, A s ∧ c < o.C ∧ p = X + (o.S * s + c)) ∧
    ∀ s c, A s → c < o.C → m'.val (X + (o.S * s + c)) = v mem s c

theorem LoopSpec.one (hS : o.S = 1) (hC : o.C = 1) {V : Mem → Prop} {X : Ptr} {v : Mem → ℕ → ℕ → ℂ} {a b : ℕ} (e : ℕ → ℕ)
    (he : ∀ i j, e i = e j → i = j) {body : ℕ → Body Unit}
    (hg : ∀ mem, V mem → ∀ s, a ≤ s → s < b → (body s).Good mem ∧ (body s).wrs mem = [(X + e s, v mem (e s) 0)] ∧
      ∀ p ∈ (body s).rds mem, p.buf ≠ X.buf ∨ p = X + e s) :
    o.LoopSpec V X (fun s' => ∃ s, a ≤ s ∧ s < b ∧ s' = e s) v (par (rng a b) body) := by
  intro mem hV
  have hadr : ∀ s, o.S * s + 0 = s := fun s => by rw [hS]; omega
  refine par_at (W := X) e (fun s => v mem (e s) 0) (rng_nodup _ _) ?_ ?_ (fun i _ j _ => he i j) ?_ ?_
  · intro s hs; rw [mem_rng] at hs; exact (hg mem hV s hs.1 hs.2).1
  · intro s hs; rw [mem_rng] at hs; exact (hg mem hV s hs.1 hs.2).2.1
  · intro s hs; rw [mem_rng] at hs; exact (hg mem hV s hs.1 hs.2).2.2
  · intro m' u hv
    refine ⟨u.mono ?_, ?_⟩
    · rintro p ⟨s, hs, rfl⟩
      rw [mem_rng] at hs
      exact ⟨e s, 0, ⟨s, hs.1, hs.2, rfl⟩, by omega, by rw [hadr]⟩
    · rintro s' c ⟨s, h1, h2, rfl⟩ hc
      obtain rfl : c = 0 := by omega
      rw [hadr]
      exact hv s (mem_rng.2 ⟨h1, h2⟩)

theorem LoopSpec.many (hCS : o.C ≤ o.S) {V : Mem → Prop} {X : Ptr} {v : Mem → ℕ → ℕ → ℂ} {a b : ℕ} (e : ℕ → ℕ)
    (he : ∀ i j, e i = e j → i = j) {body : ℕ × ℕ → Body Unit}
    (hg : ∀ mem, V mem → ∀ s c, a ≤ s → s < b → c < o.C → (body (s, c)).Good mem ∧
      (body (s, c)).wrs mem = [(X + (o.S * e s + c), v mem (e s) c)] ∧
      ∀ p ∈ (body (s, c)).rds mem, p.buf ≠ X.buf ∨ p = X + (o.S * e s + c)) :
    o.LoopSpec V X (fun s' => ∃ s, a ≤ s ∧ s < b ∧ s' = e s) v (par (rng2 a b 0 o.C) body) := by
  intro mem hV
  refine par_at (W := X) (fun i => o.S * e i.1 + i.2) (fun i => v mem (e i.1) i.2) (rng2_nodup _ _ _ _) ?_ ?_ ?_ ?_ ?_
  · rintro ⟨s, c⟩ hs; rw [mem_rng2] at hs; exact (hg mem hV s c hs.1.1 hs.1.2 hs.2.2).1
  · rintro ⟨s, c⟩ hs; rw [mem_rng2] at hs; exact (hg mem hV s c hs.1.1 hs.1.2 hs.2.2).2.1
  · rintro ⟨s, c⟩ hs ⟨s', c'⟩ hs' hh
    rw [mem_rng2] at hs hs'
    simp only at hs hs' hh
    obtain ⟨h1, h2⟩ := radix_inj (by omega) (by omega) hh
    rw [he _ _ h1, h2]
  · rintro ⟨s, c⟩ hs; rw [mem_rng2] at hs; exact (hg mem hV s c hs.1.1 hs.1.2 hs.2.2).2.2
  · intro m' u hv
    refine ⟨u.mono ?_, ?_⟩
    · rintro p ⟨⟨s, c⟩, hs, rfl⟩
      rw [mem_rng2] at hs
      exact ⟨e s, c, ⟨s, hs.1.1, hs.1.2, rfl⟩, hs.2.2, rfl⟩
    · rintro s' c ⟨s, h1, h2, rfl⟩ hc
      exact hv (s, c) (mem_rng2.2 ⟨⟨h1, h2⟩, Nat.zero_le _, hc⟩)

theorem WF.explicit (h : o.WF) (hq : o.q = 1) : o.p = 1 ∧ o.P = 1 ∧ o.D = 1 ∧ o.M = o.m ∧ o.n = 1 ∧ o.L ≤ o.m ∧
    o.overwrite = false := by
  have hp : o.p = 1 := by have := h.p_cases; omega
  have hP : o.P = 1 := by unfold P; rw [hp]
  have hn1 : o.n = 1 := by have := h.q_eq; rw [hq, hP] at this; omega
  have hD : o.D = 1 := by have := h.D_valid; have := h.D_pos; omega
  have hM : o.M = o.m := by rw [h.M_eq, hq, Nat.mul_one]
  refine ⟨hp, hP, hD, hM, hn1, ?_, ?_⟩
  · have := h.L_le_M; omega
  · cases how : o.overwrite with
    | false => rfl
    | true => exact absurd hq (h.ow how).1

theorem WF.res_explicit (h : o.WF) (hq : o.q = 1) {r : ℕ} (hv : o.Visit r) : r = 0 ∧ o.rows 0 = 1 ∧ o.res 0 0 = 0 := by
  obtain ⟨hp, hP, hD, hM, hn1, _, _⟩ := h.explicit hq
  obtain ⟨f1, f2, f3, f4, f5, f6, f7, f8, f9⟩ := h.sh_fields
  have hcj : o.sh.conj = false := by rw [h.shw.conj_false_iff, f5]; exact Or.inl hD
  have hr0 : r = 0 := by
    rcases h.sh_visit.2 hv with hv' | ⟨_, hlt⟩
    · exact hv'
    · rw [h.shw.R_nconj hcj, f4] at hlt; omega
  refine ⟨hr0, ?_, ?_⟩
  · unfold rows blks
    rw [hP, if_pos rfl, h.D0_eq_one hD]
  · unfold res sig Fft.res
    rw [hcj, hP]
    simp

/-- The words of the rows of `F` or `W`. -/
theorem WF.reg_explicit (h : o.WF) (hq : o.q = 1) (X : Ptr) {s c : ℕ} (hs : s < o.m) (hc : c < o.C) :
    o.toFft.Reg X (o.P * o.D) (X + (o.S * s + c)) := by
  obtain ⟨hp, hP, hD, hM, hn1, _, _⟩ := h.explicit hq
  exact ⟨s, by rw [hP, hD]; omega, c, hc, rfl⟩

theorem WF.exec_spec (h : o.WF) (hq : o.q = 1) {f F W : Ptr} :
    o.LoopSpec (fun mem => o.Pre mem f F W) F (fun s => s < o.m)
      (fun mem s c => ∑ j ∈ range o.m, mem.val (W + (o.S * j + c)) * w o.m (1 * j * s)) (o.fftm.exec W F) ∧
    o.LoopSpec (fun mem => o.Pre mem f F W) W (fun s => s < o.m)
      (fun mem s c => ∑ j ∈ range o.m, mem.val (F + (o.S * j + c)) * w o.m (-1 * j * s)) (o.ifftm.exec F W) := by
  obtain ⟨hp, hP, hD, hM, hn1, _, _⟩ := h.explicit hq
  have hPD : o.m * (o.P * o.D) = o.m := by rw [hP, hD]; simp
  have key : ∀ (sgn : ℤ) (X Y : Ptr) (pl : Plan), (pl = if o.S = 1 then ⟨o.m, sgn, 1, 1, 0, o.inplace⟩ else ⟨o.m, sgn, o.C, o.S, 1, o.inplace⟩) →
      (∀ mem, o.Pre mem f F W → SepPtr o.inplace X Y ∧ (∀ i < o.m, ∀ c < o.C, mem.valid (X + (o.S * i + c))) ∧
        (∀ i < o.m, ∀ c < o.C, mem.valid (Y + (o.S * i + c)))) →
      o.LoopSpec (fun mem => o.Pre mem f F W) Y (fun s => s < o.m)
      (fun mem s c => ∑ j ∈ range o.m, mem.val (X + (o.S * j + c)) * w o.m (sgn * j * s)) (pl.exec X Y) := by
    rintro sgn X Y pl rfl hpre mem pre
    obtain ⟨hsep, vX, vY⟩ := hpre mem pre
    split_ifs with hS
    · have hC := h.C_one hS
      have hadr : ∀ s, o.S * s + 0 = s := fun s => by rw [hS]; omega
      refine exec_one hsep (fun i hi => by have := vX i hi 0 h.C_pos; rwa [hadr] at this)
        (fun i hi => by have := vY i hi 0 h.C_pos; rwa [hadr] at this) ?_
      intro m' u e
      refine ⟨u.mono ?_, ?_⟩
      · rintro p ⟨s, hs, rfl⟩; exact ⟨s, 0, hs, h.C_pos, by rw [hadr]⟩
      · intro s c hs hc
        obtain rfl : c = 0 := by omega
        simp only [hadr]
        exact e s hs
    · refine exec_cols h.C_le_S hsep vX vY ?_
      intro m' u e
      refine ⟨u.mono ?_, fun s c hs hc => e s hs c hc⟩
      rintro p ⟨s, hs, c, hc, rfl⟩; exact ⟨s, c, hs, hc, rfl⟩
  constructor
  · refine key 1 W F _ ?_ ?_
    · split_ifs with hS
      · exact (h.fftm_1 hq hS).1
      · exact (h.fftm_many hS).1
    · intro mem pre
      exact ⟨pre.sep, fun i hi => pre.vW i (by omega), fun i hi => pre.vF i (by omega)⟩
  · refine key (-1) F W _ ?_ ?_
    · split_ifs with hS
      · exact (h.fftm_1 hq hS).2
      · exact (h.fftm_many hS).2
    · intro mem pre
      exact ⟨pre.sep.imp (fun h => ⟨h.1, h.2.symm⟩) (fun h => ⟨h.1, h.2.symm⟩), fun i hi => pre.vF i (by omega), fun i hi => pre.vW i (by omega)⟩

theorem w_half {k : ℕ} (hk : 0 < k) (s : ℕ) : w (k * 2) (k * s) = (-1) ^ s := by
  rw [w_base' k 2 (by omega)]
  have h1 : w 2 1 = -1 := by
    unfold w
    have : (2 * Real.pi * Complex.I * ((1 : ℤ) : ℂ) / ((2 : ℕ) : ℂ) : ℂ) = Real.pi * Complex.I := by push_cast; ring
    rw [this]; exact Complex.exp_pi_mul_I
  have := w_pow 2 1 s
  rw [h1, mul_one] at this
  exact this.symm

theorem LoopSpec.congr {V : Mem → Prop} {X : Ptr} {A A' : ℕ → Prop} {v : Mem → ℕ → ℕ → ℂ} {cmd : Cmd Unit}
    (hl : o.LoopSpec V X A v cmd) (hA : ∀ s, A s ↔ A' s) : o.LoopSpec V X A' v cmd := by
  have : A = A' := funext fun s => propext (hA s)
  rwa [← this]

/-- Distinct words of a work array. -/
theorem WF.row_ne (h : o.WF) {X : Ptr} {A : ℕ → Prop} {s c : ℕ} (hs : ¬ A s) (hc : c < o.C) :
    ¬ ∃ s' c', A s' ∧ c' < o.C ∧ X + (o.S * s + c) = X + (o.S * s' + c') := by
  rintro ⟨s', c', hA, hc', e⟩
  rw [Ptr.add_inj] at e
  have := h.C_le_S
  obtain ⟨h1, _⟩ := radix_inj (by omega) (by omega) e
  exact hs (h1 ▸ hA)

/-- The lower end of the data in the padded array. -/
theorem WF.H'_eq (h : o.WF) (hq : o.q = 1) (he : o.M % 2 = 0) : ∃ k, 0 < k ∧ o.m = k * 2 ∧ o.M = k * 2 ∧
    o.H + ceilquotient (o.M - o.L) 2 = k ∧ ceilquotient (o.M - o.L) 2 + o.L ≤ o.m ∧ o.H ≤ o.L := by
  obtain ⟨hp, hP, hD, hM, hn1, hL, _⟩ := h.explicit hq
  have := h.m_pos
  refine ⟨o.M / 2, by omega, by omega, by omega, ?_⟩
  unfold H ceilquotient
  omega

theorem fast_forward (h : o.WF) (hq : o.q = 1) (he : o.M % 2 = 0) {f F W : Ptr} {mem : Mem} (pre : o.Pre mem f F W)
    {z1 cp z2 mu : Cmd Unit} {H' : ℕ} (hH : H' = ceilquotient (o.M - o.L) 2)
    (s1 : o.LoopSpec (fun mem => o.Pre mem f F W) W (fun s => s < H') (fun _ _ _ => 0) z1)
    (s2 : o.LoopSpec (fun mem => o.Pre mem f F W) W (fun s => H' ≤ s ∧ s < H' + o.L) (fun mem s c => mem.val (f + (o.S * (s - H') + c))) cp)
    (s3 : o.LoopSpec (fun mem => o.Pre mem f F W) W (fun s => H' + o.L ≤ s ∧ s < o.m) (fun _ _ _ => 0) z2)
    (s5 : o.LoopSpec (fun mem => o.Pre mem f F W) F (fun s => s < o.m ∧ s % 2 = 1) (fun mem s c => mem.val (F + (o.S * s + c)) * (-1)) mu)
    {r : ℕ} (hv : o.Visit r) :
    (do z1; cp; z2; o.fftm.exec W F; mu : Cmd Unit).Ok mem (fun _ m' => o.FwdPost mem m' f F W r) := by
  obtain ⟨rfl, hrow, hres⟩ := h.res_explicit hq hv
  obtain ⟨k, hk, hmk, hMk, hHk, hHL, hHL'⟩ := h.H'_eq hq he
  rw [← hH] at hHk hHL
  have hne : ∀ (A : ℕ → Prop) (j : ℕ), ¬ ∃ s c, A s ∧ c < o.C ∧ f + j = W + (o.S * s + c) := by
    rintro A j ⟨s, c, _, _, e⟩
    exact pre.fW (by simpa using congrArg Ptr.buf e)
  refine Cmd.Ok.bind ((s1 mem pre).mono ?_)
  rintro _ m1 ⟨u1, e1⟩
  refine Cmd.Ok.bind ((s2 m1 (pre.upd u1)).mono ?_)
  rintro _ m2 ⟨u2, e2⟩
  refine Cmd.Ok.bind ((s3 m2 ((pre.upd u1).upd u2)).mono ?_)
  rintro _ m3 ⟨u3, e3⟩
  have pre3 := ((pre.upd u1).upd u2).upd u3
  refine Cmd.Ok.bind (((h.exec_spec hq).1 m3 pre3).mono ?_)
  rintro _ m4 ⟨u4, e4⟩
  refine (s5 m4 (pre3.upd u4)).mono ?_
  rintro _ m5 ⟨u5, e5⟩
  have hW3 : ∀ s c, s < o.m → c < o.C → m3.val (W + (o.S * s + c)) =
      if H' ≤ s ∧ s < H' + o.L then mem.val (f + (o.S * (s - H') + c)) else 0 := by
    intro s c hs hc
    split_ifs with h1
    · rw [u3.frame _ (h.row_ne (by omega) hc), e2 s c h1 hc]; exact u1.frame _ (hne _ _)
    · by_cases h2 : s < H'
      · rw [u3.frame _ (h.row_ne (by omega) hc), u2.frame _ (h.row_ne (by omega) hc), e1 s c h2 hc]
      · exact e3 s c (by omega) hc
  refine ⟨?_, ?_⟩
  · refine (((u1.trans u2 (R := fun p => o.toFft.Reg F (o.P * o.D) p ∨ o.toFft.Reg W (o.P * o.D) p) ?_ ?_).trans u3 (fun _ h => h) ?_).trans u4
      (fun _ h => h) ?_).trans u5 (fun _ h => h) ?_
    · rintro p ⟨s, c, hs, hc, rfl⟩; exact Or.inr (h.reg_explicit hq W (by omega) hc)
    · rintro p ⟨s, c, hs, hc, rfl⟩; exact Or.inr (h.reg_explicit hq W (by omega) hc)
    · rintro p ⟨s, c, hs, hc, rfl⟩; exact Or.inr (h.reg_explicit hq W (by omega) hc)
    · rintro p ⟨s, c, hs, hc, rfl⟩; exact Or.inl (h.reg_explicit hq F (by omega) hc)
    · rintro p ⟨s, c, hs, hc, rfl⟩; exact Or.inl (h.reg_explicit hq F (by omega) hc)
  · intro ρ hρ s hs c hc
    obtain rfl : ρ = 0 := by omega
    rw [hres, Nat.mul_zero, Nat.zero_add, hq]
    have hv5 : m5.val (F + (o.S * s + c)) = m4.val (F + (o.S * s + c)) * (-1) ^ s := by
      by_cases h1 : s % 2 = 1
      · rw [e5 s c ⟨hs, h1⟩ hc, Odd.neg_one_pow (Nat.odd_iff.2 h1)]
      · rw [u5.frame _ (h.row_ne (by omega) hc), Even.neg_one_pow (Nat.even_iff.2 (by omega)), mul_one]
    rw [hv5, e4 s c hs hc]
    beta_reduce
    have hsum : ∑ j ∈ range o.m, m3.val (W + (o.S * j + c)) * w o.m (1 * j * s) =
        ∑ j ∈ range o.L, mem.val (f + (o.S * j + c)) * w o.m (1 * ((H' + j : ℕ) : ℤ) * s) := by
      have : ∀ j ∈ range o.m, m3.val (W + (o.S * j + c)) * w o.m (1 * j * s) =
          if H' ≤ j ∧ j < H' + o.L then mem.val (f + (o.S * (j - H') + c)) * w o.m (1 * j * s) else 0 := by
        intro j hj
        rw [hW3 j c (mem_range.1 hj) hc]
        split_ifs <;> simp
      rw [sum_congr rfl this, ← sum_filter]
      symm
      refine sum_nbij (fun j => H' + j) ?_ ?_ ?_ ?_
      · intro j hj
        rw [mem_range] at hj
        simp only [mem_filter, mem_range]
        omega
      · intro a _ b _ hab
        simpa using hab
      · intro j hj
        simp only [coe_filter, mem_range, Set.mem_setOf_eq] at hj
        refine ⟨j - H', ?_, ?_⟩
        · simp only [coe_range, Set.mem_Iio]; omega
        · simp only; omega
      · intro j _
        rw [Nat.add_sub_cancel_left]
    rw [hsum, sum_mul]
    unfold cdft
    refine sum_congr rfl fun j _ => ?_
    rw [mul_assoc, ← w_half hk s, ← hmk, ← w_add, show o.M = o.m by omega]
    congr 1
    refine w_congr ⟨s, ?_⟩
    rw [hmk]
    have : (H' : ℤ) = k - o.H := by omega
    push_cast
    rw [this]
    ring

theorem fast_backward (h : o.WF) (hq : o.q = 1) (he : o.M % 2 = 0) {f F W : Ptr} {mem : Mem} (pre : o.Pre mem f F W)
    {cp mu : Cmd Unit} {H' : ℕ} (hH : H' = ceilquotient (o.M - o.L) 2)
    (s2 : o.LoopSpec (fun mem => o.Pre mem f F W) f (fun s => s < o.L) (fun mem s c => mem.val (W + (o.S * (H' + s) + c))) cp)
    (s5 : o.LoopSpec (fun mem => o.Pre mem f F W) F (fun s => s < o.m ∧ s % 2 = 1) (fun mem s c => mem.val (F + (o.S * s + c)) * (-1)) mu)
    {r : ℕ} (hv : o.Visit r) :
    (do mu; o.ifftm.exec F W; cp : Cmd Unit).Ok mem (fun _ m' => o.BwdPost mem m' F f W r) := by
  obtain ⟨rfl, hrow, hres⟩ := h.res_explicit hq hv
  obtain ⟨k, hk, hmk, hMk, hHk, hHL, hHL'⟩ := h.H'_eq hq he
  rw [← hH] at hHk hHL
  refine Cmd.Ok.bind ((s5 mem pre).mono ?_)
  rintro _ m1 ⟨u1, e1⟩
  refine Cmd.Ok.bind (((h.exec_spec hq).2 m1 (pre.upd u1)).mono ?_)
  rintro _ m2 ⟨u2, e2⟩
  refine (s2 m2 ((pre.upd u1).upd u2)).mono ?_
  rintro _ m3 ⟨u3, e3⟩
  refine ⟨?_, ?_⟩
  · refine (u1.trans u2 (R := fun p => o.toFft.RegL f p ∨ o.toFft.Reg F (o.P * o.D) p ∨ o.toFft.Reg W (o.P * o.D) p) ?_ ?_).trans u3 (fun _ h => h) ?_
    · rintro p ⟨s, c, hs, hc, rfl⟩; exact Or.inr (Or.inl (h.reg_explicit hq F (by omega) hc))
    · rintro p ⟨s, c, hs, hc, rfl⟩; exact Or.inr (Or.inr (h.reg_explicit hq W (by omega) hc))
    · rintro p ⟨s, c, hs, hc, rfl⟩; exact Or.inl ⟨s, hs, c, hc, rfl⟩
  · intro j hj c hc
    rw [e3 j c hj hc]
    beta_reduce
    rw [e2 (H' + j) c (by omega) hc, if_pos rfl, zero_add, hrow, sum_range_one]
    simp only [hres, Nat.mul_zero, Nat.zero_add, hq]
    refine sum_congr rfl fun s hs => ?_
    rw [mem_range] at hs
    have hv1 : m1.val (F + (o.S * s + c)) = mem.val (F + (o.S * s + c)) * (-1) ^ s := by
      by_cases h1 : s % 2 = 1
      · rw [e1 s c ⟨hs, h1⟩ hc, Odd.neg_one_pow (Nat.odd_iff.2 h1)]
      · rw [u1.frame _ (h.row_ne (by omega) hc), Even.neg_one_pow (Nat.even_iff.2 (by omega)), mul_one]
    rw [hv1, mul_assoc, ← w_half hk s, ← hmk, ← w_add, show o.M = o.m by omega]
    congr 1
    refine w_congr ⟨0, ?_⟩
    have : (H' : ℤ) = k - o.H := by omega
    push_cast
    rw [this]
    ring

theorem odd_iff {m s : ℕ} (hm : m % 2 = 0) : (∃ k, 0 ≤ k ∧ k < m / 2 ∧ s = 2 * k + 1) ↔ s < m ∧ s % 2 = 1 := by
  constructor
  · rintro ⟨k, _, h1, rfl⟩; omega
  · rintro ⟨h1, h2⟩; exact ⟨s / 2, by omega, by omega, by omega⟩

theorem forwardExplicitFast_ok (h : o.WF) (hq : o.q = 1) (he : o.M % 2 = 0) (hS : o.S = 1) {f F W : Ptr} {mem : Mem} {r : ℕ}
    {W? : Option Ptr} (hW : W?.getD F = W) (pre : o.Pre mem f F W) (hv : o.Visit r) :
    (o.forwardExplicitFast f F W?).Ok mem (fun _ m' => o.FwdPost mem m' f F W r) := by
  obtain ⟨hp, hP, hD, hM, hn1, hL, _⟩ := h.explicit hq
  obtain ⟨k, hk, hmk, hMk, hHk, hHL, hHL'⟩ := h.H'_eq hq he
  have hPD : o.m * (o.P * o.D) = o.m := by rw [hP, hD]; simp
  have hC := h.C_one hS
  have hadr : ∀ s, o.S * s + 0 = s := fun s => by rw [hS]; omega
  have vW : ∀ {m1}, o.Pre m1 f F W → ∀ s < o.m, m1.valid (W + s) := fun pre s hs => by
    have := pre.vW s (by omega) 0 h.C_pos; rwa [hadr] at this
  have vF : ∀ {m1}, o.Pre m1 f F W → ∀ s < o.m, m1.valid (F + s) := fun pre s hs => by
    have := pre.vF s (by omega) 0 h.C_pos; rwa [hadr] at this
  have vf : ∀ {m1}, o.Pre m1 f F W → ∀ s < o.L, m1.valid (f + s) := fun pre s hs => by
    have := pre.vf s (by omega) 0 h.C_pos; rwa [hadr] at this
  unfold forwardExplicitFast
  simp only [hW]
  refine fast_forward h hq he pre rfl ?_ ?_ ?_ ?_ hv
  · refine (LoopSpec.one hS hC (fun s => s) (fun _ _ h => h) ?_).congr (by simp)
    intro m1 pre1 s h1 h2
    body_simp
    exact ⟨vW pre1 _ (by omega), fun _ h => h.elim⟩
  · refine (LoopSpec.one hS hC (fun s => ceilquotient (o.M - o.L) 2 + s) (fun _ _ h => by omega) ?_).congr ?_
    · intro m1 pre1 s h1 h2
      body_simp
      rw [hS]
      simp only [Nat.one_mul, Nat.add_zero, Nat.add_sub_cancel_left]
      refine ⟨⟨vf pre1 _ (by omega), vW pre1 _ (by omega)⟩, trivial, ?_⟩
      rintro p rfl; exact Or.inl pre.fW
    · intro s
      constructor
      · rintro ⟨s, _, h2, rfl⟩; omega
      · rintro ⟨h1, h2⟩; exact ⟨s - ceilquotient (o.M - o.L) 2, by omega, by omega, by omega⟩
  · refine (LoopSpec.one hS hC (fun s => s) (fun _ _ h => h) ?_).congr (fun s => by constructor; (rintro ⟨s, h1, h2, rfl⟩; omega); exact fun h => ⟨s, by omega, by omega, rfl⟩)
    intro m1 pre1 s h1 h2
    body_simp
    exact ⟨vW pre1 _ (by omega), fun _ h => h.elim⟩
  · refine (LoopSpec.one hS hC (fun s => 2 * s + 1) (fun _ _ h => by omega) ?_).congr (fun s => odd_iff (by omega))
    intro m1 pre1 s h1 h2
    simp only [mulBy]
    body_simp
    simp only [hadr]
    refine ⟨⟨vF pre1 _ (by omega), vF pre1 _ (by omega)⟩, trivial, ?_⟩
    rintro p rfl; exact Or.inr rfl

theorem forwardExplicitManyFast_ok (h : o.WF) (hq : o.q = 1) (he : o.M % 2 = 0) {f F W : Ptr} {mem : Mem} {r : ℕ}
    {W? : Option Ptr} (hW : W?.getD F = W) (pre : o.Pre mem f F W) (hv : o.Visit r) (hS : o.S ≠ 1) :
    (o.forwardExplicitManyFast f F W?).Ok mem (fun _ m' => o.FwdPost mem m' f F W r) := by
  obtain ⟨hp, hP, hD, hM, hn1, hL, _⟩ := h.explicit hq
  obtain ⟨k, hk, hmk, hMk, hHk, hHL, hHL'⟩ := h.H'_eq hq he
  have hPD : o.m * (o.P * o.D) = o.m := by rw [hP, hD]; simp
  have hCS := h.C_le_S
  unfold forwardExplicitManyFast
  simp only [hW]
  refine fast_forward h hq he pre rfl ?_ ?_ ?_ ?_ hv
  · refine (LoopSpec.many hCS (fun s => s) (fun _ _ h => h) ?_).congr (by simp)
    intro m1 pre1 s c h1 h2 hc
    body_simp
    exact ⟨pre1.vW _ (by omega) c hc, fun _ h => h.elim⟩
  · refine (LoopSpec.many hCS (fun s => ceilquotient (o.M - o.L) 2 + s) (fun _ _ h => by omega) ?_).congr ?_
    · intro m1 pre1 s c h1 h2 hc
      body_simp
      simp only [Nat.add_sub_cancel_left, Nat.mul_add, Nat.add_assoc]
      refine ⟨⟨pre1.vf _ (by omega) c hc, ?_⟩, trivial, ?_⟩
      · have := pre1.vW (ceilquotient (o.M - o.L) 2 + s) (by omega) c hc
        rwa [Nat.mul_add, Nat.add_assoc] at this
      · rintro p rfl; exact Or.inl pre.fW
    · intro s
      constructor
      · rintro ⟨s, _, h2, rfl⟩; omega
      · rintro ⟨h1, h2⟩; exact ⟨s - ceilquotient (o.M - o.L) 2, by omega, by omega, by omega⟩
  · refine (LoopSpec.many hCS (fun s => s) (fun _ _ h => h) ?_).congr (fun s => by constructor; (rintro ⟨s, h1, h2, rfl⟩; omega); exact fun h => ⟨s, by omega, by omega, rfl⟩)
    intro m1 pre1 s c h1 h2 hc
    body_simp
    exact ⟨pre1.vW _ (by omega) c hc, fun _ h => h.elim⟩
  · refine (LoopSpec.many hCS (fun s => 2 * s + 1) (fun _ _ h => by omega) ?_).congr (fun s => odd_iff (by omega))
    intro m1 pre1 s c h1 h2 hc
    simp only [mulBy]
    body_simp
    have := pre1.vF (2 * s + 1) (by omega) c hc
    refine ⟨⟨this, this⟩, ?_⟩
    rintro p rfl; exact Or.inr rfl

theorem backwardExplicitFast_ok (h : o.WF) (hq : o.q = 1) (he : o.M % 2 = 0) (hS : o.S = 1) {f F W : Ptr} {mem : Mem} {r : ℕ}
    {W? : Option Ptr} (hW : W?.getD F = W) (pre : o.Pre mem f F W) (hv : o.Visit r) :
    (o.backwardExplicitFast F f W?).Ok mem (fun _ m' => o.BwdPost mem m' F f W r) := by
  obtain ⟨hp, hP, hD, hM, hn1, hL, _⟩ := h.explicit hq
  obtain ⟨k, hk, hmk, hMk, hHk, hHL, hHL'⟩ := h.H'_eq hq he
  have hPD : o.m * (o.P * o.D) = o.m := by rw [hP, hD]; simp
  have hC := h.C_one hS
  have hadr : ∀ s, o.S * s + 0 = s := fun s => by rw [hS]; omega
  have vW : ∀ {m1}, o.Pre m1 f F W → ∀ s < o.m, m1.valid (W + s) := fun pre s hs => by
    have := pre.vW s (by omega) 0 h.C_pos; rwa [hadr] at this
  have vF : ∀ {m1}, o.Pre m1 f F W → ∀ s < o.m, m1.valid (F + s) := fun pre s hs => by
    have := pre.vF s (by omega) 0 h.C_pos; rwa [hadr] at this
  have vf : ∀ {m1}, o.Pre m1 f F W → ∀ s < o.L, m1.valid (f + s) := fun pre s hs => by
    have := pre.vf s (by omega) 0 h.C_pos; rwa [hadr] at this
  unfold backwardExplicitFast
  simp only [hW]
  refine fast_backward h hq he pre rfl ?_ ?_ hv
  · refine (LoopSpec.one hS hC (fun s => s) (fun _ _ h => h) ?_).congr (by simp)
    intro m1 pre1 s h1 h2
    body_simp
    rw [hS]
    simp only [Nat.one_mul, Nat.add_zero]
    refine ⟨⟨vW pre1 _ (by omega), vf pre1 _ (by omega)⟩, trivial, ?_⟩
    rintro p rfl; exact Or.inl pre.fW.symm
  · refine (LoopSpec.one hS hC (fun s => 2 * s + 1) (fun _ _ h => by omega) ?_).congr (fun s => odd_iff (by omega))
    intro m1 pre1 s h1 h2
    simp only [mulBy]
    body_simp
    simp only [hadr]
    refine ⟨⟨vF pre1 _ (by omega), vF pre1 _ (by omega)⟩, trivial, ?_⟩
    rintro p rfl; exact Or.inr rfl

theorem backwardExplicitManyFast_ok (h : o.WF) (hq : o.q = 1) (he : o.M % 2 = 0) {f F W : Ptr} {mem : Mem} {r : ℕ}
    {W? : Option Ptr} (hW : W?.getD F = W) (pre : o.Pre mem f F W) (hv : o.Visit r) (hS : o.S ≠ 1) :
    (o.backwardExplicitManyFast F f W?).Ok mem (fun _ m' => o.BwdPost mem m' F f W r) := by
  obtain ⟨hp, hP, hD, hM, hn1, hL, _⟩ := h.explicit hq
  obtain ⟨k, hk, hmk, hMk, hHk, hHL, hHL'⟩ := h.H'_eq hq he
  have hPD : o.m * (o.P * o.D) = o.m := by rw [hP, hD]; simp
  have hCS := h.C_le_S
  unfold backwardExplicitManyFast
  simp only [hW]
  refine fast_backward h hq he pre rfl ?_ ?_ hv
  · refine (LoopSpec.many hCS (fun s => s) (fun _ _ h => h) ?_).congr (by simp)
    intro m1 pre1 s c h1 h2 hc
    body_simp
    have := pre1.vW (ceilquotient (o.M - o.L) 2 + s) (by omega) c hc
    rw [Nat.mul_add, Nat.add_assoc] at this
    simp only [Nat.mul_add, Nat.add_assoc]
    refine ⟨⟨this, pre1.vf _ (by omega) c hc⟩, trivial, ?_⟩
    rintro p rfl; exact Or.inl pre.fW.symm
  · refine (LoopSpec.many hCS (fun s => 2 * s + 1) (fun _ _ h => by omega) ?_).congr (fun s => odd_iff (by omega))
    intro m1 pre1 s c h1 h2 hc
    simp only [mulBy]
    body_simp
    have := pre1.vF (2 * s + 1) (by omega) c hc
    refine ⟨⟨this, this⟩, ?_⟩
    rintro p rfl; exact Or.inr rfl

/-- The noncentered view of an explicit centered object. -/
noncomputable def plain (o : Cent) : Fft := { o.toFft with centered := false }

theorem WF.plain (h : o.WF) (hq : o.q = 1) : o.plain.WF := by
  obtain ⟨hp, hP, hD, hM, hn1, hL, how⟩ := h.explicit hq
  have hPf : o.plain.P = 1 := by
    show (if o.p = 2 then 1 else o.p) = 1
    rw [hp]; rfl
  have hc : ∀ b, conjugates 1 1 b = false := by intro b; simp [conjugates]
  have e1 := h.dr_eq
  have e2 := h.R_eq
  unfold Dr at e1
  unfold residueBlocks at e2
  rw [hp, hD, hc] at e1 e2
  constructor
  all_goals first
    | exact h.m_pos | exact h.L_pos | exact h.C_pos | exact h.C_le_S | exact h.M_eq | exact h.L_le_M | exact h.p_ub | exact h.p_lb
    | exact h.n_pos | exact h.D_pos | exact h.b_eq | exact h.Sm_eq | exact h.Cm_eq | exact h.D_valid | exact h.D0_eq
    | exact h.fftm_1 | exact h.fftm_S1 | exact h.fftm_many | exact h.fftm0_eq | exact h.route_eq | rfl | skip
  · show 0 < o.p; omega
  · rw [hPf]; show o.q = 1 * o.n; omega
  · rw [hPf]; show o.l = o.m * 1; rw [h.l_eq, hP]
  · show o.dr = Dr o.p o.D false
    rw [hp, hD]; unfold Dr; rw [hc]; exact e1
  · show o.R = residueBlocks o.p o.n o.D false
    rw [hp, hD]; unfold residueBlocks; rw [hc]; exact e2
  · intro how'
    have : o.overwrite = true := how'
    simp [how] at this
  · show o.pad = _
    rw [if_neg (fun h => h.1 hq)]; exact h.pad_eq
  · intro h2; exact absurd hq h2
  · intro h2; exact absurd hq h2
  · intro h2; have : 2 < o.p := h2; omega
  · intro h2; have : 2 < o.p := h2; omega
  · intro h2; exact absurd hq h2
  · intro h2; have : o.p = 2 := h2; omega
  · intro h2; have : 2 < o.p := h2; omega

theorem WF.plain_post (h : o.WF) (hq : o.q = 1) : o.plain.P * o.plain.D = o.P * o.D ∧ o.plain.Visit 0 ∧ o.plain.rows 0 = 1 ∧ o.plain.res 0 0 = 0 := by
  have hw := h.plain hq
  obtain ⟨hp, hP, hD, hM, hn1, hL, how⟩ := h.explicit hq
  obtain ⟨_, hP', hD', _, _⟩ := hw.explicit hq
  refine ⟨by rw [hP', hD', hP, hD], Or.inl rfl, by rw [hw.rows_D1 hD', hP'], ?_⟩
  rw [hw.res_D1 hD' 0 (by rw [hP']; omega)]; simp

theorem WF.plain_pre (h : o.WF) (hq : o.q = 1) {mem : Mem} {f F W : Ptr} (pre : o.Pre mem f F W) : o.plain.Pre mem f F W := by
  obtain ⟨h1, h2⟩ := h.plain_post hq
  exact ⟨pre.fF, pre.fW, pre.sep, pre.vf, by rw [h1]; exact pre.vF, by rw [h1]; exact pre.vW⟩

theorem slow_forward (h : o.WF) (hq : o.q = 1) {f F W : Ptr} {mem : Mem} {ex mu : Cmd Unit}
    (hex : ex.Ok mem (fun _ m' => o.plain.FwdPost mem m' f F W 0)) (pre : o.Pre mem f F W)
    (s5 : o.LoopSpec (fun mem => o.Pre mem f F W) F (fun s => s < o.m) (fun mem s c => mem.val (F + (o.S * s + c)) * w o.M (-(o.H * s))) mu)
    {r : ℕ} (hv : o.Visit r) :
    (do ex; mu : Cmd Unit).Ok mem (fun _ m' => o.FwdPost mem m' f F W r) := by
  obtain ⟨rfl, hrow, hres⟩ := h.res_explicit hq hv
  obtain ⟨hp, hP, hD, hM, hn1, hL, how⟩ := h.explicit hq
  obtain ⟨g1, g2, g3, g4⟩ := h.plain_post hq
  refine Cmd.Ok.bind (hex.mono ?_)
  rintro _ m1 ⟨u1, e1, _⟩
  rw [g1] at u1
  refine (s5 m1 (pre.upd u1)).mono ?_
  rintro _ m2 ⟨u2, e2⟩
  refine ⟨u1.trans u2 (fun _ h => h) ?_, ?_⟩
  · rintro p ⟨s, c, hs, hc, rfl⟩; exact Or.inl (h.reg_explicit hq F (by omega) hc)
  · intro ρ hρ s hs c hc
    obtain rfl : ρ = 0 := by omega
    have := e1 0 (by omega) s hs c hc
    rw [g4] at this
    rw [hres, Nat.mul_zero, Nat.zero_add, e2 s c hs hc]
    rw [Nat.mul_zero, Nat.zero_add] at this
    have h2 : m1.val (F + (o.S * s + c)) = paddedDFT o.M o.L (fun j => mem.val (f + (o.S * j + c))) (o.q * s + 0) := this
    beta_reduce
    rw [h2, hq]
    unfold paddedDFT cdft
    rw [sum_mul]
    refine sum_congr rfl fun j _ => ?_
    rw [mul_assoc, ← w_add]
    congr 2
    push_cast
    ring

theorem slow_backward (h : o.WF) (hq : o.q = 1) {f F W : Ptr} {mem : Mem} {ex mu : Cmd Unit}
    (hex : ∀ m1, o.Pre m1 f F W → ex.Ok m1 (fun _ m' => o.plain.BwdPost m1 m' F f W 0)) (pre : o.Pre mem f F W)
    (s5 : o.LoopSpec (fun mem => o.Pre mem f F W) F (fun s => s < o.m) (fun mem s c => mem.val (F + (o.S * s + c)) * w o.M (o.H * s)) mu)
    {r : ℕ} (hv : o.Visit r) :
    (do mu; ex : Cmd Unit).Ok mem (fun _ m' => o.BwdPost mem m' F f W r) := by
  obtain ⟨rfl, hrow, hres⟩ := h.res_explicit hq hv
  obtain ⟨hp, hP, hD, hM, hn1, hL, how⟩ := h.explicit hq
  obtain ⟨g1, g2, g3, g4⟩ := h.plain_post hq
  refine Cmd.Ok.bind ((s5 mem pre).mono ?_)
  rintro _ m1 ⟨u1, e1⟩
  refine (hex m1 (pre.upd u1)).mono ?_
  rintro _ m2 ⟨u2, e2⟩
  rw [g1] at u2
  refine ⟨u1.trans u2 ?_ (fun _ h => h), ?_⟩
  · rintro p ⟨s, c, hs, hc, rfl⟩; exact Or.inr (Or.inl (h.reg_explicit hq F (by omega) hc))
  · intro j hj c hc
    have := e2 j hj c hc
    rw [g3, sum_range_one, if_pos rfl, zero_add] at this
    refine this.trans ?_
    rw [if_pos rfl, zero_add, hrow, sum_range_one, hres, g4]
    refine sum_congr rfl fun s hs => ?_
    rw [mem_range] at hs
    simp only [Nat.mul_zero, Nat.zero_add]
    have h1 := e1 s c hs hc
    have h2 : m1.val (F + (o.plain.S * s + c)) = mem.val (F + (o.S * s + c)) * w o.M (o.H * s) := h1
    have hq' : o.plain.q = 1 := hq
    rw [h2, mul_assoc, hq, hq']
    congr 1
    rw [show o.plain.M = o.M from rfl, ← w_add]
    congr 1
    push_cast
    ring

theorem WF.shift (h : o.WF) (hq : o.q = 1) (he : o.M % 2 ≠ 0) {s : ℕ} (hs : s < o.m) :
    o.ZetaShift.lo ≤ s ∧ s < o.ZetaShift.hi ∧ o.ZetaShift.val s = w o.M (o.H * s) := by
  obtain ⟨hp, hP, hD, hM, hn1, hL, how⟩ := h.explicit hq
  rw [h.shift_eq hq he]
  simp only [initShift]
  refine ⟨Nat.zero_le _, by omega, ?_⟩
  congr 1

theorem mul_one_loop (h : o.WF) (hq : o.q = 1) (he : o.M % 2 ≠ 0) (hS : o.S = 1) {f F W : Ptr} (g : ℂ → ℂ) (z : ℕ → ℂ)
    (hz : ∀ s < o.m, g (o.ZetaShift.val s) = z s) :
    o.LoopSpec (fun mem => o.Pre mem f F W) F (fun s => s < o.m) (fun mem s c => mem.val (F + (o.S * s + c)) * z s)
      (par (rng 0 o.m) fun s => do
        let z ← o.ZetaShift.get s
        mulBy (F + s) (g z)) := by
  obtain ⟨hp, hP, hD, hM, hn1, hL, how⟩ := h.explicit hq
  have hPD : o.m * (o.P * o.D) = o.m := by rw [hP, hD]; simp
  have hadr : ∀ s, o.S * s + 0 = s := fun s => by rw [hS]; omega
  refine (LoopSpec.one hS (h.C_one hS) (fun s => s) (fun _ _ h => h) ?_).congr (by simp)
  intro m1 pre1 s h1 h2
  have := pre1.vF s (by omega) 0 h.C_pos
  rw [hadr] at this
  obtain ⟨i1, i2, i3⟩ := h.shift hq he h2
  simp only [mulBy]
  body_simp
  rw [hz s h2]
  simp only [hadr]
  refine ⟨⟨⟨i1, i2⟩, this, this⟩, trivial, ?_⟩
  rintro p rfl; exact Or.inr rfl

theorem mul_many_loop (h : o.WF) (hq : o.q = 1) (he : o.M % 2 ≠ 0) {f F W : Ptr} (g : ℂ → ℂ) (z : ℕ → ℂ)
    (hz : ∀ s < o.m, g (o.ZetaShift.val s) = z s) :
    o.LoopSpec (fun mem => o.Pre mem f F W) F (fun s => s < o.m) (fun mem s c => mem.val (F + (o.S * s + c)) * z s)
      (par (rng2 0 o.m 0 o.C) fun (s, c) => do
        let z ← o.ZetaShift.get s
        mulBy (F + o.S * s + c) (g z)) := by
  obtain ⟨hp, hP, hD, hM, hn1, hL, how⟩ := h.explicit hq
  have hPD : o.m * (o.P * o.D) = o.m := by rw [hP, hD]; simp
  refine (LoopSpec.many h.C_le_S (fun s => s) (fun _ _ h => h) ?_).congr (by simp)
  intro m1 pre1 s c h1 h2 hc
  have := pre1.vF s (by omega) c hc
  obtain ⟨i1, i2, i3⟩ := h.shift hq he h2
  simp only [mulBy]
  body_simp
  rw [hz s h2]
  refine ⟨⟨⟨i1, i2⟩, this, this⟩, rfl, ?_⟩
  rintro p rfl; exact Or.inr rfl

theorem forwardExplicitSlow_ok (h : o.WF) (hq : o.q = 1) (he : o.M % 2 ≠ 0) (hS : o.S = 1) {f F W : Ptr} {mem : Mem} {r : ℕ}
    {W? : Option Ptr} (hW : W?.getD F = W) (pre : o.Pre mem f F W) (hv : o.Visit r) :
    (o.forwardExplicitSlow f F W?).Ok mem (fun _ m' => o.FwdPost mem m' f F W r) :=
  slow_forward h hq (Fft.forwardExplicit_ok (h.plain hq) hq hS hW (h.plain_pre hq pre) (Or.inl rfl)) pre
    (mul_one_loop h hq he hS (starRingEnd ℂ) _ (fun s hs => by rw [(h.shift hq he hs).2.2, w_conj])) hv

theorem forwardExplicitManySlow_ok (h : o.WF) (hq : o.q = 1) (he : o.M % 2 ≠ 0) (hS : o.S ≠ 1) {f F W : Ptr} {mem : Mem} {r : ℕ}
    {W? : Option Ptr} (hW : W?.getD F = W) (pre : o.Pre mem f F W) (hv : o.Visit r) :
    (o.forwardExplicitManySlow f F W?).Ok mem (fun _ m' => o.FwdPost mem m' f F W r) :=
  slow_forward h hq (Fft.forwardExplicitMany_ok (h.plain hq) hq hS hW (h.plain_pre hq pre) (Or.inl rfl)) pre
    (mul_many_loop h hq he (starRingEnd ℂ) _ (fun s hs => by rw [(h.shift hq he hs).2.2, w_conj])) hv

theorem backwardExplicitSlow_ok (h : o.WF) (hq : o.q = 1) (he : o.M % 2 ≠ 0) (hS : o.S = 1) {f F W : Ptr} {mem : Mem} {r : ℕ}
    {W? : Option Ptr} (hW : W?.getD F = W) (pre : o.Pre mem f F W) (hv : o.Visit r) :
    (o.backwardExplicitSlow F f W?).Ok mem (fun _ m' => o.BwdPost mem m' F f W r) :=
  slow_backward h hq (fun _ pre1 => Fft.backwardExplicit_ok (h.plain hq) hq hS hW (h.plain_pre hq pre1) (Or.inl rfl)) pre
    (mul_one_loop h hq he hS (fun z => z) _ (fun s hs => (h.shift hq he hs).2.2)) hv

theorem backwardExplicitManySlow_ok (h : o.WF) (hq : o.q = 1) (he : o.M % 2 ≠ 0) (hS : o.S ≠ 1) {f F W : Ptr} {mem : Mem} {r : ℕ}
    {W? : Option Ptr} (hW : W?.getD F = W) (pre : o.Pre mem f F W) (hv : o.Visit r) :
    (o.backwardExplicitManySlow F f W?).Ok mem (fun _ m' => o.BwdPost mem m' F f W r) :=
  slow_backward h hq (fun _ pre1 => Fft.backwardExplicitMany_ok (h.plain hq) hq hS hW (h.plain_pre hq pre1) (Or.inl rfl)) pre
    (mul_many_loop h hq he (fun z => z) _ (fun s hs => (h.shift hq he hs).2.2)) hv

end Cent
end Fftwpp
