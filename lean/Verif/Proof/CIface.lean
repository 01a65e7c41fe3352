import Verif.Proof.CBij
import Verif.Proof.CRows
import Verif.Proof.Fill

/-! The interface of a call of a centered transform; lookups in its tables; completion of `forward` by the row transforms. -/

namespace Fftwpp
namespace Fills
variable {κ ι : Type} {m0 m : Mem} {R : κ → Prop} {dst : κ → Ptr} {T : κ → ℂ} {done : κ → Prop}

/-- One store per iteration; the reads are in other buffers. -/
theorem par1f {B : ℕ} (h : Fills m0 m R dst T done) (hB : ∀ k, (dst k).buf = B) {l : List ι} {body : ι → Body Unit} (k : ι → κ)
    (hl : l.Nodup) (hR : ∀ i ∈ l, R (k i)) (hk : ∀ i ∈ l, ∀ j ∈ l, k i = k j → i = j)
    (hg : ∀ i ∈ l, (body i).Good m)
    (hw : ∀ i ∈ l, (body i).wrs m = [(dst (k i), T (k i))])
    (hrd : ∀ i ∈ l, ∀ p ∈ (body i).rds m, p.buf ≠ B)
    {Q : Unit → Mem → Prop}
    (hQ : ∀ m', Fills m0 m' R dst T (fun x => done x ∨ ∃ i ∈ l, x = k i) → Q () m') :
    (Fftwpp.par l body).Ok m Q :=
  h.par1 k hl hR hk hg hw (fun i hi p hp => Or.inl fun k _ e => hrd i hi p hp (by rw [e, hB])) hQ

/-- Two stores per iteration; the reads are in other buffers. -/
theorem par2f {B : ℕ} (h : Fills m0 m R dst T done) (hB : ∀ k, (dst k).buf = B) {l : List ι} {body : ι → Body Unit} (k k' : ι → κ)
    (hl : l.Nodup)
    (hR : ∀ i ∈ l, R (k i) ∧ R (k' i)) (hk : ∀ i ∈ l, ∀ j ∈ l, k i = k j → i = j) (hk' : ∀ i ∈ l, ∀ j ∈ l, k' i = k' j → i = j)
    (hkk : ∀ i ∈ l, ∀ j ∈ l, k i ≠ k' j)
    (hg : ∀ i ∈ l, (body i).Good m)
    (hw : ∀ i ∈ l, (body i).wrs m = [(dst (k i), T (k i)), (dst (k' i), T (k' i))])
    (hrd : ∀ i ∈ l, ∀ p ∈ (body i).rds m, p.buf ≠ B)
    {Q : Unit → Mem → Prop}
    (hQ : ∀ m', Fills m0 m' R dst T (fun x => done x ∨ ∃ i ∈ l, x = k i ∨ x = k' i) → Q () m') :
    (Fftwpp.par l body).Ok m Q :=
  h.par2 k k' hl hR hk hk' hkk hg hw (fun i hi p hp => Or.inl fun k _ e => hrd i hi p hp (by rw [e, hB])) hQ

theorem val_buf {B : ℕ} (h : Fills m0 m R dst T done) (hB : ∀ k, (dst k).buf = B) {p : Ptr} (hp : p.buf ≠ B) : m.val p = m0.val p :=
  h.frame p fun k _ e => hp (by rw [e, hB])

end Fills

namespace Cent
open Finset ComplexConjugate
variable {o : Cent}

/-- Position of the origin in the data. -/
def H (o : Cent) : ℕ := o.L / 2

/-- Precondition of a call of `forward` or `backward`. -/
structure Pre (o : Cent) (mem : Mem) (f F W : Ptr) : Prop where
  fF : f.buf ≠ F.buf
  fW : f.buf ≠ W.buf
  sep : SepPtr o.inplace W F
  vf : ∀ j < o.L, ∀ c < o.C, mem.valid (f + (o.S * j + c))
  vF : ∀ i < o.m * (o.P * o.D), ∀ c < o.C, mem.valid (F + (o.S * i + c))
  vW : ∀ i < o.m * (o.P * o.D), ∀ c < o.C, mem.valid (W + (o.S * i + c))

/-- Postcondition of `forward`. -/
structure FwdPost (o : Cent) (mem m' : Mem) (f F W : Ptr) (r : ℕ) : Prop where
  upd : mem.Upd m' (fun p => o.toFft.Reg F (o.P * o.D) p ∨ o.toFft.Reg W (o.P * o.D) p)
  out : ∀ ρ < o.rows r, ∀ s < o.m, ∀ c < o.C, m'.val (F + (o.S * (o.m * ρ + s) + c)) =
    cdft o.M o.L o.H (fun j => mem.val (f + (o.S * j + c))) (o.q * s + o.res r ρ)

/-- Postcondition of `backward`. -/
structure BwdPost (o : Cent) (mem m' : Mem) (F f W : Ptr) (r : ℕ) : Prop where
  upd : mem.Upd m' (fun p => o.toFft.RegL f p ∨ o.toFft.Reg F (o.P * o.D) p ∨ o.toFft.Reg W (o.P * o.D) p)
  out : ∀ j < o.L, ∀ c < o.C, m'.val (f + (o.S * j + c)) =
    (if r = 0 then 0 else mem.val (f + (o.S * j + c))) +
      ∑ ρ ∈ range (o.rows r), ∑ s ∈ range o.m,
        mem.val (F + (o.S * (o.m * ρ + s) + c)) * w o.M (-(((j : ℤ) - o.H) * (o.q * s + o.res r ρ)))

theorem WF.C_one (h : o.WF) (hS : o.S = 1) : o.C = 1 := by
  have h1 := h.C_pos; have h2 := h.C_le_S; omega

theorem WF.D_one (h : o.WF) (hS : o.S ≠ 1) : o.D = 1 := by
  have := h.D_valid; omega

theorem WF.D0_eq_one (h : o.WF) (hD : o.D = 1) : o.D0 = 1 := by
  have h1 := h.D0_pos; have h2 := h.D0_le; omega

/-- Sizes for `p=2`. -/
theorem WF.geo2 (h : o.WF) (hp : o.p = 2) : o.H = o.L / 2 ∧ o.m < o.L ∧ o.L ≤ 2 * o.m ∧ o.H ≤ o.m ∧ o.L - o.H ≤ o.m ∧
    o.m - o.H ≤ o.H ∧ o.H ≤ o.L - o.H ∧ 0 < o.H := by
  have h1 := h.p_ub
  have h2 := h.p_lb
  have h3 := h.m_pos
  rw [hp] at h1 h2
  unfold H
  omega

theorem WF.q_n2 (h : o.WF) (hp : o.p = 2) : o.q = o.n := by
  rw [h.q_eq, h.P_one hp, Nat.one_mul]

theorem WF.zc_bd (h : o.WF) (hp : o.p = 2) {r s : ℕ} (hr : 0 < r) (hrq : r < o.q) (hs : s ≤ o.m) :
    o.Zetaqm.lo ≤ (o.m + 1) * r + s ∧ (o.m + 1) * r + s < o.Zetaqm.hi := by
  rw [h.Zqm (by omega), if_pos hp]
  simp only [initZetaqm]
  have h1 : (o.m + 1) * 1 ≤ (o.m + 1) * r := Nat.mul_le_mul_left _ hr
  have h2 : (o.m + 1) * (r + 1) ≤ (o.m + 1) * o.q := Nat.mul_le_mul_left _ hrq
  rw [Nat.mul_succ] at h2
  have h3 : o.m + 1 + (o.q - 1) * (o.m + 1) = (o.m + 1) * o.q := by
    obtain ⟨k, hk⟩ : ∃ k, o.q = k + 1 := ⟨o.q - 1, by omega⟩
    rw [hk]; simp; ring
  omega

theorem WF.zc_val (h : o.WF) (hp : o.p = 2) (hq : o.q ≠ 1) {r s : ℕ} (hs : s ≤ o.m) :
    o.Zetaqm.val ((o.m + 1) * r + s) = w o.M (s * r) := by
  rw [h.Zqm hq, if_pos hp]
  simp only [initZetaqm]
  rw [Nat.mul_add_div (by omega), Nat.div_eq_of_lt (by omega), Nat.add_zero, Nat.mul_add_mod, Nat.mod_eq_of_lt (by omega)]
  congr 1; push_cast; ring

/-- The row keys of the single-stride routines. -/
def RS (o : Cent) (K : ℕ) (k : ℕ × ℕ) : Prop := k.1 < K ∧ k.2 < o.m
/-- The word of a row key. -/
def dS (o : Cent) (W : Ptr) (k : ℕ × ℕ) : Ptr := W + (o.m * k.1 + k.2)
/-- The value of a row key. -/
noncomputable def TS (o : Cent) (x : ℕ → ℂ) (r : ℕ) (k : ℕ × ℕ) : ℂ := fillc o.M o.L o.m o.P o.H x (o.res r k.1) k.2

theorem dS_buf (W : Ptr) (k : ℕ × ℕ) : (o.dS W k).buf = W.buf := rfl

theorem dS_inj {W : Ptr} {K : ℕ} : ∀ k k', o.RS K k → o.RS K k' → o.dS W k = o.dS W k' → k = k' := by
  rintro ⟨a, b⟩ ⟨a', b'⟩ h1 h2 h3
  unfold dS at h3
  rw [Ptr.add_inj] at h3
  obtain ⟨e1, e2⟩ := radix_inj h1.2 h2.2 h3
  simp only at e1 e2
  rw [e1, e2]

theorem WF.H_facts (h : o.WF) : o.H ≤ o.L ∧ o.H ≤ o.m * o.P ∧ o.L - o.H ≤ o.m * o.P := by
  have h1 := h.p_ub
  unfold H
  refine ⟨by omega, ?_⟩
  have h2 : o.L ≤ o.m * (2 * o.P) := by
    refine h1.trans (Nat.mul_le_mul_left _ ?_)
    unfold P; omega
  rw [show o.m * (2 * o.P) = 2 * (o.m * o.P) by ring] at h2
  rcases h.p_cases with ⟨_, hp⟩ | ⟨_, hp, _⟩
  · have hP : o.P = 1 := by unfold P; rw [hp]
    rw [hp] at h1
    rw [hP]
    omega
  · generalize o.m * o.P = z at *
    have h3 : o.L = o.L := rfl
    omega

/-- The plan used by `forward` in single-stride routines. -/
theorem WF.plan_rows (h : o.WF) (hq : o.q ≠ 1) (hS : o.S = 1) (r : ℕ) :
    (if 0 < r ∨ o.D0 = o.D then o.fftm else o.fftm0) = ⟨o.m, 1, o.rows r, 1, o.m, o.inplace⟩ ∧
    (if 0 < r ∨ o.D0 = o.D then o.ifftm else o.ifftm0) = ⟨o.m, -1, o.rows r, 1, o.m, o.inplace⟩ := by
  split_ifs with h1
  · rw [(h.fftm_S1 hq hS).1, (h.fftm_S1 hq hS).2]
    have : o.rows r = o.D * o.P := by
      unfold rows blks; rw [Nat.mul_comm]; congr 1
      split_ifs with h2
      · rcases h1 with h1 | h1
        · omega
        · exact h1
      · rfl
    rw [this]
    exact ⟨rfl, rfl⟩
  · push Not at h1
    rw [(h.fftm0_eq hq h1.2).1, (h.fftm0_eq hq h1.2).2]
    have : o.rows r = o.D0 * o.P := by
      unfold rows blks; rw [Nat.mul_comm, if_pos (by omega)]
    rw [this]
    exact ⟨rfl, rfl⟩

/-- The transform of the rows completes `forward` (single stride, `q>1`). -/
theorem finish_rows (h : o.WF) (hq : o.q ≠ 1) (hS : o.S = 1) {mem m1 : Mem} {f F W : Ptr} {r : ℕ} {done : ℕ × ℕ → Prop}
    (pre : o.Pre mem f F W) (hfill : Fills mem m1 (o.RS (o.rows r)) (o.dS W) (o.TS (fun j => mem.val (f + j)) r) done)
    (hdone : ∀ k, o.RS (o.rows r) k → done k) :
    ((if 0 < r ∨ o.D0 = o.D then o.fftm else o.fftm0).exec W F).Ok m1 (fun _ m' => o.FwdPost mem m' f F W r) := by
  have hC := h.C_one hS
  rw [(h.plan_rows hq hS r).1]
  have hv : ∀ p : Ptr, (∀ i < o.m * (o.P * o.D), ∀ c < o.C, mem.valid (p + (o.S * i + c))) →
      ∀ i < o.m * o.rows r, m1.valid (p + i) := by
    intro p hp i hi
    have := hp i (lt_of_lt_of_le hi (Nat.mul_le_mul_left _ (h.rows_le r))) 0 h.C_pos
    rw [hS, Nat.one_mul, Nat.add_zero] at this
    exact hfill.valid this
  refine exec_rows pre.sep (hv W pre.vW) (hv F pre.vF) ?_
  intro m' u' e'
  have hreg : ∀ (p : Ptr) ρ s, ρ < o.rows r → s < o.m → o.toFft.Reg p (o.P * o.D) (p + (o.m * ρ + s)) := by
    intro p ρ s hρ hs
    exact ⟨o.m * ρ + s, radix_lt hs (lt_of_lt_of_le hρ (h.rows_le r)), 0, h.C_pos, by rw [hS, Nat.one_mul, Nat.add_zero]⟩
  refine ⟨hfill.upd.trans u' ?_ ?_, ?_⟩
  · rintro p ⟨k, hk, rfl⟩
    exact Or.inr (hreg _ _ _ hk.1 hk.2)
  · rintro p ⟨ρ, hρ, s, hs, rfl⟩
    exact Or.inl (hreg _ _ _ hρ hs)
  · intro ρ hρ s hs c hc
    obtain rfl : c = 0 := by omega
    rw [hS]
    simp only [Nat.one_mul, Nat.add_zero]
    obtain ⟨g1, g2, g3⟩ := h.H_facts
    rw [e' ρ hρ s hs, ← row_fftc h.M_eq (by have := h.q_pos; omega) g1 g2 g3]
    refine sum_congr rfl fun s' hs' => ?_
    have := hfill.got (ρ, s') ⟨hρ, mem_range.1 hs'⟩ (hdone _ ⟨hρ, mem_range.1 hs'⟩)
    unfold dS TS at this
    rw [this]

/-- The transform of the columns completes `forward` (many copies, one row). -/
theorem finish_cols (h : o.WF) (hS : o.S ≠ 1) (hp : o.P = 1) {mem m1 : Mem} {f F W : Ptr} {r : ℕ}
    {done : ℕ × ℕ → Prop} (hr : o.rows r = 1)
    (pre : o.Pre mem f F W) (hfill : Fills mem m1 (fun k => k.1 < o.m ∧ k.2 < o.C) (fun k => W + (o.S * k.1 + k.2))
      (fun k => fillc o.M o.L o.m 1 o.H (fun j => mem.val (f + (o.S * j + k.2))) (o.res r 0) k.1) done)
    (hdone : ∀ k, k.1 < o.m ∧ k.2 < o.C → done k) :
    (o.fftm.exec W F).Ok m1 (fun _ m' => o.FwdPost mem m' f F W r) := by
  rw [(h.fftm_many hS).1]
  have hm1 : o.m * (o.P * o.D) = o.m := by rw [hp, h.D_one hS]; simp
  have hv : ∀ p : Ptr, (∀ i < o.m * (o.P * o.D), ∀ c < o.C, mem.valid (p + (o.S * i + c))) →
      ∀ i < o.m, ∀ c < o.C, m1.valid (p + (o.S * i + c)) := by
    intro p hp i hi c hc
    exact hfill.valid (hp i (by omega) c hc)
  refine exec_cols h.C_le_S pre.sep (hv W pre.vW) (hv F pre.vF) ?_
  intro m' u' e'
  refine ⟨hfill.upd.trans u' ?_ ?_, ?_⟩
  · rintro p ⟨k, hk, rfl⟩
    exact Or.inr ⟨k.1, by omega, k.2, hk.2, rfl⟩
  · rintro p ⟨i, hi, c, hc, rfl⟩
    exact Or.inl ⟨i, by omega, c, hc, rfl⟩
  · intro ρ hρ s hs c hc
    obtain rfl : ρ = 0 := by omega
    rw [Nat.mul_zero, Nat.zero_add]
    obtain ⟨g1, g2, g3⟩ := h.H_facts
    rw [hp] at g2 g3
    rw [e' s hs c hc, ← row_fftc h.M_eq (by have := h.q_pos; omega) g1 g2 g3]
    refine sum_congr rfl fun s' hs' => ?_
    have := hfill.got (s', c) ⟨mem_range.1 hs', hc⟩ (hdone _ ⟨mem_range.1 hs', hc⟩)
    simp only at this
    rw [this]

/-- Residue block 0, `n` odd or `D=1`. -/
theorem WF.block0_odd (h : o.WF) (hc : o.D = 1 ∨ 2 * (o.n / 2) < o.n) :
    o.blks 0 = 1 + (if o.D = 1 then min ((o.D0 - 1) / 2) 1 else 2 * ((o.D0 - 1) / 2)) ∧ o.sig 0 0 = 0 ∧
    1 + (o.D0 - 1) / 2 ≤ o.n ∧
    ∀ ρ, o.D ≠ 1 → o.sig 0 (1 + ρ) = Fft.kpair 1 ρ := by
  obtain ⟨f1, f2, f3, f4, f5, f6, f7, f8, f9⟩ := h.sh_fields
  have := h.shw.block0_odd (by omega) (by rwa [f3, f5])
  rw [h.sh_rows, f5, f6, f3] at this
  exact this

/-- Residue block 0, `n` even and `D>1`. -/
theorem WF.block0_even (h : o.WF) (hc : ¬ (o.D = 1 ∨ 2 * (o.n / 2) < o.n)) :
    o.blks 0 = 2 + 2 * ((o.D0 - 2) / 2) ∧ o.sig 0 0 = 0 ∧
    o.sig 0 1 = (o.n / 2 : ℕ) ∧ 1 + (o.D0 - 2) / 2 ≤ o.n ∧
    ∀ ρ, o.sig 0 (2 + ρ) = Fft.kpair 1 ρ := by
  obtain ⟨f1, f2, f3, f4, f5, f6, f7, f8, f9⟩ := h.sh_fields
  have := h.shw.block0_even (by omega) (by rwa [f3, f5])
  rw [h.sh_rows, f6, f3, if_neg (by omega)] at this
  exact this

/-- The other residue blocks. -/
theorem WF.block_pos (h : o.WF) {r : ℕ} (hv : o.Visit r) (hr : 0 < r) :
    o.blks r = (if o.D = 1 then min o.dr 1 else 2 * o.dr) ∧ r + o.dr ≤ o.n ∧
    ∀ ρ < o.blks r, o.sig r ρ = if o.D = 1 then (r : ℤ) else Fft.kpair r ρ := by
  obtain ⟨f1, f2, f3, f4, f5, f6, f7, f8, f9⟩ := h.sh_fields
  have := h.shw.block_pos (by omega) (h.sh_visit.2 hv) hr
  rw [h.sh_rows, f5, f8, f3] at this
  exact this

theorem WF.rows2 (h : o.WF) (hp : o.p = 2) (r : ℕ) : o.rows r = o.blks r := by
  unfold rows; rw [h.P_one hp, Nat.one_mul]

theorem WF.res2 (h : o.WF) (hp : o.p = 2) (r k : ℕ) : o.res r k = o.sig r k := by
  unfold res; rw [h.P_one hp]; simp [Nat.mod_one]

end Cent
end Fftwpp
