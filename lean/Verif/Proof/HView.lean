import Verif.Model.HermDriver
import Verif.Props.HermTransform
import Verif.Proof.AConv
import Verif.Proof.HConvMath

/-! The Hermitian transforms as transforms for the drivers. -/

namespace Fftwpp
open Finset
namespace Herm
variable {o : Herm}

/-- How the Hermitian class uses its arrays: complex data, real transforms stored as doubles. -/
noncomputable def view (o : Herm) : View where
  x := fun m f j c => m.val (f + (o.C * j + c))
  X := fun m F _ i c => ((m.dbl (F + o.b * (i / o.blocksize 0)) (o.C * (i % o.blocksize 0) + c) : ℝ) : ℂ)
  D := fun f p => InArr f (o.C * o.inputLength) p
  cnt := fun r => o.blocksize 0 * o.nd r
  T := fun r i x => hdft o.M o.H x (o.index r i)
  K := fun r j X => ∑ i ∈ range (o.blocksize 0 * o.nd r), X i * w o.M (-((j : ℤ) * (o.index r i : ℤ)))
  dom := fun x => (x 0).im = 0

theorem WF.bs_pos (h : o.WF) : 0 < o.blocksize 0 := Nat.mul_pos h.m_pos h.P_pos

theorem WF.residues_mem (h : o.WF) {r : ℕ} : r ∈ o.base.residues ↔ r < o.R := by
  show r ∈ o.visited (o.R + 1) 0 ↔ _
  rw [h.starts, mem_rng]; simp

theorem WF.half_lt (h : o.WF) {i c : ℕ} (hi : i < o.blocksize 0) (hc : c < o.C) : (o.C * i + c) / 2 < o.b := by
  have h1 := radix_lt hc hi
  have h2 := h.b_le
  rw [h.blocksize_eq] at h1
  omega

theorem WF.div_lt (_h : o.WF) {r i : ℕ} (hi : i < o.blocksize 0 * o.nd r) : i / o.blocksize 0 < o.nd r := Nat.div_lt_of_lt_mul hi

/-- The word of output `i` is in the work array. -/
theorem WF.X_word (h : o.WF) (hD : 0 < o.D) {r i c : ℕ} (hr : o.Visit r) (hi : i < o.blocksize 0 * o.nd r) (hc : c < o.C) :
    o.b * (i / o.blocksize 0) + (o.C * (i % o.blocksize 0) + c) / 2 < o.outputSize := by
  have h1 := h.half_lt (Nat.mod_lt i h.bs_pos) hc
  have h2 := lt_of_lt_of_le (h.div_lt hi) (h.nd_D hD r hr)
  unfold Fft.outputSize
  exact radix_lt h1 h2

theorem Pre.of_args (h : o.WF) {mem : Mem} {f F : Ptr} {W? : Option Ptr} (a : o.view.Args o.base mem f F W?) : o.Args mem f F W? :=
  ⟨a.fF, fun i hi => a.bf _ ⟨i, hi, rfl⟩, a.bF, a.bW⟩

theorem view_spec (h : o.WF) (hD : 0 < o.D) : o.view.Spec o.base (fun _ _ => True) where
  D_buf := fun h => FftBase.inArr_buf h
  x_congr := fun hv j hj c hc => hv _ ⟨_, radix_lt hc hj, rfl⟩
  X_congr := by
    intro m m' F r hr hv i hi c hc
    have hv' := h.visit (h.residues_mem.1 hr)
    show ((m'.dbl _ _ : ℝ) : ℂ) = (m.dbl _ _ : ℝ)
    congr 1
    refine Mem.dbl_congr ?_
    have := hv _ (h.X_word hD hv' hi hc)
    rw [Ptr.add_add] <;> exact this
  T_congr := by
    intro r i x y hxy
    show hdft _ _ _ _ = hdft _ _ _ _
    unfold hdft
    congr 1
    · exact sum_congr rfl fun j hj => by rw [hxy j (mem_range.1 hj)]
    · exact sum_congr rfl fun j hj => by rw [hxy j (mem_Ico.1 hj).2]
  K_congr := by
    intro r j X Y hXY
    show ∑ i ∈ range (o.blocksize 0 * o.nd r), _ = ∑ i ∈ range (o.blocksize 0 * o.nd r), _
    exact sum_congr rfl fun i hi => by rw [hXY i (mem_range.1 hi)]
  dom_congr := by
    intro x y hxy hx
    show (y 0).im = 0
    rw [← hxy 0 h.H_facts.1]; exact hx
  kdom_congr := fun _ h => h
  res0 := by
    have hR := h.R_pos
    refine ⟨rng 1 o.R, ?_, ?_⟩
    · show o.visited (o.R + 1) 0 = _
      rw [h.starts]
      obtain ⟨k, hk⟩ : ∃ k, o.R = k + 1 := ⟨o.R - 1, by omega⟩
      rw [hk]
      simp [rng, List.range'_succ]
    · rw [mem_rng]; omega
  nl := rfl
  pad_in := fun _ _ _ => trivial
  pad_frame := fun _ _ => trivial
  pad_none := fun _ _ _ => trivial
  padNone_in := fun _ => by
    show decide (o.pad = .none) = true
    rw [h.pad_eq]; rfl
  pad_q1 := fun _ _ _ => trivial
  padOk := by
    intro m W _ _
    show (o.padW (some W)).Ok m _
    unfold Fft.padW
    rw [h.pad_eq]
    exact Cmd.Ok.pure ⟨Mem.Upd.refl _ _, trivial⟩
  fwd := by
    intro m f F W? r hr a _
    have hv := h.visit (h.residues_mem.1 hr)
    have a' := Pre.of_args h a
    refine (forward_ok h rfl (a'.pre h hD hv) hv).mono ?_
    rintro _ m' ⟨u, e⟩
    refine ⟨u.mono fun p hp => ?_, trivial, ?_⟩
    · exact touch h hD a' hv hp
    · intro c hc h0 i hi
      have hd := h.div_lt hi
      have hi' := Nat.mod_lt i h.bs_pos
      rw [h.blocksize_eq] at hi'
      have hl := Nat.mod_lt (i % (o.m * o.P)) h.m_pos
      have hu := Nat.div_lt_of_lt_mul hi'
      have h0' : (m.val (f + c)).im = 0 := by simpa [view] using h0
      have := e _ hd _ hu _ hl c hc h0'
      rw [Nat.div_add_mod] at this
      show ((m'.dbl _ _ : ℝ) : ℂ) = _
      rw [← h.blocksize_eq 0] at this
      rw [this]
      refine (hdft_congr ?_).symm
      have := h.index_dvd hv hd hu hl
      rw [Nat.div_add_mod, show o.P * o.m = o.blocksize 0 from Nat.mul_comm _ _, ← h.blocksize_eq 0, Nat.div_add_mod] at this
      exact this
  bwd := by
    intro m f F W? r hr a
    have hv := h.visit (h.residues_mem.1 hr)
    have a' := Pre.of_args h a
    refine (backward_ok h rfl (a'.pre h hD hv) hv).mono ?_
    rintro _ m' ⟨u, e⟩
    refine ⟨u.mono fun p hp => ?_, ?_⟩
    · rcases hp with hp | hp
      · exact Or.inl hp
      · exact Or.inr (touch h hD a' hv hp)
    · intro j hj c hc _
      refine (e j hj c hc).trans ?_
      congr 1
      show _ = ∑ i ∈ range (o.blocksize 0 * o.nd r), _
      conv_rhs => rw [sum_split, sum_comm]
      refine sum_congr rfl fun d hd => ?_
      have := sum_block h hv (g := fun i => ((m.dbl (F + o.b * d) (o.C * i + c) : ℝ) : ℂ)) (k := j) (mem_range.1 hd)
      refine this.trans (sum_congr rfl fun i hi => ?_)
      rw [mem_range] at hi
      have hi : i < o.blocksize 0 := hi
      show _ = ((m.dbl (F + o.b * ((i + o.blocksize 0 * d) / o.blocksize 0)) (o.C * ((i + o.blocksize 0 * d) % o.blocksize 0) + c) : ℝ) : ℂ) * _
      rw [Nat.add_mul_div_left _ _ h.bs_pos, Nat.div_eq_of_lt hi, Nat.zero_add, Nat.add_mul_mod_self_left, Nat.mod_eq_of_lt hi,
        show o.noutputs 0 = o.blocksize 0 from rfl, Nat.add_comm i]

theorem view_flat (h : o.WF) (hC : o.C = 1) : o.view.Flat o.base where
  C := hC
  D := by
    intro f p
    show InArr f (o.C * o.inputLength) p ↔ InArr f o.inputLength p
    rw [hC, Nat.one_mul]
  x := by
    intro m f j _
    show m.val (f + (o.C * j + 0)) = m.val (f + j)
    rw [hC, Nat.one_mul]; rfl
  q1 := by
    intro hq
    show o.visited (o.R + 1) 0 = [0]
    rw [h.starts, h.R_eq, if_pos (show o.q = 1 from hq)]; rfl
  ow := h.ow

theorem view_L2 (h : o.WF) (hdvd : o.q ≠ 1 → o.nloops = 2 → o.B < o.A → (o.A - o.B) ∣ o.B) : View.L2 o.base := by
  intro hq hl
  have hl' : o.nloops = 2 ∧ o.B < o.A ∧ o.overwrite = false := by
    have : o.loop2 = true := hl
    simpa [Fft.loop2] using this
  refine ⟨hl'.2.1, hdvd hq hl'.1 hl'.2.1, ?_⟩
  show o.visited (o.R + 1) 0 = [0, o.increment 0]
  rw [h.starts, h.increment_eq, ← h.nloops_eq, hl'.1]
  rfl

end Herm
end Fftwpp
