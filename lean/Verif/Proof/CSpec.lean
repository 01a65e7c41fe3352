import Verif.Proof.Driver
import Verif.Proof.OwDrv
import Verif.Proof.CExplicit
import Verif.Proof.CF2Many
import Verif.Proof.CB2Many
import Verif.Proof.CFInnerMany
import Verif.Proof.CBInnerMany
import Verif.Proof.CFInner4
import Verif.Proof.CBInner4
import Verif.Proof.COw2

/-! The centered transforms satisfy the interface specification of the drivers. -/

namespace Fftwpp
open Finset
namespace Cent
variable {o : Cent}

theorem forward_ok (h : o.WF) (how : o.overwrite = false) {f F W : Ptr} {mem : Mem} {r : ℕ}
    {W? : Option Ptr} (hW : W?.getD F = W) (pre : o.Pre mem f F W) (hv : o.Visit r) :
    (o.forward f F r W?).Ok mem (fun _ m' => o.FwdPost mem m' f F W r) := by
  have hr := h.route_eq
  unfold chooseRouteCentered chooseRoute at hr
  rw [how] at hr
  unfold forward
  by_cases hS : o.S = 1
  · by_cases hq : o.q = 1
    · simp only [hq, hS, if_true] at hr
      rw [hr]
      have hf := h.fast_eq hq
      by_cases he : o.M % 2 = 0
      · simp only [hf, he, decide_true, if_true]
        exact forwardExplicitFast_ok h hq he hS hW pre hv
      · simp only [hf, he, decide_false, if_false]
        exact forwardExplicitSlow_ok h hq he hS hW pre hv
    · have hp := h.p_cases
      by_cases hp2 : o.p = 2
      · simp [hq, hS, hp2] at hr
        rw [hr]
        exact forward2_ok h hp2 hq hS hW pre hv
      · have : 2 < o.p := by omega
        simp [hq, hS, hp2, this] at hr
        rw [hr]
        exact forwardInner_ok h (by omega) hq hS hW pre hv
  · by_cases hq : o.q = 1
    · simp only [hq, hS, if_true, if_false] at hr
      rw [hr]
      have hf := h.fast_eq hq
      by_cases he : o.M % 2 = 0
      · simp only [hf, he, decide_true, if_true]
        exact forwardExplicitManyFast_ok h hq he hW pre hv hS
      · simp only [hf, he, decide_false, if_false]
        exact forwardExplicitManySlow_ok h hq he hS hW pre hv
    · have hp := h.p_cases
      by_cases hp2 : o.p = 2
      · simp [hq, hS, hp2] at hr
        rw [hr]
        exact forward2Many_ok h hp2 hq hS hW pre hv
      · have : 2 < o.p := by omega
        simp [hq, hS, hp2, this] at hr
        rw [hr]
        exact forwardInnerMany_ok h (by omega) hS hW pre hv

theorem backward_ok (h : o.WF) (how : o.overwrite = false) {f F W : Ptr} {mem : Mem} {r : ℕ}
    {W? : Option Ptr} (hW : W?.getD F = W) (pre : o.Pre mem f F W) (hv : o.Visit r) :
    (o.backward F f r W?).Ok mem (fun _ m' => o.BwdPost mem m' F f W r) := by
  have hr := h.route_eq
  unfold chooseRouteCentered chooseRoute at hr
  rw [how] at hr
  unfold backward
  by_cases hS : o.S = 1
  · by_cases hq : o.q = 1
    · simp only [hq, hS, if_true] at hr
      rw [hr]
      have hf := h.fast_eq hq
      by_cases he : o.M % 2 = 0
      · simp only [hf, he, decide_true, if_true]
        exact backwardExplicitFast_ok h hq he hS hW pre hv
      · simp only [hf, he, decide_false, if_false]
        exact backwardExplicitSlow_ok h hq he hS hW pre hv
    · have hp := h.p_cases
      by_cases hp2 : o.p = 2
      · simp [hq, hS, hp2] at hr
        rw [hr]
        exact backward2_ok h hp2 hq hS hW pre hv
      · have : 2 < o.p := by omega
        simp [hq, hS, hp2, this] at hr
        rw [hr]
        exact backwardInner_ok h (by omega) hq hS hW pre hv
  · by_cases hq : o.q = 1
    · simp only [hq, hS, if_true, if_false] at hr
      rw [hr]
      have hf := h.fast_eq hq
      by_cases he : o.M % 2 = 0
      · simp only [hf, he, decide_true, if_true]
        exact backwardExplicitManyFast_ok h hq he hW pre hv hS
      · simp only [hf, he, decide_false, if_false]
        exact backwardExplicitManySlow_ok h hq he hS hW pre hv
    · have hp := h.p_cases
      by_cases hp2 : o.p = 2
      · simp [hq, hS, hp2] at hr
        rw [hr]
        exact backward2Many_ok h hp2 hq hS hW pre hv
      · have : 2 < o.p := by omega
        simp [hq, hS, hp2, this] at hr
        rw [hr]
        exact backwardInnerMany_ok h (by omega) hS hW pre hv

theorem FwdPost.index (h : o.WF) {mem m' : Mem} {f F W : Ptr} {r : ℕ} (hv : o.Visit r) (hp : o.FwdPost mem m' f F W r) :
    ∀ i < o.noutputs r, ∀ c < o.C, m'.val (F + (o.S * i + c)) =
      cdft o.M o.L o.H (fun j => mem.val (f + (o.S * j + c))) (o.index r i) := by
  intro i hi c hc
  have hi' := hi
  rw [h.noutputs_eq] at hi'
  have h1 := hp.out (i / o.m) (Nat.div_lt_of_lt_mul hi') (i % o.m) (Nat.mod_lt _ h.m_pos) c hc
  rw [Nat.div_add_mod] at h1
  rw [h1]
  unfold cdft
  refine sum_congr rfl fun j _ => ?_
  congr 1
  apply w_congr
  rw [← mul_sub]
  refine Dvd.dvd.mul_left ?_ _
  rw [← dvd_neg]
  simpa using (h.index_res hv hi).1

theorem BwdPost.index (h : o.WF) {mem m' : Mem} {f F W : Ptr} {r : ℕ} (hv : o.Visit r) (hp : o.BwdPost mem m' F f W r) :
    ∀ j < o.L, ∀ c < o.C, m'.val (f + (o.S * j + c)) = (if r = 0 then 0 else mem.val (f + (o.S * j + c))) +
      ∑ i ∈ range (o.noutputs r), mem.val (F + (o.S * i + c)) * w o.M (-(((j : ℤ) - o.H) * (o.index r i : ℤ))) := by
  intro j hj c hc
  rw [hp.out j hj c hc]
  congr 1
  rw [h.noutputs_eq, Fft.sum_rows]
  refine sum_congr rfl fun ρ hρ => sum_congr rfl fun s hs => ?_
  rw [mem_range] at hρ hs
  congr 1
  apply w_congr
  have hi : o.m * ρ + s < o.noutputs r := by rw [h.noutputs_eq]; exact radix_lt hs hρ
  have := (h.index_res hv hi).1
  rw [Nat.mul_add_mod, Nat.mod_eq_of_lt hs, Nat.mul_add_div h.m_pos, Nat.div_eq_of_lt hs, Nat.add_zero] at this
  rw [show -(((j : ℤ) - o.H) * (o.q * s + o.res r ρ)) - -(((j : ℤ) - o.H) * (o.index r (o.m * ρ + s) : ℤ)) =
    ((j : ℤ) - o.H) * ((o.index r (o.m * ρ + s) : ℤ) - (o.q * s + o.res r ρ)) by ring]
  exact Dvd.dvd.mul_left this _

/-- The centered class satisfies the interface specification. -/
theorem WF.base_spec (h : o.WF) : o.base.Spec o.H (fun _ _ => True) := by
  have hreg : ∀ F p, o.Reg F (o.P * o.D) p → InArr F o.outputSize p := by
    rintro F p ⟨i, hi, c, hc, rfl⟩
    refine ⟨o.S * i + c, ?_, rfl⟩
    have := h.C_le_S
    unfold Fft.outputSize
    rw [h.b_D]
    exact radix_lt (by omega) hi
  have hcols : ∀ F p, o.Reg F (o.P * o.D) p → o.base.Cols F p := by
    rintro F p ⟨i, hi, c, hc, rfl⟩
    refine ⟨i, ?_, c, hc, rfl⟩
    show o.S * (i + 1) ≤ o.outputSize
    unfold Fft.outputSize
    rw [h.b_D]
    exact Nat.mul_le_mul_left _ hi
  have hargs : ∀ {m f F W?}, o.base.Args m f F W? → o.Pre m f F (W?.getD F) := by
    rintro m f F W? ⟨h1, h2, h3, h4⟩
    have vF : ∀ i < o.m * (o.P * o.D), ∀ c < o.C, m.valid (F + (o.S * i + c)) := fun i hi c hc =>
      h3 _ (hcols _ _ ⟨i, hi, c, hc, rfl⟩)
    have vf : ∀ j < o.L, ∀ c < o.C, m.valid (f + (o.S * j + c)) := fun j hj c hc => h2 _ ⟨j, hj, c, hc, rfl⟩
    by_cases hi : o.inplace = true
    · have hi' : o.base.inplace = true := hi
      rw [if_pos hi'] at h4
      subst h4
      refine ⟨h1, h1, ?_, vf, vF, vF⟩
      exact Or.inl ⟨hi, rfl⟩
    · have hi' : ¬ o.base.inplace = true := hi
      rw [if_neg hi'] at h4
      obtain ⟨W, rfl, e2, e3, e4⟩ := h4
      refine ⟨h1, e3.symm, ?_, vf, vF, ?_⟩
      · exact Or.inr ⟨by simpa using hi, e2⟩
      · intro i hi c hc
        obtain ⟨k, hk, e⟩ := hreg W _ ⟨i, hi, c, hc, rfl⟩
        show m.valid (W + (o.S * i + c))
        rw [e]; exact e4 k hk
  have htouch : ∀ {F W? p}, (o.Reg F (o.P * o.D) p ∨ o.Reg (W?.getD F) (o.P * o.D) p) → o.base.Touch F W? p := by
    rintro F W? p (hp | hp)
    · exact Or.inl (hcols _ _ hp)
    · cases W? with
      | none => exact Or.inl (hcols _ _ hp)
      | some W => exact Or.inr ⟨W, rfl, hreg _ _ hp⟩
  refine ⟨h.C_pos, fun c hc => lt_of_lt_of_le hc h.C_le_S, h.M_pos, ?_, rfl, ?_, rfl, ?_, ?_, ?_, ?_, ?_, ?_, ?_, ?_, ?_⟩
  · obtain ⟨t, _, _, hst⟩ := h.shw.starts_eq
    rw [h.sh_starts] at hst
    refine ⟨_, hst, ?_⟩
    have := h.starts_nodup
    rw [hst] at this
    exact (List.nodup_cons.1 this).1
  · intro r _
    show o.S * o.noutputs r ≤ o.outputSize
    unfold Fft.outputSize
    rw [h.b_D, h.noutputs_eq]
    exact Nat.mul_le_mul_left _ (Nat.mul_le_mul_left _ (h.rows_le r))
  · intro g; exact h.sum_blocks g
  · intros; trivial
  · intros; trivial
  · intros; trivial
  · intro hi
    show decide (o.pad = .none) = true
    rw [decide_eq_true_eq, h.pad_eq]
  · intros; trivial
  · intro m W hi hb
    show (o.padW (some W)).Ok m _
    unfold Fft.padW
    rw [h.pad_eq]
    exact Cmd.Ok.pure ⟨Mem.Upd.refl _ _, trivial⟩
  · intro how m f F W? r hr a hp
    have hv := h.mem_starts.1 hr
    refine (forward_ok h how rfl (hargs a) hv).mono ?_
    rintro _ m' post
    exact ⟨post.upd.mono (fun p hp => htouch hp), trivial, post.index h hv⟩
  · intro how m f F W? r hr a
    have hv := h.mem_starts.1 hr
    refine (backward_ok h how rfl (hargs a) hv).mono ?_
    rintro _ m' post
    refine ⟨post.upd.mono ?_, post.index h hv⟩
    rintro p (hp | hp)
    · exact Or.inl hp
    · exact Or.inr (htouch hp)

end Cent
end Fftwpp
