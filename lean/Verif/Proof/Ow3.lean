import Verif.Proof.Ow2
import Verif.Proof.OwDrv

/-! The overwriting transforms satisfy the interface specification of the overwriting schedule. -/

namespace Fftwpp
open Finset
namespace Fft
variable {o : Fft}

/-- The frequency (modulo `N`) of position `i` of residue block `r`. -/
def owFreq (o : Fft) (r i : ℕ) : ℕ := if r = 2 then (o.q * i + (o.M - 1)) % o.M else o.q * i + r

theorem owFreq_dvd (h : o.Ow) (r i : ℕ) : (o.M : ℤ) ∣ ((o.q : ℤ) * i + owRes r) - (o.owFreq r i : ℕ) := by
  have hM := h.wf.M_pos
  unfold owFreq owRes
  split_ifs
  · have h1 : ((o.q : ℤ) * i + -1) = ((o.q * i + (o.M - 1) : ℕ) : ℤ) - o.M := by
      push_cast [Nat.cast_sub (show 1 ≤ o.M by omega)]; ring
    rw [h1, Int.natCast_mod]
    have h2 := Int.dvd_sub_self_of_emod_eq (a := ((o.q * i + (o.M - 1) : ℕ) : ℤ)) (b := o.M) rfl
    have h3 : ((o.q * i + (o.M - 1) : ℕ) : ℤ) - o.M - ((o.q * i + (o.M - 1) : ℕ) : ℤ) % o.M =
      (((o.q * i + (o.M - 1) : ℕ) : ℤ) - ((o.q * i + (o.M - 1) : ℕ) : ℤ) % o.M) - o.M := by ring
    rw [h3]
    exact dvd_sub (dvd_sub_comm.1 h2) (dvd_refl _)
  · push_cast; simp

theorem owFreq_dft (h : o.Ow) (x : ℕ → ℂ) (r i : ℕ) :
    paddedDFT o.M o.L x ((o.q : ℤ) * i + owRes r) = paddedDFT o.M o.L x (o.owFreq r i : ℕ) :=
  paddedDFT_congr (owFreq_dvd h r i)

theorem owFreq_w (h : o.Ow) (j : ℤ) (r i : ℕ) :
    w o.M (-(j * ((o.q : ℤ) * i + owRes r))) = w o.M (-(j * (o.owFreq r i : ℕ))) := by
  apply w_congr
  obtain ⟨k, hk⟩ := owFreq_dvd h r i
  refine ⟨-j * k, ?_⟩
  have : (o.q : ℤ) * i + owRes r = o.M * k + (o.owFreq r i : ℕ) := by linarith
  rw [this]; ring

/-- The frequencies of the `n` residue blocks are all the frequencies. -/
theorem owFreq_sum (h : o.Ow) (g : ℕ → ℂ) :
    (∑ r ∈ range o.p, ∑ i ∈ range o.m, g (o.owFreq r i)) + ∑ i ∈ range o.m, g (o.owFreq o.p i) = ∑ e ∈ range o.M, g e := by
  have hq := h.q_eq
  have hM := h.wf.M_eq
  have hm := h.wf.m_pos
  rw [← sum_range_succ (fun r => ∑ i ∈ range o.m, g (o.owFreq r i)), ← hq]
  have key : ∀ r ∈ range o.q, ∑ i ∈ range o.m, g (o.owFreq r i) = ∑ i ∈ range o.m, g (o.q * i + r) := by
    intro r hr
    rw [mem_range] at hr
    unfold owFreq
    by_cases h2 : r = 2
    · subst h2
      have hq3 : o.q = 3 := by have := h.p2; omega
      simp only [if_true]
      obtain ⟨k, hk⟩ : ∃ k, o.m = k + 1 := ⟨o.m - 1, by omega⟩
      have hM3 : o.M = 3 * k + 3 := by rw [hM, hk, hq3]; ring
      rw [hk, sum_range_succ', sum_range_succ, hM3, hq3]
      congr 1
      · refine sum_congr rfl fun i hi => ?_
        rw [mem_range] at hi
        congr 1
        rw [show 3 * (i + 1) + (3 * k + 3 - 1) = 3 * i + 2 + (3 * k + 3) by omega, Nat.add_mod_right, Nat.mod_eq_of_lt (by omega)]
      · congr 1
        rw [Nat.mod_eq_of_lt (by omega)]
        omega
    · simp only [if_neg h2]
  rw [sum_congr rfl key, hM, Nat.mul_comm, sum_rows, sum_comm]

/-- The frequencies reported to the multiplier are right for `p=1`. -/
theorem owIndex (h : o.Ow) {r i : ℕ} (hi : i < o.m) : o.index r i = o.q * i + r := by
  unfold index
  have hd : i / (o.p * o.m) = 0 := by
    refine Nat.div_eq_of_lt ?_
    rcases h.p12 with h | h <;> rw [h] <;> omega
  rw [if_neg h.q1, if_neg (by rw [h.D_eq]; omega)]
  simp only [Nat.mod_eq_of_lt hi, Nat.div_eq_of_lt hi, Nat.zero_mod, Nat.mul_zero, hd]
  ring

/-- Data words of an input, and column words of a work array. -/
theorem owW_iff (h : o.Ow) {f F p : Ptr} : o.OwW f F p ↔ o.base.Data f p ∨ o.base.Cols F p := by
  have hout : o.base.outputSize = o.S * o.m := by
    show o.b * o.D = _
    rw [h.wf.b_D, h.P_eq, h.D_eq]; simp
  have hL := h.L_eq
  have hm := h.wf.m_pos
  unfold OwW OwCol
  constructor
  · rintro (⟨r, hr, s, hs, c, hc, rfl⟩ | ⟨s, hs, c, hc, rfl⟩)
    · refine Or.inl ⟨o.m * r + s, ?_, c, hc, rfl⟩
      show _ < o.L
      rw [hL, Nat.mul_comm o.p]
      exact radix_lt hs hr
    · refine Or.inr ⟨s, ?_, c, hc, rfl⟩
      rw [hout]
      exact Nat.mul_le_mul_left o.S hs
  · rintro (⟨j, hj, c, hc, rfl⟩ | ⟨s, hs, c, hc, rfl⟩)
    · have hj' : j < o.L := hj
      refine Or.inl ⟨j / o.m, Nat.div_lt_of_lt_mul (by rw [Nat.mul_comm, ← hL]; exact hj'), j % o.m, Nat.mod_lt _ hm, c, hc, ?_⟩
      rw [Nat.div_add_mod]; rfl
    · refine Or.inr ⟨s, ?_, c, hc, rfl⟩
      rw [hout] at hs
      exact Nat.lt_of_mul_lt_mul_left (a := o.S) (Nat.lt_of_lt_of_le (Nat.mul_lt_mul_of_pos_left (Nat.lt_succ_self s) (by have := h.wf.C_le_S; have := h.wf.C_pos; omega)) hs)

/-- The interface specification of the overwriting schedule. -/
theorem Ow.spec (h : o.Ow) : o.base.OwSpec 0 o.owFreq := by
  have hn : o.base.n - 1 = o.p := by show o.n - 1 = o.p; rw [h.n_eq]; omega
  have hl : o.base.l = o.m := h.l_eq
  have hdft : ∀ (x : ℕ → ℂ) (e : ℤ), o.base.dft 0 x e = paddedDFT o.M o.L x e := by
    intro x e
    unfold FftBase.dft paddedDFT
    simp only [sub_zero]; rfl
  have hpre : ∀ {m : Mem} {f F : Ptr}, f.buf ≠ F.buf → (∀ p, o.base.Data f p → m.valid p) → (∀ p, o.base.Cols F p → m.valid p) →
      o.OwPre m f F := by
    intro m f F h1 h2 h3
    have hall : ∀ p, o.OwW f F p → m.valid p := fun p hp => by
      rcases (owW_iff h).1 hp with hp | hp
      · exact h2 p hp
      · exact h3 p hp
    exact ⟨h1, fun r hr s hs c hc => hall _ (Or.inl ⟨r, hr, s, hs, c, hc, rfl⟩), fun s hs c hc => hall _ (Or.inr ⟨s, hs, c, hc, rfl⟩)⟩
  refine ⟨h.q1, h.inpl, h.BA, fun c hc => lt_of_lt_of_le hc h.wf.C_le_S, ?_, ?_, ?_, ?_, ?_, ?_, ?_, ?_, ?_, ?_⟩
  · intro r; rfl
  · rw [hn, hl]; exact h.L_eq
  · rw [hl]; exact h.wf.m_pos
  · show 0 < o.n; rw [h.n_eq]; omega
  · intro r hr
    have hr' : r < o.n := hr
    obtain ⟨t, h1, h2, h3⟩ := h.wf.starts_eq
    have hD := h.D_eq
    have hD0 := h.wf.D0_eq_one hD
    show r ∈ o.starts
    have hdr : o.dr = 1 := by rw [h.wf.dr_eq]; unfold Dr conjugates; simp [hD]
    have hcj : o.conj = false := by unfold conj conjugates; simp [hD]
    have hi : o.increment 0 = 1 := by unfold increment; simp [hcj, hD0]
    rw [h3, hi, hdr]
    rw [hD0, hD] at h1
    simp only [List.mem_cons, List.mem_map, List.mem_range]
    rcases Nat.eq_zero_or_pos r with h4 | h4
    · exact Or.inl h4
    · exact Or.inr ⟨r - 1, by omega, by omega⟩
  · show o.b * o.D = o.S * o.base.l
    rw [hl, h.wf.b_D, h.P_eq, h.D_eq]; simp
  · intro g
    rw [hn, hl]; exact owFreq_sum h g
  · intro h2 r hr i hi
    rw [hl] at hi
    show o.index r i = _
    rw [owIndex h hi]
    unfold owFreq
    rw [if_neg (by omega)]
  · intro m f F r W? h1 h2 h3
    rw [hn, hl]
    refine (owForward_ok h (hpre h1 h2 h3) r W?).mono ?_
    intro _ m' hf
    refine ⟨hf.upd.mono fun p hp => (owW_iff h).1 hp, ?_, ?_⟩
    · intro r hr i hi c hc
      rw [hdft, ← owFreq_dft h]
      exact hf.ef r hr i hi c hc
    · intro i hi c hc
      rw [hdft, ← owFreq_dft h]
      exact hf.eF i hi c hc
  · intro m f F r W? h1 h2 h3
    rw [hn, hl]
    refine (owBackward_ok h (hpre h1 h2 h3) r W?).mono ?_
    intro _ m' hf
    refine ⟨hf.upd.mono fun p hp => (owW_iff h).1 hp, ?_⟩
    intro j hj c hc
    simp only [sub_zero]
    have := hf.e j hj c hc
    simp only [owFreq_w h] at this
    exact this

end Fft
end Fftwpp
