import Verif.Proof.CSpec

/-! The overwriting centered transforms satisfy the interface specification of the overwriting schedule. -/

namespace Fftwpp
open Finset
namespace Cent
variable {o : Cent}

theorem owForward_ok (h : o.Ow) {f F : Ptr} {mem : Mem} (r : ℕ) (W? : Option Ptr) (pre : o.OwPre mem f F) :
    (o.forward f F r W?).Ok mem (fun _ m' => o.OwFwd mem m' f F) := by
  have hr := h.wf.route_eq
  have hq := h.facts.1
  have hp := h.wf.p_cases
  unfold chooseRouteCentered chooseRoute at hr
  rw [h.ow] at hr
  unfold forward
  by_cases hS : o.S = 1
  · by_cases hp2 : o.p = 2
    · simp [hq, hS, hp2] at hr
      rw [hr]
      exact forward2All_ok h hp2 hS pre
    · have h2 : 2 < o.p := by omega
      simp [hq, hS, hp2, h2] at hr
      rw [hr]
      exact forwardInnerAll_ok h h2 hS pre
  · by_cases hp2 : o.p = 2
    · simp [hq, hS, hp2] at hr
      rw [hr]
      exact forward2ManyAll_ok h hp2 hS pre
    · have h2 : 2 < o.p := by omega
      simp [hq, hS, hp2, h2] at hr
      rw [hr]
      exact forwardInnerManyAll_ok h h2 hS pre

theorem owBackward_ok (h : o.Ow) {f F : Ptr} {mem : Mem} (r : ℕ) (W? : Option Ptr) (pre : o.OwPre mem f F) :
    (o.backward F f r W?).Ok mem (fun _ m' => o.OwBwd mem m' f F) := by
  have hr := h.wf.route_eq
  have hq := h.facts.1
  have hp := h.wf.p_cases
  unfold chooseRouteCentered chooseRoute at hr
  rw [h.ow] at hr
  unfold backward
  by_cases hS : o.S = 1
  · by_cases hp2 : o.p = 2
    · simp [hq, hS, hp2] at hr
      rw [hr]
      exact backward2All_ok h hp2 hS pre
    · have h2 : 2 < o.p := by omega
      simp [hq, hS, hp2, h2] at hr
      rw [hr]
      exact backwardInnerAll_ok h h2 hS pre
  · by_cases hp2 : o.p = 2
    · simp [hq, hS, hp2] at hr
      rw [hr]
      exact backward2ManyAll_ok h hp2 hS pre
    · have h2 : 2 < o.p := by omega
      simp [hq, hS, hp2, h2] at hr
      rw [hr]
      exact backwardInnerManyAll_ok h h2 hS pre

/-- The frequency (modulo `N`) of position `i` of residue block `r`. -/
def owFreq (o : Cent) (r i : ℕ) : ℕ :=
  if r = 2 then (o.q * (i % o.m) + o.n * (i / o.m) + (o.M - 1)) % o.M else o.q * (i % o.m) + o.n * (i / o.m) + r

theorem owFreq_dvd (h : o.Ow) {r : ℕ} (hr : r < 3) (i : ℕ) :
    (o.M : ℤ) ∣ ((o.q : ℤ) * (i % o.m : ℕ) + (o.n * (i / o.m : ℕ) + sA r)) - (o.owFreq r i : ℕ) := by
  have hM := h.wf.M_pos
  unfold owFreq sA
  generalize i % o.m = s
  generalize i / o.m = t
  by_cases h2 : r = 2
  · subst h2
    simp only [if_true, show (2 : ℕ) ≠ 0 by omega, show (2 : ℕ) ≠ 1 by omega, if_false]
    have h1 : ((o.q : ℤ) * s + (o.n * t + -1)) = ((o.q * s + o.n * t + (o.M - 1) : ℕ) : ℤ) - o.M := by
      push_cast [Nat.cast_sub (show 1 ≤ o.M by omega)]; ring
    rw [h1, Int.natCast_mod]
    have h2 := Int.dvd_sub_self_of_emod_eq (a := ((o.q * s + o.n * t + (o.M - 1) : ℕ) : ℤ)) (b := o.M) rfl
    rw [show ∀ a b c : ℤ, a - b - c = (a - c) - b from fun a b c => by ring]
    exact dvd_sub (dvd_sub_comm.1 h2) (dvd_refl _)
  · rw [if_neg h2]
    have : r = 0 ∨ r = 1 := by omega
    rcases this with rfl | rfl <;> push_cast <;> simp [add_assoc]

theorem owFreq_sum (h : o.Ow) (g : ℕ → ℂ) :
    (∑ r ∈ range 2, ∑ i ∈ range (o.m * o.P), g (o.owFreq r i)) + ∑ i ∈ range (o.m * o.P), g (o.owFreq 2 i) = ∑ e ∈ range o.M, g e := by
  obtain ⟨h1, h2, h3, h4, h5, h6, h7, h8, h9⟩ := h.facts
  have hM := h.wf.M_eq
  have hm := h.wf.m_pos
  have hP := h.wf.P_pos
  rw [← sum_range_succ (fun r => ∑ i ∈ range (o.m * o.P), g (o.owFreq r i))]
  have hM3 : o.M = 3 * (o.P * o.m) := by rw [hM, h9]; ring
  have flat : ∀ G : ℕ → ℂ, ∑ i ∈ range (o.m * o.P), G (o.q * (i % o.m) + o.n * (i / o.m)) = ∑ v ∈ range (o.P * o.m), G (3 * v) := by
    intro G
    rw [Fft.sum_rows, Fft.sum_rows, sum_comm]
    refine sum_congr rfl fun s hs => sum_congr rfl fun t _ => ?_
    rw [mem_range] at hs
    rw [Nat.mul_add_mod, Nat.mod_eq_of_lt hs, Nat.mul_add_div hm, Nat.div_eq_of_lt hs, Nat.add_zero, h9, h4]
    congr 1; ring
  have key : ∀ r ∈ range (2 + 1), ∑ i ∈ range (o.m * o.P), g (o.owFreq r i) = ∑ v ∈ range (o.P * o.m), g (3 * v + r) := by
    intro r hr
    rw [mem_range] at hr
    unfold owFreq
    by_cases h2 : r = 2
    · subst h2
      simp only [if_true]
      rw [flat (fun x => g ((x + (o.M - 1)) % o.M))]
      obtain ⟨k, hk⟩ : ∃ k, o.P * o.m = k + 1 := ⟨o.P * o.m - 1, by have := Nat.mul_pos hP hm; omega⟩
      rw [hM3, hk, sum_range_succ', sum_range_succ]
      congr 1
      · refine sum_congr rfl fun i hi => ?_
        rw [mem_range] at hi
        congr 1
        rw [show 3 * (i + 1) + (3 * (k + 1) - 1) = 3 * i + 2 + 3 * (k + 1) by omega, Nat.add_mod_right, Nat.mod_eq_of_lt (by omega)]
      · congr 1
        rw [Nat.mod_eq_of_lt (by omega)]
        omega
    · simp only [if_neg h2]
      exact flat (fun x => g (x + r))
  rw [sum_congr rfl key, hM3, Fft.sum_rows, sum_comm]

/-- Data words of an input, and column words of a work array. -/
theorem owW_iff (h : o.Ow) {f F p : Ptr} : (∃ x, o.RF 3 x ∧ p = o.dF (o.VA f F) x) ↔ o.base.Data f p ∨ o.base.Cols F p := by
  obtain ⟨h1, h2, h3, h4, h5, h6, h7, h8, h9⟩ := h.facts
  have hout : o.base.outputSize = o.S * (o.m * o.P) := by
    show o.b * o.D = _
    rw [h.wf.b_D, h5]; simp
  have hm := h.wf.m_pos
  have hS : 0 < o.S := by have := h.wf.C_le_S; have := h.wf.C_pos; omega
  have hb : o.b = o.S * (o.m * o.P) := by rw [h.wf.b_eq, h.wf.l_eq]
  constructor
  · rintro ⟨⟨d, t, s, c⟩, ⟨hd, ht, hs, hc⟩, rfl⟩
    simp only at hd ht hs hc
    have hts : o.m * t + s < o.m * o.P := radix_lt hs ht
    have hd3 : d = 0 ∨ d = 1 ∨ d = 2 := by omega
    rcases hd3 with rfl | rfl | rfl
    · refine Or.inl ⟨o.m * t + s, ?_, c, hc, rfl⟩
      show _ < o.L
      omega
    · refine Or.inl ⟨o.m * o.P + (o.m * t + s), ?_, c, hc, ?_⟩
      · show _ < o.L
        omega
      · show f + o.b + (o.S * (o.m * t + s) + c) = f + (o.S * (o.m * o.P + (o.m * t + s)) + c)
        rw [Ptr.add_add, hb]; congr 1; ring
    · refine Or.inr ⟨o.m * t + s, ?_, c, hc, rfl⟩
      rw [hout]
      exact Nat.mul_le_mul_left o.S hts
  · rintro (⟨j, hj, c, hc, rfl⟩ | ⟨i, hi, c, hc, rfl⟩)
    · have hj' : j < o.L := hj
      by_cases hlt : j < o.m * o.P
      · refine ⟨(0, j / o.m, j % o.m, c), ⟨by simp, Nat.div_lt_of_lt_mul hlt, Nat.mod_lt _ hm, hc⟩, ?_⟩
        show f + (o.S * j + c) = f + (o.S * (o.m * (j / o.m) + j % o.m) + c)
        rw [Nat.div_add_mod]
      · refine ⟨(1, (j - o.m * o.P) / o.m, (j - o.m * o.P) % o.m, c),
          ⟨by simp, Nat.div_lt_of_lt_mul (by omega), Nat.mod_lt _ hm, hc⟩, ?_⟩
        show f + (o.S * j + c) = f + o.b + (o.S * (o.m * ((j - o.m * o.P) / o.m) + (j - o.m * o.P) % o.m) + c)
        rw [Nat.div_add_mod, Ptr.add_add, hb]
        congr 1
        rw [← Nat.add_assoc, ← Nat.mul_add, Nat.add_sub_of_le (by omega)]
    · rw [hout] at hi
      have hi' : i < o.m * o.P := by
        have := Nat.le_of_mul_le_mul_left hi hS
        omega
      refine ⟨(2, i / o.m, i % o.m, c), ⟨by simp, Nat.div_lt_of_lt_mul hi', Nat.mod_lt _ hm, hc⟩, ?_⟩
      show F + (o.S * i + c) = F + (o.S * (o.m * (i / o.m) + i % o.m) + c)
      rw [Nat.div_add_mod]

/-- The interface specification of the overwriting schedule. -/
theorem Ow.spec (h : o.Ow) : o.base.OwSpec o.H o.owFreq := by
  obtain ⟨h1, h2, h3, h4, h5, h6, h7, h8, h9⟩ := h.facts
  have hn : o.base.n - 1 = 2 := by show o.n - 1 = 2; rw [h4]
  have hl : o.base.l = o.m * o.P := h.wf.l_eq
  have hm := h.wf.m_pos
  have hb : o.b = o.S * (o.m * o.P) := by rw [h.wf.b_eq, h.wf.l_eq]
  have hpre : ∀ {m : Mem} {f F : Ptr}, f.buf ≠ F.buf → (∀ p, o.base.Data f p → m.valid p) → (∀ p, o.base.Cols F p → m.valid p) →
      o.OwPre m f F := by
    intro m f F e1 e2 e3
    refine ⟨e1, fun x hx => ?_⟩
    rcases (owW_iff h).1 ⟨x, hx, rfl⟩ with hp | hp
    · exact e2 _ hp
    · exact e3 _ hp
  have hwf : ∀ (j : ℤ) {r : ℕ} (hr : r < 3) (i : ℕ), w o.M (j * (o.q * (i % o.m : ℕ) + (o.n * (i / o.m : ℕ) + sA r))) =
      w o.M (j * (o.owFreq r i : ℕ)) := by
    intro j r hr i
    apply w_congr
    rw [← mul_sub]
    exact Dvd.dvd.mul_left (owFreq_dvd h hr i) _
  have hdft : ∀ (x : ℕ → ℂ) {r : ℕ} (hr : r < 3) (i : ℕ), cdft o.M o.L o.H x (o.q * (i % o.m : ℕ) + (o.n * (i / o.m : ℕ) + sA r)) =
      o.base.dft o.H x (o.owFreq r i : ℕ) := by
    intro x r hr i
    unfold cdft FftBase.dft
    refine sum_congr rfl fun j _ => ?_
    congr 1
    exact hwf _ hr i
  have hva : ∀ (f F : Ptr) (k r i c : ℕ), r < 2 → o.VA f F r + (o.S * i + c) = f + (o.S * (o.m * o.P * r + i) + c) := by
    intro f F k r i c hr
    obtain rfl | rfl : r = 0 ∨ r = 1 := by omega
    · rw [VA_0]; simp
    · rw [VA_1, Ptr.add_add, hb]; congr 1; ring
  refine ⟨h1, h2, h6, fun c hc => lt_of_lt_of_le hc h.wf.C_le_S, ?_, ?_, ?_, ?_, ?_, ?_, ?_, ?_, ?_, ?_⟩
  · intro r; rfl
  · rw [hn, hl]; exact h3
  · rw [hl]; exact Nat.mul_pos hm h.wf.P_pos
  · show 0 < o.n; omega
  · intro r hr
    have hr' : r < o.n := hr
    show r ∈ o.starts
    rw [h.wf.mem_starts]
    unfold Fft.Visit
    by_cases hr0 : r = 0
    · exact Or.inl hr0
    · right
      have hcj : conjugates o.p o.D true = false := by unfold conjugates; simp [h5]
      have hdr : o.dr = 1 := by rw [h.wf.dr_eq]; unfold Dr; rw [if_neg (by simp [hcj]), h5]
      have hR : o.R = o.n := by rw [h.wf.R_eq]; unfold residueBlocks; rw [if_neg (by simp [hcj])]
      have hi : o.increment 0 = 1 := by
        have h0 := h.wf.D0_pos
        have h0' := h.wf.D0_le
        have hc : o.toFft.conj = false := by
          by_contra hc
          have := h.wf.conj_iff.1 (by simpa using hc)
          omega
        unfold Fft.increment
        simp [hc]; omega
      exact ⟨⟨r - 1, by rw [hi, hdr]; omega⟩, by omega⟩
  · show o.b * o.D = o.S * o.base.l
    rw [hl, h.wf.b_D, h5]; simp
  · intro g
    rw [hn, hl]; exact owFreq_sum h g
  · intro h2
    have : o.n = 2 := h2
    omega
  · intro m f F r W? e1 e2 e3
    rw [hn, hl]
    refine (owForward_ok h r W? (hpre e1 e2 e3)).mono ?_
    rintro _ m' ⟨u, e⟩
    have key : ∀ r < 3, ∀ i < o.m * o.P, ∀ c < o.C, m'.val (o.VA f F r + (o.S * i + c)) =
        o.base.dft o.H (fun j => m.val (f + (o.S * j + c))) (o.owFreq r i : ℕ) := by
      intro r hr i hi c hc
      have := e r hr (i / o.m) (Nat.div_lt_of_lt_mul hi) (i % o.m) (Nat.mod_lt _ hm) c hc
      rw [Nat.div_add_mod] at this
      rw [this, hdft _ hr]
    refine ⟨u.mono fun p hp => (owW_iff h).1 hp, ?_, ?_⟩
    · intro r hr i hi c hc
      have := key r (by omega) i hi c hc
      rw [hva f F 0 r i c hr] at this
      exact this
    · intro i hi c hc
      exact key 2 (by omega) i hi c hc
  · intro m f F r W? e1 e2 e3
    rw [hn, hl]
    refine (owBackward_ok h r W? (hpre e1 e2 e3)).mono ?_
    rintro _ m' ⟨u, e⟩
    refine ⟨u.mono fun p hp => (owW_iff h).1 hp, ?_⟩
    intro j hj c hc
    refine (e j hj c hc).trans ?_
    have key : ∀ r < 3, ∑ t ∈ range o.P, ∑ s ∈ range o.m,
        m.val (o.VA f F r + (o.S * (o.m * t + s) + c)) * w o.M (-(((j : ℤ) - o.H) * (o.q * s + (o.n * t + sA r)))) =
        ∑ i ∈ range (o.m * o.P), m.val (o.VA f F r + (o.S * i + c)) * w o.M (-(((j : ℤ) - o.H) * (o.owFreq r i : ℤ))) := by
      intro r hr
      rw [Fft.sum_rows]
      refine sum_congr rfl fun t _ => sum_congr rfl fun s hs => ?_
      rw [mem_range] at hs
      congr 1
      have := hwf (-((j : ℤ) - o.H)) hr (o.m * t + s)
      rw [Nat.mul_add_mod, Nat.mod_eq_of_lt hs, Nat.mul_add_div hm, Nat.div_eq_of_lt hs, Nat.add_zero] at this
      rw [← neg_mul, ← neg_mul]
      exact this
    rw [sum_range_succ, key 2 (by omega)]
    congr 1
    refine sum_congr rfl fun r hr => ?_
    rw [mem_range] at hr
    rw [key r (by omega)]
    refine sum_congr rfl fun i _ => ?_
    rw [hva f F 0 r i c hr]; rfl

end Cent
end Fftwpp
