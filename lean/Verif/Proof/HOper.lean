import Verif.Proof.HView

/-! Multiplication of real transforms; the result of a Hermitian convolution. -/

namespace Fftwpp
open Finset

/-- What a multiplier on real transforms does: double `j` of output `b` is `φ` of doubles `j` of the `A` inputs.  `φ` may depend on the
frequencies: `index(r,offset+j)` in the innermost direction, then `index[1]`, … . -/
structure RMultSpec (A B : ℕ) (index : ℕ → ℕ → ℕ) (mult : Multiplier) (φ : List ℕ → ℕ → (ℕ → ℝ) → ℝ) : Prop where
  congr : ∀ e b X Y, (∀ a < A, X a = Y a) → φ e b X = φ e b Y
  ok : ∀ {m : Mem} {F : PtrArr} {n : ℕ} {idx : List ℕ} {r offset : ℕ}, max A B ≤ F.n →
    (∀ a < max A B, m.block (F.at_ a) (ceilquotient n 2)) →
    (∀ a < max A B, ∀ a' < max A B, a ≠ a' → (F.at_ a).buf ≠ (F.at_ a').buf) →
    (mult F n idx r offset).Ok m fun _ m' => m.Upd m' (fun p => ∃ a < max A B, InArr (F.at_ a) (ceilquotient n 2) p) ∧
      ∀ b < B, ∀ j < n, m'.dbl (F.at_ b) j = φ (index r (offset + j) :: idx) b (fun a => m.dbl (F.at_ a) j)

theorem realMultBinary_spec {index : ℕ → ℕ → ℕ} : RMultSpec 2 1 index realMultBinary (fun _ _ Y => Y 0 * Y 1) := by
  refine ⟨fun e b X Y h => by rw [h 0 (by omega), h 1 (by omega)], ?_⟩
  intro m F n idx r offset hn hb hsep
  unfold realMultBinary
  rw [PtrArr.get_bind (by simp at hn; omega), PtrArr.get_bind (by simp at hn; omega)]
  have h01 : (F.at_ 0).buf ≠ (F.at_ 1).buf := hsep 0 (by simp) 1 (by simp) (by omega)
  refine par_map1 (fun j => F.at_ 0 + j) (fun k => ⟨(m.val (F.at_ 0 + k)).re * (m.val (F.at_ 1 + k)).re,
    if 2 * k + 1 < n then (m.val (F.at_ 0 + k)).im * (m.val (F.at_ 1 + k)).im else (m.val (F.at_ 0 + k)).im⟩) (rng_nodup _ _) ?_ ?_ ?_ ?_ ?_
  · intro j hj
    rw [mem_rng] at hj
    body_simp
    have h0 := hb 0 (by simp) j hj.2
    have h1 := hb 1 (by simp) j hj.2
    exact ⟨h0, h1, h0⟩
  · intro j hj; body_simp
  · ptr
  · body_simp <;> ptr
  · intro m' u e
    refine ⟨u.mono ?_, ?_⟩
    · rintro p ⟨j, hj, rfl⟩
      exact ⟨0, by simp, j, (mem_rng.1 hj).2, rfl⟩
    · intro b hb j hj
      obtain rfl : b = 0 := by omega
      have := e (j / 2) (mem_rng.2 ⟨Nat.zero_le _, by unfold ceilquotient; omega⟩)
      unfold Mem.dbl
      rw [this]
      simp only
      split_ifs with h1 h2
      · rfl
      · rfl
      · omega

namespace Herm
variable {o : Herm}

/-- The indices are frequencies in `[0,N)`. -/
theorem WF.index_lt (h : o.WF) {r : ℕ} (hr : o.Visit r) {i : ℕ} (hi : i < o.blocksize 0 * o.nd r) : o.index r i < o.M := by
  have hm := h.m_pos
  have hP := h.P_pos
  have hbound : ∀ s u t, s < o.m → u < o.P → t < o.n → o.q * s + o.n * u + t < o.M := by
    intro s u t hs hu ht
    have h1 : o.n * u + t < o.q := by rw [h.q_eq, Nat.mul_comm o.P]; exact radix_lt ht hu
    rw [h.M_eq, Nat.mul_comm o.m, Nat.add_assoc]
    exact radix_lt h1 hs
  rw [h.blocksize_eq] at hi
  unfold Fft.index
  rcases h.cases with h3 | ⟨h3, h4, h5, h6, _⟩
  · obtain rfl := hr.q1 h3.1
    have hnd : o.nd 0 = 1 := by unfold nd; rw [if_pos rfl, h.D0_eq, if_pos h3.1]
    have hP : o.P = 1 := by unfold P; rw [if_pos h3.1]
    rw [hnd, hP] at hi
    rw [if_pos h3.1, h.M_eq, h3.1]
    omega
  · rw [if_neg h3]
    have hcq : ceilquotient o.p 2 = o.P := by unfold ceilquotient; omega
    have hd2 : o.nd r ≤ 2 := (Herm.nd_pos h r).2
    have hc : 1 < o.D ∧ (o.centered = true ∧ o.p % 2 = 0 ∨ o.p ≤ 2) := ⟨by omega, Or.inl ⟨h.cen, by omega⟩⟩
    simp only [hcq]
    rw [if_pos hc]
    have hPm : 0 < o.P * o.m := Nat.mul_pos hP hm
    have hoff : (if r = 0 ∧ o.P * o.m ≤ i ∧ o.D0 % 2 = 1 then 1 else 0) = 0 := by
      rw [if_neg]
      rintro ⟨rfl, g1, g2⟩
      have h0 := h.D0_eq
      rw [if_neg h3] at h0
      have : o.nd 0 = 1 := by
        unfold nd; rw [if_pos rfl, h0]
        split_ifs at h0 ⊢ with h7
        · omega
        · rfl
      rw [this, Nat.mul_comm o.m] at hi
      omega
    have e4 : i / (2 * o.P * o.m) = 0 := by
      apply Nat.div_eq_of_lt
      have : o.m * o.P * o.nd r ≤ o.m * o.P * 2 := Nat.mul_le_mul_left _ hd2
      rw [show 2 * o.P * o.m = o.m * o.P * 2 by ring]; omega
    rw [hoff, Nat.mul_zero, Nat.add_zero, e4, Nat.add_zero]
    have hs := Nat.mod_lt i hm
    have hu := Nat.mod_lt (i / o.m) hP
    generalize i % o.m = s at *
    generalize i / o.m % o.P = u at *
    have hrn : r < o.n := by
      rcases hr with rfl | hr
      · omega
      · omega
    split_ifs <;> apply hbound <;> first | omega | skip

/-- Sums over all the outputs of all the residue blocks are sums over all frequencies. -/
theorem WF.sum_index (h : o.WF) (G : ℕ → ℂ) :
    ∑ r ∈ range o.R, ∑ i ∈ range (o.blocksize 0 * o.nd r), G (o.index r i) = ∑ e ∈ range o.M, G e := by
  have hM : 0 < o.M := lt_of_lt_of_le h.L_pos h.L_le_M
  let g : ℤ → ℂ := fun k => G (k % o.M).toNat
  have hg : ∀ e < o.M, g e = G e := by
    intro e he
    show G _ = G _
    congr 1
    rw [Int.emod_eq_of_lt (by omega) (by omega)]; simp
  have hper : ∀ x y : ℤ, (o.M : ℤ) ∣ x - y → g x = g y := by
    intro x y hxy
    show G _ = G _
    rw [Int.emod_eq_emod_iff_emod_sub_eq_zero.2 (Int.emod_eq_zero_of_dvd hxy)]
  rw [sum_congr rfl fun e he => (hg e (mem_range.1 he)).symm, ← h.sum_freq hper]
  refine sum_congr rfl fun r hr => ?_
  have hv := h.visit (mem_range.1 hr)
  rw [sum_split, sum_comm]
  refine sum_congr rfl fun d hd => ?_
  rw [show range (o.blocksize 0) = range (o.m * o.P) from rfl, sum_split, sum_comm]
  refine sum_congr rfl fun u hu => sum_congr rfl fun l hl => ?_
  have hu := mem_range.1 hu
  have hl := mem_range.1 hl
  have hd := mem_range.1 hd
  have hlt : o.m * u + l + o.blocksize 0 * d < o.blocksize 0 * o.nd r := by
    rw [Nat.add_comm]
    refine radix_lt ?_ hd
    rw [h.blocksize_eq]; exact radix_lt hl hu
  rw [Nat.add_comm l]
  rw [← hg _ (h.index_lt hv hlt)]
  refine hper _ _ ?_
  have := h.index_dvd hv hd hu hl
  rwa [show o.P * o.m = o.blocksize 0 from Nat.mul_comm _ _, Nat.add_comm (o.blocksize 0 * d)] at this

theorem seqLoop_one {ι : Type} {x : ι} {f : ι → Cmd Unit} {m : Mem} {Q : Unit → Mem → Prop} (h : (f x).Ok m Q) : (seqLoop [x] f).Ok m Q := by
  obtain ⟨_, m1, e, hq⟩ := h
  exact ⟨(), m1, by simp only [seqLoop, e], hq⟩

/-- The operation on the transforms. -/
noncomputable def opΦ (o : Herm) (φ : List ℕ → ℕ → (ℕ → ℝ) → ℝ) (idx : List ℕ) (r i b : ℕ) (X : ℕ → ℕ → ℂ) (c : ℕ) : ℂ :=
  (φ (o.index r i :: idx) b (fun a => (X a c).re) : ℝ)

theorem ops (h : o.WF) (hD : 0 < o.D) (hC : o.C = 1) (hBA : o.q = 1 ∨ o.B ≤ o.A) {c : Conv} (hc : c.fft = o.base) {φ}
    (hm : RMultSpec o.A o.B o.index c.mult φ) (idx : List ℕ) :
    o.view.Ops c (o.opΦ φ idx) (fun _ _ _ => True) idx := by
  have hb_le : ceilquotient (o.blocksize 0) 2 ≤ o.b := by
    have h1 := h.b_le
    rw [hC, Nat.one_mul] at h1
    exact h1
  have hS : o.S = 1 := by rw [h.S_eq, hC]
  have hcongr : ∀ r i b X Y, (∀ a < o.A, ∀ c < o.C, X a c = Y a c) → ∀ c < o.C, o.opΦ φ idx r i b X c = o.opΦ φ idx r i b Y c := by
    intro r i b X Y hXY c hc
    unfold opΦ
    rw [hm.congr _ _ _ _ fun a ha => by rw [hXY a ha c hc]]
  -- one call of the multiplier on block `d`
  have call : ∀ {m : Mem} {F G : PtrArr} {r d off : ℕ}, d < o.D → max o.A o.B ≤ G.n → (∀ a, G.at_ a = F.at_ a + o.b * d) →
      off = o.blocksize 0 * d →
      (∀ a < max o.A o.B, m.block (F.at_ a) o.outputSize) →
      (∀ a < max o.A o.B, ∀ a' < max o.A o.B, a ≠ a' → (F.at_ a).buf ≠ (F.at_ a').buf) →
      (c.mult G (o.blocksize 0) idx r off).Ok m fun _ m' =>
        m.Upd m' (fun p => ∃ a < max o.A o.B, InArr (F.at_ a + o.b * d) o.b p) ∧
        ∀ b < o.B, ∀ j < o.blocksize 0, m'.dbl (F.at_ b + o.b * d) j =
          φ (o.index r (o.blocksize 0 * d + j) :: idx) b (fun a => m.dbl (F.at_ a + o.b * d) j) := by
    intro m F G r d off hd hGn hG hoff hbl hsep
    subst hoff
    refine (hm.ok hGn ?_ ?_).mono ?_
    · intro a ha i hi
      rw [hG, show F.at_ a + o.b * d + i = F.at_ a + (o.b * d + i) by ext <;> simp; ring]
      refine hbl a ha _ ?_
      exact radix_lt (show i < o.b by omega) hd
    · intro a ha a' ha' hne
      rw [hG, hG]; simpa using hsep a ha a' ha' hne
    · rintro _ m' ⟨u, e⟩
      refine ⟨u.mono ?_, ?_⟩
      · rintro p ⟨a, ha, hp⟩
        rw [hG] at hp
        exact ⟨a, ha, InArr.mono hb_le hp⟩
      · intro b hb j hj
        have := e b hb j hj
        simpa only [hG] using this
  have hin : ∀ {F : Ptr} {d : ℕ} {p : Ptr}, d < o.D → InArr (F + o.b * d) o.b p → InArr F o.outputSize p := by
    intro F d p hd hp
    refine InArr.shift ?_ hp
    unfold Fft.outputSize
    calc o.b * d + o.b = o.b * (d + 1) := by ring
      _ ≤ o.b * o.D := Nat.mul_le_mul_left _ hd
  constructor
  · intro hq
    have hq : o.q = 1 := by rw [hc] at hq; exact hq
    rw [hc]
    refine ⟨hcongr, fun _ _ _ _ _ _ => trivial, fun _ _ _ => trivial, ?_⟩
    intro m F r hr _ hn hb hsep _
    have hr0 := (h.visit (h.residues_mem.1 hr)).q1 hq
    subst hr0
    have hnd : o.nd 0 = 1 := by unfold nd; rw [if_pos rfl, h.D0_eq, if_pos hq]
    refine (call (F := F) (r := 0) (d := 0) hD hn (fun a => by ext <;> simp) (by simp) hb hsep).mono ?_
    rintro _ m' ⟨u, e⟩
    refine ⟨trivial, u.mono ?_, ?_⟩
    · rintro p ⟨a, ha, hp⟩
      exact Or.inr ⟨a, ha, hin hD hp⟩
    · intro _ b hb' i hi c' hc'
      have hi : i < o.blocksize 0 := by
        have : i < o.blocksize 0 * o.nd 0 := hi
        rwa [hnd, Nat.mul_one] at this
      obtain rfl : c' = 0 := by
        have : c' < o.C := hc'
        omega
      have := e b hb' i hi
      show ((m'.dbl _ _ : ℝ) : ℂ) = ((φ _ _ _ : ℝ) : ℂ)
      simp only [view, Nat.div_eq_of_lt hi, Nat.mod_eq_of_lt hi, hC, Nat.one_mul, Nat.add_zero, Complex.ofReal_re]
      rw [this]
      simp
  · intro hq
    have hq : o.q ≠ 1 := by rw [hc] at hq; exact hq
    have hBA := hBA.resolve_left hq
    have hD2 : o.D = 2 := by
      rcases h.cases with h3 | h3
      · exact absurd h3.1 hq
      · exact h3.2.1
    rw [hc]
    refine ⟨hcongr, fun _ _ _ _ _ _ => trivial, fun _ _ _ => trivial, ?_⟩
    intro m F r hr _ hn hb hsep _
    have hv := h.visit (h.residues_mem.1 hr)
    have hbpos : 0 < o.b := by
      have := h.bs_pos
      unfold ceilquotient at hb_le
      omega
    have hstop : rng 1 (ceilquotient (c.fft.span r) c.fft.b) = [1] := by
      rw [hc]
      show rng 1 (ceilquotient (2 * o.b) o.b) = [1]
      rw [Nat.mul_comm, FftBase.ceilquotient_mul hbpos]; rfl
    unfold Conv.operate
    simp only [hstop]
    rw [hc]
    refine Cmd.Ok.bind ((call (F := F) (r := r) (d := 0) hD hn (fun a => by ext <;> simp) (by simp) hb hsep).mono ?_)
    rintro _ m1 ⟨u1, e1⟩
    have hb1 : ∀ a < max o.A o.B, m1.block (F.at_ a) o.outputSize := fun a ha => FftBase.block_size u1.size (hb a ha)
    have hmax : max o.A o.B = o.A := max_eq_left hBA
    show (seqLoop [1] fun d => c.mult ⟨o.A, fun a => F.at_ a + o.b * d⟩ (o.blocksize 0) idx r (o.S * o.noutputs 0 * d)).Ok m1 _
    have c2 := call (F := F) (G := ⟨o.A, fun a => F.at_ a + o.b * 1⟩) (r := r) (d := 1) (off := o.S * o.noutputs 0 * 1) (by omega)
      (le_of_eq hmax) (fun a => rfl) (by rw [hS, Nat.one_mul]; rfl) hb1 hsep
    refine seqLoop_one (c2.mono ?_)
    rintro _ m2 ⟨u2, e2⟩
    refine ⟨trivial, u1.trans u2 ?_ ?_, ?_⟩
    · rintro p ⟨a, ha, hp⟩
      exact Or.inr ⟨a, ha, hin (d := 0) hD hp⟩
    · rintro p ⟨a, ha, hp⟩
      exact Or.inr ⟨a, ha, hin (d := 1) (by omega) hp⟩
    · intro _ b hb' i hi c' hc'
      obtain rfl : c' = 0 := by
        have : c' < o.C := hc'
        omega
      have hbm : b < max o.A o.B := lt_of_lt_of_le hb' (le_max_right _ _)
      have hi : i < o.blocksize 0 * o.nd r := hi
      have hd := h.div_lt hi
      have hmod := Nat.mod_lt i h.bs_pos
      have hidx := Nat.div_add_mod i (o.blocksize 0)
      have hd2 := (Herm.nd_pos h r).2
      show ((m2.dbl _ _ : ℝ) : ℂ) = ((φ _ _ _ : ℝ) : ℂ)
      congr 1
      simp only [view, hC, Nat.one_mul, Nat.add_zero, Complex.ofReal_re]
      -- the other block is not touched
      have hoth : ∀ (m m' : Mem) (a d d' j : ℕ), a < max o.A o.B → d ≠ d' → j < o.blocksize 0 →
          m.Upd m' (fun p => ∃ a < max o.A o.B, InArr (F.at_ a + o.b * d') o.b p) →
          m'.dbl (F.at_ a + o.b * d) j = m.dbl (F.at_ a + o.b * d) j := by
        intro m m' a d d' j ha hdd hj u
        refine Mem.dbl_congr (u.frame _ ?_)
        rintro ⟨a', ha', k, hk, e⟩
        have hbuf : (F.at_ a).buf = (F.at_ a').buf := by simpa using congrArg Ptr.buf e
        by_cases haa : a = a'
        · subst haa
          have hoff : o.b * d + j / 2 = o.b * d' + k := by
            have : ((F.at_ a).off + ((o.b * d : ℕ) : ℤ) + ((j / 2 : ℕ) : ℤ)) = (F.at_ a).off + ((o.b * d' : ℕ) : ℤ) + (k : ℤ) := by
              simpa using congrArg Ptr.off e
            omega
          have hj2 : j / 2 < o.b := by
            unfold ceilquotient at hb_le
            omega
          exact hdd (radix_inj hj2 hk hoff).1
        · exact hsep a ha a' ha' haa hbuf
      obtain hd0 | hd1 : i / o.blocksize 0 = 0 ∨ i / o.blocksize 0 = 1 := by
        clear hidx
        generalize i / o.blocksize 0 = d at *
        omega
      · rw [hd0] at hidx ⊢
        rw [hoth m1 m2 b 0 1 _ hbm (by omega) hmod u2, e1 b hb' _ hmod, hidx]
      · rw [hd1] at hidx ⊢
        rw [e2 b hb' _ hmod, hidx]
        exact hm.congr _ _ _ _ fun a ha => hoth m m1 a 1 0 _ (lt_of_lt_of_le ha (le_max_left _ _)) (by omega) hmod u1

end Herm
end Fftwpp
