import Verif.Proof.HConvMath3
import Verif.Props.HermConv2

/-!
# C45: three-dimensional convolutions of Hermitian-symmetric data
-/

namespace Fftwpp
open Finset

/-- The transforms in the three directions fit together. -/
theorem Conv3.gfitsH {Lx Mx Ly My Lz Mz A B H Cx : ℕ} {owx owy owz ipx ipy ipz : Bool} {Sx mx Dx Sy my Dy mz Dz : ℕ} {align : ℕ} {J : Junk}
    {tx ty : Tr} {o : Herm} (hal : 0 < align) (hDz : 0 < Dz) (hLy : 0 < Ly) (hH : H = ceilquotient Lz 2)
    (hx : Tr.new true Lx Mx ⟨A, B, owx⟩ Cx Sx mx Dx ipx = .ok tx) (hy : Tr.new true Ly My ⟨A, B, owy⟩ H Sy my Dy ipy = .ok ty)
    (hz : Herm.new Lz Mz ⟨A, B, owz⟩ 1 mz Dz ipz align J = .ok o)
    (hC : Cx = if ty.fft.S = H then Ly * ty.fft.S else H) (hS : Ly * ty.fft.S ≤ tx.fft.S)
    (hBA : B ≤ A) (hDx : tx.fft.D = 1) (hDy : ty.fft.D = 1)
    (hlx : tx.fft.overwrite = false → tx.fft.nloops = 2 → B < A → A = B + 1)
    (hly : ty.fft.overwrite = false → ty.fft.nloops = 2 → B < A → A = B + 1)
    (hlz : o.q ≠ 1 → o.nloops = 2 → B < A → (A - B) ∣ B)
    {mult : Multiplier} {φ : List ℕ → ℕ → (ℕ → ℝ) → ℝ} (hm : RMultSpec A B o.index mult φ)
    (hfreqy : ty.fft.overwrite = true → ty.fft.n = 2 ∨ ∀ ez e e' idx, φ (ez :: e :: idx) = φ (ez :: e' :: idx))
    (hfreqx : tx.fft.overwrite = true → tx.fft.n = 2 ∨ ∀ ez ey e e' idx, φ (ez :: ey :: e :: idx) = φ (ez :: ey :: e' :: idx)) :
    Conv3.GFits tx.base ty.base o.base mult (origin true Lx : ℕ) (origin true Ly : ℕ) tx.Padded ty.Padded (hval o.M o.H φ) (RealRows o.A)
      (fun c => o.view.Ready c (fun _ _ => True)) (fun m al => o.view.Buffers o.base m none none al) := by
  have h := Herm.WF.of_new (by omega) hal hz
  obtain ⟨hL, _⟩ := Herm.new_fields hz
  have hoH : o.H = H := by rw [hH, ← hL]; rfl
  have hH0 : 0 < H := by rw [← hoH]; exact h.H_facts.1
  have f' := Tr.facts hH0 hy
  have hSy : H ≤ ty.fft.S := f'.CS
  have hCx0 : 0 < Cx := by
    rw [hC]
    split_ifs
    · exact Nat.mul_pos hLy (by omega)
    · exact hH0
  have f := Tr.facts hCx0 hx
  refine ⟨f.spec, f.outer hBA hlx, ?_, Conv2.gfitsH hal hDz hH hy hz hBA hDy hly hlz hm hfreqy, by rw [f.bA, f'.bA], by rw [f.bB, f'.bB], Tr.ws, ?_, ?_, ?_,
    f.bcol, fun r _ => f.bs hDx r⟩
  · intro how
    unfold FftBase.FreqX
    rw [f.bn]
    rcases hfreqx (by rw [← f.bow]; exact how) with h1 | h1
    · exact Or.inl h1
    · right
      intro e e' idx
      funext b X k
      unfold FftBase.valG hval
      refine sum_congr rfl fun ey _ => ?_
      congr 1
      refine sum_congr rfl fun ez _ => ?_
      rw [h1 ez ey e e']
  · rw [contiguous3_two Tr.ws, f.bC, hC, f'.bC, f'.bL, f'.bS]
    simp only [decide_eq_true_eq]
  · rw [f'.bL, f'.bS, f.bS]; exact hS
  · rw [f'.bL]; exact hLy

/-- **C45**, general form, with the analogues of C12, C13 and C15: as `C44_history2` for a `Convolution3` from centered transforms in `x` and `y` and a
Hermitian one in `z` (`H=⌈Lz/2⌉` stored columns). -/
theorem C45_history3 {Lx Mx Ly My Lz Mz A B H Cx : ℕ} {owx owy owz ipx ipy ipz : Bool} {Sx mx Dx Sy my Dy mz Dz : ℕ} {align : ℕ} {J : Junk}
    {tx ty : Tr} {o : Herm} (hal : 0 < align) (hDz : 0 < Dz) (hLy : 0 < Ly) (hH : H = ceilquotient Lz 2)
    (hx : Tr.new true Lx Mx ⟨A, B, owx⟩ Cx Sx mx Dx ipx = .ok tx) (hy : Tr.new true Ly My ⟨A, B, owy⟩ H Sy my Dy ipy = .ok ty)
    (hz : Herm.new Lz Mz ⟨A, B, owz⟩ 1 mz Dz ipz align J = .ok o)
    (hC : Cx = if ty.fft.S = H then Ly * ty.fft.S else H) (hS : Ly * ty.fft.S ≤ tx.fft.S)
    (hBA : B ≤ A) (hDx : tx.fft.D = 1) (hDy : ty.fft.D = 1)
    (hlx : tx.fft.overwrite = false → tx.fft.nloops = 2 → B < A → A = B + 1)
    (hly : ty.fft.overwrite = false → ty.fft.nloops = 2 → B < A → A = B + 1)
    (hlz : o.q ≠ 1 → o.nloops = 2 → B < A → (A - B) ∣ B)
    {mult : Multiplier} {φ : List ℕ → ℕ → (ℕ → ℝ) → ℝ} (hm : RMultSpec A B o.index mult φ)
    (hfreqy : ty.fft.overwrite = true → ty.fft.n = 2 ∨ ∀ ez e e' idx, φ (ez :: e :: idx) = φ (ez :: e' :: idx))
    (hfreqx : tx.fft.overwrite = true → tx.fft.n = 2 ∨ ∀ ez ey e e' idx, φ (ez :: ey :: e :: idx) = φ (ez :: ey :: e' :: idx))
    {th thy : ℕ} {mem0 : Mem} {Fu : Option PtrArr} {Vu : Option Ptr} {al : Alloc3}
    (hbuf : Conv3.GBuffers tx.base ty.base o.base (fun m al => o.view.Buffers o.base m none none al) th thy mem0 Fu Vu al) :
    ∃ c mem1, Conv3.new tx.base ty.base o.base mult th thy Fu none Vu al mem0 = .ok (c, mem1) ∧
      (∀ k, c.Bufs k → Conv3.NewBufs tx.base ty.base o.base th thy Fu Vu al k) ∧
      ∀ steps : List Conv3.Step, (∀ s ∈ steps, c.Allowed mem0 s) →
      ∃ mem2, seqLoop steps c.step mem1 = .ok ((), mem2) ∧
      ∀ (s : ℕ → Sch) (s2 : ℕ → ℕ → ℕ → Sch) (f : PtrArr) (off : ℕ), c.LegalS s s2 → c.Inputs mem0 f off →
        (c.convolve s s2 f off).Ok mem2 fun _ mem3 =>
        ((∀ a < A, HermData3 Lx (Lx / 2) Ly (Ly / 2) (fun i j k => mem2.val (f.at_ a + off + (tx.fft.S * i + (ty.fft.S * j + k))))) →
          (∀ b < B, ∀ i < Lx, ∀ j < Ly, ∀ k < H, mem3.val (f.at_ b + off + (tx.fft.S * i + (ty.fft.S * j + k))) =
            hermResult3 (mx * tx.fft.q) Lx (Lx / 2) (my * ty.fft.q) Ly (Ly / 2) (mz * o.q) H (fun kx ky kz => φ [kz, ky, kx])
              (fun a i j k => mem2.val (f.at_ a + off + (tx.fft.S * i + (ty.fft.S * j + k)))) b
              ((i : ℤ) - (Lx / 2 : ℕ)) ((j : ℤ) - (Ly / 2 : ℕ)) k) ∧
          (∀ b < B, ∀ i < Lx, ∀ i' < Lx, ∀ j < Ly, ∀ j' < Ly, (i : ℤ) - (Lx / 2 : ℕ) = -((i' : ℤ) - (Lx / 2 : ℕ)) →
            (j : ℤ) - (Ly / 2 : ℕ) = -((j' : ℤ) - (Ly / 2 : ℕ)) →
            mem3.val (f.at_ b + off + (tx.fft.S * i + (ty.fft.S * j + 0))) =
              (starRingEnd ℂ) (mem3.val (f.at_ b + off + (tx.fft.S * i' + (ty.fft.S * j' + 0)))))) ∧
        (∀ p, ¬ c.Bufs p.buf → (∀ b < (if tx.fft.overwrite = true then A else B), ∀ i < Lx, ∀ j < Ly, ∀ k < H,
          p ≠ f.at_ b + off + (tx.fft.S * i + (ty.fft.S * j + k))) → mem3.val p = mem2.val p) ∧
        mem3.size = mem2.size := by
  have hfit := Conv3.gfitsH hal hDz hLy hH hx hy hz hC hS hBA hDx hDy hlx hly hlz hm hfreqy hfreqx
  have hxf := hfit.x
  have h := Herm.WF.of_new (by omega) hal hz
  obtain ⟨hL, hmm, hCC, _, _, hA, hB, hDD, _⟩ := Herm.new_fields hz
  have hoH : o.H = H := by rw [hH, ← hL]; rfl
  have hH0 : 0 < H := by rw [← hoH]; exact h.H_facts.1
  have f' := Tr.facts hH0 hy
  have hCx0 : 0 < Cx := by
    have := f'.CS
    rw [hC]
    split_ifs
    · exact Nat.mul_pos hLy (by omega)
    · exact hH0
  have f := Tr.facts hCx0 hx
  obtain ⟨c, mem1, e1, hfx, hfy, hfz, hth, _, hset, hr, hbn, hu⟩ := Conv3.newG_ok hfit hbuf
  refine ⟨c, mem1, e1, hbn, ?_⟩
  intro steps hst
  have hal : ∀ s ∈ steps, c.Allowed mem1 s := by
    intro s hsm
    have := hst s hsm
    cases s with
    | write p v => exact ⟨Mem.valid_of_size hu.size this.1, this.2⟩
    | call s s2 g off => exact ⟨this.1, this.2.size hu.size⟩
  obtain ⟨_, mem2, e2, hr2, hs2⟩ := hset.history_ok hr steps hal
  refine ⟨mem2, e2, ?_⟩
  intro s s2 g off hs hf
  refine (hset.convolve_ok hs hr2 (hf.size (hs2.trans hu.size))).mono ?_
  rintro _ mem3 ⟨u3, _, e3⟩
  have bB : c.x.fft.B = B := by rw [hfx, hxf.B]; exact f.bB
  have bO : c.x.fft.outs = if tx.fft.overwrite = true then A else B := by
    unfold FftBase.outs
    rw [hfx, hxf.ow, hxf.A, hxf.B, f.bow, f.bA, f.bB]
  have bL : c.x.fft.L = Lx := by rw [hfx, hxf.L]; exact f.bL
  have bC : c.x.fft.C = Ly * H := by rw [hfx, hxf.C, f'.bL, f'.bC]
  have bS : c.x.fft.S = tx.fft.S := by rw [hfx, hxf.S]; exact f.bS
  have bN : c.x.fft.N = mx * tx.fft.q := by rw [hfx, hxf.N]; exact f.bN
  have bcol : c.x.fft.col = fun k => ty.fft.S * (k / H) + k % H := by
    rw [hset.col, hfy, f'.bS, f'.bC]
  have bNy : c.ffty.N = my * ty.fft.q := by rw [hfy]; exact f'.bN
  have bLy : c.ffty.L = Ly := by rw [hfy]; exact f'.bL
  have bCy : c.ffty.C = H := by rw [hfy]; exact f'.bC
  have hoM : o.M = mz * o.q := by rw [h.M_eq, hmm]
  have bNz : c.fftz.N = mz * o.q := by rw [hfz]; exact hoM
  have hLx := f.L_pos
  have hx0 : Lx / 2 < Lx := by omega
  have hy0 : Ly / 2 < Ly := by omega
  have horig : origin true Lx = Lx / 2 := rfl
  have horigy : origin true Ly = Ly / 2 := rfl
  have hcol : ∀ j k, k < H → c.x.fft.col (H * j + k) = ty.fft.S * j + k := by
    intro j k hk
    rw [bcol]
    simp only
    rw [Nat.mul_add_div (by omega), Nat.mul_add_mod, Nat.div_eq_of_lt hk, Nat.mod_eq_of_lt hk, Nat.add_zero]
  refine ⟨?_, ?_, u3.size⟩
  · intro hd
    have hG : c.x.fft.Good (origin true Lx : ℕ) (c.ffty.domG (origin true Ly : ℕ) (RealRows o.A)) mem2 g off := by
      intro e e' a ha
      unfold FftBase.hat
      simp only [FftBase.dft_cdft bN bL, FftBase.dft_cdft bNy bLy, horig, horigy, bS, bCy]
      rw [show (fun j => cdft (mx * tx.fft.q) Lx (Lx / 2) (fun i => mem2.val (g.at_ a + off + (tx.fft.S * i + c.x.fft.col (H * j + 0)))) (e : ℤ)) =
        (fun j => (fun b c => cdft (mx * tx.fft.q) Lx (Lx / 2) (fun i => mem2.val (g.at_ a + off + (tx.fft.S * i + (ty.fft.S * b + c)))) (e : ℤ)) j 0)
        from funext fun j => by simp only [hcol j 0 hH0]]
      exact ((hd a (by rw [← show o.A = A from hA]; exact ha)).data2 hx0 e).real hy0 e'
    have hv : ∀ b < B, ∀ i < Lx, ∀ j < Ly, ∀ k < H, mem3.val (g.at_ b + off + (tx.fft.S * i + (ty.fft.S * j + k))) =
            hermResult3 (mx * tx.fft.q) Lx (Lx / 2) (my * ty.fft.q) Ly (Ly / 2) (mz * o.q) H (fun kx ky kz => φ [kz, ky, kx])
              (fun a i j k => mem2.val (g.at_ a + off + (tx.fft.S * i + (ty.fft.S * j + k)))) b
              ((i : ℤ) - (Lx / 2 : ℕ)) ((j : ℤ) - (Ly / 2 : ℕ)) k := by
      intro b hb i hi j hj k hk
      have := e3 hG b (by omega) i (by omega) (H * j + k) (by rw [bC, Nat.mul_comm Ly]; exact radix_lt hk hj)
      rw [bS, hcol j k hk] at this
      rw [this, hermResult3_eq hx0]
      simp only [hermResult2_eq hy0]
      unfold FftBase.result FftBase.valG hermResult FftBase.hat hval
      rw [bN, bNy, bNz, hoM, hoH, bCy, ← one_div_mul_one_div]
      simp only [FftBase.dft_cdft bN bL, FftBase.dft_cdft bNy bLy, bS, horig, horigy]
      rw [mul_comm, mul_assoc]
      congr 1
      rw [mul_sum]
      refine sum_congr rfl fun ex _ => ?_
      rw [Nat.mul_add_div (by omega), Nat.mul_add_mod, Nat.div_eq_of_lt hk, Nat.mod_eq_of_lt hk, Nat.add_zero, ← mul_assoc,
        ← one_div_mul_one_div, mul_assoc (1 / _), mul_sum]
      congr 2
      refine sum_congr rfl fun ey _ => ?_
      rw [← mul_assoc]
      congr 2
      refine sum_congr rfl fun ez _ => ?_
      congr 2
      refine hm.congr _ _ _ _ fun a _ => ?_
      refine congrArg Complex.re (hdft_congr (fun k' hk' => ?_) ez)
      unfold cdft
      refine sum_congr rfl fun j' _ => ?_
      congr 1
      refine sum_congr rfl fun i' _ => ?_
      rw [hcol j' k' hk']
    refine ⟨hv, ?_⟩
    intro b hb i hi i' hi' j hj j' hj' hii hjj
    rw [hv b hb i hi j hj 0 hH0, hv b hb i' hi' j' hj' 0 hH0, hii, hjj]
    exact hermResult3_real _ _
  · intro p hp hpf
    refine u3.frame p ?_
    rintro (hp' | ⟨b, hb, i, hi, k, hk, rfl⟩)
    · exact hp hp'
    · rw [bC] at hk
      refine hpf b (by rw [← bO]; exact hb) i (by omega) (k / H) (Nat.div_lt_of_lt_mul (by rw [Nat.mul_comm]; exact hk)) (k % H)
        (Nat.mod_lt _ hH0) ?_
      rw [bcol, bS]

/-- **C45**: `realMultBinary`, `A=2`, `B=1`: the cyclic 3D convolution of the represented Hermitian arrays, and the linear one for sufficiently large
requested sizes if the unpaired planes of each input (positions `-Lx/2`, `-Ly/2` for even `Lx`, `Ly`) are zero. -/
theorem C45_convolve3 {Lx Mx Ly My Lz Mz H Cx : ℕ} {owx owy owz ipx ipy ipz : Bool} {Sx mx Dx Sy my Dy mz Dz : ℕ} {align : ℕ} {J : Junk}
    {tx ty : Tr} {o : Herm} (hal : 0 < align) (hDz : 0 < Dz) (hLy : 0 < Ly) (hH : H = ceilquotient Lz 2)
    (hx : Tr.new true Lx Mx ⟨2, 1, owx⟩ Cx Sx mx Dx ipx = .ok tx) (hy : Tr.new true Ly My ⟨2, 1, owy⟩ H Sy my Dy ipy = .ok ty)
    (hz : Herm.new Lz Mz ⟨2, 1, owz⟩ 1 mz Dz ipz align J = .ok o)
    (hC : Cx = if ty.fft.S = H then Ly * ty.fft.S else H) (hS : Ly * ty.fft.S ≤ tx.fft.S)
    (hDx : tx.fft.D = 1) (hDy : ty.fft.D = 1)
    {th thy : ℕ} {mem0 : Mem} {Fu : Option PtrArr} {Vu : Option Ptr} {al : Alloc3}
    (hbuf : Conv3.GBuffers tx.base ty.base o.base (fun m al => o.view.Buffers o.base m none none al) th thy mem0 Fu Vu al) :
    ∃ c mem1, Conv3.new tx.base ty.base o.base realMultBinary th thy Fu none Vu al mem0 = .ok (c, mem1) ∧
      ∀ steps : List Conv3.Step, (∀ s ∈ steps, c.Allowed mem0 s) →
      ∃ mem2, seqLoop steps c.step mem1 = .ok ((), mem2) ∧
      ∀ (s : ℕ → Sch) (s2 : ℕ → ℕ → ℕ → Sch) (f : PtrArr) (off : ℕ), c.LegalS s s2 → c.Inputs mem0 f off →
        (∀ a < 2, HermData3 Lx (Lx / 2) Ly (Ly / 2) (fun i j k => mem2.val (f.at_ a + off + (tx.fft.S * i + (ty.fft.S * j + k))))) →
        (c.convolve s s2 f off).Ok mem2 fun _ mem3 => ∀ i < Lx, ∀ j < Ly, ∀ k < H,
          mem3.val (f.at_ 0 + off + (tx.fft.S * i + (ty.fft.S * j + k))) =
            hermConv3 (mx * tx.fft.q) Lx (Lx / 2) (my * ty.fft.q) Ly (Ly / 2) (mz * o.q) H
            (fun i j k => mem2.val (f.at_ 0 + off + (tx.fft.S * i + (ty.fft.S * j + k))))
            (fun i j k => mem2.val (f.at_ 1 + off + (tx.fft.S * i + (ty.fft.S * j + k)))) ((i : ℤ) - (Lx / 2 : ℕ)) ((j : ℤ) - (Ly / 2 : ℕ)) k ∧
          ((Lx % 2 = 0 → ∀ a < 2, ∀ j < Ly, ∀ k < H, mem2.val (f.at_ a + off + (tx.fft.S * 0 + (ty.fft.S * j + k))) = 0) →
            (Ly % 2 = 0 → ∀ a < 2, ∀ i < Lx, ∀ k < H, mem2.val (f.at_ a + off + (tx.fft.S * i + (ty.fft.S * 0 + k))) = 0) →
            2 * ((Lx + 1) / 2 - 1) + Lx / 2 < Mx → 2 * ((Ly + 1) / 2 - 1) + Ly / 2 < My → 3 * H ≤ Mz + 2 →
            mem3.val (f.at_ 0 + off + (tx.fft.S * i + (ty.fft.S * j + k))) =
            hermLin3 Lx (Lx / 2) Ly (Ly / 2) H
            (fun i j k => mem2.val (f.at_ 0 + off + (tx.fft.S * i + (ty.fft.S * j + k))))
            (fun i j k => mem2.val (f.at_ 1 + off + (tx.fft.S * i + (ty.fft.S * j + k)))) ((i : ℤ) - (Lx / 2 : ℕ)) ((j : ℤ) - (Ly / 2 : ℕ)) k) := by
  have h := Herm.WF.of_new (by omega) hal hz
  obtain ⟨hL, hmm, _⟩ := Herm.new_fields hz
  have hoH : o.H = H := by rw [hH, ← hL]; rfl
  have hH0 : 0 < H := by rw [← hoH]; exact h.H_facts.1
  have g' := Tr.facts hH0 hy
  have hCx0 : 0 < Cx := by
    have := g'.CS
    rw [hC]
    split_ifs
    · exact Nat.mul_pos hLy (by omega)
    · exact hH0
  have g := Tr.facts hCx0 hx
  have hLx := g.L_pos
  have hx0 : Lx / 2 < Lx := by omega
  have hy0 : Ly / 2 < Ly := by omega
  have hN : mx * tx.fft.q ≠ 0 := (Nat.mul_pos g.m_pos g.q_pos).ne'
  have hN' : my * ty.fft.q ≠ 0 := (Nat.mul_pos g'.m_pos g'.q_pos).ne'
  have hN'' : mz * o.q ≠ 0 := by
    have h1 := h.L_pos
    have h2 := h.L_le_M
    rw [← hmm, ← h.M_eq]
    omega
  obtain ⟨c, mem1, e1, _, hc⟩ := C45_history3 hal hDz hLy hH hx hy hz hC hS (by omega) hDx hDy (fun _ _ _ => rfl) (fun _ _ _ => rfl)
    (fun _ _ _ => by simp) realMultBinary_spec (fun _ => Or.inr fun _ _ _ _ => rfl) (fun _ => Or.inr fun _ _ _ _ _ => rfl) hbuf
  refine ⟨c, mem1, e1, fun steps hst => ?_⟩
  obtain ⟨mem2, e2, hc2⟩ := hc steps hst
  refine ⟨mem2, e2, fun s s2 f off hs hf hd => (hc2 s s2 f off hs hf).mono ?_⟩
  rintro _ mem3 ⟨e3, _, _⟩ i hi j hj k hk
  have := ((e3 hd).1 0 (by omega) i hi j hj k hk).trans (hermResult3_binary hx0 hy0 hN hN' hN'' _ (hd 0 (by omega)) (hd 1 (by omega)) k)
  refine ⟨this, fun hz1 hz2 h1 h2 h3 => ?_⟩
  rw [this]
  refine hermConv3_linear (fun he => hz1 he 0 (by omega)) (fun he => hz2 he 0 (by omega)) (fun he => hz1 he 1 (by omega))
    (fun he => hz2 he 1 (by omega)) ?_ ?_ ?_ hi hj hk
  · exact lt_of_lt_of_le h1 g.size
  · exact lt_of_lt_of_le h2 g'.size
  · have := Herm.new_size hz
    omega

/-- `HermitianSymmetrizeXY` establishes what `C45_history3` and `C45_convolve3` require of the inputs. -/
theorem C45_symmetrized {Lx Ly H Sx Sy : ℕ} {f : Ptr} {m : Mem} (hLx : 0 < Lx) (hLy : 0 < Ly) (hH : 0 < H) (hSy : H ≤ Sy) (hSx : Ly * Sy ≤ Sx)
    (hb : m.block f (Sx * (Lx - 1) + (Sy * (Ly - 1) + H))) :
    ∃ m', hermitianSymmetrizeXY (ceilquotient Lx 2) (ceilquotient Ly 2) H (Lx / 2) (Ly / 2) f Sx Sy m = .ok ((), m') ∧
      HermData3 Lx (Lx / 2) Ly (Ly / 2) (fun i j k => m'.val (f + (Sx * i + (Sy * j + k)))) ∧
      (Lx % 2 = 0 → ∀ j < Ly, ∀ k < H, m'.val (f + (Sx * 0 + (Sy * j + k))) = 0) ∧
      (Ly % 2 = 0 → ∀ i < Lx, ∀ k < H, m'.val (f + (Sx * i + (Sy * 0 + k))) = 0) := by
  have hc : ∀ L, ceilquotient L 2 = (L + 1) / 2 := by intro L; unfold ceilquotient; omega
  rw [hc, hc]
  have hsx : Lx / 2 + (Lx + 1) / 2 = Lx := by omega
  have hsy : Ly / 2 + (Ly + 1) / 2 = Ly := by omega
  obtain ⟨m', e, _, h1, _, _, h2, h3, _⟩ := C21_symmetrizeXY (Hx := (Lx + 1) / 2) (Hy := (Ly + 1) / 2) (Hz := H) (x0 := Lx / 2) (y0 := Ly / 2) (Sx := Sx)
    (Sy := Sy) (f := f) (m := m) (by omega) (by omega) (by omega) (by omega) hH hSy (by rw [hsy, Nat.mul_comm]; exact hSx) (by rw [hsx, hsy]; exact hb)
  rw [hsx] at h1 h3
  rw [hsy] at h1 h2
  have z1 : Lx % 2 = 0 → ∀ j < Ly, ∀ k < H, m'.val (f + (Sx * 0 + (Sy * j + k))) = 0 := fun he j hj k hk => h2 (by omega) j hj k hk
  have z2 : Ly % 2 = 0 → ∀ i < Lx, ∀ k < H, m'.val (f + (Sx * i + (Sy * 0 + k))) = 0 := fun he i hi k hk => h3 (by omega) i hi k hk
  refine ⟨m', e, ?_, z1, z2⟩
  intro i j
  by_cases hij : i.natAbs < (Lx + 1) / 2 ∧ j.natAbs < (Ly + 1) / 2
  · unfold cext2 cext
    rw [if_pos (by omega), if_pos (by omega)]
    beta_reduce
    rw [if_pos (by omega), if_pos (by omega)]
    exact h1 _ _ _ _ (by omega) (by omega) (by omega) (by omega) (by omega) (by omega)
  · rw [cext2_supp (g := fun a b => m'.val (f + (Sx * a + (Sy * b + 0)))) (fun he j hj => z1 he j hj 0 hH) (fun he i hi => z2 he i hi 0 hH) (by omega),
      cext2_supp (g := fun a b => m'.val (f + (Sx * a + (Sy * b + 0)))) (fun he j hj => z1 he j hj 0 hH) (fun he i hi => z2 he i hi 0 hH) hij, map_zero]

open Fft (exMem)

/-- The hypotheses of C45 are met, in the strided case: `Lx=3`, `Mx=5`, `Ly=4`, `My=6`, `Lz=3` (two stored columns), `Mz=4`, `Sy=3`, `Sx=13`, two threads; and so are
those on the arguments of `convolve` (with `C45_symmetrized` for the data). -/
example (J : Junk) : ∃ tx ty o, Tr.new true 3 5 ⟨2, 1, true⟩ 2 13 2 1 false = .ok tx ∧ Tr.new true 4 6 ⟨2, 1, true⟩ 2 3 2 1 false = .ok ty ∧
    Herm.new 3 4 ⟨2, 1, true⟩ 1 2 2 true 16 J = .ok o ∧ ceilquotient 3 2 = 2 ∧
    2 = (if ty.fft.S = 2 then 4 * ty.fft.S else 2) ∧ 4 * ty.fft.S ≤ tx.fft.S ∧ tx.fft.D = 1 ∧ ty.fft.D = 1 ∧
    2 * ((3 + 1) / 2 - 1) + 3 / 2 < 5 ∧ 2 * ((4 + 1) / 2 - 1) + 4 / 2 < 6 ∧ 3 * 2 ≤ 4 + 2 ∧
    Conv3.GBuffers tx.base ty.base o.base (fun m al => o.view.Buffers o.base m none none al) 2 1 (exMem 100) none none exAlloc3 ∧
    ∃ c mem1, Conv3.new tx.base ty.base o.base realMultBinary 2 1 none none none exAlloc3 (exMem 100) = .ok (c, mem1) ∧
      c.threads = 2 ∧ c.Inputs (exMem 100) (exArr 5) 3 ∧ c.LegalS (fun _ => [(1, 0), (0, 1)]) (fun _ _ _ => [(0, 0), (1, 0)]) := by
  obtain ⟨tx, hx, hosx, hSx, hDx, hlx, hbs, howx⟩ : ∃ t, Tr.new true 3 5 ⟨2, 1, true⟩ 2 13 2 1 false = .ok t ∧ t.base.outputSize ≤ 100 ∧
      t.fft.S = 13 ∧ t.fft.D = 1 ∧ t.base.l = 2 ∧ (∀ r, t.base.blocksize r = 2) ∧ t.fft.overwrite = false :=
    ⟨_, rfl, by show (Fft.outputSize _) ≤ 100; decide, rfl, rfl, rfl, fun _ => rfl, by decide⟩
  obtain ⟨ty, hy, hosy, hSy, hDy, hly, hbsy, howy⟩ : ∃ t, Tr.new true 4 6 ⟨2, 1, true⟩ 2 3 2 1 false = .ok t ∧ t.base.outputSize ≤ 100 ∧
      t.fft.S = 3 ∧ t.fft.D = 1 ∧ t.base.l = 2 ∧ (∀ r, t.base.blocksize r = 2) ∧ t.fft.overwrite = false :=
    ⟨_, rfl, by show (Fft.outputSize _) ≤ 100; decide, rfl, rfl, rfl, fun _ => rfl, by decide⟩
  obtain ⟨o, hz, hA, hB, hC, hD, hos, hws, hil⟩ : ∃ o, Herm.new 3 4 ⟨2, 1, true⟩ 1 2 2 true 16 J = .ok o ∧ o.A = 2 ∧
      o.B = 1 ∧ o.C = 1 ∧ o.D = 2 ∧ o.outputSize ≤ 100 ∧ o.workSizeW ≤ 100 ∧ o.inputLength ≤ 100 := by
    refine ⟨Herm.newHybrid 3 ⟨2, 1, true⟩ 1 2 2 2 2 2 true 16 J, rfl, rfl, rfl, rfl, rfl, ?_, ?_, ?_⟩ <;>
      simp [Herm.inputLength, Herm.newHybrid, Fft.outputSize, Herm.workSizeW, align, ceilquotient]
  have f := Tr.facts (by omega) hx
  have f' := Tr.facts (by omega) hy
  have hAx : max tx.base.A tx.base.B ≤ 5 := by rw [f.bA, f.bB]; decide
  have hAy : max ty.base.A ty.base.B ≤ 5 := by rw [f'.bA, f'.bB]; decide
  have hAB : max o.base.A o.base.B ≤ 5 := by
    show max o.A o.B ≤ 5
    rw [hA, hB]; decide
  have hDD : ∀ f p, o.view.D f p → InArr f 100 p := by
    rintro f p ⟨i, hi, rfl⟩
    rw [hC, Nat.one_mul] at hi
    exact ⟨i, by omega, rfl⟩
  have hth2 : Conv2.newThreads tx.base 2 = 2 := by
    unfold Conv2.newThreads
    rw [if_neg]
    omega
  have hthY : Conv3.newThreadsY tx.base 2 1 = 1 := by
    unfold Conv3.newThreadsY
    rw [if_neg]
    omega
  have hth1 : Conv2.newThreads ty.base 1 = 1 := by unfold Conv2.newThreads; split_ifs <;> rfl
  have hnc : contiguous3 tx.base ty.base = false := by
    rw [contiguous3_two Tr.ws, f'.bS, f'.bC, hSy]
    decide
  have hX : Conv3.newX tx.base ty.base = tx.base.strided ty.base.L ty.base.C ty.base.S := by
    unfold Conv3.newX; rw [hnc]; simp
  have hb : Conv3.GBuffers tx.base ty.base o.base (fun m al => o.view.Buffers o.base m none none al) 2 1 (exMem 100) none none exAlloc3 := by
    refine ⟨?_, ?_, ?_, ?_⟩
    · rw [hX]
      exact exOuterBuffers hAx hosx (by show tx.base.S * tx.base.L ≤ 100; rw [f.bS, f.bL, hSx]; decide)
    · intro t _
      exact exGBuffers2 hAy hosy (by rw [f'.bS, f'.bL, hSy]; decide) hDD hAB hos hws
    · intro t _ t' _ hne i h1 h2
      have h1 := exNewBufs2 hAy hAB h1
      have h2 := exNewBufs2 hAy hAB h2
      rw [hthY, hth1] at h1 h2
      omega
    · intro t _ i h1 h2
      rw [hX] at h1
      have h1 := exNewBufs (o := tx.base.strided ty.base.L ty.base.C ty.base.S) hAx h1
      have h2 := exNewBufs2 hAy hAB h2
      omega
  have hCx : 2 = (if ty.fft.S = 2 then 4 * ty.fft.S else 2) := by rw [hSy]; rfl
  refine ⟨tx, ty, o, hx, hy, hz, rfl, hCx, by omega, hDx, hDy, by decide, by decide, by decide, hb, ?_⟩
  have hfit := Conv3.gfitsH (by decide) (by decide) (by decide) rfl hx hy hz hCx (by omega) (by omega) hDx hDy (fun _ _ _ => rfl)
    (fun _ _ _ => rfl) (fun _ _ _ => by simp) realMultBinary_spec (fun _ => Or.inr fun _ _ _ _ => rfl) (fun _ => Or.inr fun _ _ _ _ _ => rfl)
  obtain ⟨c, mem1, e1, hfx, hfy, hfz, hth, hthy, hset, _, hbn, _⟩ := Conv3.newG_ok hfit hb
  rw [hX] at hfx
  refine ⟨c, mem1, e1, by rw [hth, hth2], ⟨?_, ?_, ?_, ?_, fun _ a _ a' _ hne => hne⟩, ?_⟩
  · rw [hfx]; show tx.base.A ≤ 5; rw [f.bA]; decide
  · intro a _ i hi
    rw [hfx] at hi
    have hi : i < tx.base.S * tx.base.L := hi
    rw [f.bS, f.bL, hSx] at hi
    constructor
    · show (0 : ℤ) ≤ 0 + (3 : ℕ) + i
      omega
    · show (0 : ℤ) + (3 : ℕ) + i < (100 : ℕ)
      omega
  · intro a _ a' _ hne p h1 h2
    have e1 := FftBase.data_buf h1
    have e2 := FftBase.data_buf h2
    exact hne (e1.symm.trans e2)
  · intro a ha hB
    rw [hfx] at ha
    have ha : a < tx.base.A := ha
    rw [f.bA] at ha
    have ha : a < 2 := ha
    have hB := hbn _ hB
    have h7 : 7 ≤ a := by
      rcases hB with hB | ⟨t, _, hB⟩
      · rw [hX] at hB
        have := exNewBufs (o := tx.base.strided ty.base.L ty.base.C ty.base.S) hAx hB
        have h2 : 0 + 7 ≤ a := this.1
        omega
      · have := exNewBufs2 hAy hAB hB
        have h2 : 1000 * (t + 1) + 7 ≤ a := this.1
        omega
    omega
  · intro r _
    have hbx : c.x.fft.blocksize r = 2 := by rw [hfx]; exact hbs r
    rw [hbx, hth, hth2]
    refine ⟨⟨by beta_reduce; decide, by beta_reduce; decide⟩, ?_⟩
    intro i _ t ht ry _
    have ht' : t < c.threads := by rw [hth, hth2]; exact ht
    rw [hset.fy t ht', hfy, hbsy, hthy t ht', hthY, hth1]
    exact ⟨by beta_reduce; decide, by beta_reduce; decide⟩


end Fftwpp
