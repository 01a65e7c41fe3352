import Verif.Proof.Direct6
import Verif.Props.CenteredConv
import Verif.Props.HermConv3
import Verif.Props.Conv2D

/-!
# C58: the direct convolutions of tests/direct.h compute the linear convolution, and the hybrid ones agree with them
-/

namespace Fftwpp
open Finset Direct

private theorem stride_eq (S my : ℕ) : stride S my = if S = 0 then my else S := by
  unfold stride
  by_cases h : S = 0
  · rw [if_neg (by simp [h]), if_pos h]
  · rw [if_pos h, if_neg h]

/-- **C58** `directconv::convolve`: for every length and all data, the linear convolution; only `h` is written.  (`f` and `g` may be the same array.) -/
theorem C58_convolve {L : ℕ} {m : Mem} {h f g : Ptr} (A : Arrays m h f g L L) : (conv L h f g).Ok m fun _ m' =>
    m.Upd m' (fun p => ∃ k < L, p = h + k) ∧
    ∀ k < L, m'.val (h + k) = linearConv L (fun i => m.val (f + i)) (fun j => m.val (g + j)) k := conv_ok A

/-- **C58** `directconv::convolveC`: the convolution of centered data, whose origin is at `⌊L/2⌋`, for even and odd lengths. -/
theorem C58_convolveC {L : ℕ} {m : Mem} {h f g : Ptr} (A : Arrays m h f g L L) : (convC L h f g).Ok m fun _ m' =>
    m.Upd m' (fun p => ∃ k < L, p = h + k) ∧
    ∀ k < L, m'.val (h + k) = linearConvC L (L / 2) (fun i => m.val (f + i)) (fun j => m.val (g + j)) k := convC_ok A

/-- **C58** `directconv::autoconvolve`: the convolution of the data with themselves. -/
theorem C58_autoconvolve {L : ℕ} {m : Mem} {h f : Ptr} (A : Arrays m h f f L L) : (autoconv L h f).Ok m fun _ m' =>
    m.Upd m' (fun p => ∃ k < L, p = h + k) ∧
    ∀ k < L, m'.val (h + k) = linearConv L (fun i => m.val (f + i)) (fun j => m.val (f + j)) k := by
  rw [autoconv_eq]
  exact conv_ok A

/-- **C58** `directconvh::convolve`: the convolution of Hermitian data, given by their values at `0, …, L-1`. -/
theorem C58_convolveh {L : ℕ} {m : Mem} {h f g : Ptr} (A : Arrays m h f g L L) : (convh L h f g).Ok m fun _ m' =>
    m.Upd m' (fun p => ∃ k < L, p = h + k) ∧
    ∀ k < L, m'.val (h + k) = hermLin L (fun i => m.val (f + i)) (fun j => m.val (g + j)) k := convh_ok A

/-- **C58** `directconv2::convolve`, with any stride `S` between the rows of the inputs (`S=0`: contiguous rows). -/
theorem C58_convolve2 {mx my S Sx : ℕ} (hSx : Sx = if S = 0 then my else S) {m : Mem} {h f g : Ptr} (A : Arrays m h f g (mx * my) (Sx * (mx - 1) + my)) :
    (conv2 mx my S h f g).Ok m fun _ m' =>
      m.Upd m' (fun p => ∃ k < mx * my, p = h + k) ∧
      ∀ i < mx, ∀ j < my, m'.val (h + (i * my + j)) =
        linearConv2 mx my (fun i j => m.val (f + (Sx * i + j))) (fun i j => m.val (g + (Sx * i + j))) i j := by
  have e : stride S my = Sx := by rw [hSx, stride_eq]
  subst e
  exact conv2_ok A

/-- **C58** `directconv3::convolve`, with any strides (`0`: contiguous). -/
theorem C58_convolve3 {mx my mz S1 S2 Sx Sy : ℕ} (hSy : Sy = if S2 = 0 then mz else S2) (hSx : Sx = if S1 = 0 then my * Sy else S1) {m : Mem} {h f g : Ptr}
    (A : Arrays m h f g (mx * (my * mz)) (Sx * (mx - 1) + Sy * (my - 1) + mz)) :
    (conv3 mx my mz S1 S2 h f g).Ok m fun _ m' =>
      m.Upd m' (fun p => ∃ k < mx * (my * mz), p = h + k) ∧
      ∀ i < mx, ∀ j < my, ∀ k < mz, m'.val (h + (i * (my * mz) + j * mz + k)) =
        linearConv3 mx my mz (fun i j k => m.val (f + (Sx * i + (Sy * j + k)))) (fun i j k => m.val (g + (Sx * i + (Sy * j + k)))) i j k :=
  conv3_ok (by rw [hSy, stride_eq]) (by rw [hSx, stride_eq]) A

/-- **C58** `directconvh2::convolve` with `symmetrize=false`: `Lx` rows (`2*mx-1`, or `2*mx` if not `xcompact`), origin in row `⌊Lx/2⌋`.  For every data whose Nyquist row
(if any) is zero, and with any stride, the convolution of the Hermitian arrays that the data represent. -/
theorem C58_convolveh2 {mx my S Sx Lx : ℕ} {xc : Bool} (hmx : 1 ≤ mx) (hLx : Lx = 2 * mx - (if xc = true then 1 else 0)) (hSx : Sx = if S = 0 then my else S)
    {m : Mem} {h f g : Ptr} (A : Arrays m h f g (Lx * my) (Sx * (Lx - 1) + my))
    (hz : xc = false → ∀ j < my, m.val (f + j) = 0 ∧ m.val (g + j) = 0) :
    (convh2 mx my xc S h f g false).Ok m fun _ m' =>
      m.Upd m' (fun p => ∃ k < Lx * my, p = h + k) ∧
      ∀ i < Lx, ∀ j < my, m'.val (h + (i * my + j)) =
        hermLin2 Lx (Lx / 2) my (fun i j => m.val (f + (Sx * i + j))) (fun i j => m.val (g + (Sx * i + j))) ((i : ℤ) - (Lx / 2 : ℕ)) j := by
  have e : stride S my = Sx := by rw [hSx, stride_eq]
  obtain ⟨s1, s2, s3, s4, s5⟩ := sizes xc hmx
  have e1 : Lx = (mx - if xc = true then 1 else 0) + mx := by rw [hLx]; cases xc <;> simp <;> omega
  subst e
  rw [← e1] at s4
  have := convh2_core (S := S) (xc := xc) (h := h) (f := f) (g := g) (m := m) hmx rfl (by rw [← e1]; exact A) (fun he j hj => by
    have hc : xc = false := by
      cases xc
      · rfl
      · simp only [if_true] at he; omega
    have := hz hc j hj
    unfold dat2
    rwa [Nat.mul_zero, Nat.zero_add])
  rw [← e1] at this
  rw [s4]
  exact this

/-- **C58** `directconvh2::convolve` with `symmetrize=true` (the default) and contiguous rows: for any data, the inputs are replaced by their Hermitian symmetrizations, and the
output is the convolution of these.  (`f` and `g` are different arrays.) -/
theorem C58_convolveh2_symmetrized {mx my S Lx : ℕ} {xc : Bool} (hmx : 1 ≤ mx) (hmy : 1 ≤ my) (hLx : Lx = 2 * mx - (if xc = true then 1 else 0)) (hS : S = 0 ∨ S = my)
    {m : Mem} {h f g : Ptr} (A : Arrays m h f g (Lx * my) (my * (Lx - 1) + my)) (sfg : ∀ a < my * (Lx - 1) + my, ∀ b < my * (Lx - 1) + my, f + a ≠ g + b) :
    (convh2 mx my xc S h f g true).Ok m fun _ m' =>
      m.Upd m' (fun p => (∃ k < Lx * my, p = h + k) ∨ ∃ k < my * (Lx - 1) + my, p = f + k ∨ p = g + k) ∧
      Symmetrized2 Lx my (fun i j => m.val (f + (my * i + j))) (fun i j => m'.val (f + (my * i + j))) ∧
      Symmetrized2 Lx my (fun i j => m.val (g + (my * i + j))) (fun i j => m'.val (g + (my * i + j))) ∧
      ∀ i < Lx, ∀ j < my, m'.val (h + (i * my + j)) =
        hermLin2 Lx (Lx / 2) my (fun i j => m'.val (f + (my * i + j))) (fun i j => m'.val (g + (my * i + j))) ((i : ℤ) - (Lx / 2 : ℕ)) j := by
  obtain ⟨s1, s2, s3, s4, s5⟩ := sizes xc hmx
  have e1 : Lx = (mx - if xc = true then 1 else 0) + mx := by rw [hLx]; cases xc <;> simp <;> omega
  rw [← e1] at s4
  have e2 : stride S my = my := by unfold stride; rcases hS with rfl | rfl <;> simp
  have := convh2_sym (S := S) (xc := xc) (h := h) (f := f) (g := g) (m := m) hmx hmy rfl e2 (by rw [← e1]; exact A) (by rw [← e1]; exact sfg)
  rw [← e1] at this
  rw [s4]
  exact this

/-- **C58** `directconvh3::convolve` with `symmetrize=false`. -/
theorem C58_convolveh3 {mx my mz S1 S2 Sx Sy Lx Ly : ℕ} {xc yc : Bool} (hmx : 1 ≤ mx) (hLx : Lx = 2 * mx - (if xc = true then 1 else 0))
    (hmy : 1 ≤ my) (hLy : Ly = 2 * my - (if yc = true then 1 else 0)) (hSy : Sy = if S2 = 0 then mz else S2) (hSx : Sx = if S1 = 0 then Ly * Sy else S1)
    {m : Mem} {h f g : Ptr} (A : Arrays m h f g (Lx * (Ly * mz)) (Sx * (Lx - 1) + Sy * (Ly - 1) + mz))
    (hzx : xc = false → ∀ j < Ly, ∀ k < mz, m.val (f + (Sy * j + k)) = 0 ∧ m.val (g + (Sy * j + k)) = 0)
    (hzy : yc = false → ∀ i < Lx, ∀ k < mz, m.val (f + (Sx * i + k)) = 0 ∧ m.val (g + (Sx * i + k)) = 0) :
    (convh3 mx my mz xc yc S1 S2 h f g false).Ok m fun _ m' =>
      m.Upd m' (fun p => ∃ k < Lx * (Ly * mz), p = h + k) ∧
      ∀ i < Lx, ∀ j < Ly, ∀ k < mz, m'.val (h + (i * (Ly * mz) + (j * mz + k))) =
        hermLin3 Lx (Lx / 2) Ly (Ly / 2) mz (fun i j k => m.val (f + (Sx * i + (Sy * j + k)))) (fun i j k => m.val (g + (Sx * i + (Sy * j + k))))
          ((i : ℤ) - (Lx / 2 : ℕ)) ((j : ℤ) - (Ly / 2 : ℕ)) k := by
  obtain ⟨s1, s2, s3, s4, s5⟩ := sizes xc hmx
  obtain ⟨t1, t2, t3, t4, t5⟩ := sizes yc hmy
  have e1 : Lx = (mx - if xc = true then 1 else 0) + mx := by rw [hLx]; cases xc <;> simp <;> omega
  have e2 : Ly = (my - if yc = true then 1 else 0) + my := by rw [hLy]; cases yc <;> simp <;> omega
  rw [← e1] at s4
  rw [← e2] at t4
  have := convh3_core (S1 := S1) (S2 := S2) (Sx := Sx) (Sy := Sy) (xc := xc) (yc := yc) (h := h) (f := f) (g := g) (m := m) hmx rfl hmy rfl
    (by rw [hSy, stride_eq]) (by rw [hSx, ← hLy, stride_eq]) (by rw [← e1, ← e2]; exact A)
    (fun he j hj k hk => by
      have hc : xc = false := by
        cases xc
        · rfl
        · simp only [if_true] at he; omega
      have := hzx hc j (by omega) k hk
      unfold dat3
      rwa [Nat.mul_zero, Nat.zero_add])
    (fun he i hi k hk => by
      have hc : yc = false := by
        cases yc
        · rfl
        · simp only [if_true] at he; omega
      have := hzy hc i (by omega) k hk
      unfold dat3
      rwa [Nat.mul_zero, Nat.zero_add])
  rw [← e1, ← e2] at this
  rw [s4, t4]
  exact this

/-- **C58** `directconvh3::convolve` with `symmetrize=true` (the default) and contiguous arrays. -/
theorem C58_convolveh3_symmetrized {mx my mz S1 S2 Lx Ly : ℕ} {xc yc : Bool} (hmx : 1 ≤ mx) (hLx : Lx = 2 * mx - (if xc = true then 1 else 0))
    (hmy : 1 ≤ my) (hLy : Ly = 2 * my - (if yc = true then 1 else 0)) (hmz : 1 ≤ mz) (hS2 : S2 = 0 ∨ S2 = mz) (hS1 : S1 = 0 ∨ S1 = Ly * mz)
    {m : Mem} {h f g : Ptr} (A : Arrays m h f g (Lx * (Ly * mz)) (Ly * mz * (Lx - 1) + mz * (Ly - 1) + mz))
    (sfg : ∀ a < Ly * mz * (Lx - 1) + mz * (Ly - 1) + mz, ∀ b < Ly * mz * (Lx - 1) + mz * (Ly - 1) + mz, f + a ≠ g + b) :
    (convh3 mx my mz xc yc S1 S2 h f g true).Ok m fun _ m' =>
      m.Upd m' (fun p => (∃ k < Lx * (Ly * mz), p = h + k) ∨ ∃ k < Ly * mz * (Lx - 1) + mz * (Ly - 1) + mz, p = f + k ∨ p = g + k) ∧
      Symmetrized Lx Ly mz (fun i j k => m.val (f + (Ly * mz * i + (mz * j + k)))) (fun i j k => m'.val (f + (Ly * mz * i + (mz * j + k)))) ∧
      Symmetrized Lx Ly mz (fun i j k => m.val (g + (Ly * mz * i + (mz * j + k)))) (fun i j k => m'.val (g + (Ly * mz * i + (mz * j + k)))) ∧
      ∀ i < Lx, ∀ j < Ly, ∀ k < mz, m'.val (h + (i * (Ly * mz) + (j * mz + k))) =
        hermLin3 Lx (Lx / 2) Ly (Ly / 2) mz (fun i j k => m'.val (f + (Ly * mz * i + (mz * j + k)))) (fun i j k => m'.val (g + (Ly * mz * i + (mz * j + k))))
          ((i : ℤ) - (Lx / 2 : ℕ)) ((j : ℤ) - (Ly / 2 : ℕ)) k := by
  obtain ⟨s1, s2, s3, s4, s5⟩ := sizes xc hmx
  obtain ⟨t1, t2, t3, t4, t5⟩ := sizes yc hmy
  have e1 : Lx = (mx - if xc = true then 1 else 0) + mx := by rw [hLx]; cases xc <;> simp <;> omega
  have e2 : Ly = (my - if yc = true then 1 else 0) + my := by rw [hLy]; cases yc <;> simp <;> omega
  rw [← e1] at s4
  rw [← e2] at t4
  have := convh3_sym (S1 := S1) (S2 := S2) (xc := xc) (yc := yc) (h := h) (f := f) (g := g) (m := m) hmx hmy hmz rfl rfl
    (by unfold stride; rcases hS2 with rfl | rfl <;> simp) (by rw [← hLy, ← e2]; unfold stride; rcases hS1 with rfl | rfl <;> simp)
    (by rw [← e1, ← e2]; exact A) (by rw [← e1, ← e2]; exact sfg)
  rw [← e1, ← e2] at this
  rw [s4, t4]
  exact this


/-! ## The hybrid convolutions give the same words as the direct ones -/

section
variable {L X Y Z x0 y0 : ℕ}

theorem linearConv_congr {x x' y y' : ℕ → ℂ} (ex : ∀ i < L, x i = x' i) (ey : ∀ i < L, y i = y' i) (k : ℕ) : linearConv L x y k = linearConv L x' y' k := by
  unfold linearConv
  refine sum_congr rfl fun i hi => sum_congr rfl fun j hj => ?_
  rw [ex i (mem_range.1 hi), ey j (mem_range.1 hj)]

theorem linearConvC_congr {x x' y y' : ℕ → ℂ} (ex : ∀ i < L, x i = x' i) (ey : ∀ i < L, y i = y' i) (k : ℕ) : linearConvC L x0 x y k = linearConvC L x0 x' y' k := by
  unfold linearConvC
  refine sum_congr rfl fun i hi => sum_congr rfl fun j hj => ?_
  rw [ex i (mem_range.1 hi), ey j (mem_range.1 hj)]

theorem hermLin_congr {x x' y y' : ℕ → ℂ} (ex : ∀ i < L, x i = x' i) (ey : ∀ i < L, y i = y' i) (k : ℤ) : hermLin L x y k = hermLin L x' y' k := by
  have hh : ∀ {x x' : ℕ → ℂ}, (∀ i < L, x i = x' i) → ∀ i : ℤ, hext L x i = hext L x' i := by
    intro x x' ex i
    unfold hext
    split_ifs with h
    · exact ex _ h
    · rw [ex _ h]
    · rfl
  unfold hermLin
  simp only [hh ex, hh ey]

theorem linearConv2_congr {x x' y y' : ℕ → ℕ → ℂ} (ex : ∀ i < X, ∀ j < Y, x i j = x' i j) (ey : ∀ i < X, ∀ j < Y, y i j = y' i j) (k l : ℕ) :
    linearConv2 X Y x y k l = linearConv2 X Y x' y' k l := by
  unfold linearConv2
  refine sum_congr rfl fun i hi => sum_congr rfl fun i' hi' => sum_congr rfl fun j hj => sum_congr rfl fun j' hj' => ?_
  rw [ex i (mem_range.1 hi) j (mem_range.1 hj), ey i' (mem_range.1 hi') j' (mem_range.1 hj')]

theorem linearConv3_congr {x x' y y' : ℕ → ℕ → ℕ → ℂ} (ex : ∀ i < X, ∀ j < Y, ∀ k < Z, x i j k = x' i j k) (ey : ∀ i < X, ∀ j < Y, ∀ k < Z, y i j k = y' i j k) (k l p : ℕ) :
    linearConv3 X Y Z x y k l p = linearConv3 X Y Z x' y' k l p := by
  unfold linearConv3
  refine sum_congr rfl fun i hi => sum_congr rfl fun i' hi' => sum_congr rfl fun j hj => sum_congr rfl fun j' hj' => sum_congr rfl fun q hq => sum_congr rfl fun q' hq' => ?_
  rw [ex i (mem_range.1 hi) j (mem_range.1 hj) q (mem_range.1 hq), ey i' (mem_range.1 hi') j' (mem_range.1 hj') q' (mem_range.1 hq')]
end

/-- **C58**.  For every length `L` and every plan with `M ≥ 2L-1`, after any permitted history, the hybrid convolution leaves in the array of the first input, word for word, what the direct one
computes from the same inputs. -/
theorem C58_hybrid {L M : ℕ} {ow : Bool} {S0 m D : ℕ} {inplace : Bool} {o : Fft}
    (hnew : Fft.new L M ⟨2, 1, ow⟩ 1 S0 m D inplace = .ok o) (hS : o.S = 1)
    {mem0 : Mem} {Fu : Option PtrArr} {Vu : Option Ptr} {al : Alloc} (hbuf : Conv.Buffers o.base mem0 Fu Vu al) (hM : 2 * L - 1 ≤ M) :
    ∃ c mem1, Conv.new o.base multBinary Fu none Vu al mem0 = .ok (c, mem1) ∧
      ∀ steps : List Conv.Step, (∀ s ∈ steps, c.Allowed mem0 s) →
      ∃ mem2, seqLoop steps c.step mem1 = .ok ((), mem2) ∧
      ∀ g : PtrArr, c.Inputs mem0 g → (c.convolve g).Ok mem2 fun _ mem3 =>
        ∀ (md : Mem) (h a b : Ptr), Arrays md h a b L L → (∀ i < L, md.val (a + i) = mem2.val (g.at_ 0 + i) ∧ md.val (b + i) = mem2.val (g.at_ 1 + i)) →
          (conv L h a b).Ok md fun _ md' => ∀ k < L, md'.val (h + k) = mem3.val (g.at_ 0 + k) := by
  obtain ⟨c, mem1, e1, hc⟩ := C10_convolve hnew hS hbuf
  refine ⟨c, mem1, e1, fun steps hst => ?_⟩
  obtain ⟨mem2, e2, hc2⟩ := hc steps hst
  refine ⟨mem2, e2, fun g hg => (hc2 g hg).mono ?_⟩
  rintro _ mem3 H md h a b A hin
  refine (C58_convolve A).mono ?_
  rintro _ md' ⟨_, v⟩ k hk
  rw [v k hk, (H k hk).2 hM]
  exact linearConv_congr (fun i hi => (hin i hi).1) (fun i hi => (hin i hi).2) k

/-- **C58** (centered data), for every plan with `M ≥ L+⌊L/2⌋`. -/
theorem C58_hybridC {L M : ℕ} {ow : Bool} {S0 m D : ℕ} {inplace : Bool} {t : Tr}
    (hnew : Tr.new true L M ⟨2, 1, ow⟩ 1 S0 m D inplace = .ok t) (hS : t.fft.S = 1)
    {mem0 : Mem} {Fu : Option PtrArr} {Vu : Option Ptr} {al : Alloc} (hbuf : Conv.Buffers t.base mem0 Fu Vu al) (hM : L + L / 2 ≤ M) :
    ∃ c mem1, Conv.new t.base multBinary Fu none Vu al mem0 = .ok (c, mem1) ∧
      ∀ steps : List Conv.Step, (∀ s ∈ steps, c.Allowed mem0 s) →
      ∃ mem2, seqLoop steps c.step mem1 = .ok ((), mem2) ∧
      ∀ g : PtrArr, c.Inputs mem0 g → (c.convolve g).Ok mem2 fun _ mem3 =>
        ∀ (md : Mem) (h a b : Ptr), Arrays md h a b L L → (∀ i < L, md.val (a + i) = mem2.val (g.at_ 0 + i) ∧ md.val (b + i) = mem2.val (g.at_ 1 + i)) →
          (convC L h a b).Ok md fun _ md' => ∀ k < L, md'.val (h + k) = mem3.val (g.at_ 0 + k) := by
  obtain ⟨c, mem1, e1, hc⟩ := C42_convolve hnew hS hbuf
  refine ⟨c, mem1, e1, fun steps hst => ?_⟩
  obtain ⟨mem2, e2, hc2⟩ := hc steps hst
  refine ⟨mem2, e2, fun g hg => (hc2 g hg).mono ?_⟩
  rintro _ mem3 H md h a b A hin
  refine (C58_convolveC A).mono ?_
  rintro _ md' ⟨_, v⟩ k hk
  rw [v k hk, (H k hk).2 (by unfold linearSize; rwa [if_pos rfl])]
  exact linearConvC_congr (fun i hi => (hin i hi).1) (fun i hi => (hin i hi).2) k

/-- **C58** (Hermitian data, given at `0, …, ⌈L/2⌉-1`), for every plan with `M ≥ 3⌈L/2⌉-2`. -/
theorem C58_hybridh {L M : ℕ} {ow : Bool} {m D : ℕ} {inplace : Bool} {align : ℕ} {J : Junk} {o : Herm} (hal : 0 < align) (hD : 0 < D)
    (hnew : Herm.new L M ⟨2, 1, ow⟩ 1 m D inplace align J = .ok o)
    {mem0 : Mem} {Fu : Option PtrArr} {Vu : Option Ptr} {al : Alloc} (hbuf : o.view.Buffers o.base mem0 Fu Vu al) (hM : 3 * ceilquotient L 2 ≤ M + 2) :
    ∃ c mem1, Conv.new o.base realMultBinary Fu none Vu al mem0 = .ok (c, mem1) ∧
      ∀ steps : List Conv.Step, (∀ s ∈ steps, o.view.Allowed c mem0 s) →
      ∃ mem2, seqLoop steps c.step mem1 = .ok ((), mem2) ∧
      ∀ g : PtrArr, o.view.Inputs c mem0 g → (mem2.val (g.at_ 0)).im = 0 → (mem2.val (g.at_ 1)).im = 0 →
        (c.convolve g).Ok mem2 fun _ mem3 =>
        ∀ (md : Mem) (h a b : Ptr), Arrays md h a b (ceilquotient L 2) (ceilquotient L 2) →
          (∀ i < ceilquotient L 2, md.val (a + i) = mem2.val (g.at_ 0 + i) ∧ md.val (b + i) = mem2.val (g.at_ 1 + i)) →
          (convh (ceilquotient L 2) h a b).Ok md fun _ md' => ∀ k < ceilquotient L 2, md'.val (h + k) = mem3.val (g.at_ 0 + k) := by
  obtain ⟨c, mem1, e1, hc⟩ := C43_convolve hal hD hnew hbuf
  refine ⟨c, mem1, e1, fun steps hst => ?_⟩
  obtain ⟨mem2, e2, hc2⟩ := hc steps hst
  refine ⟨mem2, e2, fun g hg h0 h1 => (hc2 g hg h0 h1).mono ?_⟩
  rintro _ mem3 H md h a b A hin
  refine (C58_convolveh A).mono ?_
  rintro _ md' ⟨_, v⟩ k hk
  rw [v k hk, (H k hk).2 hM]
  exact hermLin_congr (fun i hi => (hin i hi).1) (fun i hi => (hin i hi).2) k

/-- **C58** (two dimensions).  The direct convolution reads copies of the inputs with any stride. -/
theorem C58_hybrid2 {Lx Mx Ly My : ℕ} {owx owy ipx ipy : Bool} {Sx mx Dx Sy my Dy : ℕ} {ox oy : Fft} (hLy : 0 < Ly)
    (hx : Fft.new Lx Mx ⟨2, 1, owx⟩ Ly Sx mx Dx ipx = .ok ox) (hy : Fft.new Ly My ⟨2, 1, owy⟩ 1 Sy my Dy ipy = .ok oy)
    (hSy : oy.S = 1) (hDx : ox.D = 1)
    {th : ℕ} {mem0 : Mem} {Fu : Option PtrArr} {Vu : Option Ptr} {al : Alloc2} (hbuf : Conv2.Buffers ox.base oy.base th mem0 Fu Vu al) (hMx : 2 * Lx - 1 ≤ Mx) (hMy : 2 * Ly - 1 ≤ My) :
    ∃ c mem1, Conv2.new ox.base oy.base multBinary th Fu none Vu al mem0 = .ok (c, mem1) ∧
      ∀ steps : List Conv2.Step, (∀ s ∈ steps, c.Allowed mem0 s) →
      ∃ mem2, seqLoop steps c.step mem1 = .ok ((), mem2) ∧
      ∀ (s : ℕ → Sch) (f : PtrArr) (off : ℕ), c.LegalS s → c.Inputs mem0 f off → (c.convolve s f off).Ok mem2 fun _ mem3 =>
        ∀ (md : Mem) (h a b : Ptr) (S Sd : ℕ), (Sd = if S = 0 then Ly else S) → Arrays md h a b (Lx * Ly) (Sd * (Lx - 1) + Ly) →
          (∀ i < Lx, ∀ j < Ly, md.val (a + (Sd * i + j)) = mem2.val (f.at_ 0 + off + (ox.S * i + j)) ∧
            md.val (b + (Sd * i + j)) = mem2.val (f.at_ 1 + off + (ox.S * i + j))) →
          (conv2 Lx Ly S h a b).Ok md fun _ md' => ∀ i < Lx, ∀ j < Ly, md'.val (h + (i * Ly + j)) = mem3.val (f.at_ 0 + off + (ox.S * i + j)) := by
  obtain ⟨c, mem1, e1, hc⟩ := C17_convolve2 hLy hx hy hSy hDx hbuf
  refine ⟨c, mem1, e1, fun steps hst => ?_⟩
  obtain ⟨mem2, e2, hc2⟩ := hc steps hst
  refine ⟨mem2, e2, fun s f off hs hf => (hc2 s f off hs hf).mono ?_⟩
  rintro _ mem3 H md h a b S Sd hSd A hin
  refine (C58_convolve2 hSd A).mono ?_
  rintro _ md' ⟨_, v⟩ i hi j hj
  rw [v i hi j hj, (H i hi j hj).2 hMx hMy]
  exact linearConv2_congr (fun i hi j hj => (hin i hi j hj).1) (fun i hi j hj => (hin i hi j hj).2) i j

/-- **C58** (three dimensions). -/
theorem C58_hybrid3 {Lx Mx Ly My Lz Mz Cx : ℕ} {owx owy owz ipx ipy ipz : Bool} {Sx mx Dx Sy my Dy Sz mz Dz : ℕ} {ox oy oz : Fft}
    (hLy : 0 < Ly) (hLz : 0 < Lz)
    (hx : Fft.new Lx Mx ⟨2, 1, owx⟩ Cx Sx mx Dx ipx = .ok ox) (hy : Fft.new Ly My ⟨2, 1, owy⟩ Lz Sy my Dy ipy = .ok oy)
    (hz : Fft.new Lz Mz ⟨2, 1, owz⟩ 1 Sz mz Dz ipz = .ok oz)
    (hC : Cx = if oy.S = Lz then Ly * oy.S else Lz) (hS : Ly * oy.S ≤ ox.S)
    (hSz : oz.S = 1)
    (hDx : ox.D = 1) (hDy : oy.D = 1)
    {th thy : ℕ} {mem0 : Mem} {Fu : Option PtrArr} {Vu : Option Ptr} {al : Alloc3}
    (hbuf : Conv3.Buffers ox.base oy.base oz.base th thy mem0 Fu Vu al) (hMx : 2 * Lx - 1 ≤ Mx) (hMy : 2 * Ly - 1 ≤ My) (hMz : 2 * Lz - 1 ≤ Mz) :
    ∃ c mem1, Conv3.new ox.base oy.base oz.base multBinary th thy Fu none Vu al mem0 = .ok (c, mem1) ∧
      ∀ steps : List Conv3.Step, (∀ s ∈ steps, c.Allowed mem0 s) →
      ∃ mem2, seqLoop steps c.step mem1 = .ok ((), mem2) ∧
      ∀ (s : ℕ → Sch) (s2 : ℕ → ℕ → ℕ → Sch) (f : PtrArr) (off : ℕ), c.LegalS s s2 → c.Inputs mem0 f off →
        (c.convolve s s2 f off).Ok mem2 fun _ mem3 =>
        ∀ (md : Mem) (h a b : Ptr) (S1 S2 Sx' Sy' : ℕ), (Sy' = if S2 = 0 then Lz else S2) → (Sx' = if S1 = 0 then Ly * Sy' else S1) →
          Arrays md h a b (Lx * (Ly * Lz)) (Sx' * (Lx - 1) + Sy' * (Ly - 1) + Lz) →
          (∀ i < Lx, ∀ j < Ly, ∀ k < Lz, md.val (a + (Sx' * i + (Sy' * j + k))) = mem2.val (f.at_ 0 + off + (ox.S * i + (oy.S * j + k))) ∧
            md.val (b + (Sx' * i + (Sy' * j + k))) = mem2.val (f.at_ 1 + off + (ox.S * i + (oy.S * j + k)))) →
          (conv3 Lx Ly Lz S1 S2 h a b).Ok md fun _ md' => ∀ i < Lx, ∀ j < Ly, ∀ k < Lz,
            md'.val (h + (i * (Ly * Lz) + j * Lz + k)) = mem3.val (f.at_ 0 + off + (ox.S * i + (oy.S * j + k))) := by
  obtain ⟨c, mem1, e1, hc⟩ := C17_convolve3 hLy hLz hx hy hz hC hS hSz hDx hDy hbuf
  refine ⟨c, mem1, e1, fun steps hst => ?_⟩
  obtain ⟨mem2, e2, hc2⟩ := hc steps hst
  refine ⟨mem2, e2, fun s s2 f off hs hf => (hc2 s s2 f off hs hf).mono ?_⟩
  rintro _ mem3 H md h a b S1 S2 Sx' Sy' hSy' hSx' A hin
  refine (C58_convolve3 hSy' hSx' A).mono ?_
  rintro _ md' ⟨_, v⟩ i hi j hj k hk
  rw [v i hi j hj k hk, (H i hi j hj k hk).2 hMx hMy hMz]
  exact linearConv3_congr (fun i hi j hj k hk => (hin i hi j hj k hk).1) (fun i hi j hj k hk => (hin i hi j hj k hk).2) i j k

/-- **C58** (Hermitian data in two dimensions): the direct convolution of the tests (`directconvh2 C(mx,H,xcompact)`, without symmetrization) and the hybrid one give the same words, for
Hermitian-symmetric data whose Nyquist row (`Lx` even) is zero. -/
theorem C58_hybridh2 {Lx Mx Ly My H : ℕ} {owx owy ipx ipy : Bool} {Sx mx Dx my Dy : ℕ} {align : ℕ} {J : Junk} {tx : Tr} {o : Herm}
    (hal : 0 < align) (hDy : 0 < Dy) (hH : H = ceilquotient Ly 2)
    (hx : Tr.new true Lx Mx ⟨2, 1, owx⟩ H Sx mx Dx ipx = .ok tx) (hy : Herm.new Ly My ⟨2, 1, owy⟩ 1 my Dy ipy align J = .ok o)
    (hDx : tx.fft.D = 1)
    {th : ℕ} {mem0 : Mem} {Fu : Option PtrArr} {Vu : Option Ptr} {al : Alloc2}
    (hbuf : Conv2.GBuffers tx.base o.base (fun m al => o.view.Buffers o.base m none none al) th mem0 Fu Vu al) (hMx : 2 * ((Lx + 1) / 2 - 1) + Lx / 2 < Mx) (hMy : 3 * H ≤ My + 2) :
    ∃ c mem1, Conv2.new tx.base o.base realMultBinary th Fu none Vu al mem0 = .ok (c, mem1) ∧
      ∀ steps : List Conv2.Step, (∀ s ∈ steps, c.Allowed mem0 s) →
      ∃ mem2, seqLoop steps c.step mem1 = .ok ((), mem2) ∧
      ∀ (s : ℕ → Sch) (f : PtrArr) (off : ℕ), c.LegalS s → c.Inputs mem0 f off →
        (∀ a < 2, HermData2 Lx (Lx / 2) (fun i j => mem2.val (f.at_ a + off + (tx.fft.S * i + j)))) →
        (c.convolve s f off).Ok mem2 fun _ mem3 =>
        ∀ (md : Mem) (h a b : Ptr) (S Sd : ℕ), (Sd = if S = 0 then H else S) → Arrays md h a b (Lx * H) (Sd * (Lx - 1) + H) →
          (∀ i < Lx, ∀ j < H, md.val (a + (Sd * i + j)) = mem2.val (f.at_ 0 + off + (tx.fft.S * i + j)) ∧
            md.val (b + (Sd * i + j)) = mem2.val (f.at_ 1 + off + (tx.fft.S * i + j))) →
          (Lx % 2 = 0 → ∀ a < 2, ∀ j < H, mem2.val (f.at_ a + off + (tx.fft.S * 0 + j)) = 0) →
          (convh2 ((Lx + 1) / 2) H (decide (Lx % 2 = 1)) S h a b false).Ok md fun _ md' => ∀ i < Lx, ∀ j < H,
            md'.val (h + (i * H + j)) = mem3.val (f.at_ 0 + off + (tx.fft.S * i + j)) := by
  obtain ⟨c, mem1, e1, hc⟩ := C44_convolve2 hal hDy hH hx hy hDx hbuf
  have hH0 : 0 < H := by
    obtain ⟨hL, _, _⟩ := Herm.new_fields hy
    have := (Herm.WF.of_new (by omega) hal hy).H_facts.1
    rwa [show o.H = H by rw [hH, ← hL]; rfl] at this
  have hLx0 : 0 < Lx := (Tr.facts hH0 hx).L_pos
  refine ⟨c, mem1, e1, fun steps hst => ?_⟩
  obtain ⟨mem2, e2, hc2⟩ := hc steps hst
  refine ⟨mem2, e2, fun s f off hs hf hd => (hc2 s f off hs hf hd).mono ?_⟩
  rintro _ mem3 HH md h a b S Sd hSd A hin hz
  refine (C58_convolveh2 (mx := (Lx + 1) / 2) (Lx := Lx) (xc := decide (Lx % 2 = 1)) (by omega)
    (by by_cases hp : Lx % 2 = 1 <;> simp only [hp, decide_true, if_true, decide_false, Bool.false_eq_true, if_false] <;> omega) hSd A (fun hc j hj => ?_)).mono ?_
  · have hp : Lx % 2 = 0 := by
      have := of_decide_eq_false hc
      omega
    have := hin 0 hLx0 j hj
    rw [Nat.mul_zero, Nat.zero_add] at this
    rw [this.1, this.2]
    exact ⟨by have := hz hp 0 (by omega) j hj; rwa [Nat.mul_zero] at this, by have := hz hp 1 (by omega) j hj; rwa [Nat.mul_zero] at this⟩
  · rintro _ md' ⟨_, v⟩ i hi j hj
    rw [v i hi j hj, (HH i hi j hj).2 hz hMx hMy]
    exact hermLin2_congr (fun i hi j hj => (hin i hi j hj).1) (fun i hi j hj => (hin i hi j hj).2) _ _

/-- **C58** (Hermitian data in three dimensions). -/
theorem C58_hybridh3 {Lx Mx Ly My Lz Mz H Cx : ℕ} {owx owy owz ipx ipy ipz : Bool} {Sx mx Dx Sy my Dy mz Dz : ℕ} {align : ℕ} {J : Junk}
    {tx ty : Tr} {o : Herm} (hal : 0 < align) (hDz : 0 < Dz) (hLy : 0 < Ly) (hH : H = ceilquotient Lz 2)
    (hx : Tr.new true Lx Mx ⟨2, 1, owx⟩ Cx Sx mx Dx ipx = .ok tx) (hy : Tr.new true Ly My ⟨2, 1, owy⟩ H Sy my Dy ipy = .ok ty)
    (hz : Herm.new Lz Mz ⟨2, 1, owz⟩ 1 mz Dz ipz align J = .ok o)
    (hC : Cx = if ty.fft.S = H then Ly * ty.fft.S else H) (hS : Ly * ty.fft.S ≤ tx.fft.S)
    (hDx : tx.fft.D = 1) (hDy : ty.fft.D = 1)
    {th thy : ℕ} {mem0 : Mem} {Fu : Option PtrArr} {Vu : Option Ptr} {al : Alloc3}
    (hbuf : Conv3.GBuffers tx.base ty.base o.base (fun m al => o.view.Buffers o.base m none none al) th thy mem0 Fu Vu al) (hMx : 2 * ((Lx + 1) / 2 - 1) + Lx / 2 < Mx) (hMy : 2 * ((Ly + 1) / 2 - 1) + Ly / 2 < My) (hMz : 3 * H ≤ Mz + 2) :
    ∃ c mem1, Conv3.new tx.base ty.base o.base realMultBinary th thy Fu none Vu al mem0 = .ok (c, mem1) ∧
      ∀ steps : List Conv3.Step, (∀ s ∈ steps, c.Allowed mem0 s) →
      ∃ mem2, seqLoop steps c.step mem1 = .ok ((), mem2) ∧
      ∀ (s : ℕ → Sch) (s2 : ℕ → ℕ → ℕ → Sch) (f : PtrArr) (off : ℕ), c.LegalS s s2 → c.Inputs mem0 f off →
        (∀ a < 2, HermData3 Lx (Lx / 2) Ly (Ly / 2) (fun i j k => mem2.val (f.at_ a + off + (tx.fft.S * i + (ty.fft.S * j + k))))) →
        (c.convolve s s2 f off).Ok mem2 fun _ mem3 =>
        ∀ (md : Mem) (h a b : Ptr) (S1 S2 Sx' Sy' : ℕ), (Sy' = if S2 = 0 then H else S2) → (Sx' = if S1 = 0 then Ly * Sy' else S1) →
          Arrays md h a b (Lx * (Ly * H)) (Sx' * (Lx - 1) + Sy' * (Ly - 1) + H) →
          (∀ i < Lx, ∀ j < Ly, ∀ k < H, md.val (a + (Sx' * i + (Sy' * j + k))) = mem2.val (f.at_ 0 + off + (tx.fft.S * i + (ty.fft.S * j + k))) ∧
            md.val (b + (Sx' * i + (Sy' * j + k))) = mem2.val (f.at_ 1 + off + (tx.fft.S * i + (ty.fft.S * j + k)))) →
          (Lx % 2 = 0 → ∀ a < 2, ∀ j < Ly, ∀ k < H, mem2.val (f.at_ a + off + (tx.fft.S * 0 + (ty.fft.S * j + k))) = 0) →
          (Ly % 2 = 0 → ∀ a < 2, ∀ i < Lx, ∀ k < H, mem2.val (f.at_ a + off + (tx.fft.S * i + (ty.fft.S * 0 + k))) = 0) →
          (convh3 ((Lx + 1) / 2) ((Ly + 1) / 2) H (decide (Lx % 2 = 1)) (decide (Ly % 2 = 1)) S1 S2 h a b false).Ok md fun _ md' =>
            ∀ i < Lx, ∀ j < Ly, ∀ k < H, md'.val (h + (i * (Ly * H) + (j * H + k))) = mem3.val (f.at_ 0 + off + (tx.fft.S * i + (ty.fft.S * j + k))) := by
  obtain ⟨c, mem1, e1, hc⟩ := C45_convolve3 hal hDz hLy hH hx hy hz hC hS hDx hDy hbuf
  have hH0 : 0 < H := by
    obtain ⟨hL, _, _⟩ := Herm.new_fields hz
    have := (Herm.WF.of_new (by omega) hal hz).H_facts.1
    rwa [show o.H = H by rw [hH, ← hL]; rfl] at this
  have hS0 : 0 < ty.fft.S := by
    have := (Tr.facts hH0 hy).CS
    omega
  have hLx0 : 0 < Lx := (Tr.facts (by rw [hC]; split_ifs; exacts [Nat.mul_pos hLy hS0, hH0]) hx).L_pos
  refine ⟨c, mem1, e1, fun steps hst => ?_⟩
  obtain ⟨mem2, e2, hc2⟩ := hc steps hst
  refine ⟨mem2, e2, fun s s2 f off hs hf hd => (hc2 s s2 f off hs hf hd).mono ?_⟩
  rintro _ mem3 HH md h a b S1 S2 Sx' Sy' hSy' hSx' A hin hzx hzy
  refine (C58_convolveh3 (mx := (Lx + 1) / 2) (Lx := Lx) (xc := decide (Lx % 2 = 1)) (my := (Ly + 1) / 2) (Ly := Ly) (yc := decide (Ly % 2 = 1)) (by omega)
    (by by_cases hp : Lx % 2 = 1 <;> simp only [hp, decide_true, if_true, decide_false, Bool.false_eq_true, if_false] <;> omega) (by omega)
    (by by_cases hp : Ly % 2 = 1 <;> simp only [hp, decide_true, if_true, decide_false, Bool.false_eq_true, if_false] <;> omega) hSy' hSx' A
    (fun hc j hj k hk => ?_) (fun hc i hi k hk => ?_)).mono ?_
  · have hp : Lx % 2 = 0 := by
      have := of_decide_eq_false hc
      omega
    have := hin 0 hLx0 j hj k hk
    rw [Nat.mul_zero, Nat.zero_add] at this
    rw [this.1, this.2]
    exact ⟨by have := hzx hp 0 (by omega) j hj k hk; rwa [Nat.mul_zero] at this, by have := hzx hp 1 (by omega) j hj k hk; rwa [Nat.mul_zero] at this⟩
  · have hp : Ly % 2 = 0 := by
      have := of_decide_eq_false hc
      omega
    have := hin i hi 0 hLy k hk
    rw [Nat.mul_zero Sy', Nat.zero_add] at this
    rw [this.1, this.2]
    exact ⟨hzy hp 0 (by omega) i hi k hk, hzy hp 1 (by omega) i hi k hk⟩
  · rintro _ md' ⟨_, v⟩ i hi j hj k hk
    rw [v i hi j hj k hk, (HH i hi j hj k hk).2 hzx hzy hMx hMy hMz]
    exact hermLin3_congr (fun i hi j hj k hk => (hin i hi j hj k hk).1) (fun i hi j hj k hk => (hin i hi j hj k hk).2) _ _ _


/-! ## Hypotheses are met -/

/-- Arrays `h`, `f`, `g` of 100 words, in different buffers. -/
noncomputable def exDirect (v : Ptr → ℂ) : Mem := ⟨fun b => if b < 3 then 100 else 0, v⟩

theorem exDirect_arrays (v : Ptr → ℂ) {nh n : ℕ} (h1 : nh ≤ 100) (h2 : n ≤ 100) : Arrays (exDirect v) ⟨0, 0⟩ ⟨1, 0⟩ ⟨2, 0⟩ nh n := by
  refine ⟨?_, ?_, ?_, ?_, ?_⟩
  · intro i hi; simp [exDirect, Mem.valid]; omega
  · intro i hi; simp [exDirect, Mem.valid]; omega
  · intro i hi; simp [exDirect, Mem.valid]; omega
  · intro a _ b _ e; have := congrArg Ptr.buf e; simp at this
  · intro a _ b _ e; have := congrArg Ptr.buf e; simp at this

/-- A convolution of length 5, one of centered data of length 4, and one of Hermitian data in three dimensions (4 by 5 by 3 words, symmetrized). -/
example (v : Ptr → ℂ) : Arrays (exDirect v) ⟨0, 0⟩ ⟨1, 0⟩ ⟨2, 0⟩ 5 5 ∧ Arrays (exDirect v) ⟨0, 0⟩ ⟨1, 0⟩ ⟨2, 0⟩ (4 * (5 * 3)) (5 * 3 * (4 - 1) + 3 * (5 - 1) + 3) ∧
    4 = 2 * 2 - (if false = true then 1 else 0) ∧ 5 = 2 * 3 - (if true = true then 1 else 0) ∧
    ∀ a < 5 * 3 * (4 - 1) + 3 * (5 - 1) + 3, ∀ b < 5 * 3 * (4 - 1) + 3 * (5 - 1) + 3, (⟨1, 0⟩ : Ptr) + a ≠ (⟨2, 0⟩ : Ptr) + b :=
  ⟨exDirect_arrays v (by omega) (by omega), exDirect_arrays v (by omega) (by omega), by simp, by simp, fun a _ b _ e => by
    have := congrArg Ptr.buf e; simp at this⟩

/-- The direct convolution of `(1,2,3)` and `(4,5,6)` is `(4,13,28)`. -/
example : (conv 3 ⟨0, 0⟩ ⟨1, 0⟩ ⟨2, 0⟩).Ok (exDirect fun p => if p.buf = 1 then (p.off : ℂ) + 1 else (p.off : ℂ) + 4) fun _ m' =>
    m'.val ⟨0, 0⟩ = 4 ∧ m'.val ((⟨0, 0⟩ : Ptr) + 1) = 13 ∧ m'.val ((⟨0, 0⟩ : Ptr) + 2) = 28 := by
  refine (C58_convolve (exDirect_arrays _ (by omega) (by omega))).mono ?_
  rintro _ m' ⟨_, v⟩
  have h0 := v 0 (by omega)
  have h1 := v 1 (by omega)
  have h2 := v 2 (by omega)
  rw [linearConv_eq (by omega)] at h0 h1 h2
  rw [Ptr.add_zero] at h0
  refine ⟨h0.trans ?_, h1.trans ?_, h2.trans ?_⟩ <;> simp [exDirect, sum_Ico_succ_top] <;> norm_num

end Fftwpp
