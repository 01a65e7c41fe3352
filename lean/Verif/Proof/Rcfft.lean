import Verif.Model.Rcfft
import Verif.Props.Batch
import Verif.Props.Fftw
import Verif.Proof.RDft3

/-!
# Local transforms of real data: lemmas for C60
-/

namespace Fftwpp
open Finset

/-! ## Alternating signs -/

theorem w_half_alt {X : ℕ} (h : X % 2 = 0 ∨ X = 1) {i : ℕ} (hi : i < X) : w X (i * (X / 2 : ℕ)) = (((-1 : ℝ) ^ i : ℝ) : ℂ) := by
  rcases h with h | rfl
  · rw [w_halfX (by omega) h]
    congr 1
    unfold Net.Rcfft2MPI.sgn
    rcases Nat.even_or_odd i with h | h
    · rw [h.neg_one_pow, if_pos (Nat.even_iff.1 h)]
    · rw [h.neg_one_pow, if_neg (by have := Nat.odd_iff.1 h; omega)]
  · obtain rfl : i = 0 := by omega
    simp

theorem w_half_alt' {X : ℕ} (h : X % 2 = 0 ∨ X = 1) {i : ℕ} (hi : i < X) : w X (-((i : ℤ) * (X / 2 : ℕ))) = (((-1 : ℝ) ^ i : ℝ) : ℂ) := by
  rw [← w_conj, w_half_alt h hi, Complex.conj_ofReal]

theorem rdft3_alt {X Y Z : ℕ} (hx : X % 2 = 0 ∨ X = 1) (hy : Y % 2 = 0 ∨ Y = 1) (G : ℕ → ℕ → ℕ → ℝ) (kx ky kz : ℕ) :
    rdft3 X Y Z (X / 2) (Y / 2) G kx ky kz = rdft3 X Y Z 0 0 (fun i j k => (-1) ^ (i + j) * G i j k) kx ky kz := by
  unfold rdft3
  refine sum_congr rfl fun i hi => sum_congr rfl fun j hj => sum_congr rfl fun k _ => ?_
  rw [show (-((i : ℤ) * ((kx : ℤ) - (X / 2 : ℕ)))) = -((i : ℤ) * ((kx : ℤ) - (0 : ℕ))) + i * (X / 2 : ℕ) by push_cast; ring, w_add,
    w_half_alt hx (mem_range.1 hi),
    show (-((j : ℤ) * ((ky : ℤ) - (Y / 2 : ℕ)))) = -((j : ℤ) * ((ky : ℤ) - (0 : ℕ))) + j * (Y / 2 : ℕ) by push_cast; ring, w_add,
    w_half_alt hy (mem_range.1 hj)]
  beta_reduce
  rw [pow_add]
  push_cast
  ring

theorem irdft3_alt {X Y Z : ℕ} (hx : X % 2 = 0 ∨ X = 1) (hy : Y % 2 = 0 ∨ Y = 1) (F : ℕ → ℕ → ℕ → ℂ) {i j : ℕ} (hi : i < X) (hj : j < Y) (k : ℕ) :
    irdft3 X Y Z (X / 2) (Y / 2) F i j k = (((-1 : ℝ) ^ (i + j) : ℝ) : ℂ) * irdft3 X Y Z 0 0 F i j k := by
  unfold irdft3
  rw [mul_sum]
  refine sum_congr rfl fun kx _ => ?_
  rw [mul_sum]
  refine sum_congr rfl fun ky _ => ?_
  rw [mul_sum]
  refine sum_congr rfl fun kz _ => ?_
  rw [show ((i : ℤ) * ((kx : ℤ) - (X / 2 : ℕ))) = (i : ℤ) * ((kx : ℤ) - (0 : ℕ)) + -((i : ℤ) * (X / 2 : ℕ)) by push_cast; ring, w_add, w_half_alt' hx hi,
    show ((j : ℤ) * ((ky : ℤ) - (Y / 2 : ℕ))) = (j : ℤ) * ((ky : ℤ) - (0 : ℕ)) + -((j : ℤ) * (Y / 2 : ℕ)) by push_cast; ring, w_add, w_half_alt' hy hj, pow_add]
  push_cast
  ring

/-- The inverse transform of a Hermitian array is real. -/
theorem irdft3_im {X Y Z : ℕ} {F : ℕ → ℕ → ℕ → ℂ} (h : HermSpec3 X Y Z F) (i j k : ℕ) : (irdft3 X Y Z 0 0 F i j k).im = 0 := by
  refine Complex.conj_eq_iff_im.1 ?_
  rw [irdft3_zero]
  unfold dft3
  rw [map_sum, ← sum_opp X]
  refine sum_congr rfl fun kx hkx => ?_
  rw [map_sum, ← sum_opp Y]
  refine sum_congr rfl fun ky hky => ?_
  rw [map_sum, ← sum_opp Z]
  refine sum_congr rfl fun kz hkz => ?_
  rw [map_mul, map_mul, map_mul, w_conj, w_conj, w_conj, h kx (mem_range.1 hkx) ky (mem_range.1 hky) kz (mem_range.1 hkz)]
  have e : ∀ {N k : ℕ} (_ : k ∈ range N) (a : ℕ), w N (-(1 * (((N - k) % N : ℕ) : ℤ) * a)) = w N (1 * (k : ℤ) * a) := by
    intro N k hk a
    have := w_opp (mem_range.1 hk) (-(a : ℤ))
    rw [show (-(1 * (((N - k) % N : ℕ) : ℤ) * a)) = -(a : ℤ) * ((N - k) % N : ℕ) by ring, this]
    congr 1; ring
  rw [e hkx, e hky, e hkz, Complex.conj_conj]

namespace RFft
variable {o : RFft}

/-- The real array `G` is at `f`. -/
def RealAt (o : RFft) (G : ℕ → ℕ → ℕ → ℝ) (f : Ptr) (m : Mem) : Prop :=
  ∀ i < o.nx, ∀ j < o.ny, ∀ k < o.nz, m.dbl1 (o.raddr f i j k) = G i j k

/-- The values `0 ≤ k ≤ nz/2` of the spectrum `F` are at `g`. -/
def SpecAt (o : RFft) (F : ℕ → ℕ → ℕ → ℂ) (g : Ptr) (m : Mem) : Prop :=
  ∀ i < o.nx, ∀ j < o.ny, ∀ k < o.nzp, m.cplx (o.caddr g i j k 0) = F i j k

/-- Arrays of the documented sizes: `f` of `nx*ny*nz` doubles, or `nx*ny*(nz/2+1)` complex numbers in place, and `g` of
`nx*ny*(nz/2+1)` complex numbers; the same array in place, and disjoint ones otherwise. -/
structure Arrays (o : RFft) (f g : Ptr) (m : Mem) : Prop where
  re : m.block f (o.nx * o.ny * o.rdist)
  cx : m.block g (o.nx * o.ny * o.nzp * 2)
  same : o.inplace = true → f = g
  disj : o.inplace = false → ∀ a < o.nx * o.ny * o.rdist, ∀ b < o.nx * o.ny * o.nzp * 2, f + (a : ℕ) ≠ g + (b : ℕ)

/-- The sizes of an object of one of the classes. -/
structure Valid (o : RFft) : Prop where
  hx : 0 < o.nx
  hy : 0 < o.ny
  hz : 0 < o.nz
  r1 : o.rank = 1 → o.nx = 1 ∧ o.ny = 1
  r2 : o.rank = 2 → o.ny = 1

/-- Sizes for which the Fourier origin can be moved. -/
structure CanShift (o : RFft) : Prop where
  ex : o.rank ≠ 1 → o.nx % 2 = 0
  ey : o.rank ≠ 1 → o.rank ≠ 2 → o.ny % 2 = 0

theorem CanShift.x (h : o.CanShift) (v : o.Valid) : o.nx % 2 = 0 ∨ o.nx = 1 := by
  by_cases h1 : o.rank = 1
  · exact Or.inr (v.r1 h1).1
  · exact Or.inl (h.ex h1)

theorem CanShift.y (h : o.CanShift) (v : o.Valid) : o.ny % 2 = 0 ∨ o.ny = 1 := by
  by_cases h1 : o.rank = 1
  · exact Or.inr (v.r1 h1).2
  by_cases h2 : o.rank = 2
  · exact Or.inr (v.r2 h2)
  · exact Or.inl (h.ey h1 h2)

theorem row_lt {nx ny i j : ℕ} (hi : i < nx) (hj : j < ny) : i * ny + j < nx * ny := by
  rw [Nat.mul_comm i, Nat.mul_comm nx]; exact radix_lt hj hi

theorem at_lt {R L r k : ℕ} (hr : r < R) (hk : k < L) : r * L + k < R * L := by
  rw [Nat.mul_comm r, Nat.mul_comm R]; exact radix_lt hk hr

theorem at_inj {L r k r' k' : ℕ} (hk : k < L) (hk' : k' < L) (h : r * L + k = r' * L + k') : r = r' ∧ k = k' := by
  rw [Nat.mul_comm r, Nat.mul_comm r'] at h
  exact radix_inj hk hk' h

theorem nz_lt_rdist {k : ℕ} (hk : k < o.nz) : k < o.rdist := by
  unfold rdist nzp; split_ifs <;> omega

theorem Arrays.defined {f g : Ptr} {m : Mem} (h : o.Arrays f g m) : o.Defined f g m := by
  refine ⟨fun i hi j hj k hk => h.re _ (at_lt (row_lt hi hj) (nz_lt_rdist hk)),
    fun i hi j hj k hk c hc => h.cx _ (at_lt (at_lt (row_lt hi hj) hk) hc), ?_⟩
  by_cases hp : o.inplace = true
  · exact Or.inl (h.same hp)
  · exact Or.inr fun i hi j hj k hk i' hi' j' hj' k' hk' c hc =>
      h.disj (by simpa using hp) _ (at_lt (row_lt hi hj) (nz_lt_rdist hk)) _ (at_lt (at_lt (row_lt hi' hj') hk') hc)

theorem Arrays.of_size {f g : Ptr} {m m' : Mem} (h : o.Arrays f g m) (s : m'.size = m.size) : o.Arrays f g m' :=
  ⟨fun i hi => Mem.valid_of_size s (h.re i hi), fun i hi => Mem.valid_of_size s (h.cx i hi), h.same, h.disj⟩

theorem Arrays.ne (v : o.Valid) {f g : Ptr} {m : Mem} (h : o.Arrays f g m) : (o.inplace = true) ↔ f = g := by
  refine ⟨h.same, fun e => ?_⟩
  by_contra hp
  have hz := v.hz
  have h1 : 0 < o.rdist := by unfold rdist nzp; split_ifs <;> omega
  have h2 : 0 < o.nzp := by unfold nzp; omega
  have h0 := Nat.mul_pos v.hx v.hy
  exact h.disj (by simpa using hp) 0 (Nat.mul_pos h0 h1) 0 (by positivity) (by rw [e])

theorem caddr_inj {g : Ptr} {i j k c i' j' k' c' : ℕ} (hj : j < o.ny) (hj' : j' < o.ny) (hk : k < o.nzp) (hk' : k' < o.nzp) (hc : c < 2) (hc' : c' < 2)
    (h : o.caddr g i j k c = o.caddr g i' j' k' c') : i = i' ∧ j = j' ∧ k = k' ∧ c = c' := by
  obtain ⟨h1, h2⟩ := at_inj hc hc' (Ptr.add_inj.1 h)
  obtain ⟨h3, h4⟩ := at_inj hk hk' h1
  obtain ⟨h5, h6⟩ := at_inj hj hj' h3
  exact ⟨h5, h6, h4, h2⟩

theorem raddr_inj {f : Ptr} {i j k i' j' k' : ℕ} (hj : j < o.ny) (hj' : j' < o.ny) (hk : k < o.nz) (hk' : k' < o.nz)
    (h : o.raddr f i j k = o.raddr f i' j' k') : i = i' ∧ j = j' ∧ k = k' := by
  obtain ⟨h1, h2⟩ := at_inj (nz_lt_rdist hk) (nz_lt_rdist hk') (Ptr.add_inj.1 h)
  obtain ⟨h5, h6⟩ := at_inj hj hj' h1
  exact ⟨h5, h6, h2⟩

theorem caddr_one (g : Ptr) (i j k : ℕ) : o.caddr g i j k 0 + 1 = o.caddr g i j k 1 := by
  unfold caddr; rw [Ptr.add_add]

theorem isC_iff {g p : Ptr} : o.IsC g p ↔ ∃ a < o.nx * o.ny * o.nzp * 2, p = g + (a : ℕ) := by
  constructor
  · rintro ⟨⟨i, j, k, c⟩, h1, h2, h3, h4, rfl⟩
    exact ⟨_, at_lt (at_lt (row_lt h1 h2) h3) h4, rfl⟩
  · rintro ⟨a, ha, rfl⟩
    have h1 : a / 2 < o.nx * o.ny * o.nzp := by omega
    have hn : 0 < o.nzp := by unfold nzp; omega
    have h2 : a / 2 / o.nzp < o.nx * o.ny := Nat.div_lt_of_lt_mul (by rwa [Nat.mul_comm o.nzp])
    have hy : 0 < o.ny := Nat.pos_of_ne_zero fun h => by rw [h, Nat.mul_zero] at h2; exact absurd h2 (Nat.not_lt_zero _)
    have h3 : a / 2 / o.nzp / o.ny < o.nx := Nat.div_lt_of_lt_mul (by rwa [Nat.mul_comm o.ny])
    refine ⟨(a / 2 / o.nzp / o.ny, a / 2 / o.nzp % o.ny, a / 2 % o.nzp, a % 2), h3, Nat.mod_lt _ hy, Nat.mod_lt _ hn, Nat.mod_lt _ (by omega), ?_⟩
    unfold caddr
    simp only
    congr 1
    rw [Nat.div_add_mod', Nat.div_add_mod', Nat.div_add_mod']

theorem IsR.bound {f p : Ptr} (h : o.IsR f p) : ∃ a < o.nx * o.ny * o.rdist, p = f + (a : ℕ) := by
  obtain ⟨⟨i, j, k⟩, h1, h2, h3, rfl⟩ := h
  exact ⟨_, at_lt (row_lt h1 h2) (nz_lt_rdist h3), rfl⟩

/-- The words of the two arrays. -/
def Touched (o : RFft) (f g p : Ptr) : Prop := (∃ a < o.nx * o.ny * o.rdist, p = f + (a : ℕ)) ∨ ∃ a < o.nx * o.ny * o.nzp * 2, p = g + (a : ℕ)

theorem r2c_ok {f g : Ptr} {m : Mem} (h : o.Arrays f g m) {G : ℕ → ℕ → ℕ → ℝ} (hG : o.RealAt G f m) :
    (o.r2c f g).Ok m fun _ m' => m'.size = m.size ∧ o.SpecAt (rdft3 o.nx o.ny o.nz 0 0 G) g m' ∧
      ∀ p, (∀ a < o.nx * o.ny * o.nzp * 2, p ≠ g + (a : ℕ)) → m'.val p = m.val p := by
  have hz : ∀ a b c, rdft3 o.nx o.ny o.nz 0 0 (fun i j k => m.dbl1 (o.raddr f i j k)) a b c = rdft3 o.nx o.ny o.nz 0 0 G a b c := by
    intro a b c
    unfold rdft3
    refine sum_congr rfl fun i hi => sum_congr rfl fun j hj => sum_congr rfl fun k hk => ?_
    beta_reduce
    rw [hG i (mem_range.1 hi) j (mem_range.1 hj) k (mem_range.1 hk)]
  refine ⟨(), _, if_pos h.defined, ?_⟩
  refine ⟨rfl, ?_, ?_⟩
  · intro i hi j hj k hk
    have key : ∀ c < 2, ∀ hh : o.IsC g (o.caddr g i j k c), hh.choose = (i, j, k, c) := by
      intro c hc hh
      obtain ⟨h1, h2, h3, h4, h5⟩ := hh.choose_spec
      obtain ⟨e1, e2, e3, e4⟩ := caddr_inj hj h2 hk h3 hc h4 h5
      refine Prod.ext e1.symm (Prod.ext e2.symm (Prod.ext e3.symm e4.symm))
    have hin : ∀ c < 2, o.IsC g (o.caddr g i j k c) := fun c hc => ⟨(i, j, k, c), hi, hj, hk, hc, rfl⟩
    unfold Mem.cplx Mem.dbl1
    rw [caddr_one]
    simp only [dif_pos (hin 0 (by omega)), dif_pos (hin 1 (by omega)), key 0 (by omega) (hin 0 (by omega)), key 1 (by omega) (hin 1 (by omega))]
    have hz' := hz i j k
    unfold Mem.dbl1 at hz'
    simp [hz']
  · intro p hp
    have : ¬ o.IsC g p := fun hc => by
      obtain ⟨a, ha, e⟩ := (isC_iff).1 hc
      exact hp a ha e
    simp only [dif_neg this]

theorem opp_lt {N k : ℕ} (h : 0 < N) : (N - k) % N < N := Nat.mod_lt _ h

theorem full_eq (v : o.Valid) {g : Ptr} {m : Mem} {F : ℕ → ℕ → ℕ → ℂ} (hF : HermSpec3 o.nx o.ny o.nz F) (hS : o.SpecAt F g m) {i j k : ℕ}
    (hi : i < o.nx) (hj : j < o.ny) (hk : k < o.nz) : o.full g m i j k = F i j k := by
  unfold full
  split_ifs with h
  · exact hS i hi j hj k h
  · have hk2 : o.nz - k < o.nzp := by unfold nzp at h ⊢; omega
    rw [hS _ (opp_lt v.hx) _ (opp_lt v.hy) _ hk2]
    have := hF i hi j hj k hk
    have hk0 : 0 < k := by unfold nzp at h; omega
    rw [Nat.mod_eq_of_lt (show o.nz - k < o.nz by omega)] at this
    rw [this, Complex.conj_conj]

theorem full_herm (v : o.Valid) {g : Ptr} {m : Mem} {F : ℕ → ℕ → ℕ → ℂ} (hF : HermSpec3 o.nx o.ny o.nz F) (hS : o.SpecAt F g m) :
    HermSpec3 o.nx o.ny o.nz (o.full g m) := by
  intro i hi j hj k hk
  rw [full_eq v hF hS (opp_lt v.hx) (opp_lt v.hy) (opp_lt v.hz), full_eq v hF hS hi hj hk]
  exact hF i hi j hj k hk

theorem irdft3_congr {X Y Z : ℕ} {F F' : ℕ → ℕ → ℕ → ℂ} (h : ∀ i < X, ∀ j < Y, ∀ k < Z, F i j k = F' i j k) (a b c : ℕ) :
    irdft3 X Y Z 0 0 F a b c = irdft3 X Y Z 0 0 F' a b c := by
  unfold irdft3
  refine sum_congr rfl fun i hi => sum_congr rfl fun j hj => sum_congr rfl fun k hk => ?_
  rw [h i (mem_range.1 hi) j (mem_range.1 hj) k (mem_range.1 hk)]

theorem c2r_ok (v : o.Valid) {f g : Ptr} {m : Mem} (h : o.Arrays f g m) {F : ℕ → ℕ → ℕ → ℂ} (hF : HermSpec3 o.nx o.ny o.nz F) (hS : o.SpecAt F g m) :
    (o.c2r g f).Ok m fun _ m' => m'.size = m.size ∧ o.RealAt (fun i j k => (irdft3 o.nx o.ny o.nz 0 0 F i j k).re) f m' ∧
      ∀ p, ¬ o.Touched f g p → m'.val p = m.val p := by
  refine ⟨(), _, if_pos h.defined, ?_⟩
  refine ⟨rfl, ?_, ?_⟩
  · intro i hi j hj k hk
    have hin : o.IsR f (o.raddr f i j k) := ⟨(i, j, k), hi, hj, hk, rfl⟩
    have key : hin.choose = (i, j, k) := by
      obtain ⟨h1, h2, h3, h5⟩ := hin.choose_spec
      obtain ⟨e1, e2, e3⟩ := raddr_inj hj h2 hk h3 h5
      exact Prod.ext e1.symm (Prod.ext e2.symm e3.symm)
    unfold Mem.dbl1
    simp only [dif_pos hin, if_pos (full_herm v hF hS), key]
    rw [Complex.ofReal_re, irdft3_congr (fun i hi j hj k hk => full_eq v hF hS hi hj hk)]
  · intro p hp
    have h1 : ¬ o.IsR f p := fun hc => hp (Or.inl hc.bound)
    have h2 : ¬ o.IsC g p := fun hc => hp (Or.inr ((isC_iff).1 hc))
    simp only [dif_neg h1, if_neg h2]

theorem shift_rows (o : RFft) (p : Ptr) : o.shift p = match o.rank with
    | 1 => pure () | 2 => shiftRows p o.nx o.rdist | _ => shiftPlanes p o.nx o.ny o.rdist := by
  unfold shift rdist shift2real shift3real
  by_cases h : o.inplace = true
  · simp only [if_pos h]; rfl
  · simp only [if_neg h]; rfl

theorem shift_ok (v : o.Valid) (hs : o.CanShift) {f : Ptr} {m : Mem} (h : m.block f (o.nx * o.ny * o.rdist)) {G : ℕ → ℕ → ℕ → ℝ} (hG : o.RealAt G f m) :
    (o.shift f).Ok m fun _ m' => m'.size = m.size ∧ o.RealAt (fun i j k => (-1) ^ (i + j) * G i j k) f m' ∧
      ∀ p, (∀ a < o.nx * o.ny * o.rdist, p ≠ f + (a : ℕ)) → m'.val p = m.val p := by
  rw [shift_rows]
  have hre : ∀ (n : ℕ) (z : ℂ), ((-1) ^ n * z).re = (-1) ^ n * z.re := by
    intro n z
    rw [show ((-1 : ℂ) ^ n) = (((-1 : ℝ) ^ n : ℝ) : ℂ) by push_cast; rfl, Complex.re_ofReal_mul]
  split
  · rename_i h1
    refine Cmd.Ok.pure ⟨rfl, ?_, fun _ _ => rfl⟩
    intro i hi j hj k hk
    obtain ⟨a, b⟩ := v.r1 h1
    obtain rfl : i = 0 := by omega
    obtain rfl : j = 0 := by omega
    rw [hG 0 hi 0 hj k hk]; simp
  · rename_i h2
    have hy := v.r2 h2
    rw [hy, Nat.mul_one] at h
    refine (shiftRows_ok (hs.ex (by omega)) h).mono ?_
    rintro _ m' ⟨s, e, fr⟩
    refine ⟨s, ?_, ?_⟩
    · intro i hi j hj k hk
      obtain rfl : j = 0 := by omega
      have e1 := e i hi k (nz_lt_rdist hk)
      have e2 := hG i hi 0 hj k hk
      unfold Mem.dbl1 raddr at e2 ⊢
      rw [hy, Nat.mul_one, Nat.add_zero] at e2 ⊢
      beta_reduce
      rw [e1, hre, e2, Nat.add_zero]
    · intro p hp
      rw [hy, Nat.mul_one] at hp
      exact fr p hp
  · rename_i h1 h2
    refine (shiftPlanes_ok (hs.ex h1) (hs.ey h1 h2) h).mono ?_
    rintro _ m' ⟨s, e, fr⟩
    refine ⟨s, ?_, fr⟩
    intro i hi j hj k hk
    have e1 := e i hi j hj k (nz_lt_rdist hk)
    have e2 := hG i hi j hj k hk
    unfold Mem.dbl1 raddr at e2 ⊢
    rw [e1, hre, e2]

/-! ## Zeroing -/

theorem zero_good {f : Ptr} {e : ℕ} {m : Mem} (h0 : m.valid (f + (e * 2 : ℕ))) (h1 : m.valid (f + (e * 2 + 1 : ℕ))) : (zero f e).Good m := by
  unfold zero; body_simp; exact ⟨h0, h1⟩

/-- A loop storing zeros in the complex numbers `e x`, under a condition. -/
theorem zeros_ok {ι : Type} {l : List ι} (hnd : l.Nodup) {f : Ptr} (e : ι → ℕ) (c : Prop) [Decidable c] (hinj : ∀ x ∈ l, ∀ y ∈ l, e x = e y → x = y) {N : ℕ} {m : Mem}
    (hlt : c → ∀ x ∈ l, e x < N) (hb : m.block f (N * 2)) :
    (if c then par l fun x => zero f (e x) else pure ()).Ok m fun _ m' => m'.size = m.size ∧
      (∀ k, (c ∧ ∃ x ∈ l, k = e x) → m'.cplx (f + (k * 2 : ℕ)) = 0) ∧
      (∀ k, (¬ (c ∧ ∃ x ∈ l, k = e x)) → m'.cplx (f + (k * 2 : ℕ)) = m.cplx (f + (k * 2 : ℕ))) ∧
      ∀ p, (∀ a < N * 2, p ≠ f + (a : ℕ)) → m'.val p = m.val p := by
  by_cases hc : c
  · rw [if_pos hc]
    refine par_map2 (fun x => f + (e x * 2 : ℕ)) (fun _ => 0) (fun x => f + (e x * 2 + 1 : ℕ)) (fun _ => 0) hnd ?_ ?_ ?_ ?_ ?_ ?_ ?_
    · intro x hx
      have := hlt hc x hx
      exact zero_good (hb _ (by omega)) (hb _ (by omega))
    · intro x _; unfold zero; body_simp
    · intro x hx y hy h; exact hinj x hx y hy (by have := Ptr.add_inj.1 h; omega)
    · intro x hx y hy h; exact hinj x hx y hy (by have := Ptr.add_inj.1 h; omega)
    · intro x _ y _ h; have := Ptr.add_inj.1 h; omega
    · intro x _ y _ _; unfold zero; body_simp
    · intro m' u h1 h2
      have fr : ∀ k, (¬ ∃ x ∈ l, k = e x) → m'.cplx (f + (k * 2 : ℕ)) = m.cplx (f + (k * 2 : ℕ)) := by
        intro k hk
        have a0 : m'.val (f + (k * 2 : ℕ)) = m.val (f + (k * 2 : ℕ)) := by
          refine u.frame _ ?_
          rintro (⟨x, hx, h⟩ | ⟨x, hx, h⟩)
          · exact hk ⟨x, hx, by have := Ptr.add_inj.1 h; omega⟩
          · have := Ptr.add_inj.1 h; omega
        have a1 : m'.val (f + (k * 2 : ℕ) + 1) = m.val (f + (k * 2 : ℕ) + 1) := by
          refine u.frame _ ?_
          rw [Ptr.add_add]
          rintro (⟨x, hx, h⟩ | ⟨x, hx, h⟩)
          · have := Ptr.add_inj.1 h; omega
          · exact hk ⟨x, hx, by have := Ptr.add_inj.1 h; omega⟩
        unfold Mem.cplx Mem.dbl1
        rw [a0, a1]
      refine ⟨u.size, ?_, fun k hk => fr k fun h => hk ⟨hc, h⟩, ?_⟩
      · rintro k ⟨_, x, hx, rfl⟩
        have a0 := h1 x hx
        have a1 := h2 x hx
        unfold Mem.cplx Mem.dbl1
        rw [Ptr.add_add, a0, a1]
        rfl
      · intro p hp
        refine u.frame p ?_
        rintro (⟨x, hx, rfl⟩ | ⟨x, hx, rfl⟩)
        · exact hp _ (by have := hlt hc x hx; omega) rfl
        · exact hp _ (by have := hlt hc x hx; omega) rfl
  · rw [if_neg hc]
    exact Cmd.Ok.pure ⟨rfl, fun k hk => absurd hk.1 hc, fun _ _ => rfl, fun _ _ => rfl⟩

theorem deNyquist_ok (v : o.Valid) {g : Ptr} {m : Mem} (hb : m.block g (o.nx * o.ny * o.nzp * 2)) {F : ℕ → ℕ → ℕ → ℂ} (hS : o.SpecAt F g m) :
    (o.deNyquist g).Ok m fun _ m' => m'.size = m.size ∧
      o.SpecAt (fun i j k => if (o.nx % 2 = 0 ∧ i = 0) ∨ (o.ny % 2 = 0 ∧ j = 0) ∨ (o.nz % 2 = 0 ∧ k = o.nz / 2) then 0 else F i j k) g m' ∧
      ∀ p, (∀ a < o.nx * o.ny * o.nzp * 2, p ≠ g + (a : ℕ)) → m'.val p = m.val p := by
  have hn : 0 < o.nzp := by unfold nzp; omega
  have e1 : ∀ i j, i * (o.ny * o.nzp) + (j + 1) * o.nzp - 1 = (i * o.ny + j) * o.nzp + (o.nzp - 1) := by
    intro i j
    rw [show i * (o.ny * o.nzp) + (j + 1) * o.nzp = (i * o.ny + j) * o.nzp + o.nzp by ring]
    omega
  have e2 : ∀ i k, i * (o.ny * o.nzp) + k = (i * o.ny + 0) * o.nzp + k := by intro i k; ring
  have l1 : o.nx % 2 = 0 → ∀ k ∈ rng 0 (o.ny * o.nzp), k < o.nx * o.ny * o.nzp := by
    intro _ k hk
    rw [mem_rng] at hk
    refine lt_of_lt_of_le hk.2 ?_
    rw [Nat.mul_assoc]
    exact Nat.le_mul_of_pos_left _ v.hx
  have l2 : o.ny % 2 = 0 → ∀ x ∈ rng2 0 o.nx 0 o.nzp, x.1 * (o.ny * o.nzp) + x.2 < o.nx * o.ny * o.nzp := by
    intro _ x hx
    rw [mem_rng2] at hx
    rw [e2]
    exact at_lt (row_lt hx.1.2 v.hy) hx.2.2
  have l3 : o.nz % 2 = 0 → ∀ x ∈ rng2 0 o.nx 0 o.ny, x.1 * (o.ny * o.nzp) + (x.2 + 1) * o.nzp - 1 < o.nx * o.ny * o.nzp := by
    intro _ x hx
    rw [mem_rng2] at hx
    rw [e1]
    exact at_lt (row_lt hx.1.2 hx.2.2) (by omega)
  refine Cmd.Ok.bind ((zeros_ok (rng_nodup _ _) (fun k => k) (o.nx % 2 = 0) (fun _ _ _ _ h => h) l1 hb).mono ?_)
  rintro _ m1 ⟨s1, z1, n1, f1⟩
  refine Cmd.Ok.bind ((zeros_ok (rng2_nodup _ _ _ _) (fun x : ℕ × ℕ => x.1 * (o.ny * o.nzp) + x.2) (o.ny % 2 = 0) ?_ l2
    fun i hi => Mem.valid_of_size s1 (hb i hi)).mono ?_)
  · intro x hx y hy h
    rw [mem_rng2] at hx hy
    beta_reduce at h
    rw [e2, e2] at h
    obtain ⟨h1, h2⟩ := at_inj hx.2.2 hy.2.2 h
    obtain ⟨h3, _⟩ := at_inj v.hy v.hy h1
    exact Prod.ext h3 h2
  rintro _ m2 ⟨s2, z2, n2, f2⟩
  refine (zeros_ok (rng2_nodup _ _ _ _) (fun x : ℕ × ℕ => x.1 * (o.ny * o.nzp) + (x.2 + 1) * o.nzp - 1) (o.nz % 2 = 0) ?_ l3
    fun i hi => Mem.valid_of_size (s2.trans s1) (hb i hi)).mono ?_
  · intro x hx y hy h
    rw [mem_rng2] at hx hy
    beta_reduce at h
    rw [e1, e1] at h
    obtain ⟨h1, _⟩ := at_inj (by omega) (by omega) h
    obtain ⟨h3, h4⟩ := at_inj hx.2.2 hy.2.2 h1
    exact Prod.ext h3 h4
  rintro _ m3 ⟨s3, z3, n3, f3⟩
  refine ⟨s3.trans (s2.trans s1), ?_, fun p hp => (f3 p hp).trans ((f2 p hp).trans (f1 p hp))⟩
  intro i hi j hj k hk
  have c1 : (o.nx % 2 = 0 ∧ ∃ x ∈ rng 0 (o.ny * o.nzp), (i * o.ny + j) * o.nzp + k = x) ↔ (o.nx % 2 = 0 ∧ i = 0) := by
    refine and_congr_right fun _ => ⟨?_, ?_⟩
    · rintro ⟨x, hx, h⟩
      rw [mem_rng] at hx
      by_contra h0
      have : 1 * (o.ny * o.nzp) ≤ i * (o.ny * o.nzp) := Nat.mul_le_mul_right _ (by omega)
      have e : (i * o.ny + j) * o.nzp + k = i * (o.ny * o.nzp) + (j * o.nzp + k) := by ring
      omega
    · rintro rfl
      refine ⟨_, ?_, rfl⟩
      rw [mem_rng]
      rw [Nat.zero_mul, Nat.zero_add]
      exact ⟨Nat.zero_le _, at_lt hj hk⟩
  have c2 : (o.ny % 2 = 0 ∧ ∃ x ∈ rng2 0 o.nx 0 o.nzp, (i * o.ny + j) * o.nzp + k = x.1 * (o.ny * o.nzp) + x.2) ↔ (o.ny % 2 = 0 ∧ j = 0) := by
    refine and_congr_right fun _ => ⟨?_, ?_⟩
    · rintro ⟨x, hx, h⟩
      rw [mem_rng2] at hx
      rw [e2] at h
      obtain ⟨h1, _⟩ := at_inj hk hx.2.2 h
      exact (at_inj hj v.hy h1).2
    · rintro rfl
      exact ⟨(i, k), by rw [mem_rng2]; simp only; omega, (e2 i k).symm⟩
  have c3 : (o.nz % 2 = 0 ∧ ∃ x ∈ rng2 0 o.nx 0 o.ny, (i * o.ny + j) * o.nzp + k = x.1 * (o.ny * o.nzp) + (x.2 + 1) * o.nzp - 1) ↔
      (o.nz % 2 = 0 ∧ k = o.nz / 2) := by
    have hh : o.nzp - 1 = o.nz / 2 := by unfold nzp; omega
    refine and_congr_right fun _ => ⟨?_, ?_⟩
    · rintro ⟨x, hx, h⟩
      rw [mem_rng2] at hx
      rw [e1] at h
      rw [← hh]
      exact (at_inj hk (by omega) h).2
    · intro h
      refine ⟨(i, j), by rw [mem_rng2]; simp only; omega, ?_⟩
      rw [e1, hh, h]
  have h0 := hS i hi j hj k hk
  have v1 := z1 ((i * o.ny + j) * o.nzp + k)
  have w1 := n1 ((i * o.ny + j) * o.nzp + k)
  have v2 := z2 ((i * o.ny + j) * o.nzp + k)
  have w2 := n2 ((i * o.ny + j) * o.nzp + k)
  have v3 := z3 ((i * o.ny + j) * o.nzp + k)
  have w3 := n3 ((i * o.ny + j) * o.nzp + k)
  rw [c1] at v1 w1
  rw [c2] at v2 w2
  rw [c3] at v3 w3
  have ea : o.caddr g i j k 0 = g + (((i * o.ny + j) * o.nzp + k) * 2 : ℕ) := rfl
  rw [ea] at h0 ⊢
  beta_reduce
  by_cases h3 : o.nz % 2 = 0 ∧ k = o.nz / 2
  · rw [if_pos (Or.inr (Or.inr h3)), v3 h3]
  rw [w3 h3]
  by_cases h2 : o.ny % 2 = 0 ∧ j = 0
  · rw [if_pos (Or.inr (Or.inl h2)), v2 h2]
  rw [w2 h2]
  by_cases h1 : o.nx % 2 = 0 ∧ i = 0
  · rw [if_pos (Or.inl h1), v1 h1]
  rw [w1 h1, if_neg (not_or.2 ⟨h1, not_or.2 ⟨h2, h3⟩⟩), h0]

/-! ## Normalization -/

theorem norm_re {N : ℕ} (z : ℂ) : (z * (1 / (N : ℂ))).re = z.re / N := by
  rw [show z * (1 / (N : ℂ)) = ((1 / (N : ℝ) : ℝ) : ℂ) * z by push_cast; ring, Complex.re_ofReal_mul]
  ring

/-- Normalization of `n` words of an array: the words below `n` are divided. -/
theorem normalize_ok {n : ℕ} {f : Ptr} {m : Mem} (hb : m.block f n) :
    (normalizeAll n o.norm f).Ok m fun _ m' => m'.size = m.size ∧
      (∀ a < n, m'.dbl1 (f + (a : ℕ)) = m.dbl1 (f + (a : ℕ)) / (o.nx * o.ny * o.nz : ℕ)) ∧
      ∀ p, (∀ a < n, p ≠ f + (a : ℕ)) → m'.val p = m.val p := by
  refine (normalizeAll_ok hb).mono ?_
  rintro _ m' ⟨s, e, fr⟩
  refine ⟨s, fun a ha => ?_, fr⟩
  unfold Mem.dbl1
  rw [e a ha]
  exact norm_re _

end RFft
end Fftwpp
