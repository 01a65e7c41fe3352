import Verif.Proof.Rcfft
import Verif.Spec.RDft2

/-!
# C60: Fourier transforms of real data on one process

`rcfft1d`, `rcfft2d`, `rcfft3d`, `crfft1d`, `crfft2d`, `crfft3d` (fftw++.h).  `RFft.Pair r c`: `r` and `c` are a forward and a backward object
of the same sizes; sizes that a class does not have are 1.  `RFft.Arrays`, `RealAt`, `SpecAt` (Proof/Rcfft.lean) say where the arrays are.
-/

namespace Fftwpp
namespace RFft

/-- `r` is an `rcfft1d`, `rcfft2d` or `rcfft3d` and `c` a `crfft1d`, `crfft2d` or `crfft3d` of the same sizes, both constructed in place or
both out of place. -/
inductive Pair : RFft → RFft → Prop
  | one {n : ℕ} {ip : Bool} {J J' : Mem → Ptr → ℂ} (hn : 0 < n) : Pair (rcfft1d n ip J) (crfft1d n ip J')
  | two {nx ny : ℕ} {ip : Bool} {J J' : Mem → Ptr → ℂ} (hx : 0 < nx) (hy : 0 < ny) : Pair (rcfft2d nx ny ip J) (crfft2d nx ny ip J')
  | three {nx ny nz : ℕ} {ip : Bool} {J J' : Mem → Ptr → ℂ} (hx : 0 < nx) (hy : 0 < ny) (hz : 0 < nz) :
      Pair (rcfft3d nx ny nz ip J) (crfft3d nx ny nz ip J')

theorem Pair.valid {r c : RFft} (h : Pair r c) : r.Valid := by
  cases h
  case one hn => exact ⟨Nat.one_pos, Nat.one_pos, hn, fun _ => ⟨rfl, rfl⟩, fun _ => rfl⟩
  case two hx hy => exact ⟨hx, Nat.one_pos, hy, fun h => absurd h (by decide : (2 : ℕ) ≠ 1), fun _ => rfl⟩
  case three hx hy hz => exact ⟨hx, hy, hz, fun h => absurd h (by decide : (3 : ℕ) ≠ 1), fun h => absurd h (by decide : (3 : ℕ) ≠ 2)⟩

theorem Pair.back {r c : RFft} (h : Pair r c) : c = { r with doubles := r.nx * r.ny * r.rdist, junk := c.junk } := by
  cases h
  case one ip _ _ _ => cases ip <;> simp [crfft1d, rcfft1d, realsize, rdist, nzp]
  case two ip _ _ _ _ => cases ip <;> simp [crfft2d, rcfft2d, realsize, rdist, nzp]
  case three ip _ _ _ _ _ => cases ip <;> simp [crfft3d, rcfft3d, realsize, rdist, nzp]

theorem Pair.doubles {r c : RFft} (h : Pair r c) : r.doubles = r.nx * r.ny * r.nzp * 2 := by
  cases h
  · simp [rcfft1d, nzp]; ring
  · simp [rcfft2d, nzp]; ring
  · simp [rcfft3d, nzp]; ring

variable {r c : RFft} {f g : Ptr} {m : Mem}

theorem setout_ok {o : RFft} {inp dst : Ptr} {out : Option Ptr} (h : (o.inplace = true) ↔ inp = dst) (ho : out = some dst ∨ (o.inplace = true ∧ out = none))
    (k : Ptr → Cmd Unit) : o.setout inp out k = k dst := by
  unfold setout
  rcases ho with rfl | ⟨h1, rfl⟩
  · rw [Option.getD_some, if_pos h]
  · rw [Option.getD_none, if_pos (iff_of_true h1 rfl), h.1 h1]

theorem executeR_ok (v : r.Valid) (a : r.Arrays f g m) {G : ℕ → ℕ → ℕ → ℝ} (hG : r.RealAt G f m) {s : Bool} (hs : s = true → r.CanShift) :
    (r.executeR f g s).Ok m fun _ m' => m'.size = m.size ∧
      r.SpecAt (if s = true then rdft3 r.nx r.ny r.nz (r.nx / 2) (r.ny / 2) G else rdft3 r.nx r.ny r.nz 0 0 G) g m' ∧
      ∀ p, ¬ (s = true ∧ ∃ a < r.nx * r.ny * r.rdist, p = f + (a : ℕ)) → (∀ a < r.nx * r.ny * r.nzp * 2, p ≠ g + (a : ℕ)) → m'.val p = m.val p := by
  unfold executeR
  cases s
  · rw [if_neg (by simp)]
    refine Cmd.Ok.bind (Cmd.Ok.pure ?_)
    refine (r2c_ok a hG).mono ?_
    rintro _ m' ⟨s, e, fr⟩
    exact ⟨s, by simpa using e, fun p _ hp => fr p hp⟩
  · refine Cmd.Ok.bind ?_
    rw [if_pos rfl]
    refine (shift_ok v (hs rfl) a.re hG).mono ?_
    rintro _ m1 ⟨s1, e1, f1⟩
    refine (r2c_ok (a.of_size s1) e1).mono ?_
    rintro _ m' ⟨s, e, fr⟩
    refine ⟨s.trans s1, ?_, fun p h1 h2 => (fr p h2).trans (f1 p fun x hx hp => h1 ⟨rfl, x, hx, hp⟩)⟩
    intro i hi j hj k hk
    rw [e i hi j hj k hk]
    show _ = rdft3 r.nx r.ny r.nz (r.nx / 2) (r.ny / 2) G i j k
    rw [rdft3_alt ((hs rfl).x v) ((hs rfl).y v)]

theorem executeC_ok (v : c.Valid) (a : c.Arrays f g m) {F : ℕ → ℕ → ℕ → ℂ} (hF : HermSpec3 c.nx c.ny c.nz F) (hS : c.SpecAt F g m) {s : Bool}
    (hs : s = true → c.CanShift) :
    (c.executeC g f s).Ok m fun _ m' => m'.size = m.size ∧
      c.RealAt (fun i j k => (if s = true then irdft3 c.nx c.ny c.nz (c.nx / 2) (c.ny / 2) F i j k else irdft3 c.nx c.ny c.nz 0 0 F i j k).re) f m' ∧
      ∀ p, ¬ c.Touched f g p → m'.val p = m.val p := by
  unfold executeC
  refine Cmd.Ok.bind ((c2r_ok v a hF hS).mono ?_)
  rintro _ m1 ⟨s1, e1, f1⟩
  cases s
  · exact Cmd.Ok.pure ⟨s1, by simpa using e1, f1⟩
  · rw [if_pos rfl]
    refine (shift_ok v (hs rfl) (a.of_size s1).re e1).mono ?_
    rintro _ m' ⟨s, e, fr⟩
    refine ⟨s.trans s1, ?_, fun p hp => (fr p fun x hx h => hp (Or.inl ⟨x, hx, h⟩)).trans (f1 p hp)⟩
    intro i hi j hj k hk
    beta_reduce
    rw [if_pos rfl, e i hi j hj k hk, irdft3_alt ((hs rfl).x v) ((hs rfl).y v) F hi hj, Complex.re_ofReal_mul]

/-- **C60**, `fft(in,out)` (`s` false) and `fft0(in,out)` (`s` true) of `rcfft1d`, `rcfft2d`, `rcfft3d`: for all sizes, in place or not, and every
real array `G` at `f`: the half spectrum of `G` is at `g`, with the Fourier origin at index 0 or, for `fft0` and even sizes, at
`(nx/2,0)` or `(nx/2,ny/2,0)`.  Nothing outside `g` is written, except that `fft0` also changes the real array. -/
theorem C60_forward (h : Pair r c) (a : r.Arrays f g m) {G : ℕ → ℕ → ℕ → ℝ} (hG : r.RealAt G f m) {out : Option Ptr}
    (ho : out = some g ∨ (r.inplace = true ∧ out = none)) {s : Bool} (hs : s = true → r.CanShift) :
    (r.rcfft f out s).Ok m fun _ m' => m'.size = m.size ∧
      r.SpecAt (if s = true then rdft3 r.nx r.ny r.nz (r.nx / 2) (r.ny / 2) G else rdft3 r.nx r.ny r.nz 0 0 G) g m' ∧
      ∀ p, ¬ (s = true ∧ ∃ a < r.nx * r.ny * r.rdist, p = f + (a : ℕ)) → (∀ a < r.nx * r.ny * r.nzp * 2, p ≠ g + (a : ℕ)) → m'.val p = m.val p := by
  unfold rcfft
  rw [setout_ok (a.ne h.valid) ho]
  exact executeR_ok h.valid a hG hs

theorem Pair.backFacts (h : Pair r c) : c.nx = r.nx ∧ c.ny = r.ny ∧ c.nz = r.nz ∧ c.inplace = r.inplace ∧ c.rank = r.rank ∧
    c.doubles = r.nx * r.ny * r.rdist := by
  have := h.back
  refine ⟨?_, ?_, ?_, ?_, ?_, ?_⟩ <;> rw [this]

theorem Pair.validC (h : Pair r c) : c.Valid := by
  obtain ⟨h1, h2, h3, _, h5, _⟩ := h.backFacts
  obtain ⟨a1, a2, a3, a4, a5⟩ := h.valid
  exact ⟨by rwa [h1], by rwa [h2], by rwa [h3], by rwa [h1, h2, h5], by rwa [h2, h5]⟩

/-- **C60**, `fft(in,out)` (`s` false) and `fft0(in,out)` (`s` true) of `crfft1d`, `crfft2d`, `crfft3d`: if `F` has the symmetry of the spectrum of a
real array then from its half at `g` its transform (sign `+1`), which is real, is obtained at `f`, with the Fourier origin as in
`C60_forward`.  Nothing outside the two arrays is written. -/
theorem C60_backward (h : Pair r c) (a : c.Arrays f g m) {F : ℕ → ℕ → ℕ → ℂ} (hF : HermSpec3 c.nx c.ny c.nz F) (hS : c.SpecAt F g m) {out : Option Ptr}
    (ho : out = some f ∨ (c.inplace = true ∧ out = none)) {s : Bool} (hs : s = true → c.CanShift) :
    (c.crfft g out s).Ok m fun _ m' => m'.size = m.size ∧
      (∀ i < c.nx, ∀ j < c.ny, ∀ k < c.nz, ((m'.dbl1 (c.raddr f i j k) : ℝ) : ℂ) =
        if s = true then irdft3 c.nx c.ny c.nz (c.nx / 2) (c.ny / 2) F i j k else irdft3 c.nx c.ny c.nz 0 0 F i j k) ∧
      ∀ p, ¬ c.Touched f g p → m'.val p = m.val p := by
  unfold crfft
  rw [setout_ok ((a.ne h.validC).trans eq_comm) ho]
  refine (executeC_ok h.validC a hF hS hs).mono ?_
  rintro _ m' ⟨s1, e, fr⟩
  refine ⟨s1, ?_, fr⟩
  intro i hi j hj k hk
  rw [e i hi j hj k hk]
  have im0 := irdft3_im hF i j k
  split_ifs with h1
  · refine Complex.ext (Complex.ofReal_re _) ?_
    rw [irdft3_alt ((hs h1).x h.validC) ((hs h1).y h.validC) F hi hj, Complex.im_ofReal_mul, im0, mul_zero, Complex.ofReal_im]
  · exact Complex.ext (Complex.ofReal_re _) (by rw [im0, Complex.ofReal_im])

/-- **C60**, `fftNormalized` and `fft0Normalized` of `rcfft1d`, `rcfft2d`, `rcfft3d`: the spectrum divided by `nx*ny*nz`. -/
theorem C60_forwardNormalized (h : Pair r c) (a : r.Arrays f g m) {G : ℕ → ℕ → ℕ → ℝ} (hG : r.RealAt G f m) {out : Option Ptr}
    (ho : out = some g ∨ (r.inplace = true ∧ out = none)) {s : Bool} (hs : s = true → r.CanShift) :
    (r.rcfftNormalized f out s).Ok m fun _ m' => m'.size = m.size ∧
      r.SpecAt (fun i j k => (if s = true then rdft3 r.nx r.ny r.nz (r.nx / 2) (r.ny / 2) G else rdft3 r.nx r.ny r.nz 0 0 G) i j k /
        ((r.nx * r.ny * r.nz : ℕ) : ℂ)) g m' := by
  unfold rcfftNormalized
  rw [setout_ok (a.ne h.valid) ho]
  refine Cmd.Ok.bind ((executeR_ok h.valid a hG hs).mono ?_)
  rintro _ m1 ⟨s1, e1, _⟩
  unfold normalizeC
  have hd : 2 * (r.doubles / 2) = r.nx * r.ny * r.nzp * 2 := by rw [h.doubles]; omega
  rw [hd]
  refine (normalize_ok (a.of_size s1).cx).mono ?_
  rintro _ m' ⟨s2, e2, _⟩
  refine ⟨s2.trans s1, ?_⟩
  intro i hi j hj k hk
  beta_reduce
  rw [← e1 i hi j hj k hk]
  have a0 : m'.dbl1 (r.caddr g i j k 0) = m1.dbl1 (r.caddr g i j k 0) / _ := e2 _ (at_lt (at_lt (row_lt hi hj) hk) (by omega))
  have a1 : m'.dbl1 (r.caddr g i j k 1) = m1.dbl1 (r.caddr g i j k 1) / _ := e2 _ (at_lt (at_lt (row_lt hi hj) hk) (by omega))
  unfold Mem.cplx
  rw [caddr_one, a0, a1]
  apply Complex.ext
  · rw [Complex.div_natCast_re]
  · rw [Complex.div_natCast_im]

theorem backNormalized {n : ℕ} (v : c.Valid) (hn : c.nx * c.ny * c.rdist = n) (a : c.Arrays f g m) {F : ℕ → ℕ → ℕ → ℂ} (hF : HermSpec3 c.nx c.ny c.nz F) (hS : c.SpecAt F g m)
    {s : Bool} (hs : s = true → c.CanShift) :
    (c.executeC g f s >>= fun _ => normalizeAll n c.norm f).Ok m fun _ m' => m'.size = m.size ∧
      c.RealAt (fun i j k => (if s = true then irdft3 c.nx c.ny c.nz (c.nx / 2) (c.ny / 2) F i j k else irdft3 c.nx c.ny c.nz 0 0 F i j k).re /
        ((c.nx * c.ny * c.nz : ℕ) : ℝ)) f m' ∧ ∀ p, ¬ c.Touched f g p → m'.val p = m.val p := by
  subst hn
  refine Cmd.Ok.bind ((executeC_ok v a hF hS hs).mono ?_)
  rintro _ m1 ⟨s1, e1, f1⟩
  refine (normalize_ok (a.of_size s1).re).mono ?_
  rintro _ m' ⟨s2, e2, f2⟩
  refine ⟨s2.trans s1, ?_, fun p hp => (f2 p fun x hx h => hp (Or.inl ⟨x, hx, h⟩)).trans (f1 p hp)⟩
  intro i hi j hj k hk
  have a0 : m'.dbl1 (c.raddr f i j k) = m1.dbl1 (c.raddr f i j k) / _ := e2 _ (at_lt (row_lt hi hj) (nz_lt_rdist hk))
  rw [a0, e1 i hi j hj k hk]

theorem rdft_invertible (v : r.Valid) (G : ℕ → ℕ → ℕ → ℝ) {s : Bool} (hs : s = true → r.CanShift) {i j k : ℕ} (hi : i < r.nx) (hj : j < r.ny) (hk : k < r.nz) :
    (if s = true then irdft3 r.nx r.ny r.nz (r.nx / 2) (r.ny / 2) (if s = true then rdft3 r.nx r.ny r.nz (r.nx / 2) (r.ny / 2) G else rdft3 r.nx r.ny r.nz 0 0 G) i j k
      else irdft3 r.nx r.ny r.nz 0 0 (if s = true then rdft3 r.nx r.ny r.nz (r.nx / 2) (r.ny / 2) G else rdft3 r.nx r.ny r.nz 0 0 G) i j k).re /
      ((r.nx * r.ny * r.nz : ℕ) : ℝ) = G i j k := by
  split_ifs with h1
  · rw [show rdft3 r.nx r.ny r.nz (r.nx / 2) (r.ny / 2) G = rdft3 r.nx r.ny r.nz 0 0 fun i j k => (-1) ^ (i + j) * G i j k from
      funext fun x => funext fun y => funext fun z => rdft3_alt ((hs h1).x v) ((hs h1).y v) G x y z,
      irdft3_alt ((hs h1).x v) ((hs h1).y v) _ hi hj, Complex.re_ofReal_mul, mul_div_assoc,
      roundtrip_real3 v.hx v.hy v.hz (fun i j k => (-1) ^ (i + j) * G i j k) hi hj hk, ← mul_assoc, ← pow_add, Even.neg_one_pow ⟨i + j, rfl⟩, one_mul]
  · exact roundtrip_real3 v.hx v.hy v.hz G hi hj hk

theorem rdft_sym (v : r.Valid) (G : ℕ → ℕ → ℕ → ℝ) {s : Bool} (hs : s = true → r.CanShift) :
    HermSpec3 r.nx r.ny r.nz (if s = true then rdft3 r.nx r.ny r.nz (r.nx / 2) (r.ny / 2) G else rdft3 r.nx r.ny r.nz 0 0 G) := by
  have hd : ∀ n : ℕ, n % 2 = 0 ∨ n = 1 → (n : ℤ) ∣ 2 * (n / 2 : ℕ) := by
    intro n hn
    rcases hn with hn | rfl
    · exact ⟨1, by omega⟩
    · simp
  split_ifs with h1
  · exact rdft3_herm (hd _ ((hs h1).x v)) (hd _ ((hs h1).y v)) G
  · exact rdft3_herm (by simp) (by simp) G

/-- The backward call of the round trip: `fftNormalized(g,f)` with `f` a `double *`, or in place `fftNormalized(g)`, and `fft0Normalized`. -/
noncomputable def backNorm (c : RFft) (g f : Ptr) (byPointer s : Bool) : Cmd Unit :=
  if byPointer = true then c.crfftNormalized g (some f) s else c.crfftNormalizedC g none s

/-- **C60**: `Forward.fft(f,g); Backward.fftNormalized(g,f)` and, for even sizes, `Forward.fft0(f,g); Backward.fft0Normalized(g,f)`, and in
place `Backward.fftNormalized(g)`, give back the real array, for all sizes; nothing else is changed but `g`. -/
theorem C60_roundtrip (h : Pair r c) (a : r.Arrays f g m) {G : ℕ → ℕ → ℕ → ℝ} (hG : r.RealAt G f m) {s : Bool} (hs : s = true → r.CanShift)
    {byPointer : Bool} (hb : byPointer = true ∨ r.inplace = true) :
    (r.rcfft f (some g) s >>= fun _ => c.backNorm g f byPointer s).Ok m fun _ m' => m'.size = m.size ∧ r.RealAt G f m' ∧
      ∀ p, ¬ r.Touched f g p → m'.val p = m.val p := by
  refine Cmd.Ok.bind ((C60_forward h a hG (Or.inl rfl) hs).mono ?_)
  rintro _ m1 ⟨s1, e1, f1⟩
  obtain ⟨b1, b2, b3, b4, b5, b6⟩ := h.backFacts
  have hrd : c.rdist = r.rdist := by unfold rdist nzp; rw [b3, b4]
  have hnzp : c.nzp = r.nzp := by unfold nzp; rw [b3]
  have a' := a.of_size s1
  have ac : c.Arrays f g m1 := ⟨by rw [b1, b2, hrd]; exact a'.re, by rw [b1, b2, hnzp]; exact a'.cx, by rw [b4]; exact a'.same,
    by rw [b1, b2, hrd, hnzp, b4]; exact a'.disj⟩
  have hF : HermSpec3 c.nx c.ny c.nz (if s = true then rdft3 r.nx r.ny r.nz (r.nx / 2) (r.ny / 2) G else rdft3 r.nx r.ny r.nz 0 0 G) := by
    rw [b1, b2, b3]; exact rdft_sym h.valid G hs
  have hS : c.SpecAt (if s = true then rdft3 r.nx r.ny r.nz (r.nx / 2) (r.ny / 2) G else rdft3 r.nx r.ny r.nz 0 0 G) g m1 := by
    intro i hi j hj k hk
    rw [b1] at hi; rw [b2] at hj; rw [hnzp] at hk
    have := e1 i hi j hj k hk
    unfold caddr at this ⊢
    rw [b2, hnzp]
    exact this
  have hsc : s = true → c.CanShift := fun h1 => ⟨by rw [b1, b5]; exact (hs h1).ex, by rw [b2, b5]; exact (hs h1).ey⟩
  have hmain := backNormalized (n := c.nx * c.ny * c.rdist) h.validC rfl ac hF hS hsc
  have hb' : c.backNorm g f byPointer s = (c.executeC g f s >>= fun _ => normalizeAll (c.nx * c.ny * c.rdist) c.norm f) := by
    unfold backNorm
    cases byPointer
    · have hip : r.inplace = true := by simpa using hb
      rw [if_neg (by simp)]
      unfold crfftNormalizedC
      rw [setout_ok (dst := f) ((ac.ne h.validC).trans eq_comm) (Or.inr ⟨by rw [b4]; exact hip, rfl⟩)]
      unfold normalizeC
      have : 2 * (c.doubles / 2) = c.nx * c.ny * c.rdist := by
        have e : r.rdist = 2 * r.nzp := by unfold rdist; rw [if_pos hip]
        rw [b6, b1, b2, hrd, e, show r.nx * r.ny * (2 * r.nzp) = 2 * (r.nx * r.ny * r.nzp) by ring]; omega
      rw [this]
    · rw [if_pos rfl]
      unfold crfftNormalized
      rw [setout_ok (dst := f) ((ac.ne h.validC).trans eq_comm) (Or.inl rfl)]
      unfold normalizeD
      rw [show c.doubles = c.nx * c.ny * c.rdist by rw [b6, b1, b2, hrd]]
  rw [hb']
  refine hmain.mono ?_
  rintro _ m' ⟨s2, e2, f2⟩
  refine ⟨s2.trans s1, ?_, ?_⟩
  · intro i hi j hj k hk
    have := e2 i (by rwa [b1]) j (by rwa [b2]) k (by rwa [b3])
    beta_reduce at this
    rw [b1, b2, b3, rdft_invertible h.valid G hs hi hj hk] at this
    unfold raddr at this ⊢
    rw [b2, hrd] at this
    exact this
  · intro p hp
    refine (f2 p ?_).trans (f1 p (fun hh => hp (Or.inl hh.2)) fun x hx hh => hp (Or.inr ⟨x, hx, hh⟩))
    unfold Touched at hp ⊢
    rwa [b1, b2, hrd, hnzp]

/-- **C60**, `deNyquist(f)` of either class (two and three dimensions): the modes that have no opposite, index 0 in x (and in y) of a shifted
transform of even size and index `nz/2` in the last direction, are set to zero, and all other values are kept. -/
theorem C60_deNyquist {o : RFft} (v : o.Valid) (hb : m.block g (o.nx * o.ny * o.nzp * 2)) {F : ℕ → ℕ → ℕ → ℂ} (hS : o.SpecAt F g m) :
    (o.deNyquist g).Ok m fun _ m' => m'.size = m.size ∧
      o.SpecAt (fun i j k => if (o.nx % 2 = 0 ∧ i = 0) ∨ (o.ny % 2 = 0 ∧ j = 0) ∨ (o.nz % 2 = 0 ∧ k = o.nz / 2) then 0 else F i j k) g m' ∧
      ∀ p, (∀ a < o.nx * o.ny * o.nzp * 2, p ≠ g + (a : ℕ)) → m'.val p = m.val p :=
  deNyquist_ok v hb hS

/-- **C60**: `fft0` of a two-dimensional transform exits for odd `nx`, and of a three-dimensional one for odd `nx` or `ny`; a call that is in
place exits if the object was constructed out of place, and conversely. -/
theorem C60_exit (o : RFft) (inp : Ptr) (out : Option Ptr) (s : Bool) (m : Mem) :
    (o.rank ≠ 1 → o.nx % 2 = 1 ∨ (o.rank ≠ 2 ∧ o.ny % 2 = 1) → o.rcfft inp out true m = .error .exit) ∧
    (¬ ((o.inplace = true) ↔ inp = out.getD inp) → o.rcfft inp out s m = .error .exit ∧ o.crfft inp out s m = .error .exit) := by
  constructor
  · intro h1 h2
    unfold rcfft setout
    split_ifs with hc
    · unfold executeR
      have hsh : ∀ p, o.shift p = exitCmd := by
        intro p
        rw [shift_rows]
        split
        · rename_i h; exact absurd h h1
        · rename_i h; unfold shiftRows; rw [if_neg (by rcases h2 with h2 | h2; · omega
                                                       · exact absurd h h2.1)]
        · unfold shiftPlanes; rw [if_neg (by omega)]
      rw [if_pos rfl, hsh]
      rfl
    · rfl
  · intro hc
    unfold rcfft crfft setout
    rw [if_neg hc, if_neg hc]
    exact ⟨rfl, rfl⟩

/-! ## The transforms of one and two dimensions -/

/-- With one value in y, the three-dimensional transform is the two-dimensional one. -/
theorem rdft3_two (X Z x0 : ℕ) (G : ℕ → ℕ → ℕ → ℝ) (kx kz : ℕ) :
    rdft3 X 1 Z x0 0 G kx 0 kz = rdft2 X Z x0 (fun i k => G i 0 k) kx kz := by
  unfold rdft3 rdft2
  simp

theorem irdft3_two (X Z x0 : ℕ) (F : ℕ → ℕ → ℕ → ℂ) (i k : ℕ) :
    irdft3 X 1 Z x0 0 F i 0 k = irdft2 X Z x0 (fun kx kz => F kx 0 kz) i k := by
  unfold irdft3 irdft2
  simp

/-- With one value in x and in y it is the one-dimensional one. -/
theorem rdft3_one (Z : ℕ) (G : ℕ → ℕ → ℕ → ℝ) (kz : ℕ) :
    rdft3 1 1 Z 0 0 G 0 0 kz = ∑ k ∈ Finset.range Z, (G 0 0 k : ℂ) * w Z (-(k * (kz : ℤ))) := by
  unfold rdft3
  simp

/-- **C60**, `rcfft2d::fft` and, for even `nx`, `fft0`, in terms of the array: real value `(i,j)` is the double `i*D+j` of `f`, with `D=ny`, or
`D=2*(ny/2+1)` in place, and spectral value `(i,j)` the complex number `i*(ny/2+1)+j` of `g`. -/
theorem C60_rcfft2d {nx ny : ℕ} {ip : Bool} {J : Mem → Ptr → ℂ} (hx : 0 < nx) (hy : 0 < ny) (a : (rcfft2d nx ny ip J).Arrays f g m) {G : ℕ → ℕ → ℝ}
    (hG : ∀ i < nx, ∀ j < ny, m.dbl1 (f + (i * (if ip = true then 2 * (ny / 2 + 1) else ny) + j : ℕ)) = G i j) {s : Bool} (hs : s = true → nx % 2 = 0) :
    ((rcfft2d nx ny ip J).rcfft f (some g) s).Ok m fun _ m' => ∀ i < nx, ∀ j ≤ ny / 2,
      m'.cplx (g + ((i * (ny / 2 + 1) + j) * 2 : ℕ)) = rdft2 nx ny (if s = true then nx / 2 else 0) G i j := by
  have hp : Pair (rcfft2d nx ny ip J) (crfft2d nx ny ip J) := .two hx hy
  refine (C60_forward hp a (G := fun i _ k => G i k) ?_ (Or.inl rfl) (s := s) fun h => ⟨fun _ => hs h, fun _ h2 => absurd rfl h2⟩).mono ?_
  · intro i hi j hj k hk
    obtain rfl : j = 0 := by have : (rcfft2d nx ny ip J).ny = 1 := rfl; omega
    have := hG i hi k hk
    unfold raddr
    rw [show (rcfft2d nx ny ip J).ny = 1 from rfl, Nat.mul_one, Nat.add_zero]
    exact this
  · rintro _ m' ⟨_, e, _⟩ i hi j hj
    have := e i hi 0 Nat.one_pos j (Nat.lt_succ_of_le hj)
    unfold caddr at this
    rw [show (rcfft2d nx ny ip J).ny = 1 from rfl, Nat.mul_one, Nat.add_zero, Nat.add_zero] at this
    refine this.trans ?_
    cases s
    · exact rdft3_two nx ny 0 _ i j
    · exact rdft3_two nx ny (nx / 2) _ i j

/-! ## The overload for complex arrays -/

/-- **C60**, refuted for one of the overloads: `Backward.fftNormalized(g,(Complex *) f)`, out of place, with an odd number of values, does not
divide the last one (the comments of the classes describe the output as real values "stored as a Complex array"). -/
theorem C60_complexOverload_refuted (h : Pair r c) (hip : c.inplace = false) (hodd : c.nx * c.ny * c.nz % 2 = 1) (a : c.Arrays f g m) {F : ℕ → ℕ → ℕ → ℂ}
    (hF : HermSpec3 c.nx c.ny c.nz F) (hS : c.SpecAt F g m) :
    (c.crfftNormalizedC g (some f) false).Ok m fun _ m' =>
      m'.dbl1 (c.raddr f (c.nx - 1) (c.ny - 1) (c.nz - 1)) = (irdft3 c.nx c.ny c.nz 0 0 F (c.nx - 1) (c.ny - 1) (c.nz - 1)).re := by
  obtain ⟨b1, b2, b3, b4, b5, b6⟩ := h.backFacts
  have v := h.validC
  have hrd : c.rdist = c.nz := by unfold rdist; rw [if_neg (by simp [hip])]
  have hdd : c.doubles = c.nx * c.ny * c.nz := by
    rw [b6, ← b1, ← b2, ← hrd]; unfold rdist nzp; rw [b3, b4]
  unfold crfftNormalizedC
  rw [setout_ok (dst := f) ((a.ne v).trans eq_comm) (Or.inl rfl)]
  refine Cmd.Ok.bind ((executeC_ok v a hF hS (s := false) (fun h => absurd h (by simp))).mono ?_)
  rintro _ m1 ⟨s1, e1, _⟩
  unfold normalizeC
  have hb := (a.of_size s1).re
  rw [hrd] at hb
  refine (normalize_ok (n := 2 * (c.doubles / 2)) fun i hi => hb i (by rw [hdd] at hi; omega)).mono ?_
  rintro _ m' ⟨_, _, f2⟩
  have hi : c.nx - 1 < c.nx := by have := v.hx; omega
  have hj : c.ny - 1 < c.ny := by have := v.hy; omega
  have hk : c.nz - 1 < c.nz := by have := v.hz; omega
  have e := e1 _ hi _ hj _ hk
  refine Eq.trans ?_ (e.trans rfl)
  unfold Mem.dbl1
  rw [f2]
  intro x hx hh
  have hh := Ptr.add_inj.1 hh
  rw [hrd] at hh
  have h1 : (c.nx - 1) * c.ny + (c.ny - 1) + 1 = c.nx * c.ny := by
    obtain ⟨t, ht⟩ : ∃ t, c.nx = t + 1 := ⟨c.nx - 1, by omega⟩
    rw [ht, Nat.add_sub_cancel, Nat.add_mul]
    have := v.hy
    omega
  have h2 : ((c.nx - 1) * c.ny + (c.ny - 1)) * c.nz + (c.nz - 1) + 1 = c.nx * c.ny * c.nz := by
    rw [← h1, Nat.add_mul _ 1]
    have := v.hz
    omega
  rw [hdd] at hx
  omega

/-! ## The hypotheses are met -/

/-- Two arrays of 64 doubles. -/
noncomputable def exMem : Mem := ⟨fun _ => 64, fun p => (p.off : ℂ)⟩

theorem exArrays (o : RFft) (ip : o.inplace = false) (h1 : o.nx * o.ny * o.rdist ≤ 64) (h2 : o.nx * o.ny * o.nzp * 2 ≤ 64) : o.Arrays ⟨0, 0⟩ ⟨1, 0⟩ exMem where
  re := fun i hi => by refine ⟨?_, ?_⟩ <;> simp [exMem]; omega
  cx := fun i hi => by refine ⟨?_, ?_⟩ <;> simp [exMem]; omega
  same := fun h => by rw [ip] at h; exact absurd h (by simp)
  disj := fun _ a _ b _ h => by rw [Ptr.ext_iff] at h; exact absurd h.1 (by simp)

theorem exArraysIn (o : RFft) (ip : o.inplace = true) (h2 : o.nx * o.ny * o.nzp * 2 ≤ 64) : o.Arrays ⟨0, 0⟩ ⟨0, 0⟩ exMem where
  re := fun i hi => by
    have : o.nx * o.ny * o.rdist = o.nx * o.ny * o.nzp * 2 := by unfold rdist; rw [if_pos ip]; ring
    refine ⟨?_, ?_⟩ <;> simp [exMem]; omega
  cx := fun i hi => by refine ⟨?_, ?_⟩ <;> simp [exMem]; omega
  same := fun _ => rfl
  disj := fun h => by rw [ip] at h; exact absurd h (by simp)

/-- A shifted round trip of a 4×2×3 array, out of place; of a 4×3 array in place, with the default argument; and of 5 values. -/
example (J J' : Mem → Ptr → ℂ) :
    (∃ m', ((rcfft3d 4 2 3 false J).rcfft ⟨0, 0⟩ (some ⟨1, 0⟩) true >>= fun _ => (crfft3d 4 2 3 false J').backNorm ⟨1, 0⟩ ⟨0, 0⟩ true true) exMem = .ok ((), m') ∧
      m'.dbl1 ⟨0, 7⟩ = 7) ∧
    (∃ m', ((rcfft2d 4 3 true J).rcfft ⟨0, 0⟩ (some ⟨0, 0⟩) true >>= fun _ => (crfft2d 4 3 true J').backNorm ⟨0, 0⟩ ⟨0, 0⟩ false true) exMem = .ok ((), m') ∧
      m'.dbl1 ⟨0, 6⟩ = 6) ∧
    (∃ m', ((rcfft1d 5 false J).rcfft ⟨0, 0⟩ (some ⟨1, 0⟩) false >>= fun _ => (crfft1d 5 false J').backNorm ⟨1, 0⟩ ⟨0, 0⟩ true false) exMem = .ok ((), m') ∧
      m'.dbl1 ⟨0, 4⟩ = 4) := by
  refine ⟨?_, ?_, ?_⟩
  · obtain ⟨_, m', e, _, hv, _⟩ := C60_roundtrip (c := crfft3d 4 2 3 false J') (.three (by omega) (by omega) (by omega))
      (exArrays (rcfft3d 4 2 3 false J) rfl (show 4 * 2 * 3 ≤ 64 by decide) (by simp [rcfft1d, rcfft2d, rcfft3d, crfft2d, nzp])) (G := fun i j k => exMem.dbl1 ((rcfft3d 4 2 3 false J).raddr ⟨0, 0⟩ i j k)) (fun _ _ _ _ _ _ => rfl)
      (s := true) (fun _ => ⟨fun _ => (show 4 % 2 = 0 by decide), fun _ _ => (show 2 % 2 = 0 by decide)⟩) (byPointer := true) (Or.inl rfl)
    refine ⟨m', e, ?_⟩
    refine (hv 1 (show 1 < 4 by decide) 0 (show 0 < 2 by decide) 1 (show 1 < 3 by decide)).trans (Eq.trans (show _ = exMem.dbl1 ⟨0, 7⟩ from rfl) ?_)
    simp [exMem, Mem.dbl1]
  · obtain ⟨_, m', e, _, hv, _⟩ := C60_roundtrip (c := crfft2d 4 3 true J') (.two (by omega) (by omega))
      (exArraysIn (rcfft2d 4 3 true J) rfl (by simp [rcfft1d, rcfft2d, rcfft3d, crfft2d, nzp])) (G := fun i j k => exMem.dbl1 ((rcfft2d 4 3 true J).raddr ⟨0, 0⟩ i j k)) (fun _ _ _ _ _ _ => rfl)
      (s := true) (fun _ => ⟨fun _ => (show 4 % 2 = 0 by decide), fun _ h => absurd rfl h⟩) (byPointer := false) (Or.inr rfl)
    refine ⟨m', e, ?_⟩
    have hr : (rcfft2d 4 3 true J).raddr ⟨0, 0⟩ 1 0 2 = ⟨0, 6⟩ := by ext <;> simp [raddr, rcfft2d, rdist, nzp]
    have := hv 1 (show 1 < 4 by decide) 0 (show 0 < 1 by decide) 2 (show 2 < 3 by decide)
    beta_reduce at this
    rw [hr] at this
    rw [this]
    simp [exMem, Mem.dbl1]
  · obtain ⟨_, m', e, _, hv, _⟩ := C60_roundtrip (c := crfft1d 5 false J') (.one (by omega))
      (exArrays (rcfft1d 5 false J) rfl (show 1 * 1 * 5 ≤ 64 by decide) (by simp [rcfft1d, rcfft2d, rcfft3d, crfft2d, nzp])) (G := fun i j k => exMem.dbl1 ((rcfft1d 5 false J).raddr ⟨0, 0⟩ i j k)) (fun _ _ _ _ _ _ => rfl)
      (s := false) (fun h => absurd h (by simp)) (byPointer := true) (Or.inl rfl)
    refine ⟨m', e, ?_⟩
    refine (hv 0 (show 0 < 1 by decide) 0 (show 0 < 1 by decide) 4 (show 4 < 5 by decide)).trans (Eq.trans (show _ = exMem.dbl1 ⟨0, 4⟩ from rfl) ?_)
    simp [exMem, Mem.dbl1]

/-- A Hermitian spectrum, for `C60_backward`, `C60_deNyquist` and `C60_complexOverload_refuted`: all ones. -/
example (J J' : Mem → Ptr → ℂ) : ∃ (F : ℕ → ℕ → ℕ → ℂ) (m : Mem), Pair (rcfft2d 3 5 false J) (crfft2d 3 5 false J') ∧
    (crfft2d 3 5 false J').Arrays ⟨0, 0⟩ ⟨1, 0⟩ m ∧ HermSpec3 3 1 5 F ∧ (crfft2d 3 5 false J').SpecAt F ⟨1, 0⟩ m ∧ (3 * 1 * 5) % 2 = 1 ∧ F 2 0 1 ≠ 0 := by
  refine ⟨fun _ _ _ => 1, ⟨fun _ => 64, fun p => if p.off % 2 = 0 then 1 else 0⟩, .two (by omega) (by omega), ?_, ?_, ?_, rfl, one_ne_zero⟩
  · have a := exArrays (crfft2d 3 5 false J') rfl (show 3 * 1 * 5 ≤ 64 by decide) (by simp [rcfft1d, rcfft2d, rcfft3d, crfft2d, nzp])
    exact ⟨a.re, a.cx, a.same, a.disj⟩
  · intro _ _ _ _ _ _; simp
  · intro i hi j hj k hk
    refine Complex.ext ?_ ?_
    · simp [Mem.cplx, Mem.dbl1, caddr]
    · have : ((((i * (crfft2d 3 5 false J').ny + j) * (crfft2d 3 5 false J').nzp + k) * 2 : ℕ) + 1 : ℤ) % 2 = 1 := by omega
      simp only [Mem.cplx, Mem.dbl1, caddr, Ptr.add_off]
      push_cast at this ⊢
      simp [this]

end RFft
end Fftwpp
