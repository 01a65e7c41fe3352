import Verif.Proof.RBatch
import Verif.Props.Rcfft

/-!
# C61: batched Fourier transforms of real data

`mrcfft1d`, `mcrfft1d` (fftw++.h).  A word is a `double`.  Real value `k` of vector `v` is at `f + v*rd + k*rs`, complex value `k` of spectrum `v` is at
`g + 2*(v*cd + k*cs)` (its imaginary part in the next word).
-/

namespace Fftwpp
namespace RBatch

/-- The vectors `v < M` at `f` are `G v`. -/
def Reals (nx M rs rd : ℕ) (G : ℕ → ℕ → ℝ) (f : Ptr) (m : Mem) : Prop := ∀ v < M, ∀ k < nx, m.dbl1 (f + (v * rd + k * rs : ℕ)) = G v k
/-- The half spectra `v < M` at `g` are those of `F v`. -/
def Specs (nx M cs cd : ℕ) (F : ℕ → ℕ → ℂ) (g : Ptr) (m : Mem) : Prop := ∀ v < M, ∀ k < nx / 2 + 1, m.cplx (g + ((v * cd + k * cs) * 2 : ℕ)) = F v k
/-- The words of the real vectors. -/
def RWord (nx M rs rd : ℕ) (f p : Ptr) : Prop := ∃ v < M, ∃ k < nx, p = f + (v * rd + k * rs : ℕ)
/-- The words of the spectra. -/
def CWord (nx M cs cd : ℕ) (g p : Ptr) : Prop := ∃ v < M, ∃ k < nx / 2 + 1, ∃ c < 2, p = g + ((v * cd + k * cs) * 2 + c : ℕ)

/-- The arrays: strides and distances are positive, all words are in bounds, different elements of an array are different words, and the arrays are the same
pointer in place and disjoint otherwise. -/
structure Layout (nx M rs cs rd cd : ℕ) (ip : Bool) (f g : Ptr) (m : Mem) : Prop where
  nx0 : 0 < nx
  M0 : 0 < M
  rs0 : 0 < rs
  cs0 : 0 < cs
  rd0 : 0 < rd
  cd0 : 0 < cd
  re : ∀ p, RWord nx M rs rd f p → m.valid p
  cx : ∀ p, CWord nx M cs cd g p → m.valid p
  dr : ∀ v < M, ∀ k < nx, ∀ v' < M, ∀ k' < nx, v * rd + k * rs = v' * rd + k' * rs → v = v' ∧ k = k'
  dc : ∀ v < M, ∀ k < nx / 2 + 1, ∀ v' < M, ∀ k' < nx / 2 + 1, v * cd + k * cs = v' * cd + k' * cs → v = v' ∧ k = k'
  same : ip = true → f = g
  disj : ip = false → ∀ p, ¬ (RWord nx M rs rd f p ∧ CWord nx M cs cd g p)

/-- The number of threads among which `Mrcfft1d` splits its batch: fftw++.h:605-641 `init` splits it only if its test succeeds.  In place, the test is not
enough (`C61_inplace_split_refuted`): the distances must be the same in bytes. -/
def SplitR (nx rs cs rd cd : ℕ) (ip : Bool) (T : ℕ) : Prop :=
  0 < T ∧ (T = 1 ∨ (blockAllowed true false ip nx rs cs rd cd = true ∧ (ip = true → rd = 2 * cd)))
/-- The same for `Mcrfft1d`. -/
def SplitC (nx rs cs rd cd : ℕ) (ip : Bool) (T : ℕ) : Prop :=
  0 < T ∧ (T = 1 ∨ (blockAllowed false true ip nx cs rs cd rd = true ∧ (ip = true → rd = 2 * cd)))

variable {nx M rs cs rd cd T : ℕ} {ip : Bool} {J : Mem → Ptr → ℂ} {f g : Ptr} {m : Mem} {order : List ℕ}

theorem splitC_iff : SplitC nx rs cs rd cd ip T ↔ SplitR nx rs cs rd cd ip T := by
  unfold SplitC SplitR blockAllowed
  cases ip <;> simp <;> tauto

theorem forward_eq (L : Layout nx M rs cs rd cd ip f g m) : forward nx M rs cs rd cd ip T J = ⟨nx, M, rs, cs, rd, cd, ip, T, J⟩ := by
  have h1 := L.rd0
  have h2 := L.cd0
  unfold forward Dist
  rw [if_pos (by omega), if_pos (by omega)]

theorem backward_eq (L : Layout nx M rs cs rd cd ip f g m) : backward nx M cs rs cd rd ip T J = ⟨nx, M, rs, cs, rd, cd, ip, T, J⟩ := by
  have h1 := L.rd0
  have h2 := L.cd0
  unfold backward Dist
  rw [if_pos (by omega), if_pos (by omega)]

/-- An object with the given layout. -/
abbrev obj (nx M rs cs rd cd : ℕ) (ip : Bool) (T : ℕ) (J : Mem → Ptr → ℂ) : RBatch := ⟨nx, M, rs, cs, rd, cd, ip, T, J⟩

theorem rword_iff {p : Ptr} : RWord nx M rs rd f p ↔ ∃ v < M, (obj nx M rs cs rd cd ip T J).IsR f v p := Iff.rfl

theorem cword_iff {p : Ptr} : CWord nx M cs cd g p ↔ ∃ v < M, (obj nx M rs cs rd cd ip T J).IsC g v p :=
  ⟨fun ⟨v, hv, k, hk, c, hc, e⟩ => ⟨v, hv, (k, c), hk, hc, e⟩, fun ⟨v, hv, x, hk, hc, e⟩ => ⟨v, hv, x.1, hk, x.2, hc, e⟩⟩

theorem Layout.inBounds (L : Layout nx M rs cs rd cd ip f g m) : (obj nx M rs cs rd cd ip T J).InBounds f g m :=
  fun v hv => ⟨fun k hk => L.re _ ⟨v, hv, k, hk, rfl⟩, fun k hk c hc => L.cx _ ⟨v, hv, k, hk, c, hc, rfl⟩⟩

theorem Layout.of_size {m' : Mem} (L : Layout nx M rs cs rd cd ip f g m) (s : m'.size = m.size) : Layout nx M rs cs rd cd ip f g m' :=
  { L with re := fun p hp => Mem.valid_of_size s (L.re p hp), cx := fun p hp => Mem.valid_of_size s (L.cx p hp) }

theorem Layout.ne (L : Layout nx M rs cs rd cd ip f g m) : (ip = true) ↔ f = g := by
  refine ⟨L.same, fun e => ?_⟩
  by_contra hp
  have h0 := L.M0
  have h1 := L.nx0
  refine L.disj (by simpa using hp) f ⟨⟨0, h0, 0, h1, ?_⟩, ⟨0, h0, 0, by omega, 0, by omega, ?_⟩⟩
  · simp [Ptr.add_zero]
  · rw [e]; simp [Ptr.add_zero]

/-- In a batch that is split, no word belongs to two transforms. -/
theorem Layout.indep (L : Layout nx M rs cs rd cd ip f g m) (h : SplitR nx rs cs rd cd ip T) : T = 1 ∨ (obj nx M rs cs rd cd ip T J).Indep f g := by
  refine h.2.imp_right fun ⟨ha, hd⟩ => ?_
  intro v hv v' hv' hne p hr hc
  by_cases hip : ip = true
  · have hd' := hd hip
    obtain rfl := L.same hip
    obtain ⟨k, hk, e1⟩ := hr
    obtain ⟨⟨k', c⟩, hk', hc', e2⟩ := hc
    have e := Ptr.add_inj.1 (e1.symm.trans e2)
    simp only at e hk hk' hc'
    have hk'' : k' < nx / 2 + 1 := hk'
    unfold blockAllowed at ha
    simp [hip] at ha
    obtain ⟨h1, h2⟩ := ha
    have b1 : k * rs + rs ≤ nx * rs := by rw [← Nat.succ_mul]; exact Nat.mul_le_mul_right _ hk
    have b2 : k' * cs + cs ≤ (nx / 2 + 1) * cs := by rw [← Nat.succ_mul]; exact Nat.mul_le_mul_right _ hk''
    have c1 : (nx / 2 + 1) * cs = cs * (nx / 2 + 1) := Nat.mul_comm _ _
    have c2 : nx * rs = rs * nx := Nat.mul_comm _ _
    have r0 := L.rs0
    have s0 := L.cs0
    have hk1 : k * rs < rd := by omega
    have hk2 : (k' * cs) * 2 + c < rd := by omega
    have e3 : v * rd + k * rs = v' * rd + ((k' * cs) * 2 + c) := by rw [e, hd']; ring
    exact hne (RFft.at_inj hk1 hk2 e3).1
  · exact L.disj (by simpa using hip) p ⟨⟨v, hv, hr⟩, cword_iff.2 ⟨v', hv', hc⟩⟩

theorem setout_ok {o : RBatch} {inp dst : Ptr} {out : Option Ptr} (h : (o.inplace = true) ↔ inp = dst) (ho : out = some dst ∨ (o.inplace = true ∧ out = none))
    (k : Ptr → Cmd Unit) : o.setout inp out k = k dst := by
  unfold setout
  rcases ho with rfl | ⟨h1, rfl⟩
  · rw [Option.getD_some, if_pos h]
  · rw [Option.getD_none, if_pos (iff_of_true h1 rfl), h.1 h1]

/-! ## One contiguous transform -/

theorem single_iff : (obj nx M rs cs rd cd ip T J).single = true ↔ M = 1 ∧ rs = 1 ∧ cs = 1 := by
  unfold single
  simp [and_assoc]

theorem caddr_single {a : ℕ} : g + a = g + ((0 * cd + (a / 2) * 1) * 2 + a % 2 : ℕ) := by
  congr 1; omega

theorem cword_single {p : Ptr} : CWord nx 1 1 cd g p ↔ ∃ a < 1 * 1 * (nx / 2 + 1) * 2, p = g + (a : ℕ) := by
  constructor
  · rintro ⟨v, hv, k, hk, c, hc, rfl⟩
    obtain rfl : v = 0 := by omega
    exact ⟨k * 2 + c, by omega, by congr 1; ring⟩
  · rintro ⟨a, ha, rfl⟩
    exact ⟨0, by omega, a / 2, by omega, a % 2, by omega, caddr_single⟩

theorem rword_single {p : Ptr} : RWord nx 1 1 rd f p ↔ ∃ a < nx, p = f + (a : ℕ) := by
  constructor
  · rintro ⟨v, hv, k, hk, rfl⟩
    obtain rfl : v = 0 := by omega
    exact ⟨k, hk, by congr 1; ring⟩
  · rintro ⟨a, ha, rfl⟩
    exact ⟨0, by omega, a, ha, by congr 1; ring⟩

theorem Layout.arrays (L : Layout nx 1 1 1 rd cd ip f g m) : (RFft.rcfft1d nx ip J).Arrays f g m := by
  have hc : ∀ a < 1 * 1 * (nx / 2 + 1) * 2, m.valid (g + (a : ℕ)) := fun a ha => L.cx _ (cword_single.2 ⟨a, ha, rfl⟩)
  refine ⟨?_, hc, L.same, ?_⟩
  · intro a ha
    by_cases hip : ip = true
    · rw [L.same hip]
      refine hc a ?_
      simp [RFft.rcfft1d, RFft.rdist, RFft.nzp, hip] at ha
      omega
    · refine L.re _ (rword_single.2 ⟨a, ?_, rfl⟩)
      simpa [RFft.rcfft1d, RFft.rdist, RFft.nzp, hip] using ha
  · intro hip a ha b hb e
    have hip' : ip = false := hip
    refine L.disj hip' (f + (a : ℕ)) ⟨rword_single.2 ⟨a, ?_, rfl⟩, cword_single.2 ⟨b, hb, e⟩⟩
    simpa [RFft.rcfft1d, RFft.rdist, RFft.nzp, hip'] using ha

theorem Layout.arraysC (L : Layout nx 1 1 1 rd cd ip f g m) : (RFft.crfft1d nx ip J).Arrays f g m :=
  let a := L.arrays (J := J)
  ⟨a.re, a.cx, a.same, a.disj⟩

theorem reals_single {G : ℕ → ℕ → ℝ} (h : Reals nx 1 1 rd G f m) : (RFft.rcfft1d nx ip J).RealAt (fun _ _ k => G 0 k) f m := by
  intro i hi j hj k hk
  have hi' : i < 1 := hi
  have hj' : j < 1 := hj
  obtain rfl : i = 0 := by omega
  obtain rfl : j = 0 := by omega
  refine Eq.trans ?_ (h 0 (by omega) k hk)
  congr 2
  unfold RFft.raddr
  congr 1
  show (0 * 1 + 0) * _ + k = _
  ring

theorem single_reals {G : ℕ → ℕ → ℝ} {K : ℕ → ℕ → ℕ → ℝ} (h : (RFft.rcfft1d nx ip J).RealAt K f m) (e : ∀ k < nx, K 0 0 k = G 0 k) : Reals nx 1 1 rd G f m := by
  intro v hv k hk
  obtain rfl : v = 0 := by omega
  rw [← e k hk, ← h 0 (show 0 < 1 by omega) 0 (show 0 < 1 by omega) k hk]
  congr 2
  show _ = (0 * 1 + 0) * _ + k
  ring

theorem single_specs {F : ℕ → ℕ → ℂ} {K : ℕ → ℕ → ℕ → ℂ} (h : (RFft.rcfft1d nx ip J).SpecAt K g m) (e : ∀ k, K 0 0 k = F 0 k) : Specs nx 1 1 cd F g m := by
  intro v hv k hk
  obtain rfl : v = 0 := by omega
  rw [← e k, ← h 0 (show 0 < 1 by omega) 0 (show 0 < 1 by omega) k hk]
  congr 2
  show _ = ((0 * 1 + 0) * _ + k) * 2 + 0
  ring

theorem specs_single {F : ℕ → ℕ → ℂ} (h : Specs nx 1 1 cd F g m) : (RFft.crfft1d nx ip J).SpecAt (fun _ _ k => F 0 k) g m := by
  intro i hi j hj k hk
  have hi' : i < 1 := hi
  have hj' : j < 1 := hj
  obtain rfl : i = 0 := by omega
  obtain rfl : j = 0 := by omega
  refine Eq.trans ?_ (h 0 (by omega) k hk)
  congr 2
  unfold RFft.caddr
  congr 1
  show ((0 * 1 + 0) * _ + k) * 2 + 0 = _
  ring

/-! ## The theorems -/

/-- **C61**, `fft(in,out)` of `mrcfft1d`: for every length, number of vectors, strides and distances, in place or not, every number of threads and order in which
they execute: every half spectrum is that of its vector, and nothing else is written. -/
theorem C61_forward (L : Layout nx M rs cs rd cd ip f g m) (hT : SplitR nx rs cs rd cd ip T) (ho : order.Perm (List.range T)) {G : ℕ → ℕ → ℝ}
    (hG : Reals nx M rs rd G f m) {out : Option Ptr} (hout : out = some g ∨ (ip = true ∧ out = none)) :
    ((forward nx M rs cs rd cd ip T J).rcfft order f out).Ok m fun _ m' => m'.size = m.size ∧
      Specs nx M cs cd (fun v => rdft1 nx (G v)) g m' ∧ ∀ p, ¬ CWord nx M cs cd g p → m'.val p = m.val p := by
  rw [forward_eq L]
  unfold rcfft
  split_ifs with h1
  · obtain ⟨rfl, rfl, rfl⟩ := single_iff.1 h1
    refine (RFft.C60_forward (RFft.Pair.one (J' := J) L.nx0) (L.arrays (J := J)) (reals_single hG) hout (s := false) (by simp)).mono ?_
    rintro _ m' ⟨s, e, fr⟩
    refine ⟨s, single_specs e fun k => ?_, fun p hp => fr p (by simp) fun a ha e => hp (cword_single.2 ⟨a, ha, e⟩)⟩
    rw [if_neg (by simp)]
    exact rdft3_one nx (G 0) k
  · rw [setout_ok L.ne hout]
    refine (executeR_ok hT.1 ho L.inBounds L.dc (L.indep hT) hG).mono ?_
    rintro _ m' ⟨s, e, fr⟩
    exact ⟨s, e, fun p hp => fr p fun v hv hc => hp (cword_iff.2 ⟨v, hv, hc⟩)⟩

/-- **C61**, `fftNormalized(in,out)` of `mrcfft1d`: the spectra divided by `nx`. -/
theorem C61_forwardNormalized (L : Layout nx M rs cs rd cd ip f g m) (hT : SplitR nx rs cs rd cd ip T) (ho : order.Perm (List.range T)) {G : ℕ → ℕ → ℝ}
    (hG : Reals nx M rs rd G f m) {out : Option Ptr} (hout : out = some g ∨ (ip = true ∧ out = none)) :
    ((forward nx M rs cs rd cd ip T J).rcfftNormalized order f out).Ok m fun _ m' => m'.size = m.size ∧
      Specs nx M cs cd (fun v k => rdft1 nx (G v) k / (nx : ℂ)) g m' := by
  rw [forward_eq L]
  unfold rcfftNormalized
  split_ifs with h1
  · obtain ⟨rfl, rfl, rfl⟩ := single_iff.1 h1
    refine (RFft.C60_forwardNormalized (RFft.Pair.one (J' := J) L.nx0) (L.arrays (J := J)) (reals_single hG) hout (s := false) (by simp)).mono ?_
    rintro _ m' ⟨s, e⟩
    refine ⟨s, single_specs e fun k => ?_⟩
    beta_reduce
    rw [if_neg (by simp)]
    show rdft3 1 1 nx 0 0 _ 0 0 k / ((1 * 1 * nx : ℕ) : ℂ) = _
    rw [rdft3_one nx (G 0) k]
    simp
  · rw [setout_ok L.ne hout]
    refine Cmd.Ok.bind ((executeR_ok hT.1 ho L.inBounds L.dc (L.indep hT) hG).mono ?_)
    rintro _ m1 ⟨s, e, _⟩
    refine (normalizeC_ok (o := obj nx M rs cs rd cd ip T J) L.cs0 L.cd0 (fun v hv => ((L.of_size s).inBounds v hv).2) L.dc).mono ?_
    rintro _ m' ⟨s', e', _⟩
    refine ⟨s'.trans s, fun v hv k hk => ?_⟩
    exact (e' v hv k hk).trans (congrArg (· / (nx : ℂ)) (e v hv k hk))

/-- **C61**, `fft(in,out)` of `mcrfft1d`: from the half spectra of any `F v` that have the symmetry of the spectra of real vectors, their transforms of sign `+1`,
which are real.  Nothing outside the two arrays is written (in place and `M=1`, the padding of the real vector is part of the spectrum). -/
theorem C61_backward (L : Layout nx M rs cs rd cd ip f g m) (hT : SplitC nx rs cs rd cd ip T) (ho : order.Perm (List.range T)) {F : ℕ → ℕ → ℂ}
    (hF : ∀ v < M, HermSpec1 nx (F v)) (hS : Specs nx M cs cd F g m) {out : Option Ptr} (hout : out = some f ∨ (ip = true ∧ out = none)) :
    ((backward nx M cs rs cd rd ip T J).crfft order g out).Ok m fun _ m' => m'.size = m.size ∧
      (∀ v < M, ∀ k < nx, ((m'.dbl1 (f + (v * rd + k * rs : ℕ)) : ℝ) : ℂ) = irdft1 nx (F v) k) ∧
      ∀ p, ¬ RWord nx M rs rd f p → ¬ CWord nx M cs cd g p → m'.val p = m.val p := by
  have im0 : ∀ v < M, ∀ k, (((irdft1 nx (F v) k).re : ℝ) : ℂ) = irdft1 nx (F v) k := fun v hv k =>
    Complex.ext (Complex.ofReal_re _) (by rw [irdft1_im (hF v hv), Complex.ofReal_im])
  rw [backward_eq L]
  unfold crfft
  split_ifs with h1
  · obtain ⟨rfl, rfl, rfl⟩ := single_iff.1 h1
    refine (RFft.C60_backward (RFft.Pair.one (J := J) L.nx0) (L.arraysC (J := J)) (F := fun _ _ k => F 0 k) (hermSpec3_one.2 (hF 0 (by omega))) (specs_single hS) hout
      (s := false) (by simp)).mono ?_
    rintro _ m' ⟨s, e, fr⟩
    refine ⟨s, fun v hv k hk => ?_, fun p hp hc => fr p ?_⟩
    · obtain rfl : v = 0 := by omega
      have := e 0 (show 0 < 1 by omega) 0 (show 0 < 1 by omega) k hk
      rw [if_neg (by simp)] at this
      refine Eq.trans ?_ (this.trans (irdft3_one nx (F 0) k))
      congr 3
      show _ = (0 * 1 + 0) * _ + k
      ring
    · rintro (⟨a, ha, e⟩ | ⟨a, ha, e⟩)
      · by_cases hip : ip = true
        · refine hc (cword_single.2 ⟨a, ?_, by rw [e, L.same hip]⟩)
          simp [RFft.crfft1d, RFft.rdist, RFft.nzp, hip] at ha
          omega
        · refine hp (rword_single.2 ⟨a, ?_, e⟩)
          simpa [RFft.crfft1d, RFft.rdist, RFft.nzp, hip] using ha
      · exact hc (cword_single.2 ⟨a, ha, e⟩)
  · rw [setout_ok (L.ne.trans eq_comm) hout]
    refine (executeC_ok hT.1 ho L.inBounds L.dr ((L.indep (splitC_iff.1 hT)).imp_right fun h => ⟨L.dc, h⟩) hF hS).mono ?_
    rintro _ m' ⟨s, e, fr⟩
    refine ⟨s, fun v hv k hk => ?_, fun p hp hc => fr p fun v hv h => ?_⟩
    · rw [← im0 v hv k]
      exact congrArg _ (e v hv k hk)
    · exact h.elim (fun h => hp ⟨v, hv, h⟩) fun h => hc (cword_iff.2 ⟨v, hv, h⟩)

/-- **C61**: `Forward.fft(f,g); Backward.fftNormalized(g,f)` and, in place, `Backward.fftNormalized(g)`, give back all vectors, and nothing else is changed
but the spectra. -/
theorem C61_roundtrip {T' : ℕ} {J' : Mem → Ptr → ℂ} {order' : List ℕ} (L : Layout nx M rs cs rd cd ip f g m) (hT : SplitR nx rs cs rd cd ip T)
    (ho : order.Perm (List.range T)) (hT' : SplitC nx rs cs rd cd ip T') (ho' : order'.Perm (List.range T')) {G : ℕ → ℕ → ℝ} (hG : Reals nx M rs rd G f m)
    {out : Option Ptr} (hout : out = some f ∨ (ip = true ∧ out = none)) :
    ((forward nx M rs cs rd cd ip T J).rcfft order f (some g) >>= fun _ => (backward nx M cs rs cd rd ip T' J').crfftNormalized order' g out).Ok m fun _ m' =>
      m'.size = m.size ∧ Reals nx M rs rd G f m' ∧ ∀ p, ¬ RWord nx M rs rd f p → ¬ CWord nx M cs cd g p → m'.val p = m.val p := by
  by_cases h1 : M = 1 ∧ rs = 1 ∧ cs = 1
  · obtain ⟨rfl, rfl, rfl⟩ := h1
    have h2 : ∀ {T : ℕ} {J : Mem → Ptr → ℂ}, (obj nx 1 1 1 rd cd ip T J).single = true := single_iff.2 ⟨rfl, rfl, rfl⟩
    rw [forward_eq L, backward_eq L]
    unfold rcfft crfftNormalized
    rw [if_pos h2, if_pos h2]
    have key : ∀ b : Bool, b = true ∨ ip = true →
        ((RFft.rcfft1d nx ip J).rcfft f (some g) false >>= fun _ => (RFft.crfft1d nx ip J').backNorm g f b false).Ok m fun _ m' =>
        m'.size = m.size ∧ Reals nx 1 1 rd G f m' ∧ ∀ p, ¬ RWord nx 1 1 rd f p → ¬ CWord nx 1 1 cd g p → m'.val p = m.val p := by
      intro b hb
      refine (RFft.C60_roundtrip (RFft.Pair.one (J := J) (J' := J') L.nx0) (L.arrays (J := J)) (reals_single hG) (s := false) (by simp) hb).mono ?_
      rintro _ m' ⟨s, e, fr⟩
      refine ⟨s, single_reals e fun k _ => rfl, fun p hp hc => fr p ?_⟩
      rintro (⟨a, ha, e⟩ | ⟨a, ha, e⟩)
      · by_cases hip : ip = true
        · refine hc (cword_single.2 ⟨a, ?_, by rw [e, L.same hip]⟩)
          simp [RFft.rcfft1d, RFft.rdist, RFft.nzp, hip] at ha
          omega
        · refine hp (rword_single.2 ⟨a, ?_, e⟩)
          simpa [RFft.rcfft1d, RFft.rdist, RFft.nzp, hip] using ha
      · exact hc (cword_single.2 ⟨a, ha, e⟩)
    rcases hout with rfl | ⟨hip, rfl⟩
    · exact key true (Or.inl rfl)
    · exact key false (Or.inr hip)
  · refine Cmd.Ok.bind ((C61_forward L hT ho hG (Or.inl rfl)).mono ?_)
    rintro _ m1 ⟨s1, e1, f1⟩
    have L1 := L.of_size s1
    rw [backward_eq L]
    unfold crfftNormalized
    rw [if_neg (fun h => h1 (single_iff.1 h)), setout_ok (L.ne.trans eq_comm) hout]
    refine Cmd.Ok.bind ((executeC_ok hT'.1 ho' L1.inBounds L.dr ((L.indep (splitC_iff.1 hT')).imp_right fun h => ⟨L.dc, h⟩)
      (F := fun v => rdft1 nx (G v)) (fun v _ => rdft1_herm nx (G v)) e1).mono ?_)
    rintro _ m2 ⟨s2, e2, f2⟩
    refine (normalizeD_ok (o := obj nx M rs cs rd cd ip T' J') L.rs0 L.rd0 (fun v hv => ((L1.of_size s2).inBounds v hv).1) L.dr).mono ?_
    rintro _ m' ⟨s3, e3, f3⟩
    refine ⟨s3.trans (s2.trans s1), fun v hv k hk => ?_, fun p hp hc => ?_⟩
    · refine (e3 v hv k hk).trans ?_
      have := e2 v hv k hk
      show m2.dbl1 (f + (v * rd + k * rs : ℕ)) / (nx : ℝ) = _
      rw [this]
      exact roundtrip_real1 L.nx0 (G v) hk
    · rw [f3 p fun v hv h => hp ⟨v, hv, h⟩, f2 p fun v hv h => h.elim (fun h => hp ⟨v, hv, h⟩) fun h => hc (cword_iff.2 ⟨v, hv, h⟩)]
      exact f1 p hc

/-- **C61**: a call of `mrcfft1d` or `mcrfft1d` that is in place exits if the object was constructed out of place, and conversely. -/
theorem C61_exit (o : RBatch) (inp : Ptr) (out : Option Ptr) (m : Mem) (h : ¬((o.inplace = true) ↔ inp = out.getD inp)) :
    o.rcfft order inp out m = .error .exit ∧ o.crfft order inp out m = .error .exit := by
  have h' : ¬(((RFft.rcfft1d o.nx o.inplace o.junk).inplace = true) ↔ inp = out.getD inp) := h
  constructor
  · unfold rcfft setout
    split_ifs
    · exact ((RFft.C60_exit _ inp out false m).2 h').1
    · rfl
  · unfold crfft setout
    split_ifs
    · exact ((RFft.C60_exit (RFft.crfft1d o.nx o.inplace o.junk) inp out false m).2 h).2
    · rfl

/-- **C61**: constructed without arrays, both classes plan on an array that has room for all vectors and spectra, if the distances are given (not 0). -/
theorem C61_scratch (hn : 0 < nx) (hr : 0 < rd) (hc : 0 < cd) :
    (∀ v < M, ∀ k < nx, v * rd + k * rs < scratchR nx M rs cs rd cd ∧ v * rd + k * rs < scratchC nx M cs rs cd rd) ∧
    ∀ v < M, ∀ k < nx / 2 + 1, ∀ c < 2, (v * cd + k * cs) * 2 + c < scratchR nx M rs cs rd cd ∧ (v * cd + k * cs) * 2 + c < scratchC nx M cs rs cd rd := by
  have hs : scratchC nx M cs rs cd rd = scratchR nx M rs cs rd cd := by
    unfold scratchR scratchC doubles; simp
  have hsize : max ((2 * (nx / 2)) * rs + (M - 1) * rd + 2) (2 * (nx / 2 * cs + (M - 1) * cd + 1)) ≤ scratchR nx M rs cs rd cd := by
    unfold scratchR doubles RFft.realsize
    simp only [if_true]
    rw [show 2 * (nx / 2 + 1) - 2 = 2 * (nx / 2) by omega]
    omega
  rw [hs]
  constructor
  · intro v hv k hk
    have h1 : v * rd ≤ (M - 1) * rd := Nat.mul_le_mul_right _ (by omega)
    have h2 : k * rs ≤ (2 * (nx / 2)) * rs := Nat.mul_le_mul_right _ (by omega)
    have h3 := le_max_left ((2 * (nx / 2)) * rs + (M - 1) * rd + 2) (2 * (nx / 2 * cs + (M - 1) * cd + 1))
    omega
  · intro v hv k hk c hc
    have h1 : v * cd ≤ (M - 1) * cd := Nat.mul_le_mul_right _ (by omega)
    have h2 : k * cs ≤ (nx / 2) * cs := Nat.mul_le_mul_right _ (by omega)
    have h3 := le_max_right ((2 * (nx / 2)) * rs + (M - 1) * rd + 2) (2 * (nx / 2 * cs + (M - 1) * cd + 1))
    omega

/-- With the distances 0, for which the plan uses defaults, the array is too small: `Doubles` does not apply the defaults.  Here 2 contiguous transforms of
length 2: the plan writes the spectrum 1 beyond the 4 doubles of the array. -/
theorem C61_scratch_default_refuted (T : ℕ) (J : Mem → Ptr → ℂ) :
    scratchR 2 2 1 1 0 0 = 4 ∧ (forward 2 2 1 1 0 0 true T J).caddr ⟨0, 0⟩ 1 0 0 = (⟨0, 0⟩ : Ptr) + 4 := by
  constructor
  · rfl
  · rfl

/-- Memory with a 1 in word 4. -/
noncomputable def mem4 : Mem := ⟨fun _ => 14, fun p => if p.off = 4 then 1 else 0⟩

/-- `fftwblock::init` may split an in-place batch for which that is wrong: its test does not compare the distances.  Here 4 transforms of length 1 of vectors at
words 0, 2, 4, 6, with the spectra at words 0, 4, 8, 12 and 2 threads: the first thread overwrites the input of the second one. -/
theorem C61_inplace_split_refuted (J : Mem → Ptr → ℂ) :
    blockAllowed true false true 1 1 1 2 2 = true ∧ Layout 1 4 1 1 2 2 true ⟨0, 0⟩ ⟨0, 0⟩ mem4 ∧
    (((forward 1 4 1 1 2 2 true 1 J).rcfft [0] ⟨0, 0⟩ none).Ok mem4 fun _ m' => (m'.cplx (⟨0, 8⟩ : Ptr)) = 1) ∧
    ((forward 1 4 1 1 2 2 true 2 J).rcfft [0, 1] ⟨0, 0⟩ none).Ok mem4 fun _ m' => (m'.cplx (⟨0, 8⟩ : Ptr)) = 0 := by
  have val : ∀ i : ℕ, i < 14 → mem4.valid ((⟨0, 0⟩ : Ptr) + i) := by
    intro i hi
    constructor
    · show (0 : ℤ) ≤ 0 + i; omega
    · show (0 : ℤ) + i < (14 : ℕ); omega
  have L : Layout 1 4 1 1 2 2 true ⟨0, 0⟩ ⟨0, 0⟩ mem4 := by
    refine ⟨by decide, by decide, by decide, by decide, by decide, by decide, ?_, ?_, ?_, ?_, fun _ => rfl, by simp⟩
    · rintro p ⟨v, hv, k, hk, rfl⟩
      exact val _ (by omega)
    · rintro p ⟨v, hv, k, hk, c, hc, rfl⟩
      exact val _ (by omega)
    · intro v hv k hk v' hv' k' hk' e; omega
    · intro v hv k hk v' hv' k' hk' e; omega
  have r1 : ∀ (G : ℕ → ℝ), rdft1 1 G 0 = (G 0 : ℂ) := by intro G; unfold rdft1; simp [w_zero]
  have hG : Reals 1 4 1 2 (fun v _ => if v = 2 then 1 else 0) ⟨0, 0⟩ mem4 := by
    intro v hv k hk
    obtain rfl : k = 0 := by omega
    unfold Mem.dbl1 mem4
    have : ((⟨0, 0⟩ : Ptr) + (v * 2 + 0 * 1 : ℕ)).off = ((v * 2 + 0 * 1 : ℕ) : ℤ) := by rw [Ptr.add_off]; simp
    simp only [this]
    by_cases h : v = 2
    · subst h; simp
    · rw [if_neg (by omega), if_neg h]; simp
  refine ⟨by decide, L, ?_, ?_⟩
  · refine (C61_forward L (T := 1) ⟨by omega, Or.inl rfl⟩ (List.Perm.refl _) hG (Or.inr ⟨rfl, rfl⟩)).mono ?_
    rintro _ m' ⟨_, e, _⟩
    have := e 2 (by omega) 0 (by omega)
    beta_reduce at this
    rw [r1] at this
    refine Eq.trans ?_ (this.trans ?_)
    · rfl
    · simp
  · rw [forward_eq L]
    unfold rcfft
    rw [if_neg (by simp [single]), setout_ok L.ne (Or.inr ⟨rfl, rfl⟩)]
    unfold executeR
    rw [if_neg (show ¬ (2 : ℕ) = 1 by decide)]
    have c0 : blockCount 4 2 0 = 2 := by decide
    have c1 : blockCount 4 2 1 = 2 := by decide
    have b0 : blockStart 4 2 0 = 0 := by decide
    have b1 : blockStart 4 2 1 = 2 := by decide
    have n1 : (obj 1 2 1 1 2 2 true 2 J).nxp = 1 := by simp [nxp]
    have dc : (obj 1 2 1 1 2 2 true 2 J).DistinctC := by
      intro v _ k hk v' _ k' hk' e
      have hk1 : k < 1 := by rwa [n1] at hk
      have hk2 : k' < 1 := by rwa [n1] at hk'
      have e' : v * 2 + k * 1 = v' * 2 + k' * 1 := e
      omega
    have bnd : ∀ (a b : ℕ) (m1 : Mem), a ≤ 4 → b ≤ 8 → m1.size = mem4.size →
        (obj 1 2 1 1 2 2 true 2 J).InBounds ((⟨0, 0⟩ : Ptr) + a) ((⟨0, 0⟩ : Ptr) + b) m1 := by
      intro a b m1 ha hb s v hv
      have hv' : v < 2 := hv
      refine ⟨fun k hk => ?_, fun k hk c hc => ?_⟩
      · have hk' : k < 1 := hk
        unfold raddr
        rw [Ptr.add_add]
        exact Mem.valid_of_size s (val _ (by show a + (v * 2 + k * 1) < 14; omega))
      · have hk' : k < 1 := by rwa [n1] at hk
        unfold caddr
        rw [Ptr.add_add]
        exact Mem.valid_of_size s (val _ (by show b + ((v * 2 + k * 1) * 2 + c) < 14; omega))
    have r0 : rdft1 1 (fun _ => (0 : ℝ)) 0 = 0 := by unfold rdft1; simp
    obtain ⟨⟨⟩, m1, e1, s1, p1, f1⟩ := r2c_ok (o := obj 1 2 1 1 2 2 true 2 J) (bnd (0 * 2) (2 * (0 * 2)) mem4 (by omega) (by omega) rfl) dc (G := fun l _ => 0)
      (fun l hl k hk => by
        have hl' : l < 2 := hl
        have hk' : k < 1 := hk
        have := hG l (by omega) k hk
        beta_reduce at this
        rw [if_neg (by omega)] at this
        rw [Ptr.add_add, ← this]
        congr 2
        show 0 * 2 + (l * 2 + k * 1) = _
        omega)
    have z4 : m1.dbl1 ((⟨0, 0⟩ : Ptr) + 4) = 0 := by
      have h1 : m1.cplx ((⟨0, 0⟩ : Ptr) + 4) = _ := p1 1 (show 1 < 2 by decide) 0 (Nat.succ_pos _)
      exact congrArg Complex.re (h1.trans r0)
    have z6 : m1.dbl1 ((⟨0, 0⟩ : Ptr) + 6) = 0 := by
      unfold Mem.dbl1
      rw [f1]
      · have := hG 3 (by omega) 0 (by omega)
        beta_reduce at this
        rw [if_neg (by omega)] at this
        exact this
      · rintro v hv ⟨⟨k, c⟩, hk, hc, e⟩
        have hv' : v < 2 := hv
        have hk' : k < 1 := by rw [n1] at hk; exact hk
        have hc' : c < 2 := hc
        unfold caddr at e
        rw [Ptr.add_add] at e
        have e' : 6 = 2 * (0 * 2) + ((v * 2 + k * 1) * 2 + c) := Ptr.add_inj.1 e
        omega
    obtain ⟨⟨⟩, m2, e2, s2, p2, f2⟩ := r2c_ok (o := obj 1 2 1 1 2 2 true 2 J) (bnd (2 * 2) (2 * (2 * 2)) m1 (by omega) (by omega) s1) dc (G := fun l _ => 0)
      (fun l hl k hk => by
        have hl' : l < 2 := hl
        have hk' : k < 1 := hk
        obtain rfl : k = 0 := by omega
        have : l = 0 ∨ l = 1 := by omega
        rcases this with rfl | rfl
        · exact z4
        · exact z6)
    refine ⟨(), m2, ?_, ?_⟩
    · simp only [seqLoop, c0, c1, b0, b1]
      simp only [e1, e2]
    · have h1 : m2.cplx ((⟨0, 0⟩ : Ptr) + 8) = _ := p2 0 (show 0 < 2 by decide) 0 (Nat.succ_pos _)
      exact h1.trans r0

/-! ## Cases meeting the hypotheses -/

/-- Five vectors of 6 doubles, one after the other, in place with rows of 4 complex values, and three threads. -/
example : ∃ (f : Ptr) (m : Mem), Layout 6 5 1 1 8 4 true f f m ∧ SplitR 6 1 1 8 4 true 3 ∧ SplitC 6 1 1 8 4 true 3 := by
  refine ⟨⟨0, 0⟩, ⟨fun _ => 40, fun _ => 0⟩, ?_, ⟨by decide, Or.inr ⟨by decide, by decide⟩⟩, ⟨by decide, Or.inr ⟨by decide, by decide⟩⟩⟩
  have val : ∀ i : ℕ, i < 40 → (⟨fun _ => 40, fun _ => 0⟩ : Mem).valid ((⟨0, 0⟩ : Ptr) + i) := by
    intro i hi
    constructor
    · show (0 : ℤ) ≤ 0 + i; omega
    · show (0 : ℤ) + i < (40 : ℕ); omega
  refine ⟨by decide, by decide, by decide, by decide, by decide, by decide, ?_, ?_, ?_, ?_, fun _ => rfl, by simp⟩
  · rintro p ⟨v, hv, k, hk, rfl⟩
    exact val _ (by omega)
  · rintro p ⟨v, hv, k, hk, c, hc, rfl⟩
    exact val _ (by omega)
  · intro v hv k hk v' hv' k' hk' e; omega
  · intro v hv k hk v' hv' k' hk' e; omega

/-- Three interleaved vectors of 4 doubles, and out of place, spectra one after the other. -/
example : ∃ (f g : Ptr) (m : Mem), Layout 4 3 3 1 1 3 false f g m ∧ SplitR 4 3 1 1 3 false 2 := by
  refine ⟨⟨0, 0⟩, ⟨1, 0⟩, ⟨fun _ => 18, fun _ => 0⟩, ?_, ⟨by decide, Or.inr ⟨by decide, by decide⟩⟩⟩
  have val : ∀ b i : ℕ, i < 18 → (⟨fun _ => 18, fun _ => 0⟩ : Mem).valid ((⟨b, 0⟩ : Ptr) + i) := by
    intro b i hi
    constructor
    · show (0 : ℤ) ≤ 0 + i; omega
    · show (0 : ℤ) + i < (18 : ℕ); omega
  refine ⟨by decide, by decide, by decide, by decide, by decide, by decide, ?_, ?_, ?_, ?_, by simp, ?_⟩
  · rintro p ⟨v, hv, k, hk, rfl⟩
    exact val _ _ (by omega)
  · rintro p ⟨v, hv, k, hk, c, hc, rfl⟩
    exact val _ _ (by omega)
  · intro v hv k hk v' hv' k' hk' e; omega
  · intro v hv k hk v' hv' k' hk' e; omega
  · rintro _ p ⟨⟨v, hv, k, hk, e⟩, v', hv', k', hk', c, hc, e'⟩
    exact Ptr.ne_of_buf (by show (0 : ℕ) ≠ 1; decide) (e.symm.trans e')

end RBatch
end Fftwpp
