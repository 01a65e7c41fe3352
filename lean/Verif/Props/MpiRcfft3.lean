import Verif.Proof.MpiRcfft3c
import Verif.Props.MpiFft3

/-!
# C52: distributed three-dimensional Fourier transforms of real data

`rcfft3dMPI` (mpi/mpifftw++.h) on the processes of an `MPIgroup(comm,X,Y,allowPencil)` made from `N` processes, in slabs or in a grid of
pencils, as `MPIgroup` decides.  `dr = split3(X,Y,Z,group)` and `dc = split3(X,Y,Z/2+1,group)` on each process.  `HoldsReal3` and
`HoldsSpec3` (Proof/MpiRcfft3.lean) say how the real array (points with `x` and `y` in the ranges of the process, in rows `rdist3` doubles apart:
`Z`, or `2*(Z/2+1)` in place) and the half spectrum of `Z/2+1` planes (modes with `y` and `z` in the ranges of the process) are distributed.
`J` gives the values that FFTW leaves unspecified.
-/

namespace Fftwpp.Net
variable {X Y Z N : ℕ} {pencil : Bool} {ip : Bool} {xy yz : ℕ × ℕ} {re cx wxy wyz : ℕ → Loc} {J : (Loc → ℝ) → Loc → ℝ} {σ : ℕ → Local ℝ}

/-- The state in which a transform is started: arrays as required (`Rc3Bufs`), no pending request, no message in transit. -/
structure Rc3Env (X Y Z N : ℕ) (pencil ip : Bool) (re cx wxy wyz : ℕ → Loc) (σ : ℕ → Local ℝ) : Prop where
  bufs : Rc3Bufs (Mpi.groupSize2 X Y N pencil) (groupSplit3 X Y Z X Y N pencil) (groupSplit3 X Y (Z / 2 + 1) X Y N pencil) ip re cx wxy wyz fun r => (σ r).size
  req : ∀ r < Mpi.groupSize2 X Y N pencil, ∀ id, (σ r).req id = none
  bal : ∀ i < Mpi.groupSize2 X Y N pencil, ∀ j < Mpi.groupSize2 X Y N pencil, ∀ ctx, ((σ i).sent (j, ctx)).length = (σ j).rcvd (i, ctx)

/-- The grid of processes. -/
theorem rc3_grid (hX : 0 < X) (hY : 0 < Y) (hN : 0 < N) (Z : ℕ) (pencil : Bool) : ∃ Px Py, Mpi.groupSize2 X Y N pencil = Px * Py ∧
    Split33 X Y Z Px Py (groupSplit3 X Y Z X Y N pencil) (groupSplit3 X Y (Z / 2 + 1) X Y N pencil) ∧
    ∀ r < Px * Py, ∀ ip xy yz J, Rcfft3MPI.new X Y Z N pencil r ip xy yz J = gridRc3 X Y Z Px Py r ip xy yz J := by
  obtain ⟨Px, Py, hPx, hPy, hQ, hg, hnew⟩ := rc3_new (pencil := pencil) hX hY hN
  exact ⟨Px, Py, hQ, ⟨fun r hr => (hnew r hr).1 Z, fun r hr => (hnew r hr).1 _, hg, hPx, hPy⟩, fun r hr => (hnew r hr).2 Z⟩

/-- **C52**, `Forward`: for all dimensions, process counts, slabs or pencils, algorithms of the transposes, in place or not, every real array
`G` distributed in x and y, all orders of execution and all choices of the MPI library: every run is finite, and ends with every
process finished, no message in transit and the half spectrum of `G` distributed in y and z; nothing but the output array and the work
arrays was written. -/
theorem C52_forward (e : Eager) (hX : 0 < X) (hY : 0 < Y) (hN : 0 < N) (hxy : 1 ≤ xy.1) (hyz : 1 ≤ yz.1) {G : ℕ → ℕ → ℕ → ℝ}
    (he : Rc3Env X Y Z N pencil ip re cx wxy wyz σ)
    (hG : HoldsReal3 (Mpi.groupSize2 X Y N pencil) (groupSplit3 X Y Z X Y N pencil) (rdist3 Z ip) G re σ) :
    AllRuns e (start (Mpi.groupSize2 X Y N pencil)
        (fun r => (Rcfft3MPI.new X Y Z N pencil r ip xy yz J).forward (re r) (some (cx r)) (wxy r) (wyz r)) σ) fun f =>
      Finished (Mpi.groupSize2 X Y N pencil) f ∧
      HoldsSpec3 (Mpi.groupSize2 X Y N pencil) (groupSplit3 X Y (Z / 2 + 1) X Y N pencil) (rdft3 X Y Z 0 0 G) cx (fun r => (f r).loc) ∧
      (∀ r < Mpi.groupSize2 X Y N pencil, (f r).loc.size = (σ r).size) ∧
      FrameW (Mpi.groupSize2 X Y N pencil) (outW (groupSplit3 X Y (Z / 2 + 1) X Y N pencil) cx wxy wyz) σ fun r => (f r).loc := by
  obtain ⟨Px, Py, hQ, h, hnew⟩ := rc3_grid hX hY hN Z pencil
  obtain ⟨hb, hr, hbal⟩ := he
  rw [hQ] at hG hb hr hbal ⊢
  rw [start_congr fun r hr => by rw [hnew r hr]]
  obtain ⟨t, t1, t2, t3, t4, t5⟩ := rforward3_step (e := e) hX hY h hxy hyz hb (quiet_start hr hbal _).bindRet' hG
  exact allRuns t1 t2.fin.1 ⟨t2.fin.2, t4, fun r _ => t3 r, t5⟩

/-- **C52**, `Forward0`, for even `X` and `Y`: the Fourier origin is at `(X/2,Y/2,0)`.  The input is destroyed. -/
theorem C52_forward0 (e : Eager) (hX : 0 < X) (hY : 0 < Y) (h2 : X % 2 = 0) (h3 : Y % 2 = 0) (hN : 0 < N) (hxy : 1 ≤ xy.1) (hyz : 1 ≤ yz.1)
    {G : ℕ → ℕ → ℕ → ℝ} (he : Rc3Env X Y Z N pencil ip re cx wxy wyz σ)
    (hG : HoldsReal3 (Mpi.groupSize2 X Y N pencil) (groupSplit3 X Y Z X Y N pencil) (rdist3 Z ip) G re σ) :
    AllRuns e (start (Mpi.groupSize2 X Y N pencil)
        (fun r => (Rcfft3MPI.new X Y Z N pencil r ip xy yz J).forward0 (re r) (some (cx r)) (wxy r) (wyz r)) σ) fun f =>
      Finished (Mpi.groupSize2 X Y N pencil) f ∧
      HoldsSpec3 (Mpi.groupSize2 X Y N pencil) (groupSplit3 X Y (Z / 2 + 1) X Y N pencil) (rdft3 X Y Z (X / 2) (Y / 2) G) cx (fun r => (f r).loc) ∧
      (∀ r < Mpi.groupSize2 X Y N pencil, (f r).loc.size = (σ r).size) ∧
      FrameW (Mpi.groupSize2 X Y N pencil) (allW (groupSplit3 X Y Z X Y N pencil) (groupSplit3 X Y (Z / 2 + 1) X Y N pencil) ip re cx wxy wyz) σ
        fun r => (f r).loc := by
  obtain ⟨Px, Py, hQ, h, hnew⟩ := rc3_grid hX hY hN Z pencil
  obtain ⟨hb, hr, hbal⟩ := he
  rw [hQ] at hG hb hr hbal ⊢
  rw [start_congr fun r hr => by rw [hnew r hr]]
  obtain ⟨t, t1, t2, t3, t4, t5⟩ := rshift3_step (e := e) (re := re) (ip := ip) (xy := xy) (yz := yz) (J := J) h2 h3 h (G := G)
    (s := start (Px * Py) (fun r => (gridRc3 X Y Z Px Py r ip xy yz J).forward0 (re r) (some (cx r)) (wxy r) (wyz r)) σ)
    (k := fun r => (gridRc3 X Y Z Px Py r ip xy yz J).forward (re r) (some (cx r)) (wxy r) (wyz r)) hb.reSize (quiet_start hr hbal _) hG
  have et : (fun r => (t r).loc.size) = fun r => (σ r).size := funext fun r => t3 r
  obtain ⟨u, u1, u2, u3, u4, u5⟩ := rforward3_step (e := e) hX hY h hxy hyz (by rw [et]; exact hb) t2.bindRet' t4
  refine allRuns (t1.trans u1) u2.fin.1 ⟨u2.fin.2, ?_, fun r _ => (u3 r).trans (t3 r), (t5.mono fun r _ a ha => Or.inl ha).trans (u5.mono fun r _ a ha => Or.inr ha)⟩
  intro r hr i hi j hj k hk
  rw [u4 r hr i hi j hj k hk, rdft3_half hX h2 hY h3]

/-- **C52**, `Backward(g,f)` and, in place, `Backward(g)`: if `F` has the symmetry of the spectrum of a real array, then from its first
`Z/2+1` planes the transform (sign `+1`) of the whole of `F` is obtained; it is real. -/
theorem C52_backward (e : Eager) (hX : 0 < X) (hY : 0 < Y) (hZ : 0 < Z) (hN : 0 < N) (hxy : 1 ≤ xy.1) (hyz : 1 ≤ yz.1) {F : ℕ → ℕ → ℕ → ℂ}
    (he : Rc3Env X Y Z N pencil ip re cx wxy wyz σ) {out : ℕ → Option Loc}
    (hout : ∀ r < Mpi.groupSize2 X Y N pencil, out r = some (re r) ∨ (ip = true ∧ out r = none)) (hF : HermSpec3 X Y Z F)
    (hG : HoldsSpec3 (Mpi.groupSize2 X Y N pencil) (groupSplit3 X Y (Z / 2 + 1) X Y N pencil) F cx σ) :
    AllRuns e (start (Mpi.groupSize2 X Y N pencil)
        (fun r => (Rcfft3MPI.new X Y Z N pencil r ip xy yz J).backward (cx r) (out r) (wxy r) (wyz r)) σ) fun f =>
      Finished (Mpi.groupSize2 X Y N pencil) f ∧
      HoldsReal3 (Mpi.groupSize2 X Y N pencil) (groupSplit3 X Y Z X Y N pencil) (rdist3 Z ip) (fun i j k => (irdft3 X Y Z 0 0 F i j k).re) re (fun r => (f r).loc) ∧
      (∀ i < X, ∀ j < Y, ∀ k < Z, (irdft3 X Y Z 0 0 F i j k).im = 0) ∧ (∀ r < Mpi.groupSize2 X Y N pencil, (f r).loc.size = (σ r).size) ∧
      FrameW (Mpi.groupSize2 X Y N pencil) (allW (groupSplit3 X Y Z X Y N pencil) (groupSplit3 X Y (Z / 2 + 1) X Y N pencil) ip re cx wxy wyz) σ
        fun r => (f r).loc := by
  obtain ⟨Px, Py, hQ, h, hnew⟩ := rc3_grid hX hY hN Z pencil
  obtain ⟨hb, hr, hbal⟩ := he
  rw [hQ] at hG hb hr hbal hout ⊢
  rw [start_congr fun r hr => by rw [hnew r hr]]
  have ho : ∀ r < Px * Py, (out r).getD (cx r) = re r := by
    intro r hr
    rcases hout r hr with h | ⟨h1, h2⟩
    · rw [h]; rfl
    · rw [h2, (hb.same r hr).1 h1]; rfl
  obtain ⟨t, t1, t2, t3, t4, t5⟩ := rbackward3_step (e := e) hX hY hZ h hxy hyz hb ho (quiet_start hr hbal _).bindRet' hF hG
  refine allRuns t1 t2.fin.1 ⟨t2.fin.2, fun r hr i hi j hj k hk => ?_, fun i hi j hj k hk => ?_, fun r _ => t3 r, t5⟩
  · rw [h.hZr r hr] at hk
    have := congrArg Complex.re (t4 r hr i hi j hj k hk)
    simpa using this
  · obtain ⟨p, hp, p1, p2⟩ := owner (N := X) h.px hi
    obtain ⟨q, hq, q1, q2⟩ := owner (N := Y) h.py hj
    have hr' : p * Py + q < Px * Py := rad_lt hq hp
    have hs := h.dr _ hr'
    rw [grid_div hq, grid_mod hq] at hs
    have := t4 _ hr' (i - first X Px p) (by rw [hs]; show _ < part X Px p; omega) (j - first Y Py q) (by rw [hs]; show _ < part Y Py q; omega) k hk
    have := congrArg Complex.im this
    rw [hs] at this
    have h1 : first X Px p + (i - first X Px p) = i := by omega
    have h2 : first Y Py q + (j - first Y Py q) = j := by omega
    have h3 : (mkSplit3 X Y Z p Px q Py).xy.x0 = first X Px p := rfl
    have h4 : (mkSplit3 X Y Z p Px q Py).yz.x0 = first Y Py q := rfl
    rw [h3, h4, h1, h2] at this
    simpa using this.symm

/-- **C52**, `Backward0(g,f)`, for even `X` and `Y`: the Fourier origin is at `(X/2,Y/2,0)`. -/
theorem C52_backward0 (e : Eager) (hX : 0 < X) (hY : 0 < Y) (hZ : 0 < Z) (h2 : X % 2 = 0) (h3 : Y % 2 = 0) (hN : 0 < N) (hxy : 1 ≤ xy.1) (hyz : 1 ≤ yz.1)
    {F : ℕ → ℕ → ℕ → ℂ} (he : Rc3Env X Y Z N pencil ip re cx wxy wyz σ) (hF : HermSpec3 X Y Z F)
    (hG : HoldsSpec3 (Mpi.groupSize2 X Y N pencil) (groupSplit3 X Y (Z / 2 + 1) X Y N pencil) F cx σ) :
    AllRuns e (start (Mpi.groupSize2 X Y N pencil)
        (fun r => (Rcfft3MPI.new X Y Z N pencil r ip xy yz J).backward0 (cx r) (some (re r)) (wxy r) (wyz r)) σ) fun f =>
      Finished (Mpi.groupSize2 X Y N pencil) f ∧
      HoldsReal3 (Mpi.groupSize2 X Y N pencil) (groupSplit3 X Y Z X Y N pencil) (rdist3 Z ip) (fun i j k => (irdft3 X Y Z (X / 2) (Y / 2) F i j k).re) re
        fun r => (f r).loc := by
  obtain ⟨Px, Py, hQ, h, hnew⟩ := rc3_grid hX hY hN Z pencil
  obtain ⟨hb, hr, hbal⟩ := he
  rw [hQ] at hG hb hr hbal ⊢
  rw [start_congr fun r hr => by rw [hnew r hr]]
  obtain ⟨t, t1, t2, t3, t4, _⟩ := rbackward3_step (e := e) hX hY hZ h hxy hyz hb (out := fun r => some (re r)) (fun _ _ => rfl)
    (s := start (Px * Py) (fun r => (gridRc3 X Y Z Px Py r ip xy yz J).backward0 (cx r) (some (re r)) (wxy r) (wyz r)) σ)
    (k := fun r => (gridRc3 X Y Z Px Py r ip xy yz J).shift (some (re r))) (quiet_start hr hbal _) hF hG
  obtain ⟨u, u1, u2, u3, u4, _⟩ := rshift3_step (e := e) h2 h3 h (G := fun i j k => (irdft3 X Y Z 0 0 F i j k).re) (fun r hr => by rw [t3]; exact hb.reSize r hr)
    t2.bindRet' (fun r hr i hi j hj k hk => by
      rw [h.hZr r hr] at hk
      have := congrArg Complex.re (t4 r hr i hi j hj k hk)
      simpa using this)
  refine allRuns (t1.trans u1) u2.fin.1 ⟨u2.fin.2, fun r hr i hi j hj k hk => ?_⟩
  rw [u4 r hr i hi j hj k hk]
  beta_reduce
  rw [irdft3_half hX h2 hY h3, Complex.re_ofReal_mul]

/-- **C52**: `Forward(f,g); Backward(g,f); Normalize(f)`, without any synchronisation in between, gives back the array. -/
theorem C52_roundtrip (e : Eager) (hX : 0 < X) (hY : 0 < Y) (hZ : 0 < Z) (hN : 0 < N) (hxy : 1 ≤ xy.1) (hyz : 1 ≤ yz.1) {G : ℕ → ℕ → ℕ → ℝ}
    (he : Rc3Env X Y Z N pencil ip re cx wxy wyz σ)
    (hG : HoldsReal3 (Mpi.groupSize2 X Y N pencil) (groupSplit3 X Y Z X Y N pencil) (rdist3 Z ip) G re σ) :
    AllRuns e (start (Mpi.groupSize2 X Y N pencil) (fun r => do
        let fft := Rcfft3MPI.new X Y Z N pencil r ip xy yz J
        fft.forward (re r) (some (cx r)) (wxy r) (wyz r)
        fft.backward (cx r) (some (re r)) (wxy r) (wyz r)
        fft.normalize (re r)) σ)
      fun f => Finished (Mpi.groupSize2 X Y N pencil) f ∧
        HoldsReal3 (Mpi.groupSize2 X Y N pencil) (groupSplit3 X Y Z X Y N pencil) (rdist3 Z ip) G re fun r => (f r).loc := by
  obtain ⟨Px, Py, hQ, h, hnew⟩ := rc3_grid hX hY hN Z pencil
  obtain ⟨hb, hr, hbal⟩ := he
  rw [hQ] at hG hb hr hbal ⊢
  rw [start_congr (p' := fun r => ((gridRc3 X Y Z Px Py r ip xy yz J).forward (re r) (some (cx r)) (wxy r) (wyz r)).bind fun _ =>
    ((gridRc3 X Y Z Px Py r ip xy yz J).backward (cx r) (some (re r)) (wxy r) (wyz r)).bind fun _ =>
    (gridRc3 X Y Z Px Py r ip xy yz J).normalize (re r)) fun r hr => by rw [hnew r hr]; rfl]
  obtain ⟨t, t1, t2, t3, t4, _⟩ := rforward3_step (e := e) hX hY h hxy hyz hb (quiet_start hr hbal _) hG
  have et : (fun r => (t r).loc.size) = fun r => (σ r).size := funext fun r => t3 r
  obtain ⟨u, u1, u2, u3, u4, _⟩ := rbackward3_step (e := e) hX hY hZ h hxy hyz (by rw [et]; exact hb) (out := fun r => some (re r)) (fun _ _ => rfl) t2
    (rdft3_herm (by simp) (by simp) G) t4
  obtain ⟨v, v1, v2, v3, v4, _⟩ := rnormalize3_step (e := e) h (G := fun i j k => (irdft3 X Y Z 0 0 (rdft3 X Y Z 0 0 G) i j k).re)
    (fun r hr => by rw [u3, t3]; exact hb.reSize r hr) u2.bindRet' (fun r hr i hi j hj k hk => by
      rw [h.hZr r hr] at hk
      have := congrArg Complex.re (u4 r hr i hi j hj k hk)
      simpa using this)
  refine allRuns ((t1.trans u1).trans v1) v2.fin.1 ⟨v2.fin.2, fun r hr i hi j hj k hk => ?_⟩
  rw [v4 r hr i hi j hj k hk]
  rw [h.dr r hr] at hi hj hk ⊢
  exact roundtrip_real3 hX hY hZ G (first_lt h.px ((Nat.div_lt_iff_lt_mul h.py).2 hr) hi) (first_lt h.py (Nat.mod_lt _ h.py) hj) hk

/-- **C52**: `Forward0(f,g); Backward0(g,f); Normalize(f)` gives back the array, for even `X` and `Y`. -/
theorem C52_roundtrip0 (e : Eager) (hX : 0 < X) (hY : 0 < Y) (hZ : 0 < Z) (h2 : X % 2 = 0) (h3 : Y % 2 = 0) (hN : 0 < N) (hxy : 1 ≤ xy.1) (hyz : 1 ≤ yz.1)
    {G : ℕ → ℕ → ℕ → ℝ} (he : Rc3Env X Y Z N pencil ip re cx wxy wyz σ)
    (hG : HoldsReal3 (Mpi.groupSize2 X Y N pencil) (groupSplit3 X Y Z X Y N pencil) (rdist3 Z ip) G re σ) :
    AllRuns e (start (Mpi.groupSize2 X Y N pencil) (fun r => do
        let fft := Rcfft3MPI.new X Y Z N pencil r ip xy yz J
        fft.forward0 (re r) (some (cx r)) (wxy r) (wyz r)
        fft.backward0 (cx r) (some (re r)) (wxy r) (wyz r)
        fft.normalize (re r)) σ)
      fun f => Finished (Mpi.groupSize2 X Y N pencil) f ∧
        HoldsReal3 (Mpi.groupSize2 X Y N pencil) (groupSplit3 X Y Z X Y N pencil) (rdist3 Z ip) G re fun r => (f r).loc := by
  obtain ⟨Px, Py, hQ, h, hnew⟩ := rc3_grid hX hY hN Z pencil
  obtain ⟨hb, hr, hbal⟩ := he
  rw [hQ] at hG hb hr hbal ⊢
  rw [start_congr (p' := fun r => ((gridRc3 X Y Z Px Py r ip xy yz J).shift (some (re r))).bind fun _ =>
    ((gridRc3 X Y Z Px Py r ip xy yz J).forward (re r) (some (cx r)) (wxy r) (wyz r)).bind fun _ =>
    ((gridRc3 X Y Z Px Py r ip xy yz J).backward (cx r) (some (re r)) (wxy r) (wyz r)).bind fun _ =>
    ((gridRc3 X Y Z Px Py r ip xy yz J).shift (some (re r))).bind fun _ =>
    (gridRc3 X Y Z Px Py r ip xy yz J).normalize (re r)) fun r hr => by
      rw [hnew r hr]
      unfold Rcfft3MPI.forward0 Rcfft3MPI.backward0
      show Prog.bind (Prog.bind _ _) _ = _
      rw [Prog.bind_assoc]
      congr 1
      funext _
      congr 1
      funext _
      show Prog.bind (Prog.bind _ _) _ = _
      rw [Prog.bind_assoc]]
  obtain ⟨t, t1, t2, t3, t4, _⟩ := rshift3_step (e := e) h2 h3 h hb.reSize (quiet_start hr hbal _) hG
  have et : (fun r => (t r).loc.size) = fun r => (σ r).size := funext fun r => t3 r
  obtain ⟨u, u1, u2, u3, u4, _⟩ := rforward3_step (e := e) hX hY h hxy hyz (by rw [et]; exact hb) t2 t4
  have eu : (fun r => (u r).loc.size) = fun r => (σ r).size := funext fun r => (u3 r).trans (t3 r)
  obtain ⟨v, v1, v2, v3, v4, _⟩ := rbackward3_step (e := e) hX hY hZ h hxy hyz (by rw [eu]; exact hb) (out := fun r => some (re r)) (fun _ _ => rfl) u2
    (rdft3_herm (by simp) (by simp) _) u4
  obtain ⟨y, y1, y2, y3, y4, _⟩ := rshift3_step (e := e) h2 h3 h
    (G := fun i j k => (irdft3 X Y Z 0 0 (rdft3 X Y Z 0 0 fun i j k => Rcfft2MPI.sgn (i + j) * G i j k) i j k).re)
    (fun r hr => by rw [v3, u3, t3]; exact hb.reSize r hr) v2 (fun r hr i hi j hj k hk => by
      rw [h.hZr r hr] at hk
      have := congrArg Complex.re (v4 r hr i hi j hj k hk)
      simpa using this)
  obtain ⟨z, z1, z2, z3, z4, _⟩ := rnormalize3_step (e := e) h (fun r hr => by rw [y3, v3, u3, t3]; exact hb.reSize r hr) y2.bindRet' y4
  refine allRuns ((((t1.trans u1).trans v1).trans y1).trans z1) z2.fin.1 ⟨z2.fin.2, fun r hr i hi j hj k hk => ?_⟩
  rw [z4 r hr i hi j hj k hk]
  beta_reduce
  rw [h.dr r hr] at hi hj hk ⊢
  rw [show (mkSplit3 X Y Z (r / Py) Px (r % Py) Py).xy.x0 = first X Px (r / Py) from rfl,
    show (mkSplit3 X Y Z (r / Py) Px (r % Py) Py).yz.x0 = first Y Py (r % Py) from rfl, mul_div_assoc, roundtrip_real3 hX hY hZ (fun i j k => Rcfft2MPI.sgn (i + j) * G i j k) (first_lt h.px ((Nat.div_lt_iff_lt_mul h.py).2 hr) hi)
    (first_lt h.py (Nat.mod_lt _ h.py) hj) hk, ← mul_assoc]
  unfold Rcfft2MPI.sgn
  split_ifs <;> norm_num

/-- **C52**, `deNyquist`: the modes that have no opposite (index 0 in x and in y of a transform with origin `(X/2,Y/2,0)`, for even `X`, `Y`;
index `Z/2` in z, for even `Z`) are set to zero and the others kept, provided that no process that holds no plane starts exactly at the
end (`C52_deNyquist_refuted`). -/
theorem C52_deNyquist (e : Eager) (hX : 0 < X) (hY : 0 < Y) (hN : 0 < N) {F : ℕ → ℕ → ℕ → ℂ} (he : Rc3Env X Y Z N pencil ip re cx wxy wyz σ)
    (hno : Z % 2 = 0 → ∀ r < Mpi.groupSize2 X Y N pencil, (groupSplit3 X Y (Z / 2 + 1) X Y N pencil r).yz.y0 = Z / 2 + 1 →
      0 < (groupSplit3 X Y (Z / 2 + 1) X Y N pencil r).yz.y ∨ (groupSplit3 X Y (Z / 2 + 1) X Y N pencil r).xy.y = 0)
    (hG : HoldsSpec3 (Mpi.groupSize2 X Y N pencil) (groupSplit3 X Y (Z / 2 + 1) X Y N pencil) F cx σ) :
    AllRuns e (start (Mpi.groupSize2 X Y N pencil) (fun r => (Rcfft3MPI.new X Y Z N pencil r ip xy yz J).deNyquist (cx r)) σ) fun f =>
      Finished (Mpi.groupSize2 X Y N pencil) f ∧
      HoldsSpec3 (Mpi.groupSize2 X Y N pencil) (groupSplit3 X Y (Z / 2 + 1) X Y N pencil)
        (fun kx ky kz => if (X % 2 = 0 ∧ kx = 0) ∨ (Y % 2 = 0 ∧ ky = 0) ∨ (Z % 2 = 0 ∧ kz = Z / 2) then 0 else F kx ky kz) cx (fun r => (f r).loc) ∧
      FrameW (Mpi.groupSize2 X Y N pencil) (fun r => (Region.mk (cx r) (2 * (groupSplit3 X Y (Z / 2 + 1) X Y N pencil r).n)).has) σ fun r => (f r).loc := by
  obtain ⟨Px, Py, hQ, h, hnew⟩ := rc3_grid hX hY hN Z pencil
  obtain ⟨hb, hr, hbal⟩ := he
  rw [hQ] at hG hb hr hbal hno ⊢
  rw [start_congr fun r hr => by rw [hnew r hr]]
  obtain ⟨t, t1, t2, t3, t4, t5⟩ := rdeNyquist3_step (e := e) hX hY h hb.cxSize hno (quiet_start hr hbal _).bindRet' hG
  exact allRuns t1 t2.fin.1 ⟨t2.fin.2, t4, t5⟩

/-- `deNyquist` writes to `f[4294967295]` on a process that holds rows but no plane and starts exactly at plane `Z/2+1` (for even `Z`): it
never finishes. -/
theorem C52_deNyquist_refuted (e : Eager) (hX : 0 < X) (hY : 0 < Y) (hZ : Z % 2 = 0) {r : ℕ}
    (hr : r < Mpi.groupSize2 X Y N pencil)
    (hf : (groupSplit3 X Y (Z / 2 + 1) X Y N pencil r).yz.y0 = Z / 2 + 1) (hp : (groupSplit3 X Y (Z / 2 + 1) X Y N pencil r).yz.y = 0)
    (hy : 0 < (groupSplit3 X Y (Z / 2 + 1) X Y N pencil r).xy.y) (hs : (σ r).size (cx r).buf < 2 ^ 33 - 2) {n : ℕ} {t : St ℝ}
    (ht : StepN e n (start (Mpi.groupSize2 X Y N pencil) (fun r => (Rcfft3MPI.new X Y Z N pencil r ip xy yz J).deNyquist (cx r)) σ) t) :
    (t r).prog ≠ .ret () ∧ ¬ Finished (Mpi.groupSize2 X Y N pencil) t := by
  have hprog : ∃ k, (Rcfft3MPI.new X Y Z N pencil r ip xy yz J).deNyquist (cx r) = .op (.store (cx r + (2 * (2 ^ 32 - 1) + 0)) 0) k := by
    have e1 : (Rcfft3MPI.new X Y Z N pencil r ip xy yz J).dc.yz.y = 0 := hp
    have e2 : (Rcfft3MPI.new X Y Z N pencil r ip xy yz J).dc.yz.y0 = Z / 2 + 1 := hf
    have e3 : (Rcfft3MPI.new X Y Z N pencil r ip xy yz J).dc.Z = Z / 2 + 1 := rfl
    have e4 : (Rcfft3MPI.new X Y Z N pencil r ip xy yz J).dr.Z = Z := rfl
    have e5 : (Rcfft3MPI.new X Y Z N pencil r ip xy yz J).dc.X = X := rfl
    have hy' : 0 < (Rcfft3MPI.new X Y Z N pencil r ip xy yz J).dc.xy.y := hy
    obtain ⟨y', hy''⟩ : ∃ y', (Rcfft3MPI.new X Y Z N pencil r ip xy yz J).dc.xy.y = y' + 1 := ⟨_, (Nat.succ_pred_eq_of_pos hy').symm⟩
    unfold Rcfft3MPI.deNyquist
    rw [e1, e2, e3, e4, e5, hy'']
    simp only [Nat.mul_zero, List.range_zero, List.product_nil, List.map_nil]
    have h1 : Rcfft3MPI.zero (cx r) [] = Prog.ret () := rfl
    rw [h1]
    simp only [ite_self]
    rw [if_pos (show Z % 2 = 0 ∧ True from ⟨hZ, trivial⟩)]
    obtain ⟨X', rfl⟩ : ∃ X', X = X' + 1 := ⟨X - 1, by omega⟩
    rw [List.range_succ_eq_map, List.range_succ_eq_map]
    exact ⟨_, rfl⟩
  obtain ⟨k, hk⟩ := hprog
  have := stuck_forever (e := e) (r := r) (a := cx r + (2 * (2 ^ 32 - 1) + 0)) (v := (0 : ℝ)) (k := k) (σ := σ r)
    (by unfold Local.inBounds; simp only [Loc.add_off, Loc.add_buf]; omega) ht (by simp [start, hr, hk])
  have h2 : (t r).prog ≠ .ret () := by rw [this]; exact fun h => by cases h
  exact ⟨h2, fun h => h2 (h.1 r hr).1⟩

/-- The default argument: `Backward0(g)` of an in-place object passes the null pointer to `Shift`; a process that holds a row to be
negated never finishes. -/
theorem C52_backward0_default_out_refuted (e : Eager) (hX : 0 < X) (hY : 0 < Y) (hZ : 0 < Z) (h2 : X % 2 = 0) (h3 : Y % 2 = 0) (hN : 0 < N)
    (hxy : 1 ≤ xy.1) (hyz : 1 ≤ yz.1) {F : ℕ → ℕ → ℕ → ℂ} {buf : ℕ → Loc} (he : Rc3Env X Y Z N pencil true buf buf wxy wyz σ) (hF : HermSpec3 X Y Z F)
    (hG : HoldsSpec3 (Mpi.groupSize2 X Y N pencil) (groupSplit3 X Y (Z / 2 + 1) X Y N pencil) F buf σ) :
    AllRuns e (start (Mpi.groupSize2 X Y N pencil)
        (fun r => (Rcfft3MPI.new X Y Z N pencil r true xy yz J).backward0 (buf r) none (wxy r) (wyz r)) σ) fun f =>
      ∃ r < Mpi.groupSize2 X Y N pencil, (f r).prog = .fail ∧ ¬ Finished (Mpi.groupSize2 X Y N pencil) f := by
  obtain ⟨Px, Py, hQ, h, hnew⟩ := rc3_grid hX hY hN Z pencil
  obtain ⟨hb, hr, hbal⟩ := he
  rw [hQ] at hG hb hr hbal ⊢
  rw [start_congr fun r hr => by rw [hnew r hr]]
  obtain ⟨t, t1, t2, _⟩ := rbackward3_step (e := e) hX hY hZ h hxy hyz hb (out := fun _ => none) (fun _ _ => rfl)
    (s := start (Px * Py) (fun r => (gridRc3 X Y Z Px Py r true xy yz J).backward0 (buf r) none (wxy r) (wyz r)) σ)
    (k := fun r => (gridRc3 X Y Z Px Py r true xy yz J).shift none) (quiet_start hr hbal _) hF hG
  have hk : ∀ r, (gridRc3 X Y Z Px Py r true xy yz J).shift none = .ret () ∨ (gridRc3 X Y Z Px Py r true xy yz J).shift none = .fail := by
    intro r
    unfold Rcfft3MPI.shift
    simp only
    split_ifs <;> simp
  obtain ⟨p, hp, p1, p2⟩ := owner (N := X) (i := 1) h.px (by omega)
  obtain ⟨q, hq, q1, q2⟩ := owner (N := Y) (i := 0) h.py hY
  have hr' : p * Py + q < Px * Py := rad_lt hq hp
  have hf : (t (p * Py + q)).prog = .fail := by
    rw [t2.prog _ hr']
    have hdr : (gridRc3 X Y Z Px Py (p * Py + q) true xy yz J).dr = mkSplit3 X Y Z p Px q Py := by
      unfold gridRc3
      simp only
      rw [grid_div hq, grid_mod hq]
    unfold Rcfft3MPI.shift
    simp only
    rw [if_pos (show (gridRc3 X Y Z Px Py (p * Py + q) true xy yz J).dr.X % 2 = 0 ∧ (gridRc3 X Y Z Px Py (p * Py + q) true xy yz J).dr.Y % 2 = 0 from ⟨h2, h3⟩), if_neg]
    intro hc
    have : ((1 - first X Px p, 0 - first Y Py q), 0) ∈ ((gridRc3 X Y Z Px Py (p * Py + q) true xy yz J).shiftRows ×ˢ
        List.range (gridRc3 X Y Z Px Py (p * Py + q) true xy yz J).dr.Z) := by
      rw [List.mem_product, Rcfft3MPI.mem_shiftRows, List.mem_range, hdr]
      refine ⟨?_, hZ⟩
      show 1 - first X Px p < part X Px p ∧ 0 - first Y Py q < part Y Py q ∧ (first X Px p + (1 - first X Px p) + (first Y Py q + (0 - first Y Py q))) % 2 = 1
      omega
    rw [hc] at this
    cases this
  obtain ⟨n, hn⟩ := t1
  refine allRuns_of_run hn (no_step_of fun i => ?_) ⟨_, hr', hf, fun hh => ?_⟩
  · by_cases hi : i < Px * Py
    · rw [t2.prog i hi]; exact hk i
    · exact Or.inl (t2.done i (by omega))
  · have := (hh.1 _ hr').1
    rw [hf] at this
    cases this

/-- The default argument: `Forward(f)` of an in-place object, `f` being a `double *`, passes the null pointer to `ForwardWait0` or
`ForwardWait1`; process 0 (which always holds data) never finishes. -/
theorem C52_default_out_refuted (e : Eager) (hX : 0 < X) (hY : 0 < Y) (hN : 0 < N) (hxy : 1 ≤ xy.1) (hyz : 1 ≤ yz.1)
    {G : ℕ → ℕ → ℕ → ℝ} {buf : ℕ → Loc} (he : Rc3Env X Y Z N pencil true buf buf wxy wyz σ)
    (hG : HoldsReal3 (Mpi.groupSize2 X Y N pencil) (groupSplit3 X Y Z X Y N pencil) (rdist3 Z true) G buf σ) :
    AllRuns e (start (Mpi.groupSize2 X Y N pencil)
        (fun r => (Rcfft3MPI.new X Y Z N pencil r true xy yz J).forward (buf r) none (wxy r) (wyz r)) σ)
      fun f => (f 0).prog = .fail ∧ ¬ Finished (Mpi.groupSize2 X Y N pencil) f := by
  obtain ⟨Px, Py, hQ, h, hnew⟩ := rc3_grid hX hY hN Z pencil
  obtain ⟨hb, hr, hbal⟩ := he
  rw [hQ] at hG hb hr hbal ⊢
  have h0 : 0 < Px * Py := Nat.mul_pos h.px h.py
  rw [start_congr fun r hr => by rw [hnew r hr]]
  have hw0 : ∀ r, (gridRc3 X Y Z Px Py r true xy yz J).forwardWait0 none (wxy r) = .ret () ∨
      (gridRc3 X Y Z Px Py r true xy yz J).forwardWait0 none (wxy r) = .fail := by
    intro r
    unfold Rcfft3MPI.forwardWait0
    cases (gridRc3 X Y Z Px Py r true xy yz J).Tyz with
    | none => exact Or.inl rfl
    | some T =>
      simp only
      split_ifs <;> simp
  have hw1 : ∀ r, (gridRc3 X Y Z Px Py r true xy yz J).forwardWait1 none = .ret () ∨
      (gridRc3 X Y Z Px Py r true xy yz J).forwardWait1 none = .fail := by
    intro r
    unfold Rcfft3MPI.forwardWait1
    simp only
    split_ifs <;> simp
  have hp0 : ∀ M P, 0 < M → 0 < P → part M P (0 / Py) ≠ 0 ∧ part M P (0 % Py) ≠ 0 := fun M P hM hP => by
    rw [Nat.zero_div, Nat.zero_mod]
    exact ⟨(part_zero_pos hM hP).ne', (part_zero_pos hM hP).ne'⟩
  have hf0 : Py ≠ 1 → (gridRc3 X Y Z Px Py 0 true xy yz J).forwardWait0 none (wxy 0) = .fail := by
    intro hp
    unfold Rcfft3MPI.forwardWait0
    rw [show (gridRc3 X Y Z Px Py 0 true xy yz J).Tyz = some (MT.mk' Y (Z / 2 + 1) 2 Py (0 % Py) yz.1 yz.2) from if_neg hp]
    simp only
    rw [if_neg]
    have h1 := (hp0 X Px hX h.px).1
    have h2 := (hp0 (Z / 2 + 1) Py (Nat.succ_pos _) h.py).2
    rintro (h | h | h)
    · exact h1 h
    · exact hY.ne' h
    · exact h2 h
  have hf1 : (gridRc3 X Y Z Px Py 0 true xy yz J).forwardWait1 none = .fail := by
    unfold Rcfft3MPI.forwardWait1
    simp only
    rw [if_neg]
    have h1 := (hp0 Y Px hY h.px).1
    have h2 := (hp0 (Z / 2 + 1) Py (Nat.succ_pos _) h.py).2
    rintro (h | h | h)
    · exact hX.ne' h
    · exact h1 h
    · exact h2 h
  -- a state in which every program has ended or failed, and that of process 0 has failed
  have key : ∀ (t : St ℝ) (k : ℕ → Prog ℝ Unit),
      Steps e (start (Px * Py) (fun r => (gridRc3 X Y Z Px Py r true xy yz J).forward (buf r) none (wxy r) (wyz r)) σ) t → Quiet (Px * Py) k t →
      (∀ r < Px * Py, k r = .ret () ∨ k r = .fail) → k 0 = .fail →
      AllRuns e (start (Px * Py) (fun r => (gridRc3 X Y Z Px Py r true xy yz J).forward (buf r) none (wxy r) (wyz r)) σ)
        fun f => (f 0).prog = .fail ∧ ¬ Finished (Px * Py) f := by
    rintro t k ⟨n, hn⟩ hq hk hk0
    have hf : (t 0).prog = .fail := by rw [hq.prog 0 h0, hk0]
    refine allRuns_of_run hn (no_step_of fun i => ?_) ⟨hf, fun h => ?_⟩
    · by_cases hi : i < Px * Py
      · rw [hq.prog i hi]; exact hk i hi
      · exact Or.inl (hq.done i (by omega))
    · have := (h.1 0 h0).1
      rw [hf] at this
      cases this
  have hq := quiet_start hr hbal fun r => (gridRc3 X Y Z Px Py r true xy yz J).forward (buf r) none (wxy r) (wyz r)
  by_cases hp : Py = 1
  · have hprog : ∀ r < Px * Py, (gridRc3 X Y Z Px Py r true xy yz J).forward (buf r) none (wxy r) (wyz r) =
        ((zPlan3 Z (groupSplit3 X Y Z X Y N pencil r) true J).r2c (buf r) (buf r)).bind fun _ =>
          (rmid0 (gridRc3 X Y Z Px Py r true xy yz J) (buf r) (wyz r)).bind fun _ =>
          (((MT.mk' X Y ((groupSplit3 X Y (Z / 2 + 1) X Y N pencil r).yz.y * 2) Px (r / Py) xy.1 xy.2).localize0 (buf r) (buf r) (wxy r)).on
            (colComm Px Py (r % Py)) id).bind fun _ => (gridRc3 X Y Z Px Py r true xy yz J).forwardWait1 none := by
      intro r hr
      unfold Rcfft3MPI.forward rmid0 Rcfft3MPI.forwardWait0
      simp only [Option.getD_none]
      rw [if_pos (by simp [gridRc3]), show (gridRc3 X Y Z Px Py r true xy yz J).Tyz = none from if_pos hp, h.dr r hr, h.dc r hr]
      show Prog.bind _ (fun _ => Prog.bind (Prog.bind _ fun _ => _) fun _ => Prog.bind (Prog.ret ()) _) = _
      simp only [Prog.bind_assoc]
      rfl
    obtain ⟨t, t1, t2, t3, t4, _⟩ := rz_step (e := e)
      (s := start (Px * Py) (fun r => (gridRc3 X Y Z Px Py r true xy yz J).forward (buf r) none (wxy r) (wyz r)) σ) (J := J)
      (k := fun r => (rmid0 (gridRc3 X Y Z Px Py r true xy yz J) (buf r) (wyz r)).bind fun _ =>
          (((MT.mk' X Y ((groupSplit3 X Y (Z / 2 + 1) X Y N pencil r).yz.y * 2) Px (r / Py) xy.1 xy.2).localize0 (buf r) (buf r) (wxy r)).on
            (colComm Px Py (r % Py)) id).bind fun _ => (gridRc3 X Y Z Px Py r true xy yz J).forwardWait1 none)
      h.hx h.hyx h.hZr h.hZc hb ⟨fun i hi => by rw [hq.prog i hi, hprog i hi], hq.done, hq.req, hq.bal⟩ hG
    have et : (fun r => (t r).loc.size) = fun r => (σ r).size := funext fun r => t3 r
    obtain ⟨u, u1, u2, u3, u4, _⟩ := rmid0_step (e := e) hY h hyz (by rw [et]; exact hb) t2 t4
    obtain ⟨v, v1, v2, _⟩ := rtxy0_step (e := e) (wyz := wyz) hX hY h.px h.py hxy h.dc (fun r hr => by rw [u3, t3]; exact hb.cxSize r hr)
      (fun r hr => by rw [u3, t3]; exact hb.wxySize r hr) hb.cxwxy u2 u4
    exact key v _ ((t1.trans u1).trans v1) v2 (fun r _ => hw1 r) hf1
  · have hprog : ∀ r < Px * Py, (gridRc3 X Y Z Px Py r true xy yz J).forward (buf r) none (wxy r) (wyz r) =
        ((zPlan3 Z (groupSplit3 X Y Z X Y N pencil r) true J).r2c (buf r) (buf r)).bind fun _ =>
          (((MT.mk' Y (Z / 2 + 1) 2 Py (r % Py) yz.1 yz.2).localize0 (buf r) (buf r) (wyz r)).on (rowComm Px Py (r / Py)) (· + 20)).bind fun _ =>
          ((gridRc3 X Y Z Px Py r true xy yz J).forwardWait0 none (wxy r)).bind fun _ =>
          (gridRc3 X Y Z Px Py r true xy yz J).forwardWait1 none := by
      intro r hr
      unfold Rcfft3MPI.forward
      simp only [Option.getD_none]
      rw [if_pos (by simp [gridRc3]), show (gridRc3 X Y Z Px Py r true xy yz J).Tyz = some (MT.mk' Y (Z / 2 + 1) 2 Py (r % Py) yz.1 yz.2) from if_neg hp,
        h.dr r hr]
      rfl
    obtain ⟨t, t1, t2, t3, t4, _⟩ := rz_step (e := e)
      (s := start (Px * Py) (fun r => (gridRc3 X Y Z Px Py r true xy yz J).forward (buf r) none (wxy r) (wyz r)) σ) (J := J)
      (k := fun r => (((MT.mk' Y (Z / 2 + 1) 2 Py (r % Py) yz.1 yz.2).localize0 (buf r) (buf r) (wyz r)).on (rowComm Px Py (r / Py)) (· + 20)).bind fun _ =>
          ((gridRc3 X Y Z Px Py r true xy yz J).forwardWait0 none (wxy r)).bind fun _ =>
          (gridRc3 X Y Z Px Py r true xy yz J).forwardWait1 none)
      h.hx h.hyx h.hZr h.hZc hb ⟨fun i hi => by rw [hq.prog i hi, hprog i hi], hq.done, hq.req, hq.bal⟩ hG
    obtain ⟨u, u1, u2, _⟩ := rtyz0_step (e := e) (wxy := wxy) hY (Nat.succ_pos _) h.px h.py hyz h.dc
      (fun r hr => by rw [h.dc r hr]; exact ((h.grid.resolve_left hp) r hr).1) (fun r hr => by rw [h.dc r hr]; exact ((h.grid.resolve_left hp) r hr).2)
      (fun r hr => by rw [t3]; exact hb.cxSize r hr) (fun r hr => by rw [t3]; exact hb.wyzSize r hr) hb.cxwyz t2 t4
    refine key u _ (t1.trans u1) u2 (fun r _ => ?_) ?_
    · rcases hw0 r with h | h
      · rw [h]; exact hw1 r
      · rw [h]; exact Or.inr rfl
    · rw [hf0 hp]; rfl

/-- A concrete state: real array in buffer 0, spectrum in buffer 1 (or 0, in place), work arrays in buffers 2 and 3. -/
noncomputable def exRc3 (X Y Z N : ℕ) (pencil ip : Bool) (val : ℕ → Loc → ℝ) (r : ℕ) : Local ℝ where
  size b := if b < 4 then (groupSplit3 X Y Z X Y N pencil r).xy.x * (groupSplit3 X Y Z X Y N pencil r).yz.x * rdist3 Z ip +
    2 * (groupSplit3 X Y (Z / 2 + 1) X Y N pencil r).n + 2 * (Y * (Z / 2 + 1)) else 0
  mem := val r
  req _ := none
  sent _ := []
  rcvd _ := 0
  nsend := 0

theorem exRc3_env (X Y Z N : ℕ) (pencil ip : Bool) (val : ℕ → Loc → ℝ) :
    Rc3Env X Y Z N pencil ip (fun _ => ⟨0, 0⟩) (fun _ => ⟨if ip = true then 0 else 1, 0⟩) (fun _ => ⟨2, 0⟩) (fun _ => ⟨3, 0⟩) (exRc3 X Y Z N pencil ip val) where
  bufs :=
    { reSize := fun r _ => by
        show 0 + (groupSplit3 X Y Z X Y N pencil r).xy.x * (groupSplit3 X Y Z X Y N pencil r).yz.x * rdist3 Z ip ≤ _
        simp only [exRc3]
        rw [if_pos (by norm_num)]
        omega
      cxSize := fun r _ => by
        simp only [exRc3]
        rw [if_pos (by cases ip <;> norm_num)]
        omega
      wxySize := fun r _ => by
        have h : (groupSplit3 X Y (Z / 2 + 1) X Y N pencil r).xy.x * (groupSplit3 X Y (Z / 2 + 1) X Y N pencil r).Y *
            (groupSplit3 X Y (Z / 2 + 1) X Y N pencil r).yz.y ≤ (groupSplit3 X Y (Z / 2 + 1) X Y N pencil r).n :=
          (Nat.mul_le_mul_right _ (le_max_right _ _)).trans (le_max_left _ _)
        simp only [exRc3]
        rw [if_pos (by norm_num)]
        omega
      wyzSize := fun r _ h => by
        have h1 : (groupSplit3 X Y (Z / 2 + 1) X Y N pencil r).yz.x * (groupSplit3 X Y (Z / 2 + 1) X Y N pencil r).Z ≤ Y * (Z / 2 + 1) :=
          Nat.mul_le_mul_right (Z / 2 + 1) h.le
        simp only [exRc3]
        rw [if_pos (by norm_num)]
        omega
      cxwxy := fun _ _ => by cases ip <;> simp
      cxwyz := fun _ _ _ => by cases ip <;> simp
      same := fun _ _ => by cases ip <;> simp
      sep := fun _ _ => by cases ip <;> simp }
  req _ _ _ := rfl
  bal _ _ _ _ _ := rfl

/-- Any real array can be distributed. -/
noncomputable def exReal3 (X Y Z N : ℕ) (pencil ip : Bool) (G : ℕ → ℕ → ℕ → ℝ) (r : ℕ) (a : Loc) : ℝ :=
  let d := groupSplit3 X Y Z X Y N pencil r
  G (d.xy.x0 + a.off / rdist3 Z ip / d.yz.x) (d.yz.x0 + a.off / rdist3 Z ip % d.yz.x) (a.off % rdist3 Z ip)

theorem exReal3_holds (X Y Z N : ℕ) (pencil ip : Bool) (G : ℕ → ℕ → ℕ → ℝ) :
    HoldsReal3 (Mpi.groupSize2 X Y N pencil) (groupSplit3 X Y Z X Y N pencil) (rdist3 Z ip) G (fun _ => ⟨0, 0⟩)
      (exRc3 X Y Z N pencil ip (exReal3 X Y Z N pencil ip G)) := by
  intro r _ i hi j hj k hk
  have hk' : k < rdist3 Z ip := lt_of_lt_of_le (show k < Z from hk) (zPlan3_std Z (groupSplit3 X Y Z X Y N pencil r) ip (fun g _ => g ⟨0, 0⟩)).rdist
  show exReal3 X Y Z N pencil ip G r _ = _
  unfold exReal3
  simp only [Loc.add_off, Nat.zero_add]
  rw [grid_div hk', grid_div hj, grid_mod hj, grid_mod hk']

/-- Any half spectrum can be distributed. -/
noncomputable def exSpec3 (X Y Z N : ℕ) (pencil : Bool) (F : ℕ → ℕ → ℕ → ℂ) (r : ℕ) (a : Loc) : ℝ :=
  let d := groupSplit3 X Y (Z / 2 + 1) X Y N pencil r
  cpart (F (a.off / 2 / d.yz.y / d.xy.y) (d.xy.y0 + a.off / 2 / d.yz.y % d.xy.y) (d.yz.y0 + a.off / 2 % d.yz.y)) (a.off % 2)

theorem exSpec3_holds (X Y Z N : ℕ) (pencil ip : Bool) (F : ℕ → ℕ → ℕ → ℂ) :
    HoldsSpec3 (Mpi.groupSize2 X Y N pencil) (groupSplit3 X Y (Z / 2 + 1) X Y N pencil) F (fun _ => ⟨if ip = true then 0 else 1, 0⟩)
      (exRc3 X Y Z N pencil ip (exSpec3 X Y Z N pencil F)) := by
  intro r _ i hi j hj k hk
  refine cget_of fun c hc => ?_
  show exSpec3 X Y Z N pencil F r _ = _
  unfold exSpec3
  simp only [Loc.add_off, Nat.zero_add]
  have e1 : ∀ a, (2 * a + c) / 2 = a := fun a => by omega
  have e2 : ∀ a, (2 * a + c) % 2 = c := fun a => by omega
  rw [e1, e2, grid_div hk, grid_div hj, grid_mod hj, grid_mod hk]

/-- The groups of the instances below: pencils in a grid of 3 × 2 (of 7 processes, 6 are active), pencils in a grid of 2 × 2, slabs on 3
processes, pencils in a grid of 2 × 4. -/
example : (Mpi.groupSize2 3 4 7 true = 6 ∧ Mpi.groupMajor 3 4 7 true = 2) ∧ (Mpi.groupSize2 2 4 4 true = 4 ∧ Mpi.groupMajor 2 4 4 true = 2) ∧
    (Mpi.groupSize2 6 4 3 false = 3 ∧ Mpi.groupMajor 6 4 3 false = 1) ∧ Mpi.groupSize2 2 4 8 true = 8 ∧ Mpi.groupMajor 2 4 8 true = 4 := by decide

example (e : Eager) (J : (Loc → ℝ) → Loc → ℝ) (G : ℕ → ℕ → ℕ → ℝ) := C52_forward e (X := 3) (Y := 4) (Z := 5) (N := 7) (pencil := true) (xy := (1, 1)) (yz := (1, 0))
  (J := J) (by norm_num) (by norm_num) (by norm_num) le_rfl le_rfl (exRc3_env 3 4 5 7 true false _) (exReal3_holds 3 4 5 7 true false G)
example (e : Eager) (J : (Loc → ℝ) → Loc → ℝ) (G : ℕ → ℕ → ℕ → ℝ) := C52_forward0 e (X := 2) (Y := 4) (Z := 5) (N := 4) (pencil := true) (xy := (1, 1)) (yz := (2, 0))
  (J := J) (by norm_num) (by norm_num) (by norm_num) (by norm_num) (by norm_num) le_rfl (by norm_num) (exRc3_env 2 4 5 4 true true _) (exReal3_holds 2 4 5 4 true true G)
example (e : Eager) (J : (Loc → ℝ) → Loc → ℝ) (G : ℕ → ℕ → ℕ → ℝ) := C52_backward e (X := 3) (Y := 4) (Z := 5) (N := 7) (pencil := true) (xy := (1, 1)) (yz := (1, 0))
  (J := J) (F := rdft3 3 4 5 0 0 G) (by norm_num) (by norm_num) (by norm_num) (by norm_num) le_rfl le_rfl (exRc3_env 3 4 5 7 true true _) (out := fun _ => none)
  (fun _ _ => Or.inr ⟨rfl, rfl⟩) (rdft3_herm (by norm_num) (by norm_num) G) (exSpec3_holds 3 4 5 7 true true (rdft3 3 4 5 0 0 G))
example (e : Eager) (J : (Loc → ℝ) → Loc → ℝ) (G : ℕ → ℕ → ℕ → ℝ) := C52_backward0 e (X := 6) (Y := 4) (Z := 3) (N := 3) (pencil := false) (xy := (1, 1)) (yz := (1, 0))
  (J := J) (F := rdft3 6 4 3 3 2 G) (by norm_num) (by norm_num) (by norm_num) (by norm_num) (by norm_num) (by norm_num) le_rfl le_rfl (exRc3_env 6 4 3 3 false false _)
  (rdft3_herm (by norm_num) (by norm_num) G) (exSpec3_holds 6 4 3 3 false false (rdft3 6 4 3 3 2 G))
example (e : Eager) (J : (Loc → ℝ) → Loc → ℝ) (G : ℕ → ℕ → ℕ → ℝ) := C52_roundtrip e (X := 3) (Y := 4) (Z := 5) (N := 7) (pencil := true) (xy := (1, 1)) (yz := (1, 0))
  (J := J) (by norm_num) (by norm_num) (by norm_num) (by norm_num) le_rfl le_rfl (exRc3_env 3 4 5 7 true false _) (exReal3_holds 3 4 5 7 true false G)
example (e : Eager) (J : (Loc → ℝ) → Loc → ℝ) (G : ℕ → ℕ → ℕ → ℝ) := C52_roundtrip0 e (X := 2) (Y := 4) (Z := 5) (N := 4) (pencil := true) (xy := (1, 1)) (yz := (1, 0))
  (J := J) (by norm_num) (by norm_num) (by norm_num) (by norm_num) (by norm_num) (by norm_num) le_rfl le_rfl (exRc3_env 2 4 5 4 true true _) (exReal3_holds 2 4 5 4 true true G)
example (e : Eager) (J : (Loc → ℝ) → Loc → ℝ) (F : ℕ → ℕ → ℕ → ℂ) := C52_deNyquist e (X := 2) (Y := 4) (Z := 6) (N := 4) (pencil := true) (ip := true) (xy := (1, 1)) (yz := (1, 0))
  (J := J) (by norm_num) (by norm_num) (by norm_num) (exRc3_env 2 4 6 4 true true _) (by decide) (exSpec3_holds 2 4 6 4 true true F)
example (e : Eager) (J : (Loc → ℝ) → Loc → ℝ) (F : ℕ → ℕ → ℕ → ℂ) (n : ℕ) (t : St ℝ) := C52_deNyquist_refuted e (X := 2) (Y := 4) (Z := 4) (N := 8) (pencil := true) (ip := true)
  (xy := (1, 1)) (yz := (1, 0)) (J := J) (cx := fun _ => ⟨0, 0⟩) (σ := exRc3 2 4 4 8 true true (exSpec3 2 4 4 8 true F)) (by norm_num) (by norm_num) (by norm_num)
  (r := 3) (by decide) (by decide) (by decide) (by decide) (by simp only [exRc3]; decide) (n := n) (t := t)
example (e : Eager) (J : (Loc → ℝ) → Loc → ℝ) (G : ℕ → ℕ → ℕ → ℝ) := C52_backward0_default_out_refuted e (X := 2) (Y := 4) (Z := 5) (N := 4) (pencil := true) (xy := (1, 1))
  (yz := (1, 0)) (J := J) (F := rdft3 2 4 5 1 2 G) (by norm_num) (by norm_num) (by norm_num) (by norm_num) (by norm_num) (by norm_num) le_rfl le_rfl
  (exRc3_env 2 4 5 4 true true _) (rdft3_herm (by norm_num) (by norm_num) G) (exSpec3_holds 2 4 5 4 true true (rdft3 2 4 5 1 2 G))
example (e : Eager) (J : (Loc → ℝ) → Loc → ℝ) (G : ℕ → ℕ → ℕ → ℝ) := C52_default_out_refuted e (X := 3) (Y := 4) (Z := 5) (N := 7) (pencil := true) (xy := (1, 1))
  (yz := (1, 0)) (J := J) (by norm_num) (by norm_num) (by norm_num) le_rfl le_rfl (exRc3_env 3 4 5 7 true true _) (exReal3_holds 3 4 5 7 true true G)

end Fftwpp.Net
