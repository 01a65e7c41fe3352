import Verif.Proof.MpiRcfft2

/-!
# C50: distributed two-dimensional Fourier transforms of real data

`rcfft2dMPI` (mpi/mpifftw++.h) on `P` processes.  `HoldsReal` and `HoldsSpec` (Proof/MpiRcfft2.lean) say how the real array (by rows,
`rdist2` doubles apart: `Y`, or `2*(Y/2+1)` in place) and the half spectrum, of `Y/2+1` columns (by columns), are distributed.
`J` gives the values that FFTW leaves unspecified.
-/

namespace Fftwpp.Net

/-- The state in which a transform is started: arrays as required (`Rc2Bufs`), no pending request, no message in transit. -/
structure Rc2Env (X Y P : ℕ) (ip : Bool) (re cx wrk : ℕ → Loc) (σ : ℕ → Local ℝ) : Prop where
  bufs : Rc2Bufs X Y P ip re cx wrk fun r => (σ r).size
  req : ∀ r < P, ∀ id, (σ r).req id = none
  bal : ∀ i < P, ∀ j < P, ∀ ctx, ((σ i).sent (j, ctx)).length = (σ j).rcvd (i, ctx)

theorem quiet_start {V : Type} {P : ℕ} {σ : ℕ → Local V} (hr : ∀ r < P, ∀ id, (σ r).req id = none)
    (hb : ∀ i < P, ∀ j < P, ∀ ctx, ((σ i).sent (j, ctx)).length = (σ j).rcvd (i, ctx)) (prog : ℕ → Prog V Unit) : Quiet P prog (start P prog σ) :=
  ⟨fun i hi => by simp [start, hi], fun i hi => by simp [start, show ¬ i < P by omega], fun i hi id => hr i hi id, fun i hi j hj ctx => hb i hi j hj ctx⟩

theorem Rc2Env.quiet {X Y P : ℕ} {ip : Bool} {re cx wrk : ℕ → Loc} {σ : ℕ → Local ℝ} (h : Rc2Env X Y P ip re cx wrk σ) (prog : ℕ → Prog ℝ Unit) :
    Quiet P prog (start P prog σ) := quiet_start h.req h.bal prog

/-- A program and nothing after it. -/
theorem Quiet.bindRet' {V : Type} {P : ℕ} {prog : ℕ → Prog V Unit} {s : St V} (h : Quiet P prog s) : Quiet P (fun r => (prog r).bind fun _ => .ret ()) s :=
  ⟨fun i hi => by rw [h.prog i hi, Geo.bind_ret], h.done, h.req, h.bal⟩

variable {X Y P optA alltoall : ℕ} {ip : Bool} {J : (Loc → ℝ) → Loc → ℝ} {re cx wrk : ℕ → Loc} {σ : ℕ → Local ℝ}

/-- **C50**, `Forward`: for all dimensions, process counts, algorithms of the transpose, in place or not, every real array `G`
distributed by rows, all orders of execution and all choices of the MPI library: every run is finite, and ends with every process
finished, no message in transit and the half spectrum of `G` distributed by columns; nothing but the output array and the work array
was written. -/
theorem C50_forward (e : Eager) (hX : 0 < X) (hP : 0 < P) (ha : 1 ≤ optA) {G : ℕ → ℕ → ℝ} (he : Rc2Env X Y P ip re cx wrk σ)
    (hG : HoldsReal X Y P (rdist2 Y ip) G re σ) :
    AllRuns e (start P (fun r => (Rcfft2MPI.new X Y P r ip optA alltoall J).forward (re r) (some (cx r)) (wrk r)) σ)
      (TransposeEnd P (HoldsSpec X (Y / 2 + 1) P (rdft2 X Y 0 G) cx) cx wrk (fun r => 2 * room2 X (Y / 2 + 1) P r)
        (fun r => 2 * (part X P r * (Y / 2 + 1))) σ) := by
  obtain ⟨t, t1, t2, t3, t4, t5⟩ := rforward2_step (e := e) hX hP ha (G := G) he.bufs (he.quiet _).bindRet' hG
  exact allRuns t1 t2.fin.1 ⟨t2.fin.2, t4, fun r _ => t3 r, t5⟩

/-- **C50**, `Forward0`, for even `X`: the Fourier origin is at `(X/2,0)`.  The input is destroyed. -/
theorem C50_forward0 (e : Eager) (hX : 0 < X) (h2 : X % 2 = 0) (hP : 0 < P) (ha : 1 ≤ optA) {G : ℕ → ℕ → ℝ} (he : Rc2Env X Y P ip re cx wrk σ)
    (hG : HoldsReal X Y P (rdist2 Y ip) G re σ) :
    AllRuns e (start P (fun r => (Rcfft2MPI.new X Y P r ip optA alltoall J).forward0 (re r) (some (cx r)) (wrk r)) σ) fun f =>
      Finished P f ∧ HoldsSpec X (Y / 2 + 1) P (rdft2 X Y (X / 2) G) cx (fun r => (f r).loc) ∧ (∀ r < P, (f r).loc.size = (σ r).size) ∧
      ∀ r < P, ∀ a, ¬ (Region.mk (re r) (part X P r * rdist2 Y ip)).has a → ¬ (Region.mk (cx r) (2 * room2 X (Y / 2 + 1) P r)).has a →
        ¬ (Region.mk (wrk r) (2 * (part X P r * (Y / 2 + 1)))).has a → (f r).loc.mem a = (σ r).mem a := by
  obtain ⟨t, t1, t2, t3, t4, t5⟩ := rshift2_step (e := e) h2 (G := G) he.bufs.reSize
    (he.quiet fun r => (Rcfft2MPI.new X Y P r ip optA alltoall J).forward0 (re r) (some (cx r)) (wrk r)) hG
  have et : (fun r => (t r).loc.size) = fun r => (σ r).size := funext fun r => t3 r
  obtain ⟨u, u1, u2, u3, u4, u5⟩ := rforward2_step (e := e) hX hP ha (by rw [et]; exact he.bufs) t2.bindRet' t4
  refine allRuns (t1.trans u1) u2.fin.1 ⟨u2.fin.2, ?_, fun r _ => (u3 r).trans (t3 r), fun r hr a h1 h2 h3 => (u5 r hr a h2 h3).trans (t5 r hr a h1)⟩
  intro r hr kx hkx j hj
  rw [u4 r hr kx hkx j hj, rdft2_half hX h2]

/-- **C50**, `Backward(g,f)` and, in place, `Backward(g)`: if `F` has the symmetry of the spectrum of a real array, then from its first
`Y/2+1` columns the transform (sign `+1`) of the whole of `F` is obtained; it is real. -/
theorem C50_backward (e : Eager) (hX : 0 < X) (hY : 0 < Y) (hP : 0 < P) (ha : 1 ≤ optA) {F : ℕ → ℕ → ℂ} (he : Rc2Env X Y P ip re cx wrk σ)
    {out : ℕ → Option Loc} (hout : ∀ r < P, out r = some (re r) ∨ (ip = true ∧ out r = none)) (hF : HermSpec2 X Y F)
    (hG : HoldsSpec X (Y / 2 + 1) P F cx σ) :
    AllRuns e (start P (fun r => (Rcfft2MPI.new X Y P r ip optA alltoall J).backward (cx r) (out r) (wrk r)) σ) fun f =>
      Finished P f ∧ HoldsReal X Y P (rdist2 Y ip) (fun i j => (irdft2 X Y 0 F i j).re) re (fun r => (f r).loc) ∧
      (∀ i < X, ∀ j < Y, (irdft2 X Y 0 F i j).im = 0) ∧ (∀ r < P, (f r).loc.size = (σ r).size) ∧
      ∀ r < P, ∀ a, ¬ (Region.mk (re r) (part X P r * rdist2 Y ip)).has a → ¬ (Region.mk (cx r) (2 * room2 X (Y / 2 + 1) P r)).has a →
        ¬ (Region.mk (wrk r) (2 * (part X P r * (Y / 2 + 1)))).has a → (f r).loc.mem a = (σ r).mem a := by
  have ho : ∀ r < P, (out r).getD (cx r) = re r := by
    intro r hr
    rcases hout r hr with h | ⟨h1, h2⟩
    · rw [h]; rfl
    · rw [h2, (he.bufs.same r hr).1 h1]; rfl
  obtain ⟨t, t1, t2, t3, t4, t5⟩ := rbackward2_step (e := e) hX hY hP ha he.bufs ho
    (he.quiet fun r => (Rcfft2MPI.new X Y P r ip optA alltoall J).backward (cx r) (out r) (wrk r)).bindRet' hF hG
  refine allRuns t1 t2.fin.1 ⟨t2.fin.2, fun r hr i hi j hj => ?_, fun i hi j hj => ?_, fun r _ => t3 r, t5⟩
  · have := congrArg Complex.re (t4 r hr i hi j hj)
    simpa using this
  · obtain ⟨r, hr, r1, r2⟩ := owner (N := X) hP hi
    have := congrArg Complex.im (t4 r hr (i - first X P r) (by omega) j hj)
    rw [show first X P r + (i - first X P r) = i by omega] at this
    simpa using this.symm

/-- **C50**, `Backward0(g,f)`, for even `X`: the Fourier origin is at `(X/2,0)`. -/
theorem C50_backward0 (e : Eager) (hX : 0 < X) (h2 : X % 2 = 0) (hY : 0 < Y) (hP : 0 < P) (ha : 1 ≤ optA) {F : ℕ → ℕ → ℂ} (he : Rc2Env X Y P ip re cx wrk σ)
    (hF : HermSpec2 X Y F) (hG : HoldsSpec X (Y / 2 + 1) P F cx σ) :
    AllRuns e (start P (fun r => (Rcfft2MPI.new X Y P r ip optA alltoall J).backward0 (cx r) (some (re r)) (wrk r)) σ) fun f =>
      Finished P f ∧ HoldsReal X Y P (rdist2 Y ip) (fun i j => (irdft2 X Y (X / 2) F i j).re) re (fun r => (f r).loc) := by
  obtain ⟨t, t1, t2, t3, t4, t5⟩ := rbackward2_step (e := e) hX hY hP ha he.bufs (out := fun r => some (re r)) (fun _ _ => rfl)
    (he.quiet fun r => (Rcfft2MPI.new X Y P r ip optA alltoall J).backward0 (cx r) (some (re r)) (wrk r)) hF hG
  obtain ⟨u, u1, u2, u3, u4, u5⟩ := rshift2_step (e := e) h2 (G := fun i j => (irdft2 X Y 0 F i j).re) (fun r hr => by rw [t3]; exact he.bufs.reSize r hr)
    t2.bindRet' (fun r hr i hi j hj => by
      have := congrArg Complex.re (t4 r hr i hi j hj)
      simpa using this)
  refine allRuns (t1.trans u1) u2.fin.1 ⟨u2.fin.2, fun r hr i hi j hj => ?_⟩
  rw [u4 r hr i hi j hj]
  beta_reduce
  rw [irdft2_half hX h2, Complex.re_ofReal_mul]

theorem roundtrip_real (hX : 0 < X) (hY : 0 < Y) (G : ℕ → ℕ → ℝ) {i j : ℕ} (hi : i < X) (hj : j < Y) :
    (irdft2 X Y 0 (rdft2 X Y 0 G) i j).re / ((X * Y : ℕ) : ℝ) = G i j := by
  have e1 : rdft2 X Y 0 G = dft2 X Y (-1) fun i j => (G i j : ℂ) := funext fun a => funext fun b => rdft2_zero X Y G a b
  have e2 := dft2_inv X Y (-1) (Or.inr rfl) (fun i j => (G i j : ℂ)) hi hj
  rw [neg_neg] at e2
  rw [irdft2_zero, e1, e2]
  have : ((X * Y : ℕ) : ℝ) ≠ 0 := by exact_mod_cast (Nat.mul_pos hX hY).ne'
  rw [show (((X * Y : ℕ) : ℂ) * (G i j : ℂ)) = (((X * Y : ℕ) : ℝ) * G i j : ℝ) by push_cast; ring, Complex.ofReal_re]
  exact mul_div_cancel_left₀ _ this

/-- **C50**: `Forward(f,g); Backward(g,f); Normalize(f)` gives back the array, for all dimensions. -/
theorem C50_roundtrip (e : Eager) (hX : 0 < X) (hY : 0 < Y) (hP : 0 < P) (ha : 1 ≤ optA) {G : ℕ → ℕ → ℝ} (he : Rc2Env X Y P ip re cx wrk σ)
    (hG : HoldsReal X Y P (rdist2 Y ip) G re σ) :
    AllRuns e (start P (fun r => do
        let fft := Rcfft2MPI.new X Y P r ip optA alltoall J
        fft.forward (re r) (some (cx r)) (wrk r)
        fft.backward (cx r) (some (re r)) (wrk r)
        fft.normalize (re r)) σ)
      fun f => Finished P f ∧ HoldsReal X Y P (rdist2 Y ip) G re fun r => (f r).loc := by
  obtain ⟨t, t1, t2, t3, t4, _⟩ := rforward2_step (e := e) hX hP ha (G := G) he.bufs (he.quiet _) hG
  have et : (fun r => (t r).loc.size) = fun r => (σ r).size := funext fun r => t3 r
  obtain ⟨u, u1, u2, u3, u4, _⟩ := rbackward2_step (e := e) hX hY hP ha (F := rdft2 X Y 0 G) (out := fun r => some (re r)) (by rw [et]; exact he.bufs) (fun _ _ => rfl) t2
    (rdft2_herm (by simp) G) t4
  obtain ⟨v, v1, v2, v3, v4, _⟩ := rnormalize2_step (e := e) (G := fun i j => (irdft2 X Y 0 (rdft2 X Y 0 G) i j).re) (fun r hr => by
    rw [u3, t3]; exact he.bufs.reSize r hr) u2.bindRet' (fun r hr i hi j hj => by
      have := congrArg Complex.re (u4 r hr i hi j hj)
      simpa using this)
  refine allRuns ((t1.trans u1).trans v1) v2.fin.1 ⟨v2.fin.2, ?_⟩
  intro r hr i hi j hj
  rw [v4 r hr i hi j hj]
  exact roundtrip_real hX hY G (first_lt hP hr hi) hj

/-- **C50**: `Forward0(f,g); Backward0(g,f); Normalize(f)` gives back the array, for even `X`. -/
theorem C50_roundtrip0 (e : Eager) (hX : 0 < X) (h2 : X % 2 = 0) (hY : 0 < Y) (hP : 0 < P) (ha : 1 ≤ optA) {G : ℕ → ℕ → ℝ} (he : Rc2Env X Y P ip re cx wrk σ)
    (hG : HoldsReal X Y P (rdist2 Y ip) G re σ) :
    AllRuns e (start P (fun r => do
        let fft := Rcfft2MPI.new X Y P r ip optA alltoall J
        fft.forward0 (re r) (some (cx r)) (wrk r)
        fft.backward0 (cx r) (some (re r)) (wrk r)
        fft.normalize (re r)) σ)
      fun f => Finished P f ∧ HoldsReal X Y P (rdist2 Y ip) G re fun r => (f r).loc := by
  have hq := he.quiet fun r => Prog.bind ((Rcfft2MPI.new X Y P r ip optA alltoall J).forward0 (re r) (some (cx r)) (wrk r)) fun _ =>
    Prog.bind ((Rcfft2MPI.new X Y P r ip optA alltoall J).backward0 (cx r) (some (re r)) (wrk r)) fun _ => (Rcfft2MPI.new X Y P r ip optA alltoall J).normalize (re r)
  have hprog : ∀ r, (Prog.bind ((Rcfft2MPI.new X Y P r ip optA alltoall J).forward0 (re r) (some (cx r)) (wrk r)) fun _ =>
      Prog.bind ((Rcfft2MPI.new X Y P r ip optA alltoall J).backward0 (cx r) (some (re r)) (wrk r)) fun _ => (Rcfft2MPI.new X Y P r ip optA alltoall J).normalize (re r)) =
      Prog.bind ((Rcfft2MPI.new X Y P r ip optA alltoall J).shift (some (re r))) fun _ =>
      Prog.bind ((Rcfft2MPI.new X Y P r ip optA alltoall J).forward (re r) (some (cx r)) (wrk r)) fun _ =>
      Prog.bind ((Rcfft2MPI.new X Y P r ip optA alltoall J).backward (cx r) (some (re r)) (wrk r)) fun _ =>
      Prog.bind ((Rcfft2MPI.new X Y P r ip optA alltoall J).shift (some (re r))) fun _ => (Rcfft2MPI.new X Y P r ip optA alltoall J).normalize (re r) := by
    intro r
    unfold Rcfft2MPI.forward0 Rcfft2MPI.backward0
    show Prog.bind (Prog.bind _ _) _ = _
    rw [Prog.bind_assoc]
    congr 1
    funext _
    congr 1
    funext _
    show Prog.bind (Prog.bind _ _) _ = _
    rw [Prog.bind_assoc]
  obtain ⟨t, t1, t2, t3, t4, _⟩ := rshift2_step (e := e) h2 (G := G) he.bufs.reSize (⟨fun i hi => by rw [hq.prog i hi, hprog i], hq.done, hq.req, hq.bal⟩) hG
  have et : (fun r => (t r).loc.size) = fun r => (σ r).size := funext fun r => t3 r
  obtain ⟨u, u1, u2, u3, u4, _⟩ := rforward2_step (e := e) hX hP ha (by rw [et]; exact he.bufs) t2 t4
  have eu : (fun r => (u r).loc.size) = fun r => (σ r).size := funext fun r => (u3 r).trans (t3 r)
  obtain ⟨v, v1, v2, v3, v4, _⟩ := rbackward2_step (e := e) hX hY hP ha (F := rdft2 X Y 0 fun i j => Rcfft2MPI.sgn i * G i j) (out := fun r => some (re r))
    (by rw [eu]; exact he.bufs) (fun _ _ => rfl) u2 (rdft2_herm (by simp) _) u4
  obtain ⟨z, z1, z2, z3, z4, _⟩ := rshift2_step (e := e) h2 (G := fun i j => (irdft2 X Y 0 (rdft2 X Y 0 fun i j => Rcfft2MPI.sgn i * G i j) i j).re)
    (fun r hr => by rw [v3, u3, t3]; exact he.bufs.reSize r hr) v2 (fun r hr i hi j hj => by
      have := congrArg Complex.re (v4 r hr i hi j hj)
      simpa using this)
  obtain ⟨y, y1, y2, y3, y4, _⟩ := rnormalize2_step (e := e) (fun r hr => by rw [z3, v3, u3, t3]; exact he.bufs.reSize r hr) z2.bindRet' z4
  refine allRuns ((((t1.trans u1).trans v1).trans z1).trans y1) y2.fin.1 ⟨y2.fin.2, ?_⟩
  intro r hr i hi j hj
  rw [y4 r hr i hi j hj]
  beta_reduce
  rw [mul_div_assoc, roundtrip_real hX hY (fun i j => Rcfft2MPI.sgn i * G i j) (first_lt hP hr hi) hj, ← mul_assoc]
  unfold Rcfft2MPI.sgn
  split_ifs <;> norm_num

/-- **C50**, `deNyquist`: the modes that have no opposite (index 0 in x of a transform with origin `X/2`, for even `X`; index `Y/2` in y,
for even `Y`) are set to zero and the others kept, provided that no process without columns starts exactly at the end
(`C50_deNyquist_refuted`). -/
theorem C50_deNyquist (e : Eager) (hX : 0 < X) (hP : 0 < P) {F : ℕ → ℕ → ℂ} (he : Rc2Env X Y P ip re cx wrk σ)
    (hno : Y % 2 = 0 → ∀ r < P, first (Y / 2 + 1) P r = Y / 2 + 1 → 0 < part (Y / 2 + 1) P r) (hG : HoldsSpec X (Y / 2 + 1) P F cx σ) :
    AllRuns e (start P (fun r => (Rcfft2MPI.new X Y P r ip optA alltoall J).deNyquist (cx r)) σ) fun f =>
      Finished P f ∧ HoldsSpec X (Y / 2 + 1) P (fun kx ky => if (X % 2 = 0 ∧ kx = 0) ∨ (Y % 2 = 0 ∧ ky = Y / 2) then 0 else F kx ky) cx fun r => (f r).loc := by
  obtain ⟨t, t1, t2, _, t4⟩ := deNyquist_step (e := e) hX hP (fun r hr => (Nat.add_le_add_left (by
    have := room_c (X := X) (Y := Y / 2 + 1) (P := P) (r := r); omega) _).trans (he.bufs.cxSize r hr)) hno (he.quiet _).bindRet' hG
  exact allRuns t1 t2.fin.1 ⟨t2.fin.2, t4⟩

/-- A process whose next call can never be executed stays there. -/
theorem stuck_forever {V : Type} {e : Eager} {r : ℕ} {a : Loc} {v : V} {k : Prog V Unit} {σ : Local V} (ha : ¬ σ.inBounds a) :
    ∀ {n : ℕ} {s t : St V}, StepN e n s t → s r = ⟨.op (.store a v) k, σ⟩ → t r = ⟨.op (.store a v) k, σ⟩ := by
  intro n s t h
  induction h with
  | zero s => exact id
  | succ h _ ih =>
    intro hs
    refine ih ?_
    obtain ⟨i, p, hp, rfl⟩ := h
    by_cases hi : i = r
    · subst hi
      exfalso
      unfold Proc.step at hp
      rw [hs] at hp
      simp only [Op.exec, Option.map_eq_some_iff] at hp
      obtain ⟨x, hx, _⟩ := hp
      split_ifs at hx with hc
      exact ha hc.1
    · rw [Function.update_of_ne (Ne.symm hi)]
      exact hs

/-- `deNyquist` writes to `f[4294967295]` on a process that has no column but starts exactly at column `Y/2+1` (for even `Y`): this process
never finishes.  For example with 4 processes and `Y = 4`, although `MPIgroup(comm,4)` keeps all 4 processes active. -/
theorem C50_deNyquist_refuted (e : Eager) (hX : 0 < X) (hY : Y % 2 = 0) {r : ℕ} (hr : r < P) (hf : first (Y / 2 + 1) P r = Y / 2 + 1)
    (hp : part (Y / 2 + 1) P r = 0) (hs : (σ r).size (cx r).buf < 2 ^ 33 - 2) {n : ℕ} {t : St ℝ}
    (ht : StepN e n (start P (fun r => (Rcfft2MPI.new X Y P r ip optA alltoall J).deNyquist (cx r)) σ) t) : (t r).prog ≠ .ret () ∧ ¬ Finished P t := by
  have hprog : ∃ k, (Rcfft2MPI.new X Y P r ip optA alltoall J).deNyquist (cx r) = .op (.store (cx r + (2 * (2 ^ 32 - 1) + 0)) 0) k := by
    have hy : (Rcfft2MPI.new X Y P r ip optA alltoall J).y = 0 := hp
    have hy0 : (Rcfft2MPI.new X Y P r ip optA alltoall J).y0 = Y / 2 + 1 := hf
    obtain ⟨X', rfl⟩ : ∃ X', X = X' + 1 := ⟨X - 1, by omega⟩
    unfold Rcfft2MPI.deNyquist
    rw [hy, hy0]
    have h1 : (if (Rcfft2MPI.new (X' + 1) Y P r ip optA alltoall J).X % 2 = 0 then
        Prog.calls ((List.range 0 ×ˢ List.range 2).map fun x => Op.store (cx r + (2 * x.1 + x.2)) (0 : ℝ)) else Prog.ret ()) = Prog.ret () := by
      split_ifs <;> rfl
    rw [h1]
    show ∃ k, (if Y % 2 = 0 ∧ Y / 2 + 1 + 0 = Y / 2 + 1 then _ else _) = _
    rw [if_pos ⟨hY, rfl⟩]
    show ∃ k, Prog.calls ((List.range (X' + 1) ×ˢ List.range 2).map _) = _
    rw [List.range_succ_eq_map]
    exact ⟨_, rfl⟩
  obtain ⟨k, hk⟩ := hprog
  have := stuck_forever (e := e) (r := r) (a := cx r + (2 * (2 ^ 32 - 1) + 0)) (v := (0 : ℝ)) (k := k) (σ := σ r)
    (by unfold Local.inBounds; simp only [Loc.add_off, Loc.add_buf]; omega) ht (by simp [start, hr, hk])
  have h2 : (t r).prog ≠ .ret () := by rw [this]; exact fun h => by cases h
  exact ⟨h2, fun h => h2 (h.1 r hr).1⟩

/-- Processes that have finished or failed make no step. -/
theorem no_step_of {V : Type} {e : Eager} {s : St V} (h : ∀ i, (s i).prog = .ret () ∨ (s i).prog = .fail) (u : St V) : ¬ Step e s u := by
  rintro ⟨i, p, hp, _⟩
  unfold Proc.step at hp
  rcases h i with h | h <;> rw [h] at hp <;> cases hp

/-- The default argument: `Backward0(g)` of an in-place object passes the null pointer to `Shift`; the process that holds row 1 never
finishes. -/
theorem C50_default_out_refuted (e : Eager) (hX : 0 < X) (h2 : X % 2 = 0) (hY : 0 < Y) (hP : 0 < P) (ha : 1 ≤ optA) {F : ℕ → ℕ → ℂ}
    {buf : ℕ → Loc} (he : Rc2Env X Y P true buf buf wrk σ) (hF : HermSpec2 X Y F) (hG : HoldsSpec X (Y / 2 + 1) P F buf σ) :
    AllRuns e (start P (fun r => (Rcfft2MPI.new X Y P r true optA alltoall J).backward0 (buf r) none (wrk r)) σ) fun f =>
      ∃ r < P, (f r).prog = .fail ∧ ¬ Finished P f := by
  obtain ⟨t, t1, t2, _⟩ := rbackward2_step (e := e) hX hY hP ha he.bufs (out := fun _ => none) (fun _ _ => rfl)
    (he.quiet fun r => (Rcfft2MPI.new X Y P r true optA alltoall J).backward0 (buf r) none (wrk r)) hF hG
  have hk : ∀ r, ((Rcfft2MPI.new X Y P r true optA alltoall J).shift none) = .ret () ∨ ((Rcfft2MPI.new X Y P r true optA alltoall J).shift none) = .fail := by
    intro r
    unfold Rcfft2MPI.shift
    simp only
    split_ifs <;> simp
  obtain ⟨r, hr, r1, r2⟩ := owner (N := X) (i := 1) hP (by omega)
  have hf : (t r).prog = .fail := by
    rw [t2.prog r hr]
    unfold Rcfft2MPI.shift
    simp only
    rw [if_pos (show (Rcfft2MPI.new X Y P r true optA alltoall J).X % 2 = 0 from h2), if_neg]
    intro h
    have : (1 - first X P r, 0) ∈ (Rcfft2MPI.oddRows (((Rcfft2MPI.new X Y P r true optA alltoall J).x0 + 1) % 2) (Rcfft2MPI.new X Y P r true optA alltoall J).x ×ˢ
        List.range (Rcfft2MPI.new X Y P r true optA alltoall J).Y) := by
      rw [List.mem_product, Rcfft2MPI.mem_oddRows, List.mem_range]
      refine ⟨?_, hY⟩
      show (first X P r + 1) % 2 ≤ _ ∧ _ < part X P r ∧ (_ - (first X P r + 1) % 2) % 2 = 0
      omega
    rw [h] at this
    cases this
  obtain ⟨n, hn⟩ := t1
  refine allRuns_of_run hn (no_step_of fun i => ?_) ⟨r, hr, hf, fun h => ?_⟩
  · by_cases hi : i < P
    · rw [t2.prog i hi]; exact hk i
    · exact Or.inl (t2.done i (by omega))
  · have := (h.1 r hr).1
    rw [hf] at this
    cases this

/-- A concrete state: real array in buffer 0, spectrum in buffer 1 (or 0, in place), work array in buffer 2. -/
noncomputable def exRc2 (X Y P : ℕ) (ip : Bool) (val : ℕ → Loc → ℝ) (r : ℕ) : Local ℝ where
  size b := if b < 3 then part X P r * rdist2 Y ip + 2 * room2 X (Y / 2 + 1) P r else 0
  mem := val r
  req _ := none
  sent _ := []
  rcvd _ := 0
  nsend := 0

theorem exRc2_env (X Y P : ℕ) (ip : Bool) (val : ℕ → Loc → ℝ) :
    Rc2Env X Y P ip (fun _ => ⟨0, 0⟩) (fun _ => ⟨if ip = true then 0 else 1, 0⟩) (fun _ => ⟨2, 0⟩) (exRc2 X Y P ip val) where
  bufs :=
    { reSize := fun r _ => by simp [exRc2]
      cxSize := fun r _ => by cases ip <;> simp [exRc2]
      wrkSize := fun r _ => by
        have := room_r (X := X) (Y := Y / 2 + 1) (P := P) (r := r)
        simp only [exRc2]
        rw [if_pos (by norm_num)]
        omega
      rewrk := fun _ _ => by simp
      cxwrk := fun _ _ => by cases ip <;> simp
      same := fun _ _ => by cases ip <;> simp
      sep := fun _ _ => by cases ip <;> simp }
  req _ _ _ := rfl
  bal _ _ _ _ _ := rfl

/-- Any real array can be distributed. -/
noncomputable def exReal (X Y P : ℕ) (ip : Bool) (G : ℕ → ℕ → ℝ) (r : ℕ) (a : Loc) : ℝ := G (first X P r + a.off / rdist2 Y ip) (a.off % rdist2 Y ip)

theorem exReal_holds (X Y P : ℕ) (ip : Bool) (G : ℕ → ℕ → ℝ) : HoldsReal X Y P (rdist2 Y ip) G (fun _ => ⟨0, 0⟩) (exRc2 X Y P ip (exReal X Y P ip G)) := by
  intro r _ i _ j hj
  have h : j < rdist2 Y ip := lt_of_lt_of_le hj (by unfold rdist2; split_ifs <;> omega)
  simp only [exRc2, exReal, Loc.add_off, Nat.zero_add]
  rw [Nat.mul_comm i, Nat.mul_add_div (by omega), Nat.div_eq_of_lt h, Nat.mul_add_mod, Nat.mod_eq_of_lt h, Nat.add_zero]

/-- Any half spectrum can be distributed. -/
noncomputable def exSpec (Y P : ℕ) (F : ℕ → ℕ → ℂ) (r : ℕ) (a : Loc) : ℝ :=
  cpart (F (a.off / 2 / part (Y / 2 + 1) P r) (first (Y / 2 + 1) P r + a.off / 2 % part (Y / 2 + 1) P r)) (a.off % 2)

theorem exSpec_holds (X Y P : ℕ) (ip : Bool) (F : ℕ → ℕ → ℂ) :
    HoldsSpec X (Y / 2 + 1) P F (fun _ => ⟨if ip = true then 0 else 1, 0⟩) (exRc2 X Y P ip (exSpec Y P F)) := by
  intro r _ i _ j hj
  refine cget_of fun c hc => ?_
  simp only [exRc2, exSpec, Loc.add_off, Nat.zero_add]
  rw [show (2 * (i * part (Y / 2 + 1) P r + j) + c) / 2 = i * part (Y / 2 + 1) P r + j by omega,
    show (2 * (i * part (Y / 2 + 1) P r + j) + c) % 2 = c by omega, Nat.mul_comm i, Nat.mul_add_div (by omega), Nat.div_eq_of_lt hj, Nat.mul_add_mod,
    Nat.mod_eq_of_lt hj, Nat.add_zero]

/-- Instances: a 4×7 array on 3 processes out of place, in place, with an arbitrary real array. -/
example (e : Eager) (J : (Loc → ℝ) → Loc → ℝ) (G : ℕ → ℕ → ℝ) := C50_forward (X := 5) (Y := 7) (P := 3) (optA := 1) (alltoall := 1) (J := J) e (by norm_num) (by norm_num) le_rfl
  (exRc2_env 5 7 3 false _) (exReal_holds 5 7 3 false G)
example (e : Eager) (J : (Loc → ℝ) → Loc → ℝ) (G : ℕ → ℕ → ℝ) := C50_forward0 (X := 4) (Y := 8) (P := 4) (optA := 2) (alltoall := 2) (J := J) e (by norm_num) (by norm_num) (by norm_num)
  (by norm_num) (exRc2_env 4 8 4 true _) (exReal_holds 4 8 4 true G)
example (e : Eager) (J : (Loc → ℝ) → Loc → ℝ) (G : ℕ → ℕ → ℝ) := C50_backward (X := 5) (Y := 6) (P := 2) (optA := 1) (alltoall := 0) (J := J) (F := rdft2 5 6 0 G) e (by norm_num)
  (by norm_num) (by norm_num) le_rfl (exRc2_env 5 6 2 true _) (out := fun _ => none) (fun _ _ => Or.inr ⟨rfl, rfl⟩) (rdft2_herm (by norm_num) G)
  (exSpec_holds 5 6 2 true (rdft2 5 6 0 G))
example (e : Eager) (J : (Loc → ℝ) → Loc → ℝ) (G : ℕ → ℕ → ℝ) := C50_backward0 (X := 4) (Y := 6) (P := 2) (optA := 1) (alltoall := 0) (J := J) (F := rdft2 4 6 2 G) e (by norm_num)
  (by norm_num) (by norm_num) (by norm_num) le_rfl (exRc2_env 4 6 2 false _) (rdft2_herm (by norm_num) G) (exSpec_holds 4 6 2 false (rdft2 4 6 2 G))
example (e : Eager) (J : (Loc → ℝ) → Loc → ℝ) (G : ℕ → ℕ → ℝ) := C50_roundtrip (X := 2) (Y := 3) (P := 5) (optA := 1) (alltoall := 1) (J := J) e (by norm_num) (by norm_num)
  (by norm_num) le_rfl (exRc2_env 2 3 5 true _) (exReal_holds 2 3 5 true G)
example (e : Eager) (J : (Loc → ℝ) → Loc → ℝ) (G : ℕ → ℕ → ℝ) := C50_roundtrip0 (X := 6) (Y := 4) (P := 3) (optA := 1) (alltoall := 1) (J := J) e (by norm_num) (by norm_num) (by norm_num)
  (by norm_num) le_rfl (exRc2_env 6 4 3 false _) (exReal_holds 6 4 3 false G)
example (e : Eager) (J : (Loc → ℝ) → Loc → ℝ) (F : ℕ → ℕ → ℂ) := C50_deNyquist (X := 4) (Y := 6) (P := 2) (optA := 1) (alltoall := 1) (J := J) e (by norm_num) (by norm_num)
  (exRc2_env 4 6 2 true _) (by decide) (exSpec_holds 4 6 2 true F)
example (e : Eager) (J : (Loc → ℝ) → Loc → ℝ) (F : ℕ → ℕ → ℂ) (n : ℕ) (t : St ℝ) := C50_deNyquist_refuted (X := 2) (Y := 4) (P := 4) (optA := 1) (alltoall := 1) (J := J) (ip := true)
  (cx := fun _ => ⟨0, 0⟩) (σ := exRc2 2 4 4 true (exSpec 4 4 F)) e (by norm_num) (by norm_num) (r := 3) (by norm_num) (by decide) (by decide)
  (by show part 2 4 3 * rdist2 4 true + 2 * room2 2 3 4 3 < _; decide) (n := n) (t := t)
/-- `MPIgroup(comm,4)` on 4 processes keeps 4 of them. -/
example : Mpi.groupSize1 4 4 = 4 := by decide
example (e : Eager) (J : (Loc → ℝ) → Loc → ℝ) (G : ℕ → ℕ → ℝ) := C50_default_out_refuted (X := 4) (Y := 6) (P := 2) (optA := 1) (alltoall := 0) (J := J) (F := rdft2 4 6 2 G) e
  (by norm_num) (by norm_num) (by norm_num) (by norm_num) le_rfl (exRc2_env 4 6 2 true _) (rdft2_herm (by norm_num) G) (exSpec_holds 4 6 2 true (rdft2 4 6 2 G))

end Fftwpp.Net
