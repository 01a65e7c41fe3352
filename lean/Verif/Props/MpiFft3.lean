import Verif.Proof.MpiFft3b
import Verif.Props.MpiRcfft

/-!
# C51: distributed three-dimensional Fourier transforms

`fft3dMPI` (mpi/mpifftw++.h) on the processes of an `MPIgroup(comm,X,Y,allowPencil)` made from `N` processes: the first
`Mpi.groupSize2 X Y N pencil` of them take part, in slabs or in a grid of pencils, as `MPIgroup` decides.
`d r = split3(X,Y,Z,group)` on process `r` (C39, C40).  `HoldsXY Q d 1 G buf σ` (Proof/Grid.lean): each process holds, contiguously at
`buf r`, the points of the global array `G` with `x` and `y` in its ranges and all `z`; `HoldsYZ`: those with `y` and `z` in its ranges and
all `x`.
-/

namespace Fftwpp.Net
variable {X Y Z N : ℕ} {pencil : Bool} {ip : Bool} {xy yz : ℕ × ℕ} {inp out wxy wyz : ℕ → Loc} {σ : ℕ → Local ℂ}

/-- The state in which a transform is started: arrays of `d.n` points, work arrays of the transposes (the second only if it is used),
no pending request, no message in transit. -/
structure Fft3Env (X Y Z N : ℕ) (pencil ip : Bool) (inp out wxy wyz : ℕ → Loc) (σ : ℕ → Local ℂ) : Prop where
  bufs : Fft3Bufs (Mpi.groupSize2 X Y N pencil) (groupSplit3 X Y Z X Y N pencil) ip inp out wxy wyz fun r => (σ r).size
  req : ∀ r < Mpi.groupSize2 X Y N pencil, ∀ id, (σ r).req id = none
  bal : ∀ i < Mpi.groupSize2 X Y N pencil, ∀ j < Mpi.groupSize2 X Y N pencil, ∀ ctx, ((σ i).sent (j, ctx)).length = (σ j).rcvd (i, ctx)

/-- What a transform leaves behind: every process finished, no message in transit, `R` of the memories, nothing written but the output
array and the work arrays. -/
def Fft3End (X Y Z N : ℕ) (pencil : Bool) (R : (ℕ → Local ℂ) → Prop) (out wxy wyz : ℕ → Loc) (σ : ℕ → Local ℂ) (f : St ℂ) : Prop :=
  Finished (Mpi.groupSize2 X Y N pencil) f ∧ R (fun r => (f r).loc) ∧ (∀ r < Mpi.groupSize2 X Y N pencil, (f r).loc.size = (σ r).size) ∧
  Frame3 (Mpi.groupSize2 X Y N pencil) (groupSplit3 X Y Z X Y N pencil) out wxy wyz σ fun r => (f r).loc

theorem start_congr {V : Type} {P : ℕ} {p p' : ℕ → Prog V Unit} {σ : ℕ → Local V} (h : ∀ r < P, p r = p' r) : start P p σ = start P p' σ := by
  funext r
  unfold start
  by_cases hr : r < P
  · simp only [hr, if_true, h r hr]
  · simp only [hr, if_false]

/-- **C51**, `Forward`: for all dimensions, process counts, slabs or pencils, algorithms of the transposes, in place or not, every global
array `G` distributed in x and y, all orders of execution and all choices of the MPI library: every run is finite, and ends with every
process finished, no message in transit and the three-dimensional DFT of `G` distributed in y and z. -/
theorem C51_forward (e : Eager) (hX : 0 < X) (hY : 0 < Y) (hZ : 0 < Z) (hN : 0 < N) (hxy : 1 ≤ xy.1) (hyz : 1 ≤ yz.1) (sign : ℤ) {G : ℕ → ℕ → ℕ → ℂ}
    (he : Fft3Env X Y Z N pencil ip inp out wxy wyz σ)
    (hG : HoldsXY (Mpi.groupSize2 X Y N pencil) (groupSplit3 X Y Z X Y N pencil) 1 G inp σ) :
    AllRuns e (start (Mpi.groupSize2 X Y N pencil)
        (fun r => (Fft3MPI.new X Y Z N pencil r sign ip xy yz).forward (inp r) (some (out r)) (wxy r) (wyz r)) σ)
      (Fft3End X Y Z N pencil (HoldsYZ (Mpi.groupSize2 X Y N pencil) (groupSplit3 X Y Z X Y N pencil) 1 (dft3 X Y Z sign G) out) out wxy wyz σ) := by
  obtain ⟨Px, Py, hPx, hPy, hQ, hg, hnew⟩ := fft3_new (pencil := pencil) hX hY hN
  obtain ⟨hb, hr, hbal⟩ := he
  unfold Fft3End
  rw [hQ] at hG hb hr hbal ⊢
  rw [start_congr fun r hr => by rw [(hnew r hr Z sign ip xy yz).1]]
  obtain ⟨t, t1, t2, t3, t4, t5⟩ := forward3_step (e := e) hX hY hZ hPx hPy hxy hyz (fun r hr => (hnew r hr Z sign ip xy yz).2) hg hb
    (quiet_start hr hbal _).bindRet' hG
  exact allRuns t1 t2.fin.1 ⟨t2.fin.2, t4, fun r _ => t3 r, t5⟩

/-- **C51**, `Backward`: the transform of the opposite sign, back to the distribution in x and y.  Out of place the input is preserved
(unlike that of `fft2dMPI`, C49). -/
theorem C51_backward (e : Eager) (hX : 0 < X) (hY : 0 < Y) (hZ : 0 < Z) (hN : 0 < N) (hxy : 1 ≤ xy.1) (hyz : 1 ≤ yz.1) (sign : ℤ) {G : ℕ → ℕ → ℕ → ℂ}
    (he : Fft3Env X Y Z N pencil ip inp out wxy wyz σ)
    (hG : HoldsYZ (Mpi.groupSize2 X Y N pencil) (groupSplit3 X Y Z X Y N pencil) 1 G inp σ) :
    AllRuns e (start (Mpi.groupSize2 X Y N pencil)
        (fun r => (Fft3MPI.new X Y Z N pencil r sign ip xy yz).backward (inp r) (some (out r)) (wxy r) (wyz r)) σ)
      (Fft3End X Y Z N pencil (HoldsXY (Mpi.groupSize2 X Y N pencil) (groupSplit3 X Y Z X Y N pencil) 1 (dft3 X Y Z (-sign) G) out) out wxy wyz σ) := by
  obtain ⟨Px, Py, hPx, hPy, hQ, hg, hnew⟩ := fft3_new (pencil := pencil) hX hY hN
  obtain ⟨hb, hr, hbal⟩ := he
  unfold Fft3End
  rw [hQ] at hG hb hr hbal ⊢
  rw [start_congr fun r hr => by rw [(hnew r hr Z sign ip xy yz).1]]
  obtain ⟨t, t1, t2, t3, t4, t5⟩ := backward3_step (e := e) hX hY hZ hPx hPy hxy hyz (fun r hr => (hnew r hr Z sign ip xy yz).2) hg hb
    (quiet_start hr hbal _).bindRet' hG
  exact allRuns t1 t2.fin.1 ⟨t2.fin.2, t4, fun r _ => t3 r, t5⟩

/-- **C51**: `Forward(f,g); Backward(g,f); Normalize(f)`, without any synchronisation in between, gives back the array. -/
theorem C51_roundtrip (e : Eager) (hX : 0 < X) (hY : 0 < Y) (hZ : 0 < Z) (hN : 0 < N) (hxy : 1 ≤ xy.1) (hyz : 1 ≤ yz.1) {sign : ℤ}
    (hs : sign = 1 ∨ sign = -1) {G : ℕ → ℕ → ℕ → ℂ} (he : Fft3Env X Y Z N pencil ip inp out wxy wyz σ)
    (hG : HoldsXY (Mpi.groupSize2 X Y N pencil) (groupSplit3 X Y Z X Y N pencil) 1 G inp σ) :
    AllRuns e (start (Mpi.groupSize2 X Y N pencil) (fun r => do
        let fft := Fft3MPI.new X Y Z N pencil r sign ip xy yz
        fft.forward (inp r) (some (out r)) (wxy r) (wyz r)
        fft.backward (out r) (some (inp r)) (wxy r) (wyz r)
        fft.normalize (inp r)) σ)
      fun f => Finished (Mpi.groupSize2 X Y N pencil) f ∧
        HoldsXY (Mpi.groupSize2 X Y N pencil) (groupSplit3 X Y Z X Y N pencil) 1 G inp fun r => (f r).loc := by
  obtain ⟨Px, Py, hPx, hPy, hQ, hg, hnew⟩ := fft3_new (pencil := pencil) hX hY hN
  obtain ⟨hb, hr, hbal⟩ := he
  rw [hQ] at hG hb hr hbal ⊢
  have hd : ∀ r < Px * Py, groupSplit3 X Y Z X Y N pencil r = mkSplit3 X Y Z (r / Py) Px (r % Py) Py := fun r hr => (hnew r hr Z sign ip xy yz).2
  rw [start_congr (p' := fun r => ((gridFft3 X Y Z Px Py r sign ip xy yz).forward (inp r) (some (out r)) (wxy r) (wyz r)).bind fun _ =>
    ((gridFft3 X Y Z Px Py r sign ip xy yz).backward (out r) (some (inp r)) (wxy r) (wyz r)).bind fun _ =>
    (gridFft3 X Y Z Px Py r sign ip xy yz).normalize (inp r)) fun r hr => by rw [(hnew r hr Z sign ip xy yz).1]; rfl]
  obtain ⟨t, t1, t2, t3, t4, _⟩ := forward3_step (e := e) hX hY hZ hPx hPy hxy hyz hd hg hb (quiet_start hr hbal _) hG
  have et : (fun r => (t r).loc.size) = fun r => (σ r).size := funext fun r => t3 r
  obtain ⟨u, u1, u2, u3, u4, _⟩ := backward3_step (e := e) hX hY hZ hPx hPy hxy hyz hd hg (by rw [et]; exact hb.swap) t2 t4
  obtain ⟨v, v1, v2, v3, v4⟩ := normalize3_step (e := e) hd (fun r hr => by rw [u3, t3]; exact hb.inSize r hr) u2.bindRet' u4
  refine allRuns ((t1.trans u1).trans v1) v2.fin.1 ⟨v2.fin.2, ?_⟩
  intro r hr i hi j hj l hl
  rw [v4 r hr i hi j hj l hl]
  beta_reduce
  have hq' : r / Py < Px := (Nat.div_lt_iff_lt_mul hPy).2 hr
  rw [hd r hr] at hi hj hl ⊢
  rw [Nat.mul_one] at hl
  show dft3 X Y Z (-sign) (dft3 X Y Z sign G) (first X Px (r / Py) + i) (first Y Py (r % Py) + j) l / _ = _
  rw [dft3_inv X Y Z sign hs G (first_lt hPx hq' hi) (first_lt hPy (Nat.mod_lt _ hPy) hj) hl]
  have : ((X * Y * Z : ℕ) : ℂ) ≠ 0 := by exact_mod_cast (Nat.mul_pos (Nat.mul_pos hX hY) hZ).ne'
  exact mul_div_cancel_left₀ _ this

theorem part_zero_pos {M P : ℕ} (hM : 0 < M) (hP : 0 < P) : 0 < part M P 0 := by
  by_contra hc
  have h1 : part M P 0 = 0 := by omega
  unfold part Mpi.localdimension at h1
  have hc1 : 1 ≤ ceilquotient M P := by
    unfold ceilquotient
    exact (Nat.le_div_iff_mul_le hP).2 (by omega)
  simp only [Nat.cast_zero, mul_zero, sub_zero] at h1
  split_ifs at h1 <;> omega

/-- The default argument: `Forward(f)` of an in-place object passes the null pointer to `ForwardWait0` or `ForwardWait1`; process 0 (which
always holds data) never finishes. -/
theorem C51_default_out_refuted (e : Eager) (hX : 0 < X) (hY : 0 < Y) (hZ : 0 < Z) (hN : 0 < N) (hxy : 1 ≤ xy.1) (hyz : 1 ≤ yz.1) (sign : ℤ)
    {G : ℕ → ℕ → ℕ → ℂ} {buf : ℕ → Loc} (he : Fft3Env X Y Z N pencil true buf buf wxy wyz σ)
    (hG : HoldsXY (Mpi.groupSize2 X Y N pencil) (groupSplit3 X Y Z X Y N pencil) 1 G buf σ) :
    AllRuns e (start (Mpi.groupSize2 X Y N pencil)
        (fun r => (Fft3MPI.new X Y Z N pencil r sign true xy yz).forward (buf r) none (wxy r) (wyz r)) σ)
      fun f => (f 0).prog = .fail ∧ ¬ Finished (Mpi.groupSize2 X Y N pencil) f := by
  obtain ⟨Px, Py, hPx, hPy, hQ, hg, hnew⟩ := fft3_new (pencil := pencil) hX hY hN
  obtain ⟨hb, hr, hbal⟩ := he
  rw [hQ] at hG hb hr hbal ⊢
  have hd : ∀ r < Px * Py, groupSplit3 X Y Z X Y N pencil r = mkSplit3 X Y Z (r / Py) Px (r % Py) Py := fun r hr => (hnew r hr Z sign true xy yz).2
  have h0 : 0 < Px * Py := Nat.mul_pos hPx hPy
  rw [start_congr fun r hr => by rw [(hnew r hr Z sign true xy yz).1]]
  have hw0 : ∀ r, (gridFft3 X Y Z Px Py r sign true xy yz).forwardWait0 none (wxy r) = .ret () ∨
      (gridFft3 X Y Z Px Py r sign true xy yz).forwardWait0 none (wxy r) = .fail := by
    intro r
    unfold Fft3MPI.forwardWait0
    simp only
    split_ifs <;> simp
  have hw1 : ∀ r, (gridFft3 X Y Z Px Py r sign true xy yz).forwardWait1 none = .ret () ∨
      (gridFft3 X Y Z Px Py r sign true xy yz).forwardWait1 none = .fail := by
    intro r
    unfold Fft3MPI.forwardWait1
    simp only
    split_ifs <;> simp
  have hp0 : ∀ M P, 0 < M → 0 < P → part M P (0 / Py) ≠ 0 ∧ part M P (0 % Py) ≠ 0 := fun M P hM hP => by
    rw [Nat.zero_div, Nat.zero_mod]
    exact ⟨(part_zero_pos hM hP).ne', (part_zero_pos hM hP).ne'⟩
  have hf0 : (gridFft3 X Y Z Px Py 0 sign true xy yz).forwardWait0 none (wxy 0) = .fail := by
    unfold Fft3MPI.forwardWait0
    simp only
    rw [if_neg]
    have h1 := (hp0 X Px hX hPx).1
    have h2 := (hp0 Z Py hZ hPy).2
    rintro (h | h | h)
    · exact h1 h
    · exact hY.ne' h
    · exact h2 h
  have hf1 : (gridFft3 X Y Z Px Py 0 sign true xy yz).forwardWait1 none = .fail := by
    unfold Fft3MPI.forwardWait1
    simp only
    rw [if_neg]
    have h1 := (hp0 Y Px hY hPx).1
    have h2 := (hp0 Z Py hZ hPy).2
    rintro (h | h | h)
    · exact hX.ne' h
    · exact h1 h
    · exact h2 h
  -- a state in which every program has ended or failed, and that of process 0 has failed
  have key : ∀ (t : St ℂ) (k : ℕ → Prog ℂ Unit),
      Steps e (start (Px * Py) (fun r => (gridFft3 X Y Z Px Py r sign true xy yz).forward (buf r) none (wxy r) (wyz r)) σ) t → Quiet (Px * Py) k t →
      (∀ r < Px * Py, k r = .ret () ∨ k r = .fail) → k 0 = .fail →
      AllRuns e (start (Px * Py) (fun r => (gridFft3 X Y Z Px Py r sign true xy yz).forward (buf r) none (wxy r) (wyz r)) σ)
        fun f => (f 0).prog = .fail ∧ ¬ Finished (Px * Py) f := by
    rintro t k ⟨n, hn⟩ hq hk hk0
    have hf : (t 0).prog = .fail := by rw [hq.prog 0 h0, hk0]
    refine allRuns_of_run hn (no_step_of fun i => ?_) ⟨hf, fun h => ?_⟩
    · by_cases hi : i < Px * Py
      · rw [hq.prog i hi]; exact hk i hi
      · exact Or.inl (hq.done i (by omega))
    · have := (h.1 0 h0).1
      rw [hf] at this
      cases this
  have hq := quiet_start hr hbal fun r => (gridFft3 X Y Z Px Py r sign true xy yz).forward (buf r) none (wxy r) (wyz r)
  by_cases hp : Py = 1
  · have hprog : ∀ r < Px * Py, (gridFft3 X Y Z Px Py r sign true xy yz).forward (buf r) none (wxy r) (wyz r) =
        (mid0 (gridFft3 X Y Z Px Py r sign true xy yz) (buf r) (buf r) (wyz r)).bind fun _ =>
          (((MT.mk' X Y ((groupSplit3 X Y Z X Y N pencil r).yz.y * 1) Px (r / Py) xy.1 xy.2).localize0 (buf r) (buf r) (wxy r)).on
            (colComm Px Py (r % Py)) id).bind fun _ => (gridFft3 X Y Z Px Py r sign true xy yz).forwardWait1 none := by
      intro r hr
      unfold Fft3MPI.forward mid0
      simp only [Option.getD_none]
      rw [if_pos (by simp [gridFft3]), show (gridFft3 X Y Z Px Py r sign true xy yz).Tyz = none from if_pos hp, hd r hr, Nat.mul_one]
      show Prog.bind (Prog.bind _ fun _ => _) _ = _
      simp only [Prog.bind_assoc]
      rfl
    obtain ⟨t, t1, t2, t3, t4, _⟩ := fft3_mid0 (e := e) (s := start (Px * Py) (fun r => (gridFft3 X Y Z Px Py r sign true xy yz).forward (buf r) none (wxy r) (wyz r)) σ)
      (sign := sign) (xy := xy) (yz := yz) (wxy := wxy) (k := fun r =>
          (((MT.mk' X Y ((groupSplit3 X Y Z X Y N pencil r).yz.y * 1) Px (r / Py) xy.1 xy.2).localize0 (buf r) (buf r) (wxy r)).on
            (colComm Px Py (r % Py)) id).bind fun _ => (gridFft3 X Y Z Px Py r sign true xy yz).forwardWait1 none)
      hY hZ hPx hPy hyz hd hg hb ⟨fun i hi => by rw [hq.prog i hi, hprog i hi], hq.done, hq.req, hq.bal⟩ hG
    have et : ∀ r, (t r).loc.size = (σ r).size := t3
    obtain ⟨u, u1, u2, _⟩ := txy0_step (e := e) hX hY hPx hPy hxy hd (c := 1) (out := buf) (wrk := wxy) (s := t) (cx := id) Function.injective_id
      { outSize := fun r hr => by
          rw [et]; exact (Nat.add_le_add_left (n_xy _) _).trans (hb.outSize r hr)
        wrkSize := fun r hr => by
          have := hb.wxySize r hr
          rw [show (groupSplit3 X Y Z X Y N pencil r).Y = Y by rw [hd r hr]; rfl] at this
          rw [et, Nat.mul_one]
          exact this
        outwrk := hb.outwxy } t2 t4
    exact key u _ (t1.trans u1) u2 (fun r _ => hw1 r) hf1
  · have hprog : ∀ r < Px * Py, (gridFft3 X Y Z Px Py r sign true xy yz).forward (buf r) none (wxy r) (wyz r) =
        ((Mfft.new Z sign ((groupSplit3 X Y Z X Y N pencil r).xy.x * (groupSplit3 X Y Z X Y N pencil r).yz.x) 1 Z true).fft (buf r) (buf r)).bind fun _ =>
          (((MT.mk' Y Z 1 Py (r % Py) yz.1 yz.2).localize0 (buf r) (buf r) (wyz r)).on (rowComm Px Py (r / Py)) (· + 20)).bind fun _ =>
          ((gridFft3 X Y Z Px Py r sign true xy yz).forwardWait0 none (wxy r)).bind fun _ =>
          (gridFft3 X Y Z Px Py r sign true xy yz).forwardWait1 none := by
      intro r hr
      unfold Fft3MPI.forward
      simp only [Option.getD_none]
      rw [if_pos (by simp [gridFft3]), show (gridFft3 X Y Z Px Py r sign true xy yz).Tyz = some (MT.mk' Y Z 1 Py (r % Py) yz.1 yz.2) from if_neg hp, hd r hr]
      show Prog.bind (Prog.bind _ fun _ => Prog.bind _ fun _ => _) _ = _
      simp only [Prog.bind_assoc]
      rfl
    obtain ⟨t, t1, t2, _⟩ := fft3_z0 (e := e) (s := start (Px * Py) (fun r => (gridFft3 X Y Z Px Py r sign true xy yz).forward (buf r) none (wxy r) (wyz r)) σ)
      (sign := sign) (ip := true) (wxy := wxy) hY hZ hPx hPy hyz hd
      (fun r hr => by rw [hd r hr]; exact ((hg.resolve_left hp) r hr).1) (fun r hr => by rw [hd r hr]; exact ((hg.resolve_left hp) r hr).2) hb
      (k := fun r => ((gridFft3 X Y Z Px Py r sign true xy yz).forwardWait0 none (wxy r)).bind fun _ =>
          (gridFft3 X Y Z Px Py r sign true xy yz).forwardWait1 none)
      ⟨fun i hi => by rw [hq.prog i hi, hprog i hi], hq.done, hq.req, hq.bal⟩ hG
    refine key t _ t1 t2 (fun r _ => ?_) ?_
    · rcases hw0 r with h | h
      · rw [h]; exact hw1 r
      · rw [h]; exact Or.inr rfl
    · rw [hf0]; rfl

/-- A concrete state: input in buffer 0, output in buffer 1 (or 0, in place), work arrays in buffers 2 and 3. -/
def exFft3 (X Y Z N : ℕ) (pencil : Bool) (val : ℕ → Loc → ℂ) (r : ℕ) : Local ℂ where
  size b := if b < 4 then (groupSplit3 X Y Z X Y N pencil r).n + Y * Z else 0
  mem := val r
  req _ := none
  sent _ := []
  rcvd _ := 0
  nsend := 0

theorem exFft3_env (X Y Z N : ℕ) (pencil ip : Bool) (val : ℕ → Loc → ℂ) :
    Fft3Env X Y Z N pencil ip (fun _ => ⟨0, 0⟩) (fun _ => ⟨if ip = true then 0 else 1, 0⟩) (fun _ => ⟨2, 0⟩) (fun _ => ⟨3, 0⟩) (exFft3 X Y Z N pencil val) where
  bufs :=
    { inSize := fun r _ => by simp [exFft3]
      outSize := fun r _ => by cases ip <;> simp [exFft3]
      wxySize := fun r _ => by
        have h : (groupSplit3 X Y Z X Y N pencil r).xy.x * (groupSplit3 X Y Z X Y N pencil r).Y * (groupSplit3 X Y Z X Y N pencil r).yz.y ≤
            (groupSplit3 X Y Z X Y N pencil r).n := (Nat.mul_le_mul_right _ (le_max_right _ _)).trans (le_max_left _ _)
        simp only [exFft3]
        rw [if_pos (by norm_num)]
        omega
      wyzSize := fun r _ h => by
        have h1 : (groupSplit3 X Y Z X Y N pencil r).yz.x * (groupSplit3 X Y Z X Y N pencil r).Z ≤ Y * Z := Nat.mul_le_mul_right Z h.le
        simp only [exFft3]
        rw [if_pos (by norm_num)]
        omega
      inwxy := fun _ _ => by simp
      inwyz := fun _ _ _ => by simp
      outwxy := fun _ _ => by cases ip <;> simp
      outwyz := fun _ _ _ => by cases ip <;> simp
      same := fun _ _ => by cases ip <;> simp
      sep := fun _ _ => by cases ip <;> simp }
  req _ _ _ := rfl
  bal _ _ _ _ _ := rfl

/-- Values distributed in x and y. -/
def exXY (X Y Z N : ℕ) (pencil : Bool) (G : ℕ → ℕ → ℕ → ℂ) (r : ℕ) (a : Loc) : ℂ :=
  let d := groupSplit3 X Y Z X Y N pencil r
  G (d.xy.x0 + a.off / Z / d.yz.x) (d.yz.x0 + a.off / Z % d.yz.x) (a.off % Z)

theorem exXY_holds (X Y Z N : ℕ) (pencil : Bool) (G : ℕ → ℕ → ℕ → ℂ) :
    HoldsXY (Mpi.groupSize2 X Y N pencil) (groupSplit3 X Y Z X Y N pencil) 1 G (fun _ => ⟨0, 0⟩) (exFft3 X Y Z N pencil (exXY X Y Z N pencil G)) := by
  intro r _ i hi j hj l hl
  rw [Nat.mul_one] at hl ⊢
  have hl' : l < Z := hl
  show exXY X Y Z N pencil G r _ = _
  unfold exXY
  simp only [Loc.add_off, Nat.zero_add]
  show G (_ + ((i * _ + j) * Z + l) / Z / _) _ _ = _
  rw [grid_div hl', grid_div hj]
  show G _ (_ + ((i * _ + j) * Z + l) / Z % _) (((i * _ + j) * Z + l) % Z) = _
  rw [grid_div hl', grid_mod hj, grid_mod hl']

/-- Values distributed in y and z. -/
def exYZ (X Y Z N : ℕ) (pencil : Bool) (G : ℕ → ℕ → ℕ → ℂ) (r : ℕ) (a : Loc) : ℂ :=
  let d := groupSplit3 X Y Z X Y N pencil r
  G (a.off / d.yz.y / d.xy.y) (d.xy.y0 + a.off / d.yz.y % d.xy.y) (d.yz.y0 + a.off % d.yz.y)

theorem exYZ_holds (X Y Z N : ℕ) (pencil : Bool) (G : ℕ → ℕ → ℕ → ℂ) :
    HoldsYZ (Mpi.groupSize2 X Y N pencil) (groupSplit3 X Y Z X Y N pencil) 1 G (fun _ => ⟨0, 0⟩) (exFft3 X Y Z N pencil (exYZ X Y Z N pencil G)) := by
  intro r _ i hi j hj l hl
  rw [Nat.mul_one] at hl ⊢
  rw [Nat.mul_one]
  show exYZ X Y Z N pencil G r _ = _
  unfold exYZ
  simp only [Loc.add_off, Nat.zero_add]
  rw [grid_div hl, grid_div hj, grid_mod hj, grid_mod hl]

/-- The groups of the instances below: pencils in a grid of 3 × 2 (of 7 processes, 6 are active), slabs on 3 processes. -/
example : Mpi.groupSize2 3 4 7 true = 6 ∧ Mpi.groupMajor 3 4 7 true = 2 ∧ Mpi.groupSize2 5 4 3 false = 3 ∧ Mpi.groupMajor 5 4 3 false = 1 := by decide

example (e : Eager) (G : ℕ → ℕ → ℕ → ℂ) := C51_forward e (X := 3) (Y := 4) (Z := 5) (N := 7) (pencil := true) (xy := (1, 1)) (yz := (1, 0)) (by norm_num)
  (by norm_num) (by norm_num) (by norm_num) le_rfl le_rfl (-1) (exFft3_env 3 4 5 7 true false _) (exXY_holds 3 4 5 7 true G)
example (e : Eager) (G : ℕ → ℕ → ℕ → ℂ) := C51_backward e (X := 3) (Y := 4) (Z := 5) (N := 7) (pencil := true) (xy := (2, 1)) (yz := (1, 2)) (by norm_num)
  (by norm_num) (by norm_num) (by norm_num) (by norm_num) le_rfl (-1) (exFft3_env 3 4 5 7 true false _) (exYZ_holds 3 4 5 7 true G)
example (e : Eager) (G : ℕ → ℕ → ℕ → ℂ) := C51_roundtrip e (X := 3) (Y := 4) (Z := 5) (N := 7) (pencil := true) (xy := (2, 1)) (yz := (1, 2)) (by norm_num)
  (by norm_num) (by norm_num) (by norm_num) (by norm_num) le_rfl (sign := -1) (Or.inr rfl) (exFft3_env 3 4 5 7 true true _) (exXY_holds 3 4 5 7 true G)
example (e : Eager) (G : ℕ → ℕ → ℕ → ℂ) := C51_roundtrip e (X := 5) (Y := 4) (Z := 3) (N := 3) (pencil := false) (xy := (1, 1)) (yz := (1, 1)) (by norm_num)
  (by norm_num) (by norm_num) (by norm_num) le_rfl le_rfl (sign := 1) (Or.inl rfl) (exFft3_env 5 4 3 3 false false _) (exXY_holds 5 4 3 3 false G)
example (e : Eager) (G : ℕ → ℕ → ℕ → ℂ) := C51_default_out_refuted e (X := 3) (Y := 4) (Z := 5) (N := 7) (pencil := true) (xy := (1, 1)) (yz := (1, 0)) (by norm_num)
  (by norm_num) (by norm_num) (by norm_num) le_rfl le_rfl (-1) (exFft3_env 3 4 5 7 true true _) (exXY_holds 3 4 5 7 true G)

end Fftwpp.Net
