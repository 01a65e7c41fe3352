import Verif.Proof.MpiFft2

/-!
# C49: distributed two-dimensional Fourier transforms

`fft2dMPI` (mpi/mpifftw++.h) on `P` processes.  `HoldsRows X Y 1 P G buf σ` and `HoldsCols` (Props/Transpose.lean) say how the global
`X×Y` array `G` is distributed: process `r` holds the rows (or columns) that `localdimension` gives it, contiguously at `buf r`.
-/

namespace Fftwpp.Net

/-- The state in which a transform is started: arrays as required (`Fft2Bufs`), no pending request, no message in transit. -/
structure Fft2Env (X Y P : ℕ) (ip : Bool) (inp out wrk : ℕ → Loc) (σ : ℕ → Local ℂ) : Prop where
  bufs : Fft2Bufs X Y P ip inp out wrk fun r => (σ r).size
  req : ∀ r < P, ∀ id, (σ r).req id = none
  bal : ∀ i < P, ∀ j < P, ∀ ctx, ((σ i).sent (j, ctx)).length = (σ j).rcvd (i, ctx)

theorem Fft2Env.quiet {X Y P : ℕ} {ip : Bool} {inp out wrk : ℕ → Loc} {σ : ℕ → Local ℂ} (h : Fft2Env X Y P ip inp out wrk σ) (prog : ℕ → Prog ℂ Unit) :
    Quiet P prog (start P prog σ) :=
  ⟨fun i hi => by simp [start, hi], fun i hi => by simp [start, show ¬ i < P by omega], fun i hi id => h.req i hi id,
    fun i hi j hj ctx => h.bal i hi j hj ctx⟩

/-- A program and nothing after it. -/
theorem Quiet.bindRet {P : ℕ} {prog : ℕ → Prog ℂ Unit} {s : St ℂ} (h : Quiet P prog s) : Quiet P (fun r => (prog r).bind fun _ => .ret ()) s :=
  ⟨fun i hi => by rw [h.prog i hi, Geo.bind_ret], h.done, h.req, h.bal⟩

/-- **C49**, `Forward`: for all dimensions, process counts, algorithms of the transpose, in place or not, every global array `G`
distributed by rows, all orders of execution and all choices of the MPI library: every run is finite, and ends with every process
finished, no message in transit and the two-dimensional DFT of `G` distributed by columns; nothing but the output array and the
work array was written. -/
theorem C49_forward (e : Eager) {X Y P optA alltoall : ℕ} (hX : 0 < X) (hY : 0 < Y) (hP : 0 < P) (ha : 1 ≤ optA) (sign : ℤ) {ip : Bool} {G : ℕ → ℕ → ℂ}
    {inp out wrk : ℕ → Loc} {σ : ℕ → Local ℂ} (he : Fft2Env X Y P ip inp out wrk σ) (hG : HoldsRows X Y 1 P (fun i j _ => G i j) inp σ) :
    AllRuns e (start P (fun r => (Fft2MPI.new X Y P r sign ip optA alltoall).forward (inp r) (some (out r)) (wrk r)) σ)
      (TransposeEnd P (HoldsCols X Y 1 P (fun i j _ => dft2 X Y sign G i j) out) out wrk (room2 X Y P) (fun r => part X P r * Y) σ) := by
  obtain ⟨t, t1, t2, t3, t4, t5⟩ := forward2_step (e := e) hX hY hP ha (G := G) he.bufs (he.quiet _).bindRet hG
  exact allRuns t1 t2.fin.1 ⟨t2.fin.2, t4, fun r _ => t3 r, t5⟩

/-- **C49**, `Backward`: the transform of the opposite sign, from columns to rows.  The input array is written too if it is the output
array or the process holds a number of columns that is zero or a power of two (`C49_backward_input_refuted`). -/
theorem C49_backward (e : Eager) {X Y P optA alltoall : ℕ} (hX : 0 < X) (hY : 0 < Y) (hP : 0 < P) (ha : 1 ≤ optA) (sign : ℤ) {ip : Bool} {G : ℕ → ℕ → ℂ}
    {inp out wrk : ℕ → Loc} {σ : ℕ → Local ℂ} (he : Fft2Env X Y P ip inp out wrk σ) (hG : HoldsCols X Y 1 P (fun i j _ => G i j) inp σ) :
    AllRuns e (start P (fun r => (Fft2MPI.new X Y P r sign ip optA alltoall).backward (inp r) (some (out r)) (wrk r)) σ) fun f =>
      Finished P f ∧ HoldsRows X Y 1 P (fun i j _ => dft2 X Y (-sign) G i j) out (fun r => (f r).loc) ∧ (∀ r < P, (f r).loc.size = (σ r).size) ∧
      ∀ r < P, ∀ a, ¬ (Region.mk (out r) (room2 X Y P r)).has a → ¬ (Region.mk (wrk r) (part X P r * Y)).has a →
        (part Y P r &&& (part Y P r - 1) ≠ 0 ∨ ¬ (Region.mk (inp r) (X * part Y P r)).has a) → (f r).loc.mem a = (σ r).mem a := by
  obtain ⟨t, t1, t2, t3, t4, t5, _⟩ := backward2_step (e := e) hX hY hP ha (G := G) he.bufs (he.quiet _).bindRet hG
  refine allRuns t1 t2.fin.1 ⟨t2.fin.2, t4, fun r _ => t3 r, fun r hr a h1 h2 h3 => t5 r hr a h1 h2 (h3.imp_left fun h => ?_)⟩
  simp only [Fft2MPI.new]
  rw [decide_eq_true_iff]
  exact h

/-- The out-of-place `Backward` does not preserve its input: a process that holds a number of columns that is zero or a power of two leaves
its input array transposed. -/
theorem C49_backward_input_refuted (e : Eager) {X Y P optA alltoall : ℕ} (hX : 0 < X) (hY : 0 < Y) (hP : 0 < P) (ha : 1 ≤ optA) (sign : ℤ) {G : ℕ → ℕ → ℂ}
    {inp out wrk : ℕ → Loc} {σ : ℕ → Local ℂ} (he : Fft2Env X Y P false inp out wrk σ) (hG : HoldsCols X Y 1 P (fun i j _ => G i j) inp σ) :
    AllRuns e (start P (fun r => (Fft2MPI.new X Y P r sign false optA alltoall).backward (inp r) (some (out r)) (wrk r)) σ) fun f =>
      ∀ r < P, part Y P r &&& (part Y P r - 1) = 0 → ∀ i < X, ∀ j < part Y P r, (f r).loc.mem (inp r + (j * X + i)) = G i (first Y P r + j) := by
  obtain ⟨t, t1, t2, _, _, _, t6⟩ := backward2_step (e := e) hX hY hP ha (G := G) he.bufs (he.quiet _).bindRet hG
  refine allRuns t1 t2.fin.1 fun r hr h => t6 r hr ?_ fun hh => ?_
  · simp only [Fft2MPI.new]
    rw [decide_eq_false_iff_not, not_not]
    exact h
  · have := (he.bufs.same r hr).2 hh
    cases this

/-- **C49**: `Forward(f,g); Backward(g,f); Normalize(f)`, without any synchronisation in between, gives back the array. -/
theorem C49_roundtrip (e : Eager) {X Y P optA alltoall : ℕ} (hX : 0 < X) (hY : 0 < Y) (hP : 0 < P) (ha : 1 ≤ optA) {sign : ℤ} (hs : sign = 1 ∨ sign = -1)
    {ip : Bool} {G : ℕ → ℕ → ℂ} {inp out wrk : ℕ → Loc} {σ : ℕ → Local ℂ} (he : Fft2Env X Y P ip inp out wrk σ)
    (hG : HoldsRows X Y 1 P (fun i j _ => G i j) inp σ) :
    AllRuns e (start P (fun r => do
        let fft := Fft2MPI.new X Y P r sign ip optA alltoall
        fft.forward (inp r) (some (out r)) (wrk r)
        fft.backward (out r) (some (inp r)) (wrk r)
        fft.normalize (inp r)) σ)
      fun f => Finished P f ∧ HoldsRows X Y 1 P (fun i j _ => G i j) inp fun r => (f r).loc := by
  obtain ⟨t, t1, t2, t3, t4, _⟩ := forward2_step (e := e) hX hY hP ha (G := G) he.bufs (he.quiet _) hG
  have et : (fun r => (t r).loc.size) = fun r => (σ r).size := funext fun r => t3 r
  obtain ⟨u, u1, u2, u3, u4, _, _⟩ := backward2_step (e := e) hX hY hP ha (G := dft2 X Y sign G) (by rw [et]; exact he.bufs.swap) t2 t4
  obtain ⟨v, v1, v2, v3, v4⟩ := normalize2_step (e := e) (fun r hr => by
    rw [u3, t3]; exact (Nat.add_le_add_left (le_max_right _ _) _).trans (he.bufs.inSize r hr)) u2.bindRet u4
  refine allRuns ((t1.trans u1).trans v1) v2.fin.1 ⟨v2.fin.2, ?_⟩
  intro r hr i hi j hj l hl
  rw [v4 r hr i hi j hj l hl]
  beta_reduce
  rw [dft2_inv X Y sign hs G (first_lt hP hr hi) hj]
  have : ((X * Y : ℕ) : ℂ) ≠ 0 := by exact_mod_cast (Nat.mul_pos hX hY).ne'
  exact mul_div_cancel_left₀ _ this

/-- The default argument: `Forward(f)` of an in-place object passes the null pointer to `ForwardWait`; process 0 (which always holds a
column) never finishes. -/
theorem C49_default_out_refuted (e : Eager) {X Y P optA alltoall : ℕ} (hX : 0 < X) (hY : 0 < Y) (hP : 0 < P) (ha : 1 ≤ optA) (sign : ℤ) {G : ℕ → ℕ → ℂ}
    {buf wrk : ℕ → Loc} {σ : ℕ → Local ℂ} (he : Fft2Env X Y P true buf buf wrk σ) (hG : HoldsRows X Y 1 P (fun i j _ => G i j) buf σ) :
    AllRuns e (start P (fun r => (Fft2MPI.new X Y P r sign true optA alltoall).forward (buf r) none (wrk r)) σ) fun f =>
      (f 0).prog = .fail ∧ ¬ Finished P f := by
  have hprog : ∀ r < P, (Fft2MPI.new X Y P r sign true optA alltoall).forward (buf r) none (wrk r) =
      ((Mfft.new Y sign (part X P r) 1 Y true).fft (buf r) (buf r)).bind fun _ => ((MT.mk' X Y 1 P r optA alltoall).localize0 (buf r) (buf r) (wrk r)).bind fun _ =>
        if X = 0 ∨ part Y P r = 0 then .ret () else .fail := by
    intro r hr
    unfold Fft2MPI.forward
    simp only [Option.getD_none]
    rw [if_pos (show ((Fft2MPI.new X Y P r sign true optA alltoall).inplace = true) ↔ True by simp [Fft2MPI.new])]
    rfl
  have hq := he.quiet fun r => (Fft2MPI.new X Y P r sign true optA alltoall).forward (buf r) none (wrk r)
  obtain ⟨t, t1, t2, t3, t4⟩ := local_phase (e := e) (P := P) (s := start P (fun r => (Fft2MPI.new X Y P r sign true optA alltoall).forward (buf r) none (wrk r)) σ)
    (k := fun r => ((MT.mk' X Y 1 P r optA alltoall).localize0 (buf r) (buf r) (wrk r)).bind fun _ => if X = 0 ∨ part Y P r = 0 then .ret () else .fail)
    (x := fun r => (Mfft.new Y sign (part X P r) 1 Y true).fft (buf r) (buf r))
    ⟨fun i hi => by rw [hq.prog i hi, hprog i hi], hq.done, hq.req, hq.bal⟩ (R := fun _ _ => True) (by
      intro r hr
      have hs := (Nat.add_le_add_left (le_max_right (X * part Y P r) (part X P r * Y)) _).trans (he.bufs.inSize r hr)
      obtain ⟨m, m1, _⟩ := rows_ok (e := e) (i := r) (env := fun j => (start P (fun r => (Fft2MPI.new X Y P r sign true optA alltoall).forward (buf r) none (wrk r)) σ j).loc)
        (hq.req r hr) (n := Y) (M := part X P r) (sign := sign) (he.bufs.same r hr) hs hs
      exact ⟨m, m1, trivial⟩)
  have et : (fun r => (t r).loc.size) = fun r => (σ r).size := funext fun r => t3 r
  have hb' : Fft2Bufs X Y P true buf buf wrk fun r => (t r).loc.size := by rw [et]; exact he.bufs
  obtain ⟨g, hs⟩ := seen (L := 1) (alltoall := alltoall) hX hY hP ha
  obtain ⟨b1, _, b3, b4⟩ := hs.bufs (hb'.env (σ := fun r => (t r).loc) (optA := optA) (alltoall := alltoall) t2.req t2.bal)
  obtain ⟨u, u1, u2, _⟩ := Geo.localize0_all (e := e) hs.ok hs.size b1 b3 b4 (⟨fun i hi => by rw [t2.prog i hi, hs.mt i hi], t2.done, t2.req, t2.bal⟩)
  obtain ⟨n, hn⟩ := t1.trans u1
  have h0 : 0 < part Y P 0 := by
    obtain ⟨p, hp, p1, p2⟩ := owner (N := Y) hP hY
    have : first Y P 0 = 0 := by simp [first, Mpi.localdimension]
    by_contra hc
    have h1 : part Y P 0 = 0 := by omega
    have h2 := (ld_has Y P hP).1
    unfold part Mpi.localdimension at h1
    have hc1 : 1 ≤ ceilquotient Y P := by
      unfold ceilquotient
      exact (Nat.le_div_iff_mul_le hP).2 (by omega)
    simp only [Nat.cast_zero, mul_zero, sub_zero] at h1
    split_ifs at h1 <;> omega
  have hf : (u 0).prog = .fail := by
    rw [u2.prog 0 hP, if_neg]
    omega
  refine allRuns_of_run hn ?_ ⟨hf, fun h => ?_⟩
  · intro v ⟨i, p, hp, _⟩
    by_cases hi : i < P
    · have := u2.prog i hi
      unfold Proc.step at hp
      rw [this] at hp
      split_ifs at hp <;> cases hp
    · have := u2.done i (by omega)
      unfold Proc.step at hp
      rw [this] at hp
      cases hp
  · have := (h.1 0 hP).1
    rw [hf] at this
    cases this

/-- A concrete state: input in buffer 0, output in buffer 1, work array in buffer 2, each with room for everything; the input holds `G`
distributed by rows (`cols = false`) or by columns. -/
def exFft2 (X Y P : ℕ) (cols : Bool) (G : ℕ → ℕ → ℂ) (r : ℕ) : Local ℂ where
  size b := if b < 3 then room2 X Y P r else 0
  mem a := if cols = true then G (a.off / part Y P r) (first Y P r + a.off % part Y P r) else G (first X P r + a.off / Y) (a.off % Y)
  req _ := none
  sent _ := []
  rcvd _ := 0
  nsend := 0

theorem exFft2_env (X Y P : ℕ) (cols ip : Bool) (G : ℕ → ℕ → ℂ) :
    Fft2Env X Y P ip (fun _ => ⟨0, 0⟩) (fun _ => ⟨if ip = true then 0 else 1, 0⟩) (fun _ => ⟨2, 0⟩) (exFft2 X Y P cols G) where
  bufs :=
    { inSize := fun r _ => by simp [exFft2]
      outSize := fun r _ => by cases ip <;> simp [exFft2]
      wrkSize := fun r _ => by simp [exFft2, room2]
      inwrk := fun _ _ => by simp
      outwrk := fun _ _ => by cases ip <;> simp
      same := fun _ _ => by cases ip <;> simp
      sep := fun _ _ => by cases ip <;> simp }
  req _ _ _ := rfl
  bal _ _ _ _ _ := rfl

theorem exFft2_rows (X Y P : ℕ) (G : ℕ → ℕ → ℂ) : HoldsRows X Y 1 P (fun i j _ => G i j) (fun _ => ⟨0, 0⟩) (exFft2 X Y P false G) := by
  intro r _ i _ j hj l hl
  have : l = 0 := by omega
  subst this
  simp only [exFft2, Loc.add_off, Nat.zero_add, Nat.mul_one, Nat.add_zero, Bool.false_eq_true, if_false]
  rw [Nat.mul_comm i Y, Nat.mul_add_div (by omega), Nat.div_eq_of_lt hj, Nat.mul_add_mod, Nat.mod_eq_of_lt hj, Nat.add_zero]

theorem exFft2_cols (X Y P : ℕ) (G : ℕ → ℕ → ℂ) : HoldsCols X Y 1 P (fun i j _ => G i j) (fun _ => ⟨0, 0⟩) (exFft2 X Y P true G) := by
  intro r _ i _ j hj l hl
  have : l = 0 := by omega
  subst this
  simp only [exFft2, Loc.add_off, Nat.zero_add, Nat.mul_one, Nat.add_zero, if_true]
  rw [Nat.mul_comm i (part Y P r), Nat.mul_add_div (by omega), Nat.div_eq_of_lt hj, Nat.mul_add_mod, Nat.mod_eq_of_lt hj, Nat.add_zero]

/-- Instances: a 5×7 transform on 3 processes out of place (process 0 and 1 hold 3 columns, process 2 holds 1), a 5×8 one on 4
processes in place (each holds 2 columns), and with more processes than rows. -/
example (e : Eager) (G : ℕ → ℕ → ℂ) := C49_forward e (X := 5) (Y := 7) (P := 3) (optA := 1) (alltoall := 1) (by norm_num) (by norm_num) (by norm_num) le_rfl
  (-1) (exFft2_env 5 7 3 false false G) (exFft2_rows 5 7 3 G)
example (e : Eager) (G : ℕ → ℕ → ℂ) := C49_backward e (X := 5) (Y := 7) (P := 3) (optA := 1) (alltoall := 0) (by norm_num) (by norm_num) (by norm_num) le_rfl
  (-1) (exFft2_env 5 7 3 true false G) (exFft2_cols 5 7 3 G)
example (e : Eager) (G : ℕ → ℕ → ℂ) := C49_roundtrip e (X := 4) (Y := 8) (P := 4) (optA := 2) (alltoall := 2) (by norm_num) (by norm_num) (by norm_num)
  (by norm_num) (sign := -1) (Or.inr rfl) (exFft2_env 4 8 4 false true G) (exFft2_rows 4 8 4 G)
example (e : Eager) (G : ℕ → ℕ → ℂ) := C49_roundtrip e (X := 2) (Y := 3) (P := 5) (optA := 1) (alltoall := 1) (by norm_num) (by norm_num) (by norm_num)
  le_rfl (sign := 1) (Or.inl rfl) (exFft2_env 2 3 5 false false G) (exFft2_rows 2 3 5 G)
example (e : Eager) (G : ℕ → ℕ → ℂ) := C49_default_out_refuted e (X := 2) (Y := 2) (P := 1) (optA := 1) (alltoall := 1) (by norm_num) (by norm_num) (by norm_num)
  le_rfl (-1) (exFft2_env 2 2 1 false true G) (exFft2_rows 2 2 1 G)
example (e : Eager) (G : ℕ → ℕ → ℂ) := C49_backward_input_refuted e (X := 2) (Y := 2) (P := 1) (optA := 1) (alltoall := 1) (by norm_num) (by norm_num)
  (by norm_num) le_rfl (-1) (exFft2_env 2 2 1 true false G) (exFft2_cols 2 2 1 G)

end Fftwpp.Net
