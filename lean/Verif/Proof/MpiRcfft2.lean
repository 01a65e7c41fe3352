import Verif.Proof.RDft2

/-!
# The distributed two-dimensional transform of real data
-/

namespace Fftwpp.Net
open Finset

/-- Doubles between rows of the real array. -/
def rdist2 (Y : ℕ) (ip : Bool) : ℕ := if ip = true then 2 * (Y / 2 + 1) else Y

/-- Process `r` holds its rows of the real `X×Y` array `G` at `buf r`, row after row, `rd` doubles apart. -/
def HoldsReal (X Y P rd : ℕ) (G : ℕ → ℕ → ℝ) (buf : ℕ → Loc) (σ : ℕ → Local ℝ) : Prop :=
  ∀ r < P, ∀ i < part X P r, ∀ j < Y, (σ r).mem (buf r + (i * rd + j)) = G (first X P r + i) j

/-- Process `r` holds its columns of the complex `X×Yc` array `F` at `buf r`, contiguously. -/
def HoldsSpec (X Yc P : ℕ) (F : ℕ → ℕ → ℂ) (buf : ℕ → Loc) (σ : ℕ → Local ℝ) : Prop :=
  ∀ r < P, ∀ kx < X, ∀ j < part Yc P r, cget (σ r).mem (buf r + 2 * (kx * part Yc P r + j)) = F kx (first Yc P r + j)

/-- The arrays of a distributed transform of real data: room for the real rows at `re r` and for `split::n` complex words at `cx r`
(equal, or in different buffers), `wrk r` the work array of the transpose. -/
structure Rc2Bufs (X Y P : ℕ) (ip : Bool) (re cx wrk : ℕ → Loc) (size : ℕ → ℕ → ℕ) : Prop where
  reSize : ∀ r < P, (re r).off + part X P r * rdist2 Y ip ≤ size r (re r).buf
  cxSize : ∀ r < P, (cx r).off + 2 * room2 X (Y / 2 + 1) P r ≤ size r (cx r).buf
  wrkSize : ∀ r < P, (wrk r).off + 2 * (part X P r * (Y / 2 + 1)) ≤ size r (wrk r).buf
  rewrk : ∀ r < P, (re r).buf ≠ (wrk r).buf
  cxwrk : ∀ r < P, (cx r).buf ≠ (wrk r).buf
  /-- In place in all processes, or in none. -/
  same : ∀ r < P, (ip = true) ↔ re r = cx r
  sep : ∀ r < P, re r = cx r ∨ (re r).buf ≠ (cx r).buf

theorem room_r {X Y P r : ℕ} : part X P r * Y * 2 ≤ 2 * room2 X Y P r := by
  have := le_max_right (X * part Y P r) (part X P r * Y)
  unfold room2
  omega

theorem room_c {X Y P r : ℕ} : X * part Y P r * 2 ≤ 2 * room2 X Y P r := by
  have := le_max_left (X * part Y P r) (part X P r * Y)
  unfold room2
  omega

theorem Rc2Bufs.env {X Y P optA alltoall : ℕ} {ip : Bool} {re cx wrk : ℕ → Loc} {σ : ℕ → Local ℝ}
    (h : Rc2Bufs X Y P ip re cx wrk fun r => (σ r).size) (hr : ∀ r < P, ∀ id, (σ r).req id = none) (hb : Balanced P σ) :
    TransposeEnv X (Y / 2 + 1) 2 P optA alltoall cx cx wrk σ where
  rowsSize r hr := (Nat.add_le_add_left room_r _).trans (h.cxSize r hr)
  colsSize r hr := (Nat.add_le_add_left room_c _).trans (h.cxSize r hr)
  wrkSize r hr := by rw [Nat.mul_comm _ 2]; exact h.wrkSize r hr
  rowswrk := h.cxwrk
  colswrk := h.cxwrk
  same r _ := Or.inl rfl
  compact r _ _ := rfl
  req := hr
  bal := hb

theorem std_yPlan (X Y P r : ℕ) (ip : Bool) (optA alltoall : ℕ) (J : (Loc → ℝ) → Loc → ℝ) : (Rcfft2MPI.new X Y P r ip optA alltoall J).yPlan.Std where
  cdist := rfl
  rdist := by
    show Y ≤ if ip = true then 2 * (Y / 2 + 1) else Y
    split_ifs <;> omega

/-- `Forward` in a program. -/
theorem rforward2_step {e : Eager} {X Y P optA alltoall : ℕ} (hX : 0 < X) (hP : 0 < P) (ha : 1 ≤ optA) {ip : Bool} {J : (Loc → ℝ) → Loc → ℝ}
    {G : ℕ → ℕ → ℝ} {re cx wrk : ℕ → Loc} {s : St ℝ} {k : ℕ → Prog ℝ Unit} (hb : Rc2Bufs X Y P ip re cx wrk fun r => (s r).loc.size)
    (hq : Quiet P (fun r => ((Rcfft2MPI.new X Y P r ip optA alltoall J).forward (re r) (some (cx r)) (wrk r)).bind fun _ => k r) s)
    (hG : HoldsReal X Y P (rdist2 Y ip) G re fun r => (s r).loc) :
    ∃ t, Steps e s t ∧ Quiet P k t ∧ (∀ r, (t r).loc.size = (s r).loc.size) ∧
      HoldsSpec X (Y / 2 + 1) P (rdft2 X Y 0 G) cx (fun r => (t r).loc) ∧
      ∀ r < P, ∀ a, ¬ (Region.mk (cx r) (2 * room2 X (Y / 2 + 1) P r)).has a → ¬ (Region.mk (wrk r) (2 * (part X P r * (Y / 2 + 1)))).has a →
        (t r).loc.mem a = (s r).loc.mem a := by
  have hprog : ∀ r < P, ((Rcfft2MPI.new X Y P r ip optA alltoall J).forward (re r) (some (cx r)) (wrk r)).bind (fun _ => k r) =
      ((Rcfft2MPI.new X Y P r ip optA alltoall J).yPlan.r2c (re r) (cx r)).bind fun _ =>
        ((MT.mk' X (Y / 2 + 1) 2 P r optA alltoall).localize0 (cx r) (cx r) (wrk r)).bind fun _ =>
        ((Mfft.new X (-1) (part (Y / 2 + 1) P r) (part (Y / 2 + 1) P r) 1 true).cfft (cx r) (cx r)).bind fun _ => k r := by
    intro r hr
    unfold Rcfft2MPI.forward
    simp only [Option.getD_some]
    rw [if_pos (show ((Rcfft2MPI.new X Y P r ip optA alltoall J).inplace = true) ↔ re r = cx r from hb.same r hr)]
    show Prog.bind (Prog.bind _ fun _ => Prog.bind _ _) _ = _
    rw [Prog.bind_assoc]
    simp only [Prog.bind_assoc]
    rfl
  -- transforms in y
  obtain ⟨t, t1, t2, t3, t4⟩ := local_phase (e := e) (P := P) (s := s)
    (k := fun r => ((MT.mk' X (Y / 2 + 1) 2 P r optA alltoall).localize0 (cx r) (cx r) (wrk r)).bind fun _ =>
        ((Mfft.new X (-1) (part (Y / 2 + 1) P r) (part (Y / 2 + 1) P r) 1 true).cfft (cx r) (cx r)).bind fun _ => k r)
    (x := fun r => (Rcfft2MPI.new X Y P r ip optA alltoall J).yPlan.r2c (re r) (cx r))
    ⟨fun i hi => by rw [hq.prog i hi, hprog i hi], hq.done, hq.req, hq.bal⟩
    (R := fun r m => (∀ i < part X P r, ∀ j < Y / 2 + 1, cget m (cx r + 2 * (i * (Y / 2 + 1) + j)) = dftY Y (-1) (fun i j => (G i j : ℂ)) (first X P r + i) j) ∧
      ∀ a, ¬ (Region.mk (cx r) (2 * (part X P r * (Y / 2 + 1)))).has a → m a = (s r).loc.mem a)
    (by
      intro r hr
      obtain ⟨m, m1, m2, m3⟩ := (std_yPlan X Y P r ip optA alltoall J |> fun h => Mrc.r2c_ok (e := e) (i := r) (env := fun j => (s j).loc) (hq.req r hr) h (hb.same r hr)
        (fun h => by
          have h' : ip = true := h
          show (if ip = true then 2 * (Y / 2 + 1) else Y) = 2 * (Y / 2 + 1)
          rw [if_pos h']) (hb.reSize r hr)
        ((Nat.add_le_add_left (by have := room_r (X := X) (Y := Y / 2 + 1) (P := P) (r := r); show 2 * (part X P r * (Y / 2 + 1)) ≤ _; omega) _).trans (hb.cxSize r hr)))
      refine ⟨m, m1, fun i hi j hj => ?_, m3⟩
      have := m2 i hi j hj
      rw [show (Rcfft2MPI.new X Y P r ip optA alltoall J).yPlan.cdist = Y / 2 + 1 from rfl] at this
      rw [this]
      refine sum_congr rfl fun t ht => ?_
      have h2 := hG r hr i hi t (mem_range.1 ht)
      rw [show (Rcfft2MPI.new X Y P r ip optA alltoall J).yPlan.rdist = rdist2 Y ip from rfl, h2]
      congr 2
      ring)
  -- transpose
  have hb' : Rc2Bufs X Y P ip re cx wrk fun r => (t r).loc.size := by simpa only [t3] using hb
  obtain ⟨u, u1, u2, u3, u4, u5⟩ := localize0_step (e := e) hX (Nat.succ_pos _) hP ha (G := fun i j c => cpart (dftY Y (-1) (fun i j => (G i j : ℂ)) i j) c)
    (hb'.env (σ := fun r => (t r).loc) t2.req t2.bal) t2
    (by
      intro r hr i hi j hj l hl
      rw [Nat.mul_comm _ 2]
      exact of_cget ((t4 r hr).1 i hi j hj) hl)
  -- transforms in x
  obtain ⟨v, v1, v2, v3, v4⟩ := local_phase (e := e) u2
    (R := fun r m => (∀ kx < X, ∀ j < part (Y / 2 + 1) P r, cget m (cx r + 2 * (kx * part (Y / 2 + 1) P r + j)) = rdft2 X Y 0 G kx (first (Y / 2 + 1) P r + j)) ∧
      ∀ a, ¬ (Region.mk (cx r) (2 * (X * part (Y / 2 + 1) P r))).has a → m a = (u r).loc.mem a)
    (by
      intro r hr
      have hs : (cx r).off + 2 * (X * part (Y / 2 + 1) P r) ≤ (u r).loc.size (cx r).buf := by
        rw [u3, t3]
        exact (Nat.add_le_add_left (by have := room_c (X := X) (Y := Y / 2 + 1) (P := P) (r := r); omega) _).trans (hb.cxSize r hr)
      obtain ⟨m, m1, m2, m3⟩ := ccols_ok (e := e) (i := r) (env := fun j => (u j).loc) (u2.req r hr) (n := X) (M := part (Y / 2 + 1) P r) (sign := -1) hs
      refine ⟨m, m1, fun kx hkx j hj => ?_, m3⟩
      rw [m2 j hj kx hkx, rdft2_zero, ← dftX_dftY]
      refine sum_congr rfl fun t ht => ?_
      congr 1
      refine cget_of fun c hc => ?_
      have := u4 r hr t (mem_range.1 ht) j hj c hc
      rw [Nat.mul_comm _ 2] at this
      exact this)
  refine ⟨v, (t1.trans u1).trans v1, v2, fun r => by rw [v3, u3, t3], fun r hr kx hkx j hj => (v4 r hr).1 kx hkx j hj, ?_⟩
  intro r hr a ha1 ha2
  rw [(v4 r hr).2 a fun h => ha1 (has_mono (by have := room_c (X := X) (Y := Y / 2 + 1) (P := P) (r := r); omega) h),
    u5 r hr a (fun h => ha1 (has_mono room_c h)) (by rw [Nat.mul_comm _ 2]; exact ha2),
    (t4 r hr).2 a fun h => ha1 (has_mono (by have := room_r (X := X) (Y := Y / 2 + 1) (P := P) (r := r); omega) h)]

/-- `Backward` in a program. -/
theorem rbackward2_step {e : Eager} {X Y P optA alltoall : ℕ} (hX : 0 < X) (hY : 0 < Y) (hP : 0 < P) (ha : 1 ≤ optA) {ip : Bool} {J : (Loc → ℝ) → Loc → ℝ}
    {F : ℕ → ℕ → ℂ} {re cx wrk : ℕ → Loc} {s : St ℝ} {k : ℕ → Prog ℝ Unit} (hb : Rc2Bufs X Y P ip re cx wrk fun r => (s r).loc.size) {out : ℕ → Option Loc}
    (hout : ∀ r < P, (out r).getD (cx r) = re r)
    (hq : Quiet P (fun r => ((Rcfft2MPI.new X Y P r ip optA alltoall J).backward (cx r) (out r) (wrk r)).bind fun _ => k r) s)
    (hF : HermSpec2 X Y F) (hG : HoldsSpec X (Y / 2 + 1) P F cx fun r => (s r).loc) :
    ∃ t, Steps e s t ∧ Quiet P k t ∧ (∀ r, (t r).loc.size = (s r).loc.size) ∧
      (∀ r < P, ∀ i < part X P r, ∀ j < Y, (((t r).loc.mem (re r + (i * rdist2 Y ip + j)) : ℝ) : ℂ) = irdft2 X Y 0 F (first X P r + i) j) ∧
      ∀ r < P, ∀ a, ¬ (Region.mk (re r) (part X P r * rdist2 Y ip)).has a → ¬ (Region.mk (cx r) (2 * room2 X (Y / 2 + 1) P r)).has a →
        ¬ (Region.mk (wrk r) (2 * (part X P r * (Y / 2 + 1)))).has a → (t r).loc.mem a = (s r).loc.mem a := by
  have hprog : ∀ r < P, ((Rcfft2MPI.new X Y P r ip optA alltoall J).backward (cx r) (out r) (wrk r)).bind (fun _ => k r) =
      ((Mfft.new X 1 (part (Y / 2 + 1) P r) (part (Y / 2 + 1) P r) 1 true).cfft (cx r) (cx r)).bind fun _ =>
        ((MT.mk' X (Y / 2 + 1) 2 P r optA alltoall).localize1 (cx r) (cx r) (wrk r)).bind fun _ =>
        ((Rcfft2MPI.new X Y P r ip optA alltoall J).yPlan.c2r (cx r) (re r)).bind fun _ => k r := by
    intro r hr
    unfold Rcfft2MPI.backward
    simp only
    rw [hout r hr, if_pos (show ((Rcfft2MPI.new X Y P r ip optA alltoall J).inplace = true) ↔ cx r = re r from (hb.same r hr).trans eq_comm)]
    show Prog.bind (Prog.bind _ fun _ => Prog.bind _ _) _ = _
    rw [Prog.bind_assoc]
    simp only [Prog.bind_assoc]
    rfl
  -- transforms in x
  obtain ⟨t, t1, t2, t3, t4⟩ := local_phase (e := e) (P := P) (s := s)
    (k := fun r => ((MT.mk' X (Y / 2 + 1) 2 P r optA alltoall).localize1 (cx r) (cx r) (wrk r)).bind fun _ =>
        ((Rcfft2MPI.new X Y P r ip optA alltoall J).yPlan.c2r (cx r) (re r)).bind fun _ => k r)
    (x := fun r => (Mfft.new X 1 (part (Y / 2 + 1) P r) (part (Y / 2 + 1) P r) 1 true).cfft (cx r) (cx r))
    ⟨fun i hi => by rw [hq.prog i hi, hprog i hi], hq.done, hq.req, hq.bal⟩
    (R := fun r m => (∀ i < X, ∀ j < part (Y / 2 + 1) P r, cget m (cx r + 2 * (i * part (Y / 2 + 1) P r + j)) = dftX X 1 F i (first (Y / 2 + 1) P r + j)) ∧
      ∀ a, ¬ (Region.mk (cx r) (2 * (X * part (Y / 2 + 1) P r))).has a → m a = (s r).loc.mem a)
    (by
      intro r hr
      obtain ⟨m, m1, m2, m3⟩ := ccols_ok (e := e) (i := r) (env := fun j => (s j).loc) (hq.req r hr) (n := X) (M := part (Y / 2 + 1) P r) (sign := 1)
        ((Nat.add_le_add_left (by have := room_c (X := X) (Y := Y / 2 + 1) (P := P) (r := r); omega) _).trans (hb.cxSize r hr))
      refine ⟨m, m1, fun i hi j hj => ?_, m3⟩
      rw [m2 j hj i hi]
      refine sum_congr rfl fun t ht => ?_
      rw [hG r hr t (mem_range.1 ht) j hj])
  -- transpose
  have hb' : Rc2Bufs X Y P ip re cx wrk fun r => (t r).loc.size := by simpa only [t3] using hb
  obtain ⟨u, u1, u2, u3, u4, u5⟩ := localize1_step (e := e) hX (Nat.succ_pos _) hP ha (G := fun i j c => cpart (dftX X 1 F i j) c)
    (hb'.env (σ := fun r => (t r).loc) t2.req t2.bal) t2
    (by
      intro r hr i hi j hj l hl
      rw [Nat.mul_comm _ 2]
      exact of_cget ((t4 r hr).1 i hi j hj) hl)
  -- transforms in y
  obtain ⟨v, v1, v2, v3, v4⟩ := local_phase (e := e) u2
    (R := fun r m => (∀ i < part X P r, ∀ j < Y, ((m (re r + (i * rdist2 Y ip + j)) : ℝ) : ℂ) = irdft2 X Y 0 F (first X P r + i) j) ∧
      ∀ a, ¬ (Region.mk (re r) (part X P r * rdist2 Y ip)).has a → ¬ (Region.mk (cx r) (2 * (part X P r * (Y / 2 + 1)))).has a → m a = (u r).loc.mem a)
    (by
      intro r hr
      have hline : ∀ i < part X P r, ∀ s < Y / 2 + 1, cget (u r).loc.mem (cx r + 2 * (i * (Y / 2 + 1) + s)) = dftX X 1 F (first X P r + i) s := by
        intro i hi s hs
        refine cget_of fun c hc => ?_
        have := u4 r hr i hi s hs c hc
        rw [Nat.mul_comm _ 2] at this
        exact this
      have hc := fun i (hi : i < part X P r) => c2r_line hY (u := dftX X 1 F (first X P r + i)) (fun ky hky => dftX_herm hF _ hky) (hline i hi)
      obtain ⟨m, m1, m2, m3⟩ := Mrc.c2r_ok (e := e) (i := r) (env := fun j => (u j).loc) (u2.req r hr) (std_yPlan X Y P r ip optA alltoall J)
        (src := cx r) (dst := re r) ((hb.same r hr).trans eq_comm)
        (by rw [u3, t3]; exact hb.reSize r hr)
        (by
          rw [u3, t3]
          exact (Nat.add_le_add_left (by have := room_r (X := X) (Y := Y / 2 + 1) (P := P) (r := r); show 2 * (part X P r * (Y / 2 + 1)) ≤ _; omega) _).trans (hb.cxSize r hr))
        (fun i hi => (hc i hi).1)
      refine ⟨m, m1, fun i hi j hj => ?_, m3⟩
      have := m2 i hi j hj
      rw [show (Rcfft2MPI.new X Y P r ip optA alltoall J).yPlan.rdist = rdist2 Y ip from rfl] at this
      rw [this]
      have h2 := (hc i hi).2 j
      refine Eq.trans h2 ?_
      rw [irdft2_zero, ← dftY_dftX]
      refine sum_congr rfl fun t _ => ?_
      rw [one_mul])
  refine ⟨v, (t1.trans u1).trans v1, v2, fun r => by rw [v3, u3, t3], fun r hr i hi j hj => (v4 r hr).1 i hi j hj, ?_⟩
  intro r hr a ha0 ha1 ha2
  rw [(v4 r hr).2 a ha0 fun h => ha1 (has_mono (by have := room_r (X := X) (Y := Y / 2 + 1) (P := P) (r := r); omega) h),
    u5 r hr a (fun h => ha1 (has_mono room_r h)) (by rw [Nat.mul_comm _ 2]; exact ha2),
    (t4 r hr).2 a fun h => ha1 (has_mono (by have := room_c (X := X) (Y := Y / 2 + 1) (P := P) (r := r); omega) h)]

/-- `Shift` in a program. -/
theorem rshift2_step {e : Eager} {X Y P optA alltoall : ℕ} (h2 : X % 2 = 0) {ip : Bool} {J : (Loc → ℝ) → Loc → ℝ}
    {G : ℕ → ℕ → ℝ} {re : ℕ → Loc} {s : St ℝ} {k : ℕ → Prog ℝ Unit} (hs : ∀ r < P, (re r).off + part X P r * rdist2 Y ip ≤ (s r).loc.size (re r).buf)
    (hq : Quiet P (fun r => ((Rcfft2MPI.new X Y P r ip optA alltoall J).shift (some (re r))).bind fun _ => k r) s)
    (hG : HoldsReal X Y P (rdist2 Y ip) G re fun r => (s r).loc) :
    ∃ t, Steps e s t ∧ Quiet P k t ∧ (∀ r, (t r).loc.size = (s r).loc.size) ∧
      HoldsReal X Y P (rdist2 Y ip) (fun i j => Rcfft2MPI.sgn i * G i j) re (fun r => (t r).loc) ∧
      ∀ r < P, ∀ a, ¬ (Region.mk (re r) (part X P r * rdist2 Y ip)).has a → (t r).loc.mem a = (s r).loc.mem a := by
  obtain ⟨t, t1, t2, t3, t4⟩ := local_phase (e := e) hq
    (R := fun r m => (∀ i < part X P r, ∀ j < Y, m (re r + (i * rdist2 Y ip + j)) = Rcfft2MPI.sgn (first X P r + i) * G (first X P r + i) j) ∧
      ∀ a, ¬ (Region.mk (re r) (part X P r * rdist2 Y ip)).has a → m a = (s r).loc.mem a)
    (by
      intro r hr
      obtain ⟨m, m1, m2, m3⟩ := Rcfft2MPI.shift_ok (e := e) (i := r) (env := fun j => (s j).loc) (hq.req r hr) (o := Rcfft2MPI.new X Y P r ip optA alltoall J)
        h2 (std_yPlan X Y P r ip optA alltoall J).rdist (hs r hr)
      refine ⟨m, m1, fun i hi j hj => ?_, m3⟩
      have := m2 i hi j hj
      rw [show (Rcfft2MPI.new X Y P r ip optA alltoall J).rdist = rdist2 Y ip from rfl, hG r hr i hi j hj] at this
      exact this)
  exact ⟨t, t1, t2, t3, fun r hr => (t4 r hr).1, fun r hr => (t4 r hr).2⟩

/-- `Normalize` in a program. -/
theorem rnormalize2_step {e : Eager} {X Y P optA alltoall : ℕ} {ip : Bool} {J : (Loc → ℝ) → Loc → ℝ}
    {G : ℕ → ℕ → ℝ} {re : ℕ → Loc} {s : St ℝ} {k : ℕ → Prog ℝ Unit} (hs : ∀ r < P, (re r).off + part X P r * rdist2 Y ip ≤ (s r).loc.size (re r).buf)
    (hq : Quiet P (fun r => ((Rcfft2MPI.new X Y P r ip optA alltoall J).normalize (re r)).bind fun _ => k r) s)
    (hG : HoldsReal X Y P (rdist2 Y ip) G re fun r => (s r).loc) :
    ∃ t, Steps e s t ∧ Quiet P k t ∧ (∀ r, (t r).loc.size = (s r).loc.size) ∧
      HoldsReal X Y P (rdist2 Y ip) (fun i j => G i j / ((X * Y : ℕ) : ℝ)) re (fun r => (t r).loc) ∧
      ∀ r < P, ∀ a, ¬ (Region.mk (re r) (part X P r * rdist2 Y ip)).has a → (t r).loc.mem a = (s r).loc.mem a := by
  obtain ⟨t, t1, t2, t3, t4⟩ := local_phase (e := e) hq
    (R := fun r m => (∀ i < part X P r, ∀ j < Y, m (re r + (i * rdist2 Y ip + j)) = G (first X P r + i) j / ((X * Y : ℕ) : ℝ)) ∧
      ∀ a, ¬ (Region.mk (re r) (part X P r * rdist2 Y ip)).has a → m a = (s r).loc.mem a)
    (by
      intro r hr
      obtain ⟨m, m1, m2, m3⟩ := Rcfft2MPI.normalize_ok (e := e) (i := r) (env := fun j => (s j).loc) (hq.req r hr) (o := Rcfft2MPI.new X Y P r ip optA alltoall J)
        (hs r hr)
      refine ⟨m, m1, fun i hi j hj => ?_, m3⟩
      have hd := (std_yPlan X Y P r ip optA alltoall J).rdist
      have := m2 _ (rad_lt (lt_of_lt_of_le hj hd) hi)
      rw [show (Rcfft2MPI.new X Y P r ip optA alltoall J).rdist = rdist2 Y ip from rfl, hG r hr i hi j hj, mul_one_div] at this
      exact this)
  exact ⟨t, t1, t2, t3, fun r hr => (t4 r hr).1, fun r hr => (t4 r hr).2⟩

/-- Storing zeros. -/
theorem zeros_ok {e : Eager} {i : ℕ} {env : ℕ → Local ℝ} {σ : Local ℝ} (hr : ∀ id, σ.req id = none) {f : Loc} {n N : ℕ} {g : ℕ → ℕ}
    (hs : f.off + 2 * N ≤ σ.size f.buf) (hg : ∀ k < n, g k < N) (hi : ∀ k < n, ∀ k' < n, g k = g k' → k = k') :
    ∃ m, (Prog.calls ((List.range n ×ˢ List.range 2).map fun x => Op.store (f + (2 * g x.1 + x.2)) 0)).eval e i env σ = some ((), { σ with mem := m }) ∧
      (∀ k < n, cget m (f + 2 * g k) = 0) ∧ ∀ k, (∀ k' < n, k ≠ g k') → cget m (f + 2 * k) = cget σ.mem (f + 2 * k) := by
  have hmem : ∀ x : ℕ × ℕ, x ∈ (List.range n ×ˢ List.range 2) ↔ x.1 < n ∧ x.2 < 2 := by
    intro x
    rw [show x = (x.1, x.2) from rfl, List.mem_product, List.mem_range, List.mem_range]
  obtain ⟨m, h1, h2, h3⟩ := stores_eval (e := e) (i := i) (env := env) (σ := σ) hr
    (l := (List.range n ×ˢ List.range 2).map fun x => (f + (2 * g x.1 + x.2), (0 : ℝ)))
    (by
      intro x hx
      obtain ⟨y, hy, rfl⟩ := List.mem_map.1 hx
      obtain ⟨y1, y2⟩ := (hmem y).1 hy
      have := hg _ y1
      exact inB hs (by omega))
    (by
      rw [List.map_map]
      refine List.Nodup.map_on ?_ (List.nodup_range.product List.nodup_range)
      intro x hx y hy hxy
      have := congrArg Loc.off hxy
      simp only [Function.comp, Loc.add_off, Nat.add_left_cancel_iff] at this
      obtain ⟨x1, x2⟩ := (hmem x).1 hx
      obtain ⟨y1, y2⟩ := (hmem y).1 hy
      have h := hi _ x1 _ y1 (by omega)
      refine Prod.ext h ?_
      rw [h] at this
      omega)
  refine ⟨m, ?_, ?_, ?_⟩
  · rw [List.map_map] at h1
    exact h1
  · intro k hk
    refine cget_of fun c hc => ?_
    have := h2 _ (List.mem_map.2 ⟨(k, c), (hmem (k, c)).2 ⟨hk, hc⟩, rfl⟩)
    simp only at this
    rw [this]
    simp [cpart]
  · intro k hk
    refine cget_of fun c hc => ?_
    rw [h3]
    · exact of_cget rfl hc
    · intro x hx he
      obtain ⟨y, hy, rfl⟩ := List.mem_map.1 hx
      obtain ⟨y1, y2⟩ := (hmem y).1 hy
      have := congrArg Loc.off he
      simp only [Loc.add_off, Nat.add_left_cancel_iff] at this
      exact hk _ y1 (by omega)

/-- `deNyquist` in a program. -/
theorem deNyquist_step {e : Eager} {X Y P optA alltoall : ℕ} (hX : 0 < X) (hP : 0 < P) {ip : Bool} {J : (Loc → ℝ) → Loc → ℝ}
    {F : ℕ → ℕ → ℂ} {cx : ℕ → Loc} {s : St ℝ} {k : ℕ → Prog ℝ Unit}
    (hs : ∀ r < P, (cx r).off + 2 * (X * part (Y / 2 + 1) P r) ≤ (s r).loc.size (cx r).buf)
    (hno : Y % 2 = 0 → ∀ r < P, first (Y / 2 + 1) P r = Y / 2 + 1 → 0 < part (Y / 2 + 1) P r)
    (hq : Quiet P (fun r => ((Rcfft2MPI.new X Y P r ip optA alltoall J).deNyquist (cx r)).bind fun _ => k r) s)
    (hG : HoldsSpec X (Y / 2 + 1) P F cx fun r => (s r).loc) :
    ∃ t, Steps e s t ∧ Quiet P k t ∧ (∀ r, (t r).loc.size = (s r).loc.size) ∧
      HoldsSpec X (Y / 2 + 1) P (fun kx ky => if (X % 2 = 0 ∧ kx = 0) ∨ (Y % 2 = 0 ∧ ky = Y / 2) then 0 else F kx ky) cx (fun r => (t r).loc) := by
  obtain ⟨t, t1, t2, t3, t4⟩ := local_phase (e := e) hq
    (R := fun r m => ∀ kx < X, ∀ j < part (Y / 2 + 1) P r, cget m (cx r + 2 * (kx * part (Y / 2 + 1) P r + j)) =
      if (X % 2 = 0 ∧ kx = 0) ∨ (Y % 2 = 0 ∧ first (Y / 2 + 1) P r + j = Y / 2) then 0 else F kx (first (Y / 2 + 1) P r + j))
    (by
      intro r hr
      generalize hy : part (Y / 2 + 1) P r = y at *
      have hy' : (Rcfft2MPI.new X Y P r ip optA alltoall J).y = y := hy
      -- first row
      obtain ⟨m1, a1, a2⟩ : ∃ m, (if X % 2 = 0 then Prog.calls ((List.range y ×ˢ List.range 2).map fun x => Op.store (cx r + (2 * x.1 + x.2)) (0 : ℝ))
            else Prog.ret ()).eval e r (fun j => (s j).loc) (s r).loc = some ((), { (s r).loc with mem := m }) ∧
          ∀ kx < X, ∀ j < y, cget m (cx r + 2 * (kx * y + j)) = if X % 2 = 0 ∧ kx = 0 then 0 else F kx (first (Y / 2 + 1) P r + j) := by
        by_cases hx : X % 2 = 0
        · rw [if_pos hx]
          obtain ⟨m, h1, h2, h3⟩ := zeros_ok (e := e) (i := r) (env := fun j => (s j).loc) (hq.req r hr) (f := cx r) (n := y) (N := X * y) (g := fun k => k)
            (by have := hs r hr; rw [hy] at this; exact this) (fun k hk => lt_of_lt_of_le hk (Nat.le_mul_of_pos_left y hX)) (fun _ _ _ _ h => h)
          refine ⟨m, h1, fun kx hkx j hj => ?_⟩
          by_cases h0 : kx = 0
          · subst h0
            rw [if_pos ⟨hx, rfl⟩]
            have := h2 j hj
            rw [Nat.zero_mul, Nat.zero_add]
            exact this
          · rw [if_neg fun h => h0 h.2, h3 _ fun k' hk' => by
              have : 1 * y ≤ kx * y := Nat.mul_le_mul_right y (by omega)
              omega]
            have := hG r hr kx hkx j (by rw [hy]; exact hj)
            rw [hy] at this
            exact this
        · rw [if_neg hx]
          refine ⟨(s r).loc.mem, rfl, fun kx hkx j hj => ?_⟩
          rw [if_neg fun h => hx h.1]
          have := hG r hr kx hkx j (by rw [hy]; exact hj)
          rw [hy] at this
          exact this
      -- last column
      obtain ⟨m2, b1, b2⟩ : ∃ m, (if Y % 2 = 0 ∧ first (Y / 2 + 1) P r + y = Y / 2 + 1 then
            Prog.calls ((List.range X ×ˢ List.range 2).map fun x => Op.store (cx r + (2 * Rcfft2MPI.pred32 ((x.1 + 1) * y) + x.2)) (0 : ℝ))
            else Prog.ret ()).eval e r (fun j => (s j).loc) { (s r).loc with mem := m1 } = some ((), { (s r).loc with mem := m }) ∧
          ∀ kx < X, ∀ j < y, cget m (cx r + 2 * (kx * y + j)) = if Y % 2 = 0 ∧ first (Y / 2 + 1) P r + j = Y / 2 then 0 else cget m1 (cx r + 2 * (kx * y + j)) := by
        by_cases hc : Y % 2 = 0 ∧ first (Y / 2 + 1) P r + y = Y / 2 + 1
        · rw [if_pos hc]
          have hy0 : 0 < y := by
            by_contra h
            have := hno hc.1 r hr (by omega)
            omega
          have hp : ∀ kx, Rcfft2MPI.pred32 ((kx + 1) * y) = kx * y + (y - 1) := by
            intro kx
            unfold Rcfft2MPI.pred32
            rw [if_neg (Nat.mul_pos (Nat.succ_pos _) hy0).ne', Nat.succ_mul]
            omega
          obtain ⟨m, h1, h2, h3⟩ := zeros_ok (e := e) (i := r) (env := fun j => (s j).loc) (σ := { (s r).loc with mem := m1 }) (hq.req r hr) (f := cx r) (n := X)
            (N := X * y) (g := fun k => Rcfft2MPI.pred32 ((k + 1) * y)) (by have := hs r hr; rw [hy] at this; exact this)
            (fun k hk => by rw [hp]; exact rad_lt (by omega) hk) (fun k _ k' _ h => by
              rw [hp, hp] at h
              exact (rad_inj (by omega) (by omega) h).1)
          refine ⟨m, h1, fun kx hkx j hj => ?_⟩
          by_cases h0 : first (Y / 2 + 1) P r + j = Y / 2
          · rw [if_pos ⟨hc.1, h0⟩]
            have := h2 kx hkx
            rw [hp] at this
            rw [show j = y - 1 by omega]
            exact this
          · rw [if_neg fun h => h0 h.2, h3 _ fun k' hk' h => by
              rw [hp] at h
              have := (rad_inj hj (by omega) h).2
              omega]
        · rw [if_neg hc]
          refine ⟨m1, rfl, fun kx hkx j hj => ?_⟩
          rw [if_neg]
          rintro ⟨h1, h2⟩
          refine hc ⟨h1, ?_⟩
          have := first_lt hP hr (show y - 1 < part (Y / 2 + 1) P r by omega)
          omega
      refine ⟨m2, ?_, fun kx hkx j hj => ?_⟩
      · show (Prog.bind _ _).eval e r _ _ = _
        refine Eq.trans (eval_seq (a := ()) (τ := { (s r).loc with mem := m1 }) ?_) ?_
        · rw [hy']; exact a1
        · rw [hy']; exact b1
      · rw [b2 kx hkx j hj, a2 kx hkx j hj]
        by_cases h1 : Y % 2 = 0 ∧ first (Y / 2 + 1) P r + j = Y / 2
        · rw [if_pos h1, if_pos (Or.inr h1)]
        · rw [if_neg h1]
          by_cases h2 : X % 2 = 0 ∧ kx = 0
          · rw [if_pos h2, if_pos (Or.inl h2)]
          · rw [if_neg h2, if_neg (by tauto)])
  exact ⟨t, t1, t2, t3, t4⟩

end Fftwpp.Net
