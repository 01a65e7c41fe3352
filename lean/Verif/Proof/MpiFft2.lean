import Verif.Proof.MpiFft
import Verif.Proof.Roots

/-!
# The distributed two-dimensional transform
-/

namespace Fftwpp.Net
open Finset
variable {V : Type}

/-- `localize0` in a program. -/
theorem localize0_step {e : Eager} {N M L P optA alltoall : ℕ} (hN : 0 < N) (hM : 0 < M) (hP : 0 < P) (ha : 1 ≤ optA) {G : ℕ → ℕ → ℕ → V}
    {rows cols wrk : ℕ → Loc} {s : St V} {k : ℕ → Prog V Unit} (he : TransposeEnv N M L P optA alltoall rows cols wrk fun r => (s r).loc)
    (hq : Quiet P (fun r => ((MT.mk' N M L P r optA alltoall).localize0 (rows r) (cols r) (wrk r)).bind fun _ => k r) s)
    (hG : HoldsRows N M L P G rows fun r => (s r).loc) :
    ∃ t, Steps e s t ∧ Quiet P k t ∧ (∀ r, (t r).loc.size = (s r).loc.size) ∧ HoldsCols N M L P G cols (fun r => (t r).loc) ∧
      ∀ r < P, ∀ a, ¬ (Region.mk (cols r) (N * part M P r * L)).has a → ¬ (Region.mk (wrk r) (part N P r * M * L)).has a →
        (t r).loc.mem a = (s r).loc.mem a := by
  obtain ⟨g, hs⟩ := seen (L := L) (alltoall := alltoall) hN hM hP ha
  obtain ⟨b1, _, b3, b4⟩ := hs.bufs he
  obtain ⟨t, t1, t2, t3, t4, t5⟩ := Geo.localize0_all (e := e) (k := k) hs.ok hs.size b1 b3 b4
    (⟨fun i hi => by rw [hq.prog i hi, hs.mt i hi], hq.done, hq.req, hq.bal⟩)
  refine ⟨t, t1, t2, t3, hs.cols hP hG t4, fun r hr a ha1 ha2 => t5 r hr a fun _ => ?_⟩
  rw [← hs.partM, ← hs.partN, hs.eN, hs.eM, hs.eL]
  exact ⟨ha1, ha2⟩

/-- `localize1` in a program. -/
theorem localize1_step {e : Eager} {N M L P optA alltoall : ℕ} (hN : 0 < N) (hM : 0 < M) (hP : 0 < P) (ha : 1 ≤ optA) {G : ℕ → ℕ → ℕ → V}
    {rows cols wrk : ℕ → Loc} {s : St V} {k : ℕ → Prog V Unit} (he : TransposeEnv N M L P optA alltoall rows cols wrk fun r => (s r).loc)
    (hq : Quiet P (fun r => ((MT.mk' N M L P r optA alltoall).localize1 (cols r) (rows r) (wrk r)).bind fun _ => k r) s)
    (hG : HoldsCols N M L P G cols fun r => (s r).loc) :
    ∃ t, Steps e s t ∧ Quiet P k t ∧ (∀ r, (t r).loc.size = (s r).loc.size) ∧ HoldsRows N M L P G rows (fun r => (t r).loc) ∧
      ∀ r < P, ∀ a, ¬ (Region.mk (rows r) (part N P r * M * L)).has a → ¬ (Region.mk (wrk r) (part N P r * M * L)).has a →
        (t r).loc.mem a = (s r).loc.mem a := by
  obtain ⟨g, hs⟩ := seen (L := L) (alltoall := alltoall) hN hM hP ha
  obtain ⟨_, b2, b3, b4⟩ := hs.bufs he
  obtain ⟨t, t1, t2, t3, t4, t5⟩ := Geo.localize1_all (e := e) (k := k) hs.ok hs.size b2 b4 b3
    (⟨fun i hi => by rw [hq.prog i hi, hs.mt i hi], hq.done, hq.req, hq.bal⟩)
  refine ⟨t, t1, t2, t3, hs.rows hP hG t4, fun r hr a ha1 ha2 => t5 r hr a fun _ => ?_⟩
  rw [← hs.partN, hs.eM, hs.eL]
  exact ⟨ha1, ha2⟩

/-- Room for the transform: `n = max(X*y,x*Y)` words (mpi/mpigroup.h:98). -/
def room2 (X Y P r : ℕ) : ℕ := max (X * part Y P r) (part X P r * Y)

/-- The arrays of a distributed two-dimensional transform: `split::n` words each at `inp r` and `out r` (equal, or in different
buffers), `wrk r` the work array of the transpose. -/
structure Fft2Bufs (X Y P : ℕ) (ip : Bool) (inp out wrk : ℕ → Loc) (size : ℕ → ℕ → ℕ) : Prop where
  inSize : ∀ r < P, (inp r).off + room2 X Y P r ≤ size r (inp r).buf
  outSize : ∀ r < P, (out r).off + room2 X Y P r ≤ size r (out r).buf
  wrkSize : ∀ r < P, (wrk r).off + part X P r * Y ≤ size r (wrk r).buf
  inwrk : ∀ r < P, (inp r).buf ≠ (wrk r).buf
  outwrk : ∀ r < P, (out r).buf ≠ (wrk r).buf
  /-- In place in all processes, or in none. -/
  same : ∀ r < P, (ip = true) ↔ inp r = out r
  sep : ∀ r < P, inp r = out r ∨ (inp r).buf ≠ (out r).buf

theorem Fft2Bufs.swap {X Y P : ℕ} {ip : Bool} {inp out wrk : ℕ → Loc} {size : ℕ → ℕ → ℕ} (h : Fft2Bufs X Y P ip inp out wrk size) :
    Fft2Bufs X Y P ip out inp wrk size :=
  ⟨h.outSize, h.inSize, h.wrkSize, h.outwrk, h.inwrk, fun r hr => (h.same r hr).trans eq_comm, fun r hr => (h.sep r hr).imp Eq.symm Ne.symm⟩

theorem Fft2Bufs.env {X Y P optA alltoall : ℕ} {ip : Bool} {inp out wrk : ℕ → Loc} {σ : ℕ → Local V}
    (h : Fft2Bufs X Y P ip inp out wrk fun r => (σ r).size) (hr : ∀ r < P, ∀ id, (σ r).req id = none) (hb : Balanced P σ) :
    TransposeEnv X Y 1 P optA alltoall out out wrk σ where
  rowsSize r hr := (Nat.add_le_add_left (by rw [Nat.mul_one]; exact le_max_right _ _) _).trans (h.outSize r hr)
  colsSize r hr := (Nat.add_le_add_left (by rw [Nat.mul_one]; exact le_max_left _ _) _).trans (h.outSize r hr)
  wrkSize r hr := by rw [Nat.mul_one]; exact h.wrkSize r hr
  rowswrk := h.outwrk
  colswrk := h.outwrk
  same r _ := Or.inl rfl
  compact r _ _ := rfl
  req := hr
  bal := hb

theorem has_mono {p : Loc} {n n' : ℕ} (h : n ≤ n') {a : Loc} (ha : (Region.mk p n).has a) : (Region.mk p n').has a :=
  ⟨ha.1, ha.2.1, lt_of_lt_of_le ha.2.2 (Nat.add_le_add_left h _)⟩

/-- The transform in x of the local columns, with or without local transposes. -/
noncomputable def xfft (X y : ℕ) (sign : ℤ) (strided ip : Bool) (inp out : Loc) : Prog ℂ Unit := do
  (if strided = false then transpose X y 1 true inp inp else .ret ())
  (if strided = true then Mfft.new X sign y y 1 ip else Mfft.new X sign y 1 X ip).fft inp out
  (if strided = false then transpose y X 1 true out out else .ret ())

theorem xfft_ok {e : Eager} {i : ℕ} {env : ℕ → Local ℂ} {σ : Local ℂ} (hr : ∀ id, σ.req id = none) {X y : ℕ} {sign : ℤ} {strided ip : Bool} {inp out : Loc}
    (hip : (ip = true) ↔ inp = out) (hsep : inp = out ∨ inp.buf ≠ out.buf) (hs : inp.off + X * y ≤ σ.size inp.buf) (hd : out.off + X * y ≤ σ.size out.buf) :
    ∃ m, (xfft X y sign strided ip inp out).eval e i env σ = some ((), { σ with mem := m }) ∧
      (∀ k < y, ∀ j < X, m (out + (j * y + k)) = ∑ t ∈ range X, σ.mem (inp + (t * y + k)) * w X (sign * t * j)) ∧
      (∀ a, ¬ (Region.mk out (X * y)).has a → ¬ (Region.mk inp (X * y)).has a → m a = σ.mem a) ∧
      (strided = true → ∀ a, ¬ (Region.mk out (X * y)).has a → m a = σ.mem a) ∧
      (strided = false → inp.buf ≠ out.buf → ∀ j < X, ∀ k < y, m (inp + (k * X + j)) = σ.mem (inp + (j * y + k))) := by
  cases strided with
  | true =>
    obtain ⟨m, h1, h2, h3⟩ := cols_ok (e := e) (i := i) (env := env) hr (n := X) (M := y) (sign := sign) hip hs hd
    refine ⟨m, ?_, h2, fun a ha _ => h3 a ha, fun _ => h3, by simp⟩
    unfold xfft
    simp only [Bool.true_eq_false, if_false, if_true]
    show (Prog.bind (.ret ()) _).eval e i env σ = _
    show (Prog.bind _ (fun _ => Prog.ret ())).eval e i env σ = _
    rw [Geo.bind_ret]
    exact h1
  | false =>
    obtain ⟨m1, a1, a2, a3⟩ := transpose_ok (e := e) (i := i) (env := env) hr (rows := X) (cols := y) (length := 1) (ip := true) (s := inp) (d := inp)
      (fun _ => rfl) (by simp) (by rw [Nat.mul_one]; exact hs) (by rw [Nat.mul_one]; exact hs)
    obtain ⟨m2, b1, b2, b3⟩ := rows_ok (e := e) (i := i) (env := env) (σ := { σ with mem := m1 }) hr (n := X) (M := y) (sign := sign) hip
      (by rw [Nat.mul_comm]; exact hs) (by rw [Nat.mul_comm]; exact hd)
    obtain ⟨m3, c1, c2, c3⟩ := transpose_ok (e := e) (i := i) (env := env) (σ := { σ with mem := m2 }) hr (rows := y) (cols := X) (length := 1)
      (ip := true) (s := out) (d := out) (fun _ => rfl) (by simp) (by rw [Nat.mul_one, Nat.mul_comm y X]; exact hd) (by rw [Nat.mul_one, Nat.mul_comm y X]; exact hd)
    refine ⟨m3, ?_, ?_, ?_, by simp, ?_⟩
    · unfold xfft
      simp only [if_true, Bool.false_eq_true, if_false]
      show (Prog.bind _ _).eval e i env σ = _
      rw [eval_seq a1]
      show (Prog.bind _ _).eval e i env _ = _
      rw [eval_seq b1]
      exact c1
    · intro k hk j hj
      have c := c2 k hk j hj 0 (by omega)
      simp only [Nat.mul_one, Nat.add_zero] at c
      rw [c, b2 k hk j hj]
      refine sum_congr rfl fun t ht => ?_
      have a := a2 t (mem_range.1 ht) k hk 0 (by omega)
      simp only [Nat.mul_one, Nat.add_zero] at a
      show m1 _ * _ = _
      rw [a]
    · intro a ha ha'
      rw [c3 a (by rw [Nat.mul_one, Nat.mul_comm y X]; exact ha)]
      have := b3 a (by rw [Nat.mul_comm y X]; exact ha)
      show m2 a = _
      rw [this]
      exact a3 a (by rw [Nat.mul_one]; exact ha')
    · intro _ hne j hj k hk
      have hno : ∀ n, ¬ (Region.mk out n).has (inp + (k * X + j)) := fun n hn => hne hn.1
      rw [c3 _ (hno _)]
      show m2 _ = _
      rw [b3 _ (hno _)]
      have a := a2 j hj k hk 0 (by omega)
      simp only [Nat.mul_one, Nat.add_zero] at a
      exact a

theorem part_eq (N P r : ℕ) : (Mpi.localdimension N r P).n.toNat = part N P r := rfl

theorem first_lt {N P r i : ℕ} (hP : 0 < P) (hr : r < P) (hi : i < part N P r) : first N P r + i < N :=
  (ld_has N P hP).1 r hr (first N P r + i) (Nat.le_add_right _ _) (Nat.add_lt_add_left hi _)

/-- The transform in x of a global array distributed by columns. -/
noncomputable def dftX (X : ℕ) (sign : ℤ) (G : ℕ → ℕ → ℂ) (kx j : ℕ) : ℂ := ∑ i ∈ range X, G i j * w X (sign * i * kx)
/-- The transform in y. -/
noncomputable def dftY (Y : ℕ) (sign : ℤ) (G : ℕ → ℕ → ℂ) (i ky : ℕ) : ℂ := ∑ j ∈ range Y, G i j * w Y (sign * j * ky)

theorem dftX_dftY (X Y : ℕ) (sign : ℤ) (G : ℕ → ℕ → ℂ) (kx ky : ℕ) : dftX X sign (dftY Y sign G) kx ky = dft2 X Y sign G kx ky := by
  unfold dftX dftY dft2
  refine sum_congr rfl fun i _ => ?_
  rw [sum_mul]
  exact sum_congr rfl fun j _ => by ring

theorem dftY_dftX (X Y : ℕ) (sign : ℤ) (G : ℕ → ℕ → ℂ) (kx ky : ℕ) : dftY Y sign (dftX X sign G) kx ky = dft2 X Y sign G kx ky := by
  unfold dftX dftY dft2
  rw [sum_comm]
  refine sum_congr rfl fun i _ => ?_
  rw [sum_mul]

/-- `Forward` in a program. -/
theorem forward2_step {e : Eager} {X Y P optA alltoall : ℕ} (hX : 0 < X) (hY : 0 < Y) (hP : 0 < P) (ha : 1 ≤ optA) {sign : ℤ} {ip : Bool} {G : ℕ → ℕ → ℂ}
    {inp out wrk : ℕ → Loc} {s : St ℂ} {k : ℕ → Prog ℂ Unit} (hb : Fft2Bufs X Y P ip inp out wrk fun r => (s r).loc.size)
    (hq : Quiet P (fun r => ((Fft2MPI.new X Y P r sign ip optA alltoall).forward (inp r) (some (out r)) (wrk r)).bind fun _ => k r) s)
    (hG : HoldsRows X Y 1 P (fun i j _ => G i j) inp fun r => (s r).loc) :
    ∃ t, Steps e s t ∧ Quiet P k t ∧ (∀ r, (t r).loc.size = (s r).loc.size) ∧
      HoldsCols X Y 1 P (fun i j _ => dft2 X Y sign G i j) out (fun r => (t r).loc) ∧
      ∀ r < P, ∀ a, ¬ (Region.mk (out r) (room2 X Y P r)).has a → ¬ (Region.mk (wrk r) (part X P r * Y)).has a →
        (t r).loc.mem a = (s r).loc.mem a := by
  have hprog : ∀ r < P, ((Fft2MPI.new X Y P r sign ip optA alltoall).forward (inp r) (some (out r)) (wrk r)).bind (fun _ => k r) =
      ((Mfft.new Y sign (part X P r) 1 Y ip).fft (inp r) (out r)).bind fun _ => ((MT.mk' X Y 1 P r optA alltoall).localize0 (out r) (out r) (wrk r)).bind fun _ =>
        (xfft X (part Y P r) sign (Fft2MPI.new X Y P r sign ip optA alltoall).strided true (out r) (out r)).bind fun _ => k r := by
    intro r hr
    unfold Fft2MPI.forward
    simp only [Option.getD_some]
    rw [if_pos (show ((Fft2MPI.new X Y P r sign ip optA alltoall).inplace = true) ↔ inp r = out r from hb.same r hr)]
    show Prog.bind (Prog.bind _ fun _ => Prog.bind _ _) _ = _
    rw [Prog.bind_assoc]
    simp only [Prog.bind_assoc]
    rfl
  -- transforms in y
  obtain ⟨t, t1, t2, t3, t4⟩ := local_phase (e := e) (P := P) (s := s) (k := fun r => ((MT.mk' X Y 1 P r optA alltoall).localize0 (out r) (out r) (wrk r)).bind
        fun _ => (xfft X (part Y P r) sign (Fft2MPI.new X Y P r sign ip optA alltoall).strided true (out r) (out r)).bind fun _ => k r)
    (x := fun r => (Mfft.new Y sign (part X P r) 1 Y ip).fft (inp r) (out r))
    ⟨fun i hi => by rw [hq.prog i hi, hprog i hi], hq.done, hq.req, hq.bal⟩
    (R := fun r m => (∀ i < part X P r, ∀ j < Y, m (out r + (i * Y + j)) = dftY Y sign G (first X P r + i) j) ∧
      ∀ a, ¬ (Region.mk (out r) (part X P r * Y)).has a → m a = (s r).loc.mem a)
    (by
      intro r hr
      obtain ⟨m, m1, m2, m3⟩ := rows_ok (e := e) (i := r) (env := fun j => (s j).loc) (hq.req r hr) (n := Y) (M := part X P r) (sign := sign) (hb.same r hr)
        ((Nat.add_le_add_left (le_max_right _ _) _).trans (hb.inSize r hr)) ((Nat.add_le_add_left (le_max_right _ _) _).trans (hb.outSize r hr))
      refine ⟨m, m1, fun i hi j hj => ?_, m3⟩
      rw [m2 i hi j hj]
      refine sum_congr rfl fun t ht => ?_
      have := hG r hr i hi t (mem_range.1 ht) 0 (by omega)
      simp only [Nat.mul_one, Nat.add_zero] at this
      rw [this])
  -- transpose
  have hb' : Fft2Bufs X Y P ip inp out wrk fun r => (t r).loc.size := by simpa only [t3] using hb
  obtain ⟨u, u1, u2, u3, u4, u5⟩ := localize0_step (e := e) hX hY hP ha (G := fun i j _ => dftY Y sign G i j) (hb'.env (σ := fun r => (t r).loc) t2.req t2.bal) t2
    (by
      intro r hr i hi j hj l hl
      have : l = 0 := by omega
      subst this
      simp only [Nat.mul_one, Nat.add_zero]
      exact (t4 r hr).1 i hi j hj)
  -- transforms in x
  obtain ⟨v, v1, v2, v3, v4⟩ := local_phase (e := e) u2
    (R := fun r m => (∀ kx < X, ∀ j < part Y P r, m (out r + (kx * part Y P r + j)) = dft2 X Y sign G kx (first Y P r + j)) ∧
      ∀ a, ¬ (Region.mk (out r) (X * part Y P r)).has a → m a = (u r).loc.mem a)
    (by
      intro r hr
      have hs : (out r).off + X * part Y P r ≤ (u r).loc.size (out r).buf := by
        rw [u3, t3]
        exact (Nat.add_le_add_left (le_max_left _ _) _).trans (hb.outSize r hr)
      obtain ⟨m, m1, m2, m3, _, _⟩ := xfft_ok (e := e) (i := r) (env := fun j => (u j).loc) (u2.req r hr) (X := X) (y := part Y P r) (sign := sign)
        (strided := (Fft2MPI.new X Y P r sign ip optA alltoall).strided) (ip := true) (inp := out r) (out := out r) (by simp) (Or.inl rfl) hs hs
      refine ⟨m, m1, fun kx hkx j hj => ?_, fun a ha => m3 a ha ha⟩
      rw [m2 j hj kx hkx, ← dftX_dftY]
      refine sum_congr rfl fun t ht => ?_
      have := u4 r hr t (mem_range.1 ht) j hj 0 (by omega)
      simp only [Nat.mul_one, Nat.add_zero] at this
      rw [this])
  refine ⟨v, (t1.trans u1).trans v1, v2, fun r => by rw [v3, u3, t3], ?_, ?_⟩
  · intro r hr i hi j hj l hl
    have : l = 0 := by omega
    subst this
    simp only [Nat.mul_one, Nat.add_zero]
    exact (v4 r hr).1 i hi j hj
  · intro r hr a ha1 ha2
    rw [(v4 r hr).2 a fun h => ha1 (has_mono (le_max_left _ _) h), u5 r hr a (fun h => ha1 (has_mono (by rw [Nat.mul_one]; exact le_max_left _ _) h))
      (by rw [Nat.mul_one]; exact ha2), (t4 r hr).2 a fun h => ha1 (has_mono (le_max_right _ _) h)]

/-- `Backward` in a program. -/
theorem backward2_step {e : Eager} {X Y P optA alltoall : ℕ} (hX : 0 < X) (hY : 0 < Y) (hP : 0 < P) (ha : 1 ≤ optA) {sign : ℤ} {ip : Bool} {G : ℕ → ℕ → ℂ}
    {inp out wrk : ℕ → Loc} {s : St ℂ} {k : ℕ → Prog ℂ Unit} (hb : Fft2Bufs X Y P ip inp out wrk fun r => (s r).loc.size)
    (hq : Quiet P (fun r => ((Fft2MPI.new X Y P r sign ip optA alltoall).backward (inp r) (some (out r)) (wrk r)).bind fun _ => k r) s)
    (hG : HoldsCols X Y 1 P (fun i j _ => G i j) inp fun r => (s r).loc) :
    ∃ t, Steps e s t ∧ Quiet P k t ∧ (∀ r, (t r).loc.size = (s r).loc.size) ∧
      HoldsRows X Y 1 P (fun i j _ => dft2 X Y (-sign) G i j) out (fun r => (t r).loc) ∧
      (∀ r < P, ∀ a, ¬ (Region.mk (out r) (room2 X Y P r)).has a → ¬ (Region.mk (wrk r) (part X P r * Y)).has a →
        ((Fft2MPI.new X Y P r sign ip optA alltoall).strided = true ∨ ¬ (Region.mk (inp r) (X * part Y P r)).has a) → (t r).loc.mem a = (s r).loc.mem a) ∧
      ∀ r < P, (Fft2MPI.new X Y P r sign ip optA alltoall).strided = false → inp r ≠ out r → ∀ i < X, ∀ j < part Y P r,
        (t r).loc.mem (inp r + (j * X + i)) = G i (first Y P r + j) := by
  have hprog : ∀ r < P, ((Fft2MPI.new X Y P r sign ip optA alltoall).backward (inp r) (some (out r)) (wrk r)).bind (fun _ => k r) =
      (xfft X (part Y P r) (-sign) (Fft2MPI.new X Y P r sign ip optA alltoall).strided ip (inp r) (out r)).bind fun _ =>
        ((MT.mk' X Y 1 P r optA alltoall).localize1 (out r) (out r) (wrk r)).bind fun _ =>
        ((Mfft.new Y (-sign) (part X P r) 1 Y true).fft (out r) (out r)).bind fun _ => k r := by
    intro r hr
    unfold Fft2MPI.backward
    simp only [Option.getD_some]
    rw [if_pos (show ((Fft2MPI.new X Y P r sign ip optA alltoall).inplace = true) ↔ inp r = out r from hb.same r hr)]
    unfold xfft
    show Prog.bind (Prog.bind _ fun _ => Prog.bind _ fun _ => Prog.bind _ fun _ => Prog.bind _ _) _ = Prog.bind (Prog.bind _ fun _ => Prog.bind _ fun _ => _) _
    simp only [Prog.bind_assoc]
    rfl
  -- transforms in x
  obtain ⟨t, t1, t2, t3, t4⟩ := local_phase (e := e) (P := P) (s := s) (k := fun r => ((MT.mk' X Y 1 P r optA alltoall).localize1 (out r) (out r) (wrk r)).bind
        fun _ => ((Mfft.new Y (-sign) (part X P r) 1 Y true).fft (out r) (out r)).bind fun _ => k r)
    (x := fun r => xfft X (part Y P r) (-sign) (Fft2MPI.new X Y P r sign ip optA alltoall).strided ip (inp r) (out r))
    ⟨fun i hi => by rw [hq.prog i hi, hprog i hi], hq.done, hq.req, hq.bal⟩
    (R := fun r m => (∀ kx < X, ∀ j < part Y P r, m (out r + (kx * part Y P r + j)) = dftX X (-sign) G kx (first Y P r + j)) ∧
      (∀ a, ¬ (Region.mk (out r) (X * part Y P r)).has a →
        ((Fft2MPI.new X Y P r sign ip optA alltoall).strided = true ∨ ¬ (Region.mk (inp r) (X * part Y P r)).has a) → m a = (s r).loc.mem a) ∧
      ((Fft2MPI.new X Y P r sign ip optA alltoall).strided = false → inp r ≠ out r → ∀ i < X, ∀ j < part Y P r,
        m (inp r + (j * X + i)) = G i (first Y P r + j)))
    (by
      intro r hr
      obtain ⟨m, m1, m2, m3, m4, m5⟩ := xfft_ok (e := e) (i := r) (env := fun j => (s j).loc) (hq.req r hr) (X := X) (y := part Y P r) (sign := -sign)
        (strided := (Fft2MPI.new X Y P r sign ip optA alltoall).strided) (ip := ip) (inp := inp r) (out := out r) (hb.same r hr) (hb.sep r hr)
        ((Nat.add_le_add_left (le_max_left _ _) _).trans (hb.inSize r hr)) ((Nat.add_le_add_left (le_max_left _ _) _).trans (hb.outSize r hr))
      refine ⟨m, m1, fun kx hkx j hj => ?_, fun a ha ho => ho.elim (fun h => m4 h a ha) (m3 a ha), fun h1 h2 i hi j hj => ?_⟩
      · rw [m2 j hj kx hkx]
        refine sum_congr rfl fun t ht => ?_
        have := hG r hr t (mem_range.1 ht) j hj 0 (by omega)
        simp only [Nat.mul_one, Nat.add_zero] at this
        rw [this]
      · rw [m5 h1 ((hb.sep r hr).resolve_left h2) i hi j hj]
        have := hG r hr i hi j hj 0 (by omega)
        simp only [Nat.mul_one, Nat.add_zero] at this
        exact this)
  -- transpose
  have hb' : Fft2Bufs X Y P ip inp out wrk fun r => (t r).loc.size := by simpa only [t3] using hb
  obtain ⟨u, u1, u2, u3, u4, u5⟩ := localize1_step (e := e) hX hY hP ha (G := fun i j _ => dftX X (-sign) G i j) (hb'.env (σ := fun r => (t r).loc) t2.req t2.bal) t2
    (by
      intro r hr i hi j hj l hl
      have : l = 0 := by omega
      subst this
      simp only [Nat.mul_one, Nat.add_zero]
      exact (t4 r hr).1 i hi j hj)
  -- transforms in y
  obtain ⟨v, v1, v2, v3, v4⟩ := local_phase (e := e) u2
    (R := fun r m => (∀ i < part X P r, ∀ ky < Y, m (out r + (i * Y + ky)) = dft2 X Y (-sign) G (first X P r + i) ky) ∧
      ∀ a, ¬ (Region.mk (out r) (part X P r * Y)).has a → m a = (u r).loc.mem a)
    (by
      intro r hr
      have hs : (out r).off + part X P r * Y ≤ (u r).loc.size (out r).buf := by
        rw [u3, t3]
        exact (Nat.add_le_add_left (le_max_right _ _) _).trans (hb.outSize r hr)
      obtain ⟨m, m1, m2, m3⟩ := rows_ok (e := e) (i := r) (env := fun j => (u j).loc) (u2.req r hr) (n := Y) (M := part X P r) (sign := -sign)
        (ip := true) (src := out r) (dst := out r) (by simp) hs hs
      refine ⟨m, m1, fun i hi ky hky => ?_, m3⟩
      rw [m2 i hi ky hky, ← dftY_dftX]
      refine sum_congr rfl fun t ht => ?_
      have := u4 r hr i hi t (mem_range.1 ht) 0 (by omega)
      simp only [Nat.mul_one, Nat.add_zero] at this
      rw [this])
  refine ⟨v, (t1.trans u1).trans v1, v2, fun r => by rw [v3, u3, t3], ?_, ?_, ?_⟩
  · intro r hr i hi j hj l hl
    have : l = 0 := by omega
    subst this
    simp only [Nat.mul_one, Nat.add_zero]
    exact (v4 r hr).1 i hi j hj
  · intro r hr a ha1 ha2 ha3
    rw [(v4 r hr).2 a fun h => ha1 (has_mono (le_max_right _ _) h), u5 r hr a (fun h => ha1 (has_mono (by rw [Nat.mul_one]; exact le_max_right _ _) h))
      (by rw [Nat.mul_one]; exact ha2), (t4 r hr).2.1 a (fun h => ha1 (has_mono (le_max_left _ _) h)) ha3]
  · intro r hr h1 h2 i hi j hj
    have hno : ∀ n, ¬ (Region.mk (out r) n).has (inp r + (j * X + i)) := fun n hn => (hb.sep r hr).resolve_left h2 hn.1
    have hno' : ∀ n, ¬ (Region.mk (wrk r) n).has (inp r + (j * X + i)) := fun n hn => hb.inwrk r hr hn.1
    rw [(v4 r hr).2 _ (hno _), u5 r hr _ (hno _) (hno' _)]
    exact (t4 r hr).2.2 h1 h2 i hi j hj

/-- `Normalize` in a program. -/
theorem normalize2_step {e : Eager} {X Y P : ℕ} {optA alltoall : ℕ} {sign : ℤ} {ip : Bool} {G : ℕ → ℕ → ℂ} {out : ℕ → Loc} {s : St ℂ} {k : ℕ → Prog ℂ Unit}
    (hs : ∀ r < P, (out r).off + part X P r * Y ≤ (s r).loc.size (out r).buf)
    (hq : Quiet P (fun r => ((Fft2MPI.new X Y P r sign ip optA alltoall).normalize (out r)).bind fun _ => k r) s)
    (hG : HoldsRows X Y 1 P (fun i j _ => G i j) out fun r => (s r).loc) :
    ∃ t, Steps e s t ∧ Quiet P k t ∧ (∀ r, (t r).loc.size = (s r).loc.size) ∧
      HoldsRows X Y 1 P (fun i j _ => G i j / ((X * Y : ℕ) : ℂ)) out (fun r => (t r).loc) := by
  obtain ⟨t, t1, t2, t3, t4⟩ := local_phase (e := e) hq
    (R := fun r m => ∀ i < part X P r, ∀ j < Y, m (out r + (i * Y + j)) = G (first X P r + i) j / ((X * Y : ℕ) : ℂ))
    (by
      intro r hr
      obtain ⟨m, m1, m2, _⟩ := normalizeP_ok (e := e) (i := r) (env := fun j => (s j).loc) (hq.req r hr) (norm := 1 / ((X * Y : ℕ) : ℂ)) (hs r hr)
      refine ⟨m, m1, fun i hi j hj => ?_⟩
      have := hG r hr i hi j hj 0 (by omega)
      simp only [Nat.mul_one, Nat.add_zero] at this
      rw [m2 _ (rad_lt hj hi), this, mul_one_div])
  refine ⟨t, t1, t2, t3, ?_⟩
  intro r hr i hi j hj l hl
  have : l = 0 := by omega
  subst this
  simp only [Nat.mul_one, Nat.add_zero]
  exact t4 r hr i hi j hj

/-- One-dimensional inversion. -/
theorem dft_inv (N : ℕ) (sign : ℤ) (hs : sign = 1 ∨ sign = -1) (f : ℕ → ℂ) {i : ℕ} (hi : i < N) :
    ∑ k ∈ range N, (∑ j ∈ range N, f j * w N (sign * j * k)) * w N (-sign * k * i) = N * f i := by
  have e1 : ∀ k ∈ range N, (∑ j ∈ range N, f j * w N (sign * j * k)) * w N (-sign * k * i) = ∑ j ∈ range N, f j * w N (sign * (j - i) * k) := by
    intro k _
    rw [sum_mul]
    refine sum_congr rfl fun j _ => ?_
    rw [mul_assoc, ← w_add]
    congr 2; ring
  rw [sum_congr rfl e1, sum_comm]
  have e2 : ∀ j ∈ range N, ∑ k ∈ range N, f j * w N (sign * (j - i) * k) = if j = i then N * f i else 0 := by
    intro j hj
    rw [← mul_sum]
    have := w_sum N (by omega) (sign * ((j : ℤ) - i))
    rw [sum_congr rfl fun k _ => by rw [mul_comm (sign * ((j : ℤ) - i)) (k : ℤ)]]
    rw [this]
    have hj' := mem_range.1 hj
    have hdvd : ((N : ℤ) ∣ sign * ((j : ℤ) - i)) ↔ j = i := by
      constructor
      · intro h
        have h' : (N : ℤ) ∣ (j : ℤ) - i := by
          rcases hs with rfl | rfl
          · simpa using h
          · rw [neg_one_mul, dvd_neg] at h; exact h
        by_contra hne
        have := Int.eq_zero_of_abs_lt_dvd h' (by rw [abs_lt]; omega)
        omega
      · rintro rfl; simp
    by_cases h : j = i
    · rw [if_pos (hdvd.2 h), if_pos h, h, mul_comm]
    · rw [if_neg fun hh => h (hdvd.1 hh), if_neg h, mul_zero]
  rw [sum_congr rfl e2, sum_ite_eq' (range N) i, if_pos (mem_range.2 hi)]

/-- Two-dimensional inversion. -/
theorem dft2_inv (X Y : ℕ) (sign : ℤ) (hs : sign = 1 ∨ sign = -1) (G : ℕ → ℕ → ℂ) {i j : ℕ} (hi : i < X) (hj : j < Y) :
    dft2 X Y (-sign) (dft2 X Y sign G) i j = ((X * Y : ℕ) : ℂ) * G i j := by
  have e : ∀ kx ky, dft2 X Y sign G kx ky = dftX X sign (dftY Y sign G) kx ky := fun kx ky => (dftX_dftY X Y sign G kx ky).symm
  have e' : dft2 X Y sign G = dftX X sign (dftY Y sign G) := funext fun a => funext fun b => e a b
  rw [e', ← dftY_dftX]
  have h1 : ∀ ky, dftX X (-sign) (dftX X sign (dftY Y sign G)) i ky = X * dftY Y sign G i ky := fun ky =>
    dft_inv X sign hs (fun t => dftY Y sign G t ky) hi
  unfold dftY
  have h2 := dft_inv Y sign hs (fun t => G i t) hj
  calc ∑ t ∈ range Y, dftX X (-sign) (dftX X sign (dftY Y sign G)) i t * w Y (-sign * t * j)
      = ∑ t ∈ range Y, (X : ℂ) * ((∑ t' ∈ range Y, G i t' * w Y (sign * t' * t)) * w Y (-sign * t * j)) := by
        refine sum_congr rfl fun t _ => ?_
        rw [h1 t, mul_assoc]; rfl
    _ = _ := by rw [← mul_sum, h2]; push_cast; ring

end Fftwpp.Net
