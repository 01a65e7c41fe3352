import Verif.Proof.MpiRcfft3
import Verif.Proof.RDft3

/-!
# Distributed three-dimensional transforms of real data: `Forward`, `Backward`
-/

namespace Fftwpp.Net
open Finset

/-- `Rcfft3MPI.new` in terms of the grid. -/
def gridRc3 (X Y Z Px Py r : ℕ) (ip : Bool) (xy yz : ℕ × ℕ) (J : (Loc → ℝ) → Loc → ℝ) : Rcfft3MPI where
  dr := mkSplit3 X Y Z (r / Py) Px (r % Py) Py
  dc := mkSplit3 X Y (Z / 2 + 1) (r / Py) Px (r % Py) Py
  inplace := ip
  Txy := MT.mk' X Y (part (Z / 2 + 1) Py (r % Py) * 2) Px (r / Py) xy.1 xy.2
  Tyz := if Py = 1 then none else some (MT.mk' Y (Z / 2 + 1) 2 Py (r % Py) yz.1 yz.2)
  commxy := colComm Px Py (r % Py)
  commyz := rowComm Px Py (r / Py)
  junk := J

theorem rc3_new {X Y N : ℕ} {pencil : Bool} (hX : 0 < X) (hY : 0 < Y) (hN : 0 < N) : ∃ Px Py, 0 < Px ∧ 0 < Py ∧
    Mpi.groupSize2 X Y N pencil = Px * Py ∧ (Py = 1 ∨ ∀ r < Px * Py, part X Px (r / Py) = 1 ∧ part Y Py (r % Py) < Y) ∧
    ∀ r < Px * Py, (∀ Z, groupSplit3 X Y Z X Y N pencil r = mkSplit3 X Y Z (r / Py) Px (r % Py) Py) ∧
      ∀ Z ip xy yz J, Rcfft3MPI.new X Y Z N pencil r ip xy yz J = gridRc3 X Y Z Px Py r ip xy yz J := by
  obtain ⟨Px, Py, hPx, hPy, h1, h2, h3⟩ := mpiGroup (pencil := pencil) hX hY hN
  refine ⟨Px, Py, hPx, hPy, h1, h2, fun r hr => ?_⟩
  obtain ⟨a1, a2, a3, a4, a5, a6, a7⟩ := h3 r hr
  refine ⟨fun Z => a1 X Y Z, fun Z ip xy yz J => ?_⟩
  unfold Rcfft3MPI.new gridRc3
  simp only [h1, a1 X Y Z, a1 X Y (Z / 2 + 1), a2, a3, a4, a5, a6, a7]
  congr 1
  by_cases hp : Py = 1
  · subst hp
    rw [if_pos rfl, if_neg]
    show ¬ part Y 1 (r % 1) < Y
    rw [Nat.mod_one, part_one]
    exact lt_irrefl Y
  · rw [if_neg hp, if_pos]
    · rfl
    · exact ((h2.resolve_left hp) r hr).2

/-- The real-to-complex transforms in z. -/
def zPlan3 (Z : ℕ) (d : Split3) (ip : Bool) (J : (Loc → ℝ) → Loc → ℝ) : Mrc := ⟨Z, d.xy.x * d.yz.x, Z / 2 + 1, rdist3 Z ip, ip, J⟩

theorem zPlan3_std (Z : ℕ) (d : Split3) (ip : Bool) (J : (Loc → ℝ) → Loc → ℝ) : (zPlan3 Z d ip J).Std where
  cdist := rfl
  rdist := by
    show Z ≤ if ip = true then 2 * (Z / 2 + 1) else Z
    split_ifs <;> omega

/-- The transposes and the transforms in y of `Forward`. -/
noncomputable def rmid0 (o : Rcfft3MPI) (p wyz : Loc) : Prog ℝ Unit :=
  match o.Tyz with
  | some T => (o.yz (T.localize0 p p wyz)).bind fun _ => o.planes o.yForward p
  | none => o.planes o.yForward p

theorem rforward3_prog {o : Rcfft3MPI} {inp out wxy wyz : Loc} (h : (o.inplace = true) ↔ inp = out) :
    o.forward inp (some out) wxy wyz = (o.zPlan.r2c inp out).bind fun _ => (rmid0 o out wyz).bind fun _ =>
      (o.xy (o.Txy.localize0 out out wxy)).bind fun _ => o.xForward.cfft out out := by
  unfold Rcfft3MPI.forward rmid0 Rcfft3MPI.forwardWait0
  simp only [Option.getD_some]
  rw [if_pos h]
  cases o.Tyz with
  | some T =>
    show Prog.bind _ (fun _ => Prog.bind _ fun _ => Prog.bind (Prog.bind _ fun _ => _) _) = _
    simp only [Prog.bind_assoc]
    rfl
  | none =>
    show Prog.bind _ (fun _ => Prog.bind (Prog.bind _ fun _ => _) fun _ => Prog.bind (Prog.ret ()) _) = _
    simp only [Prog.bind_assoc]
    rfl

/-- The transforms in y and the transpose of `Backward`. -/
noncomputable def rmid1 (o : Rcfft3MPI) (p wyz : Loc) : Prog ℝ Unit :=
  match o.Tyz with
  | some T => (o.planes o.yBackward p).bind fun _ => o.yz (T.localize1 p p wyz)
  | none => o.planes o.yBackward p

theorem rbackward3_prog {o : Rcfft3MPI} {inp wxy wyz : Loc} {out : Option Loc} :
    o.backward inp out wxy wyz = (o.xBackward.cfft inp inp).bind fun _ => (o.xy (o.Txy.localize1 inp inp wxy)).bind fun _ =>
      (rmid1 o inp wyz).bind fun _ => o.zPlan.c2r inp (out.getD inp) := by
  unfold Rcfft3MPI.backward rmid1
  cases o.Tyz with
  | some T =>
    show Prog.bind _ (fun _ => Prog.bind _ fun _ => Prog.bind _ fun _ => Prog.bind _ fun _ => _) = _
    simp only [Prog.bind_assoc]
  | none =>
    show Prog.bind _ (fun _ => Prog.bind _ fun _ => Prog.bind _ fun _ => Prog.bind (Prog.ret ()) fun _ => _) = _
    rfl

/-- The real array and the rest. -/
def allW (dr dc : ℕ → Split3) (ip : Bool) (re cx wxy wyz : ℕ → Loc) (r : ℕ) (a : Loc) : Prop :=
  (Region.mk (re r) ((dr r).xy.x * (dr r).yz.x * rdist3 (dr r).Z ip)).has a ∨ outW dc cx wxy wyz r a

section
variable {X Y Z Px Py : ℕ} {dr dc : ℕ → Split3} {ip : Bool} {xy yz : ℕ × ℕ} {re cx wxy wyz : ℕ → Loc} {J : (Loc → ℝ) → Loc → ℝ}

theorem rz_step {e : Eager} {Q : ℕ} {G : ℕ → ℕ → ℕ → ℝ} {s : St ℝ} {k : ℕ → Prog ℝ Unit} (hx : ∀ r < Q, (dr r).xy = (dc r).xy)
    (hyx : ∀ r < Q, (dr r).yz.x = (dc r).yz.x ∧ (dr r).yz.x0 = (dc r).yz.x0) (hZr : ∀ r < Q, (dr r).Z = Z) (hZc : ∀ r < Q, (dc r).Z = Z / 2 + 1)
    (hb : Rc3Bufs Q dr dc ip re cx wxy wyz fun r => (s r).loc.size)
    (hq : Quiet Q (fun r => ((zPlan3 Z (dr r) ip J).r2c (re r) (cx r)).bind fun _ => k r) s)
    (hG : HoldsReal3 Q dr (rdist3 Z ip) G re fun r => (s r).loc) :
    ∃ t, Steps e s t ∧ Quiet Q k t ∧ (∀ r, (t r).loc.size = (s r).loc.size) ∧
      CXY Q dc (fun i j kz => dftY Z (-1) (fun j k => (G i j k : ℂ)) j kz) cx (fun r => (t r).loc) ∧
      FrameW Q (outW dc cx wxy wyz) (fun r => (s r).loc) fun r => (t r).loc := by
  have hn : ∀ r < Q, 2 * ((dr r).xy.x * (dr r).yz.x * (Z / 2 + 1)) ≤ 2 * (dc r).n := fun r hr => by
    have := n_rows (dc r)
    rw [hx r hr, (hyx r hr).1, ← hZc r hr]
    omega
  obtain ⟨t, t1, t2, t3, t4⟩ := local_phase (e := e) hq
    (R := fun r m => (∀ i < (dr r).xy.x, ∀ j < (dr r).yz.x, ∀ kz < Z / 2 + 1, cget m (cx r + 2 * ((i * (dr r).yz.x + j) * (Z / 2 + 1) + kz)) =
        dftY Z (-1) (fun j k => (G ((dr r).xy.x0 + i) j k : ℂ)) ((dr r).yz.x0 + j) kz) ∧
      ∀ a, ¬ (Region.mk (cx r) (2 * ((dr r).xy.x * (dr r).yz.x * (Z / 2 + 1)))).has a → m a = (s r).loc.mem a)
    (by
      intro r hr
      obtain ⟨m, m1, m2, m3⟩ := Mrc.r2c_ok (e := e) (i := r) (env := fun j => (s j).loc) (hq.req r hr) (zPlan3_std Z (dr r) ip J) (hb.same r hr)
        (fun h => by
          have h' : ip = true := h
          show (if ip = true then 2 * (Z / 2 + 1) else Z) = 2 * (Z / 2 + 1)
          rw [if_pos h'])
        (by have := hb.reSize r hr; rw [hZr r hr] at this; exact this)
        ((Nat.add_le_add_left (hn r hr) _).trans (hb.cxSize r hr))
      refine ⟨m, m1, fun i hi j hj kz hkz => ?_, m3⟩
      have := m2 _ (rad_lt hj hi) kz hkz
      rw [show (zPlan3 Z (dr r) ip J).cdist = Z / 2 + 1 from rfl] at this
      rw [this]
      refine sum_congr rfl fun t ht => ?_
      have h2 := hG r hr i hi j hj t (by rw [hZr r hr]; exact mem_range.1 ht)
      beta_reduce at h2
      rw [show (zPlan3 Z (dr r) ip J).rdist = rdist3 Z ip from rfl, h2]
      congr 2
      ring)
  refine ⟨t, t1, t2, t3, fun r hr i hi j hj kz hkz => ?_, fun r hr a ha => (t4 r hr).2 a fun hh => ha (Or.inl (has_mono (hn r hr) hh))⟩
  have := (t4 r hr).1 i (by rw [hx r hr]; exact hi) j (by rw [(hyx r hr).1]; exact hj) kz (by rw [← hZc r hr]; exact hkz)
  rw [hx r hr, (hyx r hr).1, (hyx r hr).2] at this
  rw [hZc r hr]
  exact this

theorem rc2r_step {e : Eager} {Q : ℕ} (hZ : 0 < Z) {U : ℕ → ℕ → ℕ → ℂ} (hU : ∀ i j, ∀ kz < Z, U i j ((Z - kz) % Z) = (starRingEnd ℂ) (U i j kz))
    {s : St ℝ} {k : ℕ → Prog ℝ Unit} (hx : ∀ r < Q, (dr r).xy = (dc r).xy)
    (hyx : ∀ r < Q, (dr r).yz.x = (dc r).yz.x ∧ (dr r).yz.x0 = (dc r).yz.x0) (hZr : ∀ r < Q, (dr r).Z = Z) (hZc : ∀ r < Q, (dc r).Z = Z / 2 + 1)
    (hb : Rc3Bufs Q dr dc ip re cx wxy wyz fun r => (s r).loc.size)
    (hq : Quiet Q (fun r => ((zPlan3 Z (dr r) ip J).c2r (cx r) (re r)).bind fun _ => k r) s)
    (hF : CXY Q dc U cx fun r => (s r).loc) :
    ∃ t, Steps e s t ∧ Quiet Q k t ∧ (∀ r, (t r).loc.size = (s r).loc.size) ∧
      (∀ r < Q, ∀ i < (dr r).xy.x, ∀ j < (dr r).yz.x, ∀ k < Z, (((t r).loc.mem (re r + ((i * (dr r).yz.x + j) * rdist3 Z ip + k)) : ℝ) : ℂ) =
        ∑ kz ∈ range Z, U ((dr r).xy.x0 + i) ((dr r).yz.x0 + j) kz * w Z (kz * k)) ∧
      FrameW Q (allW dr dc ip re cx wxy wyz) (fun r => (s r).loc) fun r => (t r).loc := by
  have hn : ∀ r < Q, 2 * ((dr r).xy.x * (dr r).yz.x * (Z / 2 + 1)) ≤ 2 * (dc r).n := fun r hr => by
    have := n_rows (dc r)
    rw [hx r hr, (hyx r hr).1, ← hZc r hr]
    omega
  obtain ⟨t, t1, t2, t3, t4⟩ := local_phase (e := e) hq
    (R := fun r m => (∀ i < (dr r).xy.x, ∀ j < (dr r).yz.x, ∀ k < Z, ((m (re r + ((i * (dr r).yz.x + j) * rdist3 Z ip + k)) : ℝ) : ℂ) =
        ∑ kz ∈ range Z, U ((dr r).xy.x0 + i) ((dr r).yz.x0 + j) kz * w Z (kz * k)) ∧
      ∀ a, ¬ (Region.mk (re r) ((dr r).xy.x * (dr r).yz.x * rdist3 Z ip)).has a →
        ¬ (Region.mk (cx r) (2 * ((dr r).xy.x * (dr r).yz.x * (Z / 2 + 1)))).has a → m a = (s r).loc.mem a)
    (by
      intro r hr
      have hline : ∀ i < (dr r).xy.x, ∀ j < (dr r).yz.x, ∀ kz < Z / 2 + 1, cget (s r).loc.mem (cx r + 2 * ((i * (dr r).yz.x + j) * (Z / 2 + 1) + kz)) =
          U ((dr r).xy.x0 + i) ((dr r).yz.x0 + j) kz := by
        intro i hi j hj kz hkz
        have := hF r hr i (by rw [← hx r hr]; exact hi) j (by rw [← (hyx r hr).1]; exact hj) kz (by rw [hZc r hr]; exact hkz)
        rw [← hx r hr, ← (hyx r hr).1, ← (hyx r hr).2, hZc r hr] at this
        exact this
      have hc := fun i (hi : i < (dr r).xy.x) j (hj : j < (dr r).yz.x) => c2r_line hZ (u := U ((dr r).xy.x0 + i) ((dr r).yz.x0 + j)) (hU _ _) (hline i hi j hj)
      obtain ⟨m, m1, m2, m3⟩ := Mrc.c2r_ok (e := e) (i := r) (env := fun j => (s j).loc) (hq.req r hr) (zPlan3_std Z (dr r) ip J)
        (src := cx r) (dst := re r) ((hb.same r hr).trans eq_comm)
        (by have := hb.reSize r hr; rw [hZr r hr] at this; exact this)
        ((Nat.add_le_add_left (hn r hr) _).trans (hb.cxSize r hr))
        (fun q hq' => by
          have hq'' : q < (dr r).xy.x * (dr r).yz.x := hq'
          have hp : 0 < (dr r).yz.x := Nat.pos_of_ne_zero (by intro h; rw [h] at hq''; simp at hq'')
          have := (hc (q / (dr r).yz.x) ((Nat.div_lt_iff_lt_mul hp).2 hq'') (q % (dr r).yz.x) (Nat.mod_lt _ hp)).1
          rw [grid_eq] at this
          exact this)
      refine ⟨m, m1, fun i hi j hj k hk => ?_, m3⟩
      have := m2 _ (rad_lt hj hi) k hk
      rw [show (zPlan3 Z (dr r) ip J).rdist = rdist3 Z ip from rfl] at this
      rw [this]
      exact (hc i hi j hj).2 k)
  refine ⟨t, t1, t2, t3, fun r hr => (t4 r hr).1, fun r hr a ha => (t4 r hr).2 a (fun hh => ha (Or.inl ?_)) fun hh => ha (Or.inr (Or.inl (has_mono (hn r hr) hh)))⟩
  rw [hZr r hr]
  exact hh

/-- What the grid says about the two splits. -/
structure Split33 (X Y Z Px Py : ℕ) (dr dc : ℕ → Split3) : Prop where
  dr : ∀ r < Px * Py, dr r = mkSplit3 X Y Z (r / Py) Px (r % Py) Py
  dc : ∀ r < Px * Py, dc r = mkSplit3 X Y (Z / 2 + 1) (r / Py) Px (r % Py) Py
  grid : Py = 1 ∨ ∀ r < Px * Py, part X Px (r / Py) = 1 ∧ part Y Py (r % Py) < Y
  px : 0 < Px
  py : 0 < Py

namespace Split33
variable (h : Split33 X Y Z Px Py dr dc)
include h

theorem hx : ∀ r < Px * Py, (dr r).xy = (dc r).xy := fun r hr => by rw [h.dr r hr, h.dc r hr]; rfl
theorem hyx : ∀ r < Px * Py, (dr r).yz.x = (dc r).yz.x ∧ (dr r).yz.x0 = (dc r).yz.x0 := fun r hr => by rw [h.dr r hr, h.dc r hr]; exact ⟨rfl, rfl⟩
theorem hZr : ∀ r < Px * Py, (dr r).Z = Z := fun r hr => by rw [h.dr r hr]; rfl
theorem hZc : ∀ r < Px * Py, (dc r).Z = Z / 2 + 1 := fun r hr => by rw [h.dc r hr]; rfl
theorem hYc : ∀ r < Px * Py, (dc r).Y = Y := fun r hr => by rw [h.dc r hr]; rfl
theorem hXc : ∀ r < Px * Py, (dc r).X = X := fun r hr => by rw [h.dc r hr]; rfl

end Split33

/-- The middle of `Forward` in a program. -/
theorem rmid0_step {e : Eager} (hY : 0 < Y) (h : Split33 X Y Z Px Py dr dc) (hyz : 1 ≤ yz.1) {F : ℕ → ℕ → ℕ → ℂ} {s : St ℝ} {k : ℕ → Prog ℝ Unit}
    (hb : Rc3Bufs (Px * Py) dr dc ip re cx wxy wyz fun r => (s r).loc.size)
    (hq : Quiet (Px * Py) (fun r => (rmid0 (gridRc3 X Y Z Px Py r ip xy yz J) (cx r) (wyz r)).bind fun _ => k r) s)
    (hF : CXY (Px * Py) dc F cx fun r => (s r).loc) :
    ∃ t, Steps e s t ∧ Quiet (Px * Py) k t ∧ (∀ r, (t r).loc.size = (s r).loc.size) ∧
      CXZ (Px * Py) dc (fun i => dftX Y (-1) (F i)) cx (fun r => (t r).loc) ∧
      FrameW (Px * Py) (outW dc cx wxy wyz) (fun r => (s r).loc) fun r => (t r).loc := by
  have hp1 : ∀ r < Px * Py, ∀ k' : Prog ℝ Unit, ((gridRc3 X Y Z Px Py r ip xy yz J).planes (gridRc3 X Y Z Px Py r ip xy yz J).yForward (cx r)).bind (fun _ => k') =
      (Prog.loop (List.range (dc r).xy.x) fun i => (Mfft.new (dc r).Y (-1) (dc r).yz.y (dc r).yz.y 1 true).cfft
        (cx r + 2 * (i * ((dc r).yz.y * (dc r).Y))) (cx r + 2 * (i * ((dc r).yz.y * (dc r).Y)))).bind fun _ => k' := fun r hr k' => by
    rw [h.dc r hr]; rfl
  by_cases hp : Py = 1
  · have hprog : ∀ r < Px * Py, (rmid0 (gridRc3 X Y Z Px Py r ip xy yz J) (cx r) (wyz r)).bind (fun _ => k r) =
        (Prog.loop (List.range (dc r).xy.x) fun i => (Mfft.new (dc r).Y (-1) (dc r).yz.y (dc r).yz.y 1 true).cfft
          (cx r + 2 * (i * ((dc r).yz.y * (dc r).Y))) (cx r + 2 * (i * ((dc r).yz.y * (dc r).Y)))).bind fun _ => k r := by
      intro r hr
      rw [← hp1 r hr]
      unfold rmid0
      rw [show (gridRc3 X Y Z Px Py r ip xy yz J).Tyz = none from if_pos hp]
    obtain ⟨t, t1, t2, t3, t4, t5⟩ := ry_step (e := e) (wxy := wxy) (wyz := wyz) (k := k) hb.cxSize
      ⟨fun i hi => by rw [hq.prog i hi, hprog i hi], hq.done, hq.req, hq.bal⟩ ((cxy_slab h.dc hp).1 hF)
    refine ⟨t, t1, t2, t3, fun r hr i hi j hj kz hkz => ?_, t5⟩
    rw [t4 r hr i hi j hj kz hkz, h.hYc r hr]
  · have hx1 : ∀ r < Px * Py, (dc r).xy.x = 1 := fun r hr => by rw [h.dc r hr]; exact ((h.grid.resolve_left hp) r hr).1
    have hlt : ∀ r < Px * Py, (dc r).yz.x < (dc r).Y := fun r hr => by rw [h.dc r hr]; exact ((h.grid.resolve_left hp) r hr).2
    have hprog : ∀ r < Px * Py, (rmid0 (gridRc3 X Y Z Px Py r ip xy yz J) (cx r) (wyz r)).bind (fun _ => k r) =
        (((MT.mk' Y (Z / 2 + 1) 2 Py (r % Py) yz.1 yz.2).localize0 (cx r) (cx r) (wyz r)).on (rowComm Px Py (r / Py)) (· + 20)).bind fun _ =>
        (Prog.loop (List.range (dc r).xy.x) fun i => (Mfft.new (dc r).Y (-1) (dc r).yz.y (dc r).yz.y 1 true).cfft
          (cx r + 2 * (i * ((dc r).yz.y * (dc r).Y))) (cx r + 2 * (i * ((dc r).yz.y * (dc r).Y)))).bind fun _ => k r := by
      intro r hr
      rw [← hp1 r hr]
      unfold rmid0
      rw [show (gridRc3 X Y Z Px Py r ip xy yz J).Tyz = some (MT.mk' Y (Z / 2 + 1) 2 Py (r % Py) yz.1 yz.2) from if_neg hp]
      simp only [Prog.bind_assoc]
      rfl
    obtain ⟨t, t1, t2, t3, t4, t5⟩ := rtyz0_step (e := e) (s := s) (wxy := wxy) hY (Nat.succ_pos _) h.px h.py hyz h.dc hx1 hlt hb.cxSize hb.wyzSize hb.cxwyz
      (k := fun r => (Prog.loop (List.range (dc r).xy.x) fun i => (Mfft.new (dc r).Y (-1) (dc r).yz.y (dc r).yz.y 1 true).cfft
          (cx r + 2 * (i * ((dc r).yz.y * (dc r).Y))) (cx r + 2 * (i * ((dc r).yz.y * (dc r).Y)))).bind fun _ => k r)
      ⟨fun i hi => by rw [hq.prog i hi, hprog i hi], hq.done, hq.req, hq.bal⟩ hF
    obtain ⟨u, u1, u2, u3, u4, u5⟩ := ry_step (e := e) (wxy := wxy) (wyz := wyz) (k := k) (fun r hr => by rw [t3]; exact hb.cxSize r hr) t2 t4
    refine ⟨u, t1.trans u1, u2, fun r => by rw [u3, t3], fun r hr i hi j hj kz hkz => ?_, t5.trans u5⟩
    rw [u4 r hr i hi j hj kz hkz, h.hYc r hr]

/-- The middle of `Backward` in a program. -/
theorem rmid1_step {e : Eager} (hY : 0 < Y) (h : Split33 X Y Z Px Py dr dc) (hyz : 1 ≤ yz.1) {F : ℕ → ℕ → ℕ → ℂ} {s : St ℝ} {k : ℕ → Prog ℝ Unit}
    (hb : Rc3Bufs (Px * Py) dr dc ip re cx wxy wyz fun r => (s r).loc.size)
    (hq : Quiet (Px * Py) (fun r => (rmid1 (gridRc3 X Y Z Px Py r ip xy yz J) (cx r) (wyz r)).bind fun _ => k r) s)
    (hF : CXZ (Px * Py) dc F cx fun r => (s r).loc) :
    ∃ t, Steps e s t ∧ Quiet (Px * Py) k t ∧ (∀ r, (t r).loc.size = (s r).loc.size) ∧
      CXY (Px * Py) dc (fun i => dftX Y 1 (F i)) cx (fun r => (t r).loc) ∧
      FrameW (Px * Py) (outW dc cx wxy wyz) (fun r => (s r).loc) fun r => (t r).loc := by
  have hp1 : ∀ r < Px * Py, ∀ k' : Prog ℝ Unit, ((gridRc3 X Y Z Px Py r ip xy yz J).planes (gridRc3 X Y Z Px Py r ip xy yz J).yBackward (cx r)).bind (fun _ => k') =
      (Prog.loop (List.range (dc r).xy.x) fun i => (Mfft.new (dc r).Y 1 (dc r).yz.y (dc r).yz.y 1 true).cfft
        (cx r + 2 * (i * ((dc r).yz.y * (dc r).Y))) (cx r + 2 * (i * ((dc r).yz.y * (dc r).Y)))).bind fun _ => k' := fun r hr k' => by
    rw [h.dc r hr]; rfl
  by_cases hp : Py = 1
  · have hprog : ∀ r < Px * Py, (rmid1 (gridRc3 X Y Z Px Py r ip xy yz J) (cx r) (wyz r)).bind (fun _ => k r) =
        (Prog.loop (List.range (dc r).xy.x) fun i => (Mfft.new (dc r).Y 1 (dc r).yz.y (dc r).yz.y 1 true).cfft
          (cx r + 2 * (i * ((dc r).yz.y * (dc r).Y))) (cx r + 2 * (i * ((dc r).yz.y * (dc r).Y)))).bind fun _ => k r := by
      intro r hr
      rw [← hp1 r hr]
      unfold rmid1
      rw [show (gridRc3 X Y Z Px Py r ip xy yz J).Tyz = none from if_pos hp]
    obtain ⟨t, t1, t2, t3, t4, t5⟩ := ry_step (e := e) (wxy := wxy) (wyz := wyz) (k := k) hb.cxSize
      ⟨fun i hi => by rw [hq.prog i hi, hprog i hi], hq.done, hq.req, hq.bal⟩ hF
    refine ⟨t, t1, t2, t3, (cxy_slab h.dc hp).2 fun r hr i hi j hj kz hkz => ?_, t5⟩
    rw [t4 r hr i hi j hj kz hkz, h.hYc r hr]
  · have hx1 : ∀ r < Px * Py, (dc r).xy.x = 1 := fun r hr => by rw [h.dc r hr]; exact ((h.grid.resolve_left hp) r hr).1
    have hlt : ∀ r < Px * Py, (dc r).yz.x < (dc r).Y := fun r hr => by rw [h.dc r hr]; exact ((h.grid.resolve_left hp) r hr).2
    have hprog : ∀ r < Px * Py, (rmid1 (gridRc3 X Y Z Px Py r ip xy yz J) (cx r) (wyz r)).bind (fun _ => k r) =
        (Prog.loop (List.range (dc r).xy.x) fun i => (Mfft.new (dc r).Y 1 (dc r).yz.y (dc r).yz.y 1 true).cfft
          (cx r + 2 * (i * ((dc r).yz.y * (dc r).Y))) (cx r + 2 * (i * ((dc r).yz.y * (dc r).Y)))).bind fun _ =>
        (((MT.mk' Y (Z / 2 + 1) 2 Py (r % Py) yz.1 yz.2).localize1 (cx r) (cx r) (wyz r)).on (rowComm Px Py (r / Py)) (· + 20)).bind fun _ => k r := by
      intro r hr
      rw [← hp1 r hr]
      unfold rmid1
      rw [show (gridRc3 X Y Z Px Py r ip xy yz J).Tyz = some (MT.mk' Y (Z / 2 + 1) 2 Py (r % Py) yz.1 yz.2) from if_neg hp]
      simp only [Prog.bind_assoc]
      rfl
    obtain ⟨t, t1, t2, t3, t4, t5⟩ := ry_step (e := e) (s := s) (wxy := wxy) (wyz := wyz) (k := fun r =>
        (((MT.mk' Y (Z / 2 + 1) 2 Py (r % Py) yz.1 yz.2).localize1 (cx r) (cx r) (wyz r)).on (rowComm Px Py (r / Py)) (· + 20)).bind fun _ => k r) hb.cxSize
      ⟨fun i hi => by rw [hq.prog i hi, hprog i hi], hq.done, hq.req, hq.bal⟩ hF
    obtain ⟨u, u1, u2, u3, u4, u5⟩ := rtyz1_step (e := e) (s := t) (wxy := wxy) (F := fun i => dftX Y 1 (F i)) hY (Nat.succ_pos _) h.px h.py hyz h.dc hx1 hlt
      (fun r hr => by rw [t3]; exact hb.cxSize r hr) (fun r hr => by rw [t3]; exact hb.wyzSize r hr) hb.cxwyz t2
      (fun r hr i hi j hj kz hkz => by rw [t4 r hr i hi j hj kz hkz, h.hYc r hr])
    exact ⟨u, t1.trans u1, u2, fun r => by rw [u3, t3], u4, t5.trans u5⟩

/-- `Forward` in a program. -/
theorem rforward3_step {e : Eager} (hX : 0 < X) (hY : 0 < Y) (h : Split33 X Y Z Px Py dr dc) (hxy : 1 ≤ xy.1) (hyz : 1 ≤ yz.1)
    {G : ℕ → ℕ → ℕ → ℝ} {s : St ℝ} {k : ℕ → Prog ℝ Unit} (hb : Rc3Bufs (Px * Py) dr dc ip re cx wxy wyz fun r => (s r).loc.size)
    (hq : Quiet (Px * Py) (fun r => ((gridRc3 X Y Z Px Py r ip xy yz J).forward (re r) (some (cx r)) (wxy r) (wyz r)).bind fun _ => k r) s)
    (hG : HoldsReal3 (Px * Py) dr (rdist3 Z ip) G re fun r => (s r).loc) :
    ∃ t, Steps e s t ∧ Quiet (Px * Py) k t ∧ (∀ r, (t r).loc.size = (s r).loc.size) ∧
      HoldsSpec3 (Px * Py) dc (rdft3 X Y Z 0 0 G) cx (fun r => (t r).loc) ∧
      FrameW (Px * Py) (outW dc cx wxy wyz) (fun r => (s r).loc) fun r => (t r).loc := by
  have hprog : ∀ r < Px * Py, ((gridRc3 X Y Z Px Py r ip xy yz J).forward (re r) (some (cx r)) (wxy r) (wyz r)).bind (fun _ => k r) =
      ((zPlan3 Z (dr r) ip J).r2c (re r) (cx r)).bind fun _ => (rmid0 (gridRc3 X Y Z Px Py r ip xy yz J) (cx r) (wyz r)).bind fun _ =>
        (((MT.mk' X Y ((dc r).yz.y * 2) Px (r / Py) xy.1 xy.2).localize0 (cx r) (cx r) (wxy r)).on (colComm Px Py (r % Py)) id).bind fun _ =>
        ((Mfft.new (dc r).X (-1) ((dc r).xy.y * (dc r).yz.y) ((dc r).xy.y * (dc r).yz.y) 1 true).cfft (cx r) (cx r)).bind fun _ => k r := by
    intro r hr
    rw [rforward3_prog (hb.same r hr), Prog.bind_assoc]
    simp only [Prog.bind_assoc]
    rw [h.dr r hr, h.dc r hr]
    rfl
  obtain ⟨t, t1, t2, t3, t4, t5⟩ := rz_step (e := e) (s := s) (J := J) (k := fun r => (rmid0 (gridRc3 X Y Z Px Py r ip xy yz J) (cx r) (wyz r)).bind fun _ =>
        (((MT.mk' X Y ((dc r).yz.y * 2) Px (r / Py) xy.1 xy.2).localize0 (cx r) (cx r) (wxy r)).on (colComm Px Py (r % Py)) id).bind fun _ =>
        ((Mfft.new (dc r).X (-1) ((dc r).xy.y * (dc r).yz.y) ((dc r).xy.y * (dc r).yz.y) 1 true).cfft (cx r) (cx r)).bind fun _ => k r)
    h.hx h.hyx h.hZr h.hZc hb ⟨fun i hi => by rw [hq.prog i hi, hprog i hi], hq.done, hq.req, hq.bal⟩ hG
  have et : (fun r => (t r).loc.size) = fun r => (s r).loc.size := funext t3
  obtain ⟨u, u1, u2, u3, u4, u5⟩ := rmid0_step (e := e) hY h hyz (by rw [et]; exact hb) t2 t4
  have eu : (fun r => (u r).loc.size) = fun r => (s r).loc.size := funext fun r => (u3 r).trans (t3 r)
  have hbu : Rc3Bufs (Px * Py) dr dc ip re cx wxy wyz fun r => (u r).loc.size := by rw [eu]; exact hb
  obtain ⟨v, v1, v2, v3, v4, v5⟩ := rtxy0_step (e := e) (wyz := wyz) hX hY h.px h.py hxy h.dc hbu.cxSize hbu.wxySize hbu.cxwxy u2 u4
  obtain ⟨z, z1, z2, z3, z4, z5⟩ := rx_step (e := e) (wxy := wxy) (wyz := wyz) (k := k) (fun r hr => by rw [v3]; exact hbu.cxSize r hr) v2 v4
  refine ⟨z, ((t1.trans u1).trans v1).trans z1, z2, fun r => by rw [z3, v3, u3, t3], fun r hr i hi j hj kz hkz => ?_, ((t5.trans u5).trans v5).trans z5⟩
  rw [z4 r hr i hi j hj kz hkz, h.hXc r hr, rdft3_zero, dft3_x]
  refine sum_congr rfl fun a _ => ?_
  rw [← dftX_dftY]

/-- `Backward` in a program. -/
theorem rbackward3_step {e : Eager} (hX : 0 < X) (hY : 0 < Y) (hZ : 0 < Z) (h : Split33 X Y Z Px Py dr dc) (hxy : 1 ≤ xy.1) (hyz : 1 ≤ yz.1)
    {F : ℕ → ℕ → ℕ → ℂ} {s : St ℝ} {k : ℕ → Prog ℝ Unit} (hb : Rc3Bufs (Px * Py) dr dc ip re cx wxy wyz fun r => (s r).loc.size) {out : ℕ → Option Loc}
    (hout : ∀ r < Px * Py, (out r).getD (cx r) = re r)
    (hq : Quiet (Px * Py) (fun r => ((gridRc3 X Y Z Px Py r ip xy yz J).backward (cx r) (out r) (wxy r) (wyz r)).bind fun _ => k r) s)
    (hF : HermSpec3 X Y Z F) (hG : HoldsSpec3 (Px * Py) dc F cx fun r => (s r).loc) :
    ∃ t, Steps e s t ∧ Quiet (Px * Py) k t ∧ (∀ r, (t r).loc.size = (s r).loc.size) ∧
      (∀ r < Px * Py, ∀ i < (dr r).xy.x, ∀ j < (dr r).yz.x, ∀ k < Z, (((t r).loc.mem (re r + ((i * (dr r).yz.x + j) * rdist3 Z ip + k)) : ℝ) : ℂ) =
        irdft3 X Y Z 0 0 F ((dr r).xy.x0 + i) ((dr r).yz.x0 + j) k) ∧
      FrameW (Px * Py) (allW dr dc ip re cx wxy wyz) (fun r => (s r).loc) fun r => (t r).loc := by
  have hprog : ∀ r < Px * Py, ((gridRc3 X Y Z Px Py r ip xy yz J).backward (cx r) (out r) (wxy r) (wyz r)).bind (fun _ => k r) =
      ((Mfft.new (dc r).X 1 ((dc r).xy.y * (dc r).yz.y) ((dc r).xy.y * (dc r).yz.y) 1 true).cfft (cx r) (cx r)).bind fun _ =>
        (((MT.mk' X Y ((dc r).yz.y * 2) Px (r / Py) xy.1 xy.2).localize1 (cx r) (cx r) (wxy r)).on (colComm Px Py (r % Py)) id).bind fun _ =>
        (rmid1 (gridRc3 X Y Z Px Py r ip xy yz J) (cx r) (wyz r)).bind fun _ => ((zPlan3 Z (dr r) ip J).c2r (cx r) (re r)).bind fun _ => k r := by
    intro r hr
    rw [rbackward3_prog, hout r hr, Prog.bind_assoc]
    simp only [Prog.bind_assoc]
    rw [h.dr r hr, h.dc r hr]
    rfl
  obtain ⟨t, t1, t2, t3, t4, t5⟩ := rx_step (e := e) (s := s) (wxy := wxy) (wyz := wyz) (k := fun r =>
        (((MT.mk' X Y ((dc r).yz.y * 2) Px (r / Py) xy.1 xy.2).localize1 (cx r) (cx r) (wxy r)).on (colComm Px Py (r % Py)) id).bind fun _ =>
        (rmid1 (gridRc3 X Y Z Px Py r ip xy yz J) (cx r) (wyz r)).bind fun _ => ((zPlan3 Z (dr r) ip J).c2r (cx r) (re r)).bind fun _ => k r)
    hb.cxSize ⟨fun i hi => by rw [hq.prog i hi, hprog i hi], hq.done, hq.req, hq.bal⟩ hG
  have et : (fun r => (t r).loc.size) = fun r => (s r).loc.size := funext t3
  have hbt : Rc3Bufs (Px * Py) dr dc ip re cx wxy wyz fun r => (t r).loc.size := by rw [et]; exact hb
  obtain ⟨u, u1, u2, u3, u4, u5⟩ := rtxy1_step (e := e) (wyz := wyz) (F := fun i ky kz => ∑ t ∈ range X, F t ky kz * w X (1 * t * i)) hX hY h.px h.py hxy h.dc
    hbt.cxSize hbt.wxySize hbt.cxwxy t2 (fun r hr i hi j hj kz hkz => by rw [t4 r hr i hi j hj kz hkz, h.hXc r hr])
  have eu : (fun r => (u r).loc.size) = fun r => (s r).loc.size := funext fun r => (u3 r).trans (t3 r)
  have hbu : Rc3Bufs (Px * Py) dr dc ip re cx wxy wyz fun r => (u r).loc.size := by rw [eu]; exact hb
  obtain ⟨v, v1, v2, v3, v4, v5⟩ := rmid1_step (e := e) hY h hyz hbu u2 u4
  have ev : (fun r => (v r).loc.size) = fun r => (s r).loc.size := funext fun r => by rw [v3, u3, t3]
  obtain ⟨z, z1, z2, z3, z4, z5⟩ := rc2r_step (e := e) hZ (fun i j kz hkz => dftX_herm (herm3_x hF i) j hkz) h.hx h.hyx h.hZr h.hZc (by rw [ev]; exact hb) v2 v4
  refine ⟨z, ((t1.trans u1).trans v1).trans z1, z2, fun r => by rw [z3, v3, u3, t3], fun r hr i hi j hj kz hkz => ?_,
    (((t5.trans u5).trans v5).mono fun r _ a ha => Or.inr ha).trans z5⟩
  rw [z4 r hr i hi j hj kz hkz, irdft3_zero, dft3_yz, ← dftY_dftX]
  refine sum_congr rfl fun a _ => ?_
  rw [one_mul]

end
end Fftwpp.Net
