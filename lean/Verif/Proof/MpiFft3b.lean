import Verif.Proof.MpiFft3

/-!
# Distributed three-dimensional transforms: `Forward`, `Backward`
-/

namespace Fftwpp.Net
open Finset

/-- The part of `Forward` before the transpose in xy. -/
noncomputable def mid0 (o : Fft3MPI) (inp out wyz : Loc) : Prog ℂ Unit :=
  match o.Tyz with
  | some T => (o.zForward.fft inp out).bind fun _ => (o.yz (T.localize0 out out wyz)).bind fun _ =>
      o.planes (o.d.yz.y * o.d.Y) fun i => o.yForward.fft (out + i) (out + i)
  | none => o.planes (o.d.Z * o.d.Y) fun i => fft2dExec o.d.Y o.d.Z o.sign o.inplace (inp + i) (out + i)

theorem forward3_prog {o : Fft3MPI} {inp out wxy wyz : Loc} (h : (o.inplace = true) ↔ inp = out) :
    o.forward inp (some out) wxy wyz = (mid0 o inp out wyz).bind fun _ => (o.xy (o.Txy.localize0 out out wxy)).bind fun _ => o.xForward.fft out out := by
  unfold Fft3MPI.forward mid0
  simp only [Option.getD_some]
  rw [if_pos h]
  cases o.Tyz with
  | some T =>
    show Prog.bind (Prog.bind _ fun _ => Prog.bind _ fun _ => Prog.bind _ fun _ => _) _ = _
    simp only [Prog.bind_assoc]
    rfl
  | none =>
    show Prog.bind (Prog.bind _ fun _ => _) _ = _
    simp only [Prog.bind_assoc]
    rfl

/-- The part of `Backward` after the transpose in xy. -/
noncomputable def mid1 (o : Fft3MPI) (out wyz : Loc) : Prog ℂ Unit :=
  match o.Tyz with
  | some T => (o.planes (o.d.yz.y * o.d.Y) fun i => o.yBackward.fft (out + i) (out + i)).bind fun _ => (o.yz (T.localize1 out out wyz)).bind fun _ =>
      o.zBackward.fft out out
  | none => o.planes (o.d.yz.y * o.d.Y) fun i => fft2dExec o.d.Y o.d.Z (-o.sign) true (out + i) (out + i)

theorem backward3_prog {o : Fft3MPI} {inp out wxy wyz : Loc} (h : (o.inplace = true) ↔ inp = out) :
    o.backward inp (some out) wxy wyz = (o.xBackward.fft inp out).bind fun _ => (o.xy (o.Txy.localize1 out out wxy)).bind fun _ => mid1 o out wyz := by
  unfold Fft3MPI.backward mid1 Fft3MPI.backwardWait0 Fft3MPI.backwardWait1
  simp only [Option.getD_some]
  rw [if_pos h]
  cases o.Tyz with
  | some T =>
    show Prog.bind _ (fun _ => Prog.bind _ fun _ => Prog.bind (Prog.bind _ _) fun _ => _) = _
    simp only [Prog.bind_assoc]
  | none =>
    show Prog.bind _ (fun _ => Prog.bind _ fun _ => Prog.bind _ fun _ => Prog.ret ()) = _
    simp only [Geo.bind_ret]

theorem dft3_x (X Y Z : ℕ) (sign : ℤ) (G : ℕ → ℕ → ℕ → ℂ) (kx ky kz : ℕ) :
    dft3 X Y Z sign G kx ky kz = ∑ i ∈ range X, dft2 Y Z sign (G i) ky kz * w X (sign * i * kx) := by
  unfold dft3 dft2
  refine sum_congr rfl fun i _ => ?_
  rw [sum_mul]
  refine sum_congr rfl fun j _ => ?_
  rw [sum_mul]
  exact sum_congr rfl fun k _ => by ring

theorem dft3_yz (X Y Z : ℕ) (sign : ℤ) (G : ℕ → ℕ → ℕ → ℂ) (kx ky kz : ℕ) :
    dft3 X Y Z sign G kx ky kz = dft2 Y Z sign (fun j k => ∑ i ∈ range X, G i j k * w X (sign * i * kx)) ky kz := by
  unfold dft3 dft2
  rw [sum_comm]
  refine sum_congr rfl fun j _ => ?_
  rw [sum_comm]
  refine sum_congr rfl fun k _ => ?_
  rw [sum_mul, sum_mul]

section
variable {X Y Z Px Py : ℕ} {d : ℕ → Split3} {sign : ℤ} {ip : Bool} {xy yz : ℕ × ℕ} {inp out wxy wyz : ℕ → Loc}

theorem slab_y (hd : ∀ r < Px * Py, d r = mkSplit3 X Y Z (r / Py) Px (r % Py) Py) (hPy : Py = 1) {r : ℕ} (hr : r < Px * Py) :
    (d r).yz.x = Y ∧ (d r).yz.y = Z ∧ (d r).yz.x0 = 0 ∧ (d r).yz.y0 = 0 ∧ ¬ (d r).yz.x < (d r).Y := by
  subst hPy
  rw [hd r hr, Nat.mod_one]
  have h1 : (mkSplit3 X Y Z (r / 1) Px 0 1).yz.x = Y := part_one Y
  refine ⟨h1, part_one Z, first_one Y, first_one Z, ?_⟩
  rw [h1]
  exact lt_irrefl Y

/-- The transforms in z and the first transpose of `Forward`, on a grid. -/
theorem fft3_z0 {e : Eager} (hY : 0 < Y) (hZ : 0 < Z) (hPx : 0 < Px) (hPy : 0 < Py) (ha : 1 ≤ yz.1)
    (hd : ∀ r < Px * Py, d r = mkSplit3 X Y Z (r / Py) Px (r % Py) Py) (hx1 : ∀ r < Px * Py, (d r).xy.x = 1)
    (hlt : ∀ r < Px * Py, (d r).yz.x < (d r).Y) {G : ℕ → ℕ → ℕ → ℂ} {s : St ℂ} {k : ℕ → Prog ℂ Unit}
    (hb : Fft3Bufs (Px * Py) d ip inp out wxy wyz fun r => (s r).loc.size)
    (hq : Quiet (Px * Py) (fun r => ((Mfft.new Z sign ((d r).xy.x * (d r).yz.x) 1 Z ip).fft (inp r) (out r)).bind fun _ =>
      (((MT.mk' Y Z 1 Py (r % Py) yz.1 yz.2).localize0 (out r) (out r) (wyz r)).on (rowComm Px Py (r / Py)) (· + 20)).bind fun _ => k r) s)
    (hG : HoldsXY (Px * Py) d 1 G inp fun r => (s r).loc) :
    ∃ t, Steps e s t ∧ Quiet (Px * Py) k t ∧ (∀ r, (t r).loc.size = (s r).loc.size) ∧
      HoldsXZ (Px * Py) d 1 (fun i j kz => dftY Z sign (G i) j kz) out (fun r => (t r).loc) ∧
      Frame3 (Px * Py) d out wxy wyz (fun r => (s r).loc) (fun r => (t r).loc) := by
  obtain ⟨t, t1, t2, t3, t4⟩ := local_phase (e := e) (P := Px * Py) (s := s)
    (x := fun r => (Mfft.new Z sign ((d r).xy.x * (d r).yz.x) 1 Z ip).fft (inp r) (out r))
    (k := fun r => (((MT.mk' Y Z 1 Py (r % Py) yz.1 yz.2).localize0 (out r) (out r) (wyz r)).on (rowComm Px Py (r / Py)) (· + 20)).bind fun _ => k r) hq
    (R := fun r m => (∀ i < (d r).xy.x, ∀ j < (d r).yz.x, ∀ kz < Z, m (out r + ((i * (d r).yz.x + j) * Z + kz)) =
        dftY Z sign (G ((d r).xy.x0 + i)) ((d r).yz.x0 + j) kz) ∧
      ∀ a, ¬ (Region.mk (out r) ((d r).xy.x * (d r).yz.x * Z)).has a → m a = (s r).loc.mem a)
    (by
      intro r hr
      have hn : (d r).xy.x * (d r).yz.x * Z ≤ (d r).n := by
        have := n_rows (d r)
        rw [show (d r).Z = Z by rw [hd r hr]; rfl] at this
        exact this
      obtain ⟨m, m1, m2, m3⟩ := rows_ok (e := e) (i := r) (env := fun j => (s j).loc) (hq.req r hr) (n := Z) (M := (d r).xy.x * (d r).yz.x) (sign := sign)
        (hb.same r hr) ((Nat.add_le_add_left hn _).trans (hb.inSize r hr)) ((Nat.add_le_add_left hn _).trans (hb.outSize r hr))
      refine ⟨m, m1, fun i hi j hj kz hkz => ?_, m3⟩
      rw [m2 _ (rad_lt hj hi) kz hkz]
      refine sum_congr rfl fun t ht => ?_
      have := hG r hr i hi j hj t (by rw [hd r hr, Nat.mul_one]; exact mem_range.1 ht)
      rw [show (d r).Z = Z by rw [hd r hr]; rfl, Nat.mul_one] at this
      beta_reduce at this
      rw [this])
  -- transpose
  obtain ⟨u, u1, u2, u3, u4, u5⟩ := tyz0_step (e := e) hY hZ hPx hPy ha hd hx1 (c := 1) (G := fun i j kz => dftY Z sign (G i) j kz)
    (cx := (· + 20)) (fun a b h => by simpa using h) (out := out) (wrk := wyz) (s := t)
    { outSize := fun r hr => by
        rw [t3]; exact (Nat.add_le_add_left (n_yz _ (hx1 r hr)) _).trans (hb.outSize r hr)
      wrkSize := fun r hr => by
        have := hb.wyzSize r hr (hlt r hr)
        rw [t3, Nat.mul_one]
        rw [show (d r).Z = Z by rw [hd r hr]; rfl] at this
        exact this
      outwrk := fun r hr => hb.outwyz r hr (hlt r hr) } t2
    (by
      intro r hr i hi j hj l hl
      rw [show (d r).Z = Z by rw [hd r hr]; rfl, Nat.mul_one] at hl ⊢
      exact (t4 r hr).1 i hi j hj l hl)
  refine ⟨u, t1.trans u1, u2, fun r => by rw [u3, t3], u4, ?_⟩
  intro r hr a h1 _ h3
  have hZ' : (d r).Z = Z := by rw [hd r hr]; rfl
  have e2 := n_rows (d r)
  have h3' := h3 (hlt r hr)
  rw [hZ'] at e2 h3'
  beta_reduce
  rw [u5 r hr a (fun hh => h1 (has_mono (n_yz _ (hx1 r hr)) hh)) (by rw [Nat.mul_one]; exact h3'),
    (t4 r hr).2 a fun hh => h1 (has_mono e2 hh)]

theorem fft3_mid0 {e : Eager} (hY : 0 < Y) (hZ : 0 < Z) (hPx : 0 < Px) (hPy : 0 < Py) (ha : 1 ≤ yz.1)
    (hd : ∀ r < Px * Py, d r = mkSplit3 X Y Z (r / Py) Px (r % Py) Py)
    (hg : Py = 1 ∨ ∀ r < Px * Py, part X Px (r / Py) = 1 ∧ part Y Py (r % Py) < Y) {G : ℕ → ℕ → ℕ → ℂ} {s : St ℂ} {k : ℕ → Prog ℂ Unit}
    (hb : Fft3Bufs (Px * Py) d ip inp out wxy wyz fun r => (s r).loc.size)
    (hq : Quiet (Px * Py) (fun r => (mid0 (gridFft3 X Y Z Px Py r sign ip xy yz) (inp r) (out r) (wyz r)).bind fun _ => k r) s)
    (hG : HoldsXY (Px * Py) d 1 G inp fun r => (s r).loc) :
    ∃ t, Steps e s t ∧ Quiet (Px * Py) k t ∧ (∀ r, (t r).loc.size = (s r).loc.size) ∧
      HoldsXZ (Px * Py) d 1 (fun i ky kz => dft2 Y Z sign (G i) ky kz) out (fun r => (t r).loc) ∧
      Frame3 (Px * Py) d out wxy wyz (fun r => (s r).loc) (fun r => (t r).loc) := by
  by_cases hp : Py = 1
  · obtain ⟨t, t1, t2, t3, t4⟩ := local_phase (e := e) hq
      (R := fun r m => (∀ i < (d r).xy.x, ∀ ky < Y, ∀ kz < Z, m (out r + ((i * Y + ky) * Z + kz)) = dft2 Y Z sign (G ((d r).xy.x0 + i)) ky kz) ∧
        ∀ a, ¬ (Region.mk (out r) ((d r).xy.x * (Z * Y))).has a → m a = (s r).loc.mem a)
      (by
        intro r hr
        obtain ⟨y1, y2, y3, y4, _⟩ := slab_y hd hp hr
        have hn : (d r).xy.x * (Z * Y) ≤ (d r).n := by
          have := n_xz (d r)
          rw [y2] at this
          rw [hd r hr] at this ⊢
          exact this
        obtain ⟨m, m1, m2, m3⟩ := fft2d_planes (e := e) (r := r) (env := fun j => (s j).loc) (hq.req r hr) (n := (d r).xy.x) (Y := Y) (Z := Z) (sign := sign)
          (hb.same r hr) (hb.sep r hr) ((Nat.add_le_add_left hn _).trans (hb.inSize r hr)) ((Nat.add_le_add_left hn _).trans (hb.outSize r hr))
        refine ⟨m, ?_, fun i hi ky hky kz hkz => ?_, m3⟩
        · rw [hd r hr] at m1
          unfold mid0
          simp only [gridFft3, if_pos hp]
          exact m1
        · rw [m2 i hi ky hky kz hkz]
          refine sum_congr rfl fun j hj => sum_congr rfl fun k hk => ?_
          have := hG r hr i hi j (by rw [y1]; exact mem_range.1 hj) k (by rw [hd r hr, Nat.mul_one]; exact mem_range.1 hk)
          rw [y1, y3, Nat.zero_add] at this
          rw [show (d r).Z = Z by rw [hd r hr]; rfl, Nat.mul_one] at this
          beta_reduce
          rw [this])
    refine ⟨t, t1, t2, t3, ?_, ?_⟩
    · intro r hr i hi j hj l hl
      obtain ⟨y1, y2, y3, y4, _⟩ := slab_y hd hp hr
      rw [y2, Nat.mul_one] at hl ⊢
      rw [show (d r).Y = Y by rw [hd r hr]; rfl] at hj ⊢
      rw [y4, Nat.zero_mul, Nat.zero_add]
      exact (t4 r hr).1 i hi j hj l hl
    · intro r hr a h1 _ _
      obtain ⟨y1, y2, y3, y4, _⟩ := slab_y hd hp hr
      refine (t4 r hr).2 a fun hh => h1 (has_mono ?_ hh)
      have := n_xz (d r)
      rw [y2] at this
      rw [hd r hr] at this ⊢
      exact this
  · have hx1 : ∀ r < Px * Py, (d r).xy.x = 1 := fun r hr => by rw [hd r hr]; exact ((hg.resolve_left hp) r hr).1
    have hlt : ∀ r < Px * Py, (d r).yz.x < (d r).Y := fun r hr => by rw [hd r hr]; exact ((hg.resolve_left hp) r hr).2
    -- transforms in z
    have hprog : ∀ r < Px * Py, (mid0 (gridFft3 X Y Z Px Py r sign ip xy yz) (inp r) (out r) (wyz r)).bind (fun _ => k r) =
        ((Mfft.new Z sign ((d r).xy.x * (d r).yz.x) 1 Z ip).fft (inp r) (out r)).bind fun _ =>
          (((MT.mk' Y Z 1 Py (r % Py) yz.1 yz.2).localize0 (out r) (out r) (wyz r)).on (rowComm Px Py (r / Py)) (· + 20)).bind fun _ =>
          (Prog.loop (List.range (d r).xy.x) fun i => (Mfft.new Y sign (d r).yz.y (d r).yz.y 1 true).fft (out r + i * ((d r).yz.y * Y))
            (out r + i * ((d r).yz.y * Y))).bind fun _ => k r := by
      intro r hr
      unfold mid0
      simp only [gridFft3, if_neg hp, Prog.bind_assoc]
      rw [hd r hr]
      rfl
    obtain ⟨u, u1, u2, u3, u4, u5⟩ := fft3_z0 (e := e) (s := s) (sign := sign) (ip := ip) hY hZ hPx hPy ha hd hx1 hlt hb (k := fun r =>
        (Prog.loop (List.range (d r).xy.x) fun i => (Mfft.new Y sign (d r).yz.y (d r).yz.y 1 true).fft (out r + i * ((d r).yz.y * Y))
            (out r + i * ((d r).yz.y * Y))).bind fun _ => k r)
      ⟨fun i hi => by rw [hq.prog i hi, hprog i hi], hq.done, hq.req, hq.bal⟩ hG
    -- transforms in y
    obtain ⟨v, v1, v2, v3, v4⟩ := local_phase (e := e) u2
      (R := fun r m => (∀ i < (d r).xy.x, ∀ ky < Y, ∀ kz < (d r).yz.y, m (out r + ((i * Y + ky) * (d r).yz.y + kz)) =
          dft2 Y Z sign (G ((d r).xy.x0 + i)) ky ((d r).yz.y0 + kz)) ∧
        ∀ a, ¬ (Region.mk (out r) ((d r).xy.x * ((d r).yz.y * Y))).has a → m a = (u r).loc.mem a)
      (by
        intro r hr
        have hn : (d r).xy.x * ((d r).yz.y * Y) ≤ (d r).n := by
          have := n_xz (d r)
          rw [show (d r).Y = Y by rw [hd r hr]; rfl] at this
          exact this
        obtain ⟨m, m1, m2, m3⟩ := yfft_planes (e := e) (r := r) (env := fun j => (u j).loc) (u2.req r hr) (n := (d r).xy.x) (Y := Y) (z := (d r).yz.y)
          (sign := sign) (buf := out r) (by rw [u3]; exact (Nat.add_le_add_left hn _).trans (hb.outSize r hr))
        refine ⟨m, m1, fun i hi ky hky kz hkz => ?_, m3⟩
        rw [m2 i hi ky hky kz hkz, ← dftX_dftY]
        refine sum_congr rfl fun j hj => ?_
        have := u4 r hr i hi j (by rw [hd r hr]; exact mem_range.1 hj) kz (by rw [Nat.mul_one]; exact hkz)
        rw [show (d r).Y = Y by rw [hd r hr]; rfl, Nat.mul_one, Nat.mul_one] at this
        beta_reduce at this
        rw [this])
    refine ⟨v, u1.trans v1, v2, fun r => by rw [v3, u3], ?_, ?_⟩
    · intro r hr i hi j hj l hl
      rw [Nat.mul_one] at hl ⊢
      rw [show (d r).Y = Y by rw [hd r hr]; rfl] at hj ⊢
      rw [Nat.mul_one]
      exact (v4 r hr).1 i hi j hj l hl
    · refine u5.trans fun r hr a h1 _ _ => ?_
      have hY' : (d r).Y = Y := by rw [hd r hr]; rfl
      have e1 := n_xz (d r)
      rw [hY'] at e1
      exact (v4 r hr).2 a fun hh => h1 (has_mono e1 hh)

/-- `Forward` in a program. -/
theorem forward3_step {e : Eager} (hX : 0 < X) (hY : 0 < Y) (hZ : 0 < Z) (hPx : 0 < Px) (hPy : 0 < Py) (hxy : 1 ≤ xy.1) (hyz : 1 ≤ yz.1)
    (hd : ∀ r < Px * Py, d r = mkSplit3 X Y Z (r / Py) Px (r % Py) Py)
    (hg : Py = 1 ∨ ∀ r < Px * Py, part X Px (r / Py) = 1 ∧ part Y Py (r % Py) < Y) {G : ℕ → ℕ → ℕ → ℂ} {s : St ℂ} {k : ℕ → Prog ℂ Unit}
    (hb : Fft3Bufs (Px * Py) d ip inp out wxy wyz fun r => (s r).loc.size)
    (hq : Quiet (Px * Py) (fun r => ((gridFft3 X Y Z Px Py r sign ip xy yz).forward (inp r) (some (out r)) (wxy r) (wyz r)).bind fun _ => k r) s)
    (hG : HoldsXY (Px * Py) d 1 G inp fun r => (s r).loc) :
    ∃ t, Steps e s t ∧ Quiet (Px * Py) k t ∧ (∀ r, (t r).loc.size = (s r).loc.size) ∧
      HoldsYZ (Px * Py) d 1 (dft3 X Y Z sign G) out (fun r => (t r).loc) ∧
      Frame3 (Px * Py) d out wxy wyz (fun r => (s r).loc) (fun r => (t r).loc) := by
  have hprog : ∀ r < Px * Py, ((gridFft3 X Y Z Px Py r sign ip xy yz).forward (inp r) (some (out r)) (wxy r) (wyz r)).bind (fun _ => k r) =
      (mid0 (gridFft3 X Y Z Px Py r sign ip xy yz) (inp r) (out r) (wyz r)).bind fun _ =>
        (((MT.mk' X Y ((d r).yz.y * 1) Px (r / Py) xy.1 xy.2).localize0 (out r) (out r) (wxy r)).on (colComm Px Py (r % Py)) id).bind fun _ =>
        ((Mfft.new X sign ((d r).xy.y * (d r).yz.y) ((d r).xy.y * (d r).yz.y) 1 true).fft (out r) (out r)).bind fun _ => k r := by
    intro r hr
    rw [forward3_prog (hb.same r hr), Prog.bind_assoc]
    simp only [Prog.bind_assoc]
    rw [hd r hr, Nat.mul_one]
    rfl
  obtain ⟨t, t1, t2, t3, t4, t5⟩ := fft3_mid0 (e := e) (s := s) (sign := sign) (ip := ip) (xy := xy) (yz := yz) (k := fun r =>
        (((MT.mk' X Y ((d r).yz.y * 1) Px (r / Py) xy.1 xy.2).localize0 (out r) (out r) (wxy r)).on (colComm Px Py (r % Py)) id).bind fun _ =>
        ((Mfft.new X sign ((d r).xy.y * (d r).yz.y) ((d r).xy.y * (d r).yz.y) 1 true).fft (out r) (out r)).bind fun _ => k r)
    hY hZ hPx hPy hyz hd hg hb ⟨fun i hi => by rw [hq.prog i hi, hprog i hi], hq.done, hq.req, hq.bal⟩ hG
  have hY' : ∀ r < Px * Py, (d r).Y = Y := fun r hr => by rw [hd r hr]; rfl
  have hX' : ∀ r < Px * Py, (d r).X = X := fun r hr => by rw [hd r hr]; rfl
  obtain ⟨u, u1, u2, u3, u4, u5⟩ := txy0_step (e := e) hX hY hPx hPy hxy hd (c := 1) (out := out) (wrk := wxy) (s := t) (cx := id) Function.injective_id
    { outSize := fun r hr => by
        rw [t3]; exact (Nat.add_le_add_left (n_xy _) _).trans (hb.outSize r hr)
      wrkSize := fun r hr => by
        have := hb.wxySize r hr
        rw [hY' r hr] at this
        rw [t3, Nat.mul_one]
        exact this
      outwrk := hb.outwxy } t2 t4
  obtain ⟨v, v1, v2, v3, v4⟩ := local_phase (e := e) u2
    (R := fun r m => (∀ kx < X, ∀ j < (d r).xy.y, ∀ l < (d r).yz.y, m (out r + ((kx * (d r).xy.y + j) * (d r).yz.y + l)) =
        dft3 X Y Z sign G kx ((d r).xy.y0 + j) ((d r).yz.y0 + l)) ∧
      ∀ a, ¬ (Region.mk (out r) (X * ((d r).xy.y * (d r).yz.y))).has a → m a = (u r).loc.mem a)
    (by
      intro r hr
      have hn := n_cols (d r)
      rw [hX' r hr] at hn
      have hs : (out r).off + X * ((d r).xy.y * (d r).yz.y) ≤ (u r).loc.size (out r).buf := by
        rw [u3, t3]; exact (Nat.add_le_add_left hn _).trans (hb.outSize r hr)
      obtain ⟨m, m1, m2, m3⟩ := cols_ok (e := e) (i := r) (env := fun j => (u j).loc) (u2.req r hr) (n := X) (M := (d r).xy.y * (d r).yz.y) (sign := sign)
        (ip := true) (src := out r) (dst := out r) (by simp) hs hs
      refine ⟨m, m1, fun kx hkx j hj l hl => ?_, m3⟩
      rw [show (kx * (d r).xy.y + j) * (d r).yz.y + l = kx * ((d r).xy.y * (d r).yz.y) + (j * (d r).yz.y + l) by ring, m2 _ (rad_lt hl hj) kx hkx, dft3_x]
      refine sum_congr rfl fun i hi => ?_
      have := u4 r hr i (by rw [hX' r hr]; exact mem_range.1 hi) j hj l (by rw [Nat.mul_one]; exact hl)
      rw [Nat.mul_one, Nat.mul_one] at this
      beta_reduce at this
      rw [show i * ((d r).xy.y * (d r).yz.y) + (j * (d r).yz.y + l) = (i * (d r).xy.y + j) * (d r).yz.y + l by ring, this])
  refine ⟨v, (t1.trans u1).trans v1, v2, fun r => by rw [v3, u3, t3], ?_, ?_⟩
  · intro r hr i hi j hj l hl
    rw [Nat.mul_one] at hl ⊢
    rw [hX' r hr] at hi
    rw [Nat.mul_one]
    exact (v4 r hr).1 i hi j hj l hl
  · refine t5.trans fun r hr a h1 h2 _ => ?_
    have e1 := n_cols (d r)
    rw [hX' r hr] at e1
    rw [hY' r hr] at h2
    beta_reduce
    rw [(v4 r hr).2 a fun hh => h1 (has_mono e1 hh), u5 r hr a (fun hh => h1 (has_mono (n_xy _) hh)) (by rw [Nat.mul_one]; exact h2)]

theorem fft3_mid1 {e : Eager} (hY : 0 < Y) (hZ : 0 < Z) (hPx : 0 < Px) (hPy : 0 < Py) (ha : 1 ≤ yz.1)
    (hd : ∀ r < Px * Py, d r = mkSplit3 X Y Z (r / Py) Px (r % Py) Py)
    (hg : Py = 1 ∨ ∀ r < Px * Py, part X Px (r / Py) = 1 ∧ part Y Py (r % Py) < Y) {G : ℕ → ℕ → ℕ → ℂ} {s : St ℂ} {k : ℕ → Prog ℂ Unit}
    (hb : Fft3Bufs (Px * Py) d ip inp out wxy wyz fun r => (s r).loc.size)
    (hq : Quiet (Px * Py) (fun r => (mid1 (gridFft3 X Y Z Px Py r sign ip xy yz) (out r) (wyz r)).bind fun _ => k r) s)
    (hG : HoldsXZ (Px * Py) d 1 G out fun r => (s r).loc) :
    ∃ t, Steps e s t ∧ Quiet (Px * Py) k t ∧ (∀ r, (t r).loc.size = (s r).loc.size) ∧
      HoldsXY (Px * Py) d 1 (fun i ky kz => dft2 Y Z (-sign) (G i) ky kz) out (fun r => (t r).loc) ∧
      Frame3 (Px * Py) d out wxy wyz (fun r => (s r).loc) (fun r => (t r).loc) := by
  have hY' : ∀ r < Px * Py, (d r).Y = Y := fun r hr => by rw [hd r hr]; rfl
  have hZ' : ∀ r < Px * Py, (d r).Z = Z := fun r hr => by rw [hd r hr]; rfl
  by_cases hp : Py = 1
  · have hn : ∀ r < Px * Py, (d r).xy.x * (Z * Y) ≤ (d r).n := by
      intro r hr
      obtain ⟨y1, y2, y3, y4, _⟩ := slab_y hd hp hr
      have := n_xz (d r)
      rw [y2, hY' r hr] at this
      exact this
    obtain ⟨t, t1, t2, t3, t4⟩ := local_phase (e := e) hq
      (R := fun r m => (∀ i < (d r).xy.x, ∀ ky < Y, ∀ kz < Z, m (out r + ((i * Y + ky) * Z + kz)) = dft2 Y Z (-sign) (G ((d r).xy.x0 + i)) ky kz) ∧
        ∀ a, ¬ (Region.mk (out r) ((d r).xy.x * (Z * Y))).has a → m a = (s r).loc.mem a)
      (by
        intro r hr
        obtain ⟨y1, y2, y3, y4, _⟩ := slab_y hd hp hr
        have hs := (Nat.add_le_add_left (hn r hr) _).trans (hb.outSize r hr)
        obtain ⟨m, m1, m2, m3⟩ := fft2d_planes (e := e) (r := r) (env := fun j => (s j).loc) (hq.req r hr) (n := (d r).xy.x) (Y := Y) (Z := Z) (sign := -sign)
          (ip := true) (src := out r) (dst := out r) (by simp) (Or.inl rfl) hs hs
        refine ⟨m, ?_, fun i hi ky hky kz hkz => ?_, m3⟩
        · have y2' : (mkSplit3 X Y Z (r / Py) Px (r % Py) Py).yz.y = Z := by rw [← hd r hr]; exact y2
          rw [hd r hr] at m1
          unfold mid1
          simp only [gridFft3, if_pos hp, y2']
          exact m1
        · rw [m2 i hi ky hky kz hkz]
          refine sum_congr rfl fun j hj => sum_congr rfl fun k hk => ?_
          have := hG r hr i hi j (by rw [hY' r hr]; exact mem_range.1 hj) k (by rw [y2, Nat.mul_one]; exact mem_range.1 hk)
          rw [y2, y4, hY' r hr, Nat.zero_mul, Nat.zero_add, Nat.mul_one] at this
          beta_reduce
          rw [this])
    refine ⟨t, t1, t2, t3, ?_, ?_⟩
    · intro r hr i hi j hj l hl
      obtain ⟨y1, y2, y3, y4, _⟩ := slab_y hd hp hr
      rw [hZ' r hr, Nat.mul_one] at hl ⊢
      rw [y1] at hj ⊢
      rw [y3, Nat.zero_add]
      exact (t4 r hr).1 i hi j hj l hl
    · intro r hr a h1 _ _
      exact (t4 r hr).2 a fun hh => h1 (has_mono (hn r hr) hh)
  · have hx1 : ∀ r < Px * Py, (d r).xy.x = 1 := fun r hr => by rw [hd r hr]; exact ((hg.resolve_left hp) r hr).1
    have hlt : ∀ r < Px * Py, (d r).yz.x < (d r).Y := fun r hr => by rw [hd r hr]; exact ((hg.resolve_left hp) r hr).2
    -- transforms in y
    have hprog : ∀ r < Px * Py, (mid1 (gridFft3 X Y Z Px Py r sign ip xy yz) (out r) (wyz r)).bind (fun _ => k r) =
        (Prog.loop (List.range (d r).xy.x) fun i => (Mfft.new Y (-sign) (d r).yz.y (d r).yz.y 1 true).fft (out r + i * ((d r).yz.y * Y))
            (out r + i * ((d r).yz.y * Y))).bind fun _ =>
          (((MT.mk' Y Z 1 Py (r % Py) yz.1 yz.2).localize1 (out r) (out r) (wyz r)).on (rowComm Px Py (r / Py)) (· + 20)).bind fun _ =>
          ((Mfft.new Z (-sign) ((d r).xy.x * (d r).yz.x) 1 Z true).fft (out r) (out r)).bind fun _ => k r := by
      intro r hr
      unfold mid1
      simp only [gridFft3, if_neg hp, Prog.bind_assoc]
      rw [hd r hr]
      rfl
    have hnxz : ∀ r < Px * Py, (d r).xy.x * ((d r).yz.y * Y) ≤ (d r).n := fun r hr => by
      have := n_xz (d r)
      rw [hY' r hr] at this
      exact this
    have hnr : ∀ r < Px * Py, (d r).xy.x * (d r).yz.x * Z ≤ (d r).n := fun r hr => by
      have := n_rows (d r)
      rw [hZ' r hr] at this
      exact this
    obtain ⟨t, t1, t2, t3, t4⟩ := local_phase (e := e) (P := Px * Py) (s := s)
      (x := fun r => Prog.loop (List.range (d r).xy.x) fun i => (Mfft.new Y (-sign) (d r).yz.y (d r).yz.y 1 true).fft (out r + i * ((d r).yz.y * Y))
            (out r + i * ((d r).yz.y * Y)))
      (k := fun r => (((MT.mk' Y Z 1 Py (r % Py) yz.1 yz.2).localize1 (out r) (out r) (wyz r)).on (rowComm Px Py (r / Py)) (· + 20)).bind fun _ =>
          ((Mfft.new Z (-sign) ((d r).xy.x * (d r).yz.x) 1 Z true).fft (out r) (out r)).bind fun _ => k r)
      ⟨fun i hi => by rw [hq.prog i hi, hprog i hi], hq.done, hq.req, hq.bal⟩
      (R := fun r m => (∀ i < (d r).xy.x, ∀ ky < Y, ∀ kz < (d r).yz.y, m (out r + ((i * Y + ky) * (d r).yz.y + kz)) =
          dftX Y (-sign) (G ((d r).xy.x0 + i)) ky ((d r).yz.y0 + kz)) ∧
        ∀ a, ¬ (Region.mk (out r) ((d r).xy.x * ((d r).yz.y * Y))).has a → m a = (s r).loc.mem a)
      (by
        intro r hr
        obtain ⟨m, m1, m2, m3⟩ := yfft_planes (e := e) (r := r) (env := fun j => (s j).loc) (hq.req r hr) (n := (d r).xy.x) (Y := Y) (z := (d r).yz.y)
          (sign := -sign) (buf := out r) ((Nat.add_le_add_left (hnxz r hr) _).trans (hb.outSize r hr))
        refine ⟨m, m1, fun i hi ky hky kz hkz => ?_, m3⟩
        rw [m2 i hi ky hky kz hkz]
        refine sum_congr rfl fun j hj => ?_
        have := hG r hr i hi j (by rw [hY' r hr]; exact mem_range.1 hj) kz (by rw [Nat.mul_one]; exact hkz)
        rw [hY' r hr, Nat.mul_one, Nat.mul_one] at this
        beta_reduce at this
        rw [this])
    -- transpose
    obtain ⟨u, u1, u2, u3, u4, u5⟩ := tyz1_step (e := e) hY hZ hPx hPy ha hd hx1 (c := 1) (G := fun i ky kz => dftX Y (-sign) (G i) ky kz)
      (cx := (· + 20)) (fun a b h => by simpa using h) (out := out) (wrk := wyz) (s := t)
      { outSize := fun r hr => by
          rw [t3]; exact (Nat.add_le_add_left (n_yz _ (hx1 r hr)) _).trans (hb.outSize r hr)
        wrkSize := fun r hr => by
          have := hb.wyzSize r hr (hlt r hr)
          rw [t3, Nat.mul_one]
          rw [hZ' r hr] at this
          exact this
        outwrk := fun r hr => hb.outwyz r hr (hlt r hr) } t2
      (by
        intro r hr i hi j hj l hl
        rw [Nat.mul_one] at hl ⊢
        rw [hY' r hr] at hj ⊢
        rw [Nat.mul_one]
        exact (t4 r hr).1 i hi j hj l hl)
    -- transforms in z
    obtain ⟨v, v1, v2, v3, v4⟩ := local_phase (e := e) u2
      (R := fun r m => (∀ i < (d r).xy.x, ∀ j < (d r).yz.x, ∀ kz < Z, m (out r + ((i * (d r).yz.x + j) * Z + kz)) =
          dft2 Y Z (-sign) (G ((d r).xy.x0 + i)) ((d r).yz.x0 + j) kz) ∧
        ∀ a, ¬ (Region.mk (out r) ((d r).xy.x * (d r).yz.x * Z)).has a → m a = (u r).loc.mem a)
      (by
        intro r hr
        have hs : (out r).off + (d r).xy.x * (d r).yz.x * Z ≤ (u r).loc.size (out r).buf := by
          rw [u3, t3]; exact (Nat.add_le_add_left (hnr r hr) _).trans (hb.outSize r hr)
        obtain ⟨m, m1, m2, m3⟩ := rows_ok (e := e) (i := r) (env := fun j => (u j).loc) (u2.req r hr) (n := Z) (M := (d r).xy.x * (d r).yz.x) (sign := -sign)
          (ip := true) (src := out r) (dst := out r) (by simp) hs hs
        refine ⟨m, m1, fun i hi j hj kz hkz => ?_, m3⟩
        rw [m2 _ (rad_lt hj hi) kz hkz, ← dftY_dftX]
        refine sum_congr rfl fun t ht => ?_
        have := u4 r hr i hi j hj t (by rw [hZ' r hr, Nat.mul_one]; exact mem_range.1 ht)
        rw [hZ' r hr, Nat.mul_one] at this
        beta_reduce at this
        rw [this])
    refine ⟨v, (t1.trans u1).trans v1, v2, fun r => by rw [v3, u3, t3], ?_, ?_⟩
    · intro r hr i hi j hj l hl
      rw [hZ' r hr, Nat.mul_one] at hl ⊢
      exact (v4 r hr).1 i hi j hj l hl
    · intro r hr a h1 _ h3
      have h3' := h3 (hlt r hr)
      rw [hZ' r hr] at h3'
      beta_reduce
      rw [(v4 r hr).2 a fun hh => h1 (has_mono (hnr r hr) hh),
        u5 r hr a (fun hh => h1 (has_mono (n_yz _ (hx1 r hr)) hh)) (by rw [Nat.mul_one]; exact h3'),
        (t4 r hr).2 a fun hh => h1 (has_mono (hnxz r hr) hh)]

/-- `Backward` in a program. -/
theorem backward3_step {e : Eager} (hX : 0 < X) (hY : 0 < Y) (hZ : 0 < Z) (hPx : 0 < Px) (hPy : 0 < Py) (hxy : 1 ≤ xy.1) (hyz : 1 ≤ yz.1)
    (hd : ∀ r < Px * Py, d r = mkSplit3 X Y Z (r / Py) Px (r % Py) Py)
    (hg : Py = 1 ∨ ∀ r < Px * Py, part X Px (r / Py) = 1 ∧ part Y Py (r % Py) < Y) {G : ℕ → ℕ → ℕ → ℂ} {s : St ℂ} {k : ℕ → Prog ℂ Unit}
    (hb : Fft3Bufs (Px * Py) d ip inp out wxy wyz fun r => (s r).loc.size)
    (hq : Quiet (Px * Py) (fun r => ((gridFft3 X Y Z Px Py r sign ip xy yz).backward (inp r) (some (out r)) (wxy r) (wyz r)).bind fun _ => k r) s)
    (hG : HoldsYZ (Px * Py) d 1 G inp fun r => (s r).loc) :
    ∃ t, Steps e s t ∧ Quiet (Px * Py) k t ∧ (∀ r, (t r).loc.size = (s r).loc.size) ∧
      HoldsXY (Px * Py) d 1 (dft3 X Y Z (-sign) G) out (fun r => (t r).loc) ∧
      Frame3 (Px * Py) d out wxy wyz (fun r => (s r).loc) (fun r => (t r).loc) := by
  have hprog : ∀ r < Px * Py, ((gridFft3 X Y Z Px Py r sign ip xy yz).backward (inp r) (some (out r)) (wxy r) (wyz r)).bind (fun _ => k r) =
      ((Mfft.new X (-sign) ((d r).xy.y * (d r).yz.y) ((d r).xy.y * (d r).yz.y) 1 ip).fft (inp r) (out r)).bind fun _ =>
        (((MT.mk' X Y ((d r).yz.y * 1) Px (r / Py) xy.1 xy.2).localize1 (out r) (out r) (wxy r)).on (colComm Px Py (r % Py)) id).bind fun _ =>
        (mid1 (gridFft3 X Y Z Px Py r sign ip xy yz) (out r) (wyz r)).bind fun _ => k r := by
    intro r hr
    rw [backward3_prog (hb.same r hr), Prog.bind_assoc]
    simp only [Prog.bind_assoc]
    rw [hd r hr, Nat.mul_one]
    rfl
  have hY' : ∀ r < Px * Py, (d r).Y = Y := fun r hr => by rw [hd r hr]; rfl
  have hX' : ∀ r < Px * Py, (d r).X = X := fun r hr => by rw [hd r hr]; rfl
  have hn : ∀ r < Px * Py, X * ((d r).xy.y * (d r).yz.y) ≤ (d r).n := fun r hr => by
    have := n_cols (d r)
    rw [hX' r hr] at this
    exact this
  obtain ⟨t, t1, t2, t3, t4⟩ := local_phase (e := e) (P := Px * Py) (s := s)
    (x := fun r => (Mfft.new X (-sign) ((d r).xy.y * (d r).yz.y) ((d r).xy.y * (d r).yz.y) 1 ip).fft (inp r) (out r))
    (k := fun r => (((MT.mk' X Y ((d r).yz.y * 1) Px (r / Py) xy.1 xy.2).localize1 (out r) (out r) (wxy r)).on (colComm Px Py (r % Py)) id).bind fun _ =>
        (mid1 (gridFft3 X Y Z Px Py r sign ip xy yz) (out r) (wyz r)).bind fun _ => k r)
    ⟨fun i hi => by rw [hq.prog i hi, hprog i hi], hq.done, hq.req, hq.bal⟩
    (R := fun r m => (∀ kx < X, ∀ j < (d r).xy.y, ∀ l < (d r).yz.y, m (out r + ((kx * (d r).xy.y + j) * (d r).yz.y + l)) =
        ∑ i ∈ range X, G i ((d r).xy.y0 + j) ((d r).yz.y0 + l) * w X (-sign * i * kx)) ∧
      ∀ a, ¬ (Region.mk (out r) (X * ((d r).xy.y * (d r).yz.y))).has a → m a = (s r).loc.mem a)
    (by
      intro r hr
      obtain ⟨m, m1, m2, m3⟩ := cols_ok (e := e) (i := r) (env := fun j => (s j).loc) (hq.req r hr) (n := X) (M := (d r).xy.y * (d r).yz.y) (sign := -sign)
        (hb.same r hr) ((Nat.add_le_add_left (hn r hr) _).trans (hb.inSize r hr)) ((Nat.add_le_add_left (hn r hr) _).trans (hb.outSize r hr))
      refine ⟨m, m1, fun kx hkx j hj l hl => ?_, m3⟩
      rw [show (kx * (d r).xy.y + j) * (d r).yz.y + l = kx * ((d r).xy.y * (d r).yz.y) + (j * (d r).yz.y + l) by ring, m2 _ (rad_lt hl hj) kx hkx]
      refine sum_congr rfl fun i hi => ?_
      have := hG r hr i (by rw [hX' r hr]; exact mem_range.1 hi) j hj l (by rw [Nat.mul_one]; exact hl)
      rw [Nat.mul_one, Nat.mul_one] at this
      beta_reduce at this
      rw [show i * ((d r).xy.y * (d r).yz.y) + (j * (d r).yz.y + l) = (i * (d r).xy.y + j) * (d r).yz.y + l by ring, this])
  obtain ⟨u, u1, u2, u3, u4, u5⟩ := txy1_step (e := e) hX hY hPx hPy hxy hd (c := 1) (out := out) (wrk := wxy) (s := t) (cx := id) Function.injective_id
    (G := fun kx j l => ∑ i ∈ range X, G i j l * w X (-sign * i * kx))
    { outSize := fun r hr => by
        rw [t3]; exact (Nat.add_le_add_left (n_xy _) _).trans (hb.outSize r hr)
      wrkSize := fun r hr => by
        have := hb.wxySize r hr
        rw [hY' r hr] at this
        rw [t3, Nat.mul_one]
        exact this
      outwrk := hb.outwxy } t2
    (by
      intro r hr i hi j hj l hl
      rw [Nat.mul_one] at hl ⊢
      rw [hX' r hr] at hi
      rw [Nat.mul_one]
      exact (t4 r hr).1 i hi j hj l hl)
  have es : (fun r => (u r).loc.size) = fun r => (s r).loc.size := funext fun r => by rw [u3, t3]
  obtain ⟨v, v1, v2, v3, v4, v5⟩ := fft3_mid1 (e := e) (s := u) hY hZ hPx hPy hyz hd hg (inp := inp) (wxy := wxy) (by rw [es]; exact hb) u2 u4
  refine ⟨v, (t1.trans u1).trans v1, v2, fun r => by rw [v3, u3, t3], ?_, ?_⟩
  · have : (fun (i : ℕ) ky kz => dft2 Y Z (-sign) ((fun (kx : ℕ) j l => ∑ i ∈ range X, G i j l * w X (-sign * i * kx)) i) ky kz) = dft3 X Y Z (-sign) G :=
      funext fun a => funext fun b => funext fun c => (dft3_yz X Y Z (-sign) G a b c).symm
    rw [this] at v4
    exact v4
  · refine Frame3.trans (t := fun r => (u r).loc) (fun r hr a h1 h2 _ => ?_) v5
    rw [hY' r hr] at h2
    beta_reduce
    rw [u5 r hr a (fun hh => h1 (has_mono (n_xy _) hh)) (by rw [Nat.mul_one]; exact h2), (t4 r hr).2 a fun hh => h1 (has_mono (hn r hr) hh)]

/-- `Normalize` in a program. -/
theorem normalize3_step {e : Eager} (hd : ∀ r < Px * Py, d r = mkSplit3 X Y Z (r / Py) Px (r % Py) Py) {G : ℕ → ℕ → ℕ → ℂ} {s : St ℂ} {k : ℕ → Prog ℂ Unit}
    (hs : ∀ r < Px * Py, (out r).off + (d r).n ≤ (s r).loc.size (out r).buf)
    (hq : Quiet (Px * Py) (fun r => ((gridFft3 X Y Z Px Py r sign ip xy yz).normalize (out r)).bind fun _ => k r) s)
    (hG : HoldsXY (Px * Py) d 1 G out fun r => (s r).loc) :
    ∃ t, Steps e s t ∧ Quiet (Px * Py) k t ∧ (∀ r, (t r).loc.size = (s r).loc.size) ∧
      HoldsXY (Px * Py) d 1 (fun i j k => G i j k / ((X * Y * Z : ℕ) : ℂ)) out (fun r => (t r).loc) := by
  have hZ' : ∀ r < Px * Py, (d r).Z = Z := fun r hr => by rw [hd r hr]; rfl
  obtain ⟨t, t1, t2, t3, t4⟩ := local_phase (e := e) hq
    (R := fun r m => ∀ i < (d r).xy.x, ∀ j < (d r).yz.x, ∀ l < Z, m (out r + ((i * (d r).yz.x + j) * Z + l)) =
      G ((d r).xy.x0 + i) ((d r).yz.x0 + j) l / ((X * Y * Z : ℕ) : ℂ))
    (by
      intro r hr
      have hn := n_rows (d r)
      rw [hZ' r hr] at hn
      obtain ⟨m, m1, m2, _⟩ := normalizeP_ok (e := e) (i := r) (env := fun j => (s j).loc) (hq.req r hr) (norm := 1 / ((X * Y * Z : ℕ) : ℂ))
        ((Nat.add_le_add_left hn _).trans (hs r hr))
      refine ⟨m, ?_, fun i hi j hj l hl => ?_⟩
      · rw [hd r hr] at m1
        exact m1
      · have := hG r hr i hi j hj l (by rw [hZ' r hr, Nat.mul_one]; exact hl)
        rw [hZ' r hr, Nat.mul_one] at this
        beta_reduce at this
        rw [m2 _ (rad_lt hl (rad_lt hj hi)), this, mul_one_div])
  refine ⟨t, t1, t2, t3, ?_⟩
  intro r hr i hi j hj l hl
  rw [hZ' r hr, Nat.mul_one] at hl ⊢
  exact t4 r hr i hi j hj l hl

end

/-- Three-dimensional inversion. -/
theorem dft3_inv (X Y Z : ℕ) (sign : ℤ) (hs : sign = 1 ∨ sign = -1) (G : ℕ → ℕ → ℕ → ℂ) {i j k : ℕ} (hi : i < X) (hj : j < Y) (hk : k < Z) :
    dft3 X Y Z (-sign) (dft3 X Y Z sign G) i j k = ((X * Y * Z : ℕ) : ℂ) * G i j k := by
  rw [dft3_yz]
  have h1 : ∀ ky kz, ∑ t ∈ range X, dft3 X Y Z sign G t ky kz * w X (-sign * t * i) = X * dft2 Y Z sign (G i) ky kz := by
    intro ky kz
    rw [← dft_inv X sign hs (fun t => dft2 Y Z sign (G t) ky kz) hi]
    exact sum_congr rfl fun t _ => by rw [dft3_x]
  have h2 := dft2_inv Y Z sign hs (G i) hj hk
  simp only [h1]
  have h3 : dft2 Y Z (-sign) (fun ky kz => (X : ℂ) * dft2 Y Z sign (G i) ky kz) j k = X * dft2 Y Z (-sign) (dft2 Y Z sign (G i)) j k := by
    unfold dft2
    rw [mul_sum]
    refine sum_congr rfl fun a _ => ?_
    rw [mul_sum]
    exact sum_congr rfl fun b _ => by ring
  rw [h3, h2]
  push_cast
  ring

end Fftwpp.Net
