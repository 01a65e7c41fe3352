import Verif.Proof.MpiGroup

/-!
# Distributed three-dimensional transforms
-/

namespace Fftwpp.Net
open Finset

theorem loc_assoc (a : Loc) (i j : ℕ) : a + i + j = a + (i + j) := by
  show Loc.mk _ _ = Loc.mk _ _
  simp [Nat.add_assoc]

theorem plane_has {p : Loc} {i S : ℕ} {a : Loc} : (Region.mk (p + i) S).has a ↔ ∃ t < S, a = p + (i + t) := by
  rw [region_has]
  constructor
  · rintro ⟨t, ht, h⟩; exact ⟨t, ht, by rw [h, ← loc_assoc]⟩
  · rintro ⟨t, ht, h⟩; exact ⟨t, ht, by rw [h, ← loc_assoc]⟩

theorem planes_list {V : Type} {e : Eager} {r : ℕ} {env : ℕ → Local V} {σ : Local V} {src dst : Loc} (hsep : src = dst ∨ src.buf ≠ dst.buf) {S : ℕ}
    {body : ℕ → Prog V Unit} {Φ : (ℕ → V) → ℕ → V} (hΦ : ∀ g g' : ℕ → V, (∀ t < S, g t = g' t) → ∀ t < S, Φ g t = Φ g' t) :
    ∀ (l : List ℕ) (m : Loc → V), l.Nodup →
    (∀ i ∈ l, ∀ m : Loc → V, ∃ m', (body i).eval e r env { σ with mem := m } = some ((), { σ with mem := m' }) ∧
      (∀ t < S, m' (dst + (i * S + t)) = Φ (fun t => m (src + (i * S + t))) t) ∧ ∀ a, ¬ (Region.mk (dst + i * S) S).has a → m' a = m a) →
    ∃ m', (Prog.loop l body).eval e r env { σ with mem := m } = some ((), { σ with mem := m' }) ∧
      (∀ i ∈ l, ∀ t < S, m' (dst + (i * S + t)) = Φ (fun t => m (src + (i * S + t))) t) ∧
      ∀ a, (∀ i ∈ l, ¬ (Region.mk (dst + i * S) S).has a) → m' a = m a := by
  intro l
  induction l with
  | nil => intro m _ _; exact ⟨m, rfl, by simp, fun _ _ => rfl⟩
  | cons i l ih =>
    intro m hn hb
    rw [List.nodup_cons] at hn
    obtain ⟨m1, a1, a2, a3⟩ := hb i List.mem_cons_self m
    obtain ⟨m2, b1, b2, b3⟩ := ih m1 hn.2 fun j hj => hb j (List.mem_cons_of_mem _ hj)
    have hdis : ∀ j ∈ l, ∀ t < S, ¬ (Region.mk (dst + i * S) S).has (dst + (j * S + t)) := by
      intro j hj t ht hh
      obtain ⟨t', ht', h⟩ := plane_has.1 hh
      have := congrArg Loc.off h
      simp only [Loc.add_off, Nat.add_left_cancel_iff] at this
      exact hn.1 ((rad_inj ht ht' this).1 ▸ hj)
    refine ⟨m2, ?_, ?_, ?_⟩
    · simp only [Prog.loop]
      rw [eval_seq a1]
      exact b1
    · intro j hj t ht
      rcases List.mem_cons.1 hj with rfl | hj
      · rw [b3 _ fun j' hj' hh => ?_]
        · exact a2 t ht
        · obtain ⟨t', ht', h⟩ := plane_has.1 hh
          have := congrArg Loc.off h
          simp only [Loc.add_off, Nat.add_left_cancel_iff] at this
          exact hn.1 ((rad_inj ht ht' this).1 ▸ hj')
      · rw [b2 j hj t ht]
        refine hΦ _ _ (fun t' ht' => a3 _ fun hh => ?_) t ht
        rcases hsep with rfl | hne
        · exact hdis j hj t' ht' hh
        · exact hne hh.1
    · intro a ha
      rw [b3 a fun j hj => ha j (List.mem_cons_of_mem _ hj), a3 a (ha i List.mem_cons_self)]

/-- One iteration for each of `n` planes. -/
theorem planes_ok {V : Type} {e : Eager} {r : ℕ} {env : ℕ → Local V} {σ : Local V} {src dst : Loc} (hsep : src = dst ∨ src.buf ≠ dst.buf) {S n : ℕ}
    {body : ℕ → Prog V Unit} {Φ : (ℕ → V) → ℕ → V} (hΦ : ∀ g g' : ℕ → V, (∀ t < S, g t = g' t) → ∀ t < S, Φ g t = Φ g' t)
    (hb : ∀ i < n, ∀ m : Loc → V, ∃ m', (body i).eval e r env { σ with mem := m } = some ((), { σ with mem := m' }) ∧
      (∀ t < S, m' (dst + (i * S + t)) = Φ (fun t => m (src + (i * S + t))) t) ∧ ∀ a, ¬ (Region.mk (dst + i * S) S).has a → m' a = m a) :
    ∃ m', (Prog.loop (List.range n) body).eval e r env σ = some ((), { σ with mem := m' }) ∧
      (∀ i < n, ∀ t < S, m' (dst + (i * S + t)) = Φ (fun t => σ.mem (src + (i * S + t))) t) ∧
      ∀ a, ¬ (Region.mk dst (n * S)).has a → m' a = σ.mem a := by
  obtain ⟨m, h1, h2, h3⟩ := planes_list (e := e) (r := r) (env := env) (σ := σ) hsep hΦ (List.range n) σ.mem List.nodup_range
    fun i hi => hb i (List.mem_range.1 hi)
  refine ⟨m, h1, fun i hi => h2 i (List.mem_range.2 hi), fun a ha => h3 a fun i hi hh => ?_⟩
  obtain ⟨t, ht, h⟩ := plane_has.1 hh
  exact ha (region_has.2 ⟨_, rad_lt ht (List.mem_range.1 hi), h⟩)

theorem fft2d_ok {e : Eager} {i : ℕ} {env : ℕ → Local ℂ} {σ : Local ℂ} (hr : ∀ id, σ.req id = none) {ny nz : ℕ} {sign : ℤ} {ip : Bool} {src dst : Loc}
    (hip : (ip = true) ↔ src = dst) (hs : src.off + ny * nz ≤ σ.size src.buf) (hd : dst.off + ny * nz ≤ σ.size dst.buf) :
    ∃ m, (fft2dExec ny nz sign ip src dst).eval e i env σ = some ((), { σ with mem := m }) ∧
      (∀ ky < ny, ∀ kz < nz, m (dst + (ky * nz + kz)) = dft2 ny nz sign (fun j k => σ.mem (src + (j * nz + k))) ky kz) ∧
      ∀ a, ¬ (Region.mk dst (ny * nz)).has a → m a = σ.mem a := by
  have hmem : ∀ x : ℕ × ℕ, x ∈ (List.range ny ×ˢ List.range nz) ↔ x.1 < ny ∧ x.2 < nz := by
    intro x
    rw [show x = (x.1, x.2) from rfl, List.mem_product, List.mem_range, List.mem_range]
  obtain ⟨m, g, h1, h2, h3, h4⟩ := apply_ok (e := e) (i := i) (env := env) hr
    (rd := (List.range ny ×ˢ List.range nz).map fun x => src + (x.1 * nz + x.2))
    (wr := (List.range ny ×ˢ List.range nz).map fun x => (dst + (x.1 * nz + x.2), fun g =>
        ∑ j ∈ Finset.range ny, ∑ k ∈ Finset.range nz, g (src + (j * nz + k)) * w ny (sign * j * x.1) * w nz (sign * k * x.2)))
    (by
      intro a ha
      obtain ⟨x, hx, rfl⟩ := List.mem_map.1 ha
      exact inB hs (rad_lt ((hmem x).1 hx).2 ((hmem x).1 hx).1))
    (by
      intro a ha
      obtain ⟨x, hx, rfl⟩ := List.mem_map.1 ha
      exact inB hd (rad_lt ((hmem x).1 hx).2 ((hmem x).1 hx).1))
    (by
      rw [List.map_map]
      refine List.Nodup.map_on ?_ (List.nodup_range.product List.nodup_range)
      intro x hx y hy hxy
      have := congrArg Loc.off hxy
      simp only [Function.comp, Loc.add_off, Nat.add_left_cancel_iff] at this
      obtain ⟨a1, a2⟩ := rad_inj ((hmem x).1 hx).2 ((hmem y).1 hy).2 this
      exact Prod.ext a1 a2)
  refine ⟨m, ?_, ?_, ?_⟩
  · unfold fft2dExec
    rw [if_pos hip]
    exact h1
  · intro ky hky kz hkz
    have := h3 _ (List.mem_map.2 ⟨(ky, kz), (hmem (ky, kz)).2 ⟨hky, hkz⟩, rfl⟩)
    simp only at this
    rw [this]
    refine sum_congr rfl fun j hj => sum_congr rfl fun k hk => ?_
    rw [h2 _ (List.mem_map.2 ⟨(j, k), (hmem (j, k)).2 ⟨mem_range.1 hj, mem_range.1 hk⟩, rfl⟩)]
  · intro a ha
    refine h4 a fun x hx => ?_
    obtain ⟨y, hy, rfl⟩ := List.mem_map.1 hx
    exact fun he => ha (region_has.2 ⟨_, rad_lt ((hmem y).1 hy).2 ((hmem y).1 hy).1, he⟩)

theorem plane_size {p : Loc} {i S n sz : ℕ} (h : p.off + n * S ≤ sz) (hi : i < n) : (p + i * S).off + S ≤ sz := by
  have : (i + 1) * S ≤ n * S := Nat.mul_le_mul_right _ hi
  rw [Nat.add_mul, Nat.one_mul] at this
  simp only [Loc.add_off]
  omega

theorem loc_add_inj {a b : Loc} {i : ℕ} : a + i = b + i ↔ a = b := by
  constructor
  · intro h
    have h1 := congrArg Loc.buf h
    have h2 := congrArg Loc.off h
    simp only [Loc.add_off, Loc.add_buf, Nat.add_right_cancel_iff] at h1 h2
    cases a; cases b; simp_all
  · rintro rfl; rfl

/-- The two-dimensional transforms of `n` planes. -/
theorem fft2d_planes {e : Eager} {r : ℕ} {env : ℕ → Local ℂ} {σ : Local ℂ} (hr : ∀ id, σ.req id = none) {n Y Z : ℕ} {sign : ℤ} {ip : Bool} {src dst : Loc}
    (hip : (ip = true) ↔ src = dst) (hsep : src = dst ∨ src.buf ≠ dst.buf) (hs : src.off + n * (Z * Y) ≤ σ.size src.buf)
    (hd : dst.off + n * (Z * Y) ≤ σ.size dst.buf) :
    ∃ m, (Prog.loop (List.range n) fun i => fft2dExec Y Z sign ip (src + i * (Z * Y)) (dst + i * (Z * Y))).eval e r env σ = some ((), { σ with mem := m }) ∧
      (∀ i < n, ∀ ky < Y, ∀ kz < Z, m (dst + ((i * Y + ky) * Z + kz)) =
        dft2 Y Z sign (fun j k => σ.mem (src + ((i * Y + j) * Z + k))) ky kz) ∧
      ∀ a, ¬ (Region.mk dst (n * (Z * Y))).has a → m a = σ.mem a := by
  rw [Nat.mul_comm Z Y] at *
  obtain ⟨m, h1, h2, h3⟩ := planes_ok (e := e) (r := r) (env := env) (σ := σ) hsep (S := Y * Z) (n := n)
    (body := fun i => fft2dExec Y Z sign ip (src + i * (Y * Z)) (dst + i * (Y * Z)))
    (Φ := fun g t => dft2 Y Z sign (fun j k => g (j * Z + k)) (t / Z) (t % Z))
    (by
      intro g g' hg t _
      refine sum_congr rfl fun j hj => sum_congr rfl fun k hk => ?_
      beta_reduce
      rw [hg _ (rad_lt (mem_range.1 hk) (mem_range.1 hj))])
    (by
      intro i hi m
      obtain ⟨m', a1, a2, a3⟩ := fft2d_ok (e := e) (i := r) (env := env) (σ := { σ with mem := m }) hr (ny := Y) (nz := Z) (sign := sign) (ip := ip)
        (src := src + i * (Y * Z)) (dst := dst + i * (Y * Z)) (hip.trans loc_add_inj.symm) (plane_size hs hi) (plane_size hd hi)
      refine ⟨m', a1, fun t ht => ?_, a3⟩
      have hZ : 0 < Z := Nat.pos_of_ne_zero (by rintro rfl; simp at ht)
      have := a2 (t / Z) ((Nat.div_lt_iff_lt_mul hZ).2 ht) (t % Z) (Nat.mod_lt _ hZ)
      simp only [loc_assoc] at this
      rw [grid_eq] at this
      exact this)
  refine ⟨m, h1, fun i hi ky hky kz hkz => ?_, h3⟩
  have := h2 i hi (ky * Z + kz) (rad_lt hkz hky)
  rw [grid_div hkz, grid_mod hkz] at this
  rw [show (i * Y + ky) * Z + kz = i * (Y * Z) + (ky * Z + kz) by ring, this]
  refine sum_congr rfl fun j hj => sum_congr rfl fun k hk => ?_
  beta_reduce
  rw [show (i * Y + j) * Z + k = i * (Y * Z) + (j * Z + k) by ring]

/-- The one-dimensional transforms in y of `n` planes of `Y × z` points. -/
theorem yfft_planes {e : Eager} {r : ℕ} {env : ℕ → Local ℂ} {σ : Local ℂ} (hr : ∀ id, σ.req id = none) {n Y z : ℕ} {sign : ℤ} {buf : Loc}
    (hs : buf.off + n * (z * Y) ≤ σ.size buf.buf) :
    ∃ m, (Prog.loop (List.range n) fun i => (Mfft.new Y sign z z 1 true).fft (buf + i * (z * Y)) (buf + i * (z * Y))).eval e r env σ =
        some ((), { σ with mem := m }) ∧
      (∀ i < n, ∀ ky < Y, ∀ k < z, m (buf + ((i * Y + ky) * z + k)) =
        ∑ j ∈ range Y, σ.mem (buf + ((i * Y + j) * z + k)) * w Y (sign * j * ky)) ∧
      ∀ a, ¬ (Region.mk buf (n * (z * Y))).has a → m a = σ.mem a := by
  obtain ⟨m, h1, h2, h3⟩ := planes_ok (e := e) (r := r) (env := env) (σ := σ) (src := buf) (dst := buf) (Or.inl rfl) (S := z * Y) (n := n)
    (body := fun i => (Mfft.new Y sign z z 1 true).fft (buf + i * (z * Y)) (buf + i * (z * Y)))
    (Φ := fun g t => ∑ j ∈ range Y, g (j * z + t % z) * w Y (sign * j * (t / z : ℕ)))
    (by
      intro g g' hg t ht
      have hz : 0 < z := Nat.pos_of_ne_zero (by rintro rfl; simp at ht)
      refine sum_congr rfl fun j hj => ?_
      rw [hg _ (by rw [Nat.mul_comm z Y]; exact rad_lt (Nat.mod_lt _ hz) (mem_range.1 hj))])
    (by
      intro i hi m
      have hs' : (buf + i * (z * Y)).off + Y * z ≤ σ.size buf.buf := by rw [Nat.mul_comm Y z]; exact plane_size hs hi
      obtain ⟨m', a1, a2, a3⟩ := cols_ok (e := e) (i := r) (env := env) (σ := { σ with mem := m }) hr (n := Y) (M := z) (sign := sign) (ip := true)
        (src := buf + i * (z * Y)) (dst := buf + i * (z * Y)) (by simp) hs' hs'
      refine ⟨m', a1, fun t ht => ?_, fun a ha => a3 a (by rw [Nat.mul_comm Y z]; exact ha)⟩
      have hz : 0 < z := Nat.pos_of_ne_zero (by rintro rfl; simp at ht)
      have := a2 (t % z) (Nat.mod_lt _ hz) (t / z) ((Nat.div_lt_iff_lt_mul hz).2 (by rw [Nat.mul_comm]; exact ht))
      simp only [loc_assoc] at this
      rw [grid_eq] at this
      exact this)
  refine ⟨m, h1, fun i hi ky hky k hk => ?_, h3⟩
  have := h2 i hi (ky * z + k) (by rw [Nat.mul_comm z Y]; exact rad_lt hk hky)
  rw [grid_div hk, grid_mod hk] at this
  rw [show (i * Y + ky) * z + k = i * (z * Y) + (ky * z + k) by ring, this]
  refine sum_congr rfl fun j hj => ?_
  rw [show (i * Y + j) * z + k = i * (z * Y) + (j * z + k) by ring]

/-- `Fft3MPI.new` in terms of the grid. -/
def gridFft3 (X Y Z Px Py r : ℕ) (sign : ℤ) (ip : Bool) (xy yz : ℕ × ℕ) : Fft3MPI where
  d := mkSplit3 X Y Z (r / Py) Px (r % Py) Py
  sign := sign
  inplace := ip
  Txy := MT.mk' X Y (part Z Py (r % Py)) Px (r / Py) xy.1 xy.2
  Tyz := if Py = 1 then none else some (MT.mk' Y Z 1 Py (r % Py) yz.1 yz.2)
  commxy := colComm Px Py (r % Py)
  commyz := rowComm Px Py (r / Py)

theorem part_one (N : ℕ) : part N 1 0 = N := by
  unfold part Mpi.localdimension
  simp [ceilquotient]
  split_ifs <;> omega

theorem first_one (N : ℕ) : first N 1 0 = 0 := by
  unfold first Mpi.localdimension
  simp

theorem fft3_new {X Y N : ℕ} {pencil : Bool} (hX : 0 < X) (hY : 0 < Y) (hN : 0 < N) : ∃ Px Py, 0 < Px ∧ 0 < Py ∧
    Mpi.groupSize2 X Y N pencil = Px * Py ∧ (Py = 1 ∨ ∀ r < Px * Py, part X Px (r / Py) = 1 ∧ part Y Py (r % Py) < Y) ∧
    ∀ r < Px * Py, ∀ Z sign ip xy yz, Fft3MPI.new X Y Z N pencil r sign ip xy yz = gridFft3 X Y Z Px Py r sign ip xy yz ∧
      groupSplit3 X Y Z X Y N pencil r = mkSplit3 X Y Z (r / Py) Px (r % Py) Py := by
  obtain ⟨Px, Py, hPx, hPy, h1, h2, h3⟩ := mpiGroup (pencil := pencil) hX hY hN
  refine ⟨Px, Py, hPx, hPy, h1, h2, fun r hr Z sign ip xy yz => ?_⟩
  obtain ⟨a1, a2, a3, a4, a5, a6, a7⟩ := h3 r hr
  refine ⟨?_, a1 X Y Z⟩
  unfold Fft3MPI.new gridFft3
  simp only [h1, a1 X Y Z, a2, a3, a4, a5, a6, a7]
  congr 1
  by_cases hp : Py = 1
  · subst hp
    rw [if_pos rfl, if_neg]
    show ¬ part Y 1 (r % 1) < Y
    rw [Nat.mod_one, part_one]
    omega
  · rw [if_neg hp, if_pos]
    exact ((h2.resolve_left hp) r hr).2

/-- The arrays of a three-dimensional transform. -/
structure Fft3Bufs (Q : ℕ) (d : ℕ → Split3) (ip : Bool) (inp out wxy wyz : ℕ → Loc) (size : ℕ → ℕ → ℕ) : Prop where
  inSize : ∀ r < Q, (inp r).off + (d r).n ≤ size r (inp r).buf
  outSize : ∀ r < Q, (out r).off + (d r).n ≤ size r (out r).buf
  wxySize : ∀ r < Q, (wxy r).off + (d r).xy.x * (d r).Y * (d r).yz.y ≤ size r (wxy r).buf
  wyzSize : ∀ r < Q, (d r).yz.x < (d r).Y → (wyz r).off + (d r).yz.x * (d r).Z ≤ size r (wyz r).buf
  inwxy : ∀ r < Q, (inp r).buf ≠ (wxy r).buf
  inwyz : ∀ r < Q, (d r).yz.x < (d r).Y → (inp r).buf ≠ (wyz r).buf
  outwxy : ∀ r < Q, (out r).buf ≠ (wxy r).buf
  outwyz : ∀ r < Q, (d r).yz.x < (d r).Y → (out r).buf ≠ (wyz r).buf
  same : ∀ r < Q, (ip = true) ↔ inp r = out r
  sep : ∀ r < Q, inp r = out r ∨ (inp r).buf ≠ (out r).buf

theorem Fft3Bufs.swap {Q : ℕ} {d : ℕ → Split3} {ip : Bool} {inp out wxy wyz : ℕ → Loc} {size : ℕ → ℕ → ℕ} (h : Fft3Bufs Q d ip inp out wxy wyz size) :
    Fft3Bufs Q d ip out inp wxy wyz size :=
  ⟨h.outSize, h.inSize, h.wxySize, h.wyzSize, h.outwxy, h.outwyz, h.inwxy, h.inwyz, fun r hr => (h.same r hr).trans eq_comm,
    fun r hr => (h.sep r hr).imp Eq.symm Ne.symm⟩

/-- What a transform does not write. -/
def Frame3 (Q : ℕ) (d : ℕ → Split3) (out wxy wyz : ℕ → Loc) (s t : ℕ → Local ℂ) : Prop :=
  ∀ r < Q, ∀ a, ¬ (Region.mk (out r) (d r).n).has a → ¬ (Region.mk (wxy r) ((d r).xy.x * (d r).Y * (d r).yz.y)).has a →
    ((d r).yz.x < (d r).Y → ¬ (Region.mk (wyz r) ((d r).yz.x * (d r).Z)).has a) → (t r).mem a = (s r).mem a

theorem Frame3.trans {Q : ℕ} {d : ℕ → Split3} {out wxy wyz : ℕ → Loc} {s t u : ℕ → Local ℂ} (h : Frame3 Q d out wxy wyz s t)
    (h' : Frame3 Q d out wxy wyz t u) : Frame3 Q d out wxy wyz s u :=
  fun r hr a h1 h2 h3 => (h' r hr a h1 h2 h3).trans (h r hr a h1 h2 h3)

theorem n_xy (d : Split3) : d.nxy 1 ≤ d.n := by
  unfold Split3.nxy Split3.n
  rw [Nat.mul_one]
  exact le_max_left _ _

theorem n_cols (d : Split3) : d.X * (d.xy.y * d.yz.y) ≤ d.n := by
  rw [← Nat.mul_assoc]
  exact (Nat.mul_le_mul_right _ (le_max_left _ _)).trans (le_max_left _ _)

theorem n_xz (d : Split3) : d.xy.x * (d.yz.y * d.Y) ≤ d.n := by
  rw [Nat.mul_comm d.yz.y]
  exact (Nat.mul_le_mul_left _ (le_max_left _ _)).trans (le_max_right _ _)

theorem n_rows (d : Split3) : d.xy.x * d.yz.x * d.Z ≤ d.n := by
  rw [Nat.mul_assoc]
  exact (Nat.mul_le_mul_left _ (le_max_right _ _)).trans (le_max_right _ _)

theorem n_yz (d : Split3) (h : d.xy.x = 1) : d.nyz 1 ≤ d.n := by
  unfold Split3.nyz Split3.n
  rw [Nat.mul_one, h, Nat.one_mul, Nat.one_mul]
  exact le_max_right _ _

end Fftwpp.Net
