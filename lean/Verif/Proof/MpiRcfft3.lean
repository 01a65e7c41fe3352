import Verif.Model.MpiRcfft3
import Verif.Proof.MpiFft3b
import Verif.Proof.MpiRcfft2
import Verif.Spec.RDft3

/-!
# Distributed three-dimensional transforms of real data: the steps
-/

namespace Fftwpp.Net
open Finset

/-- Doubles between rows of the real array. -/
def rdist3 (Z : ℕ) (ip : Bool) : ℕ := if ip = true then 2 * (Z / 2 + 1) else Z

/-- Each process `r < Q` holds at `buf r` the part of the real array `G` that has `x`, `y` in its ranges, in rows of `Z` doubles that are `rd`
doubles apart. -/
def HoldsReal3 (Q : ℕ) (d : ℕ → Split3) (rd : ℕ) (G : ℕ → ℕ → ℕ → ℝ) (buf : ℕ → Loc) (σ : ℕ → Local ℝ) : Prop :=
  ∀ r < Q, ∀ i < (d r).xy.x, ∀ j < (d r).yz.x, ∀ k < (d r).Z,
    (σ r).mem (buf r + ((i * (d r).yz.x + j) * rd + k)) = G ((d r).xy.x0 + i) ((d r).yz.x0 + j) k

/-- Each process holds contiguously at `buf r` the part of the complex array `F` that has `x`, `y` in its ranges. -/
def CXY (Q : ℕ) (d : ℕ → Split3) (F : ℕ → ℕ → ℕ → ℂ) (buf : ℕ → Loc) (σ : ℕ → Local ℝ) : Prop :=
  ∀ r < Q, ∀ i < (d r).xy.x, ∀ j < (d r).yz.x, ∀ k < (d r).Z,
    cget (σ r).mem (buf r + 2 * ((i * (d r).yz.x + j) * (d r).Z + k)) = F ((d r).xy.x0 + i) ((d r).yz.x0 + j) k

/-- The same for the ranges of `x` and `z`. -/
def CXZ (Q : ℕ) (d : ℕ → Split3) (F : ℕ → ℕ → ℕ → ℂ) (buf : ℕ → Loc) (σ : ℕ → Local ℝ) : Prop :=
  ∀ r < Q, ∀ i < (d r).xy.x, ∀ j < (d r).Y, ∀ k < (d r).yz.y,
    cget (σ r).mem (buf r + 2 * ((i * (d r).Y + j) * (d r).yz.y + k)) = F ((d r).xy.x0 + i) j ((d r).yz.y0 + k)

/-- The same for the ranges of `y` and `z`. -/
def HoldsSpec3 (Q : ℕ) (d : ℕ → Split3) (F : ℕ → ℕ → ℕ → ℂ) (buf : ℕ → Loc) (σ : ℕ → Local ℝ) : Prop :=
  ∀ r < Q, ∀ i < (d r).X, ∀ j < (d r).xy.y, ∀ k < (d r).yz.y,
    cget (σ r).mem (buf r + 2 * ((i * (d r).xy.y + j) * (d r).yz.y + k)) = F i ((d r).xy.y0 + j) ((d r).yz.y0 + k)

/-- The third index in doubles. -/
noncomputable def dwords (F : ℕ → ℕ → ℕ → ℂ) (i j l : ℕ) : ℝ := cpart (F i j (l / 2)) (l % 2)

theorem dwords_of {F : ℕ → ℕ → ℕ → ℂ} {g : Loc → ℝ} {p : Loc} {i j a k0 b : ℕ} (h : ∀ k < b, cget g (p + 2 * (a * b + k)) = F i j (k0 + k)) :
    ∀ l < b * 2, g (p + (a * (b * 2) + l)) = dwords F i j (k0 * 2 + l) := by
  intro l hl
  have h1 := of_cget (h (l / 2) (by omega)) (c := l % 2) (Nat.mod_lt _ (by omega))
  have h2 : a * (b * 2) + l = 2 * (a * b + l / 2) + l % 2 := by
    have : a * (b * 2) = 2 * (a * b) := by ring
    omega
  rw [h2, h1]
  unfold dwords
  rw [show (k0 * 2 + l) / 2 = k0 + l / 2 by omega, show (k0 * 2 + l) % 2 = l % 2 by omega]

theorem of_dwords {F : ℕ → ℕ → ℕ → ℂ} {g : Loc → ℝ} {p : Loc} {i j a k0 b : ℕ} (h : ∀ l < b * 2, g (p + (a * (b * 2) + l)) = dwords F i j (k0 * 2 + l)) :
    ∀ k < b, cget g (p + 2 * (a * b + k)) = F i j (k0 + k) := by
  intro k hk
  refine cget_of fun c hc => ?_
  have h1 := h (2 * k + c) (by omega)
  rw [show a * (b * 2) + (2 * k + c) = 2 * (a * b + k) + c by ring] at h1
  rw [h1]
  unfold dwords
  rw [show (k0 * 2 + (2 * k + c)) / 2 = k0 + k by omega, show (k0 * 2 + (2 * k + c)) % 2 = c by omega]

theorem cxy_iff {Q : ℕ} {d : ℕ → Split3} {F : ℕ → ℕ → ℕ → ℂ} {buf : ℕ → Loc} {σ : ℕ → Local ℝ} : CXY Q d F buf σ ↔ HoldsXY Q d 2 (dwords F) buf σ := by
  constructor
  · intro h r hr i hi j hj l hl
    have := dwords_of (k0 := 0) (fun k hk => by rw [Nat.zero_add]; exact h r hr i hi j hj k hk) l hl
    rwa [Nat.zero_mul, Nat.zero_add] at this
  · intro h r hr i hi j hj k hk
    have h' : ∀ l < (d r).Z * 2, (σ r).mem (buf r + ((i * (d r).yz.x + j) * ((d r).Z * 2) + l)) =
        dwords F ((d r).xy.x0 + i) ((d r).yz.x0 + j) (0 * 2 + l) := fun l hl => by
      rw [h r hr i hi j hj l hl]
      congr 1
      omega
    have := of_dwords h' k hk
    rwa [Nat.zero_add] at this

theorem cxz_iff {Q : ℕ} {d : ℕ → Split3} {F : ℕ → ℕ → ℕ → ℂ} {buf : ℕ → Loc} {σ : ℕ → Local ℝ} : CXZ Q d F buf σ ↔ HoldsXZ Q d 2 (dwords F) buf σ :=
  ⟨fun h r hr i hi j hj => dwords_of (h r hr i hi j hj), fun h r hr i hi j hj => of_dwords (h r hr i hi j hj)⟩

theorem cyz_iff {Q : ℕ} {d : ℕ → Split3} {F : ℕ → ℕ → ℕ → ℂ} {buf : ℕ → Loc} {σ : ℕ → Local ℝ} : HoldsSpec3 Q d F buf σ ↔ HoldsYZ Q d 2 (dwords F) buf σ :=
  ⟨fun h r hr i hi j hj => dwords_of (h r hr i hi j hj), fun h r hr i hi j hj => of_dwords (h r hr i hi j hj)⟩

/-- Nothing but the words in `W r` has been written. -/
def FrameW (Q : ℕ) (W : ℕ → Loc → Prop) (s t : ℕ → Local ℝ) : Prop := ∀ r < Q, ∀ a, ¬ W r a → (t r).mem a = (s r).mem a

theorem FrameW.trans {Q : ℕ} {W : ℕ → Loc → Prop} {s t u : ℕ → Local ℝ} (h : FrameW Q W s t) (h' : FrameW Q W t u) : FrameW Q W s u :=
  fun r hr a ha => (h' r hr a ha).trans (h r hr a ha)

theorem FrameW.mono {Q : ℕ} {W W' : ℕ → Loc → Prop} {s t : ℕ → Local ℝ} (h : FrameW Q W s t) (hw : ∀ r < Q, ∀ a, W r a → W' r a) : FrameW Q W' s t :=
  fun r hr a ha => h r hr a fun hh => ha (hw r hr a hh)

/-- The output array and the work arrays. -/
def outW (d : ℕ → Split3) (cx wxy wyz : ℕ → Loc) (r : ℕ) (a : Loc) : Prop :=
  (Region.mk (cx r) (2 * (d r).n)).has a ∨ (Region.mk (wxy r) (2 * ((d r).xy.x * (d r).Y * (d r).yz.y))).has a ∨
    ((d r).yz.x < (d r).Y ∧ (Region.mk (wyz r) (2 * ((d r).yz.x * (d r).Z))).has a)

/-- The arrays of a three-dimensional transform of real data (`dr`, `dc`: the splits of the real and the complex array): room for the real
rows at `re r` and for `dc.n` complex words at `cx r` (equal, or in different buffers); work arrays of the transposes (the second only
if it is used). -/
structure Rc3Bufs (Q : ℕ) (dr dc : ℕ → Split3) (ip : Bool) (re cx wxy wyz : ℕ → Loc) (size : ℕ → ℕ → ℕ) : Prop where
  reSize : ∀ r < Q, (re r).off + (dr r).xy.x * (dr r).yz.x * rdist3 (dr r).Z ip ≤ size r (re r).buf
  cxSize : ∀ r < Q, (cx r).off + 2 * (dc r).n ≤ size r (cx r).buf
  wxySize : ∀ r < Q, (wxy r).off + 2 * ((dc r).xy.x * (dc r).Y * (dc r).yz.y) ≤ size r (wxy r).buf
  wyzSize : ∀ r < Q, (dc r).yz.x < (dc r).Y → (wyz r).off + 2 * ((dc r).yz.x * (dc r).Z) ≤ size r (wyz r).buf
  cxwxy : ∀ r < Q, (cx r).buf ≠ (wxy r).buf
  cxwyz : ∀ r < Q, (dc r).yz.x < (dc r).Y → (cx r).buf ≠ (wyz r).buf
  /-- In place in all processes, or in none. -/
  same : ∀ r < Q, (ip = true) ↔ re r = cx r
  sep : ∀ r < Q, re r = cx r ∨ (re r).buf ≠ (cx r).buf

/-- The transforms in y of `n` planes of `Y × z` complex words. -/
theorem cyfft_planes {e : Eager} {r : ℕ} {env : ℕ → Local ℝ} {σ : Local ℝ} (hr : ∀ id, σ.req id = none) {n Y z : ℕ} {sign : ℤ} {buf : Loc}
    (hs : buf.off + 2 * (n * (z * Y)) ≤ σ.size buf.buf) :
    ∃ m, (Prog.loop (List.range n) fun i => (Mfft.new Y sign z z 1 true).cfft (buf + 2 * (i * (z * Y))) (buf + 2 * (i * (z * Y)))).eval e r env σ =
        some ((), { σ with mem := m }) ∧
      (∀ i < n, ∀ ky < Y, ∀ k < z, cget m (buf + 2 * ((i * Y + ky) * z + k)) =
        ∑ j ∈ range Y, cget σ.mem (buf + 2 * ((i * Y + j) * z + k)) * w Y (sign * j * ky)) ∧
      ∀ a, ¬ (Region.mk buf (2 * (n * (z * Y)))).has a → m a = σ.mem a := by
  have e1 : ∀ i, 2 * (i * (z * Y)) = i * (2 * (z * Y)) := fun i => by ring
  obtain ⟨m, h1, h2, h3⟩ := planes_ok (e := e) (r := r) (env := env) (σ := σ) (src := buf) (dst := buf) (Or.inl rfl) (S := 2 * (z * Y)) (n := n)
    (body := fun i => (Mfft.new Y sign z z 1 true).cfft (buf + 2 * (i * (z * Y))) (buf + 2 * (i * (z * Y))))
    (Φ := fun g t => cpart (∑ j ∈ range Y, (⟨g (2 * (j * z + t / 2 % z)), g (2 * (j * z + t / 2 % z) + 1)⟩ : ℂ) * w Y (sign * j * (t / 2 / z : ℕ))) (t % 2))
    (by
      intro g g' hg t ht
      have hz : 0 < z := Nat.pos_of_ne_zero (by rintro rfl; simp at ht)
      beta_reduce
      congr 1
      refine sum_congr rfl fun j hj => ?_
      have := rad_lt (Nat.mod_lt (t / 2) hz) (mem_range.1 hj)
      rw [Nat.mul_comm Y z] at this
      rw [hg _ (by omega), hg _ (by omega)])
    (by
      intro i hi m
      have hs' : (buf + 2 * (i * (z * Y))).off + 2 * (Y * z) ≤ σ.size buf.buf := by
        rw [Nat.mul_comm Y z, e1]; exact plane_size (by rw [← e1]; exact hs) hi
      obtain ⟨m', a1, a2, a3⟩ := ccols_ok (e := e) (i := r) (env := env) (σ := { σ with mem := m }) hr (n := Y) (M := z) (sign := sign)
        (p := buf + 2 * (i * (z * Y))) hs'
      refine ⟨m', a1, fun t ht => ?_, fun a ha => a3 a (by rw [Nat.mul_comm Y z, e1]; exact ha)⟩
      have hz : 0 < z := Nat.pos_of_ne_zero (by rintro rfl; simp at ht)
      have := a2 (t / 2 % z) (Nat.mod_lt _ hz) (t / 2 / z) ((Nat.div_lt_iff_lt_mul hz).2 (by rw [Nat.mul_comm]; omega))
      rw [grid_eq] at this
      have h := of_cget this (c := t % 2) (Nat.mod_lt _ (by omega))
      rw [loc_assoc, show 2 * (i * (z * Y)) + (2 * (t / 2) + t % 2) = i * (2 * (z * Y)) + t by rw [e1]; omega] at h
      rw [h]
      beta_reduce
      congr 1
      refine sum_congr rfl fun j _ => ?_
      congr 1
      unfold cget
      simp only [loc_assoc, e1, Nat.add_assoc])
  refine ⟨m, h1, fun i hi ky hky k hk => ?_, fun a ha => h3 a (by rw [← e1]; exact ha)⟩
  refine cget_of fun c hc => ?_
  have hlt := rad_lt hk hky
  rw [Nat.mul_comm Y z] at hlt
  have := h2 i hi (2 * (ky * z + k) + c) (by omega)
  beta_reduce at this
  rw [show (2 * (ky * z + k) + c) / 2 = ky * z + k by omega, show (2 * (ky * z + k) + c) % 2 = c by omega, grid_div hk, grid_mod hk] at this
  rw [show 2 * ((i * Y + ky) * z + k) + c = i * (2 * (z * Y)) + (2 * (ky * z + k) + c) by ring, this]
  congr 1
  refine sum_congr rfl fun j _ => ?_
  congr 1
  unfold cget
  rw [loc_assoc, show 2 * ((i * Y + j) * z + k) = i * (2 * (z * Y)) + 2 * (j * z + k) by ring, Nat.add_assoc]

section
variable {X Y Z Px Py : ℕ} {d : ℕ → Split3} {cx wxy wyz : ℕ → Loc}

theorem ry_step {e : Eager} {Q : ℕ} {sign : ℤ} {F : ℕ → ℕ → ℕ → ℂ} {s : St ℝ} {k : ℕ → Prog ℝ Unit}
    (hs : ∀ r < Q, (cx r).off + 2 * (d r).n ≤ (s r).loc.size (cx r).buf)
    (hq : Quiet Q (fun r => (Prog.loop (List.range (d r).xy.x) fun i => (Mfft.new (d r).Y sign (d r).yz.y (d r).yz.y 1 true).cfft
      (cx r + 2 * (i * ((d r).yz.y * (d r).Y))) (cx r + 2 * (i * ((d r).yz.y * (d r).Y)))).bind fun _ => k r) s)
    (hF : CXZ Q d F cx fun r => (s r).loc) :
    ∃ t, Steps e s t ∧ Quiet Q k t ∧ (∀ r, (t r).loc.size = (s r).loc.size) ∧
      (∀ r < Q, ∀ i < (d r).xy.x, ∀ j < (d r).Y, ∀ k < (d r).yz.y, cget (t r).loc.mem (cx r + 2 * ((i * (d r).Y + j) * (d r).yz.y + k)) =
        dftX (d r).Y sign (F ((d r).xy.x0 + i)) j ((d r).yz.y0 + k)) ∧
      FrameW Q (outW d cx wxy wyz) (fun r => (s r).loc) fun r => (t r).loc := by
  obtain ⟨t, t1, t2, t3, t4⟩ := local_phase (e := e) hq
    (R := fun r m => (∀ i < (d r).xy.x, ∀ j < (d r).Y, ∀ k < (d r).yz.y, cget m (cx r + 2 * ((i * (d r).Y + j) * (d r).yz.y + k)) =
        dftX (d r).Y sign (F ((d r).xy.x0 + i)) j ((d r).yz.y0 + k)) ∧
      ∀ a, ¬ (Region.mk (cx r) (2 * ((d r).xy.x * ((d r).yz.y * (d r).Y)))).has a → m a = (s r).loc.mem a)
    (by
      intro r hr
      have hn := n_xz (d r)
      have := hs r hr
      obtain ⟨m, m1, m2, m3⟩ := cyfft_planes (e := e) (r := r) (env := fun j => (s j).loc) (hq.req r hr) (n := (d r).xy.x) (Y := (d r).Y) (z := (d r).yz.y)
        (sign := sign) (buf := cx r) (by omega)
      refine ⟨m, m1, fun i hi j hj k hk => ?_, m3⟩
      rw [m2 i hi j hj k hk]
      refine sum_congr rfl fun t ht => ?_
      rw [hF r hr i hi t (mem_range.1 ht) k hk])
  refine ⟨t, t1, t2, t3, fun r hr => (t4 r hr).1, fun r hr a ha => (t4 r hr).2 a fun hh => ha (Or.inl (has_mono ?_ hh))⟩
  have := n_xz (d r)
  omega

theorem rx_step {e : Eager} {Q : ℕ} {sign : ℤ} {F : ℕ → ℕ → ℕ → ℂ} {s : St ℝ} {k : ℕ → Prog ℝ Unit}
    (hs : ∀ r < Q, (cx r).off + 2 * (d r).n ≤ (s r).loc.size (cx r).buf)
    (hq : Quiet Q (fun r => ((Mfft.new (d r).X sign ((d r).xy.y * (d r).yz.y) ((d r).xy.y * (d r).yz.y) 1 true).cfft (cx r) (cx r)).bind fun _ => k r) s)
    (hF : HoldsSpec3 Q d F cx fun r => (s r).loc) :
    ∃ t, Steps e s t ∧ Quiet Q k t ∧ (∀ r, (t r).loc.size = (s r).loc.size) ∧
      (∀ r < Q, ∀ i < (d r).X, ∀ j < (d r).xy.y, ∀ k < (d r).yz.y, cget (t r).loc.mem (cx r + 2 * ((i * (d r).xy.y + j) * (d r).yz.y + k)) =
        ∑ t ∈ range (d r).X, F t ((d r).xy.y0 + j) ((d r).yz.y0 + k) * w (d r).X (sign * t * i)) ∧
      FrameW Q (outW d cx wxy wyz) (fun r => (s r).loc) fun r => (t r).loc := by
  obtain ⟨t, t1, t2, t3, t4⟩ := local_phase (e := e) hq
    (R := fun r m => (∀ i < (d r).X, ∀ j < (d r).xy.y, ∀ k < (d r).yz.y, cget m (cx r + 2 * ((i * (d r).xy.y + j) * (d r).yz.y + k)) =
        ∑ t ∈ range (d r).X, F t ((d r).xy.y0 + j) ((d r).yz.y0 + k) * w (d r).X (sign * t * i)) ∧
      ∀ a, ¬ (Region.mk (cx r) (2 * ((d r).X * ((d r).xy.y * (d r).yz.y)))).has a → m a = (s r).loc.mem a)
    (by
      intro r hr
      have hn := n_cols (d r)
      have := hs r hr
      obtain ⟨m, m1, m2, m3⟩ := ccols_ok (e := e) (i := r) (env := fun j => (s j).loc) (hq.req r hr) (n := (d r).X) (M := (d r).xy.y * (d r).yz.y)
        (sign := sign) (p := cx r) (by omega)
      refine ⟨m, m1, fun i hi j hj k hk => ?_, m3⟩
      rw [show (i * (d r).xy.y + j) * (d r).yz.y + k = i * ((d r).xy.y * (d r).yz.y) + (j * (d r).yz.y + k) by ring, m2 _ (rad_lt hk hj) i hi]
      refine sum_congr rfl fun t ht => ?_
      rw [show t * ((d r).xy.y * (d r).yz.y) + (j * (d r).yz.y + k) = (t * (d r).xy.y + j) * (d r).yz.y + k by ring, hF r hr t (mem_range.1 ht) j hj k hk])
  refine ⟨t, t1, t2, t3, fun r hr => (t4 r hr).1, fun r hr a ha => (t4 r hr).2 a fun hh => ha (Or.inl (has_mono ?_ hh))⟩
  have := n_cols (d r)
  omega

theorem nxy_two (d : Split3) : d.nxy 2 ≤ 2 * d.n := by
  have := n_xy d
  unfold Split3.nxy at this ⊢
  rw [Nat.mul_one] at this
  rw [← Nat.mul_assoc]
  omega

theorem nyz_two (d : Split3) (h : d.xy.x = 1) : d.nyz 2 ≤ 2 * d.n := by
  have := n_yz d h
  unfold Split3.nyz at this ⊢
  omega

/-- The transpose in xy, forward. -/
theorem rtxy0_step {e : Eager} {xy : ℕ × ℕ} (hX : 0 < X) (hY : 0 < Y) (hPx : 0 < Px) (hPy : 0 < Py) (ha : 1 ≤ xy.1)
    (hd : ∀ r < Px * Py, d r = mkSplit3 X Y Z (r / Py) Px (r % Py) Py) {F : ℕ → ℕ → ℕ → ℂ} {s : St ℝ} {k : ℕ → Prog ℝ Unit}
    (hs : ∀ r < Px * Py, (cx r).off + 2 * (d r).n ≤ (s r).loc.size (cx r).buf)
    (hw : ∀ r < Px * Py, (wxy r).off + 2 * ((d r).xy.x * (d r).Y * (d r).yz.y) ≤ (s r).loc.size (wxy r).buf) (hsep : ∀ r < Px * Py, (cx r).buf ≠ (wxy r).buf)
    (hq : Quiet (Px * Py) (fun r => (((MT.mk' X Y ((d r).yz.y * 2) Px (r / Py) xy.1 xy.2).localize0 (cx r) (cx r) (wxy r)).on (colComm Px Py (r % Py)) id).bind
      fun _ => k r) s)
    (hF : CXZ (Px * Py) d F cx fun r => (s r).loc) :
    ∃ t, Steps e s t ∧ Quiet (Px * Py) k t ∧ (∀ r, (t r).loc.size = (s r).loc.size) ∧ HoldsSpec3 (Px * Py) d F cx (fun r => (t r).loc) ∧
      FrameW (Px * Py) (outW d cx wxy wyz) (fun r => (s r).loc) fun r => (t r).loc := by
  have hY' : ∀ r < Px * Py, (d r).Y = Y := fun r hr => by rw [hd r hr]; rfl
  have e2 : ∀ r < Px * Py, (d r).xy.x * Y * ((d r).yz.y * 2) = 2 * ((d r).xy.x * (d r).Y * (d r).yz.y) := fun r hr => by rw [hY' r hr]; ring
  obtain ⟨t, t1, t2, t3, t4, t5⟩ := txy0_step (e := e) hX hY hPx hPy ha hd (c := 2) (out := cx) (wrk := wxy) (s := s) (cx := id) Function.injective_id
    { outSize := fun r hr => (Nat.add_le_add_left (nxy_two _) _).trans (hs r hr)
      wrkSize := fun r hr => by rw [e2 r hr]; exact hw r hr
      outwrk := hsep } hq (cxz_iff.1 hF)
  refine ⟨t, t1, t2, t3, cyz_iff.2 t4, fun r hr a h => t5 r hr a (fun hh => h (Or.inl (has_mono (nxy_two _) hh))) fun hh => h (Or.inr (Or.inl ?_))⟩
  rwa [← e2 r hr]

/-- The transpose in xy, backward. -/
theorem rtxy1_step {e : Eager} {xy : ℕ × ℕ} (hX : 0 < X) (hY : 0 < Y) (hPx : 0 < Px) (hPy : 0 < Py) (ha : 1 ≤ xy.1)
    (hd : ∀ r < Px * Py, d r = mkSplit3 X Y Z (r / Py) Px (r % Py) Py) {F : ℕ → ℕ → ℕ → ℂ} {s : St ℝ} {k : ℕ → Prog ℝ Unit}
    (hs : ∀ r < Px * Py, (cx r).off + 2 * (d r).n ≤ (s r).loc.size (cx r).buf)
    (hw : ∀ r < Px * Py, (wxy r).off + 2 * ((d r).xy.x * (d r).Y * (d r).yz.y) ≤ (s r).loc.size (wxy r).buf) (hsep : ∀ r < Px * Py, (cx r).buf ≠ (wxy r).buf)
    (hq : Quiet (Px * Py) (fun r => (((MT.mk' X Y ((d r).yz.y * 2) Px (r / Py) xy.1 xy.2).localize1 (cx r) (cx r) (wxy r)).on (colComm Px Py (r % Py)) id).bind
      fun _ => k r) s)
    (hF : HoldsSpec3 (Px * Py) d F cx fun r => (s r).loc) :
    ∃ t, Steps e s t ∧ Quiet (Px * Py) k t ∧ (∀ r, (t r).loc.size = (s r).loc.size) ∧ CXZ (Px * Py) d F cx (fun r => (t r).loc) ∧
      FrameW (Px * Py) (outW d cx wxy wyz) (fun r => (s r).loc) fun r => (t r).loc := by
  have hY' : ∀ r < Px * Py, (d r).Y = Y := fun r hr => by rw [hd r hr]; rfl
  have e2 : ∀ r < Px * Py, (d r).xy.x * Y * ((d r).yz.y * 2) = 2 * ((d r).xy.x * (d r).Y * (d r).yz.y) := fun r hr => by rw [hY' r hr]; ring
  obtain ⟨t, t1, t2, t3, t4, t5⟩ := txy1_step (e := e) hX hY hPx hPy ha hd (c := 2) (out := cx) (wrk := wxy) (s := s) (cx := id) Function.injective_id
    { outSize := fun r hr => (Nat.add_le_add_left (nxy_two _) _).trans (hs r hr)
      wrkSize := fun r hr => by rw [e2 r hr]; exact hw r hr
      outwrk := hsep } hq (cyz_iff.1 hF)
  refine ⟨t, t1, t2, t3, cxz_iff.2 t4, fun r hr a h => t5 r hr a (fun hh => h (Or.inl (has_mono (nxy_two _) hh))) fun hh => h (Or.inr (Or.inl ?_))⟩
  rwa [← e2 r hr]

/-- In slabs, the distributions in xy and in xz are the same. -/
theorem cxy_slab (hd : ∀ r < Px * Py, d r = mkSplit3 X Y Z (r / Py) Px (r % Py) Py) (hp : Py = 1) {F : ℕ → ℕ → ℕ → ℂ} {σ : ℕ → Local ℝ} :
    CXY (Px * Py) d F cx σ ↔ CXZ (Px * Py) d F cx σ := by
  have h : ∀ r < Px * Py, (d r).yz.x = (d r).Y ∧ (d r).yz.y = (d r).Z ∧ (d r).yz.x0 = 0 ∧ (d r).yz.y0 = 0 := fun r hr => by
    obtain ⟨y1, y2, y3, y4, _⟩ := slab_y hd hp hr
    rw [show (d r).Y = Y by rw [hd r hr]; rfl, show (d r).Z = Z by rw [hd r hr]; rfl]
    exact ⟨y1, y2, y3, y4⟩
  constructor
  · intro hF r hr i hi j hj k hk
    obtain ⟨y1, y2, y3, y4⟩ := h r hr
    have := hF r hr i hi j (by rw [y1]; exact hj) k (by rw [← y2]; exact hk)
    rw [y1, y3, Nat.zero_add, ← y2] at this
    rw [y4, Nat.zero_add]
    exact this
  · intro hF r hr i hi j hj k hk
    obtain ⟨y1, y2, y3, y4⟩ := h r hr
    have := hF r hr i hi j (by rw [← y1]; exact hj) k (by rw [y2]; exact hk)
    rw [y4, Nat.zero_add, y2] at this
    rw [y3, Nat.zero_add, y1]
    exact this

/-- The transpose in yz, forward, on a grid. -/
theorem rtyz0_step {e : Eager} {yz : ℕ × ℕ} (hY : 0 < Y) (hZ : 0 < Z) (hPx : 0 < Px) (hPy : 0 < Py) (ha : 1 ≤ yz.1)
    (hd : ∀ r < Px * Py, d r = mkSplit3 X Y Z (r / Py) Px (r % Py) Py) (hx1 : ∀ r < Px * Py, (d r).xy.x = 1) (hlt : ∀ r < Px * Py, (d r).yz.x < (d r).Y)
    {F : ℕ → ℕ → ℕ → ℂ} {s : St ℝ} {k : ℕ → Prog ℝ Unit}
    (hs : ∀ r < Px * Py, (cx r).off + 2 * (d r).n ≤ (s r).loc.size (cx r).buf)
    (hw : ∀ r < Px * Py, (d r).yz.x < (d r).Y → (wyz r).off + 2 * ((d r).yz.x * (d r).Z) ≤ (s r).loc.size (wyz r).buf)
    (hsep : ∀ r < Px * Py, (d r).yz.x < (d r).Y → (cx r).buf ≠ (wyz r).buf)
    (hq : Quiet (Px * Py) (fun r => (((MT.mk' Y Z 2 Py (r % Py) yz.1 yz.2).localize0 (cx r) (cx r) (wyz r)).on (rowComm Px Py (r / Py)) (· + 20)).bind
      fun _ => k r) s)
    (hF : CXY (Px * Py) d F cx fun r => (s r).loc) :
    ∃ t, Steps e s t ∧ Quiet (Px * Py) k t ∧ (∀ r, (t r).loc.size = (s r).loc.size) ∧ CXZ (Px * Py) d F cx (fun r => (t r).loc) ∧
      FrameW (Px * Py) (outW d cx wxy wyz) (fun r => (s r).loc) fun r => (t r).loc := by
  have hZ' : ∀ r < Px * Py, (d r).Z = Z := fun r hr => by rw [hd r hr]; rfl
  have e2 : ∀ r < Px * Py, (d r).yz.x * Z * 2 = 2 * ((d r).yz.x * (d r).Z) := fun r hr => by rw [hZ' r hr]; ring
  obtain ⟨t, t1, t2, t3, t4, t5⟩ := tyz0_step (e := e) hY hZ hPx hPy ha hd hx1 (c := 2) (cx := (· + 20)) (fun a b h => by simpa using h) (out := cx) (wrk := wyz) (s := s)
    { outSize := fun r hr => (Nat.add_le_add_left (nyz_two _ (hx1 r hr)) _).trans (hs r hr)
      wrkSize := fun r hr => by rw [e2 r hr]; exact hw r hr (hlt r hr)
      outwrk := fun r hr => hsep r hr (hlt r hr) } hq (cxy_iff.1 hF)
  refine ⟨t, t1, t2, t3, cxz_iff.2 t4, fun r hr a h => t5 r hr a (fun hh => h (Or.inl (has_mono (nyz_two _ (hx1 r hr)) hh))) fun hh =>
    h (Or.inr (Or.inr ⟨hlt r hr, ?_⟩))⟩
  rwa [← e2 r hr]

/-- The transpose in yz, backward, on a grid. -/
theorem rtyz1_step {e : Eager} {yz : ℕ × ℕ} (hY : 0 < Y) (hZ : 0 < Z) (hPx : 0 < Px) (hPy : 0 < Py) (ha : 1 ≤ yz.1)
    (hd : ∀ r < Px * Py, d r = mkSplit3 X Y Z (r / Py) Px (r % Py) Py) (hx1 : ∀ r < Px * Py, (d r).xy.x = 1) (hlt : ∀ r < Px * Py, (d r).yz.x < (d r).Y)
    {F : ℕ → ℕ → ℕ → ℂ} {s : St ℝ} {k : ℕ → Prog ℝ Unit}
    (hs : ∀ r < Px * Py, (cx r).off + 2 * (d r).n ≤ (s r).loc.size (cx r).buf)
    (hw : ∀ r < Px * Py, (d r).yz.x < (d r).Y → (wyz r).off + 2 * ((d r).yz.x * (d r).Z) ≤ (s r).loc.size (wyz r).buf)
    (hsep : ∀ r < Px * Py, (d r).yz.x < (d r).Y → (cx r).buf ≠ (wyz r).buf)
    (hq : Quiet (Px * Py) (fun r => (((MT.mk' Y Z 2 Py (r % Py) yz.1 yz.2).localize1 (cx r) (cx r) (wyz r)).on (rowComm Px Py (r / Py)) (· + 20)).bind
      fun _ => k r) s)
    (hF : CXZ (Px * Py) d F cx fun r => (s r).loc) :
    ∃ t, Steps e s t ∧ Quiet (Px * Py) k t ∧ (∀ r, (t r).loc.size = (s r).loc.size) ∧ CXY (Px * Py) d F cx (fun r => (t r).loc) ∧
      FrameW (Px * Py) (outW d cx wxy wyz) (fun r => (s r).loc) fun r => (t r).loc := by
  have hZ' : ∀ r < Px * Py, (d r).Z = Z := fun r hr => by rw [hd r hr]; rfl
  have e2 : ∀ r < Px * Py, (d r).yz.x * Z * 2 = 2 * ((d r).yz.x * (d r).Z) := fun r hr => by rw [hZ' r hr]; ring
  obtain ⟨t, t1, t2, t3, t4, t5⟩ := tyz1_step (e := e) hY hZ hPx hPy ha hd hx1 (c := 2) (cx := (· + 20)) (fun a b h => by simpa using h) (out := cx) (wrk := wyz) (s := s)
    { outSize := fun r hr => (Nat.add_le_add_left (nyz_two _ (hx1 r hr)) _).trans (hs r hr)
      wrkSize := fun r hr => by rw [e2 r hr]; exact hw r hr (hlt r hr)
      outwrk := fun r hr => hsep r hr (hlt r hr) } hq (cxz_iff.1 hF)
  refine ⟨t, t1, t2, t3, cxy_iff.2 t4, fun r hr a h => t5 r hr a (fun hh => h (Or.inl (has_mono (nyz_two _ (hx1 r hr)) hh))) fun hh =>
    h (Or.inr (Or.inr ⟨hlt r hr, ?_⟩))⟩
  rwa [← e2 r hr]

end
end Fftwpp.Net
