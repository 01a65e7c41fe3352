import Verif.Model.Cfft
import Verif.Props.Rcfft
import Verif.Proof.MpiFft3b

/-!
# C62: complex Fourier transforms on one process

`fft1d`, `fft2d`, `fft3d` (fftw++.h).  A word is a `Complex`.
-/

namespace Fftwpp
open Finset
namespace CFft

/-- The arrays `f` and `g` of `N` values: in bounds, the same pointer in place and disjoint otherwise. -/
structure Arrays (N : ℕ) (ip : Bool) (f g : Ptr) (m : Mem) : Prop where
  n0 : 0 < N
  src : m.block f N
  dst : m.block g N
  same : ip = true → f = g
  disj : ip = false → ∀ a < N, ∀ b < N, f + (a : ℕ) ≠ g + (b : ℕ)

/-- `out` is the destination `g` of a call, the default `NULL` being allowed in place. -/
def Dest (ip : Bool) (g : Ptr) (out : Option Ptr) : Prop := out = some g ∨ (ip = true ∧ out = none)

variable {o : CFft} {f g : Ptr} {m : Mem}

theorem addr_lt {nx ny nz i j k : ℕ} (hi : i < nx) (hj : j < ny) (hk : k < nz) : (i * ny + j) * nz + k < nx * ny * nz := RFft.at_lt (RFft.row_lt hi hj) hk

theorem addr_inj {p : Ptr} {i j k i' j' k' : ℕ} (hj : j < o.ny) (hj' : j' < o.ny) (hk : k < o.nz) (hk' : k' < o.nz) (h : o.addr p i j k = o.addr p i' j' k') :
    i = i' ∧ j = j' ∧ k = k' := by
  obtain ⟨h1, h2⟩ := RFft.at_inj hk hk' (Ptr.add_inj.1 h)
  obtain ⟨h3, h4⟩ := RFft.at_inj hj hj' h1
  exact ⟨h3, h4, h2⟩

theorem Arrays.ne {N : ℕ} {ip : Bool} (a : Arrays N ip f g m) : (ip = true) ↔ f = g := by
  refine ⟨a.same, fun e => ?_⟩
  by_contra hp
  exact a.disj (by simpa using hp) 0 a.n0 0 a.n0 (by rw [e])

theorem Arrays.of_size {N : ℕ} {ip : Bool} {m' : Mem} (a : Arrays N ip f g m) (s : m'.size = m.size) : Arrays N ip f g m' :=
  ⟨a.n0, fun i hi => Mem.valid_of_size s (a.src i hi), fun i hi => Mem.valid_of_size s (a.dst i hi), a.same, a.disj⟩

theorem Arrays.swap {N : ℕ} {ip : Bool} (a : Arrays N ip f g m) : Arrays N ip g f m :=
  ⟨a.n0, a.dst, a.src, fun h => (a.same h).symm, fun h x hx y hy e => a.disj h y hy x hx e.symm⟩

theorem setout_ok {inp dst : Ptr} {out : Option Ptr} (h : (o.inplace = true) ↔ inp = dst) (ho : Dest o.inplace dst out)
    (k : Ptr → Cmd Unit) : o.setout inp out k = k dst := by
  unfold setout
  rcases ho with rfl | ⟨h1, rfl⟩
  · rw [Option.getD_some, if_pos h]
  · rw [Option.getD_none, if_pos (iff_of_true h1 rfl), h.1 h1]

theorem dft3_congr {X Y Z : ℕ} {s : ℤ} {G G' : ℕ → ℕ → ℕ → ℂ} (h : ∀ i < X, ∀ j < Y, ∀ k < Z, G i j k = G' i j k) (a b c : ℕ) : dft3 X Y Z s G a b c = dft3 X Y Z s G' a b c := by
  unfold dft3
  refine sum_congr rfl fun i hi => sum_congr rfl fun j hj => sum_congr rfl fun k hk => ?_
  rw [h i (mem_range.1 hi) j (mem_range.1 hj) k (mem_range.1 hk)]

theorem execute_ok (a : Arrays (o.nx * o.ny * o.nz) o.inplace f g m) (s : Bool) :
    (o.execute f g s).Ok m fun _ m' => m'.size = m.size ∧
      (∀ i < o.nx, ∀ j < o.ny, ∀ k < o.nz, m'.val (o.addr g i j k) = dft3 o.nx o.ny o.nz o.sign (fun i j k => m.val (o.addr f i j k)) i j k) ∧
      ∀ p, (∀ x < o.nx * o.ny * o.nz, p ≠ g + (x : ℕ)) → m'.val p = m.val p := by
  have hd : o.Defined f g m := by
    refine ⟨fun i hi j hj k hk => ⟨a.src _ (addr_lt hi hj hk), a.dst _ (addr_lt hi hj hk)⟩, ?_⟩
    by_cases hp : o.inplace = true
    · exact Or.inl (a.same hp)
    · exact Or.inr fun i hi j hj k hk i' hi' j' hj' k' hk' => a.disj (by simpa using hp) _ (addr_lt hi hj hk) _ (addr_lt hi' hj' hk')
  refine ⟨(), _, if_pos hd, rfl, ?_, ?_⟩
  · intro i hi j hj k hk
    have hin : ∃ x : ℕ × ℕ × ℕ, x.1 < o.nx ∧ x.2.1 < o.ny ∧ x.2.2 < o.nz ∧ o.addr g i j k = o.addr g x.1 x.2.1 x.2.2 := ⟨(i, j, k), hi, hj, hk, rfl⟩
    have key : hin.choose = (i, j, k) := by
      obtain ⟨h1, h2, h3, h4⟩ := hin.choose_spec
      obtain ⟨e1, e2, e3⟩ := addr_inj hj h2 hk h3 h4
      exact Prod.ext e1.symm (Prod.ext e2.symm e3.symm)
    simp only [dif_pos hin, key]
  · intro p hp
    have : ¬ ∃ x : ℕ × ℕ × ℕ, x.1 < o.nx ∧ x.2.1 < o.ny ∧ x.2.2 < o.nz ∧ p = o.addr g x.1 x.2.1 x.2.2 :=
      fun ⟨x, h1, h2, h3, h4⟩ => hp _ (addr_lt h1 h2 h3) h4
    simp only [dif_neg this]

theorem fft_ok {out : Option Ptr} (a : Arrays (o.nx * o.ny * o.nz) o.inplace f g m) (ho : Dest o.inplace g out) (s : Bool) :
    (o.fft f out s).Ok m fun _ m' => m'.size = m.size ∧
      (∀ i < o.nx, ∀ j < o.ny, ∀ k < o.nz, m'.val (o.addr g i j k) = dft3 o.nx o.ny o.nz o.sign (fun i j k => m.val (o.addr f i j k)) i j k) ∧
      ∀ p, (∀ x < o.nx * o.ny * o.nz, p ≠ g + (x : ℕ)) → m'.val p = m.val p := by
  unfold fft
  rw [setout_ok a.ne ho]
  exact execute_ok a s

/-- **C62**, `fft` (and `fft0`, which for complex data is the same) of `fft1d`, of either sign: the unnormalized DFT of the `n` values at `f` is at `g`, and nothing
else is written. -/
theorem C62_fft1d {n : ℕ} {sign : ℤ} {ip : Bool} {out : Option Ptr} (a : Arrays n ip f g m) (ho : Dest ip g out) (s : Bool) :
    ((fft1d n sign ip).fft f out s).Ok m fun _ m' => m'.size = m.size ∧
      (∀ k < n, m'.val (g + (k : ℕ)) = ∑ j ∈ range n, m.val (f + (j : ℕ)) * w n (sign * j * k)) ∧
      ∀ p, (∀ x < n, p ≠ g + (x : ℕ)) → m'.val p = m.val p := by
  have hN : (fft1d n sign ip).nx * (fft1d n sign ip).ny * (fft1d n sign ip).nz = n := by simp [fft1d]
  refine (fft_ok (o := fft1d n sign ip) (by rw [hN]; exact a) ho s).mono ?_
  rw [hN]
  rintro _ m' ⟨s1, e, fr⟩
  refine ⟨s1, fun k hk => ?_, fr⟩
  have := e 0 (show 0 < 1 by omega) 0 (show 0 < 1 by omega) k hk
  unfold addr dft3 at this
  simpa [fft1d] using this

/-- **C62**, `fft2d`: value `(i,j)` of an array is its word `i*ny+j`. -/
theorem C62_fft2d {nx ny : ℕ} {sign : ℤ} {ip : Bool} {out : Option Ptr} (a : Arrays (nx * ny) ip f g m) (ho : Dest ip g out) (s : Bool) :
    ((fft2d nx ny sign ip).fft f out s).Ok m fun _ m' => m'.size = m.size ∧
      (∀ i < nx, ∀ j < ny, m'.val (g + (i * ny + j : ℕ)) = dft2 nx ny sign (fun i j => m.val (f + (i * ny + j : ℕ))) i j) ∧
      ∀ p, (∀ x < nx * ny, p ≠ g + (x : ℕ)) → m'.val p = m.val p := by
  have hN : (fft2d nx ny sign ip).nx * (fft2d nx ny sign ip).ny * (fft2d nx ny sign ip).nz = nx * ny := by simp [fft2d]
  refine (fft_ok (o := fft2d nx ny sign ip) (by rw [hN]; exact a) ho s).mono ?_
  rw [hN]
  rintro _ m' ⟨s1, e, fr⟩
  refine ⟨s1, fun i hi j hj => ?_, fr⟩
  have := e 0 (show 0 < 1 by omega) i hi j hj
  unfold addr dft3 at this
  unfold dft2
  simpa [fft2d] using this

/-- **C62**, `fft3d`: value `(i,j,k)` of an array is its word `(i*ny+j)*nz+k`. -/
theorem C62_fft3d {nx ny nz : ℕ} {sign : ℤ} {ip : Bool} {out : Option Ptr} (a : Arrays (nx * ny * nz) ip f g m) (ho : Dest ip g out) (s : Bool) :
    ((fft3d nx ny nz sign ip).fft f out s).Ok m fun _ m' => m'.size = m.size ∧
      (∀ i < nx, ∀ j < ny, ∀ k < nz, m'.val (g + ((i * ny + j) * nz + k : ℕ)) = dft3 nx ny nz sign (fun i j k => m.val (f + ((i * ny + j) * nz + k : ℕ))) i j k) ∧
      ∀ p, (∀ x < nx * ny * nz, p ≠ g + (x : ℕ)) → m'.val p = m.val p :=
  fft_ok (o := fft3d nx ny nz sign ip) a ho s

/-- `o` and `o'` are objects of one class, of the same sizes with `N` values, of opposite signs and both in place or both out of place. -/
inductive Opposite : ℕ → Bool → CFft → CFft → Prop
  | one (n : ℕ) (s : ℤ) (ip : Bool) : (s = 1 ∨ s = -1) → Opposite n ip (fft1d n s ip) (fft1d n (-s) ip)
  | two (nx ny : ℕ) (s : ℤ) (ip : Bool) : (s = 1 ∨ s = -1) → Opposite (nx * ny) ip (fft2d nx ny s ip) (fft2d nx ny (-s) ip)
  | three (nx ny nz : ℕ) (s : ℤ) (ip : Bool) : (s = 1 ∨ s = -1) → Opposite (nx * ny * nz) ip (fft3d nx ny nz s ip) (fft3d nx ny nz (-s) ip)

theorem Opposite.facts {N : ℕ} {ip : Bool} {o o' : CFft} (h : Opposite N ip o o') :
    o.inplace = ip ∧ o'.inplace = ip ∧ o.nx * o.ny * o.nz = N ∧ o'.doubles = 2 * N ∧ o'.nx = o.nx ∧ o'.ny = o.ny ∧ o'.nz = o.nz ∧ o'.sign = -o.sign ∧
      (o.sign = 1 ∨ o.sign = -1) := by
  cases h
  case one hs => exact ⟨rfl, rfl, by simp [fft1d], rfl, rfl, rfl, rfl, rfl, hs⟩
  case two hs => exact ⟨rfl, rfl, by simp [fft2d], by simp [fft2d]; ring, rfl, rfl, rfl, rfl, hs⟩
  case three hs => exact ⟨rfl, rfl, rfl, by simp [fft3d]; ring, rfl, rfl, rfl, rfl, hs⟩

/-- **C62**: `Forward.fft(f,g); Backward.fftNormalized(g,f)` for objects of opposite signs, in place or not, gives back all values at `f`; nothing else but `g` is
changed. -/
theorem C62_inverse {N : ℕ} {ip : Bool} {o o' : CFft} (h : Opposite N ip o o') (a : Arrays N ip f g m) {out out' : Option Ptr} (ho : Dest ip g out)
    (ho' : Dest ip f out') (s s' : Bool) :
    (o.fft f out s >>= fun _ => o'.fftNormalized g out' s').Ok m fun _ m' => m'.size = m.size ∧
      (∀ x < N, m'.val (f + (x : ℕ)) = m.val (f + (x : ℕ))) ∧
      ∀ p, (∀ x < N, p ≠ f + (x : ℕ)) → (∀ x < N, p ≠ g + (x : ℕ)) → m'.val p = m.val p := by
  obtain ⟨h1, h2, h3, h4, h5, h6, h7, h8, hs⟩ := h.facts
  subst h3
  subst h1
  have hN' : o'.nx * o'.ny * o'.nz = o.nx * o.ny * o.nz := by rw [h5, h6, h7]
  refine Cmd.Ok.bind ((fft_ok a ho s).mono ?_)
  rintro _ m1 ⟨s1, e1, f1⟩
  unfold fftNormalized
  have a1 : Arrays (o'.nx * o'.ny * o'.nz) o'.inplace g f m1 := by rw [hN', h2]; exact (a.of_size s1).swap
  rw [setout_ok a1.ne (by rw [h2]; exact ho')]
  refine Cmd.Ok.bind ((execute_ok a1 s').mono ?_)
  rintro _ m2 ⟨s2, e2, f2⟩
  have hh : o'.doubles / 2 = o.nx * o.ny * o.nz := by rw [h4]; omega
  have a2 := (a.of_size s1).of_size s2
  unfold norm
  rw [hh]
  refine (normalizeAll_ok a2.src).mono ?_
  rintro _ m3 ⟨s3, e3, f3⟩
  refine ⟨s3.trans (s2.trans s1), ?_, ?_⟩
  · have key : ∀ i < o.nx, ∀ j < o.ny, ∀ k < o.nz, m3.val (o.addr f i j k) = m.val (o.addr f i j k) := by
      intro i hi j hj k hk
      have b3 : m3.val (o.addr f i j k) = _ := e3 _ (addr_lt hi hj hk)
      have b2 := e2 i (by rwa [h5]) j (by rwa [h6]) k (by rwa [h7])
      have e0 : ∀ q x y z, o'.addr q x y z = o.addr q x y z := by intro q x y z; unfold addr; rw [h6, h7]
      simp only [e0, h5, h6, h7, h8] at b2
      rw [b3]
      show m2.val (o.addr f i j k) * _ = _
      rw [b2, dft3_congr fun i hi j hj k hk => e1 i hi j hj k hk]
      have := Net.dft3_inv o.nx o.ny o.nz o.sign hs (fun i j k => m.val (o.addr f i j k)) hi hj hk
      rw [this]
      have hn : ((o.nx * o.ny * o.nz : ℕ) : ℂ) ≠ 0 := Nat.cast_ne_zero.2 (Nat.pos_iff_ne_zero.1 a.n0)
      field_simp
    intro x hx
    have p1 : 0 < o.nx * o.ny * o.nz := a.n0
    have hz : 0 < o.nz := Nat.pos_of_ne_zero fun h => by rw [h, Nat.mul_zero] at p1; exact absurd p1 (Nat.lt_irrefl _)
    have hxy : x / o.nz < o.nx * o.ny := Nat.div_lt_of_lt_mul (by rwa [Nat.mul_comm o.nz])
    have hy : 0 < o.ny := Nat.pos_of_ne_zero fun h => by rw [h, Nat.mul_zero] at hxy; exact absurd hxy (Nat.not_lt_zero _)
    have := key (x / o.nz / o.ny) (Nat.div_lt_of_lt_mul (by rwa [Nat.mul_comm o.ny])) (x / o.nz % o.ny) (Nat.mod_lt _ hy) (x % o.nz) (Nat.mod_lt _ hz)
    unfold addr at this
    rwa [Nat.div_add_mod', Nat.div_add_mod'] at this
  · intro p hp hq
    rw [f3 p hp, f2 p (by rw [hN']; exact hp), f1 p hq]

/-- **C62**: a call that is in place exits if the object was constructed out of place, and conversely. -/
theorem C62_exit (o : CFft) (inp : Ptr) (out : Option Ptr) (s : Bool) (m : Mem) (h : ¬((o.inplace = true) ↔ inp = out.getD inp)) :
    o.fft inp out s m = .error .exit ∧ o.fftNormalized inp out s m = .error .exit := by
  unfold fft fftNormalized setout
  rw [if_neg h, if_neg h]
  exact ⟨rfl, rfl⟩

/-! ## Cases meeting the hypotheses -/

/-- Arrays of 12 values, in place and out of place. -/
example : ∃ (f g : Ptr) (m : Mem), Arrays (2 * 2 * 3) true f f m ∧ Arrays (2 * 2 * 3) false f g m := by
  have val : ∀ b i : ℕ, i < 12 → (⟨fun _ => 12, fun _ => 0⟩ : Mem).valid ((⟨b, 0⟩ : Ptr) + i) := by
    intro b i hi
    constructor
    · show (0 : ℤ) ≤ 0 + i; omega
    · show (0 : ℤ) + i < (12 : ℕ); omega
  exact ⟨⟨0, 0⟩, ⟨1, 0⟩, ⟨fun _ => 12, fun _ => 0⟩, ⟨by norm_num, fun i hi => val _ _ hi, fun i hi => val _ _ hi, fun _ => rfl, by simp⟩,
    ⟨by norm_num, fun i hi => val _ _ hi, fun i hi => val _ _ hi, by simp, fun _ a _ b _ => Ptr.ne_of_buf (by show (0 : ℕ) ≠ 1; decide)⟩⟩

/-- A pair of objects of opposite signs. -/
example : Opposite (2 * 2 * 3) true (fft3d 2 2 3 (-1) true) (fft3d 2 2 3 (- -1) true) := .three 2 2 3 (-1) true (Or.inr rfl)

end CFft
end Fftwpp
