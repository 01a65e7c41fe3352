import Verif.Model.Hermitian

/-!
# tests/direct.h, tests/direct.cc: direct (quadratic) convolutions, with which the tests compare the hybrid ones

The nested loops over the outputs are flattened to one list of indices in the order in which the loops take them.  Variables of type `int` and expressions in them are
integers, those of type `size_t` natural numbers.  `T=Complex`.
-/

namespace Fftwpp

/-- A loop that accumulates `sum`. -/
noncomputable def Body.acc {ι : Type} : List ι → (ℂ → ι → Body ℂ) → ℂ → Body ℂ
  | [], _, s => .ret s
  | i :: l, t, s => do
    let s' ← t s i
    Body.acc l t s'

/-- Indices of `for(int i=a; i < b; ++i)`. -/
def irng (a b : ℤ) : List ℤ := (List.range (b - a).toNat).map fun k : ℕ => a + k

namespace Direct

/-- tests/direct.h:19-26 `directconv::convolve(h,f,g)`. -/
noncomputable def conv (m : ℕ) (h f g : Ptr) : Cmd Unit :=
  seqLoop (rng 0 m) fun i => Body.run do
    let sum ← Body.acc (rng 0 (i + 1)) (fun s j => do
      let a ← load (f + j)
      let b ← load (g + (i - j))
      pure (s + a * b)) 0
    store (h + i) sum

/-- tests/direct.h:27-38 `directconv::convolveC(h,f,g)`. -/
noncomputable def convC (m : ℕ) (h f g : Ptr) : Cmd Unit := do
  seqLoop (rng 0 (m / 2)) fun i => Body.run do
    let sum ← Body.acc (rng (i + 1) m) (fun s j => do
      let a ← load (f + j)
      let b ← load (g + (m + i - j))
      pure (s + a * b)) 0
    store (h + (i + (m + 1) / 2)) sum
  seqLoop (rng (m / 2) m) fun i => Body.run do
    let sum ← Body.acc (rng 0 (i + 1)) (fun s j => do
      let a ← load (f + j)
      let b ← load (g + (i - j))
      pure (s + a * b)) 0
    store (h + (i - m / 2)) sum

/-- tests/direct.h:39-46 `directconv::autoconvolve(h,f)`. -/
noncomputable def autoconv (m : ℕ) (h f : Ptr) : Cmd Unit :=
  seqLoop (rng 0 m) fun i => Body.run do
    let sum ← Body.acc (rng 0 (i + 1)) (fun s j => do
      let a ← load (f + j)
      let b ← load (f + (i - j))
      pure (s + a * b)) 0
    store (h + i) sum

/-- tests/direct.cc:5-14 `directconvh::convolve(h,f,g)`. -/
noncomputable def convh (m : ℕ) (h f g : Ptr) : Cmd Unit :=
  seqLoop (rng 0 m) fun i => Body.run do
    let sum ← Body.acc (rng 0 (i + 1)) (fun s j => do
      let a ← load (f + j)
      let b ← load (g + (i - j))
      pure (s + a * b)) 0
    let sum ← Body.acc (rng (i + 1) m) (fun s j => do
      let a ← load (f + j)
      let b ← load (g + (j - i))
      pure (s + a * (starRingEnd ℂ) b)) sum
    let sum ← Body.acc (rng 1 (m - i)) (fun s j => do
      let a ← load (f + j)
      let b ← load (g + (i + j))
      pure (s + (starRingEnd ℂ) a * b)) sum
    store (h + i) sum

/-- tests/direct.h:72-76: the stride `Sx` of the constructor of `directconv2`. -/
def stride (S my : ℕ) : ℕ := if S ≠ 0 then S else my

/-- tests/direct.h:78-89 `directconv2::convolve(h,f,g)`; `S`: the argument `Sx` of the constructor. -/
noncomputable def conv2 (mx my S : ℕ) (h f g : Ptr) : Cmd Unit :=
  let Sx := stride S my
  seqLoop (rng2 0 mx 0 my) fun (i, j) => Body.run do
    let sum ← Body.acc (rng 0 (i + 1)) (fun s k => Body.acc (rng 0 (j + 1)) (fun s p => do
      let a ← load (f + (Sx * k + p))
      let b ← load (g + (Sx * (i - k) + j - p))
      pure (s + a * b)) s) 0
    store (h + (i * my + j)) sum

/-- tests/direct.h:117-146 `directconv3`: `S1`, `S2`: the arguments `Sx`, `Sy` of the constructor. -/
noncomputable def conv3 (mx my mz S1 S2 : ℕ) (h f g : Ptr) : Cmd Unit :=
  let Sy := stride S2 mz
  let Sx := stride S1 (my * Sy)
  let myz := my * mz
  seqLoop (rng3 0 mx 0 my 0 mz) fun (i, j, k) => Body.run do
    let sum ← Body.acc (rng 0 (i + 1)) (fun s r => Body.acc (rng 0 (j + 1)) (fun s p => Body.acc (rng 0 (k + 1)) (fun s q => do
      let a ← load (f + (r * Sx + p * Sy + q))
      let b ← load (g + ((i - r) * Sx + (j - p) * Sy + (k - q)))
      pure (s + a * b)) s) s) 0
    store (h + (i * myz + j * mz + k)) sum

/-- tests/direct.cc:38-41: `(py >= 0) ? f[(xorigin+px)*Sx+py] : conj(f[(xorigin-px)*Sx-py])`. -/
noncomputable def get2 (f : Ptr) (xorigin Sx : ℕ) (px py : ℤ) : Body ℂ :=
  if 0 ≤ py then load (f.addz ((xorigin + px) * Sx + py)) else do
    let v ← load (f.addz ((xorigin - px) * Sx - py))
    pure ((starRingEnd ℂ) v)

/-- tests/direct.cc:16-50 `directconvh2::convolve(h,f,g,symmetrize)`; `S`: the argument `Sx` of the constructor (tests/direct.h:99-102).
Simplification: line 46 stores the partial sum at the end of every iteration of `px` (there are `2*mx-1` of them), the model only stores the last one; the two
differ only if `h` overlaps `f` or `g`. -/
noncomputable def convh2 (mx my : ℕ) (xcompact : Bool) (S : ℕ) (h f g : Ptr) (symmetrize : Bool) : Cmd Unit := do
  let Sx := stride S my
  let xorigin := mx - (if xcompact = true then 1 else 0)
  (if symmetrize = true then do
    hermitianSymmetrizeX' mx my xorigin f
    hermitianSymmetrizeX' mx my xorigin g
  else pure ())
  let x1 : ℤ := -(xorigin : ℤ) + (if xcompact = true then 0 else 1)
  let y1 : ℤ := 1 - (my : ℤ)
  seqLoop ((irng (-(xorigin : ℤ)) mx).product (irng 0 my)) fun (kx, ky) => Body.run do
    let sum ← Body.acc (irng x1 mx) (fun s px => Body.acc (irng y1 my) (fun s py =>
      if x1 ≤ kx - px ∧ kx - px < mx then
        if y1 ≤ ky - py ∧ ky - py < my then do
          let a ← get2 f xorigin Sx px py
          let b ← get2 g xorigin Sx (kx - px) (ky - py)
          pure (s + a * b)
        else pure s
      else pure s) s) 0
    store (h.addz ((xorigin + kx) * my + ky)) sum

/-- tests/direct.cc:84-89: `(pz >= 0) ? f[Sx*(xorigin+px)+Sy*(yorigin+py)+pz] : conj(f[Sx*(xorigin-px)+Sy*(yorigin-py)-pz])`. -/
noncomputable def get3 (f : Ptr) (xorigin yorigin Sx Sy : ℕ) (px py pz : ℤ) : Body ℂ :=
  if 0 ≤ pz then load (f.addz (Sx * (xorigin + px) + Sy * (yorigin + py) + pz)) else do
    let v ← load (f.addz (Sx * (xorigin - px) + Sy * (yorigin - py) - pz))
    pure ((starRingEnd ℂ) v)

/-- tests/direct.cc:52-101 `directconvh3::convolve(h,f,g,symmetrize)`; `S1`, `S2`: the arguments `Sx`, `Sy` of the constructor (tests/direct.h:158-164). -/
noncomputable def convh3 (mx my mz : ℕ) (xcompact ycompact : Bool) (S1 S2 : ℕ) (h f g : Ptr) (symmetrize : Bool) : Cmd Unit := do
  let Sy := stride S2 mz
  let Sx := stride S1 ((2 * my - (if ycompact = true then 1 else 0)) * Sy)
  let xorigin := mx - (if xcompact = true then 1 else 0)
  let yorigin := my - (if ycompact = true then 1 else 0)
  let ny := 2 * my - (if ycompact = true then 1 else 0)
  (if symmetrize = true then do
    hermitianSymmetrizeXY' mx my mz xorigin yorigin f
    hermitianSymmetrizeXY' mx my mz xorigin yorigin g
  else pure ())
  let x1 : ℤ := -(xorigin : ℤ) + (if xcompact = true then 0 else 1)
  let y1 : ℤ := -(yorigin : ℤ) + (if ycompact = true then 0 else 1)
  let z1 : ℤ := 1 - (mz : ℤ)
  seqLoop ((irng (-(xorigin : ℤ)) mx).product ((irng (-(yorigin : ℤ)) my).product (irng 0 mz))) fun (kx, ky, kz) => Body.run do
    let sum ← Body.acc (irng x1 mx) (fun s px => Body.acc (irng y1 my) (fun s py => Body.acc (irng z1 mz) (fun s pz =>
      if x1 ≤ kx - px ∧ kx - px < mx then
        if y1 ≤ ky - py ∧ ky - py < my then
          if z1 ≤ kz - pz ∧ kz - pz < mz then do
            let a ← get3 f xorigin yorigin Sx Sy px py pz
            let b ← get3 g xorigin yorigin Sx Sy (kx - px) (ky - py) (kz - pz)
            pure (s + a * b)
          else pure s
        else pure s
      else pure s) s) s) 0
    store (h.addz (((xorigin + kx) * ny + yorigin + ky) * mz + kz)) sum

end Direct
end Fftwpp
