import Verif.Model.Mem

/-!
# convolve.h:1139-1236: enforcing Hermitian symmetry of centered data
-/

namespace Fftwpp

/-- `p+i` for a signed offset. -/
def Ptr.addz (p : Ptr) (i : ℤ) : Ptr := ⟨p.buf, p.off + i⟩

/-- `F[0].im=0.0`. -/
noncomputable def clearIm (F : Ptr) : Body Unit := do
  let v ← load F
  store F (v.re : ℂ)

/-- convolve.h:1140-1143 `HermitianSymmetrize(f)`. -/
noncomputable def hermitianSymmetrize (f : Ptr) : Cmd Unit := (clearIm f).run

/-- convolve.h:1146-1169 `HermitianSymmetrizeX(Hx,Hy,x0,f,Sx)`.  The loop `for(i=Sx; i < Hx*Sx; i += Sx)` runs over `i=s*Sx`,
`1 ≤ s < Hx` (`Sx > 0`). -/
noncomputable def hermitianSymmetrizeX (Hx Hy x0 : ℕ) (f : Ptr) (Sx : ℕ) : Cmd Unit := do
  let F := f + x0 * Sx
  par (rng 1 Hx) fun s => do
    let v ← load (F + s * Sx)
    store (F - s * Sx) ((starRingEnd ℂ) v)
  (clearIm F).run
  if x0 = Hx then
    par (rng 0 Hy) fun j => store (f + j) 0
  else pure ()

/-- convolve.h:1171-1175 `HermitianSymmetrizeX(Hx,Hy,x0,f)`. -/
noncomputable def hermitianSymmetrizeX' (Hx Hy x0 : ℕ) (f : Ptr) : Cmd Unit := hermitianSymmetrizeX Hx Hy x0 f Hy

/-- convolve.h:1179-1227 `HermitianSymmetrizeXY(Hx,Hy,Hz,x0,y0,f,Sx,Sy)`.  The loop
`for(ptrdiff_t i=(-Hx+1)*Sx; i < Hx*Sx; i += Sx)` runs over `i=(s-(Hx-1))*Sx`, `s < 2*Hx-1`, and
`for(j=Sy; j < Sy*Hy; j += Sy)` over `j=t*Sy`, `1 ≤ t < Hy` (`Sx,Sy > 0`); nested loops are flattened to index pairs, all
of which may run concurrently (the code only runs different `i` concurrently). -/
noncomputable def hermitianSymmetrizeXY (Hx Hy Hz x0 y0 : ℕ) (f : Ptr) (Sx Sy : ℕ) : Cmd Unit := do
  let origin := x0 * Sx + y0 * Sy
  let F := f + origin
  par (rng 1 Hx) fun s => do
    let v ← load (F + s * Sx)
    store (F - s * Sx) ((starRingEnd ℂ) v)
  (clearIm F).run
  par (rng2 0 (2 * Hx - 1) 1 Hy) fun (s, t) => do
    let i : ℤ := ((s : ℤ) - (Hx - 1)) * Sx
    let v ← load (f.addz (origin + i + t * Sy))
    store (f.addz (origin - i - t * Sy)) ((starRingEnd ℂ) v)
  (if x0 = Hx then
    par (rng2 0 (y0 + Hy) 0 Hz) fun (j, k) => store (f + (Sy * j + k)) 0
  else pure ())
  (if y0 = Hy then
    par (rng2 0 (x0 + Hx) 0 Hz) fun (i, k) => store (f + (Sx * i + k)) 0
  else pure ())

/-- convolve.h:1229-1236 `HermitianSymmetrizeXY(Hx,Hy,Hz,x0,y0,f)`. -/
noncomputable def hermitianSymmetrizeXY' (Hx Hy Hz x0 y0 : ℕ) (f : Ptr) : Cmd Unit :=
  hermitianSymmetrizeXY Hx Hy Hz x0 y0 f ((y0 + Hy) * Hz) Hz

end Fftwpp
