import Verif.Proof.RLoops

/-! The branches of the transforms of real data for `p≤2`, in a form common to the variants for one copy and for many copies. -/

namespace Fftwpp
namespace Re
variable (o : Re)
local notation "conj" => starRingEnd ℂ

/-- `forward1`, `r=0`. -/
noncomputable def f1Zero (f F W : Ptr) : Cmd Unit :=
  let repad := o.inplace ∨ o.q = 2 ∨ o.L % 2 = 1 ∨ o.C < o.S
  let V := if repad then W else W + o.L / 2 * o.S
  do
  parD (rng2 0 o.L 0 o.C) fun (s, c) => copyD (dptr V + o.S * s + c) (dptr f + o.S * s + c)
  (if repad then parD (rng2 o.L o.m 0 o.C) fun (s, c) => setD (dptr V + o.S * s + c) 0 else pure ())
  o.rcfftm.r2c V F

/-- `forward1`, ordinary residue: the row at `U`. -/
noncomputable def f1Row (f U : Ptr) (r : ℕ) : Cmd Unit := do
  parD (rng2 0 1 0 o.C) fun (_, c) => do
    let v ← getD (dptr f + c)
    setC (U + c) v
  parD (rng2 1 o.L 0 o.C) fun (s, c) => do
    let z ← o.Zetaqm.get (o.m * r + s)
    let v ← getD (dptr f + o.S * s + c)
    setC (U + o.S * s + c) (z * v)
  if o.inplace then parD (rng2 o.L o.m 0 o.C) fun (s, c) => setC (U + o.S * s + c) 0 else pure ()

/-- `forward1`, `2r=q`: the row at `W`. -/
noncomputable def f1Half (f W : Ptr) (r : ℕ) : Cmd Unit :=
  let h := o.e - 1
  let frh := dptr f + o.S * h
  let Lmh := if o.L ≤ h then 0 else o.L - h
  let stop := if o.L ≤ h then o.L else h
  do
  (if o.L ≤ h then parD (rng2 0 1 0 o.C) fun (_, c) => do
     let v ← getD (dptr f + c)
     setC (W + c) v
   else parD (rng2 0 1 0 o.C) fun (_, c) => do
     let x ← getD (dptr f + c)
     let y ← getD (frh + c)
     setC (W + c) ⟨x, y⟩)
  parD (rng2 1 Lmh 0 o.C) fun (s, c) => do
    let z ← o.Zetaqm.get (o.m * r + s)
    let x ← getD (dptr f + o.S * s + c)
    let y ← getD (frh + o.S * s + c)
    setC (W + o.S * s + c) (z * ⟨x, y⟩)
  parD (rng2 Lmh stop 0 o.C) fun (s, c) => do
    let z ← o.Zetaqm.get (o.m * r + s)
    let v ← getD (dptr f + o.S * s + c)
    setC (W + o.S * s + c) (z * v)
  if o.inplace then parD (rng2 o.L h 0 o.C) fun (s, c) => setC (W + o.S * s + c) 0 else pure ()

/-- `forward2`, `r=0`. -/
noncomputable def f2Zero (f F W : Ptr) : Cmd Unit :=
  let frm := dptr f + o.S * o.m
  let Lm := o.L - o.m
  do
  parD (rng2 0 Lm 0 o.C) fun (s, c) => do
    let x ← getD (dptr f + o.S * s + c)
    let y ← getD (frm + o.S * s + c)
    setD (dptr W + o.S * s + c) (x + y)
  parD (rng2 Lm o.m 0 o.C) fun (s, c) => copyD (dptr W + o.S * s + c) (dptr f + o.S * s + c)
  o.rcfftm.r2c W F

/-- `forward2`, ordinary residue. -/
noncomputable def f2Row (f U : Ptr) (r : ℕ) : Cmd Unit :=
  let frm := dptr f + o.S * o.m
  let Lm := o.L - o.m
  do
  parD (rng2 0 1 0 o.C) fun (_, c) => do
    let z2 ← o.ZetaqmS.get (Lm * r + o.m)
    let x ← getD (dptr f + c)
    let y ← getD (frm + c)
    setC (U + c) (x + z2 * y)
  parD (rng2 1 Lm 0 o.C) fun (s, c) => do
    let z ← o.Zetaqm.get (o.m * r + s)
    let z2 ← o.ZetaqmS.get (Lm * r + o.m + s)
    let x ← getD (dptr f + o.S * s + c)
    let y ← getD (frm + o.S * s + c)
    setC (U + o.S * s + c) (z * x + z2 * y)
  parD (rng2 Lm o.m 0 o.C) fun (s, c) => do
    let z ← o.Zetaqm.get (o.m * r + s)
    let x ← getD (dptr f + o.S * s + c)
    setC (U + o.S * s + c) (z * x)

/-- `forward2`, `2r=q`. -/
noncomputable def f2Half (f W : Ptr) (r : ℕ) : Cmd Unit :=
  let frm := dptr f + o.S * o.m
  let h := o.e - 1
  let frh := dptr f + o.S * h
  let frhm := frh + o.S * o.m
  let mh := o.m + h
  let stop1 := if mh < o.L then o.L - mh else 1
  let stop2 := if mh < o.L then h else o.L - o.m
  do
  (if mh < o.L then parD (rng2 0 1 0 o.C) fun (_, c) => do
     let x ← getD (dptr f + c)
     let xm ← getD (frm + c)
     let y ← getD (frh + c)
     let ym ← getD (frhm + c)
     setC (W + c) ⟨x - xm, y - ym⟩
   else parD (rng2 0 1 0 o.C) fun (_, c) => do
     let x ← getD (dptr f + c)
     let xm ← getD (frm + c)
     let y ← getD (frh + c)
     setC (W + c) ⟨x - xm, y⟩)
  parD (rng2 1 stop1 0 o.C) fun (s, c) => do
    let z ← o.Zetaqm.get (o.m * r + s)
    let x ← getD (dptr f + o.S * s + c)
    let xm ← getD (frm + o.S * s + c)
    let y ← getD (frh + o.S * s + c)
    let ym ← getD (frhm + o.S * s + c)
    setC (W + o.S * s + c) (z * ⟨x - xm, y - ym⟩)
  parD (rng2 stop1 stop2 0 o.C) fun (s, c) => do
    let z ← o.Zetaqm.get (o.m * r + s)
    let x ← getD (dptr f + o.S * s + c)
    let xm ← getD (frm + o.S * s + c)
    let y ← getD (frh + o.S * s + c)
    setC (W + o.S * s + c) (z * ⟨x - xm, y⟩)
  parD (rng2 stop2 h 0 o.C) fun (s, c) => do
    let z ← o.Zetaqm.get (o.m * r + s)
    let x ← getD (dptr f + o.S * s + c)
    let y ← getD (frh + o.S * s + c)
    setC (W + o.S * s + c) (z * ⟨x, y⟩)

/-- `backward1`, ordinary residue: the row at `U`. -/
noncomputable def b1Row (f U : Ptr) (r : ℕ) : Cmd Unit := do
  parD (rng2 0 1 0 o.C) fun (_, c) => do
    let v ← getC (U + c)
    incD (dptr f + c) (2 * v.re)
  parD (rng2 1 o.L 0 o.C) fun (s, c) => do
    let z ← o.Zetaqm.get (o.m * r + s)
    let v ← getC (U + o.S * s + c)
    incD (dptr f + o.S * s + c) (2 * realProduct z v)

/-- `backward1`, `2r=q`. -/
noncomputable def b1Half (f W : Ptr) (r : ℕ) : Cmd Unit :=
  let h := o.e - 1
  let frh := dptr f + o.S * h
  let Lmh := if o.L ≤ h then 1 else o.L - h
  let stop := if o.L ≤ h then o.L else h
  do
  (if o.L ≤ h then parD (rng2 0 1 0 o.C) fun (_, c) => do
     let z ← getC (W + c)
     incD (dptr f + c) (2 * z.re)
   else parD (rng2 0 1 0 o.C) fun (_, c) => do
     let z ← getC (W + c)
     incD (dptr f + c) (2 * z.re)
     incD (frh + c) (2 * z.im))
  parD (rng2 1 Lmh 0 o.C) fun (s, c) => do
    let zeta ← o.Zetaqm.get (o.m * r + s)
    let v ← getC (W + o.S * s + c)
    let z := 2 * conj zeta * v
    incD (dptr f + o.S * s + c) z.re
    incD (frh + o.S * s + c) z.im
  parD (rng2 Lmh stop 0 o.C) fun (s, c) => do
    let zeta ← o.Zetaqm.get (o.m * r + s)
    let v ← getC (W + o.S * s + c)
    incD (dptr f + o.S * s + c) (2 * realProduct zeta v)

/-- `backward2`, ordinary residue. -/
noncomputable def b2Row (f U : Ptr) (r : ℕ) : Cmd Unit :=
  let Lm := o.L - o.m
  do
  parD (rng2 0 1 0 o.C) fun (_, c) => do
    let v ← getC (U + c)
    incD (dptr f + c) (2 * v.re)
  parD (rng2 1 o.m 0 o.C) fun (s, c) => do
    let z ← o.Zetaqm.get (o.m * r + s)
    let v ← getC (U + o.S * s + c)
    incD (dptr f + o.S * s + c) (2 * realProduct z v)
  parD (rng2 o.m o.L 0 o.C) fun (s, c) => do
    let z ← o.ZetaqmS.get (Lm * r + s)
    let v ← getC (U - o.S * o.m + o.S * s + c)
    incD (dptr f + o.S * s + c) (2 * realProduct z v)

/-- `backward2`, `2r=q`. -/
noncomputable def b2Half (f W : Ptr) (r : ℕ) : Cmd Unit :=
  let h := o.e - 1
  let mh := o.m + h
  let frh := dptr f + o.S * h
  let frm := dptr f + o.S * o.m
  let frhm := frh + o.S * o.m
  let stop1 := if mh < o.L then o.L - mh else 1
  let stop2 := if mh < o.L then h else o.L - o.m
  do
  (if mh < o.L then parD (rng2 0 1 0 o.C) fun (_, c) => do
     let v ← getC (W + c)
     let z0 := 2 * v
     incD (dptr f + c) z0.re
     incD (frm + c) (-z0.re)
     incD (frh + c) z0.im
     incD (frhm + c) (-z0.im)
   else parD (rng2 0 1 0 o.C) fun (_, c) => do
     let v ← getC (W + c)
     let z0 := 2 * v
     incD (dptr f + c) z0.re
     incD (frm + c) (-z0.re)
     incD (frh + c) z0.im)
  parD (rng2 1 stop1 0 o.C) fun (s, c) => do
    let zeta ← o.Zetaqm.get (o.m * r + s)
    let v ← getC (W + o.S * s + c)
    let z := 2 * conj zeta * v
    incD (dptr f + o.S * s + c) z.re
    incD (frh + o.S * s + c) z.im
    incD (frm + o.S * s + c) (-z.re)
    incD (frhm + o.S * s + c) (-z.im)
  parD (rng2 stop1 stop2 0 o.C) fun (s, c) => do
    let zeta ← o.Zetaqm.get (o.m * r + s)
    let v ← getC (W + o.S * s + c)
    let z := 2 * conj zeta * v
    incD (dptr f + o.S * s + c) z.re
    incD (frh + o.S * s + c) z.im
    incD (frm + o.S * s + c) (-z.re)
  parD (rng2 stop2 h 0 o.C) fun (s, c) => do
    let zeta ← o.Zetaqm.get (o.m * r + s)
    let v ← getC (W + o.S * s + c)
    let z := 2 * conj zeta * v
    incD (dptr f + o.S * s + c) z.re
    incD (frh + o.S * s + c) z.im

variable {o} {f F : Ptr} {r : ℕ} {W? : Option Ptr}

/-- The copy of the inverse transform for `r=0` (both `p`). -/
noncomputable def b1Copy (o : Re) (f W : Ptr) : Cmd Unit :=
  parD (rng2 0 o.L 0 o.C) fun (s, c) => copyD (dptr f + o.S * s + c) (dptr W + o.S * s + c)

noncomputable def b2Copy (o : Re) (f W : Ptr) : Cmd Unit := do
  parD (rng2 0 o.m 0 o.C) fun (s, c) => copyD (dptr f + o.S * s + c) (dptr W + o.S * s + c)
  parD (rng2 o.m o.L 0 o.C) fun (s, c) => copyD (dptr f + o.S * s + c) (dptr W - o.S * o.m + o.S * s + c)

theorem realProduct_two (z v : ℂ) : realProduct (2 * z) v = 2 * realProduct z v := by
  unfold realProduct; simp; ring

theorem forward1Many_eq : o.forward1Many f F r W? = if r = 0 then o.f1Zero f F (W?.getD F) else if 2 * r < o.q then
    (o.f1Row f (W?.getD F) r >>= fun _ => o.fftm.exec (W?.getD F) F) else
    (o.f1Half f (W?.getD F) r >>= fun _ => o.ffth.exec (W?.getD F) F) := by
  unfold forward1Many f1Zero f1Row f1Half
  simp only [parD_first, Cmd.bind_bind]

theorem forward2Many_eq (hm : o.Sm = o.S * o.m) : o.forward2Many f F r W? = if r = 0 then o.f2Zero f F (W?.getD F) else if 2 * r < o.q then
    (o.f2Row f (W?.getD F) r >>= fun _ => o.fftm.exec (W?.getD F) F) else
    (o.f2Half f (W?.getD F) r >>= fun _ => o.ffth.exec (W?.getD F) F) := by
  unfold forward2Many f2Zero f2Row f2Half
  simp only [parD_first, Cmd.bind_bind, hm]

theorem backward1Many_eq : o.backward1Many F f r W? = if r = 0 then
      (o.crfftm.c2r F (W?.getD F) >>= fun _ => o.b1Copy f (W?.getD F)) else if 2 * r < o.q then
    (o.ifftm.exec F (W?.getD F) >>= fun _ => o.b1Row f (W?.getD F) r) else
    (o.iffth.exec F (W?.getD F) >>= fun _ => o.b1Half f (W?.getD F) r) := by
  unfold backward1Many b1Copy b1Row b1Half
  simp only [parD_first, Cmd.bind_bind, realProduct_two]

theorem backward2Many_eq (hm : o.Sm = o.S * o.m) : o.backward2Many F f r W? = if r = 0 then
      (o.crfftm.c2r F (W?.getD F) >>= fun _ => o.b2Copy f (W?.getD F)) else if 2 * r < o.q then
    (o.ifftm.exec F (W?.getD F) >>= fun _ => o.b2Row f (W?.getD F) r) else
    (o.iffth.exec F (W?.getD F) >>= fun _ => o.b2Half f (W?.getD F) r) := by
  unfold backward2Many b2Copy b2Row b2Half
  simp only [parD_first, Cmd.bind_bind, realProduct_two, hm]

/-- Number of residues of an ordinary call. -/
def nd (o : Re) (r : ℕ) : ℕ := if r = 1 ∧ o.D0 ≠ o.D then o.D0 else o.D

theorem forward1_eq (hS : o.S = 1) (hC : o.C = 1) : o.forward1 f F r W? = if r = 0 then o.f1Zero f F (W?.getD F) else if 2 * r < o.q then
    (seqLoop (rng 0 (o.nd r)) (fun d => o.f1Row f (W?.getD F + o.m * d) (r + d)) >>= fun _ =>
      (if r = 1 ∧ o.D0 ≠ o.D then o.fftm0 else o.fftm).exec (W?.getD F) F) else
    (o.f1Half f (W?.getD F) r >>= fun _ => o.ffth.exec (W?.getD F) F) := by
  unfold forward1 f1Zero f1Row f1Half nd
  simp only [runD_eq, hS, hC, parD_one, Nat.one_mul, Nat.mul_one, Ptr.add_zero, Cmd.bind_bind, Nat.lt_irrefl, or_false]

theorem forward2_eq (hS : o.S = 1) (hC : o.C = 1) : o.forward2 f F r W? = if r = 0 then o.f2Zero f F (W?.getD F) else if 2 * r < o.q then
    (seqLoop (rng 0 (o.nd r)) (fun d => o.f2Row f (W?.getD F + o.m * d) (r + d)) >>= fun _ =>
      (if r = 1 ∧ o.D0 ≠ o.D then o.fftm0 else o.fftm).exec (W?.getD F) F) else
    (o.f2Half f (W?.getD F) r >>= fun _ => o.ffth.exec (W?.getD F) F) := by
  unfold forward2 f2Zero f2Row f2Half nd
  simp only [runD_eq, hS, hC, parD_one, Nat.one_mul, Nat.mul_one, Ptr.add_zero, Cmd.bind_bind]

theorem backward1_eq (hS : o.S = 1) (hC : o.C = 1) : o.backward1 F f r W? = if r = 0 then
      (o.crfftm.c2r F (W?.getD F) >>= fun _ => o.b1Copy f (W?.getD F)) else if 2 * r < o.q then
    ((if r = 1 ∧ o.D0 ≠ o.D then o.ifftm0 else o.ifftm).exec F (W?.getD F) >>= fun _ =>
      seqLoop (rng 0 (o.nd r)) (fun d => o.b1Row f (W?.getD F + o.m * d) (r + d))) else
    (o.iffth.exec F (W?.getD F) >>= fun _ => o.b1Half f (W?.getD F) r) := by
  unfold backward1 b1Copy b1Row b1Half nd
  simp only [runD_eq, hS, hC, parD_one, Nat.one_mul, Nat.mul_one, Ptr.add_zero, Cmd.bind_bind]

theorem backward2_eq (hS : o.S = 1) (hC : o.C = 1) : o.backward2 F f r W? = if r = 0 then
      (o.crfftm.c2r F (W?.getD F) >>= fun _ => o.b2Copy f (W?.getD F)) else if 2 * r < o.q then
    ((if r = 1 ∧ o.D0 ≠ o.D then o.ifftm0 else o.ifftm).exec F (W?.getD F) >>= fun _ =>
      seqLoop (rng 0 (o.nd r)) (fun d => o.b2Row f (W?.getD F + o.m * d) (r + d))) else
    (o.iffth.exec F (W?.getD F) >>= fun _ => o.b2Half f (W?.getD F) r) := by
  have e : ∀ (x : Ptr) (a : ℝ), (incD x a >>= fun _ => (pure () : Body Unit)) = incD x a := fun _ _ => rfl
  unfold backward2 b2Copy b2Row b2Half nd
  by_cases hmh : o.m + (o.e - 1) < o.L
  · simp only [runD_eq, hS, hC, parD_one, Nat.one_mul, Nat.mul_one, Ptr.add_zero, Cmd.bind_bind, if_pos hmh]
  · simp only [runD_eq, hS, hC, parD_one, Nat.one_mul, Nat.mul_one, Ptr.add_zero, Cmd.bind_bind, if_neg hmh, e]

end Re
end Fftwpp
