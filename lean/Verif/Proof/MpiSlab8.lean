import Verif.Proof.MpiSlab7
import Verif.Proof.MpiConv8

/-!
# Histories of calls of the distributed convolution
-/

namespace Fftwpp
open Finset Net DConv

namespace Conv3MPI

/-- The buffers of the work arrays of a process' object. -/
def Bufs (o : Conv3MPI) (k : ℕ) : Prop := o.c.Bufs k ∨ ∃ a < max o.c.x.fft.A o.c.x.fft.B, k = (o.wrk a).buf

/-- For every residue, `subconvolution` runs the inner convolution of every row of the process exactly once, each in an existing thread; likewise the
parallel loops of the inner convolutions. -/
def LegalS (o : Conv3MPI) (s : ℕ → Sch3) : Prop := ∀ rx ∈ o.c.x.fft.residues, (s rx).row.Legal o.x o.c.threads ∧
  ∀ i < o.x, ∀ t < o.c.threads, (o.c.convyz t).LegalS ((s rx).inner i)

/-- The arguments of `convolve`: the arrays exist, do not overlap and are none of the work arrays. -/
structure Inputs (o : Conv3MPI) (mem : Mem) (f : PtrArr) (off : ℕ) : Prop where
  n : o.c.x.fft.A ≤ f.n
  bf : ∀ a < o.c.x.fft.A, mem.block (f.at_ a + off) (o.c.x.fft.S * o.c.x.fft.L)
  apart : o.c.x.fft.Apart f off o.c.x.fft.A
  buf : ∀ a < o.c.x.fft.A, ¬ o.Bufs (f.at_ a).buf

theorem Inputs.size {o : Conv3MPI} {m m' : Mem} {f : PtrArr} {off : ℕ} (h : o.Inputs m f off) (hs : m'.size = m.size) : o.Inputs m' f off :=
  ⟨h.n, fun a ha => FftBase.block_size hs (h.bf a ha), h.apart, h.buf⟩

/-- What the user does between constructing the objects and the call in question: process `r` writes a word of its memory, or all processes
call `convolve`. -/
inductive Step where
  | write (r : ℕ) (p : Ptr) (v : ℂ)
  | call (s : ℕ → ℕ → Sch3) (f : ℕ → PtrArr) (off : ℕ → ℕ)

/-- A step, in process `r` (a write by another process is an empty computation). -/
noncomputable def stepProg (M : ℕ → Conv3MPI) (r : ℕ) : Step → Prog ℂ Unit
  | .write q p v => runCmd (if r = q then (store p v).run else pure ())
  | .call s f off => (M r).convolve (s r) (f r) (off r)

/-- A history of steps, in process `r`. -/
noncomputable def stepsProg (M : ℕ → Conv3MPI) (r : ℕ) : List Step → Prog ℂ Unit
  | [] => .ret ()
  | s :: l => (stepProg M r s).bind fun _ => stepsProg M r l

/-- The user writes outside the work arrays of the objects. -/
def Allowed (P : ℕ) (M : ℕ → Conv3MPI) (mem : ℕ → Mem) : Step → Prop
  | .write q p _ => q < P ∧ (mem q).valid p ∧ ¬ (M q).Bufs p.buf
  | .call s f off => ∀ r < P, (M r).LegalS (s r) ∧ (M r).Inputs (mem r) (f r) (off r)

end Conv3MPI

namespace DConv3

variable {P X Y H Z optA alltoall : ℕ} {M : ℕ → Conv3MPI} {x0 : ℤ} {pdx : ℕ → Mem → Ptr → Prop} {L N A B : ℕ} {res : List ℕ} {ix : ℕ → ℕ → ℕ}
  {e : Eager} {g : ℕ → Mem} {Φ : ℕ → ℕ → (ℕ → ℕ → ℂ) → ℕ → ℂ} {T : ℕ → ℕ → Prop} {Inv : ℕ → Mem → Prop}
  {Dm : (ℕ → ℕ → ℂ) → Prop}

/-- Some global data are held. -/
theorem holds_exists (hP : 0 < P) (g : ℕ → Mem) (f : ℕ → PtrArr) (off : ℕ → ℕ) : ∃ D : ℕ → ℕ → ℕ → ℂ, ∀ a, Holds P H Z L g f off D a := by
  classical
  refine ⟨fun a j c => if h : c / Z < H then (g (owner hP h).choose).val ((f (owner hP h).choose).at_ a + off (owner hP h).choose +
    (wd H Z P (owner hP h).choose * j + (c - st H Z P (owner hP h).choose))) else 0, ?_⟩
  intro a r hr j hj c hc
  have hZ : 0 < Z := by
    rcases Nat.eq_zero_or_pos Z with rfl | h
    · simp [wd] at hc
    · exact h
  have hcp : c / Z < part H P r := Nat.div_lt_of_lt_mul (by rw [Nat.mul_comm]; exact hc)
  have hdiv : (st H Z P r + c) / Z = first H P r + c / Z := by
    unfold st
    rw [Nat.mul_comm, Nat.mul_add_div hZ]
  have hlt : (st H Z P r + c) / Z < H := by rw [hdiv]; exact first_lt hP hr hcp
  beta_reduce
  rw [dif_pos hlt]
  obtain ⟨h1, h2, h3⟩ := (owner hP hlt).choose_spec
  have he : (owner hP hlt).choose = r := (ld_has H P hP).2.2.1 _ h1 r hr _ h2 h3 (by rw [hdiv]; exact Nat.le_add_right _ _)
    (by rw [hdiv]; show _ < first H P r + part H P r; omega)
  rw [he, Nat.add_sub_cancel_left]

/-- Everything about the objects that does not change. -/
structure Obj (P X Y H Z optA alltoall : ℕ) (M : ℕ → Conv3MPI) (x0 : ℤ) (pdx : ℕ → Mem → Ptr → Prop) (L N A B : ℕ) (res : List ℕ)
    (ix : ℕ → ℕ → ℕ) (Φ : ℕ → ℕ → (ℕ → ℕ → ℂ) → ℕ → ℂ) (T : ℕ → ℕ → Prop) (Inv : ℕ → Mem → Prop) (Dm : (ℕ → ℕ → ℂ) → Prop) (l2 : Bool) (Ny Nz : ℕ) : Prop where
  d : DConv3 P X Y H Z optA alltoall M x0 pdx L N A B res ix
  sub : ∀ s : ℕ → ℕ → Conv3MPI.Sch3, (∀ r < P, (M r).LegalS (s r)) → SubSpec P X Y M A B res ix s Φ T Inv Dm
  inv : ∀ r < P, ∀ m m' : Mem, Inv r m → m'.size = m.size → (∀ p : Ptr, T r p.buf → m'.val p = m.val p) → Inv r m'
  sc : ∀ r < P, Outer.Sched (M r).c.x.fft x0
  l2 : ∀ r < P, (M r).c.x.fft.loop2 = l2
  Ny : ∀ r < P, (M r).c.ffty.N = Ny
  Nz : ∀ r < P, (M r).c.fftz.N = Nz
  ob : ∀ r < P, ∀ k, OB A B M T r k → (M r).Bufs k

variable {l2 : Bool} {Ny Nz : ℕ}

theorem Obj.inputs (h : Obj P X Y H Z optA alltoall M x0 pdx L N A B res ix Φ T Inv Dm l2 Ny Nz) {f : ℕ → PtrArr} {off : ℕ → ℕ}
    (hi : ∀ r < P, (M r).Inputs (g r) (f r) (off r)) : DInputs P M A B T g f off := by
  refine ⟨fun r hr => ?_, fun r hr a ha => ?_, fun r hr => ?_, fun r hr a ha => ?_⟩
  · have := (hi r hr).n; rwa [h.d.A r hr] at this
  · exact (hi r hr).bf a (by rw [h.d.A r hr]; exact ha)
  · have := (hi r hr).apart; rwa [h.d.A r hr] at this
  · exact fun hb => (hi r hr).buf a (by rw [h.d.A r hr]; exact ha) (h.ob r hr _ hb)

theorem Obj.call_ok (h : Obj P X Y H Z optA alltoall M x0 pdx L N A B res ix Φ T Inv Dm l2 Ny Nz) {s : ℕ → ℕ → Conv3MPI.Sch3} (hs : ∀ r < P, (M r).LegalS (s r))
    {f : ℕ → PtrArr} {off : ℕ → ℕ} (hr : DReady P X Y H Z M A B pdx T Inv g) (hi : ∀ r < P, (M r).Inputs (g r) (f r) (off r))
    {D : ℕ → ℕ → ℕ → ℂ} (hD : ∀ a < A, Holds P H Z L g f off D a) :
    NOk e P (fun r => (M r).convolve (s r) (f r) (off r)) g fun g' =>
      DReady P X Y H Z M A B pdx T Inv g' ∧
      (∀ r < P, (g r).Upd (g' r) fun p => (M r).Bufs p.buf ∨ ∃ b < B, (M r).c.x.fft.Data ((f r).at_ b + off r) p) ∧
      (GoodD Dm L N x0 D → ∀ r < P, ∀ b < B, ∀ j < L, ∀ c < wd H Z P r, (g' r).val ((f r).at_ b + off r + (wd H Z P r * j + c)) =
        valD L N x0 Φ D b j (st H Z P r + c) * (1 / ((N : ℂ) * ((Ny : ℂ) * (Nz : ℂ))))) := by
  refine (h.d.convolve_ok (h.sub s hs) h.sc h.l2 h.Ny h.Nz hr (h.inputs hi) hD).mono ?_
  rintro g' ⟨r1, u1, e1⟩
  refine ⟨r1, fun r hr => (u1 r hr).mono ?_, e1⟩
  rintro p (hp | hp)
  · exact Or.inl (h.ob r hr _ hp)
  · exact Or.inr hp

/-- Histories. -/
theorem Obj.history_ok (h : Obj P X Y H Z optA alltoall M x0 pdx L N A B res ix Φ T Inv Dm l2 Ny Nz) (steps : List Conv3MPI.Step) {g : ℕ → Mem}
    (hr : DReady P X Y H Z M A B pdx T Inv g) (hst : ∀ s ∈ steps, Conv3MPI.Allowed P M g s) :
    NOk e P (fun r => Conv3MPI.stepsProg M r steps) g fun g' => DReady P X Y H Z M A B pdx T Inv g' ∧ ∀ r < P, (g' r).size = (g r).size := by
  induction steps generalizing g with
  | nil => exact NOk.ret ⟨hr, fun _ _ => rfl⟩
  | cons s l ih =>
    refine NOk.bind (Q1 := fun g' => DReady P X Y H Z M A B pdx T Inv g' ∧ ∀ r < P, (g' r).size = (g r).size) ?_ ?_
    · have ha := hst s (by simp)
      cases s with
      | write q p v =>
        obtain ⟨hq, hv, hb⟩ := ha
        refine NOk.cmd (R := fun r m' => m'.size = (g r).size ∧ ∀ p' : Ptr, (M r).Bufs p'.buf → m'.val p' = (g r).val p') ?_ ?_
        · intro r hrP
          by_cases hrq : r = q
          · subst hrq
            rw [if_pos rfl]
            refine run_map1 (body := store p v) p v ?_ ?_ ?_
            · body_simp
              exact hv
            · body_simp
            intro m2 u2 e2
            refine ⟨u2.size, u2.size, ?_⟩
            intro p' hp'
            refine u2.frame _ ?_
            rintro rfl
            exact hb hp'
          · rw [if_neg hrq]
            exact Cmd.Ok.pure ⟨rfl, rfl, fun _ _ => rfl⟩
        · intro g' hg'
          exact ⟨hr.bufs h.d h.inv (fun r hrP => (hg' r hrP).1) fun r hrP p' hp' => (hg' r hrP).2 p' (h.ob r hrP _ hp'),
            fun r hrP => (hg' r hrP).1⟩
      | call s f off =>
        obtain ⟨D, hD⟩ := holds_exists (H := H) (Z := Z) (L := L) h.d.P_pos g f off
        refine (h.call_ok (fun r hrP => (ha r hrP).1) hr (fun r hrP => (ha r hrP).2) fun a _ => hD a).mono ?_
        rintro g' ⟨r1, u1, _⟩
        exact ⟨r1, fun r hrP => (u1 r hrP).size⟩
    · rintro g' ⟨r1, s1⟩
      refine (ih r1 fun st hstm => ?_).mono ?_
      · have := hst st (by simp [hstm])
        cases st with
        | write q p v => exact ⟨this.1, Mem.valid_of_size (s1 q this.1) this.2.1, this.2.2⟩
        | call s f off => exact fun r hrP => ⟨(this r hrP).1, (this r hrP).2.size (s1 r hrP)⟩
      · rintro g2 ⟨r2, s2⟩
        exact ⟨r2, fun r hrP => by rw [s2 r hrP, s1 r hrP]⟩

end DConv3

end Fftwpp
