import Verif.Proof.MpiSlab6
import Verif.Proof.MpiConv7
import Verif.Proof.Gen3

/-!
# Construction of the distributed three-dimensional convolution
-/

namespace Fftwpp
open Finset Net

namespace Conv3MPI

/-- The buffers of the work arrays of an object to be constructed. -/
def NewBufs (fftx ffty fftz : FftBase) (th thy : ℕ) (Fu : Option PtrArr) (Vu : Option Ptr) (al : Alloc3) (k : ℕ) : Prop :=
  Conv.NewBufs fftx Fu Vu al.x k ∨
    ∃ t < Conv2.newThreads fftx th, Conv2.NewBufs ffty fftz (Conv3.newThreadsY fftx th thy) none none (al.yz t) k

/-- The work arrays have the documented sizes and are distinct. -/
structure BBuffers (fftx ffty fftz : FftBase) (BufY : Mem → Alloc → Prop) (th thy : ℕ) (mem : Mem) (Fu : Option PtrArr) (Vu : Option Ptr) (al : Alloc3) : Prop where
  x : Outer.Buffers fftx mem Fu Vu al.x
  yz : ∀ t < Conv2.newThreads fftx th, Conv2.GBuffers ffty fftz BufY (Conv3.newThreadsY fftx th thy) mem none none (al.yz t)
  sepT : ∀ t < Conv2.newThreads fftx th, ∀ t' < Conv2.newThreads fftx th, t ≠ t' → ∀ k,
    Conv2.NewBufs ffty fftz (Conv3.newThreadsY fftx th thy) none none (al.yz t) k →
    ¬ Conv2.NewBufs ffty fftz (Conv3.newThreadsY fftx th thy) none none (al.yz t') k
  sepX : ∀ t < Conv2.newThreads fftx th, ∀ k, Conv.NewBufs fftx Fu Vu al.x k →
    ¬ Conv2.NewBufs ffty fftz (Conv3.newThreadsY fftx th thy) none none (al.yz t) k

/-- The parts of the base object just constructed. -/
structure Parts (fftx ffty fftz : FftBase) (th thy : ℕ) (Fu : Option PtrArr) (Vu : Option Ptr) (al : Alloc3) (y0 : ℤ)
    (pdx pdy : Mem → Ptr → Prop) (Ψ : List ℕ → ℕ → (ℕ → ℕ → ℂ) → ℕ → ℂ) (P : (ℕ → ℕ → ℂ) → Prop) (Rd : Conv → Mem → Prop) (o : Conv3) (m : Mem) : Prop where
  fx : o.x.fft = fftx
  fy : o.ffty = ffty
  fz : o.fftz = fftz
  thr : o.threads = Conv2.newThreads fftx th
  F : o.x.F = Conv.newF fftx Fu al.x
  W : o.x.W = Conv.newW fftx al.x
  cyz : ∀ t < o.threads, (o.convyz t).x.fft = ffty ∧ (o.convyz t).ffty = fftz ∧
    (o.convyz t).threads = Conv2.newThreads ffty (Conv3.newThreadsY fftx th thy) ∧ (o.convyz t).Gen y0 pdy Ψ P Rd
  rd : o.ReadyG pdx pdy Rd m
  bufs : ∀ k, o.Bufs k → NewBufs fftx ffty fftz th thy Fu Vu al k
  sepT : ∀ t < o.threads, ∀ t' < o.threads, t ≠ t' → ∀ k, (o.convyz t).Bufs k → ¬ (o.convyz t').Bufs k
  sepX : ∀ t < o.threads, ∀ k, o.x.Bufs k → ¬ (o.convyz t).Bufs k

theorem newParts_ok {fftx ffty fftz : FftBase} {mult : Multiplier} {x0 y0 : ℤ} {pdx pdy : Mem → Ptr → Prop} {Ψ : List ℕ → ℕ → (ℕ → ℕ → ℂ) → ℕ → ℂ}
    {P : (ℕ → ℕ → ℂ) → Prop} {Rd : Conv → Mem → Prop} {BufY : Mem → Alloc → Prop}
    (spx : fftx.Spec x0 pdx) (schx : Outer.Sched fftx x0) (hyz : Conv2.GFits ffty fftz mult y0 pdy Ψ P Rd BufY)
    {th thy : ℕ} {mem : Mem} {Fu : Option PtrArr} {Vu : Option Ptr} {al : Alloc3} (hb : BBuffers fftx ffty fftz BufY th thy mem Fu Vu al) :
    (Conv3MPI.newBase fftx ffty fftz mult th thy Fu none Vu al).Ok mem fun o m' => Parts fftx ffty fftz th thy Fu Vu al y0 pdx pdy Ψ P Rd o m' ∧
      mem.Upd m' (fun p => NewBufs fftx ffty fftz th thy Fu Vu al p.buf) := by
  have hbs : ∀ {m' : Mem}, m'.size = mem.size → BBuffers fftx ffty fftz BufY th thy m' Fu Vu al := fun hs =>
    ⟨hb.x.size hs, fun t ht => (hb.yz t ht).size hyz hs, hb.sepT, hb.sepX⟩
  unfold Conv3MPI.newBase
  have hthr : (if fftx.l < th then 1 else th) = Conv2.newThreads fftx th := rfl
  have hthy : (if fftx.l < th then th else thy) = Conv3.newThreadsY fftx th thy := rfl
  simp only [hthr, hthy]
  refine Cmd.Ok.bind ((Outer.new_ok spx schx hb.x).mono ?_)
  rintro x m1 ⟨g1, g2, g3, g4, g5, u1⟩
  have hxn : ∀ k, x.Bufs k → Conv.NewBufs fftx Fu Vu al.x k := fun k hk => Conv.bufs_newOuter g1 g2 g3 g4 hk
  have hu1 : ∀ p, fftx.InW x.W p → Conv.NewBufs fftx Fu Vu al.x p.buf := by
    rintro p ⟨W, hW, hp⟩
    rw [g4] at hW
    exact Or.inr (Or.inl ⟨W, hW, FftBase.inArr_buf hp⟩)
  refine Cmd.Ok.bind ((newAll_ok (fun t (c : Conv2) m => (c.x.fft = ffty ∧ c.ffty = fftz ∧
      c.threads = Conv2.newThreads ffty (Conv3.newThreadsY fftx th thy)) ∧ c.Gen y0 pdy Ψ P Rd ∧ c.ReadyG pdy Rd m ∧
      ∀ k, c.Bufs k → Conv2.NewBufs ffty fftz (Conv3.newThreadsY fftx th thy) none none (al.yz t) k)
    (fun t p => Conv2.NewBufs ffty fftz (Conv3.newThreadsY fftx th thy) none none (al.yz t) p.buf) ?_ ?_).mono ?_)
  · rintro t t' c ht ht' hne m m' ⟨h1, h2, h3, h4⟩ u
    refine ⟨h1, h2, Conv2.ReadyG.bufs h2 h3 u.size ?_, h4⟩
    intro p hp
    exact u.frame p fun hp' => hb.sepT t ht t' ht' hne _ (h4 _ hp) hp'
  · intro t ht m hs
    refine (Conv2.newG_ok hyz ((hbs (hs.trans u1.size)).yz t ht)).mono ?_
    rintro c m' ⟨h1, h2, h3, h4, h5, h6, u⟩
    exact ⟨⟨⟨h1, h2, h3⟩, h4, h5, h6⟩, u⟩
  rintro convyz m2 ⟨hc, u2⟩
  refine Cmd.Ok.pure ⟨⟨g1, rfl, rfl, rfl, g2, g4, fun t ht => ⟨(hc t ht).1.1, (hc t ht).1.2.1, (hc t ht).1.2.2, (hc t ht).2.1⟩, ⟨?_, fun t ht => (hc t ht).2.2.1⟩,
    ?_, ?_, ?_⟩, u1.trans u2 ?_ ?_⟩
  · refine g5.bufs (by rw [g1]; exact spx) u2.size fun p hp => u2.frame p ?_
    rintro ⟨t, ht, hp'⟩
    exact hb.sepX t ht _ (hxn _ hp) hp'
  · rintro k (hk | ⟨t, ht, hk⟩)
    · exact Or.inl (hxn k hk)
    · exact Or.inr ⟨t, ht, (hc t ht).2.2.2 k hk⟩
  · intro t ht t' ht' hne k hk hk'
    exact hb.sepT t ht t' ht' hne k ((hc t ht).2.2.2 k hk) ((hc t' ht').2.2.2 k hk')
  · intro t ht k hk hk'
    exact hb.sepX t ht k (hxn k hk) ((hc t ht).2.2.2 k hk')
  · intro p hp
    exact Or.inl (hu1 p hp)
  · rintro p ⟨t, ht, hp⟩
    exact Or.inr ⟨t, ht, hp⟩

end Conv3MPI
end Fftwpp
