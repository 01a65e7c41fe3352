import Verif.Proof.MpiConv6
import Verif.Proof.Gen2
import Verif.Proof.Tr

/-!
# Construction of the distributed convolution
-/

namespace Fftwpp
open Finset Net

namespace Conv2

/-- The parts of a `Convolution2` object just constructed, without any relation between the two transforms. -/
structure Parts (fftx ffty : FftBase) (mult : Multiplier) (th : ℕ) (Fu : Option PtrArr) (Vu : Option Ptr) (al : Alloc2)
    (pdx : Mem → Ptr → Prop) (Rd : Conv → Mem → Prop) (o : Conv2) (m : Mem) : Prop where
  fx : o.x.fft = fftx
  fy : o.ffty = ffty
  thr : o.threads = newThreads fftx th
  F : o.x.F = Conv.newF fftx Fu al.x
  W : o.x.W = Conv.newW fftx al.x
  cy : ∀ t < o.threads, (o.convy t).fft = ffty ∧ (o.convy t).mult = mult
  rd : o.ReadyG pdx Rd m
  bufs : ∀ k, o.Bufs k → NewBufs fftx ffty th Fu Vu al k
  sepT : ∀ t < o.threads, ∀ t' < o.threads, t ≠ t' → ∀ k, (o.convy t).Bufs k → ¬ (o.convy t').Bufs k
  sepX : ∀ t < o.threads, ∀ k, o.x.Bufs k → ¬ (o.convy t).Bufs k

theorem newParts_ok {fftx ffty : FftBase} {mult : Multiplier} {x0 : ℤ} {pdx : Mem → Ptr → Prop} {Rd : Conv → Mem → Prop} {BufY : Mem → Alloc → Prop}
    (spx : fftx.Spec x0 pdx) (schx : Outer.Sched fftx x0)
    (hnew : ∀ {m : Mem} {al : Alloc}, BufY m al → (Conv.new ffty mult none none none al).Ok m fun c m' => c.fft = ffty ∧ c.mult = mult ∧
      c.F = Conv.newF ffty none al ∧ c.V = Conv.newV ffty none al ∧ c.W = Conv.newW ffty al ∧ Rd c m' ∧ m.Upd m' (fun p => ∃ W, c.W = some W ∧ p.buf = W.buf))
    (hsize : ∀ {m m' : Mem} {al : Alloc}, BufY m al → m'.size = m.size → BufY m' al)
    (hinv : ∀ c : Conv, c.fft = ffty → c.mult = mult → ∀ {m m' : Mem}, Rd c m → m'.size = m.size → (∀ p : Ptr, c.Bufs p.buf → m'.val p = m.val p) → Rd c m')
    {th : ℕ} {mem : Mem} {Fu : Option PtrArr} {Vu : Option Ptr} {al : Alloc2} (hb : GBuffers fftx ffty BufY th mem Fu Vu al) :
    (Conv2.new fftx ffty mult th Fu none Vu al).Ok mem fun o m' => Parts fftx ffty mult th Fu Vu al pdx Rd o m' ∧
      mem.Upd m' (fun p => NewBufs fftx ffty th Fu Vu al p.buf) := by
  have hbs : ∀ {m' : Mem}, m'.size = mem.size → GBuffers fftx ffty BufY th m' Fu Vu al := fun hs =>
    ⟨hb.x.size hs, fun t ht => hsize (hb.y t ht) hs, hb.sepT, hb.sepX⟩
  unfold Conv2.new
  have hthr : (if fftx.l < th then 1 else th) = newThreads fftx th := rfl
  simp only [hthr]
  refine Cmd.Ok.bind ((newAll_ok (fun t (c : Conv) m => c.fft = ffty ∧ c.mult = mult ∧ c.F = Conv.newF ffty none (al.y t) ∧
      c.V = Conv.newV ffty none (al.y t) ∧ c.W = Conv.newW ffty (al.y t) ∧ Rd c m)
    (fun t p => Conv.NewBufs ffty none none (al.y t) p.buf) ?_ ?_).mono ?_)
  · rintro t t' c ht ht' hne m m' ⟨h1, h2, h3, h4, h5, h6⟩ u
    refine ⟨h1, h2, h3, h4, h5, hinv c h1 h2 h6 u.size ?_⟩
    intro p hp
    exact u.frame p fun hp' => hb.sepT t ht t' ht' hne _ (Conv.bufs_new h1 h3 h4 h5 hp) hp'
  · intro t ht m hs
    refine (hnew ((hbs hs).y t ht)).mono ?_
    rintro c m' ⟨h1, h2, h3, h4, h5, h6, u⟩
    refine ⟨⟨h1, h2, h3, h4, h5, h6⟩, u.mono ?_⟩
    rintro p ⟨W, hW, hp⟩
    rw [h5] at hW
    exact Or.inr (Or.inl ⟨W, hW, hp⟩)
  rintro convy m1 ⟨hc, u1⟩
  refine Cmd.Ok.bind ((Outer.new_ok spx schx (hbs u1.size).x).mono ?_)
  rintro x m2 ⟨g1, g2, g3, g4, g5, u2⟩
  have hxn : ∀ k, x.Bufs k → Conv.NewBufs fftx Fu Vu al.x k := fun k hk => Conv.bufs_newOuter g1 g2 g3 g4 hk
  have hyn : ∀ t < newThreads fftx th, ∀ k, (convy t).Bufs k → Conv.NewBufs ffty none none (al.y t) k := by
    intro t ht k hk
    obtain ⟨h1, h2, h3, h4, h5, h6⟩ := hc t ht
    exact Conv.bufs_new h1 h3 h4 h5 hk
  have hu2 : ∀ p, fftx.InW x.W p → Conv.NewBufs fftx Fu Vu al.x p.buf := by
    rintro p ⟨W, hW, hp⟩
    rw [g4] at hW
    exact Or.inr (Or.inl ⟨W, hW, FftBase.inArr_buf hp⟩)
  refine Cmd.Ok.pure ⟨⟨g1, rfl, rfl, g2, g4, fun t ht => ⟨(hc t ht).1, (hc t ht).2.1⟩, ⟨g5, ?_⟩, ?_, ?_, ?_⟩, u1.trans u2 ?_ ?_⟩
  · intro t ht
    refine hinv _ (hc t ht).1 (hc t ht).2.1 (hc t ht).2.2.2.2.2 u2.size ?_
    intro p hp
    exact u2.frame p fun hp' => hb.sepX t ht _ (hu2 p hp') (hyn t ht _ hp)
  · rintro k (hk | ⟨t, ht, hk⟩)
    · exact Or.inl (hxn k hk)
    · exact Or.inr ⟨t, ht, hyn t ht k hk⟩
  · intro t ht t' ht' hne k hk hk'
    exact hb.sepT t ht t' ht' hne k (hyn t ht k hk) (hyn t' ht' k hk')
  · intro t ht k hk hk'
    exact hb.sepX t ht k (hxn k hk) (hyn t ht k hk')
  · rintro p ⟨t, ht, hp⟩
    exact Or.inr ⟨t, ht, hp⟩
  · intro p hp
    exact Or.inl (hu2 p hp)

end Conv2

namespace Fft

theorem visited_congr {o o' : Fft} (hR : o'.R = o.R) (hi : ∀ r, o'.increment r = o.increment r) (n r : ℕ) : o'.visited n r = o.visited n r := by
  induction n generalizing r with
  | zero => rfl
  | succ n ih => unfold visited; rw [hR, hi, ih]

/-- The members that do not depend on the number of columns. -/
structure Same (o o' : Fft) : Prop where
  q : o'.q = o.q
  D : o'.D = o.D
  ow : o'.overwrite = o.overwrite
  nl : o'.nloops = o.nloops
  M : o'.M = o.M
  l : o'.l = o.l
  res : o'.visited (o'.R + 1) 0 = o.visited (o.R + 1) 0
  ix : o'.index = o.index
  l2 : o'.loop2 = o.loop2
  no : o'.noutputs = o.noutputs

theorem Same.of {o o' : Fft} (q : o'.q = o.q) (p : o'.p = o.p) (n : o'.n = o.n) (m : o'.m = o.m) (D : o'.D = o.D) (D0 : o'.D0 = o.D0) (dr : o'.dr = o.dr)
    (R : o'.R = o.R) (c : o'.centered = o.centered) (ow : o'.overwrite = o.overwrite) (M : o'.M = o.M) (l : o'.l = o.l) (A : o'.A = o.A) (B : o'.B = o.B) :
    Same o o' := by
  have hi : ∀ r, o'.increment r = o.increment r := fun r => by unfold increment conj; rw [dr, p, D, c, D0]
  have hr : o'.visited (o'.R + 1) 0 = o.visited (o.R + 1) 0 := by rw [R]; exact visited_congr R hi _ _
  have hn : o'.nloops = o.nloops := by unfold nloops; rw [hr]
  refine ⟨q, D, ow, hn, M, l, hr, ?_, ?_, ?_⟩
  · funext r i
    unfold index
    rw [q, p, n, m, D, D0, c]
  · unfold loop2; rw [hn, A, B, ow]
  · funext r
    unfold noutputs blocksize
    rw [l, D0, D]

end Fft

namespace Tr

theorem same {cen : Bool} {L M : ℕ} {app : App} {C S C' S' m D : ℕ} {inplace : Bool} {t t' : Tr}
    (h : Tr.new cen L M app C S m D inplace = .ok t) (h' : Tr.new cen L M app C' S' m D inplace = .ok t') : Fft.Same t.fft t'.fft := by
  unfold Tr.new at h h'
  cases cen with
  | false =>
    simp only [Bool.false_eq_true, if_false] at h h'
    cases hn : Fft.new L M app C S m D inplace with
    | error e => rw [hn] at h; simp [Except.map] at h
    | ok o =>
      cases hn' : Fft.new L M app C' S' m D inplace with
      | error e => rw [hn'] at h'; simp [Except.map] at h'
      | ok o' =>
        rw [hn] at h
        rw [hn'] at h'
        simp only [Except.map, Except.ok.injEq] at h h'
        subst h h'
        show Fft.Same o o'
        unfold Fft.new at hn hn'
        generalize parameters L M m false = x at hn hn'
        obtain ⟨p, n, q⟩ := x
        simp only at hn hn'
        generalize (if S = 0 then C else S) = S1 at hn
        generalize (if S' = 0 then C' else S') = S2 at hn'
        split_ifs at hn hn' <;> simp only [Except.ok.injEq] at hn hn' <;> subst hn hn' <;> exact Fft.Same.of rfl rfl rfl rfl rfl rfl rfl rfl rfl rfl rfl rfl rfl rfl
  | true =>
    simp only [if_true] at h h'
    cases hn : Cent.new L M app C S m D inplace with
    | error e => rw [hn] at h; simp [Except.map] at h
    | ok o =>
      cases hn' : Cent.new L M app C' S' m D inplace with
      | error e => rw [hn'] at h'; simp [Except.map] at h'
      | ok o' =>
        rw [hn] at h
        rw [hn'] at h'
        simp only [Except.map, Except.ok.injEq] at h h'
        subst h h'
        show Fft.Same o.toFft o'.toFft
        unfold Cent.new at hn hn'
        generalize parameters L M m true = x at hn hn'
        obtain ⟨p, n, q⟩ := x
        simp only at hn hn'
        generalize (if S = 0 then C else S) = S1 at hn
        generalize (if S' = 0 then C' else S') = S2 at hn'
        split_ifs at hn hn' <;> simp only [Except.ok.injEq] at hn hn' <;> subst hn hn' <;> exact Fft.Same.of rfl rfl rfl rfl rfl rfl rfl rfl rfl rfl rfl rfl rfl rfl

/-- The interface in terms of the members. -/
theorem base_eq (t : Tr) : t.base.N = t.fft.M ∧ t.base.l = t.fft.l ∧ t.base.residues = t.fft.visited (t.fft.R + 1) 0 ∧ t.base.index = t.fft.index ∧
    t.base.loop2 = t.fft.loop2 ∧ t.base.overwrite = t.fft.overwrite ∧ t.base.noutputs = t.fft.noutputs ∧ t.base.nloops = t.fft.nloops ∧
    t.base.blocksize = t.fft.blocksize := by
  cases t <;> exact ⟨rfl, rfl, rfl, rfl, rfl, rfl, rfl, rfl, rfl⟩

end Tr
end Fftwpp
