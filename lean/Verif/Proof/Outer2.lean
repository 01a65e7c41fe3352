import Verif.Proof.Outer

/-! The common part of `Convolution2` and `Convolution3`. -/

namespace Fftwpp
open Finset

/-- A loop copying or scaling words. -/
theorem map_loop2 {n : ℕ} {dst src : ℕ → Ptr} {body : ℕ → Body Unit} {v : ℂ → ℂ} {mem : Mem}
    (hg : ∀ i < n, ∀ m : Mem, m.size = mem.size → (body i).Good m)
    (hw : ∀ i < n, ∀ m : Mem, (body i).wrs m = [(dst i, v (m.val (src i)))])
    (hinj : ∀ i < n, ∀ j < n, dst i = dst j → i = j)
    (hsd : (∀ i, src i = dst i) ∨ ∀ i < n, ∀ j < n, src i ≠ dst j) :
    (seqLoop (rng 0 n) fun i => (body i).run).Ok mem fun _ m' => mem.Upd m' (fun p => ∃ i < n, p = dst i) ∧
      ∀ i < n, m'.val (dst i) = v (mem.val (src i)) := by
  refine Fft.seqLoop_rng (fun k m1 => mem.Upd m1 (fun p => ∃ i < n, p = dst i) ∧ (∀ i < k, m1.val (dst i) = v (mem.val (src i))) ∧
    ∀ i < n, k ≤ i → m1.val (src i) = mem.val (src i)) ⟨Mem.Upd.refl _ _, fun _ h => absurd h (by omega), fun _ _ _ => rfl⟩ ?_ ?_
  · rintro k m1 hk ⟨u1, e1, s1⟩
    refine run_map1 _ _ (hg k hk m1 u1.size) (hw k hk m1) ?_
    intro m2 u2 e2
    refine ⟨u1.trans u2 (fun _ h => h) (fun p hp => ⟨k, hk, hp⟩), ?_, ?_⟩
    · intro i hi
      by_cases hik : i = k
      · subst hik; rw [e2, s1 i hk le_rfl]
      · rw [u2.frame _ (fun e => hik (hinj i (by omega) k hk e)), e1 i (by omega)]
    · intro i hi hki
      rw [u2.frame, s1 i hi (by omega)]
      rcases hsd with h | h
      · rw [h]; exact fun e => by have := hinj i hi k hk e; omega
      · exact h i hi k hk
  · rintro m ⟨u, e, _⟩
    exact ⟨u, e⟩

/-- Copying the results back. -/
theorem copyWords_ok {n B : ℕ} {pos : ℕ → ℕ} {mem : Mem} {f h : PtrArr} {off : ℕ} (hfn : B ≤ f.n) (hhn : B ≤ h.n)
    (hinj : ∀ i < n, ∀ j < n, pos i = pos j → i = j)
    (hvf : ∀ b < B, ∀ k < n, mem.valid (f.at_ b + off + pos k)) (hvh : ∀ b < B, ∀ k < n, mem.valid (h.at_ b + pos k))
    (hfh : ∀ b < B, ∀ b' < B, (f.at_ b).buf ≠ (h.at_ b').buf)
    (hap : ∀ b < B, ∀ b' < B, b ≠ b' → ∀ k < n, ∀ k' < n, f.at_ b + off + pos k ≠ f.at_ b' + off + pos k') :
    (copyWords n pos B f h off).Ok mem fun _ m' => mem.Upd m' (fun p => ∃ b < B, ∃ k < n, p = f.at_ b + off + pos k) ∧
      ∀ b < B, ∀ k < n, m'.val (f.at_ b + off + pos k) = mem.val (h.at_ b + pos k) := by
  unfold copyWords
  refine Fft.seqLoop_rng (fun b0 m1 => mem.Upd m1 (fun p => ∃ b < B, ∃ k < n, p = f.at_ b + off + pos k) ∧
      ∀ b < b0, ∀ k < n, m1.val (f.at_ b + off + pos k) = mem.val (h.at_ b + pos k))
      ⟨Mem.Upd.refl _ _, fun _ h => absurd h (by omega)⟩ ?_ (fun _ h => h)
  rintro b m1 hb ⟨u1, e1⟩
  rw [PtrArr.get_bind (by omega), PtrArr.get_bind (by omega)]
  refine (map_loop2 (dst := fun k => f.at_ b + off + pos k) (src := fun k => h.at_ b + pos k) (v := fun x => x) ?_ ?_ ?_ (Or.inr ?_)).mono ?_
  · intro i hi m hs
    have hs := hs.trans u1.size
    unfold Fft.copy1
    have e : f.at_ b + (off + pos i) = f.at_ b + off + pos i := by ext <;> simp; ring
    body_simp
    rw [e]
    exact ⟨Mem.valid_of_size hs (hvh b hb i hi), Mem.valid_of_size hs (hvf b hb i hi)⟩
  · intro i hi m
    unfold Fft.copy1
    body_simp
  · intro i hi j hj e
    refine hinj i hi j hj ?_
    have : (f.at_ b + off).off + (pos i : ℤ) = (f.at_ b + off).off + (pos j : ℤ) := congrArg Ptr.off e
    omega
  · intro i hi j hj e
    exact hfh b hb b hb (by simpa using (congrArg Ptr.buf e).symm)
  rintro _ m2 ⟨u2, e2⟩
  refine ⟨u1.trans u2 (fun _ h => h) (fun p ⟨k, hk, hp⟩ => ⟨b, hb, k, hk, hp⟩), ?_⟩
  intro b' hb' k hk
  by_cases hbb : b' = b
  · subst hbb
    rw [e2 k hk, u1.frame]
    rintro ⟨b2, hb2, k2, hk2, e⟩
    exact hfh b2 hb2 b' hb (by simpa using (congrArg Ptr.buf e).symm)
  · rw [u2.frame, e1 b' (by omega) k hk]
    rintro ⟨k2, hk2, e⟩
    exact hap b' (by omega) b hb hbb k hk k2 hk2 e

/-- Scaling the results. -/
theorem scaleWords_ok {n B : ℕ} {pos : ℕ → ℕ} {scale : ℂ} {mem : Mem} {f : PtrArr} {off : ℕ} (hfn : B ≤ f.n)
    (hinj : ∀ i < n, ∀ j < n, pos i = pos j → i = j)
    (hvf : ∀ b < B, ∀ k < n, mem.valid (f.at_ b + off + pos k))
    (hap : ∀ b < B, ∀ b' < B, b ≠ b' → ∀ k < n, ∀ k' < n, f.at_ b + off + pos k ≠ f.at_ b' + off + pos k') :
    (scaleWords n pos B scale f off).Ok mem fun _ m' => mem.Upd m' (fun p => ∃ b < B, ∃ k < n, p = f.at_ b + off + pos k) ∧
      ∀ b < B, ∀ k < n, m'.val (f.at_ b + off + pos k) = mem.val (f.at_ b + off + pos k) * scale := by
  unfold scaleWords
  refine Fft.seqLoop_rng (fun b0 m1 => mem.Upd m1 (fun p => ∃ b < b0, ∃ k < n, p = f.at_ b + off + pos k) ∧
      ∀ b < b0, ∀ k < n, m1.val (f.at_ b + off + pos k) = mem.val (f.at_ b + off + pos k) * scale)
      ⟨Mem.Upd.refl _ _, fun _ h => absurd h (by omega)⟩ ?_ (fun _ h => h)
  rintro b m1 hb ⟨u1, e1⟩
  rw [PtrArr.get_bind (by omega)]
  refine (map_loop2 (dst := fun k => f.at_ b + off + pos k) (src := fun k => f.at_ b + off + pos k) (v := fun x => x * scale)
    ?_ ?_ ?_ (Or.inl fun _ => rfl)).mono ?_
  · intro i hi m hs
    have hs := hs.trans u1.size
    have e : f.at_ b + (off + pos i) = f.at_ b + off + pos i := by ext <;> simp; ring
    body_simp
    rw [e]
    exact ⟨Mem.valid_of_size hs (hvf b hb i hi), Mem.valid_of_size hs (hvf b hb i hi)⟩
  · intro i hi m
    body_simp
  · intro i hi j hj e
    refine hinj i hi j hj ?_
    have : (f.at_ b + off).off + (pos i : ℤ) = (f.at_ b + off).off + (pos j : ℤ) := congrArg Ptr.off e
    omega
  rintro _ m2 ⟨u2, e2⟩
  refine ⟨u1.trans u2 (fun p ⟨b', hb', h'⟩ => ⟨b', by omega, h'⟩) (fun p ⟨k, hk, hp⟩ => ⟨b, by omega, k, hk, hp⟩), ?_⟩
  intro b' hb' k hk
  by_cases hbb : b' = b
  · subst hbb
    rw [e2 k hk, u1.frame]
    rintro ⟨b2, hb2, k2, hk2, e⟩
    exact hap b' hb b2 (by omega) (by omega) k hk k2 hk2 e
  · rw [u2.frame, e1 b' (by omega) k hk]
    rintro ⟨k2, hk2, e⟩
    exact hap b' (by omega) b hb hbb k hk k2 hk2 e

namespace Outer
variable {c : Outer} {x0 : ℤ} {padded : Mem → Ptr → Prop}

/-- `V` is used. -/
def UsesV (c : Outer) : Prop := 1 < c.fft.nloops ∧ c.fft.loop2 = false

/-- The state of the object between calls. -/
structure Ready (c : Outer) (padded : Mem → Ptr → Prop) (mem : Mem) : Prop where
  work : c.fft.Work mem c.F (max c.fft.A c.fft.B) c.W
  pd : FftBase.Pd padded c.W mem
  l2 : c.fft.loop2 = true → c.W0 = c.W ∧ c.fft.A ≤ c.Fp.n ∧
    ∀ i < c.fft.A, c.Fp.at_ i = if i < c.fft.A - c.fft.B then c.F.at_ (c.fft.B + i) else c.F.at_ (i - (c.fft.A - c.fft.B))
  V : c.UsesV → c.fft.Dat mem c.V 0 c.fft.B c.F (max c.fft.A c.fft.B) c.W ∧ c.fft.Apart c.V 0 c.fft.B

/-- The buffers of the work arrays of the object. -/
def Bufs (c : Outer) (k : ℕ) : Prop :=
  (∃ a < max c.fft.A c.fft.B, k = (c.F.at_ a).buf) ∨ (∃ W, c.W = some W ∧ k = W.buf) ∨
    c.UsesV ∧ ∃ b < c.fft.B, k = (c.V.at_ b).buf

theorem Ready.size {mem m' : Mem} (h : c.Ready padded mem) (hs : m'.size = mem.size) (hp : FftBase.Pd padded c.W m') :
    c.Ready padded m' :=
  ⟨h.work.size hs, hp, h.l2, fun hu => ⟨(h.V hu).1.size hs, (h.V hu).2⟩⟩

theorem Ready.frame (hsp : c.fft.Spec x0 padded) {mem m' : Mem} (h : c.Ready padded mem) {R : Ptr → Prop} (u : mem.Upd m' R)
    (hR : ∀ p, R p → ¬ c.fft.InW c.W p) : c.Ready padded m' := by
  refine h.size u.size ?_
  intro W hW
  refine hsp.pad_frame ?_ (h.pd W hW)
  intro i hi
  refine u.frame _ fun hp => hR _ hp ⟨W, hW, i, hi, rfl⟩

/-- The state depends on the work arrays only. -/
theorem Ready.bufs (hsp : c.fft.Spec x0 padded) {mem m' : Mem} (h : c.Ready padded mem) (hs : m'.size = mem.size)
    (hv : ∀ p : Ptr, c.Bufs p.buf → m'.val p = mem.val p) : c.Ready padded m' := by
  refine h.size hs ?_
  intro W hW
  refine hsp.pad_frame ?_ (h.pd W hW)
  intro i _
  exact hv _ (Or.inr (Or.inl ⟨W, hW, rfl⟩))

/-- The side conditions under which the schedules are right. -/
structure Sched (o : FftBase) (x0 : ℤ) : Prop where
  ow : o.overwrite = true → ∃ freq, o.OwSpec x0 freq
  BA : o.B ≤ o.A
  l2 : o.loop2 = true → o.A = o.B + 1 ∧ o.residues = [0, o.incr0]

/-- The arguments of `convolveRaw`. -/
structure Inputs (c : Outer) (mem : Mem) (f : PtrArr) (off : ℕ) : Prop where
  n : c.fft.A ≤ f.n
  bf : ∀ a < c.fft.A, mem.block (f.at_ a + off) (c.fft.S * c.fft.L)
  apart : c.fft.Apart f off c.fft.A
  buf : ∀ a < c.fft.A, ¬ c.Bufs (f.at_ a).buf
  ow : c.fft.overwrite = true → ∀ a < c.fft.A, ∀ a' < c.fft.A, a ≠ a' → (f.at_ a).buf ≠ (f.at_ a').buf

theorem Sched.outs_le {o : FftBase} (hs : Sched o x0) : o.B ≤ o.outs := by
  unfold FftBase.outs
  split_ifs
  · exact hs.BA
  · exact le_rfl

theorem Sched.outs_le_A {o : FftBase} (hs : Sched o x0) : o.outs ≤ o.A := by
  unfold FftBase.outs
  split_ifs
  · exact le_rfl
  · exact hs.BA

theorem Inputs.dat (hi : c.Inputs mem f off) (hBA : c.fft.B ≤ c.fft.A) : c.fft.Dat mem f off c.fft.A c.F (max c.fft.A c.fft.B) c.W := by
  refine ⟨hi.n, hi.bf, ?_, ?_⟩
  · intro a ha a' ha' e
    exact hi.buf a ha (Or.inl ⟨a', ha', e⟩)
  · intro a ha W hW e
    exact hi.buf a ha (Or.inr (Or.inl ⟨W, hW, e.symm⟩))

theorem cond_isSome (W : Option Ptr) {α : Type} (x y : Cmd α) [Decidable (W ≠ none ∧ True)] :
    (if W ≠ none ∧ True then x else y) = if W.isSome then x else y := by
  cases W <;> simp

/-- What `subconvolution` must do in the overwriting schedule. -/
def OwSub (c : Outer) (x0 : ℤ) (sub : PtrArr → ℕ → ℕ → Cmd Unit) (Φ : ℕ → ℕ → (ℕ → ℕ → ℂ) → ℕ → ℂ) (T : ℕ → Prop) (Inv : Mem → Prop)
    (P : (ℕ → ℕ → ℂ) → Prop := fun _ => True) : Prop :=
  ∀ {freq}, c.fft.OwSpec x0 freq → ∀ {size : ℕ → ℕ} {F : PtrArr} {off0 r : ℕ}, r < c.fft.n → c.fft.A ≤ F.n →
    (∀ a < c.fft.A, ∀ i < c.fft.l, ∀ m : Mem, m.size = size → m.block (F.at_ a + off0 + c.fft.S * i) c.fft.S) →
    (∀ a < c.fft.A, ∀ a' < c.fft.A, a ≠ a' → (F.at_ a).buf ≠ (F.at_ a').buf) → (∀ a < c.fft.A, ¬ T (F.at_ a).buf) →
    c.fft.OwOp freq (sub F r off0) Φ T Inv size
      (fun a p => ∃ i < c.fft.l, ∃ k < c.fft.C, p = F.at_ a + off0 + (c.fft.S * i + c.fft.col k))
      (fun a i k => F.at_ a + off0 + (c.fft.S * i + c.fft.col k)) r P

/-- The overwriting schedule. -/
theorem overwrite_ok {freq : ℕ → ℕ → ℕ} (h : c.fft.OwSpec x0 freq) (how : c.fft.overwrite = true) {sub : PtrArr → ℕ → ℕ → Cmd Unit}
    {Φ T Inv P} (hop : c.fft.OpSpec (fun F r => sub F r 0) Φ T Inv P) (hsub : c.OwSub x0 sub Φ T Inv P) {mem : Mem} {f : PtrArr} {off : ℕ}
    (hr : c.Ready padded mem) (hi : c.Inputs mem f off) (hI : Inv mem) (hTB : ∀ k, c.Bufs k → ¬ T k)
    (hTf : ∀ a < c.fft.A, ¬ T (f.at_ a).buf) :
    (c.rawOverwrite sub f off).Ok mem fun _ m' =>
      mem.Upd m' (fun p => T p.buf ∨ c.Bufs p.buf ∨ ∃ b < c.fft.A, c.fft.Data (f.at_ b + off) p) ∧ c.Ready padded m' ∧ Inv m' ∧
      (c.fft.Good x0 P mem f off → ∀ b < c.fft.B, ∀ j < c.fft.L, ∀ k < c.fft.C,
        m'.val (f.at_ b + off + (c.fft.S * j + c.fft.col k)) = c.fft.result x0 Φ mem f off b j k) := by
  have hmax : max c.fft.A c.fft.B = c.fft.A := max_eq_left h.BA
  have hW : c.W = none := by
    have := hr.work.bW
    rwa [if_pos h.inpl] at this
  have hwk := hr.work
  have hd := hi.dat h.BA
  rw [hmax] at hwk hd
  have hargs : c.fft.OwArgs mem f off c.F := by
    refine ⟨hd.n, hwk.n, ?_, ?_, hd.fF, hwk.sep, hi.apart⟩
    · rintro a ha p ⟨j, hj, k, hk, rfl⟩
      exact hi.bf a ha _ (radix_lt (h.col_lt k hk) hj)
    · intro a ha p hp
      obtain ⟨i, hi', rfl⟩ := hp.inArr h.col_lt
      exact hwk.bF a ha i hi'
  have hbwd : c.backward c.F f 0 0 c.fft.B off c.W = bwdAll c.fft c.W c.F f 0 0 c.fft.B off := by
    unfold backward
    rw [hW]
    funext m
    rw [Cmd.bind_apply]
    simp only [ne_eq, not_true_eq_false, false_and, if_false]
    cases bwdAll c.fft none c.F f 0 0 c.fft.B off m with
    | error e => rfl
    | ok x => rfl
  have hTF : ∀ a < c.fft.A, ¬ T (c.F.at_ a).buf := fun a ha => hTB _ (Or.inl ⟨a, by rw [hmax]; exact ha, rfl⟩)
  have hadd : ∀ a r i k : ℕ, f.at_ a + (off + c.fft.S * r * c.fft.l) + (c.fft.S * i + k) = f.at_ a + off + (c.fft.S * (c.fft.l * r + i) + k) := by
    intro a r i k; ext <;> simp; ring
  unfold rawOverwrite
  simp only [hbwd]
  refine (FftBase.owRaw_ok h hargs 0 0 c.W c.W hop.congr hop.dom (fun h1 h2 h3 => hop.inv h1 h2 h3) hTf hTF ?_ ?_ hI).mono ?_
  · intro r hr'
    have := hsub h (size := mem.size) (F := f) (off0 := off + c.fft.S * r * c.fft.l) (r := r) (by omega) hi.n ?_ (hi.ow how) hTf
    · simp only [hadd] at this
      exact this
    · intro a ha i hi' m hsz k hk
      have e : f.at_ a + (off + c.fft.S * r * c.fft.l) + c.fft.S * i + k = f.at_ a + off + (c.fft.S * (c.fft.l * r + i) + k) := by
        ext <;> simp; ring
      rw [e]
      refine Mem.valid_of_size hsz (hi.bf a ha _ (radix_lt hk ?_))
      rw [h.L_eq, Nat.mul_comm (c.fft.n - 1)]
      exact radix_lt hi' hr'
  · have := hsub h (size := mem.size) (F := c.F) (off0 := 0) (r := c.fft.n - 1) (by have := h.n_pos; omega) hwk.n ?_ hwk.sep hTF
    · simp only [Conv.Ptr.add0] at this
      refine ⟨?_⟩
      intro m hm hI'
      refine (this.ok hm hI').mono ?_
      rintro _ m' ⟨I', u, e⟩
      refine ⟨I', u.mono ?_, e⟩
      rintro p (h1 | ⟨a, ha, i, hi', k, hk, rfl⟩)
      · exact Or.inl h1
      · exact Or.inr ⟨a, ha, (h.cols (F := c.F.at_ a) hi' hk).inArr h.col_lt⟩
    · intro a ha i hi' m hsz k hk
      have e : (c.F.at_ a + (0 : ℕ) + c.fft.S * i + k : Ptr) = c.F.at_ a + (c.fft.S * i + k) := by ext <;> simp; ring
      rw [e]
      refine Mem.valid_of_size hsz (hwk.bF a ha _ ?_)
      rw [h.out]
      exact radix_lt hk hi'
  · rintro _ m' ⟨u, I', e⟩
    refine ⟨u.mono ?_, hr.size u.size ?_, I', e⟩
    · rintro p (h1 | ⟨a, ha, h1 | h1⟩)
      · exact Or.inl h1
      · exact Or.inr (Or.inr ⟨a, ha, h1⟩)
      · exact Or.inr (Or.inl (Or.inl ⟨a, by rw [hmax]; exact ha, FftBase.inArr_buf h1⟩))
    · intro W hW'
      rw [hW] at hW'
      simp at hW'

/-- `convolveRaw`, given `subconvolution` and the loop copying the results. -/
theorem raw_ok (h : c.fft.Spec x0 padded) (hs : Sched c.fft x0) {sub : PtrArr → ℕ → ℕ → Cmd Unit} {copy : PtrArr → PtrArr → Cmd Unit}
    {Φ T Inv P} (hop : c.fft.OpSpec (fun F r => sub F r 0) Φ T Inv P)
    (hsub : c.fft.overwrite = true → c.OwSub x0 sub Φ T Inv P) {mem : Mem} {f : PtrArr} {off : ℕ}
    (hr : c.Ready padded mem) (hi : c.Inputs mem f off) (hI : Inv mem) (hTB : ∀ k, c.Bufs k → ¬ T k)
    (hTf : ∀ a < c.fft.A, ¬ T (f.at_ a).buf)
    (hcopy : c.UsesV → ∀ m1 : Mem, m1.size = mem.size → (copy f c.V).Ok m1 fun _ m2 =>
      m1.Upd m2 (fun p => ∃ b < c.fft.B, c.fft.Data (f.at_ b + off) p) ∧
      ∀ b < c.fft.B, ∀ j < c.fft.L, ∀ k < c.fft.C, m2.val (f.at_ b + off + (c.fft.S * j + c.fft.col k)) =
        m1.val (c.V.at_ b + (c.fft.S * j + c.fft.col k))) :
    (c.convolveRaw sub copy f off).Ok mem fun _ m' =>
      mem.Upd m' (fun p => T p.buf ∨ c.Bufs p.buf ∨ ∃ b < c.fft.outs, c.fft.Data (f.at_ b + off) p) ∧ c.Ready padded m' ∧ Inv m' ∧
      (c.fft.Good x0 P mem f off → ∀ b < c.fft.B, ∀ j < c.fft.L, ∀ k < c.fft.C,
        m'.val (f.at_ b + off + (c.fft.S * j + c.fft.col k)) = c.fft.result x0 Φ mem f off b j k) := by
  have hBA := hs.BA
  have hmax : max c.fft.A c.fft.B = c.fft.A := max_eq_left hBA
  have hts : c.fft.TSep c.F c.W T :=
    ⟨fun a ha => hTB _ (Or.inl ⟨a, ha, rfl⟩), fun W hW => hTB _ (Or.inr (Or.inl ⟨W, hW, rfl⟩))⟩
  have hd := hi.dat hBA
  have hWk : ∀ p, c.fft.Wk c.F c.W T p → T p.buf ∨ c.Bufs p.buf := by
    rintro p (hp | ⟨a, ha, hp⟩ | ⟨W, hW, hp⟩)
    · exact Or.inl hp
    · exact Or.inr (Or.inl ⟨a, ha, FftBase.inArr_buf hp⟩)
    · exact Or.inr (Or.inr (Or.inl ⟨W, hW, FftBase.inArr_buf hp⟩))
  unfold convolveRaw
  by_cases how : c.fft.overwrite = true
  · rw [if_pos how]
    obtain ⟨freq, ho⟩ := hs.ow how
    have houts : c.fft.outs = c.fft.A := by unfold FftBase.outs; rw [how]; rfl
    rw [houts]
    exact overwrite_ok ho how hop (hsub how) hr hi hI hTB hTf
  rw [if_neg how]
  replace how : c.fft.overwrite = false := by simpa using how
  have houts : c.fft.outs = c.fft.B := by unfold FftBase.outs; rw [how]; rfl
  rw [houts]
  by_cases hl : c.fft.loop2 = true
  · rw [if_pos hl]
    obtain ⟨hA1, hres⟩ := hs.l2 hl
    obtain ⟨hW0, hFpn, hFp⟩ := hr.l2 hl
    have hwk := hr.work
    rw [hmax] at hwk hd
    unfold rawLoop2 backward
    rw [hW0]
    simp only [cond_isSome]
    refine (FftBase.loop2_ok h how hop rfl (by omega) (by rw [hA1]; simp) hres hFpn hFp hwk hd hi.apart hts hTf hr.pd hI).mono ?_
    rintro _ m1 ⟨u1, p1, I1, e1⟩
    refine ⟨u1.mono ?_, hr.size u1.size p1, I1, e1⟩
    rintro p (hp | hp)
    · rcases hWk p hp with h1 | h1
      · exact Or.inl h1
      · exact Or.inr (Or.inl h1)
    · exact Or.inr (Or.inr hp)
  · rw [if_neg hl]
    have hl' : c.fft.loop2 = false := by simpa using hl
    have hbw : c.fft.BackW c.F c.W c.W c.W.isSome := Or.inl ⟨rfl, rfl⟩
    unfold rawGeneric backward
    simp only [cond_isSome]
    by_cases hnl : 1 < c.fft.nloops
    · simp only [if_pos hnl]
      have hV : c.UsesV := ⟨hnl, hl'⟩
      obtain ⟨hdV, haV⟩ := hr.V hV
      have hVb : ∀ b < c.fft.B, c.Bufs (c.V.at_ b).buf := fun b hb => Or.inr (Or.inr ⟨hV, b, hb, rfl⟩)
      refine Cmd.Ok.bind ((FftBase.loop_ok h how hop hr.work hd hdV haV hts hTf (fun b hb => hTB _ (hVb b hb)) hbw (Or.inr ?_)
        hr.pd hI).mono ?_)
      · intro a ha b hb p h1 h2
        have e1 := FftBase.data_buf h1
        have e2 := FftBase.data_buf h2
        simp only [Ptr.add_buf] at e1 e2
        exact hi.buf a ha (by rw [← e1, e2]; exact hVb b hb)
      rintro _ m1 ⟨u1, p1, I1, e1⟩
      refine (hcopy hV m1 u1.size).mono ?_
      rintro _ m2 ⟨u2, e2⟩
      have hfb : ∀ p, (∃ b < c.fft.B, c.fft.Data (f.at_ b + off) p) → ∃ a < c.fft.A, p.buf = (f.at_ a).buf := by
        rintro p ⟨b, hb, hp⟩
        exact ⟨b, by omega, by simpa using FftBase.data_buf hp⟩
      refine ⟨u1.trans u2 ?_ (fun p hp => Or.inr (Or.inr hp)), ?_, ?_, ?_⟩
      · rintro p (hp | ⟨b, hb, hp⟩)
        · rcases hWk p hp with h1 | h1
          · exact Or.inl h1
          · exact Or.inr (Or.inl h1)
        · refine Or.inr (Or.inl ?_)
          have := FftBase.data_buf hp
          simp only [Ptr.add_buf] at this
          rw [this]; exact hVb b hb
      · refine (hr.size u1.size p1).frame h u2 ?_
        rintro p hp ⟨W, hW, hp2⟩
        obtain ⟨a, ha, e⟩ := hfb p hp
        exact hi.buf a ha (Or.inr (Or.inl ⟨W, hW, by rw [← e, FftBase.inArr_buf hp2]⟩))
      · refine hop.inv I1 u2.size fun p hp => u2.frame p fun hp2 => ?_
        obtain ⟨a, ha, e⟩ := hfb p hp2
        rw [e] at hp
        exact hTf a ha hp
      · intro hG b hb j hj k hk
        have := e1 hG b hb j hj k hk
        rw [Conv.Ptr.add0] at this
        rw [e2 b hb j hj k hk, this]
    · simp only [if_neg hnl]
      have hres : c.fft.residues = [0] := by
        obtain ⟨rest, e, _⟩ := h.res0
        have := h.nl
        rw [e] at this
        simp at this
        have : rest = [] := by
          cases rest with
          | nil => rfl
          | cons a l => simp at this; omega
        rw [e, this]
      have hdB := hd.mono hBA le_rfl
      refine Cmd.Ok.bind ((FftBase.loop_ok h how hop hr.work hd hdB (fun a ha a' ha' => hi.apart a (by omega) a' (by omega)) hts hTf
        (fun b hb => hTf b (by omega)) hbw (Or.inl hres) hr.pd hI).mono ?_)
      rintro _ m1 ⟨u1, p1, I1, e1⟩
      refine Cmd.Ok.pure ⟨u1.mono ?_, hr.size u1.size p1, I1, e1⟩
      rintro p (hp | hp)
      · rcases hWk p hp with h1 | h1
        · exact Or.inl h1
        · exact Or.inr (Or.inl h1)
      · exact Or.inr (Or.inr hp)

end Outer
end Fftwpp
