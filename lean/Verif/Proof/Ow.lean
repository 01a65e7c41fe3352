import Verif.Proof.Driver3

/-! The overwriting transforms `forward1All`, `forward2All`, `backward1All`, `backward2All` and their `Many` versions: all residues
at once, the first `p` of them in the data array and the last one in the work array. -/

namespace Fftwpp
namespace Fft
open Finset ComplexConjugate
variable {o : Fft}

/-- Residue of block `r`: blocks 0 and 1 hold the residues 0 and 1, block 2 the residue -1. -/
def owRes (r : ℕ) : ℤ := if r = 2 then -1 else r

/-- What the overwriting case requires of the object. -/
structure Ow (o : Fft) : Prop where
  wf : o.WF
  ow : o.overwrite = true

namespace Ow
variable (h : o.Ow)
include h
theorem q1 : o.q ≠ 1 := (h.wf.ow h.ow).1
theorem inpl : o.inplace = true := (h.wf.ow h.ow).2.1
theorem L_eq : o.L = o.p * o.m := (h.wf.ow h.ow).2.2.1
theorem n_eq : o.n = o.p + 1 := (h.wf.ow h.ow).2.2.2.1
theorem D_eq : o.D = 1 := (h.wf.ow h.ow).2.2.2.2.1
theorem BA : o.B ≤ o.A := (h.wf.ow h.ow).2.2.2.2.2.1
theorem p2 : o.p ≤ 2 := (h.wf.ow h.ow).2.2.2.2.2.2
theorem p12 : o.p = 1 ∨ o.p = 2 := by have := h.p2; have := h.wf.p_pos; omega
theorem P_eq : o.P = 1 := h.wf.P_one h.p2
theorem q_eq : o.q = o.p + 1 := by rw [h.wf.q_eq, h.P_eq, h.n_eq, Nat.one_mul]
theorem l_eq : o.l = o.m := by rw [h.wf.l_eq, h.P_eq, Nat.mul_one]
end Ow

/-- Arguments of the overwriting transforms. -/
structure OwPre (o : Fft) (mem : Mem) (f F : Ptr) : Prop where
  fF : f.buf ≠ F.buf
  vf : ∀ r < o.p, ∀ s < o.m, ∀ c < o.C, mem.valid (f + (o.S * (o.m * r + s) + c))
  vF : ∀ s < o.m, ∀ c < o.C, mem.valid (F + (o.S * s + c))

theorem OwPre.size {mem m1 : Mem} {f F : Ptr} (hp : o.OwPre mem f F) (hs : m1.size = mem.size) : o.OwPre m1 f F :=
  ⟨hp.fF, fun r hr s h1 c hc => Mem.valid_of_size hs (hp.vf r hr s h1 c hc), fun s h1 c hc => Mem.valid_of_size hs (hp.vF s h1 c hc)⟩

/-- One block of columns. -/
def OwCol (o : Fft) (F p : Ptr) : Prop := ∃ s < o.m, ∃ c < o.C, p = F + (o.S * s + c)

/-- The written words. -/
def OwW (o : Fft) (f F p : Ptr) : Prop := (∃ r < o.p, ∃ s < o.m, ∃ c < o.C, p = f + (o.S * (o.m * r + s) + c)) ∨ o.OwCol F p

/-- In-place transform of one block. -/
theorem fftm_cols (h : o.Ow) {F : Ptr} {m : Mem} (hv : ∀ s < o.m, ∀ c < o.C, m.valid (F + (o.S * s + c))) {Q : Unit → Mem → Prop}
    (hQ : ∀ m', m.Upd m' (o.OwCol F) → (∀ i < o.m, ∀ c < o.C, m'.val (F + (o.S * i + c)) =
      ∑ s ∈ range o.m, m.val (F + (o.S * s + c)) * w o.m (1 * s * i)) → Q () m') : (o.fftm.exec F F).Ok m Q := by
  by_cases hS : o.S = 1
  · have hC := h.wf.C_one hS
    rw [(h.wf.fftm_S1 h.q1 hS).1, h.D_eq, h.P_eq, Nat.one_mul]
    rw [hS, hC] at hv
    have hv' : ∀ i < o.m * 1, m.valid (F + i) := fun i hi => by
      have := hv i (by omega) 0 (by omega)
      rwa [Nat.one_mul, Nat.add_zero] at this
    refine exec_rows (Or.inl ⟨h.inpl, rfl⟩) hv' hv' ?_
    intro m' u e
    refine hQ m' (u.mono ?_) ?_
    · rintro p ⟨k, hk, i, hi, rfl⟩
      obtain rfl : k = 0 := by omega
      exact ⟨i, hi, 0, by omega, by simp [hS]⟩
    · intro i hi c hc
      obtain rfl : c = 0 := by omega
      have := e 0 (by omega) i hi
      simpa [hS] using this
  · rw [(h.wf.fftm_many hS).1]
    exact exec_cols h.wf.C_le_S (Or.inl ⟨h.inpl, rfl⟩) hv hv hQ

/-- In-place inverse transform of one block. -/
theorem ifftm_cols (h : o.Ow) {F : Ptr} {m : Mem} (hv : ∀ s < o.m, ∀ c < o.C, m.valid (F + (o.S * s + c))) {Q : Unit → Mem → Prop}
    (hQ : ∀ m', m.Upd m' (o.OwCol F) → (∀ i < o.m, ∀ c < o.C, m'.val (F + (o.S * i + c)) =
      ∑ s ∈ range o.m, m.val (F + (o.S * s + c)) * w o.m (-1 * s * i)) → Q () m') : (o.ifftm.exec F F).Ok m Q := by
  by_cases hS : o.S = 1
  · have hC := h.wf.C_one hS
    rw [(h.wf.fftm_S1 h.q1 hS).2, h.D_eq, h.P_eq, Nat.one_mul]
    rw [hS, hC] at hv
    have hv' : ∀ i < o.m * 1, m.valid (F + i) := fun i hi => by
      have := hv i (by omega) 0 (by omega)
      rwa [Nat.one_mul, Nat.add_zero] at this
    refine exec_rows (Or.inl ⟨h.inpl, rfl⟩) hv' hv' ?_
    intro m' u e
    refine hQ m' (u.mono ?_) ?_
    · rintro p ⟨k, hk, i, hi, rfl⟩
      obtain rfl : k = 0 := by omega
      exact ⟨i, hi, 0, by omega, by simp [hS]⟩
    · intro i hi c hc
      obtain rfl : c = 0 := by omega
      have := e 0 (by omega) i hi
      simpa [hS] using this
  · rw [(h.wf.fftm_many hS).2]
    exact exec_cols h.wf.C_le_S (Or.inl ⟨h.inpl, rfl⟩) hv hv hQ

/-- All blocks transformed in place. -/
structure OwExec (o : Fft) (sgn : ℤ) (m m' : Mem) (f F : Ptr) : Prop where
  upd : m.Upd m' (o.OwW f F)
  ef : ∀ r < o.p, ∀ i < o.m, ∀ c < o.C, m'.val (f + (o.S * (o.m * r + i) + c)) =
    ∑ s ∈ range o.m, m.val (f + (o.S * (o.m * r + s) + c)) * w o.m (sgn * s * i)
  eF : ∀ i < o.m, ∀ c < o.C, m'.val (F + (o.S * i + c)) = ∑ s ∈ range o.m, m.val (F + (o.S * s + c)) * w o.m (sgn * s * i)

/-- A transform of one block in place. -/
def Blk (o : Fft) (sgn : ℤ) (ex : Ptr → Cmd Unit) : Prop :=
  ∀ {F : Ptr} {m : Mem}, (∀ s < o.m, ∀ c < o.C, m.valid (F + (o.S * s + c))) → ∀ {Q : Unit → Mem → Prop},
    (∀ m', m.Upd m' (o.OwCol F) → (∀ i < o.m, ∀ c < o.C, m'.val (F + (o.S * i + c)) =
      ∑ s ∈ range o.m, m.val (F + (o.S * s + c)) * w o.m (sgn * s * i)) → Q () m') → (ex F).Ok m Q

theorem exec1 (h : o.Ow) (hp : o.p = 1) {sgn : ℤ} {ex : Ptr → Cmd Unit} (hex : o.Blk sgn ex) {f F : Ptr} {m : Mem} (pre : o.OwPre m f F)
    {Q : Unit → Mem → Prop} (hQ : ∀ m', o.OwExec sgn m m' f F → Q () m') : (do ex f; ex F : Cmd Unit).Ok m Q := by
  have hvf : ∀ s < o.m, ∀ c < o.C, m.valid (f + (o.S * s + c)) := fun s hs c hc => by
    have := pre.vf 0 (by omega) s hs c hc; rwa [Nat.mul_zero, Nat.zero_add] at this
  refine Cmd.Ok.bind (hex hvf ?_)
  intro m1 u1 e1
  refine hex (fun s hs c hc => Mem.valid_of_size u1.size (pre.vF s hs c hc)) ?_
  intro m2 u2 e2
  have hb := pre.fF
  refine hQ m2 ⟨u1.trans u2 ?_ (fun p hp => Or.inr hp), ?_, ?_⟩
  · rintro p ⟨s, hs, c, hc, rfl⟩
    exact Or.inl ⟨0, by omega, s, hs, c, hc, by simp⟩
  · intro r hr i hi c hc
    obtain rfl : r = 0 := by omega
    simp only [Nat.mul_zero, Nat.zero_add]
    rw [u2.frame, e1 i hi c hc]
    rintro ⟨s, hs, c', hc', h3⟩
    exact hb (by simpa using congrArg Ptr.buf h3)
  · intro i hi c hc
    rw [e2 i hi c hc]
    refine sum_congr rfl fun s hs => ?_
    rw [u1.frame]
    rintro ⟨s, hs, c', hc', h3⟩
    exact hb (by simpa using (congrArg Ptr.buf h3).symm)

theorem exec2 (h : o.Ow) (hp : o.p = 2) {sgn : ℤ} {ex : Ptr → Cmd Unit} (hex : o.Blk sgn ex) {f F : Ptr} {m : Mem} (pre : o.OwPre m f F)
    {Q : Unit → Mem → Prop} (hQ : ∀ m', o.OwExec sgn m m' f F → Q () m') : (do ex f; ex (f + o.S * o.m); ex F : Cmd Unit).Ok m Q := by
  have hvf : ∀ s < o.m, ∀ c < o.C, m.valid (f + (o.S * s + c)) := fun s hs c hc => by
    have := pre.vf 0 (by omega) s hs c hc; rwa [Nat.mul_zero, Nat.zero_add] at this
  have hadr : ∀ s c, f + o.S * o.m + (o.S * s + c) = f + (o.S * (o.m * 1 + s) + c) := fun s c => by
    rw [Ptr.add_add]; congr 1; ring
  have hCS := h.wf.C_le_S
  have hb := pre.fF
  refine Cmd.Ok.bind (hex hvf ?_)
  intro m1 u1 e1
  refine Cmd.Ok.bind (hex (fun s hs c hc => Mem.valid_of_size u1.size (by rw [hadr]; exact pre.vf 1 (by omega) s hs c hc)) ?_)
  intro m2 u2 e2
  refine hex (fun s hs c hc => Mem.valid_of_size (u2.size.trans u1.size) (pre.vF s hs c hc)) ?_
  intro m3 u3 e3
  simp only [hadr] at e2
  replace u2 : m1.Upd m2 (fun p => ∃ s < o.m, ∃ c < o.C, p = f + (o.S * (o.m * 1 + s) + c)) := u2.mono (by
    rintro p ⟨s, hs, c, hc, rfl⟩
    exact ⟨s, hs, c, hc, hadr s c⟩)
  have hF3 : ∀ k : ℕ, m3.val (f + k) = m2.val (f + k) := fun k => u3.frame _ (by
    rintro ⟨s, hs, c', hc', h3⟩
    exact hb (by simpa using congrArg Ptr.buf h3))
  have hF2 : ∀ k : ℕ, m2.val (F + k) = m.val (F + k) := fun k => by
    rw [u2.frame, u1.frame]
    · rintro ⟨s, hs, c', hc', h3⟩
      exact hb (by simpa using (congrArg Ptr.buf h3).symm)
    · rintro ⟨s, hs, c', hc', h3⟩
      exact hb (by simpa using (congrArg Ptr.buf h3).symm)
  refine hQ m3 ⟨(u1.trans u2 (R := o.OwW f F) ?_ ?_).trans u3 (fun _ h => h) (fun p hp => Or.inr hp), ?_, ?_⟩
  · rintro p ⟨s, hs, c, hc, rfl⟩
    exact Or.inl ⟨0, by omega, s, hs, c, hc, by simp⟩
  · rintro p ⟨s, hs, c, hc, rfl⟩
    exact Or.inl ⟨1, by omega, s, hs, c, hc, rfl⟩
  · intro r hr i hi c hc
    rw [hF3]
    obtain rfl | rfl : r = 0 ∨ r = 1 := by omega
    · simp only [Nat.mul_zero, Nat.zero_add]
      rw [u2.frame, e1 i hi c hc]
      rintro ⟨s, hs, c', hc', h3⟩
      rw [Ptr.add_inj] at h3
      have := radix_inj (by omega) (by omega) h3
      omega
    · rw [e2 i hi c hc]
      refine sum_congr rfl fun s hs => ?_
      rw [u1.frame]
      rintro ⟨s', hs', c', hc', h3⟩
      rw [Ptr.add_inj] at h3
      have := radix_inj (by omega) (by omega) h3
      omega
  · intro i hi c hc
    rw [e3 i hi c hc]
    exact sum_congr rfl fun s hs => by rw [hF2]

/-- The rows are filled. -/
structure OwFill (o : Fft) (mem m1 : Mem) (f F : Ptr) : Prop where
  upd : mem.Upd m1 (o.OwW f F)
  ef : ∀ r < o.p, ∀ s < o.m, ∀ c < o.C, m1.val (f + (o.S * (o.m * r + s) + c)) =
    fillv o.M o.L o.m o.p (fun j => mem.val (f + (o.S * j + c))) (owRes r) s
  eF : ∀ s < o.m, ∀ c < o.C, m1.val (F + (o.S * s + c)) = fillv o.M o.L o.m o.p (fun j => mem.val (f + (o.S * j + c))) (owRes o.p) s

theorem fill1_single (h : o.Ow) (hp : o.p = 1) (hS : o.S = 1) {f F : Ptr} {mem : Mem} (pre : o.OwPre mem f F) {Q : Unit → Mem → Prop}
    (hQ : ∀ m1, o.OwFill mem m1 f F → Q () m1) : (do
  (copy1 F f).run
  par (rng 1 o.m) fun s => do
    let z ← o.Zetaqm.get (o.m + s)
    let v ← load (f + s)
    store (F + s) (z * v) : Cmd Unit).Ok mem Q := by
  have hC := h.wf.C_one hS
  have hm := h.wf.m_pos
  have hL : o.L = o.m := by rw [h.L_eq, hp, Nat.one_mul]
  have hq := h.q_eq
  have hb := pre.fF
  have hf : ∀ s < o.m, mem.valid (f + s) := fun s hs => by
    have := pre.vf 0 (by omega) s hs 0 (by omega); simpa [hS] using this
  have hF : ∀ s < o.m, mem.valid (F + s) := fun s hs => by
    have := pre.vF s hs 0 (by omega); simpa [hS] using this
  refine Cmd.Ok.bind (run_map1 F (mem.val f) ?_ ?_ ?_)
  · body_simp
    rw [← Ptr.add_zero f, ← Ptr.add_zero F]
    exact ⟨hf 0 hm, hF _ (by omega)⟩
  · body_simp
  intro m1 u1 e1
  refine par_map1 (fun s => F + s) (fun s => m1.val (f + s) * w o.M (s * 1)) (rng_nodup _ _) ?_ ?_ ?_ ?_ ?_
  · intro s hs
    rw [mem_rng] at hs
    body_simp
    exact ⟨h.wf.zq_bd1 (by omega) (by omega), Mem.valid_of_size u1.size (hf s hs.2), Mem.valid_of_size u1.size (hF s hs.2)⟩
  · intro s hs
    rw [mem_rng] at hs
    body_simp
    rw [h.wf.zq_val1 (by omega) (by omega), mul_comm]
  · ptr
  · body_simp <;> ptr
  intro m2 u2 e2
  refine hQ m2 ⟨u1.trans u2 ?_ ?_, ?_, ?_⟩
  · rintro p rfl; exact Or.inr ⟨0, hm, 0, by omega, by simp [Ptr.add_zero]⟩
  · rintro p ⟨i, hi, rfl⟩; rw [mem_rng] at hi
    exact Or.inr ⟨i, hi.2, 0, by omega, by simp [hS]⟩
  · intro r hr s hs c hc
    obtain rfl : r = 0 := by omega
    obtain rfl : c = 0 := by omega
    rw [hp, fillv_one, if_pos (by omega)]
    simp only [hS, Nat.one_mul, Nat.mul_zero, Nat.zero_add, Nat.add_zero]
    rw [u2.frame (f + s) (by ptr), u1.frame (f + s) (by ptr)]
    simp [owRes]
  · intro s hs c hc
    obtain rfl : c = 0 := by omega
    rw [hp, fillv_one, if_pos (by omega)]
    simp only [hS, Nat.one_mul, Nat.add_zero]
    rcases Nat.eq_zero_or_pos s with rfl | h0
    · rw [u2.frame (F + 0) (by ptr), Ptr.add_zero, e1, Ptr.add_zero]; simp
    · rw [e2 s (mem_rng.2 ⟨h0, hs⟩), u1.frame (f + s) (by ptr)]
      simp [owRes]

theorem fill1_many (h : o.Ow) (hp : o.p = 1) {f F : Ptr} {mem : Mem} (pre : o.OwPre mem f F) {Q : Unit → Mem → Prop}
    (hQ : ∀ m1, o.OwFill mem m1 f F → Q () m1) : (do
  par (rng 0 o.C) fun c => copy1 (F + c) (f + c)
  par (rng2 1 o.m 0 o.C) fun (s, c) => do
    let Zeta ← o.Zetaqm.get (o.m + s)
    let X := UNPACKL Zeta Zeta
    let Y := UNPACKH Zeta (-Zeta)
    let v ← load (f + o.S * s + c)
    store (F + o.S * s + c) (ZMULTxy X Y v) : Cmd Unit).Ok mem Q := by
  have hm := h.wf.m_pos
  have hCS := h.wf.C_le_S
  have hL : o.L = o.m := by rw [h.L_eq, hp, Nat.one_mul]
  have hq := h.q_eq
  have hb := pre.fF
  have hf : ∀ s < o.m, ∀ c < o.C, mem.valid (f + (o.S * s + c)) := fun s hs c hc => by
    have := pre.vf 0 (by omega) s hs c hc; rwa [Nat.mul_zero, Nat.zero_add] at this
  refine Cmd.Ok.bind (par1c (W := F) (fun c => mem.val (f + c)) ?_ ?_ ?_ ?_)
  · intro c hc; body_simp
    have h1 := hf 0 hm c hc
    have h2 := pre.vF 0 hm c hc
    rw [Nat.mul_zero, Nat.zero_add] at h1 h2
    exact ⟨h1, h2⟩
  · intro c hc; body_simp
  · intro c hc p; body_simp; rintro rfl; exact Or.inl (by simpa using hb)
  intro m1 u1 e1
  refine par2 (W := F) hCS (fun s c => mem.val (f + (o.S * s + c)) * w o.M (s * 1)) ?_ ?_ ?_ ?_
  · intro s c h1 h2 _ h3
    body_simp
    exact ⟨h.wf.zq_bd1 (by omega) (by omega), Mem.valid_of_size u1.size (hf s h2 c h3), Mem.valid_of_size u1.size (pre.vF s h2 c h3)⟩
  · intro s c h1 h2 _ h3
    body_simp
    rw [C30_zmult_xy, h.wf.zq_val1 (by omega) (by omega), mul_comm (w _ _), u1.frame (f + (o.S * s + c)) (by ptr)]
  · intro s c h1 h2 _ h3 p; body_simp; rintro rfl; exact Or.inl (by simpa using hb)
  intro m2 u2 e2
  have hf2 : ∀ k : ℕ, m2.val (f + k) = mem.val (f + k) := fun k => by
    rw [u2.frame (f + k), u1.frame (f + k)]
    · rintro ⟨c', hc', h3⟩
      exact hb (by simpa using congrArg Ptr.buf h3)
    · rintro ⟨s, c', _, _, _, _, h3⟩
      exact hb (by simpa using congrArg Ptr.buf h3)
  refine hQ m2 ⟨u1.trans u2 ?_ ?_, ?_, ?_⟩
  · rintro p ⟨c, hc, rfl⟩; exact Or.inr ⟨0, hm, c, hc, by simp⟩
  · rintro p ⟨s, c, _, hs, _, hc, rfl⟩
    exact Or.inr ⟨s, hs, c, hc, rfl⟩
  · intro r hr s hs c hc
    obtain rfl : r = 0 := by omega
    rw [hp, fillv_one, if_pos (by omega)]
    simp only [Nat.mul_zero, Nat.zero_add]
    rw [hf2]
    simp [owRes]
  · intro s hs c hc
    rw [hp, fillv_one, if_pos (by omega)]
    rcases Nat.eq_zero_or_pos s with rfl | h0
    · simp only [Nat.mul_zero, Nat.zero_add]
      rw [u2.frame (F + c), e1 c hc]
      · simp
      · rintro ⟨s', c', _, _, _, _, h3⟩
        rw [Ptr.add_inj] at h3
        have := radix_inj (s := 0) (c := c) (S := o.S) (s' := s') (c' := c') (by omega) (by omega) (by rw [Nat.mul_zero, Nat.zero_add]; exact h3)
        omega
    · rw [e2 s c h0 hs (by omega) hc]
      simp [owRes]


theorem p2_facts (h : o.Ow) (hp : o.p = 2) : o.L = 2 * o.m ∧ 1 < o.q := by
  have := h.q_eq
  rw [h.L_eq, hp]
  exact ⟨rfl, by omega⟩

theorem zqS_bd1 (h : o.Ow) (hp : o.p = 2) {s : ℕ} (hs : s < o.m) : o.ZetaqmS.lo ≤ o.L + s ∧ o.L + s < o.ZetaqmS.hi := by
  have := p2_facts h hp
  have h1 := h.wf.zqS_bd hp (r := 1) (j := o.m + s) (by omega) (by omega) (by omega) (by omega)
  rwa [Nat.mul_one, show o.L - o.m + (o.m + s) = o.L + s by omega] at h1

theorem zqS_val1 (h : o.Ow) (hp : o.p = 2) {s : ℕ} (hs : s < o.m) : o.ZetaqmS.val (o.L + s) = w o.M ((s + o.m : ℕ) * 1) := by
  have := p2_facts h hp
  have h1 := h.wf.zqS_val hp (r := 1) (j := o.m + s) (by omega) (by omega)
  rw [Nat.mul_one, show o.L - o.m + (o.m + s) = o.L + s by omega] at h1
  rw [h1, Nat.add_comm]; simp

theorem fill2_vals (h : o.Ow) (hp : o.p = 2) {f F : Ptr} {mem m1 : Mem} (hu : mem.Upd m1 (o.OwW f F))
    (e0 : ∀ s < o.m, ∀ c < o.C, m1.val (f + (o.S * s + c)) = mem.val (f + (o.S * s + c)) + mem.val (f + (o.S * (o.m + s) + c)))
    (e1 : ∀ s < o.m, ∀ c < o.C, m1.val (f + (o.S * (o.m + s) + c)) = w o.M (s * 1) * mem.val (f + (o.S * s + c)) +
      w o.M ((s + o.m : ℕ) * 1) * mem.val (f + (o.S * (o.m + s) + c)))
    (e2 : ∀ s < o.m, ∀ c < o.C, m1.val (F + (o.S * s + c)) = conj (w o.M (s * 1)) * mem.val (f + (o.S * s + c)) +
      conj (w o.M ((s + o.m : ℕ) * 1)) * mem.val (f + (o.S * (o.m + s) + c))) : o.OwFill mem m1 f F := by
  have hL := (p2_facts h hp).1
  refine ⟨hu, ?_, ?_⟩
  · intro r hr s hs c hc
    rw [hp, fillv_two, if_pos (by omega), if_pos (by omega), Nat.add_comm s o.m]
    obtain rfl | rfl : r = 0 ∨ r = 1 := by omega
    · simp only [Nat.mul_zero, Nat.zero_add]
      rw [e0 s hs c hc]; simp [owRes]
    · rw [Nat.mul_one, e1 s hs c hc, Nat.add_comm s o.m]
      simp only [owRes]
      norm_num
      ring
  · intro s hs c hc
    rw [hp, fillv_two, if_pos (by omega), if_pos (by omega), e2 s hs c hc, w_conj, w_conj, Nat.add_comm s o.m]
    simp only [owRes, if_true, mul_one, mul_neg]
    ring

theorem fill2_single (h : o.Ow) (hp : o.p = 2) (hS : o.S = 1) {f F : Ptr} {mem : Mem} (pre : o.OwPre mem f F) {Q : Unit → Mem → Prop}
    (hQ : ∀ m1, o.OwFill mem m1 f F → Q () m1) : (do
  (do
    let V1 ← load (f + o.m)
    let Zetam ← o.ZetaqmS.get o.L
    let A := Zetam ⊙ UNPACKL V1 V1
    let B := ZMULTI (Zetam ⊙ UNPACKH V1 V1)
    let V0 ← load f
    store f (V0 + V1)
    store (f + o.m) (V0 + A + B)
    store F (V0 + CONJ (A - B)) : Body Unit).run
  par (rng 1 o.m) fun s => do
    let V0 ← load (f + s)
    let V1 ← load (f + o.m + s)
    let Zeta ← o.Zetaqm.get (o.m + s)
    let Zetam ← o.ZetaqmS.get (o.L + s)
    let A := Zeta ⊙ UNPACKL V0 V0 + Zetam ⊙ UNPACKL V1 V1
    let B := ZMULTI (Zeta ⊙ UNPACKH V0 V0 + Zetam ⊙ UNPACKH V1 V1)
    store (f + s) (V0 + V1)
    store (f + o.m + s) (A + B)
    store (F + s) (CONJ (A - B)) : Cmd Unit).Ok mem Q := by
  have hC := h.wf.C_one hS
  have hm := h.wf.m_pos
  obtain ⟨hL, hq⟩ := p2_facts h hp
  have hb := pre.fF
  have hf : ∀ s < o.m, mem.valid (f + s) := fun s hs => by
    have := pre.vf 0 (by omega) s hs 0 (by omega); simpa [hS] using this
  have hg : ∀ s < o.m, mem.valid (f + (o.m + s)) := fun s hs => by
    have := pre.vf 1 (by omega) s hs 0 (by omega); simpa [hS] using this
  have hF : ∀ s < o.m, mem.valid (F + s) := fun s hs => by
    have := pre.vF s hs 0 (by omega); simpa [hS] using this
  refine Cmd.Ok.bind (run_map3 f (mem.val f + mem.val (f + o.m)) (f + o.m)
    (mem.val f + w o.M ((0 + o.m : ℕ) * 1) * mem.val (f + o.m)) F (mem.val f + conj (w o.M ((0 + o.m : ℕ) * 1)) * mem.val (f + o.m))
    ?_ ?_ ?_ ?_ ?_ ?_)
  · body_simp
    have h1 := hf 0 hm
    have h2 := hg 0 hm
    have h3 := hF 0 hm
    rw [Ptr.add_zero] at h1 h3
    exact ⟨h2, by simpa using zqS_bd1 h hp hm, h1, h1, h2, h3⟩
  · body_simp
    have := zqS_val1 h hp hm
    rw [Nat.add_zero] at this
    rw [this, add_assoc, C30_pair_add, C30_pair_sub]
  · ptr
  · ptr
  · ptr
  intro m1 u1 e0 e1 e2
  have hf1 : ∀ s : ℕ, 0 < s → s < o.m → m1.val (f + s) = mem.val (f + s) := fun s _ _ => u1.frame _ (by ptr)
  have hg1 : ∀ s : ℕ, 0 < s → s < o.m → m1.val (f + (o.m + s)) = mem.val (f + (o.m + s)) := fun s _ _ => u1.frame _ (by ptr)
  refine par_map3 (fun s => f + s) (fun s => m1.val (f + s) + m1.val (f + (o.m + s)))
    (fun s => f + (o.m + s)) (fun s => w o.M (s * 1) * m1.val (f + s) + w o.M ((s + o.m : ℕ) * 1) * m1.val (f + (o.m + s)))
    (fun s => F + s) (fun s => conj (w o.M (s * 1)) * m1.val (f + s) + conj (w o.M ((s + o.m : ℕ) * 1)) * m1.val (f + (o.m + s)))
    (rng_nodup _ _) ?_ ?_ ?_ ?_ ?_ ?_ ?_ ?_ ?_ ?_
  · intro s hs
    rw [mem_rng] at hs
    body_simp
    have h1 := Mem.valid_of_size u1.size (hf s hs.2)
    have h2 := Mem.valid_of_size u1.size (hg s hs.2)
    have h3 := Mem.valid_of_size u1.size (hF s hs.2)
    exact ⟨h1, h2, h.wf.zq_bd1 hq hs.2, zqS_bd1 h hp hs.2, h1, h2, h3⟩
  · intro s hs
    rw [mem_rng] at hs
    body_simp
    rw [C30_pair2_add, C30_pair2_sub, h.wf.zq_val1 (by omega) hs.2, zqS_val1 h hp hs.2]
  · ptr
  · ptr
  · ptr
  · ptr
  · ptr
  · ptr
  · body_simp <;> ptr
  intro m2 u2 g0 g1 g2
  refine hQ m2 (fill2_vals h hp (u1.trans u2 ?_ ?_) ?_ ?_ ?_)
  · rintro p (rfl | rfl | rfl)
    · exact Or.inl ⟨0, by omega, 0, hm, 0, by omega, by simp [Ptr.add_zero]⟩
    · exact Or.inl ⟨1, by omega, 0, hm, 0, by omega, by simp [hS]⟩
    · exact Or.inr ⟨0, hm, 0, by omega, by simp [Ptr.add_zero]⟩
  · rintro p (⟨i, hi, rfl⟩ | ⟨i, hi, rfl⟩ | ⟨i, hi, rfl⟩) <;> rw [mem_rng] at hi
    · exact Or.inl ⟨0, by omega, i, hi.2, 0, by omega, by simp [hS]⟩
    · exact Or.inl ⟨1, by omega, i, hi.2, 0, by omega, by simp [hS]⟩
    · exact Or.inr ⟨i, hi.2, 0, by omega, by simp [hS]⟩
  all_goals
    intro s hs c hc
    obtain rfl : c = 0 := by omega
    simp only [hS, Nat.one_mul, Nat.add_zero]
    rcases Nat.eq_zero_or_pos s with rfl | h0
  · rw [u2.frame (f + 0) (by ptr), Ptr.add_zero, e0, Nat.add_zero]
  · rw [g0 s (mem_rng.2 ⟨h0, hs⟩), hf1 s h0 hs, hg1 s h0 hs]
  · rw [u2.frame (f + (o.m + 0)) (by ptr), Ptr.add_zero, Nat.add_zero, e1]; simp
  · rw [g1 s (mem_rng.2 ⟨h0, hs⟩), hf1 s h0 hs, hg1 s h0 hs]
  · rw [u2.frame (F + 0) (by ptr), Ptr.add_zero, Ptr.add_zero, Nat.add_zero, e2]; simp
  · rw [g2 s (mem_rng.2 ⟨h0, hs⟩), hf1 s h0 hs, hg1 s h0 hs]

/-- Loop over `a ≤ s < b`, `c < C` storing at `f + S s + c`, `f + S (m+s) + c` and `F + S s + c`, reading only these words. -/
theorem par2x3 {a b C S m₀ : ℕ} {f F : Ptr} {body : ℕ × ℕ → Body Unit} {m : Mem} {Q : Unit → Mem → Prop} (hCS : C ≤ S) (hbm : b ≤ m₀)
    (hfF : f.buf ≠ F.buf) (v0 v1 v2 : ℕ → ℕ → ℂ)
    (hg : ∀ s c, a ≤ s → s < b → c < C → (body (s, c)).Good m)
    (hw : ∀ s c, a ≤ s → s < b → c < C → (body (s, c)).wrs m =
      [(f + (S * s + c), v0 s c), (f + (S * (m₀ + s) + c), v1 s c), (F + (S * s + c), v2 s c)])
    (hrd : ∀ s c, a ≤ s → s < b → c < C → ∀ p ∈ (body (s, c)).rds m, p = f + (S * s + c) ∨ p = f + (S * (m₀ + s) + c))
    (hQ : ∀ m', m.Upd m' (fun p => ∃ s c, a ≤ s ∧ s < b ∧ c < C ∧
        (p = f + (S * s + c) ∨ p = f + (S * (m₀ + s) + c) ∨ p = F + (S * s + c))) →
      (∀ s c, a ≤ s → s < b → c < C → m'.val (f + (S * s + c)) = v0 s c) →
      (∀ s c, a ≤ s → s < b → c < C → m'.val (f + (S * (m₀ + s) + c)) = v1 s c) →
      (∀ s c, a ≤ s → s < b → c < C → m'.val (F + (S * s + c)) = v2 s c) → Q () m') :
    (par (rng2 a b 0 C) body).Ok m Q := by
  have key : ∀ {s c s' c' : ℕ}, c < C → c' < C → S * s + c = S * s' + c' → s = s' ∧ c = c' := fun h1 h2 h3 =>
    radix_inj (by omega) (by omega) h3
  refine par_map3 (fun i => f + (S * i.1 + i.2)) (fun i => v0 i.1 i.2) (fun i => f + (S * (m₀ + i.1) + i.2)) (fun i => v1 i.1 i.2)
    (fun i => F + (S * i.1 + i.2)) (fun i => v2 i.1 i.2) (rng2_nodup _ _ _ _) ?_ ?_ ?_ ?_ ?_ ?_ ?_ ?_ ?_ ?_
  · rintro ⟨s, c⟩ hi
    rw [mem_rng2] at hi
    exact hg s c hi.1.1 hi.1.2 hi.2.2
  · rintro ⟨s, c⟩ hi
    rw [mem_rng2] at hi
    exact hw s c hi.1.1 hi.1.2 hi.2.2
  · rintro ⟨s, c⟩ hi ⟨s', c'⟩ hi' h
    rw [mem_rng2] at hi hi'
    have := key hi.2.2 hi'.2.2 (Ptr.add_inj.1 h)
    rw [Prod.mk.injEq]; exact this
  · rintro ⟨s, c⟩ hi ⟨s', c'⟩ hi' h
    rw [mem_rng2] at hi hi'
    have := key hi.2.2 hi'.2.2 (Ptr.add_inj.1 h)
    rw [Prod.mk.injEq]
    omega
  · rintro ⟨s, c⟩ hi ⟨s', c'⟩ hi' h
    rw [mem_rng2] at hi hi'
    have := key hi.2.2 hi'.2.2 (Ptr.add_inj.1 h)
    rw [Prod.mk.injEq]; exact this
  · rintro ⟨s, c⟩ hi ⟨s', c'⟩ hi' h
    rw [mem_rng2] at hi hi'
    have := key hi.2.2 hi'.2.2 (Ptr.add_inj.1 h)
    simp only at hi hi' this
    omega
  · rintro ⟨s, c⟩ hi ⟨s', c'⟩ hi' h
    exact hfF (by simpa using congrArg Ptr.buf h)
  · rintro ⟨s, c⟩ hi ⟨s', c'⟩ hi' h
    exact hfF (by simpa using congrArg Ptr.buf h)
  · rintro ⟨s, c⟩ hi ⟨s', c'⟩ hi' hne
    rw [mem_rng2] at hi hi'
    simp only at hi hi'
    simp only [ne_eq, Prod.mk.injEq] at hne
    refine ⟨?_, ?_, ?_⟩ <;> intro hin <;> rcases hrd s' c' hi'.1.1 hi'.1.2 hi'.2.2 _ hin with h | h
    · have := key hi.2.2 hi'.2.2 (Ptr.add_inj.1 h); omega
    · have := key hi.2.2 hi'.2.2 (Ptr.add_inj.1 h); omega
    · have := key hi.2.2 hi'.2.2 (Ptr.add_inj.1 h); omega
    · have := key hi.2.2 hi'.2.2 (Ptr.add_inj.1 h); omega
    · exact hfF (by simpa using (congrArg Ptr.buf h).symm)
    · exact hfF (by simpa using (congrArg Ptr.buf h).symm)
  · intro m' u g0 g1 g2
    refine hQ m' (u.mono ?_) ?_ ?_ ?_
    · rintro p (⟨⟨s, c⟩, hi, rfl⟩ | ⟨⟨s, c⟩, hi, rfl⟩ | ⟨⟨s, c⟩, hi, rfl⟩) <;> rw [mem_rng2] at hi
      · exact ⟨s, c, hi.1.1, hi.1.2, hi.2.2, Or.inl rfl⟩
      · exact ⟨s, c, hi.1.1, hi.1.2, hi.2.2, Or.inr (Or.inl rfl)⟩
      · exact ⟨s, c, hi.1.1, hi.1.2, hi.2.2, Or.inr (Or.inr rfl)⟩
    · intro s c h1 h2 h3; exact g0 (s, c) (mem_rng2.2 ⟨⟨h1, h2⟩, by omega, h3⟩)
    · intro s c h1 h2 h3; exact g1 (s, c) (mem_rng2.2 ⟨⟨h1, h2⟩, by omega, h3⟩)
    · intro s c h1 h2 h3; exact g2 (s, c) (mem_rng2.2 ⟨⟨h1, h2⟩, by omega, h3⟩)


/-- The case `s=0` of the previous loops (`for c`). -/
theorem par1x3 {C S m₀ : ℕ} {f F : Ptr} {body : ℕ → Body Unit} {m : Mem} {Q : Unit → Mem → Prop} (hCS : C ≤ S) (hm : 0 < m₀)
    (hfF : f.buf ≠ F.buf) (v0 v1 v2 : ℕ → ℂ)
    (hg : ∀ c, c < C → (body c).Good m)
    (hw : ∀ c, c < C → (body c).wrs m = [(f + c, v0 c), (f + (S * m₀ + c), v1 c), (F + c, v2 c)])
    (hrd : ∀ c, c < C → ∀ p ∈ (body c).rds m, p = f + c ∨ p = f + (S * m₀ + c))
    (hQ : ∀ m', m.Upd m' (fun p => ∃ c, c < C ∧ (p = f + c ∨ p = f + (S * m₀ + c) ∨ p = F + c)) →
      (∀ c, c < C → m'.val (f + c) = v0 c) → (∀ c, c < C → m'.val (f + (S * m₀ + c)) = v1 c) →
      (∀ c, c < C → m'.val (F + c) = v2 c) → Q () m') :
    (par (rng 0 C) body).Ok m Q := by
  have hSm : S * 1 ≤ S * m₀ := Nat.mul_le_mul_left _ hm
  refine par_map3 (fun c => f + c) v0 (fun c => f + (S * m₀ + c)) v1 (fun c => F + c) v2 (rng_nodup _ _) ?_ ?_ ?_ ?_ ?_ ?_ ?_ ?_ ?_ ?_
  · intro c hc; rw [mem_rng] at hc; exact hg c hc.2
  · intro c hc; rw [mem_rng] at hc; exact hw c hc.2
  · ptr
  · ptr
  · ptr
  · ptr
  · ptr
  · ptr
  · intro c hc c' hc' hne
    rw [mem_rng] at hc hc'
    refine ⟨?_, ?_, ?_⟩ <;> intro hin <;> rcases hrd c' hc'.2 _ hin with h | h
    · have := Ptr.add_inj.1 h; omega
    · have := Ptr.add_inj.1 h; omega
    · have := Ptr.add_inj.1 h; omega
    · have := Ptr.add_inj.1 h; omega
    · exact hfF (by simpa using (congrArg Ptr.buf h).symm)
    · exact hfF (by simpa using (congrArg Ptr.buf h).symm)
  · intro m' u g0 g1 g2
    refine hQ m' (u.mono ?_) ?_ ?_ ?_
    · rintro p (⟨c, hi, rfl⟩ | ⟨c, hi, rfl⟩ | ⟨c, hi, rfl⟩) <;> rw [mem_rng] at hi
      · exact ⟨c, hi.2, Or.inl rfl⟩
      · exact ⟨c, hi.2, Or.inr (Or.inl rfl)⟩
      · exact ⟨c, hi.2, Or.inr (Or.inr rfl)⟩
    · intro c h1; exact g0 c (mem_rng.2 ⟨by omega, h1⟩)
    · intro c h1; exact g1 c (mem_rng.2 ⟨by omega, h1⟩)
    · intro c h1; exact g2 c (mem_rng.2 ⟨by omega, h1⟩)

theorem fill2_many (h : o.Ow) (hp : o.p = 2) {f F : Ptr} {mem : Mem} (pre : o.OwPre mem f F) {Q : Unit → Mem → Prop}
    (hQ : ∀ m1, o.OwFill mem m1 f F → Q () m1) : (do
  par (rng 0 o.C) fun c => do
    let Zetam ← o.ZetaqmS.get o.L
    let V1 ← load (f + o.S * o.m + c)
    let A := Zetam ⊙ UNPACKL V1 V1
    let B := ZMULTI (Zetam ⊙ UNPACKH V1 V1)
    let V0 ← load (f + c)
    store (f + c) (V0 + V1)
    store (f + o.S * o.m + c) (V0 + A + B)
    store (F + c) (V0 + CONJ (A - B))
  par (rng2 1 o.m 0 o.C) fun (s, c) => do
    let Zeta ← o.Zetaqm.get (o.m + s)
    let Zetam ← o.ZetaqmS.get (o.L + s)
    let V0 ← load (f + o.S * s + c)
    let V1 ← load (f + o.S * o.m + o.S * s + c)
    let A := Zeta ⊙ UNPACKL V0 V0 + Zetam ⊙ UNPACKL V1 V1
    let B := ZMULTI (Zeta ⊙ UNPACKH V0 V0 + Zetam ⊙ UNPACKH V1 V1)
    store (f + o.S * s + c) (V0 + V1)
    store (f + o.S * o.m + o.S * s + c) (A + B)
    store (F + o.S * s + c) (CONJ (A - B)) : Cmd Unit).Ok mem Q := by
  have hm := h.wf.m_pos
  have hCS := h.wf.C_le_S
  obtain ⟨hL, hq⟩ := p2_facts h hp
  have hb := pre.fF
  have hf : ∀ s < o.m, ∀ c < o.C, mem.valid (f + (o.S * s + c)) := fun s hs c hc => by
    have := pre.vf 0 (by omega) s hs c hc; rwa [Nat.mul_zero, Nat.zero_add] at this
  have hg : ∀ s < o.m, ∀ c < o.C, mem.valid (f + (o.S * (o.m + s) + c)) := fun s hs c hc => by
    have := pre.vf 1 (by omega) s hs c hc; rwa [Nat.mul_one] at this
  have hadr : ∀ s, o.S * o.m + o.S * s = o.S * (o.m + s) := fun s => by ring
  refine Cmd.Ok.bind (par1x3 (S := o.S) (f := f) (F := F) hCS hm hb (fun c => mem.val (f + c) + mem.val (f + (o.S * o.m + c)))
    (fun c => mem.val (f + c) + w o.M ((0 + o.m : ℕ) * 1) * mem.val (f + (o.S * o.m + c)))
    (fun c => mem.val (f + c) + conj (w o.M ((0 + o.m : ℕ) * 1)) * mem.val (f + (o.S * o.m + c))) ?_ ?_ ?_ ?_)
  · intro c hc
    body_simp
    have h1 := hf 0 hm c hc
    have h2 := hg 0 hm c hc
    have h3 := pre.vF 0 hm c hc
    rw [Nat.mul_zero, Nat.zero_add] at h1 h3
    rw [Nat.add_zero] at h2
    exact ⟨by simpa using zqS_bd1 h hp hm, h2, h1, h1, h2, h3⟩
  · intro c hc
    body_simp
    have := zqS_val1 h hp hm
    rw [Nat.add_zero] at this
    rw [this, add_assoc, C30_pair_add, C30_pair_sub]
  · intro c hc p; body_simp; tauto
  intro m1 u1 e0 e1 e2
  have hne : ∀ {s c s' c' : ℕ}, c < o.C → c' < o.C → o.S * s + c = o.S * s' + c' → s = s' ∧ c = c' := fun h1 h2 h3 =>
    radix_inj (by omega) (by omega) h3
  have hne0 : ∀ {s c c' : ℕ}, c < o.C → c' < o.C → o.S * s + c = c' → s = 0 ∧ c = c' := fun h1 h2 h3 =>
    hne h1 h2 (by rw [Nat.mul_zero, Nat.zero_add]; exact h3)
  have hfr1 : ∀ s : ℕ, 0 < s → s < 2 * o.m → s ≠ o.m → ∀ c < o.C, m1.val (f + (o.S * s + c)) = mem.val (f + (o.S * s + c)) :=
    fun s h0 hs hsm c hc => u1.frame _ (by
      rintro ⟨c', hc', h3 | h3 | h3⟩
      · have := hne0 hc hc' (Ptr.add_inj.1 h3); omega
      · have := hne hc hc' (Ptr.add_inj.1 h3); omega
      · exact hb (by simpa using congrArg Ptr.buf h3))
  refine par2x3 (S := o.S) (m₀ := o.m) (f := f) (F := F) hCS le_rfl hb
    (fun s c => m1.val (f + (o.S * s + c)) + m1.val (f + (o.S * (o.m + s) + c)))
    (fun s c => w o.M (s * 1) * m1.val (f + (o.S * s + c)) + w o.M ((s + o.m : ℕ) * 1) * m1.val (f + (o.S * (o.m + s) + c)))
    (fun s c => conj (w o.M (s * 1)) * m1.val (f + (o.S * s + c)) + conj (w o.M ((s + o.m : ℕ) * 1)) * m1.val (f + (o.S * (o.m + s) + c)))
    ?_ ?_ ?_ ?_
  · intro s c h1 h2 hc
    body_simp
    have g1 := Mem.valid_of_size u1.size (hf s h2 c hc)
    have g2 := Mem.valid_of_size u1.size (hg s h2 c hc)
    have g3 := Mem.valid_of_size u1.size (pre.vF s h2 c hc)
    rw [hadr]
    exact ⟨h.wf.zq_bd1 hq h2, zqS_bd1 h hp h2, g1, g2, g1, g2, g3⟩
  · intro s c h1 h2 hc
    body_simp
    rw [C30_pair2_add, C30_pair2_sub, h.wf.zq_val1 (by omega) h2, zqS_val1 h hp h2, hadr]
  · intro s c h1 h2 hc p; body_simp; rw [hadr]; tauto
  intro m2 u2 g0 g1 g2
  refine hQ m2 (fill2_vals h hp (u1.trans u2 ?_ ?_) ?_ ?_ ?_)
  · rintro p ⟨c, hc, rfl | rfl | rfl⟩
    · exact Or.inl ⟨0, by omega, 0, hm, c, hc, by simp⟩
    · exact Or.inl ⟨1, by omega, 0, hm, c, hc, by simp⟩
    · exact Or.inr ⟨0, hm, c, hc, by simp⟩
  · rintro p ⟨s, c, h1, h2, hc, rfl | rfl | rfl⟩
    · exact Or.inl ⟨0, by omega, s, h2, c, hc, by simp⟩
    · exact Or.inl ⟨1, by omega, s, h2, c, hc, by simp⟩
    · exact Or.inr ⟨s, h2, c, hc, rfl⟩
  all_goals
    intro s hs c hc
    rcases Nat.eq_zero_or_pos s with rfl | h0
  · simp only [Nat.mul_zero, Nat.zero_add, Nat.add_zero]
    rw [u2.frame (f + c), e0 c hc]
    rintro ⟨s', c', h1, h2, hc', h3 | h3 | h3⟩
    · have := hne0 hc' hc (Ptr.add_inj.1 h3).symm; omega
    · have := hne0 hc' hc (Ptr.add_inj.1 h3).symm; omega
    · exact hb (by simpa using congrArg Ptr.buf h3)
  · rw [g0 s c h0 hs hc, hfr1 s h0 (by omega) (by omega) c hc, hfr1 (o.m + s) (by omega) (by omega) (by omega) c hc]
  · simp only [Nat.mul_zero, Nat.zero_add, Nat.add_zero]
    rw [u2.frame (f + (o.S * o.m + c)), e1 c hc]
    · simp
    rintro ⟨s', c', h1, h2, hc', h3 | h3 | h3⟩
    · have := hne hc' hc (Ptr.add_inj.1 h3).symm; omega
    · have := hne hc' hc (Ptr.add_inj.1 h3).symm; omega
    · exact hb (by simpa using congrArg Ptr.buf h3)
  · rw [g1 s c h0 hs hc, hfr1 s h0 (by omega) (by omega) c hc, hfr1 (o.m + s) (by omega) (by omega) (by omega) c hc]
  · simp only [Nat.mul_zero, Nat.zero_add, Nat.add_zero]
    rw [u2.frame (F + c), e2 c hc]
    · simp
    rintro ⟨s', c', h1, h2, hc', h3 | h3 | h3⟩
    · exact hb (by simpa using (congrArg Ptr.buf h3).symm)
    · exact hb (by simpa using (congrArg Ptr.buf h3).symm)
    · have := hne0 hc' hc (Ptr.add_inj.1 h3).symm; omega
  · rw [g2 s c h0 hs hc, hfr1 s h0 (by omega) (by omega) c hc, hfr1 (o.m + s) (by omega) (by omega) (by omega) c hc]

/-- Result of the overwriting forward transform. -/
structure OwFwd (o : Fft) (mem m1 : Mem) (f F : Ptr) : Prop where
  upd : mem.Upd m1 (o.OwW f F)
  ef : ∀ r < o.p, ∀ i < o.m, ∀ c < o.C, m1.val (f + (o.S * (o.m * r + i) + c)) =
    paddedDFT o.M o.L (fun j => mem.val (f + (o.S * j + c))) (o.q * i + owRes r)
  eF : ∀ i < o.m, ∀ c < o.C, m1.val (F + (o.S * i + c)) =
    paddedDFT o.M o.L (fun j => mem.val (f + (o.S * j + c))) (o.q * i + owRes o.p)

theorem OwFill.fwd (h : o.Ow) {mem m1 m2 : Mem} {f F : Ptr} (hf : o.OwFill mem m1 f F) (he : o.OwExec 1 m1 m2 f F) :
    o.OwFwd mem m2 f F := by
  refine ⟨hf.upd.trans he.upd (fun _ h => h) (fun _ h => h), ?_, ?_⟩
  · intro r hr i hi c hc
    rw [he.ef r hr i hi c hc, ← row_fft h.wf.M_eq (by have := h.wf.m_pos; omega) (by have := h.wf.q_pos; omega) h.wf.p_ub]
    exact sum_congr rfl fun s hs => by rw [hf.ef r hr s (mem_range.1 hs) c hc]
  · intro i hi c hc
    rw [he.eF i hi c hc, ← row_fft h.wf.M_eq (by have := h.wf.m_pos; omega) (by have := h.wf.q_pos; omega) h.wf.p_ub]
    exact sum_congr rfl fun s hs => by rw [hf.eF s (mem_range.1 hs) c hc]

theorem fftm_blk (h : o.Ow) : o.Blk 1 (fun F => o.fftm.exec F F) := fun hv _ hQ => fftm_cols h hv hQ
theorem ifftm_blk (h : o.Ow) : o.Blk (-1) (fun F => o.ifftm.exec F F) := fun hv _ hQ => ifftm_cols h hv hQ

theorem owForward_ok (h : o.Ow) {mem : Mem} {f F : Ptr} (pre : o.OwPre mem f F) (r : ℕ) (W? : Option Ptr) :
    (o.forward f F r W?).Ok mem fun _ m' => o.OwFwd mem m' f F := by
  unfold forward
  rw [h.wf.route_eq, h.ow]
  unfold chooseRoute
  rw [if_neg h.q1, if_neg (by have := h.p2; omega)]
  have hSm := h.wf.Sm_eq
  rcases h.p12 with hp | hp
  · rw [if_neg (by omega)]
    by_cases hS : o.S = 1
    · rw [if_pos hS, if_pos rfl]
      simp only
      unfold forward1All
      refine Cmd.Ok.assoc (Cmd.Ok.bind (fill1_single h hp hS pre ?_))
      intro m1 h1
      exact exec1 h hp (fftm_blk h) (pre.size h1.upd.size) fun m2 h2 => h1.fwd h h2
    · rw [if_neg hS, if_pos rfl]
      simp only
      unfold forward1ManyAll
      refine Cmd.Ok.assoc (Cmd.Ok.bind (fill1_many h hp pre ?_))
      intro m1 h1
      exact exec1 h hp (fftm_blk h) (pre.size h1.upd.size) fun m2 h2 => h1.fwd h h2
  · rw [if_pos hp]
    by_cases hS : o.S = 1
    · rw [if_pos hS, if_pos rfl]
      simp only
      unfold forward2All
      refine Cmd.Ok.assoc (Cmd.Ok.bind (fill2_single h hp hS pre ?_))
      intro m1 h1
      have := exec2 h hp (fftm_blk h) (pre.size h1.upd.size) (Q := fun _ m' => o.OwFwd mem m' f F) fun m2 h2 => h1.fwd h h2
      rw [hS, Nat.one_mul] at this
      exact this
    · rw [if_neg hS, if_pos rfl]
      simp only
      unfold forward2ManyAll
      rw [hSm]
      refine Cmd.Ok.assoc (Cmd.Ok.bind (fill2_many h hp pre ?_))
      intro m1 h1
      exact exec2 h hp (fftm_blk h) (pre.size h1.upd.size) fun m2 h2 => h1.fwd h h2

end Fft
end Fftwpp
