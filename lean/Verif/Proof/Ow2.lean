import Verif.Proof.Ow

/-! The overwriting backward transforms. -/

namespace Fftwpp
namespace Fft
open Finset ComplexConjugate
variable {o : Fft}

theorem Cmd.Ok.assoc3 {a b d : Cmd Unit} {β : Type} {k : Cmd β} {m : Mem} {Q : β → Mem → Prop}
    (h : ((do a; b; d : Cmd Unit) >>= fun _ => k).Ok m Q) : (do a; b; d; k : Cmd β).Ok m Q := by
  obtain ⟨x, m', h1, h2⟩ := h
  refine ⟨x, m', ?_, h2⟩
  rw [← h1]
  simp only [Cmd.bind_apply]
  cases a m with
  | error e => rfl
  | ok v =>
    simp only
    cases b v.2 with
    | error e => rfl
    | ok v => rfl

/-- The blocks are combined. -/
structure OwComb (o : Fft) (m1 m2 : Mem) (f F : Ptr) : Prop where
  upd : m1.Upd m2 (o.OwW f F)
  e : ∀ u < o.p, ∀ s < o.m, ∀ c < o.C, m2.val (f + (o.S * (o.m * u + s) + c)) =
    (∑ r ∈ range o.p, w o.M (-(((s + o.m * u : ℕ) : ℤ) * owRes r)) * m1.val (f + (o.S * (o.m * r + s) + c))) +
    w o.M (-(((s + o.m * u : ℕ) : ℤ) * owRes o.p)) * m1.val (F + (o.S * s + c))

theorem comb1_vals (h : o.Ow) (hp : o.p = 1) {f F : Ptr} {mem m1 : Mem} (hu : mem.Upd m1 (o.OwW f F))
    (e0 : ∀ s < o.m, ∀ c < o.C, m1.val (f + (o.S * s + c)) = mem.val (f + (o.S * s + c)) +
      conj (w o.M (s * 1)) * mem.val (F + (o.S * s + c))) : o.OwComb mem m1 f F := by
  refine ⟨hu, ?_⟩
  intro u hu s hs c hc
  obtain rfl : u = 0 := by omega
  rw [hp, sum_range_one]
  simp only [Nat.mul_zero, Nat.zero_add, Nat.add_zero, owRes]
  rw [e0 s hs c hc, w_conj]
  norm_num

theorem comb2_vals (h : o.Ow) (hp : o.p = 2) {f F : Ptr} {mem m1 : Mem} (hu : mem.Upd m1 (o.OwW f F))
    (e0 : ∀ s < o.m, ∀ c < o.C, m1.val (f + (o.S * s + c)) = mem.val (f + (o.S * s + c)) +
      (w o.M (s * 1) * mem.val (F + (o.S * s + c)) + conj (w o.M (s * 1)) * mem.val (f + (o.S * (o.m + s) + c))))
    (e1 : ∀ s < o.m, ∀ c < o.C, m1.val (f + (o.S * (o.m + s) + c)) = mem.val (f + (o.S * s + c)) +
      (w o.M ((s + o.m : ℕ) * 1) * mem.val (F + (o.S * s + c)) + conj (w o.M ((s + o.m : ℕ) * 1)) * mem.val (f + (o.S * (o.m + s) + c)))) :
    o.OwComb mem m1 f F := by
  refine ⟨hu, ?_⟩
  intro u hu s hs c hc
  rw [hp, sum_range_succ, sum_range_one]
  simp only [owRes, if_true]
  obtain rfl | rfl : u = 0 ∨ u = 1 := by omega
  · simp only [Nat.mul_zero, Nat.zero_add, Nat.add_zero, Nat.mul_one]
    rw [e0 s hs c hc, w_conj]
    norm_num
    ring
  · simp only [Nat.mul_zero, Nat.zero_add, Nat.mul_one]
    rw [e1 s hs c hc, w_conj]
    norm_num
    ring

theorem comb1_single (h : o.Ow) (hp : o.p = 1) (hS : o.S = 1) {f F : Ptr} {mem : Mem} (pre : o.OwPre mem f F) {Q : Unit → Mem → Prop}
    (hQ : ∀ m1, o.OwComb mem m1 f F → Q () m1) : (do
  (do
    let v ← load f
    let u ← load F
    store f (v + u) : Body Unit).run
  par (rng 1 o.m) fun s => do
    let v ← load (f + s)
    let z ← o.Zetaqm.get (o.m + s)
    let u ← load (F + s)
    store (f + s) (v + (starRingEnd ℂ) z * u) : Cmd Unit).Ok mem Q := by
  have hC := h.wf.C_one hS
  have hm := h.wf.m_pos
  have hq := h.q_eq
  have hb := pre.fF
  have hf : ∀ s < o.m, mem.valid (f + s) := fun s hs => by
    have := pre.vf 0 (by omega) s hs 0 (by omega); simpa [hS] using this
  have hF : ∀ s < o.m, mem.valid (F + s) := fun s hs => by
    have := pre.vF s hs 0 (by omega); simpa [hS] using this
  refine Cmd.Ok.bind (run_map1 f (mem.val f + mem.val F) ?_ ?_ ?_)
  · body_simp
    have h1 := hf 0 hm
    have h3 := hF 0 hm
    rw [Ptr.add_zero] at h1 h3
    exact ⟨h1, h3, h1⟩
  · body_simp
  intro m1 u1 e1
  refine par_map1 (fun s => f + s) (fun s => m1.val (f + s) + conj (w o.M (s * 1)) * m1.val (F + s)) (rng_nodup _ _) ?_ ?_ ?_ ?_ ?_
  · intro s hs
    rw [mem_rng] at hs
    body_simp
    have h1 := Mem.valid_of_size u1.size (hf s hs.2)
    exact ⟨h1, h.wf.zq_bd1 (by omega) (by omega), Mem.valid_of_size u1.size (hF s hs.2), h1⟩
  · intro s hs
    rw [mem_rng] at hs
    body_simp
    rw [h.wf.zq_val1 (by omega) (by omega)]
  · ptr
  · body_simp <;> ptr
  intro m2 u2 e2
  refine hQ m2 (comb1_vals h hp (u1.trans u2 ?_ ?_) ?_)
  · rintro p rfl; exact Or.inl ⟨0, by omega, 0, hm, 0, by omega, by simp [Ptr.add_zero]⟩
  · rintro p ⟨i, hi, rfl⟩; rw [mem_rng] at hi
    exact Or.inl ⟨0, by omega, i, hi.2, 0, by omega, by simp [hS]⟩
  · intro s hs c hc
    obtain rfl : c = 0 := by omega
    simp only [hS, Nat.one_mul, Nat.add_zero]
    rcases Nat.eq_zero_or_pos s with rfl | h0
    · rw [u2.frame (f + 0) (by ptr), Ptr.add_zero, e1, Ptr.add_zero]; simp
    · rw [e2 s (mem_rng.2 ⟨h0, hs⟩), u1.frame (f + s) (by ptr), u1.frame (F + s) (by ptr)]

theorem comb1_many (h : o.Ow) (hp : o.p = 1) {f F : Ptr} {mem : Mem} (pre : o.OwPre mem f F) {Q : Unit → Mem → Prop}
    (hQ : ∀ m1, o.OwComb mem m1 f F → Q () m1) : (do
  par (rng 0 o.C) fun c => do
    let v ← load (f + c)
    let u ← load (F + c)
    store (f + c) (v + u)
  par (rng2 1 o.m 0 o.C) fun (s, c) => do
    let Zeta ← o.Zetaqm.get (o.m + s)
    let X := UNPACKL Zeta Zeta
    let Y := UNPACKH (-Zeta) Zeta
    let v ← load (f + o.S * s + c)
    let u ← load (F + o.S * s + c)
    store (f + o.S * s + c) (v + ZMULTxy X Y u) : Cmd Unit).Ok mem Q := by
  have hm := h.wf.m_pos
  have hCS := h.wf.C_le_S
  have hq := h.q_eq
  have hb := pre.fF
  have hf : ∀ s < o.m, ∀ c < o.C, mem.valid (f + (o.S * s + c)) := fun s hs c hc => by
    have := pre.vf 0 (by omega) s hs c hc; rwa [Nat.mul_zero, Nat.zero_add] at this
  refine Cmd.Ok.bind (par1c (W := f) (fun c => mem.val (f + c) + mem.val (F + c)) ?_ ?_ ?_ ?_)
  · intro c hc; body_simp
    have h1 := hf 0 hm c hc
    have h2 := pre.vF 0 hm c hc
    rw [Nat.mul_zero, Nat.zero_add] at h1 h2
    exact ⟨h1, h2, h1⟩
  · intro c hc; body_simp
  · intro c hc p; body_simp
    rintro (rfl | rfl)
    · exact Or.inr rfl
    · exact Or.inl (by simpa using hb.symm)
  intro m1 u1 e1
  refine par2 (W := f) hCS (fun s c => m1.val (f + (o.S * s + c)) + conj (w o.M (s * 1)) * m1.val (F + (o.S * s + c))) ?_ ?_ ?_ ?_
  · intro s c h1 h2 _ h3
    body_simp
    have g1 := Mem.valid_of_size u1.size (hf s h2 c h3)
    exact ⟨h.wf.zq_bd1 (by omega) (by omega), g1, Mem.valid_of_size u1.size (pre.vF s h2 c h3), g1⟩
  · intro s c h1 h2 _ h3
    body_simp
    rw [C30_zmult_xy_conj, h.wf.zq_val1 (by omega) (by omega)]
  · intro s c h1 h2 _ h3 p; body_simp
    rintro (rfl | rfl)
    · exact Or.inr rfl
    · exact Or.inl (by simpa using hb.symm)
  intro m2 u2 e2
  refine hQ m2 (comb1_vals h hp (u1.trans u2 ?_ ?_) ?_)
  · rintro p ⟨c, hc, rfl⟩; exact Or.inl ⟨0, by omega, 0, hm, c, hc, by simp⟩
  · rintro p ⟨s, c, _, hs, _, hc, rfl⟩
    exact Or.inl ⟨0, by omega, s, hs, c, hc, by simp⟩
  · intro s hs c hc
    rcases Nat.eq_zero_or_pos s with rfl | h0
    · simp only [Nat.mul_zero, Nat.zero_add]
      rw [u2.frame (f + c), e1 c hc]
      · simp
      · rintro ⟨s', c', _, _, _, _, h3⟩
        rw [Ptr.add_inj] at h3
        have := radix_inj (s := 0) (c := c) (S := o.S) (s' := s') (c' := c') (by omega) (by omega) (by rw [Nat.mul_zero, Nat.zero_add]; exact h3)
        omega
    · rw [e2 s c h0 hs (by omega) hc, u1.frame (f + (o.S * s + c)), u1.frame (F + (o.S * s + c))]
      · rintro ⟨c', _, h3⟩
        exact hb (by simpa using (congrArg Ptr.buf h3).symm)
      · rintro ⟨c', hc', h3⟩
        rw [Ptr.add_inj] at h3
        have := radix_inj (s := s) (c := c) (S := o.S) (s' := 0) (c' := c') (by omega) (by omega) (by rw [Nat.mul_zero, Nat.zero_add]; exact h3)
        omega

theorem comb2_single (h : o.Ow) (hp : o.p = 2) (hS : o.S = 1) {f F : Ptr} {mem : Mem} (pre : o.OwPre mem f F) {Q : Unit → Mem → Prop}
    (hQ : ∀ m1, o.OwComb mem m1 f F → Q () m1) : (do
  (do
    let V0 ← load f
    let V1 ← load (f + o.m)
    let V2 ← load F
    store f (V0 + V1 + V2)
    let z ← o.ZetaqmS.get o.L
    store (f + o.m) (V0 + ZMULT2 z V2 V1) : Body Unit).run
  par (rng 1 o.m) fun s => do
    let V0 ← load (f + s)
    let V1 ← load (f + o.m + s)
    let V2 ← load (F + s)
    let z ← o.Zetaqm.get (o.m + s)
    store (f + s) (V0 + ZMULT2 z V2 V1)
    let z2 ← o.ZetaqmS.get (o.L + s)
    store (f + o.m + s) (V0 + ZMULT2 z2 V2 V1) : Cmd Unit).Ok mem Q := by
  have hC := h.wf.C_one hS
  have hm := h.wf.m_pos
  obtain ⟨hL, hq⟩ := p2_facts h hp
  have hb := pre.fF
  have hf : ∀ s < o.m, mem.valid (f + s) := fun s hs => by
    have := pre.vf 0 (by omega) s hs 0 (by omega); simpa [hS] using this
  have hg : ∀ s < o.m, mem.valid (f + (o.m + s)) := fun s hs => by
    have := pre.vf 1 (by omega) s hs 0 (by omega); simpa [hS] using this
  have hF : ∀ s < o.m, mem.valid (F + s) := fun s hs => by
    have := pre.vF s hs 0 (by omega); simpa [hS] using this
  refine Cmd.Ok.bind (run_map2 f (mem.val f + mem.val (f + o.m) + mem.val F) (f + o.m)
    (mem.val f + (w o.M ((0 + o.m : ℕ) * 1) * mem.val F + conj (w o.M ((0 + o.m : ℕ) * 1)) * mem.val (f + o.m))) ?_ ?_ ?_ ?_)
  · body_simp
    have h1 := hf 0 hm
    have h2 := hg 0 hm
    have h3 := hF 0 hm
    rw [Ptr.add_zero] at h1 h3
    exact ⟨h1, h2, h3, h1, by simpa using zqS_bd1 h hp hm, h2⟩
  · body_simp
    have := zqS_val1 h hp hm
    rw [Nat.add_zero] at this
    rw [this, C30_zmult2]
  · ptr
  intro m1 u1 e0 e1
  have hf1 : ∀ s : ℕ, 0 < s → s < o.m → m1.val (f + s) = mem.val (f + s) := fun s _ _ => u1.frame _ (by ptr)
  have hg1 : ∀ s : ℕ, 0 < s → s < o.m → m1.val (f + (o.m + s)) = mem.val (f + (o.m + s)) := fun s _ _ => u1.frame _ (by ptr)
  have hF1 : ∀ s : ℕ, m1.val (F + s) = mem.val (F + s) := fun s => u1.frame _ (by ptr)
  refine par_map2 (fun s => f + s) (fun s => m1.val (f + s) + (w o.M (s * 1) * m1.val (F + s) + conj (w o.M (s * 1)) * m1.val (f + (o.m + s))))
    (fun s => f + (o.m + s)) (fun s => m1.val (f + s) + (w o.M ((s + o.m : ℕ) * 1) * m1.val (F + s) +
      conj (w o.M ((s + o.m : ℕ) * 1)) * m1.val (f + (o.m + s))))
    (rng_nodup _ _) ?_ ?_ ?_ ?_ ?_ ?_ ?_
  · intro s hs
    rw [mem_rng] at hs
    body_simp
    have h1 := Mem.valid_of_size u1.size (hf s hs.2)
    have h2 := Mem.valid_of_size u1.size (hg s hs.2)
    have h3 := Mem.valid_of_size u1.size (hF s hs.2)
    exact ⟨h1, h2, h3, h.wf.zq_bd1 hq hs.2, h1, zqS_bd1 h hp hs.2, h2⟩
  · intro s hs
    rw [mem_rng] at hs
    body_simp
    rw [C30_zmult2, C30_zmult2, h.wf.zq_val1 (by omega) hs.2, zqS_val1 h hp hs.2]
  · ptr
  · ptr
  · ptr
  · body_simp <;> ptr
  intro m2 u2 g0 g1
  refine hQ m2 (comb2_vals h hp (u1.trans u2 ?_ ?_) ?_ ?_)
  · rintro p (rfl | rfl)
    · exact Or.inl ⟨0, by omega, 0, hm, 0, by omega, by simp [Ptr.add_zero]⟩
    · exact Or.inl ⟨1, by omega, 0, hm, 0, by omega, by simp [hS]⟩
  · rintro p (⟨i, hi, rfl⟩ | ⟨i, hi, rfl⟩) <;> rw [mem_rng] at hi
    · exact Or.inl ⟨0, by omega, i, hi.2, 0, by omega, by simp [hS]⟩
    · exact Or.inl ⟨1, by omega, i, hi.2, 0, by omega, by simp [hS]⟩
  all_goals
    intro s hs c hc
    obtain rfl : c = 0 := by omega
    simp only [hS, Nat.one_mul, Nat.add_zero]
    rcases Nat.eq_zero_or_pos s with rfl | h0
  · rw [u2.frame (f + 0) (by ptr), Ptr.add_zero, e0, Nat.add_zero, Ptr.add_zero]; simp; ring
  · rw [g0 s (mem_rng.2 ⟨h0, hs⟩), hf1 s h0 hs, hg1 s h0 hs, hF1]
  · rw [u2.frame (f + (o.m + 0)) (by ptr), Ptr.add_zero, Nat.add_zero, e1, Ptr.add_zero]
  · rw [g1 s (mem_rng.2 ⟨h0, hs⟩), hf1 s h0 hs, hg1 s h0 hs, hF1]

theorem comb2_many (h : o.Ow) (hp : o.p = 2) {f F : Ptr} {mem : Mem} (pre : o.OwPre mem f F) {Q : Unit → Mem → Prop}
    (hQ : ∀ m1, o.OwComb mem m1 f F → Q () m1) : (do
  par (rng 0 o.C) fun c => do
    let Zetam ← o.ZetaqmS.get o.L
    let Xm := UNPACKL Zetam Zetam
    let Ym := UNPACKH Zetam (-Zetam)
    let V0 ← load (f + c)
    let V1 ← load (f + o.S * o.m + c)
    let V2 ← load (F + c)
    store (f + c) (V0 + V1 + V2)
    store (f + o.S * o.m + c) (V0 + ZMULT2xy Xm Ym V2 V1)
  par (rng2 1 o.m 0 o.C) fun (s, c) => do
    let Zeta ← o.Zetaqm.get (o.m + s)
    let Zetam ← o.ZetaqmS.get (o.L + s)
    let X := UNPACKL Zeta Zeta
    let Y := UNPACKH Zeta (-Zeta)
    let Xm := UNPACKL Zetam Zetam
    let Ym := UNPACKH Zetam (-Zetam)
    let V0 ← load (f + o.S * s + c)
    let V1 ← load (f + o.S * o.m + o.S * s + c)
    let V2 ← load (F + o.S * s + c)
    store (f + o.S * s + c) (V0 + ZMULT2xy X Y V2 V1)
    store (f + o.S * o.m + o.S * s + c) (V0 + ZMULT2xy Xm Ym V2 V1) : Cmd Unit).Ok mem Q := by
  have hm := h.wf.m_pos
  have hCS := h.wf.C_le_S
  obtain ⟨hL, hq⟩ := p2_facts h hp
  have hb := pre.fF
  have hf : ∀ s < o.m, ∀ c < o.C, mem.valid (f + (o.S * s + c)) := fun s hs c hc => by
    have := pre.vf 0 (by omega) s hs c hc; rwa [Nat.mul_zero, Nat.zero_add] at this
  have hg : ∀ s < o.m, ∀ c < o.C, mem.valid (f + (o.S * (o.m + s) + c)) := fun s hs c hc => by
    have := pre.vf 1 (by omega) s hs c hc; rwa [Nat.mul_one] at this
  have hadr : ∀ s, o.S * o.m + o.S * s = o.S * (o.m + s) := fun s => by ring
  have hne : ∀ {s c s' c' : ℕ}, c < o.C → c' < o.C → o.S * s + c = o.S * s' + c' → s = s' ∧ c = c' := fun h1 h2 h3 =>
    radix_inj (by omega) (by omega) h3
  have hne0 : ∀ {s c c' : ℕ}, c < o.C → c' < o.C → o.S * s + c = c' → s = 0 ∧ c = c' := fun h1 h2 h3 =>
    hne h1 h2 (by rw [Nat.mul_zero, Nat.zero_add]; exact h3)
  refine Cmd.Ok.bind (par_map2 (fun c => f + c) (fun c => mem.val (f + c) + mem.val (f + (o.S * o.m + c)) + mem.val (F + c))
    (fun c => f + (o.S * o.m + c)) (fun c => mem.val (f + c) + (w o.M ((0 + o.m : ℕ) * 1) * mem.val (F + c) +
      conj (w o.M ((0 + o.m : ℕ) * 1)) * mem.val (f + (o.S * o.m + c)))) (rng_nodup _ _) ?_ ?_ ?_ ?_ ?_ ?_ ?_)
  · intro c hc
    rw [mem_rng] at hc
    body_simp
    have h1 := hf 0 hm c hc.2
    have h2 := hg 0 hm c hc.2
    have h3 := pre.vF 0 hm c hc.2
    rw [Nat.mul_zero, Nat.zero_add] at h1 h3
    rw [Nat.add_zero] at h2
    exact ⟨by simpa using zqS_bd1 h hp hm, h1, h2, h3, h1, h2⟩
  · intro c hc
    rw [mem_rng] at hc
    body_simp
    have := zqS_val1 h hp hm
    rw [Nat.add_zero] at this
    rw [this, C30_zmult2_xy]
  · ptr
  · ptr
  · intro c hc c' hc' h3
    rw [mem_rng] at hc hc'
    have := hne0 hc'.2 hc.2 (Ptr.add_inj.1 h3).symm
    omega
  · intro c hc c' hc' hcc
    rw [mem_rng] at hc hc'
    body_simp
    refine ⟨⟨?_, ?_, ?_⟩, ?_, ?_, ?_⟩ <;> intro h3
    · have := Ptr.add_inj.1 h3; omega
    · have := hne0 hc'.2 hc.2 (Ptr.add_inj.1 h3).symm; omega
    · exact hb (by simpa using congrArg Ptr.buf h3)
    · have := hne0 hc.2 hc'.2 (Ptr.add_inj.1 h3); omega
    · have := Ptr.add_inj.1 h3; omega
    · exact hb (by simpa using congrArg Ptr.buf h3)
  intro m1 u1 e0 e1
  have hfr1 : ∀ s : ℕ, 0 < s → s < 2 * o.m → s ≠ o.m → ∀ c < o.C, m1.val (f + (o.S * s + c)) = mem.val (f + (o.S * s + c)) :=
    fun s h0 hs hsm c hc => u1.frame _ (by
      rintro (⟨c', hc', h3⟩ | ⟨c', hc', h3⟩) <;> rw [mem_rng] at hc'
      · have := hne0 hc hc'.2 (Ptr.add_inj.1 h3); omega
      · have := hne hc hc'.2 (Ptr.add_inj.1 h3); omega)
  have hF1 : ∀ k : ℕ, m1.val (F + k) = mem.val (F + k) := fun k => u1.frame _ (by
    rintro (⟨c', hc', h3⟩ | ⟨c', hc', h3⟩)
    · exact hb (by simpa using (congrArg Ptr.buf h3).symm)
    · exact hb (by simpa using (congrArg Ptr.buf h3).symm))
  refine par_map2 (fun i => f + (o.S * i.1 + i.2)) (fun i => m1.val (f + (o.S * i.1 + i.2)) +
      (w o.M (i.1 * 1) * m1.val (F + (o.S * i.1 + i.2)) + conj (w o.M (i.1 * 1)) * m1.val (f + (o.S * (o.m + i.1) + i.2))))
    (fun i => f + (o.S * (o.m + i.1) + i.2)) (fun i => m1.val (f + (o.S * i.1 + i.2)) +
      (w o.M ((i.1 + o.m : ℕ) * 1) * m1.val (F + (o.S * i.1 + i.2)) +
        conj (w o.M ((i.1 + o.m : ℕ) * 1)) * m1.val (f + (o.S * (o.m + i.1) + i.2))))
    (rng2_nodup _ _ _ _) ?_ ?_ ?_ ?_ ?_ ?_ ?_
  · rintro ⟨s, c⟩ hi
    rw [mem_rng2] at hi
    obtain ⟨⟨h1, h2⟩, _, hc⟩ := hi
    body_simp
    have g1 := Mem.valid_of_size u1.size (hf s h2 c hc)
    have g2 := Mem.valid_of_size u1.size (hg s h2 c hc)
    have g3 := Mem.valid_of_size u1.size (pre.vF s h2 c hc)
    rw [hadr]
    exact ⟨h.wf.zq_bd1 hq h2, zqS_bd1 h hp h2, g1, g2, g3, g1, g2⟩
  · rintro ⟨s, c⟩ hi
    rw [mem_rng2] at hi
    obtain ⟨⟨h1, h2⟩, _, hc⟩ := hi
    body_simp
    rw [C30_zmult2_xy, C30_zmult2_xy, h.wf.zq_val1 (by omega) h2, zqS_val1 h hp h2, hadr]
  · rintro ⟨s, c⟩ hi ⟨s', c'⟩ hi' h3
    rw [mem_rng2] at hi hi'
    have := hne hi.2.2 hi'.2.2 (Ptr.add_inj.1 h3)
    rw [Prod.mk.injEq]; exact this
  · rintro ⟨s, c⟩ hi ⟨s', c'⟩ hi' h3
    rw [mem_rng2] at hi hi'
    have := hne hi.2.2 hi'.2.2 (Ptr.add_inj.1 h3)
    rw [Prod.mk.injEq]; omega
  · rintro ⟨s, c⟩ hi ⟨s', c'⟩ hi' h3
    rw [mem_rng2] at hi hi'
    have := hne hi.2.2 hi'.2.2 (Ptr.add_inj.1 h3)
    simp only at hi hi' this
    omega
  · rintro ⟨s, c⟩ hi ⟨s', c'⟩ hi' hcc
    rw [mem_rng2] at hi hi'
    simp only at hi hi'
    rw [ne_eq, Prod.mk.injEq] at hcc
    body_simp
    rw [hadr]
    refine ⟨⟨?_, ?_, ?_⟩, ?_, ?_, ?_⟩ <;> intro h3
    · have := hne hi.2.2 hi'.2.2 (Ptr.add_inj.1 h3); omega
    · have := hne hi.2.2 hi'.2.2 (Ptr.add_inj.1 h3); omega
    · exact hb (by simpa using congrArg Ptr.buf h3)
    · have := hne hi.2.2 hi'.2.2 (Ptr.add_inj.1 h3); omega
    · have := hne hi.2.2 hi'.2.2 (Ptr.add_inj.1 h3); omega
    · exact hb (by simpa using congrArg Ptr.buf h3)
  intro m2 u2 g0 g1
  refine hQ m2 (comb2_vals h hp (u1.trans u2 ?_ ?_) ?_ ?_)
  · rintro p (⟨c, hc, rfl⟩ | ⟨c, hc, rfl⟩) <;> rw [mem_rng] at hc
    · exact Or.inl ⟨0, by omega, 0, hm, c, hc.2, by simp⟩
    · exact Or.inl ⟨1, by omega, 0, hm, c, hc.2, by simp⟩
  · rintro p (⟨⟨s, c⟩, hi, rfl⟩ | ⟨⟨s, c⟩, hi, rfl⟩) <;> rw [mem_rng2] at hi
    · exact Or.inl ⟨0, by omega, s, hi.1.2, c, hi.2.2, by simp⟩
    · exact Or.inl ⟨1, by omega, s, hi.1.2, c, hi.2.2, by simp⟩
  all_goals
    intro s hs c hc
    rcases Nat.eq_zero_or_pos s with rfl | h0
  · simp only [Nat.mul_zero, Nat.zero_add, Nat.add_zero]
    rw [u2.frame (f + c), e0 c (mem_rng.2 ⟨by omega, hc⟩)]
    · simp; ring
    rintro (⟨⟨s', c'⟩, hi, h3⟩ | ⟨⟨s', c'⟩, hi, h3⟩) <;> rw [mem_rng2] at hi <;> simp only at hi
    · have := hne0 hi.2.2 hc (Ptr.add_inj.1 h3).symm; omega
    · have := hne0 hi.2.2 hc (Ptr.add_inj.1 h3).symm; omega
  · rw [g0 (s, c) (mem_rng2.2 ⟨⟨h0, hs⟩, by omega, hc⟩)]
    simp only
    rw [hfr1 s h0 (by omega) (by omega) c hc, hfr1 (o.m + s) (by omega) (by omega) (by omega) c hc, hF1]
  · simp only [Nat.mul_zero, Nat.zero_add, Nat.add_zero]
    rw [u2.frame (f + (o.S * o.m + c)), e1 c (mem_rng.2 ⟨by omega, hc⟩), Nat.zero_add]
    rintro (⟨⟨s', c'⟩, hi, h3⟩ | ⟨⟨s', c'⟩, hi, h3⟩) <;> rw [mem_rng2] at hi <;> simp only at hi
    · have := hne hi.2.2 hc (Ptr.add_inj.1 h3).symm; omega
    · have := hne hi.2.2 hc (Ptr.add_inj.1 h3).symm; omega
  · rw [g1 (s, c) (mem_rng2.2 ⟨⟨h0, hs⟩, by omega, hc⟩)]
    simp only
    rw [hfr1 s h0 (by omega) (by omega) c hc, hfr1 (o.m + s) (by omega) (by omega) (by omega) c hc, hF1]

/-- Result of the overwriting backward transform. -/
structure OwBwd (o : Fft) (mem m1 : Mem) (f F : Ptr) : Prop where
  upd : mem.Upd m1 (o.OwW f F)
  e : ∀ j < o.L, ∀ c < o.C, m1.val (f + (o.S * j + c)) =
    (∑ r ∈ range o.p, ∑ i ∈ range o.m, mem.val (f + (o.S * (o.m * r + i) + c)) * w o.M (-((j : ℤ) * (o.q * i + owRes r)))) +
    ∑ i ∈ range o.m, mem.val (F + (o.S * i + c)) * w o.M (-((j : ℤ) * (o.q * i + owRes o.p)))

theorem OwComb.bwd (h : o.Ow) {mem m1 m2 : Mem} {f F : Ptr} (he : o.OwExec (-1) mem m1 f F) (hf : o.OwComb m1 m2 f F) :
    o.OwBwd mem m2 f F := by
  have hm := h.wf.m_pos
  have hq := h.wf.q_pos
  refine ⟨he.upd.trans hf.upd (fun _ h => h) (fun _ h => h), ?_⟩
  intro j hj c hc
  have hL := h.L_eq
  obtain ⟨u, s, hu, hs, rfl⟩ : ∃ u s, u < o.p ∧ s < o.m ∧ j = s + o.m * u :=
    ⟨j / o.m, j % o.m, Nat.div_lt_of_lt_mul (by rw [Nat.mul_comm, ← hL]; exact hj), Nat.mod_lt _ hm, (Nat.mod_add_div _ _).symm⟩
  have e1 := hf.e u hu s hs c hc
  rw [Nat.add_comm (o.m * u) s] at e1
  rw [e1]
  congr 1
  · refine sum_congr rfl fun r hr => ?_
    rw [he.ef r (mem_range.1 hr) s hs c hc]
    exact row_back h.wf.M_eq (by omega) (by omega) (fun i => mem.val (f + (o.S * (o.m * r + i) + c))) (owRes r) s u
  · rw [he.eF s hs c hc]
    exact row_back h.wf.M_eq (by omega) (by omega) (fun i => mem.val (F + (o.S * i + c))) (owRes o.p) s u

theorem owBackward_ok (h : o.Ow) {mem : Mem} {f F : Ptr} (pre : o.OwPre mem f F) (r : ℕ) (W? : Option Ptr) :
    (o.backward F f r W?).Ok mem fun _ m' => o.OwBwd mem m' f F := by
  unfold backward
  rw [h.wf.route_eq, h.ow]
  unfold chooseRoute
  rw [if_neg h.q1, if_neg (by have := h.p2; omega)]
  have hSm := h.wf.Sm_eq
  rcases h.p12 with hp | hp
  · rw [if_neg (by omega)]
    by_cases hS : o.S = 1
    · rw [if_pos hS, if_pos rfl]
      simp only
      unfold backward1All
      refine Cmd.Ok.assoc (Cmd.Ok.bind (exec1 h hp (ifftm_blk h) pre ?_))
      intro m1 h1
      exact comb1_single h hp hS (pre.size h1.upd.size) fun m2 h2 => h2.bwd h h1
    · rw [if_neg hS, if_pos rfl]
      simp only
      unfold backward1ManyAll
      refine Cmd.Ok.assoc (Cmd.Ok.bind (exec1 h hp (ifftm_blk h) pre ?_))
      intro m1 h1
      exact comb1_many h hp (pre.size h1.upd.size) fun m2 h2 => h2.bwd h h1
  · rw [if_pos hp]
    by_cases hS : o.S = 1
    · rw [if_pos hS, if_pos rfl]
      simp only
      unfold backward2All
      have := exec2 h hp (ifftm_blk h) pre (Q := fun _ m1 => o.OwExec (-1) mem m1 f F) fun m1 h1 => h1
      rw [hS, Nat.one_mul] at this
      refine Cmd.Ok.assoc3 (Cmd.Ok.bind (this.mono ?_))
      intro _ m1 h1
      exact comb2_single h hp hS (pre.size h1.upd.size) fun m2 h2 => h2.bwd h h1
    · rw [if_neg hS, if_pos rfl]
      simp only
      unfold backward2ManyAll
      rw [hSm]
      refine Cmd.Ok.assoc3 (Cmd.Ok.bind (exec2 h hp (ifftm_blk h) pre ?_))
      intro m1 h1
      exact comb2_many h hp (pre.size h1.upd.size) fun m2 h2 => h2.bwd h h1

end Fft
end Fftwpp
