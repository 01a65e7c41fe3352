import Verif.Props.MpiConv

/-!
# C53: the frequency of which the multiplier is told
-/

namespace Fftwpp
open Finset Net

theorem list_two_le {l : List ℕ} {f : ℕ → ℕ} {r r' : ℕ} (hr : r ∈ l) (hr' : r' ∈ l) (hne : r ≠ r') : f r + f r' ≤ (l.map f).sum := by
  induction l with
  | nil => simp at hr
  | cons a t ih =>
    have one : ∀ x ∈ t, f x ≤ (t.map f).sum := fun x hx => List.le_sum_of_mem (List.mem_map_of_mem hx)
    rw [List.map_cons, List.sum_cons]
    rcases List.mem_cons.1 hr with rfl | h1 <;> rcases List.mem_cons.1 hr' with rfl | h2
    · exact absurd rfl hne
    · have := one _ h2; omega
    · have := one _ h1; omega
    · have := ih h1 h2; omega

/-- Every frequency is computed at one place only. -/
theorem FftBase.Spec.index_inj {o : FftBase} {x0 : ℤ} {pd : Mem → Ptr → Prop} (h : o.Spec x0 pd) {r r' i i' : ℕ} (hr : r ∈ o.residues) (hr' : r' ∈ o.residues)
    (hi : i < o.noutputs r) (hi' : i' < o.noutputs r') (he : o.index r i = o.index r' i') : r = r' ∧ i = i' := by
  have hs := h.sum fun e => if e = o.index r i then 1 else 0
  have h1 : (o.residues.map fun r' => ∑ j ∈ range (o.noutputs r'), if o.index r' j = o.index r i then 1 else 0).sum ≤ 1 := by
    have : (((o.residues.map fun r' => ∑ j ∈ range (o.noutputs r'), if o.index r' j = o.index r i then 1 else 0).sum : ℕ) : ℂ) =
        ((∑ e ∈ range o.N, if e = o.index r i then 1 else 0 : ℕ) : ℂ) := by
      push_cast
      rw [← hs, List.map_map]
      congr 2
      funext x
      simp
    rw [Nat.cast_injective this]
    rw [Finset.sum_ite_eq']
    split_ifs <;> omega
  have c1 : ∀ x j, j < o.noutputs x → o.index x j = o.index r i → 1 ≤ ∑ j ∈ range (o.noutputs x), if o.index x j = o.index r i then 1 else 0 := by
    intro x j hj hx
    refine le_trans ?_ (single_le_sum (f := fun j => if o.index x j = o.index r i then 1 else 0) (fun _ _ => Nat.zero_le _) (mem_range.2 hj))
    rw [if_pos hx]
  by_cases hrr : r = r'
  · subst hrr
    refine ⟨rfl, ?_⟩
    by_contra hne
    have h2 := List.le_sum_of_mem (List.mem_map_of_mem (f := fun r' => ∑ j ∈ range (o.noutputs r'), if o.index r' j = o.index r i then 1 else 0) hr)
    have h3 : 2 ≤ ∑ j ∈ range (o.noutputs r), if o.index r j = o.index r i then 1 else 0 := by
      have hsub : ({i, i'} : Finset ℕ) ⊆ range (o.noutputs r) := by
        intro x hx
        rcases mem_insert.1 hx with rfl | hx
        · exact mem_range.2 hi
        · rw [mem_singleton.1 hx]; exact mem_range.2 hi'
      refine le_trans ?_ (sum_le_sum_of_subset hsub)
      rw [sum_pair hne, if_pos rfl, if_pos he.symm]
    omega
  · have := list_two_le (f := fun r' => ∑ j ∈ range (o.noutputs r'), if o.index r' j = o.index r i then 1 else 0) hr hr' hrr
    have := c1 r i hi rfl
    have := c1 r' i' hi' he.symm
    omega

/-- The told frequencies are a function of the true ones. -/
theorem kappa_exists {o : FftBase} {x0 : ℤ} {pd : Mem → Ptr → Prop} (h : o.Spec x0 pd) {P : ℕ} (hP : 0 < P) (hn : ∀ r ∈ o.residues, o.noutputs r = o.l) :
    ∃ κ : ℕ → ℕ, ∀ rx ∈ o.residues, ∀ r < P, ∀ i < part o.l P r, o.index rx i = κ (o.index rx (first o.l P r + i)) := by
  have key : ∀ e, ∃ v, ∀ rx ∈ o.residues, ∀ r < P, ∀ i < part o.l P r, o.index rx (first o.l P r + i) = e → o.index rx i = v := by
    intro e
    by_cases hx : ∃ rx ∈ o.residues, ∃ r < P, ∃ i < part o.l P r, o.index rx (first o.l P r + i) = e
    · obtain ⟨rx, hrx, r, hr, i, hi, he⟩ := hx
      refine ⟨o.index rx i, ?_⟩
      intro rx' hrx' r' hr' i' hi' he'
      obtain ⟨e1, e2⟩ := h.index_inj hrx' hrx (by rw [hn _ hrx']; exact first_lt hP hr' hi') (by rw [hn _ hrx]; exact first_lt hP hr hi) (he'.trans he.symm)
      have e3 : r' = r := (ld_has o.l P hP).2.2.1 _ hr' r hr (first o.l P r + i)
        (by rw [← e2]; exact Nat.le_add_right _ _)
        (by rw [← e2]; show _ < first o.l P _ + part o.l P _; omega) (Nat.le_add_right _ _)
        (by show _ < first o.l P r + part o.l P r; omega)
      subst e1 e3
      congr 1
      omega
    · exact ⟨0, fun rx hrx r hr i hi he => absurd ⟨rx, hrx, r, hr, i, hi, he⟩ hx⟩
  choose κ hκ using key
  exact ⟨κ, fun rx hrx r hr i hi => hκ _ rx hrx r hr i hi rfl⟩

/-- A `κ` as required by C53 and C54 exists, for every operation `φ` of the multiplier: the frequency in `x` of which the multiplier is told is a function of the true one. -/
theorem C53_kappa_exists {P : ℕ} {cx : Bool} {L M : ℕ} {app : App} {C S0 m D : ℕ} {inplace : Bool} {t : Tr} (hP : 0 < P) (hC : 0 < C)
    (hnew : Tr.new cx L M app C S0 m D inplace = .ok t) (hD : t.fft.D = 1) :
    ∃ κ : ℕ → ℕ, ∀ rx ∈ t.base.residues, ∀ r < P, ∀ i < part t.base.l P r, t.base.index rx i = κ (t.base.index rx (first t.base.l P r + i)) :=
  kappa_exists (Tr.facts hC hnew).spec hP fun r _ => by rw [(Tr.facts hC hnew).bs hD, Tr.blocksize_eq]

/-! ## The frequency of which the multiplier is told -/

/-- A multiplier of the user (`A=B=1`): multiplication by the frequency in `x` that it is told. -/
noncomputable def multX : Multiplier := fun F n idx _ _ => do
  let F0 ← F.get 0
  par (rng 0 n) fun j => do
    let x ← load (F0 + j)
    store (F0 + j) ((idx.headD 0 : ℕ) * x)

theorem multX_spec {index : ℕ → ℕ → ℕ} : MultSpec 1 1 index multX (fun idx _ X => (idx.tail.headD 0 : ℕ) * X 0) := by
  refine ⟨fun e b X Y h => by rw [h 0 (by omega)], ?_⟩
  intro m F n idx r offset hn hb hsep
  unfold multX
  rw [PtrArr.get_bind (by simp at hn; omega)]
  refine par_map1 (fun j => F.at_ 0 + j) (fun j => (idx.headD 0 : ℕ) * m.val (F.at_ 0 + j)) (rng_nodup _ _) ?_ ?_ ?_ ?_ ?_
  · intro j hj
    rw [mem_rng] at hj
    body_simp
    have h0 := hb 0 (by simp) j hj.2
    exact ⟨h0, h0⟩
  · intro j hj; body_simp
  · ptr
  · body_simp ; ptr
  · intro m' u e
    refine ⟨u.mono ?_, ?_⟩
    · rintro p ⟨j, hj, rfl⟩
      exact ⟨0, by simp, j, (mem_rng.1 hj).2, rfl⟩
    · intro b hb j hj
      obtain rfl : b = 0 := by omega
      exact e j (mem_rng.2 ⟨Nat.zero_le _, hj⟩)

theorem DBuffers.size {P X : ℕ} {fx : ℕ → FftBase} {oy : FftBase} {th : ℕ → ℕ} {mem mem' : ℕ → Mem} {Fu : ℕ → PtrArr} {Vu : ℕ → Option Ptr}
    {al : ℕ → Alloc2} {wrk : ℕ → ℕ → Ptr} (h : DBuffers P X fx oy (fun m al => Conv.Buffers oy m none none al) th mem Fu Vu al wrk)
    (hs : ∀ r < P, (mem' r).size = (mem r).size) : DBuffers P X fx oy (fun m al => Conv.Buffers oy m none none al) th mem' Fu Vu al wrk :=
  ⟨fun r hr => ⟨(h.buf r hr).x.size (hs r hr), fun t ht => ⟨((h.buf r hr).y t ht).work.size (hs r hr),
      fun h1 h2 h3 => ⟨(((h.buf r hr).y t ht).V h1 h2 h3).1.size (hs r hr), (((h.buf r hr).y t ht).V h1 h2 h3).2⟩⟩, (h.buf r hr).sepT, (h.buf r hr).sepX⟩,
    fun r hr a ha => by rw [hs r hr]; exact h.F0 r hr a ha, fun r hr a ha => by rw [hs r hr]; exact h.wk r hr a ha, h.sep⟩

/-- A `2×2` array, distributed over two processes, which is `1` at the origin and `0` elsewhere; process `r` has its column in its first array, at offset 3. -/
noncomputable def deltaMem (r : ℕ) : Mem := ⟨fun _ => 100, fun p => if r = 0 ∧ p = ⟨0, 3⟩ then 1 else 0⟩

/-- The multiplier is told a wrong frequency in `x` (mpi/mpiconvolve.h:94-101): for the operation `φ`, multiplication by the frequency in `x`, on a `2×2` array
(`P=2`, `Lx=Ly=2`, no padding), all hypotheses of C53 are met but the one on `φ`, and for every behaviour of the MPI library the call
leaves `0` at the origin, which is not the inverse transform of `φ` applied to the transform of the data. -/
theorem C53_frequency_refuted : ∃ (tx : ℕ → Tr) (ty : Tr), (∀ r < 2, Tr.new false 2 2 ⟨1, 1, false⟩ (part 2 2 r) (part 2 2 r) 2 1 true = .ok (tx r)) ∧
    Tr.new false 2 2 ⟨1, 1, false⟩ 1 1 2 1 true = .ok ty ∧
    MultSpec 1 1 ty.fft.index multX (fun idx _ X => (idx.tail.headD 0 : ℕ) * X 0) ∧
    ∃ (Fu : ℕ → PtrArr) (al : ℕ → Alloc2) (wrk : ℕ → ℕ → Ptr) (c : ℕ → Conv2) (mem1 : ℕ → Mem),
      DBuffers 2 (tx 0).base.l (fun r => (tx r).base) ty.base (fun m al => Conv.Buffers ty.base m none none al) (fun _ => 1) deltaMem Fu (fun _ => none) al wrk ∧
      (∀ r < 2, Conv2.new (tx r).base ty.base multX 1 (some (Fu r)) none none (al r) (deltaMem r) = .ok (c r, mem1 r)) ∧
      ∃ (σ : ℕ → Local ℂ) (s : ℕ → ℕ → Sch) (D : ℕ → ℕ → ℂ),
        (∀ r < 2, mmem (σ r) = mem1 r) ∧ (∀ r < 2, ∀ id, (σ r).req id = none) ∧ Balanced 2 σ ∧
        (∀ r < 2, (objects 2 1 0 c wrk r).LegalS (s r) ∧ (objects 2 1 0 c wrk r).Inputs (deltaMem r) (exArr 5) 3) ∧
        (∀ r < 2, ∀ i < 2, ∀ j < part 2 2 r, (mmem (σ r)).val ((exArr 5).at_ 0 + 3 + (part 2 2 r * i + j)) = D i (first 2 2 r + j)) ∧
        ∀ e : Eager, AllRuns e (start 2 (fun r => (objects 2 1 0 c wrk r).convolve (s r) (exArr 5) 3) σ) fun f => Finished 2 f ∧
          (mmem (f 0).loc).val ((exArr 5).at_ 0 + 3) = 0 ∧
          convResultC2 2 2 0 2 2 0 (fun kx _ _ X => ((kx : ℕ) : ℂ) * X 0) (fun _ => D) 0 0 0 = 1 / 2 := by
  obtain ⟨t0, h0⟩ : ∃ t, Tr.new false 2 2 ⟨1, 1, false⟩ 1 1 2 1 true = .ok t ∧ t.base.outputSize ≤ 100 ∧ t.fft.S = 1 ∧ t.fft.D = 1 ∧
      t.fft.overwrite = false ∧ t.base.l = 2 ∧ t.fft.q = 1 ∧ t.base.residues = [0] ∧ (∀ i, i < 2 → t.base.index 0 i = i) ∧ t.fft.D0 = 1 :=
    ⟨_, rfl, by show (Fft.outputSize _) ≤ 100; decide, rfl, rfl, rfl, rfl, rfl, rfl, by
      intro i hi
      interval_cases i <;> rfl, rfl⟩
  have hx : ∀ r < 2, Tr.new false 2 2 ⟨1, 1, false⟩ (part 2 2 r) (part 2 2 r) 2 1 true = .ok t0 := by
    intro r hr
    interval_cases r <;> exact h0.1
  obtain ⟨hy, hos, hS, hD, how, hl, hq, hres, hind, hD0⟩ := h0
  have hp : ∀ r < 2, part 2 2 r = 1 := by intro r hr; interval_cases r <;> rfl
  have hfst : ∀ r < 2, first 2 2 r = r := by intro r hr; interval_cases r <;> rfl
  have f := Tr.facts (by omega) hy
  have hA : max t0.base.A t0.base.B ≤ 2 := by rw [f.bA, f.bB]; decide
  have hSL : t0.base.S * t0.base.L ≤ 100 := by rw [f.bS, f.bL, hS]; decide
  have hb := (exDBuffers (P := 2) (X := t0.base.l) (fx := fun _ => t0.base) (oy := t0.base) (th := fun _ => 1) (fun _ _ => hA) (fun _ _ => hos) (fun _ _ => hSL)
    (hA.trans (by omega)) hos hSL (fun r hr => by rw [f.bL, hl, hp r hr]; decide)).size (mem' := deltaMem) (fun _ _ => rfl)
  refine ⟨fun _ => t0, t0, hx, hy, multX_spec, fun r => Conv.newF t0.base none (exAllocK 0), fun _ => exAlloc2 0, fun _ a => ⟨5 + a, 0⟩, ?_⟩
  obtain ⟨c, mem1, e1, hc, hf1, H⟩ := C53_history (optA := 1) (alltoall := 0) (tx := fun _ => t0) (by omega) (by omega) (fun r hr => by rw [hp r hr]; omega) hx
    (fun r hr => by rw [hp r hr]; exact hS) hy hS (by omega) hD how (fun _ _ => by omega) (fun _ _ _ _ => by omega) multX_spec
    (Or.inl ⟨hD0, fun h => absurd h (by rw [how]; decide)⟩) (κ := fun _ => 0) (by
      intro rx hrx r hr i hi ey
      rw [hres] at hrx
      obtain rfl : rx = 0 := by simpa using hrx
      rw [hl, hp r hr] at hi
      obtain rfl : i = 0 := by omega
      rw [hind 0 (by omega)]) hb
  have hwr : ∀ r < 2, ∀ p : Ptr, p.buf = 0 → (mem1 r).val p = (deltaMem r).val p := by
    intro r hr p hp0
    refine (hf1 r hr).2 p ?_
    intro hB
    have h1 : Conv2.NewBufs t0.base t0.base 1 none none (exAlloc2 0) p.buf := hB
    have := exNewBufs2 (hA.trans (by omega)) (hA.trans (by omega)) h1
    omega
  have hin : ∀ r < 2, (objects 2 1 0 c (fun _ a => ⟨5 + a, 0⟩) r).LegalS (fun _ => [(0, 0)]) ∧
      (objects 2 1 0 c (fun _ a => ⟨5 + a, 0⟩) r).Inputs (deltaMem r) (exArr 5) 3 := by
    intro r hr
    have hxf := (hc r hr).1
    refine ⟨?_, ?_, ?_, ?_, ?_⟩
    · intro rx _
      show Sch.Legal _ (part ((c r).x.fft.l * 1) 2 r) (c r).threads
      rw [(hc r hr).1]
      rw [hl, (hc r hr).2.2.1]
      have h2 : part (2 * 1) 2 r = 1 := hp r hr
      have h3 : 0 < Conv2.newThreads t0.base 1 := by
        unfold Conv2.newThreads
        split_ifs <;> omega
      rw [h2]
      refine ⟨by beta_reduce; decide, ?_⟩
      simp
      exact h3
    · show (c r).x.fft.A ≤ _
      rw [hxf, f.bA]; decide
    · intro a _ i hi
      have hi : i < (c r).x.fft.S * (c r).x.fft.L := hi
      rw [hxf, f.bS, f.bL, hS] at hi
      constructor
      · show (0 : ℤ) ≤ 0 + (3 : ℕ) + i
        omega
      · show (0 : ℤ) + (3 : ℕ) + i < (100 : ℕ)
        omega
    · intro a _ a' _ hne p h1 h2
      have e1 := FftBase.data_buf h1
      have e2 := FftBase.data_buf h2
      exact hne (e1.symm.trans e2)
    · intro a ha hB
      have ha : a < (c r).x.fft.A := ha
      rw [hxf, f.bA] at ha
      have ha : a < 1 := ha
      rcases hB with hB | ⟨a', ha', hB⟩
      · have h1 : Conv2.NewBufs t0.base t0.base 1 none none (exAlloc2 0) a := (hc r hr).2.2.2 _ hB
        have := exNewBufs2 (hA.trans (by omega)) (hA.trans (by omega)) h1
        omega
      · have hB : a = 5 + a' := hB
        omega
  have hDat : ∀ r < 2, ∀ i < 2, ∀ j < part 2 2 r, (mmem (exState mem1 r)).val ((exArr 5).at_ 0 + 3 + (part 2 2 r * i + j)) =
      (fun i j => if i = 0 ∧ j = 0 then 1 else 0 : ℕ → ℕ → ℂ) i (first 2 2 r + j) := by
    intro r hr i hi j hj
    rw [exState_mem, hwr r hr _ rfl, hp r hr, hfst r hr]
    rw [hp r hr] at hj
    obtain rfl : j = 0 := by omega
    show (if r = 0 ∧ (⟨0, 0 + (3 : ℕ) + (1 * i + 0 : ℕ)⟩ : Ptr) = ⟨0, 3⟩ then (1 : ℂ) else 0) = if i = 0 ∧ r + 0 = 0 then 1 else 0
    interval_cases r <;> interval_cases i <;> simp
  refine ⟨c, mem1, hb, e1, exState mem1, fun _ _ => [(0, 0)], fun i j => if i = 0 ∧ j = 0 then 1 else 0, fun r _ => exState_mem _ _, fun _ _ _ => rfl,
    fun _ _ _ _ _ => rfl, hin, hDat, ?_⟩
  intro e
  have H1 := (H _ rfl [] (by simp) e (exState mem1) (fun r _ => exState_mem _ _) (fun _ _ _ => rfl) (fun _ _ _ _ _ => rfl)).2 0 _ (StepN.zero _) (by
    rintro u ⟨i, p, hp, _⟩
    unfold start Proc.step at hp
    split_ifs at hp <;> simp [Conv2MPI.stepsProg] at hp)
  have H2 := H1.2 (fun _ _ => [(0, 0)]) (fun _ => exArr 5) (fun _ => 3) hin (fun _ i j => if i = 0 ∧ j = 0 then 1 else 0) (by
    intro r hr a ha i hi j hj
    obtain rfl : a = 0 := by omega
    exact hDat r hr i hi j hj)
  refine AllRuns.mono H2 ?_
  rintro f3 ⟨fin3, v3, _⟩
  refine ⟨fin3, ?_, ?_⟩
  · have := v3 0 (by omega) 0 (by omega) 0 (by omega) 0 (by rw [hp 0 (by omega)]; omega)
    refine Eq.trans ?_ (this.trans ?_)
    · rfl
    · unfold convResultC2
      simp
  · unfold convResultC2 cdft2
    simp [sum_range_succ, w_zero]

end Fftwpp
