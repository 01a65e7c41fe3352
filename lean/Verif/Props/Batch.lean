import Verif.Props.Fftw

/-! # C22, C29: batched transforms and normalization -/

namespace Fftwpp
open Finset

/-! ## C22 -/

theorem block_facts {M T i : ℕ} (hT : 0 < T) (hi : i ≤ T) : blockStart M T i = i * (M / T) + (i - (T - M % T)) := by
  unfold blockStart
  have h1 : M - M / T * T = M % T := by
    have := Nat.div_add_mod M T
    rw [Nat.mul_comm] at this; omega
  simp only [h1]
  split_ifs <;> omega

theorem block_next {M T i : ℕ} (hT : 0 < T) (hi : i < T) : blockStart M T (i + 1) = blockStart M T i + blockCount M T i := by
  rw [block_facts hT (by omega), block_facts hT (by omega)]
  unfold blockCount
  have h1 : M - M / T * T = M % T := by
    have := Nat.div_add_mod M T
    rw [Nat.mul_comm] at this; omega
  simp only [h1]
  have : (i + 1) * (M / T) = i * (M / T) + M / T := by ring
  split_ifs <;> omega

theorem block_end {M T : ℕ} (hT : 0 < T) : blockStart M T T = M := by
  rw [block_facts hT (le_refl _)]
  have := Nat.div_add_mod M T
  have := Nat.mod_lt M hT
  omega

theorem block_zero {M T : ℕ} (hT : 0 < T) : blockStart M T 0 = 0 := by
  rw [block_facts hT (Nat.zero_le _)]
  have := Nat.mod_lt M hT
  omega

/-- **C22**, arithmetic: over the threads `i=0,…,T-1` the blocks of transforms executed are exactly `0,…,M-1`, each once, in
order. -/
theorem C22_blocks_partition {M T : ℕ} (hT : 0 < T) :
    (List.range T).flatMap (fun i => List.range' (blockStart M T i) (blockCount M T i)) = List.range M := by
  have key : ∀ t, t ≤ T → (List.range t).flatMap (fun i => List.range' (blockStart M T i) (blockCount M T i)) =
      List.range (blockStart M T t) := by
    intro t
    induction t with
    | zero => intro _; rw [block_zero hT]; rfl
    | succ t ih =>
      intro ht
      rw [List.range_succ, List.flatMap_append, ih (by omega), block_next hT (by omega), List.flatMap_singleton,
        List.range_eq_range', List.range_eq_range']
      have := List.range'_append (s := 0) (m := blockStart M T t) (n := blockCount M T t) (step := 1)
      simpa using this
  rw [key T (le_refl _), block_end hT]

theorem block_mono {M T i j : ℕ} (hT : 0 < T) (hij : i ≤ j) (hj : j ≤ T) : blockStart M T i ≤ blockStart M T j := by
  rw [block_facts hT (by omega), block_facts hT hj]
  have : i * (M / T) ≤ j * (M / T) := Nat.mul_le_mul_right _ hij
  omega

theorem block_le {M T i k : ℕ} (hT : 0 < T) (hi : i < T) (hk : k < blockCount M T i) : blockStart M T i + k < M := by
  have h1 := block_next (M := M) hT hi
  have h2 := block_mono (M := M) hT (Nat.succ_le_of_lt hi) (le_refl T)
  rw [block_end hT] at h2
  simp only [Nat.succ_eq_add_one] at h2
  omega

theorem block_disjoint {M T i j k l : ℕ} (hT : 0 < T) (hi : i < T) (hj : j < T) (hij : i ≠ j) (hk : k < blockCount M T i)
    (hl : l < blockCount M T j) : blockStart M T i + k ≠ blockStart M T j + l := by
  have h1 := block_next (M := M) hT hi
  have h2 := block_next (M := M) hT hj
  rcases Nat.lt_or_gt_of_ne hij with h | h
  · have h3 := block_mono (M := M) hT (Nat.succ_le_of_lt h) hj.le
    simp only [Nat.succ_eq_add_one] at h3
    omega
  · have h3 := block_mono (M := M) hT (Nat.succ_le_of_lt h) hi.le
    simp only [Nat.succ_eq_add_one] at h3
    omega

theorem block_cover {M T k : ℕ} (hT : 0 < T) (hk : k < M) : ∃ i < T, ∃ l < blockCount M T i, k = blockStart M T i + l := by
  have : k ∈ List.range M := List.mem_range.2 hk
  rw [← C22_blocks_partition hT] at this
  obtain ⟨i, hi, h⟩ := List.mem_flatMap.1 this
  rw [List.mem_range'_1] at h
  exact ⟨i, List.mem_range.1 hi, k - blockStart M T i, by omega, by omega⟩

theorem Cmd.bind_run {α β : Type} {c : Cmd α} {k : α → Cmd β} {m m' : Mem} {a : α} (h : c m = .ok (a, m')) :
    (c >>= k) m = k a m' := by
  show (match c m with | .ok (a, m') => k a m' | .error e => .error e) = _
  rw [h]

/-- The outputs of different transforms (and of different elements) are different words. -/
def BPlan.OutDistinct (pl : BPlan) : Prop :=
  ∀ k < pl.howmany, ∀ j < pl.n, ∀ k' < pl.howmany, ∀ j' < pl.n,
    k * pl.odist + j * pl.ostride = k' * pl.odist + j' * pl.ostride → k = k' ∧ j = j'

/-- No word is an input of one transform and an output of another one. -/
def BPlan.Independent (pl : BPlan) (src dst : Ptr) : Prop :=
  ∀ k < pl.howmany, ∀ j < pl.n, ∀ k' < pl.howmany, ∀ j' < pl.n, k ≠ k' → pl.iaddr src k j ≠ pl.oaddr dst k' j'

/-- Out-of-place transforms are independent. -/
theorem BPlan.independent_outofplace {pl : BPlan} {src dst : Ptr} (h : src.buf ≠ dst.buf) : pl.Independent src dst :=
  fun _ _ _ _ _ _ _ _ _ => Ptr.ne_of_buf h

/-- In-place transforms with the same input and output layout are independent. -/
theorem BPlan.independent_inplace {pl : BPlan} {src : Ptr} (hs : pl.istride = pl.ostride) (hd : pl.idist = pl.odist)
    (ho : pl.OutDistinct) : pl.Independent src src := by
  intro k hk j hj k' hk' j' hj' hne he
  unfold BPlan.iaddr BPlan.oaddr at he
  rw [Ptr.add_inj, hs, hd] at he
  exact hne (ho k hk j hj k' hk' j' hj' he).1

theorem BPlan.exec_ok {pl : BPlan} {src dst : Ptr} {m : Mem} (hb : pl.InBounds src dst m) (hd : pl.OutDistinct) :
    ∃ m', pl.exec src dst m = .ok ((), m') ∧ m'.size = m.size ∧
      (∀ k < pl.howmany, ∀ j < pl.n, m'.val (pl.oaddr dst k j) =
        ∑ s ∈ range pl.n, m.val (pl.iaddr src k s) * w pl.n (pl.sign * s * j)) ∧
      (∀ p, (∀ k < pl.howmany, ∀ j < pl.n, p ≠ pl.oaddr dst k j) → m'.val p = m.val p) := by
  unfold BPlan.exec
  rw [if_pos hb]
  refine ⟨_, rfl, rfl, ?_, ?_⟩
  · intro k hk j hj
    have h : ∃ kj : ℕ × ℕ, kj.1 < pl.howmany ∧ kj.2 < pl.n ∧ pl.oaddr dst k j = pl.oaddr dst kj.1 kj.2 := ⟨(k, j), hk, hj, rfl⟩
    have hs := h.choose_spec
    have := hd k hk j hj _ hs.1 _ hs.2.1 (Ptr.add_inj.1 hs.2.2)
    simp only [dif_pos h]
    rw [← this.1, ← this.2]
  · intro p hp
    simp only
    rw [dif_neg]
    rintro ⟨ck, h1, h2, h3⟩
    exact hp _ h1 _ h2 h3

/-- **C22.** For every number `M` of transforms, number `T` of threads, layout and order of execution of the threads: the
multithreaded batch terminates with the same memory as the single plan for all `M` transforms, provided no transform reads
what another one writes. -/
theorem C22_execute {pl : BPlan} {T : ℕ} (hT : 0 < T) {order : List ℕ} (ho : order.Perm (List.range T)) {src dst : Ptr}
    {mem : Mem} (hb : pl.InBounds src dst mem) (hd : pl.OutDistinct) (hi : pl.Independent src dst) :
    ∃ m', fftwblockExecute pl T order src dst mem = .ok ((), m') ∧ pl.exec src dst mem = .ok ((), m') := by
  obtain ⟨mf, e1, hs, hv, hf⟩ := BPlan.exec_ok hb hd
  by_cases h1 : T = 1
  · unfold fftwblockExecute
    rw [if_pos h1]
    exact ⟨mf, e1, e1⟩
  refine ⟨mf, ?_, e1⟩
  unfold fftwblockExecute
  rw [if_neg h1]
  have haddr : ∀ (p : Ptr) (d s a k j : ℕ), p + a * d + (k * d + j * s) = p + ((a + k) * d + j * s) := by
    intro p d s a k j; rw [Ptr.add_add]; congr 1; ring
  let M := pl.howmany
  let Inv : (ℕ → Prop) → Mem → Prop := fun done m1 => m1.size = mem.size ∧
    (∀ i < T, done i → ∀ l < blockCount M T i, ∀ j < pl.n, m1.val (pl.oaddr dst (blockStart M T i + l) j) =
      ∑ s ∈ range pl.n, mem.val (pl.iaddr src (blockStart M T i + l) s) * w pl.n (pl.sign * s * j)) ∧
    (∀ p, (∀ i < T, done i → ∀ l < blockCount M T i, ∀ j < pl.n, p ≠ pl.oaddr dst (blockStart M T i + l) j) →
      m1.val p = mem.val p)
  have loop : ∀ (l : List ℕ) (done : ℕ → Prop) (m1 : Mem), l.Nodup → (∀ i ∈ l, i < T) → (∀ i ∈ l, ¬ done i) → Inv done m1 →
      ∃ m2, seqLoop l (fun i => BPlan.exec { pl with howmany := blockCount pl.howmany T i }
        (src + blockStart pl.howmany T i * pl.idist) (dst + blockStart pl.howmany T i * pl.odist)) m1 = .ok ((), m2) ∧
        Inv (fun i => done i ∨ i ∈ l) m2 := by
    intro l
    induction l with
    | nil => intro done m1 _ _ _ h; exact ⟨m1, rfl, by simpa using h⟩
    | cons i l ih =>
      intro done m1 hnd hlt hnot hI
      obtain ⟨g1, g2, g3⟩ := hI
      have hiT := hlt i (by simp)
      have hM : ∀ l < blockCount M T i, blockStart M T i + l < M := fun l hl => block_le hT hiT hl
      obtain ⟨m2, e2, s2, v2, f2⟩ := BPlan.exec_ok (pl := { pl with howmany := blockCount pl.howmany T i })
        (src := src + blockStart pl.howmany T i * pl.idist) (dst := dst + blockStart pl.howmany T i * pl.odist) (m := m1)
        (by
          intro k hk j hj
          simp only [BPlan.iaddr, BPlan.oaddr, haddr] at *
          have := hb _ (hM k hk) j hj
          exact ⟨Mem.valid_of_size g1 this.1, Mem.valid_of_size g1 this.2⟩)
        (by
          intro k hk j hj k' hk' j' hj' he
          simp only at *
          have := hd _ (hM k hk) j hj _ (hM k' hk') j' hj' (by
            rw [Nat.add_mul, Nat.add_mul]; omega)
          omega)
      simp only [BPlan.iaddr, BPlan.oaddr, haddr] at v2 f2
      have hI2 : Inv (fun x => done x ∨ x = i) m2 := by
        refine ⟨s2.trans g1, ?_, ?_⟩
        · rintro i' hi' (hdi | rfl) l' hl' j hj
          · have hne : i' ≠ i := by rintro rfl; exact hnot i' (by simp) hdi
            rw [f2]
            · exact g2 i' hi' hdi l' hl' j hj
            · intro k hk j' hj' he
              have := (hd _ (block_le hT hi' hl') j hj _ (hM k hk) j' hj' (Ptr.add_inj.1 he)).1
              exact block_disjoint hT hi' hiT hne hl' hk this
          · have := v2 l' hl' j hj
            refine this.trans ?_
            refine sum_congr rfl fun s hs => ?_
            congr 1
            apply g3
            intro i'' hi'' hdi'' l'' hl'' j'' hj''
            have hne : i'' ≠ i' := by rintro rfl; exact hnot i'' (by simp) hdi''
            exact hi _ (hM l' hl') s (mem_range.1 hs) _ (block_le hT hi'' hl'') j'' hj''
              (block_disjoint hT hiT hi'' hne.symm hl' hl'')
        · intro p hp
          rw [f2]
          · exact g3 p (fun i' hi' hdi l' hl' j hj => hp i' hi' (Or.inl hdi) l' hl' j hj)
          · intro k hk j hj
            exact hp i hiT (Or.inr rfl) k hk j hj
      obtain ⟨m3, e3, hI3⟩ := ih (fun x => done x ∨ x = i) m2 (List.nodup_cons.1 hnd).2
        (fun x hx => hlt x (List.mem_cons_of_mem _ hx))
        (by
          rintro x hx (h | rfl)
          · exact hnot x (List.mem_cons_of_mem _ hx) h
          · exact (List.nodup_cons.1 hnd).1 hx) hI2
      refine ⟨m3, ?_, ?_⟩
      · simp only [seqLoop, e2]; exact e3
      · convert hI3 using 2
        simp [or_assoc]
  obtain ⟨m2, e2, j1, j2, j3⟩ := loop order (fun _ => False) mem (ho.nodup_iff.2 List.nodup_range)
    (fun i hi => List.mem_range.1 (ho.mem_iff.1 hi)) (fun _ _ h => h) ⟨rfl, fun _ _ h => h.elim, fun _ _ => rfl⟩
  have hall : ∀ i < T, i ∈ order := fun i hi => ho.mem_iff.2 (List.mem_range.2 hi)
  have hm : m2 = mf := by
    ext x
    · rw [j1, hs]
    · by_cases hx : ∃ k < pl.howmany, ∃ j < pl.n, x = pl.oaddr dst k j
      · obtain ⟨k, hk, j, hj, rfl⟩ := hx
        obtain ⟨i, hiT, l, hl, rfl⟩ := block_cover hT hk
        rw [hv _ hk j hj]
        exact j2 i hiT (Or.inr (hall i hiT)) l hl j hj
      · push_neg at hx
        rw [hf x hx]
        refine j3 x ?_
        intro i hiT _ l hl j hj
        exact hx _ (block_le hT hiT hl) j hj
  rw [← hm]
  exact e2

/-- A case meeting the hypotheses of `C22_execute`: 5 contiguous in-place transforms of length 3. -/
example : (BPlan.mk 3 1 5 1 1 3 3).OutDistinct ∧ (BPlan.mk 3 1 5 1 1 3 3).Independent ⟨0, 0⟩ ⟨0, 0⟩ := by
  have h : (BPlan.mk 3 1 5 1 1 3 3).OutDistinct := by
    intro k _ j hj k' _ j' hj' he
    simp only at *
    omega
  exact ⟨h, BPlan.independent_inplace rfl rfl h⟩

/-- The independence hypothesis is needed, and `fftwblock::init` does not establish it: for `Complex` transforms its test
is always true, so an in-place batch whose input and output layouts differ (here 2 transforms of length 2, transposed) may be
split over 2 threads, and then the result is not that of the batch. -/
theorem C22_inplace_transposed_refuted :
    blockAllowed false false true 2 1 2 2 1 = true ∧
    ∃ mem m1 m2, fftwblockExecute ⟨2, 1, 2, 1, 2, 2, 1⟩ 2 [0, 1] ⟨0, 0⟩ ⟨0, 0⟩ mem = .ok ((), m1) ∧
      BPlan.exec ⟨2, 1, 2, 1, 2, 2, 1⟩ ⟨0, 0⟩ ⟨0, 0⟩ mem = .ok ((), m2) ∧ m1.val ⟨0, 1⟩ ≠ m2.val ⟨0, 1⟩ := by
  refine ⟨by decide, ⟨fun _ => 4, fun p => if p.off = 0 then 1 else 0⟩, ?_⟩
  have hval : ∀ (m : Mem) (i : ℕ), m.size 0 = 4 → i < 4 → m.valid ((⟨0, 0⟩ : Ptr) + i) := by
    intro m i hm hi
    constructor
    · show (0 : ℤ) ≤ 0 + i; omega
    · show (0 : ℤ) + i < (m.size 0 : ℤ); rw [hm]; omega
  have hd : (BPlan.mk 2 1 2 1 2 2 1).OutDistinct := by
    intro k hk j hj k' hk' j' hj' he
    simp only at *
    omega
  have hd1 : (BPlan.mk 2 1 1 1 2 2 1).OutDistinct := by
    intro k hk j hj k' hk' j' hj' he
    simp only at *
    omega
  generalize hmem : (⟨fun _ => 4, fun p => if p.off = 0 then 1 else 0⟩ : Mem) = mem
  have hsz : mem.size 0 = 4 := by rw [← hmem]
  have hv0 : ∀ i : ℕ, mem.val ((⟨0, 0⟩ : Ptr) + i) = if i = 0 then 1 else 0 := by
    intro i; rw [← hmem]; show (if (0 : ℤ) + i = 0 then (1 : ℂ) else 0) = _
    congr 1; simp
  obtain ⟨m2, e2, s2, v2, f2⟩ := BPlan.exec_ok (pl := ⟨2, 1, 2, 1, 2, 2, 1⟩) (src := ⟨0, 0⟩) (dst := ⟨0, 0⟩) (m := mem)
    (fun k hk j hj => by simp only at hk hj; exact ⟨hval _ _ hsz (by simp only; omega), hval _ _ hsz (by simp only; omega)⟩) hd
  obtain ⟨m3, e3, s3, v3, f3⟩ := BPlan.exec_ok (pl := ⟨2, 1, 1, 1, 2, 2, 1⟩) (src := (⟨0, 0⟩ : Ptr) + 0) (dst := (⟨0, 0⟩ : Ptr) + 0) (m := mem)
    (fun k hk j hj => by
      simp only [BPlan.iaddr, BPlan.oaddr, Ptr.add_add] at *
      obtain rfl : k = 0 := by omega
      exact ⟨hval _ _ hsz (by omega), hval _ _ hsz (by omega)⟩) hd1
  have hsz3 : m3.size 0 = 4 := by rw [s3, hsz]
  obtain ⟨m4, e4, s4, v4, f4⟩ := BPlan.exec_ok (pl := ⟨2, 1, 1, 1, 2, 2, 1⟩) (src := (⟨0, 0⟩ : Ptr) + 2) (dst := (⟨0, 0⟩ : Ptr) + 1) (m := m3)
    (fun k hk j hj => by
      simp only [BPlan.iaddr, BPlan.oaddr, Ptr.add_add] at *
      obtain rfl : k = 0 := by omega
      exact ⟨hval _ _ hsz3 (by omega), hval _ _ hsz3 (by omega)⟩) hd1
  refine ⟨m4, m2, ?_, e2, ?_⟩
  · unfold fftwblockExecute
    rw [if_neg (by norm_num)]
    simp only [seqLoop]
    have c0 : blockCount 2 2 0 = 1 := rfl
    have c1 : blockCount 2 2 1 = 1 := rfl
    have b0 : blockStart 2 2 0 = 0 := rfl
    have b1 : blockStart 2 2 1 = 1 := rfl
    simp only [c0, c1, b0, b1, Nat.zero_mul, Nat.one_mul, e3, e4]
  · have h1 := v2 1 (by norm_num) 0 (by norm_num)
    have h4 := v4 0 (by norm_num) 0 (by norm_num)
    have h3 := v3 0 (by norm_num) 1 (by norm_num)
    have h3' := f3 ((⟨0, 0⟩ : Ptr) + 3) (by
      intro k hk j hj
      simp only [BPlan.oaddr, Ptr.add_add, ne_eq, Ptr.add_inj] at *
      omega)
    simp only [BPlan.iaddr, BPlan.oaddr, Ptr.add_add, hv0, sum_range_succ, range_zero, sum_empty] at h1 h4 h3 h3'
    norm_num at h1 h4 h3 h3'
    have e1 : (⟨0, 1⟩ : Ptr) = (⟨0, 0⟩ : Ptr) + 1 := rfl
    rw [e1, h1, h4, h3, h3']
    norm_num

/-! ## C29 -/

theorem normalizeAll_ok {half : ℕ} {norm : ℂ} {out : Ptr} {mem : Mem} (hb : mem.block out half) :
    (normalizeAll half norm out).Ok mem fun _ m' => m'.size = mem.size ∧
      (∀ i < half, m'.val (out + (i : ℕ)) = mem.val (out + i) * norm) ∧
      ∀ p, (∀ i < half, p ≠ out + (i : ℕ)) → m'.val p = mem.val p := by
  refine par_map1 (fun i => out + i) (fun i => mem.val (out + i) * norm) (rng_nodup _ _) ?_ ?_ ?_ ?_ ?_
  · intro i hi; rw [mem_rng] at hi; body_simp; exact ⟨hb i hi.2, hb i hi.2⟩
  · intro i _; body_simp
  · ptr
  · body_simp <;> ptr
  · intro m' u e
    refine ⟨u.size, fun i hi => e i (mem_rng.2 ⟨Nat.zero_le _, hi⟩), fun p hp => u.frame p ?_⟩
    rintro ⟨i, hi, rfl⟩
    exact hp i (mem_rng.1 hi).2 rfl

/-- Inversion of the unnormalized DFT of either sign. -/
theorem dft_inv_sign {n : ℕ} (hn : n ≠ 0) {s : ℤ} (hs : s = 1 ∨ s = -1) (x : ℕ → ℂ) {j : ℕ} (hj : j < n) :
    ∑ k ∈ range n, (∑ i ∈ range n, x i * w n (s * i * k)) * w n (-s * k * j) = n * x j := by
  simp only [sum_mul]
  rw [sum_comm, sum_eq_single j]
  · have : ∀ k ∈ range n, x j * w n (s * (j : ℤ) * (k : ℤ)) * w n (-s * k * j) = x j := by
      intro k _
      rw [mul_assoc, ← w_add, show s * (j : ℤ) * k + -s * k * j = 0 by ring, w_zero, mul_one]
    rw [sum_congr rfl this, sum_const, card_range, nsmul_eq_mul]
  · intro i hi hij
    rw [mem_range] at hi
    have : ∀ k ∈ range n, x i * w n (s * (i : ℤ) * (k : ℤ)) * w n (-s * k * j) = x i * w n (k * (s * ((i : ℤ) - j))) := by
      intro k _
      rw [mul_assoc, ← w_add]
      congr 2; ring
    rw [sum_congr rfl this, ← mul_sum, w_sum n hn, if_neg, mul_zero]
    intro hd
    have hd' : (n : ℤ) ∣ (i : ℤ) - j := by
      rcases hs with rfl | rfl
      · simpa using hd
      · rw [← dvd_neg]; simpa using hd
    have := Int.eq_zero_of_abs_lt_dvd hd' (by rw [abs_lt]; constructor <;> omega)
    omega
  · intro hj'; exact absurd (mem_range.2 hj) hj'

/-- **C29.** For `fft1d` and `mfft1d` of every length `nx`, number `M` of vectors, strides and distances: `fft(f,g)` with
sign `s` followed by `fftNormalized(g,f)` with sign `-s` (and the layouts exchanged) returns every element of `f`.  `f` and
`g` are the same array with the same layout, or different arrays; `f` has room for the `doubles/2` words that `Normalize`
scales (the larger of the two spans). -/
theorem C29_inverse {nx M istride ostride idist odist : ℕ} {s : ℤ} (hs : s = 1 ∨ s = -1) (hn : 0 < nx) (hM : 0 < M)
    {f g : Ptr} {mem : Mem}
    (hfg : (f = g ∧ istride = ostride ∧ Dist nx istride idist = Dist nx ostride odist) ∨ f.buf ≠ g.buf)
    (hin : (MFft.new nx s M ostride istride odist idist).pl.OutDistinct)
    (hout : (MFft.new nx s M istride ostride idist odist).pl.OutDistinct)
    (hf : mem.block f (MFft.new nx s M istride ostride idist odist).half)
    (hg : mem.block g ((nx - 1) * ostride + (M - 1) * Dist nx ostride odist + 1)) :
    (do (MFft.new nx s M istride ostride idist odist).fft f g
        (MFft.new nx (-s) M ostride istride odist idist).fftNormalized g f : Cmd Unit).Ok mem fun _ m' =>
      ∀ k < M, ∀ j < nx, m'.val (f + (k * Dist nx istride idist + j * istride)) =
        mem.val (f + (k * Dist nx istride idist + j * istride)) := by
  have hspan : ∀ (d t k j : ℕ), k < M → j < nx → k * d + j * t < (nx - 1) * t + (M - 1) * d + 1 := by
    intro d t k j hk hj
    have h1 : k * d ≤ (M - 1) * d := Nat.mul_le_mul_right _ (by omega)
    have h2 : j * t ≤ (nx - 1) * t := Nat.mul_le_mul_right _ (by omega)
    omega
  have hfb : ∀ k j, k < M → j < nx → k * Dist nx istride idist + j * istride <
      (MFft.new nx s M istride ostride idist odist).half := by
    intro k j hk hj
    exact lt_of_lt_of_le (hspan (Dist nx istride idist) istride k j hk hj) (le_max_left _ _)
  obtain ⟨m1, e1, s1, v1, f1⟩ := BPlan.exec_ok (pl := (MFft.new nx s M istride ostride idist odist).pl) (src := f) (dst := g)
    (m := mem) (by
      intro k hk j hj
      exact ⟨hf _ (hfb k j hk hj), hg _ (hspan _ _ k j hk hj)⟩) hout
  obtain ⟨m2, e2, s2, v2, f2⟩ := BPlan.exec_ok (pl := (MFft.new nx (-s) M ostride istride odist idist).pl) (src := g) (dst := f)
    (m := m1) (by
      intro k hk j hj
      exact ⟨Mem.valid_of_size s1 (hg _ (hspan _ _ k j hk hj)), Mem.valid_of_size s1 (hf _ (hfb k j hk hj))⟩) (by
      intro k hk j hj k' hk' j' hj' he
      exact hin k hk j hj k' hk' j' hj' he)
  have hhalf : (MFft.new nx (-s) M ostride istride odist idist).half = (MFft.new nx s M istride ostride idist odist).half :=
    max_comm _ _
  obtain ⟨_, m3, e3, s3, v3, f3⟩ := normalizeAll_ok (half := (MFft.new nx (-s) M ostride istride odist idist).half)
    (norm := 1 / (nx : ℂ)) (out := f) (mem := m2) (by
      rw [hhalf]
      intro i hi
      exact Mem.valid_of_size (s2.trans s1) (hf i hi))
  refine ⟨(), m3, ?_, ?_⟩
  · exact (Cmd.bind_run (c := MFft.fft _ f g) e1).trans ((Cmd.bind_run (c := BPlan.exec _ g f) e2).trans e3)
  · intro k hk j hj
    rw [v3 _ (by rw [hhalf]; exact hfb k j hk hj)]
    have h2 := v2 k hk j hj
    have h1 : ∀ t < nx, m1.val (g + (k * Dist nx ostride odist + t * ostride)) =
      ∑ i ∈ range nx, mem.val (f + (k * Dist nx istride idist + i * istride)) * w nx (s * i * t) :=
      fun t ht => v1 k hk t ht
    have h3 : m2.val (f + (k * Dist nx istride idist + j * istride)) =
        ∑ t ∈ range nx, m1.val (g + (k * Dist nx ostride odist + t * ostride)) * w nx (-s * t * j) := h2
    rw [h3, sum_congr rfl fun t ht => by rw [h1 t (mem_range.1 ht)],
      dft_inv_sign (by omega) hs (fun i => mem.val (f + (k * Dist nx istride idist + i * istride))) hj]
    have : (nx : ℂ) ≠ 0 := by exact_mod_cast (by omega : nx ≠ 0)
    field_simp

/-- A case meeting the hypotheses of `C29_inverse`: 3 interleaved in-place transforms of length 4. -/
example : (MFft.new 4 1 3 3 3 1 1).pl.OutDistinct := by
  intro k hk j hj k' hk' j' hj' he
  simp [MFft.new, Dist] at *
  omega

/-- The room required of `f` in `C29_inverse` is needed: an out-of-place transform whose input layout is longer than its output
layout scales words beyond the output array.  Here 1 transform of length 2, input stride 3, output stride 1, with arrays of
exactly 4 and 2 words. -/
theorem C29_normalize_overrun_refuted : ∃ mem : Mem, mem.block ⟨0, 0⟩ 4 ∧ mem.block ⟨1, 0⟩ 2 ∧
    (MFft.new 2 1 1 3 1 0 0).fftNormalized ⟨0, 0⟩ ⟨1, 0⟩ mem = .error .ub := by
  let mem : Mem := ⟨fun b => if b = 0 then 4 else 2, fun _ => 0⟩
  have hb0 : mem.block ⟨0, 0⟩ 4 := fun i hi => ⟨by show (0 : ℤ) ≤ 0 + i; omega, by show (0 : ℤ) + i < (4 : ℕ); omega⟩
  have hb1 : mem.block ⟨1, 0⟩ 2 := fun i hi => ⟨by show (0 : ℤ) ≤ 0 + i; omega, by show (0 : ℤ) + i < (2 : ℕ); omega⟩
  refine ⟨mem, hb0, hb1, ?_⟩
  obtain ⟨m1, e1, s1, v1, f1⟩ := BPlan.exec_ok (pl := (MFft.new 2 1 1 3 1 0 0).pl) (src := ⟨0, 0⟩) (dst := ⟨1, 0⟩) (m := mem)
    (by
      intro k hk j hj
      simp only [MFft.new, Dist] at hk hj
      refine ⟨hb0 _ ?_, hb1 _ ?_⟩ <;> simp only [MFft.new, Dist] <;> simp <;> omega)
    (by
      intro k hk j hj k' hk' j' hj' he
      simp [MFft.new, Dist] at *
      omega)
  refine (Cmd.bind_run (c := BPlan.exec _ ⟨0, 0⟩ ⟨1, 0⟩) e1).trans ?_
  show normalizeAll 4 _ ⟨1, 0⟩ m1 = _
  unfold normalizeAll par
  split_ifs with hr
  · have hsz : m1.size 1 = 2 := by rw [s1]; rfl
    have hbad : ∀ m : Mem, m.size 1 = 2 → ¬ m.valid ((⟨1, 0⟩ : Ptr) + 2) := by
      rintro m hm ⟨_, h⟩
      have : (0 : ℤ) + (2 : ℕ) < (m.size 1 : ℤ) := h
      rw [hm] at this
      omega
    have hgood : ∀ (m : Mem) (i : ℕ), m.size 1 = 2 → i < 2 → m.valid ((⟨1, 0⟩ : Ptr) + i) := by
      intro m i hm hi
      constructor
      · show (0 : ℤ) ≤ 0 + i; omega
      · show (0 : ℤ) + i < (m.size 1 : ℤ); rw [hm]; omega
    have step : ∀ (m : Mem) (i : ℕ), m.size 1 = 2 → i < 2 → ∃ m', (do
        let v ← load ((⟨1, 0⟩ : Ptr) + i)
        store ((⟨1, 0⟩ : Ptr) + i) (v * (1 / (((MFft.new 2 1 1 3 1 0 0).pl.n : ℕ) : ℂ))) : Body Unit).run m = .ok ((), m') ∧ m'.size 1 = 2 := by
      intro m i hm hi
      obtain ⟨_, m', h1, h2⟩ := run_map1 (m := m) (Q := fun _ m' => m'.size = m.size) (body := (do
        let v ← load ((⟨1, 0⟩ : Ptr) + i)
        store ((⟨1, 0⟩ : Ptr) + i) (v * (1 / (((MFft.new 2 1 1 3 1 0 0).pl.n : ℕ) : ℂ))) : Body Unit))
        ((⟨1, 0⟩ : Ptr) + i) (m.val ((⟨1, 0⟩ : Ptr) + i) * (1 / (((MFft.new 2 1 1 3 1 0 0).pl.n : ℕ) : ℂ)))
        (by body_simp; exact ⟨hgood m i hm hi, hgood m i hm hi⟩) (by body_simp) (fun m' u _ => u.size)
      exact ⟨m', h1, by rw [h2, hm]⟩
    obtain ⟨m2, h2, g2⟩ := step m1 0 hsz (by norm_num)
    obtain ⟨m3, h3, g3⟩ := step m2 1 g2 (by norm_num)
    show seqLoop [0, 1, 2, 3] _ m1 = _
    simp only [seqLoop, h2, h3]
    have : (do
        let v ← load ((⟨1, 0⟩ : Ptr) + 2)
        store ((⟨1, 0⟩ : Ptr) + 2) (v * (1 / (((MFft.new 2 1 1 3 1 0 0).pl.n : ℕ) : ℂ))) : Body Unit).run m3 = .error .ub := by
      unfold Body.run
      simp only [load, Body.bind_eq, Body.bind, Body.trace, if_neg (hbad m3 g3)]
    rw [this]
  · rfl

end Fftwpp
