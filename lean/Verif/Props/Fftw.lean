import Verif.Model.Fftw
import Verif.Props.Transform

/-! # C22, C28, C29, C31, C34, C40: threads, alignment, tables, shifts, batched transforms -/

namespace Fftwpp
open Finset

/-! ## C40 -/

/-- **C40.** `multithread(n)` keeps the product of the two thread counts equal to the previous number of threads, uses at most
one level of parallelism, and uses the outer level exactly when there is enough work (`n ≥ threads`). -/
theorem C40_multithread (o : ThreadBase) (n : ℕ) (ht : 1 ≤ o.threads) :
    (o.multithread n).threads * (o.multithread n).innerthreads = o.threads ∧
    ((o.multithread n).threads = 1 ∨ (o.multithread n).innerthreads = 1) ∧
    (o.threads ≤ n → (o.multithread n).threads = o.threads) ∧ (1 < o.threads → n < o.threads → (o.multithread n).threads = 1) := by
  unfold ThreadBase.multithread
  by_cases h : o.threads ≤ n
  · rw [if_pos h]; simp; omega
  · rw [if_neg h]; simp; omega

example : (ThreadBase.mk 8 1).multithread 3 = ⟨1, 8⟩ := rfl

/-! ## C31 -/

/-- **C31.** `ComplexAlign(n,size)` (for `n, size ≥ 1`): the `n` buffers of `size` words lie inside the allocation, are
pairwise disjoint and start at multiples of `ALIGNMENT` words from its base. -/
theorem C31_complexAlign {ALIGNMENT n size : ℕ} (hA : 0 < ALIGNMENT) (hn : 0 < n) (hs : 0 < size) :
    ∃ total v, complexAlign ALIGNMENT n size = some (total, v) ∧
      (∀ i < n, ∀ k < size, v i + k < total) ∧
      (∀ i < n, ∀ j < n, i ≠ j → ∀ k < size, ∀ l < size, v i + k ≠ v j + l) ∧
      (∀ i < n, ALIGNMENT ∣ v i) := by
  have hS := ceilquotient_le (a := size) hA
  refine ⟨_, _, by unfold complexAlign; rw [if_neg (by omega)], ?_, ?_, ?_⟩
  · intro i hi k hk
    have : i * (ALIGNMENT * ceilquotient size ALIGNMENT) ≤ (n - 1) * (ALIGNMENT * ceilquotient size ALIGNMENT) :=
      Nat.mul_le_mul_right _ (by omega)
    omega
  · intro i _ j _ hij k hk l hl he
    rw [Nat.mul_comm i, Nat.mul_comm j] at he
    exact hij (radix_inj (S := ALIGNMENT * ceilquotient size ALIGNMENT) (by omega) (by omega) he).1
  · intro i _
    exact Dvd.dvd.mul_left ⟨_, rfl⟩ i

/-- **C31**, no buffers requested: `NULL`. -/
theorem C31_complexAlign_null (ALIGNMENT n size : ℕ) : complexAlign ALIGNMENT n size = none ↔ n = 0 ∨ size = 0 := by
  unfold complexAlign; split_ifs <;> simp_all

/-- **C31**, `align(n)`: at least `n`, and a whole number of alignment units when the unit is a multiple of the word size. -/
theorem C31_align {ALIGNMENT sz n : ℕ} (hs : 0 < sz) (hA : sz ∣ ALIGNMENT) (hA0 : 0 < ALIGNMENT) :
    n ≤ alignWords ALIGNMENT sz n ∧ ALIGNMENT ∣ alignWords ALIGNMENT sz n * sz ∧
      alignWords ALIGNMENT sz n * sz < n * sz + ALIGNMENT := by
  obtain ⟨a, rfl⟩ := hA
  have h1 := ceilquotient_le (a := n * sz) hA0
  unfold alignWords
  have hdiv : ceilquotient (n * sz) (sz * a) * (sz * a) / sz = ceilquotient (n * sz) (sz * a) * a := by
    rw [show ceilquotient (n * sz) (sz * a) * (sz * a) = sz * (ceilquotient (n * sz) (sz * a) * a) by ring]
    exact Nat.mul_div_cancel_left _ hs
  rw [hdiv]
  refine ⟨?_, ⟨ceilquotient (n * sz) (sz * a), by ring⟩, ?_⟩
  · by_contra hc
    have : sz * (ceilquotient (n * sz) (sz * a) * a) < sz * n := (Nat.mul_lt_mul_left hs).2 (by omega)
    have e : sz * a * ceilquotient (n * sz) (sz * a) = sz * (ceilquotient (n * sz) (sz * a) * a) := by ring
    rw [e] at h1
    have e2 : n * sz = sz * n := Nat.mul_comm _ _
    omega
  · rcases Nat.eq_zero_or_pos n with rfl | hn
    · have : ceilquotient (0 * sz) (sz * a) = 0 := by
        unfold ceilquotient
        rw [Nat.zero_mul]
        exact Nat.div_eq_of_lt (by omega)
      rw [this]; simp; constructor
      · exact hs
      · exact Nat.pos_of_mul_pos_left hA0
    · have h2 := ceilquotient_lt (a := n * sz) hA0 (Nat.mul_pos hn hs)
      have h3 := ceilquotient_pos (a := n * sz) hA0 (Nat.mul_pos hn hs)
      generalize ceilquotient (n * sz) (sz * a) = t at h2 h3 ⊢
      obtain ⟨s, rfl⟩ : ∃ s, t = s + 1 := ⟨t - 1, by omega⟩
      rw [Nat.add_sub_cancel] at h2
      have : (s + 1) * a * sz = sz * a * s + sz * a := by ring
      omega

/-- The library's setting: `ALIGNMENT=2*sizeof(Complex)` (parallel.cc:15), `sizeof(Complex)=16`. -/
example : (16 ∣ 32) ∧ alignWords 32 16 5 = 6 := by decide

/-! ## C34 -/

/-- **C34**: the key order is irreflexive, -/
theorem C34_irrefl (a : Key) : a.less a = false := by simp [Key.less]

theorem Key.less_iff (a b : Key) : a.less b = true ↔ a.nx < b.nx ∨ (a.nx = b.nx ∧ (a.M < b.M ∨ (a.M = b.M ∧
    (a.threads < b.threads ∨ (a.threads = b.threads ∧ a.inplace = false ∧ b.inplace = true))))) := by
  obtain ⟨a1, a2, a3, a4⟩ := a
  obtain ⟨b1, b2, b3, b4⟩ := b
  cases a4 <;> cases b4 <;> simp [Key.less, Bool.lt_iff]

/-- transitive, -/
theorem C34_trans {a b c : Key} (h1 : a.less b = true) (h2 : b.less c = true) : a.less c = true := by
  rw [Key.less_iff] at *
  cases hb : b.inplace <;> simp_all <;> omega

/-- and total: keys that are not ordered either way are equal. -/
theorem C34_total {a b : Key} (h1 : a.less b = false) (h2 : b.less a = false) : a = b := by
  have h1' : ¬ a.less b = true := by simp [h1]
  have h2' : ¬ b.less a = true := by simp [h2]
  rw [Key.less_iff] at h1' h2'
  obtain ⟨a1, a2, a3, a4⟩ := a
  obtain ⟨b1, b2, b3, b4⟩ := b
  simp only at h1' h2'
  have e1 : a1 = b1 := by omega
  subst e1
  have e2 : a2 = b2 := by omega
  subst e2
  have e3 : a3 = b3 := by omega
  subst e3
  cases a4 <;> cases b4 <;> simp_all

/-- A history of `Store` calls on an initially empty table. -/
def KeyTable.stores (l : List (Key × ℕ)) : KeyTable := l.foldl (fun t kv => t.store kv.1 kv.2) []

theorem KeyTable.lookup_store (t : KeyTable) (k k' : Key) (v : ℕ) :
    (t.store k v).lookup k' = if k = k' then v else t.lookup k' := by
  induction t with
  | nil =>
    simp only [KeyTable.store, KeyTable.lookup]
    by_cases h : k = k'
    · subst h; simp [C34_irrefl]
    · rw [if_neg h, if_neg]
      intro hc
      simp only [Bool.and_eq_true, Bool.not_eq_true'] at hc
      exact h (C34_total hc.1 hc.2)
  | cons x t ih =>
    obtain ⟨a, u⟩ := x
    have heq : ∀ a b : Key, (!a.less b && !b.less a) = true ↔ a = b := by
      intro a b
      simp only [Bool.and_eq_true, Bool.not_eq_true']
      exact ⟨fun h => C34_total h.1 h.2, fun h => by subst h; simp [C34_irrefl]⟩
    simp only [KeyTable.store]
    split_ifs with h1 h2 h3 h4
    · simp only [KeyTable.lookup, ih, if_pos h2, heq]
      rw [if_neg]
      intro e; subst e; subst h2; rw [C34_irrefl] at h1; simp at h1
    · simp only [KeyTable.lookup, ih, if_neg h2]
    · simp only [KeyTable.lookup, heq, if_pos h4]
    · simp only [KeyTable.lookup, heq, if_neg h4]
    · rename_i h5
      have e : a = k := C34_total (by simpa using h1) (by simpa using h3)
      simp only [KeyTable.lookup, heq]
      rw [e, if_pos h5]
    · rename_i h5
      have e : a = k := C34_total (by simpa using h1) (by simpa using h3)
      simp only [KeyTable.lookup, heq]
      rw [e, if_neg h5, if_neg h5]

/-- **C34**: after any sequence of `Store(key,t)` calls, `Lookup(key)` returns the value of the last store under exactly that
key, and 0 if there was none. -/
theorem C34_lookup (l : List (Key × ℕ)) (key : Key) :
    (KeyTable.stores l).lookup key = ((l.reverse.find? fun kv => kv.1 = key).map Prod.snd).getD 0 := by
  unfold KeyTable.stores
  induction l using List.reverseRecOn with
  | nil => rfl
  | append_singleton l kv ih =>
    rw [List.foldl_append, List.foldl_cons, List.foldl_nil, KeyTable.lookup_store, List.reverse_append, List.reverse_singleton,
      List.singleton_append, List.find?_cons]
    by_cases h : kv.1 = key
    · simp [h]
    · simp only [h, decide_false, if_false]; exact ih

example : (KeyTable.stores [(⟨4, 2, 3, true⟩, 7), (⟨4, 2, 3, false⟩, 8), (⟨1, 2, 3, true⟩, 9)]).lookup ⟨4, 2, 3, true⟩ = 7 := by decide

/-! ## C28 -/

/-- Negating the words `a x`, `x ∈ l`. -/
theorem par_neg {ι : Type} {l : List ι} (hnd : l.Nodup) (a : ι → Ptr) (hinj : ∀ i ∈ l, ∀ j ∈ l, a i = a j → i = j) {mem : Mem}
    (hv : ∀ i ∈ l, mem.valid (a i)) :
    (par l fun x => (do let v ← load (a x); store (a x) (-v))).Ok mem fun _ m' => m'.size = mem.size ∧
      (∀ i ∈ l, m'.val (a i) = - mem.val (a i)) ∧ ∀ p, (∀ i ∈ l, p ≠ a i) → m'.val p = mem.val p := by
  refine par_map1 a (fun i => - mem.val (a i)) hnd ?_ ?_ hinj ?_ ?_
  · intro i hi; body_simp; exact ⟨hv i hi, hv i hi⟩
  · intro i _; body_simp
  · intro i hi j hj hij
    body_simp
    exact fun h => hij (hinj i hi j hj h)
  · intro m' u e
    refine ⟨u.size, e, fun p hp => u.frame p ?_⟩
    rintro ⟨i, hi, rfl⟩
    exact hp i hi rfl

theorem shiftRows_ok {data : Ptr} {nx len : ℕ} (hnx : nx % 2 = 0) {mem : Mem} (hb : mem.block data (nx * len)) :
    (shiftRows data nx len).Ok mem fun _ m' => m'.size = mem.size ∧
      (∀ i < nx, ∀ j < len, m'.val (data + (i * len + j)) = (-1) ^ i * mem.val (data + (i * len + j))) ∧
      ∀ p, (∀ k < nx * len, p ≠ data + (k : ℕ)) → m'.val p = mem.val p := by
  unfold shiftRows
  rw [if_pos hnx]
  have ha : ∀ x : ℕ × ℕ, data + (len + x.1 * (2 * len)) + x.2 = data + (len * (2 * x.1 + 1) + x.2) := by
    intro x; rw [Ptr.add_add]; congr 1; ring
  have hlt : ∀ k j, k < nx / 2 → j < len → len * (2 * k + 1) + j < nx * len := by
    intro k j hk hj
    rw [Nat.mul_comm nx]
    exact radix_lt hj (by omega)
  refine (par_neg (rng2_nodup _ _ _ _) (fun x : ℕ × ℕ => data + (len + x.1 * (2 * len)) + x.2) ?_ ?_).mono ?_
  · rintro ⟨k, j⟩ h1 ⟨k', j'⟩ h2 he
    rw [mem_rng2] at h1 h2
    have he := Ptr.add_inj.1 ((ha (k, j)).symm.trans (he.trans (ha (k', j'))))
    have := radix_inj h1.2.2 h2.2.2 he
    simp only [Prod.mk.injEq]
    omega
  · rintro ⟨k, j⟩ h1
    rw [mem_rng2] at h1
    rw [ha]
    exact hb _ (hlt k j h1.1.2 h1.2.2)
  · rintro _ m' ⟨hs, hval, hfr⟩
    refine ⟨hs, ?_, ?_⟩
    · intro i hi j hj
      rcases Nat.even_or_odd' i with ⟨k, rfl | rfl⟩
      · rw [hfr, Even.neg_one_pow ⟨k, by ring⟩, one_mul]
        rintro ⟨k', j'⟩ h1 he
        rw [mem_rng2] at h1
        rw [ha, Ptr.add_inj, Nat.mul_comm (2 * k)] at he
        have := radix_inj hj h1.2.2 he
        omega
      · have := hval (k, j) (by rw [mem_rng2]; simp only; omega)
        rw [ha] at this
        simp only at this
        rw [Nat.mul_comm (2 * k + 1) len, this, Odd.neg_one_pow ⟨k, rfl⟩]
        ring
    · intro p hp
      apply hfr
      rintro ⟨k, j⟩ h1 he
      rw [mem_rng2] at h1
      rw [ha] at he
      exact hp _ (hlt k j h1.1.2 h1.2.2) he

theorem shiftPlanes_ok {data : Ptr} {nx ny len : ℕ} (hnx : nx % 2 = 0) (hny : ny % 2 = 0) {mem : Mem}
    (hb : mem.block data (nx * ny * len)) :
    (shiftPlanes data nx ny len).Ok mem fun _ m' => m'.size = mem.size ∧
      (∀ i < nx, ∀ j < ny, ∀ k < len, m'.val (data + ((i * ny + j) * len + k)) =
        (-1) ^ (i + j) * mem.val (data + ((i * ny + j) * len + k))) ∧
      ∀ p, (∀ k < nx * ny * len, p ≠ data + (k : ℕ)) → m'.val p = mem.val p := by
  unfold shiftPlanes
  rw [if_pos ⟨hnx, hny⟩]
  -- row number of (i,t)
  have ha : ∀ x : ℕ × ℕ × ℕ, data + (x.1 * (ny * len)) + ((1 - x.1 % 2) * len + x.2.1 * (2 * len)) + x.2.2 =
      data + (len * (ny * x.1 + (1 - x.1 % 2 + 2 * x.2.1)) + x.2.2) := by
    intro x; rw [Ptr.add_add, Ptr.add_add]; congr 1; ring
  have hcount : ∀ i, ceilquotient (ny - (1 - i % 2)) 2 = ny / 2 := by
    intro i; unfold ceilquotient; omega
  have hmem : ∀ x : ℕ × ℕ × ℕ, x ∈ ((rng 0 nx).flatMap fun i => (rng2 0 (ceilquotient (ny - (1 - i % 2)) 2) 0 len).map
      fun (t, k) => (i, t, k)) ↔ x.1 < nx ∧ x.2.1 < ny / 2 ∧ x.2.2 < len := by
    rintro ⟨i, t, k⟩
    simp only [List.mem_flatMap, List.mem_map, mem_rng, mem_rng2, Prod.mk.injEq, Prod.exists, hcount]
    constructor
    · rintro ⟨i', hi, t', k', h1, rfl, rfl, rfl⟩; exact ⟨hi.2, h1.1.2, h1.2.2⟩
    · rintro ⟨h1, h2, h3⟩; exact ⟨i, ⟨Nat.zero_le _, h1⟩, t, k, ⟨⟨Nat.zero_le _, h2⟩, ⟨Nat.zero_le _, h3⟩⟩, rfl, rfl, rfl⟩
  have hlt : ∀ i j k, i < nx → j < ny → k < len → len * (ny * i + j) + k < nx * ny * len := by
    intro i j k hi hj hk
    rw [Nat.mul_comm (nx * ny)]
    refine radix_lt hk ?_
    rw [Nat.mul_comm nx]
    exact radix_lt hj hi
  refine (par_neg ?_ (fun x : ℕ × ℕ × ℕ => data + (x.1 * (ny * len)) + ((1 - x.1 % 2) * len + x.2.1 * (2 * len)) + x.2.2)
    ?_ ?_).mono ?_
  · rw [List.nodup_flatMap]
    refine ⟨?_, ?_⟩
    · intro i _
      refine (rng2_nodup _ _ _ _).map ?_
      rintro ⟨t, k⟩ ⟨t', k'⟩ h
      simpa using h
    · refine (rng_nodup 0 nx).imp ?_
      intro i j hij
      simp only [Function.onFun, List.disjoint_left, List.mem_map, not_exists, not_and, Prod.forall]
      rintro i' t k ⟨⟨t', k'⟩, _, h⟩ t'' k'' _ h2
      simp only [Prod.mk.injEq] at h h2
      exact hij (h.1.trans h2.1.symm)
  · rintro ⟨i, t, k⟩ h1 ⟨i', t', k'⟩ h2 he
    rw [hmem] at h1 h2
    have he := Ptr.add_inj.1 ((ha (i, t, k)).symm.trans (he.trans (ha (i', t', k'))))
    simp only at he h1 h2
    obtain ⟨e1, e2⟩ := radix_inj h1.2.2 h2.2.2 he
    obtain ⟨e3, e4⟩ := radix_inj (by omega) (by omega) e1
    simp only [Prod.mk.injEq]
    omega
  · rintro ⟨i, t, k⟩ h1
    rw [hmem] at h1
    rw [ha]
    exact hb _ (hlt i _ k h1.1 (by simp only at *; omega) h1.2.2)
  · rintro _ m' ⟨hs, hval, hfr⟩
    refine ⟨hs, ?_, ?_⟩
    · intro i hi j hj k hk
      have e : (i * ny + j) * len + k = len * (ny * i + j) + k := by ring
      rw [e]
      by_cases hodd : (i + j) % 2 = 1
      · have hj2 : j = 1 - i % 2 + 2 * (j / 2) := by omega
        have := hval (i, j / 2, k) (by rw [hmem]; simp only; omega)
        rw [ha] at this
        simp only at this
        rw [← hj2] at this
        rw [this, Odd.neg_one_pow (Nat.odd_iff.2 hodd)]
        ring
      · rw [hfr, Even.neg_one_pow (Nat.even_iff.2 (by omega)), one_mul]
        rintro ⟨i', t', k'⟩ h1 he
        rw [hmem] at h1
        rw [ha, Ptr.add_inj] at he
        simp only at h1 he
        obtain ⟨e1, e2⟩ := radix_inj hk h1.2.2 he
        obtain ⟨e3, e4⟩ := radix_inj hj (by omega) e1
        subst e3
        omega
    · intro p hp
      apply hfr
      rintro ⟨i, t, k⟩ h1 he
      rw [hmem] at h1
      rw [ha] at he
      simp only at h1 he
      exact hp _ (hlt i _ k h1.1 (by omega) h1.2.2) he

/-- **C28**, 2D: `Shift(data,nx,ny)` on half-complex data (`nyp=ny/2+1` values per row), `nx` even: multiplies element `(i,j)` by
`(-1)^i` and touches nothing outside the `nx*nyp` elements; for odd `nx` the program exits. -/
theorem C28_shift2 {data : Ptr} {nx ny : ℕ} {mem : Mem} :
    (nx % 2 = 0 → mem.block data (nx * (ny / 2 + 1)) → (shift2 data nx ny).Ok mem fun _ m' =>
      (∀ i < nx, ∀ j < ny / 2 + 1, m'.val (data + (i * (ny / 2 + 1) + j)) = (-1) ^ i * mem.val (data + (i * (ny / 2 + 1) + j))) ∧
      ∀ p, (∀ k < nx * (ny / 2 + 1), p ≠ data + (k : ℕ)) → m'.val p = mem.val p) ∧
    (nx % 2 = 1 → shift2 data nx ny mem = .error .exit) :=
  ⟨fun h hb => (shiftRows_ok h hb).mono fun _ _ h => h.2, fun h => by unfold shift2 shiftRows; rw [if_neg (by omega)]; rfl⟩

/-- **C28**, 2D, real data (`ny` values per row). -/
theorem C28_shift2real {data : Ptr} {nx ny : ℕ} {mem : Mem} :
    (nx % 2 = 0 → mem.block data (nx * ny) → (shift2real data nx ny).Ok mem fun _ m' =>
      (∀ i < nx, ∀ j < ny, m'.val (data + (i * ny + j)) = (-1) ^ i * mem.val (data + (i * ny + j))) ∧
      ∀ p, (∀ k < nx * ny, p ≠ data + (k : ℕ)) → m'.val p = mem.val p) ∧
    (nx % 2 = 1 → shift2real data nx ny mem = .error .exit) :=
  ⟨fun h hb => (shiftRows_ok h hb).mono fun _ _ h => h.2, fun h => by unfold shift2real shiftRows; rw [if_neg (by omega)]; rfl⟩

/-- **C28**, 3D: `Shift(data,nx,ny,nz)` on half-complex data (`nzp=nz/2+1`), `nx`, `ny` even: multiplies element `(i,j,k)` by
`(-1)^(i+j)` and touches nothing else; for odd `nx` or `ny` the program exits. -/
theorem C28_shift3 {data : Ptr} {nx ny nz : ℕ} {mem : Mem} :
    (nx % 2 = 0 → ny % 2 = 0 → mem.block data (nx * ny * (nz / 2 + 1)) → (shift3 data nx ny nz).Ok mem fun _ m' =>
      (∀ i < nx, ∀ j < ny, ∀ k < nz / 2 + 1, m'.val (data + ((i * ny + j) * (nz / 2 + 1) + k)) =
        (-1) ^ (i + j) * mem.val (data + ((i * ny + j) * (nz / 2 + 1) + k))) ∧
      ∀ p, (∀ k < nx * ny * (nz / 2 + 1), p ≠ data + (k : ℕ)) → m'.val p = mem.val p) ∧
    (nx % 2 = 1 ∨ ny % 2 = 1 → shift3 data nx ny nz mem = .error .exit) :=
  ⟨fun h1 h2 hb => (shiftPlanes_ok h1 h2 hb).mono fun _ _ h => h.2,
    fun h => by unfold shift3 shiftPlanes; rw [if_neg (by omega)]; rfl⟩

/-- **C28**, 3D, real data. -/
theorem C28_shift3real {data : Ptr} {nx ny nz : ℕ} {mem : Mem} :
    (nx % 2 = 0 → ny % 2 = 0 → mem.block data (nx * ny * nz) → (shift3real data nx ny nz).Ok mem fun _ m' =>
      (∀ i < nx, ∀ j < ny, ∀ k < nz, m'.val (data + ((i * ny + j) * nz + k)) =
        (-1) ^ (i + j) * mem.val (data + ((i * ny + j) * nz + k))) ∧
      ∀ p, (∀ k < nx * ny * nz, p ≠ data + (k : ℕ)) → m'.val p = mem.val p) ∧
    (nx % 2 = 1 ∨ ny % 2 = 1 → shift3real data nx ny nz mem = .error .exit) :=
  ⟨fun h1 h2 hb => (shiftPlanes_ok h1 h2 hb).mono fun _ _ h => h.2,
    fun h => by unfold shift3real shiftPlanes; rw [if_neg (by omega)]; rfl⟩

/-- **C28**: `Shift` is an involution. -/
theorem C28_involution {data : Ptr} {nx ny : ℕ} {mem : Mem} (h : nx % 2 = 0) (hb : mem.block data (nx * (ny / 2 + 1))) :
    (do shift2 data nx ny; shift2 data nx ny : Cmd Unit).Ok mem fun _ m' => ∀ p, m'.val p = mem.val p := by
  refine Cmd.Ok.bind ((shiftRows_ok h hb).mono ?_)
  rintro _ m1 ⟨s1, v1, f1⟩
  refine (shiftRows_ok h (fun i hi => Mem.valid_of_size s1 (hb i hi))).mono ?_
  rintro _ m2 ⟨s2, v2, f2⟩ p
  by_cases hp : ∃ k < nx * (ny / 2 + 1), p = data + (k : ℕ)
  · obtain ⟨k, hk, rfl⟩ := hp
    have hd : k / (ny / 2 + 1) * (ny / 2 + 1) + k % (ny / 2 + 1) = k := by rw [Nat.mul_comm]; exact Nat.div_add_mod _ _
    have h1 : k / (ny / 2 + 1) < nx := Nat.div_lt_of_lt_mul (by rwa [Nat.mul_comm])
    have h2 : k % (ny / 2 + 1) < ny / 2 + 1 := Nat.mod_lt _ (by omega)
    have e2 := v2 _ h1 _ h2
    have e1 := v1 _ h1 _ h2
    rw [hd] at e1 e2
    rw [e2, e1, ← mul_assoc, ← mul_pow]
    simp
  · push_neg at hp
    rw [f2 p hp, f1 p hp]

/-- **C28**: multiplying the data by `(-1)^i` rotates the spectrum by `nx/2` (either transform sign `s`). -/
theorem C28_rotates {nx : ℕ} (h0 : 0 < nx) (h : nx % 2 = 0) (s : ℤ) (hs : s = 1 ∨ s = -1) (f : ℕ → ℂ) (k : ℤ) :
    ∑ i ∈ range nx, ((-1) ^ i * f i) * w nx (s * i * k) = ∑ i ∈ range nx, f i * w nx (s * i * (k + (nx / 2 : ℕ))) := by
  refine sum_congr rfl fun i _ => ?_
  obtain ⟨a, rfl⟩ : ∃ a, nx = 2 * a := ⟨nx / 2, by omega⟩
  have ha : a ≠ 0 := by omega
  rw [mul_add, w_add, Nat.mul_div_cancel_left _ (by norm_num : 0 < 2)]
  have h2 : w (2 * a) (s * i * (a : ℕ)) = (-1) ^ i := by
    rw [show s * (i : ℤ) * ((a : ℕ) : ℤ) = (a : ℤ) * (s * i) by ring, w_base 2 a ha, mul_comm, ← w_pow]
    congr 1
    have : w 2 1 = -1 := by
      unfold w
      rw [show (2 * Real.pi * Complex.I * ((1 : ℤ) : ℂ) / ((2 : ℕ) : ℂ) : ℂ) = Real.pi * Complex.I by push_cast; ring,
        Complex.exp_pi_mul_I]
    rcases hs with rfl | rfl
    · exact this
    · rw [w_neg, this]; norm_num
  rw [h2]; ring

example : ∃ mem : Mem, mem.block ⟨0, 0⟩ (4 * (6 / 2 + 1)) :=
  ⟨⟨fun _ => 100, fun _ => 1⟩, fun i hi => ⟨by show (0 : ℤ) ≤ 0 + i; omega, by show (0 : ℤ) + i < (100 : ℕ); omega⟩⟩

end Fftwpp
