import Verif.Proof.MpiRcfft3b

/-!
# Distributed three-dimensional transforms of real data: `Shift`, `Normalize`, `deNyquist`
-/

namespace Fftwpp.Net
open Finset

theorem part_first_zero {M P q : ℕ} (hM : 0 < M) (hP : 0 < P) (h : first M P q = 0) : 0 < part M P q := by
  have hc : 1 ≤ ceilquotient M P := Mpi.cq_pos hM hP
  have hq : q = 0 := by
    unfold first Mpi.localdimension at h
    simp only at h
    have h2 : ((ceilquotient M P * q : ℕ) : ℤ).toNat = 0 := by push_cast; exact h
    rw [Int.toNat_natCast] at h2
    rcases Nat.mul_eq_zero.1 h2 with h3 | h3
    · omega
    · exact h3
  subst hq
  by_contra hc'
  have h1 : part M P 0 = 0 := by omega
  unfold part Mpi.localdimension at h1
  simp only [Nat.cast_zero, mul_zero, sub_zero] at h1
  split_ifs at h1 <;> omega

/-- Storing zeros in the complex words of a list. -/
theorem zero_ok {e : Eager} {i : ℕ} {env : ℕ → Local ℝ} {σ : Local ℝ} (hr : ∀ id, σ.req id = none) {f : Loc} {l : List ℕ} {N : ℕ}
    (hs : f.off + 2 * N ≤ σ.size f.buf) (hg : ∀ k ∈ l, k < N) (hi : l.Nodup) :
    ∃ m, (Rcfft3MPI.zero f l).eval e i env σ = some ((), { σ with mem := m }) ∧
      (∀ k, cget m (f + 2 * k) = if k ∈ l then 0 else cget σ.mem (f + 2 * k)) ∧
      ∀ a, ¬ (Region.mk f (2 * N)).has a → m a = σ.mem a := by
  have hmem : ∀ x : ℕ × ℕ, x ∈ (l ×ˢ List.range 2) ↔ x.1 ∈ l ∧ x.2 < 2 := by
    intro x
    rw [show x = (x.1, x.2) from rfl, List.mem_product, List.mem_range]
  obtain ⟨m, h1, h2, h3⟩ := stores_eval (e := e) (i := i) (env := env) (σ := σ) hr
    (l := (l ×ˢ List.range 2).map fun x => (f + (2 * x.1 + x.2), (0 : ℝ)))
    (by
      intro x hx
      obtain ⟨y, hy, rfl⟩ := List.mem_map.1 hx
      obtain ⟨y1, y2⟩ := (hmem y).1 hy
      have := hg _ y1
      exact inB hs (by omega))
    (by
      rw [List.map_map]
      refine List.Nodup.map_on ?_ (hi.product List.nodup_range)
      intro x hx y hy hxy
      have := congrArg Loc.off hxy
      simp only [Function.comp, Loc.add_off, Nat.add_left_cancel_iff] at this
      obtain ⟨x1, x2⟩ := (hmem x).1 hx
      obtain ⟨y1, y2⟩ := (hmem y).1 hy
      exact Prod.ext (by omega) (by omega))
  refine ⟨m, ?_, ?_, ?_⟩
  · rw [List.map_map] at h1
    exact h1
  · intro k
    by_cases hk : k ∈ l
    · rw [if_pos hk]
      refine cget_of fun c hc => ?_
      have := h2 _ (List.mem_map.2 ⟨(k, c), (hmem (k, c)).2 ⟨hk, hc⟩, rfl⟩)
      simp only at this
      rw [this]
      simp [cpart]
    · rw [if_neg hk]
      refine cget_of fun c hc => ?_
      rw [h3]
      · exact of_cget rfl hc
      · intro x hx he
        obtain ⟨y, hy, rfl⟩ := List.mem_map.1 hx
        obtain ⟨y1, y2⟩ := (hmem y).1 hy
        have := congrArg Loc.off he
        simp only [Loc.add_off, Nat.add_left_cancel_iff] at this
        exact hk (by rw [show k = y.1 by omega]; exact y1)
  · intro a ha
    refine h3 a fun x hx he => ?_
    obtain ⟨y, hy, rfl⟩ := List.mem_map.1 hx
    obtain ⟨y1, y2⟩ := (hmem y).1 hy
    have := hg _ y1
    exact ha (region_has.2 ⟨2 * y.1 + y.2, by omega, he⟩)

namespace Rcfft3MPI
variable {o : Rcfft3MPI}

theorem mem_shiftRows {x : ℕ × ℕ} : x ∈ o.shiftRows ↔ x.1 < o.dr.xy.x ∧ x.2 < o.dr.yz.x ∧ (o.dr.xy.x0 + x.1 + (o.dr.yz.x0 + x.2)) % 2 = 1 := by
  unfold shiftRows
  rw [List.mem_flatMap]
  constructor
  · rintro ⟨i, hi, hx⟩
    obtain ⟨j, hj, rfl⟩ := List.mem_map.1 hx
    rw [Rcfft2MPI.mem_oddRows] at hj
    have := List.mem_range.1 hi
    refine ⟨this, hj.2.1, ?_⟩
    show (o.dr.xy.x0 + i + (o.dr.yz.x0 + j)) % 2 = 1
    omega
  · rintro ⟨h1, h2, h3⟩
    refine ⟨x.1, List.mem_range.2 h1, List.mem_map.2 ⟨x.2, Rcfft2MPI.mem_oddRows.2 ?_, rfl⟩⟩
    omega

theorem nodup_shiftRows : o.shiftRows.Nodup := by
  unfold shiftRows
  refine List.nodup_flatMap.2 ⟨fun i _ => (Rcfft2MPI.nodup_oddRows _ _).map fun a b h => ?_, ?_⟩
  · exact congrArg Prod.snd h
  · refine List.Pairwise.imp ?_ (List.nodup_range (n := o.dr.xy.x))
    intro a b hab
    simp only [Function.onFun]
    intro x hx hy
    obtain ⟨_, _, rfl⟩ := List.mem_map.1 hx
    obtain ⟨_, _, h⟩ := List.mem_map.1 hy
    exact hab (congrArg Prod.fst h).symm

theorem shift_ok {e : Eager} {i : ℕ} {env : ℕ → Local ℝ} {σ : Local ℝ} (hr : ∀ id, σ.req id = none) (hX : o.dr.X % 2 = 0) (hY : o.dr.Y % 2 = 0)
    (hZ : o.dr.Z ≤ o.rdist) {f : Loc} (hs : f.off + o.dr.xy.x * o.dr.yz.x * o.rdist ≤ σ.size f.buf) :
    ∃ m, (o.shift (some f)).eval e i env σ = some ((), { σ with mem := m }) ∧
      (∀ a < o.dr.xy.x, ∀ b < o.dr.yz.x, ∀ c < o.dr.Z, m (f + ((a * o.dr.yz.x + b) * o.rdist + c)) =
        Rcfft2MPI.sgn (o.dr.xy.x0 + a + (o.dr.yz.x0 + b)) * σ.mem (f + ((a * o.dr.yz.x + b) * o.rdist + c))) ∧
      ∀ a, ¬ (Region.mk f (o.dr.xy.x * o.dr.yz.x * o.rdist)).has a → m a = σ.mem a := by
  have hmem : ∀ x : (ℕ × ℕ) × ℕ, x ∈ (o.shiftRows ×ˢ List.range o.dr.Z) ↔ x.1 ∈ o.shiftRows ∧ x.2 < o.dr.Z := by
    intro x
    rw [show x = (x.1, x.2) from rfl, List.mem_product, List.mem_range]
  have hlt : ∀ x : (ℕ × ℕ) × ℕ, x ∈ (o.shiftRows ×ˢ List.range o.dr.Z) → (x.1.1 * o.dr.yz.x + x.1.2) * o.rdist + x.2 < o.dr.xy.x * o.dr.yz.x * o.rdist := by
    intro x hx
    obtain ⟨h1, h2⟩ := (hmem x).1 hx
    obtain ⟨h3, h4, _⟩ := mem_shiftRows.1 h1
    exact rad_lt (lt_of_lt_of_le h2 hZ) (rad_lt h4 h3)
  obtain ⟨m, g, h1, h2, h3, h4⟩ := apply_ok (e := e) (i := i) (env := env) hr
    (rd := (o.shiftRows ×ˢ List.range o.dr.Z).map fun x => f + ((x.1.1 * o.dr.yz.x + x.1.2) * o.rdist + x.2))
    (wr := (o.shiftRows ×ˢ List.range o.dr.Z).map fun x => (f + ((x.1.1 * o.dr.yz.x + x.1.2) * o.rdist + x.2),
      fun g => -g (f + ((x.1.1 * o.dr.yz.x + x.1.2) * o.rdist + x.2))))
    (by
      intro a ha
      obtain ⟨x, hx, rfl⟩ := List.mem_map.1 ha
      exact inB hs (hlt x hx))
    (by
      intro a ha
      obtain ⟨x, hx, rfl⟩ := List.mem_map.1 ha
      exact inB hs (hlt x hx))
    (by
      rw [List.map_map]
      refine List.Nodup.map_on ?_ (nodup_shiftRows.product List.nodup_range)
      intro x hx y hy hxy
      have := congrArg Loc.off hxy
      simp only [Function.comp, Loc.add_off, Nat.add_left_cancel_iff] at this
      obtain ⟨a1, a2⟩ := rad_inj (lt_of_lt_of_le ((hmem x).1 hx).2 hZ) (lt_of_lt_of_le ((hmem y).1 hy).2 hZ) this
      obtain ⟨b1, b2⟩ := rad_inj (mem_shiftRows.1 ((hmem x).1 hx).1).2.1 (mem_shiftRows.1 ((hmem y).1 hy).1).2.1 a1
      exact Prod.ext (Prod.ext b1 b2) a2)
  refine ⟨m, ?_, ?_, ?_⟩
  · unfold shift
    rw [if_pos ⟨hX, hY⟩]
    exact h1
  · intro a ha b hb c hc
    unfold Rcfft2MPI.sgn
    split_ifs with hp
    · rw [h4, one_mul]
      intro x hx he
      obtain ⟨y, hy, rfl⟩ := List.mem_map.1 hx
      have := congrArg Loc.off he
      simp only [Loc.add_off, Nat.add_left_cancel_iff] at this
      obtain ⟨a1, a2⟩ := rad_inj (lt_of_lt_of_le hc hZ) (lt_of_lt_of_le ((hmem y).1 hy).2 hZ) this
      obtain ⟨c1, c2, c3⟩ := mem_shiftRows.1 ((hmem y).1 hy).1
      obtain ⟨b1, b2⟩ := rad_inj hb c2 a1
      omega
    · have hm := (hmem ((a, b), c)).2 ⟨mem_shiftRows.2 ⟨ha, hb, by simp only; omega⟩, hc⟩
      have := h3 _ (List.mem_map.2 ⟨((a, b), c), hm, rfl⟩)
      simp only at this
      rw [this, h2 _ (List.mem_map.2 ⟨((a, b), c), hm, rfl⟩)]
      ring
  · intro a ha
    refine h4 a fun x hx => ?_
    obtain ⟨y, hy, rfl⟩ := List.mem_map.1 hx
    rintro rfl
    exact ha (region_has.2 ⟨_, hlt y hy, rfl⟩)

theorem normalize_ok {e : Eager} {i : ℕ} {env : ℕ → Local ℝ} {σ : Local ℝ} (hr : ∀ id, σ.req id = none) {f : Loc}
    (hs : f.off + o.dr.xy.x * o.dr.yz.x * o.rdist ≤ σ.size f.buf) :
    ∃ m, (o.normalize f).eval e i env σ = some ((), { σ with mem := m }) ∧
      (∀ k < o.dr.xy.x * o.dr.yz.x * o.rdist, m (f + k) = σ.mem (f + k) * (1 / ((o.dr.X * o.dr.Y * o.dr.Z : ℕ) : ℝ))) ∧
      ∀ a, ¬ (Region.mk f (o.dr.xy.x * o.dr.yz.x * o.rdist)).has a → m a = σ.mem a := by
  obtain ⟨m, g, h1, h2, h3, h4⟩ := apply_ok (e := e) (i := i) (env := env) hr (rd := (List.range (o.dr.xy.x * o.dr.yz.x * o.rdist)).map fun i => f + i)
    (wr := (List.range (o.dr.xy.x * o.dr.yz.x * o.rdist)).map fun i => (f + i, fun g => g (f + i) * (1 / ((o.dr.X * o.dr.Y * o.dr.Z : ℕ) : ℝ))))
    (by
      intro a ha
      obtain ⟨x, hx, rfl⟩ := List.mem_map.1 ha
      exact inB hs (List.mem_range.1 hx))
    (by
      intro a ha
      obtain ⟨x, hx, rfl⟩ := List.mem_map.1 ha
      exact inB hs (List.mem_range.1 hx))
    (by
      rw [List.map_map]
      refine List.nodup_range.map fun a b hab => ?_
      simpa using congrArg Loc.off hab)
  refine ⟨m, h1, ?_, ?_⟩
  · intro k hk
    have := h3 _ (List.mem_map.2 ⟨k, List.mem_range.2 hk, rfl⟩)
    simp only at this
    rw [this, h2 _ (List.mem_map.2 ⟨k, List.mem_range.2 hk, rfl⟩)]
  · intro a ha
    refine h4 a fun x hx => ?_
    obtain ⟨y, hy, rfl⟩ := List.mem_map.1 hx
    exact fun he => ha (region_has.2 ⟨y, List.mem_range.1 hy, he⟩)

/-- `deNyquist` on one process. -/
theorem deNyquist_ok {e : Eager} {r : ℕ} {env : ℕ → Local ℝ} {σ : Local ℝ} (hr : ∀ id, σ.req id = none) (hX : 0 < o.dc.X) {f : Loc}
    (hs : f.off + 2 * (o.dc.X * (o.dc.xy.y * o.dc.yz.y)) ≤ σ.size f.buf)
    (hy : o.dr.Y % 2 = 0 → o.dc.xy.y0 = 0 → 0 < o.dc.xy.y)
    (hz : o.dr.Z % 2 = 0 → o.dc.yz.y0 + o.dc.yz.y = o.dc.Z → 0 < o.dc.yz.y ∨ o.dc.xy.y = 0) :
    ∃ m, (o.deNyquist f).eval e r env σ = some ((), { σ with mem := m }) ∧
      (∀ i < o.dc.X, ∀ j < o.dc.xy.y, ∀ k < o.dc.yz.y, cget m (f + 2 * ((i * o.dc.xy.y + j) * o.dc.yz.y + k)) =
        if (o.dr.X % 2 = 0 ∧ i = 0) ∨ (o.dr.Y % 2 = 0 ∧ o.dc.xy.y0 + j = 0) ∨ (o.dr.Z % 2 = 0 ∧ o.dc.yz.y0 + k + 1 = o.dc.Z ∧ k + 1 = o.dc.yz.y) then 0
        else cget σ.mem (f + 2 * ((i * o.dc.xy.y + j) * o.dc.yz.y + k))) ∧
      ∀ a, ¬ (Region.mk f (2 * (o.dc.X * (o.dc.xy.y * o.dc.yz.y)))).has a → m a = σ.mem a := by
  generalize hyv : o.dc.xy.y = y at *
  generalize hzv : o.dc.yz.y = z at *
  have flat : ∀ i j k, (i * y + j) * z + k = i * (y * z) + (j * z + k) := fun i j k => by ring
  have hin : ∀ {j k}, j < y → k < z → j * z + k < y * z := fun hj hk => rad_lt hk hj
  obtain ⟨m1, a1, a2, a3⟩ : ∃ m, (if o.dr.X % 2 = 0 then zero f (List.range (y * z)) else Prog.ret ()).eval e r env σ = some ((), { σ with mem := m }) ∧
      (∀ i < o.dc.X, ∀ j < y, ∀ k < z, cget m (f + 2 * ((i * y + j) * z + k)) =
        if o.dr.X % 2 = 0 ∧ i = 0 then 0 else cget σ.mem (f + 2 * ((i * y + j) * z + k))) ∧
      ∀ a, ¬ (Region.mk f (2 * (o.dc.X * (y * z)))).has a → m a = σ.mem a := by
    by_cases hx : o.dr.X % 2 = 0
    · rw [if_pos hx]
      obtain ⟨m, h1, h2, h3⟩ := zero_ok (e := e) (i := r) (env := env) hr hs (l := List.range (y * z))
        (fun k hk => lt_of_lt_of_le (List.mem_range.1 hk) (Nat.le_mul_of_pos_left _ hX)) List.nodup_range
      refine ⟨m, h1, fun i hi j hj k hk => ?_, h3⟩
      rw [h2]
      refine if_congr ?_ rfl rfl
      rw [List.mem_range, flat]
      have := hin hj hk
      constructor
      · intro h
        refine ⟨hx, ?_⟩
        by_contra h0
        have : 1 * (y * z) ≤ i * (y * z) := Nat.mul_le_mul_right _ (by omega)
        omega
      · rintro ⟨_, rfl⟩
        rw [Nat.zero_mul, Nat.zero_add]
        exact this
    · rw [if_neg hx]
      exact ⟨σ.mem, rfl, fun i _ j _ k _ => by rw [if_neg fun h => hx h.1], fun _ _ => rfl⟩
  obtain ⟨m2, b1, b2, b3⟩ : ∃ m, (if o.dr.Y % 2 = 0 ∧ o.dc.xy.y0 = 0 then
        zero f ((List.range o.dc.X ×ˢ List.range z).map fun x => x.1 * (y * z) + x.2) else Prog.ret ()).eval e r env { σ with mem := m1 } =
          some ((), { σ with mem := m }) ∧
      (∀ i < o.dc.X, ∀ j < y, ∀ k < z, cget m (f + 2 * ((i * y + j) * z + k)) =
        if o.dr.Y % 2 = 0 ∧ o.dc.xy.y0 + j = 0 then 0 else cget m1 (f + 2 * ((i * y + j) * z + k))) ∧
      ∀ a, ¬ (Region.mk f (2 * (o.dc.X * (y * z)))).has a → m a = m1 a := by
    by_cases hx : o.dr.Y % 2 = 0 ∧ o.dc.xy.y0 = 0
    · rw [if_pos hx]
      have hy0 := hy hx.1 hx.2
      have hk' : ∀ k, k < z → k < y * z := fun k hk => lt_of_lt_of_le hk (Nat.le_mul_of_pos_left _ hy0)
      have hmem : ∀ x : ℕ × ℕ, x ∈ (List.range o.dc.X ×ˢ List.range z) ↔ x.1 < o.dc.X ∧ x.2 < z := fun x => by
        rw [show x = (x.1, x.2) from rfl, List.mem_product, List.mem_range, List.mem_range]
      obtain ⟨m, h1, h2, h3⟩ := zero_ok (e := e) (i := r) (env := env) (σ := { σ with mem := m1 }) hr hs
        (l := (List.range o.dc.X ×ˢ List.range z).map fun x => x.1 * (y * z) + x.2)
        (fun k hk => by
          obtain ⟨x, hx, rfl⟩ := List.mem_map.1 hk
          obtain ⟨x1, x2⟩ := (hmem x).1 hx
          exact rad_lt (hk' _ x2) x1)
        (by
          refine List.Nodup.map_on ?_ (List.nodup_range.product List.nodup_range)
          intro x hx y hy hxy
          obtain ⟨x1, x2⟩ := (hmem x).1 hx
          obtain ⟨y1, y2⟩ := (hmem y).1 hy
          obtain ⟨c1, c2⟩ := rad_inj (hk' _ x2) (hk' _ y2) hxy
          exact Prod.ext c1 c2)
      refine ⟨m, h1, fun i hi j hj k hk => ?_, h3⟩
      rw [h2]
      refine if_congr ?_ rfl rfl
      rw [flat, List.mem_map]
      constructor
      · rintro ⟨x, hx', h⟩
        obtain ⟨x1, x2⟩ := (hmem x).1 hx'
        obtain ⟨c1, c2⟩ := rad_inj (hk' _ x2) (hin hj hk) h
        have c3 : 0 * z + x.2 = j * z + k := by rw [Nat.zero_mul, Nat.zero_add]; exact c2
        have := (rad_inj x2 hk c3).1
        exact ⟨hx.1, by omega⟩
      · rintro ⟨_, h⟩
        have hj0 : j = 0 := by omega
        subst hj0
        exact ⟨(i, k), (hmem (i, k)).2 ⟨hi, hk⟩, by simp⟩
    · rw [if_neg hx]
      refine ⟨m1, rfl, fun i _ j _ k _ => ?_, fun _ _ => rfl⟩
      rw [if_neg fun h => hx ⟨h.1, by omega⟩]
  obtain ⟨m3, c1, c2, c3⟩ : ∃ m, (if o.dr.Z % 2 = 0 ∧ o.dc.yz.y0 + z = o.dc.Z then
        zero f ((List.range o.dc.X ×ˢ List.range y).map fun x => Rcfft2MPI.pred32 (x.1 * (y * z) + (x.2 + 1) * z)) else Prog.ret ()).eval e r env
          { σ with mem := m2 } = some ((), { σ with mem := m }) ∧
      (∀ i < o.dc.X, ∀ j < y, ∀ k < z, cget m (f + 2 * ((i * y + j) * z + k)) =
        if o.dr.Z % 2 = 0 ∧ o.dc.yz.y0 + k + 1 = o.dc.Z ∧ k + 1 = z then 0 else cget m2 (f + 2 * ((i * y + j) * z + k))) ∧
      ∀ a, ¬ (Region.mk f (2 * (o.dc.X * (y * z)))).has a → m a = m2 a := by
    by_cases hx : o.dr.Z % 2 = 0 ∧ o.dc.yz.y0 + z = o.dc.Z
    · rw [if_pos hx]
      rcases hz hx.1 hx.2 with hz0 | hy0
      · have hp : ∀ i j, Rcfft2MPI.pred32 (i * (y * z) + (j + 1) * z) = i * (y * z) + (j * z + (z - 1)) := by
          intro i j
          have h1 : (j + 1) * z = j * z + z := Nat.succ_mul j z
          unfold Rcfft2MPI.pred32
          rw [if_neg (by omega)]
          omega
        have hmem : ∀ x : ℕ × ℕ, x ∈ (List.range o.dc.X ×ˢ List.range y) ↔ x.1 < o.dc.X ∧ x.2 < y := fun x => by
          rw [show x = (x.1, x.2) from rfl, List.mem_product, List.mem_range, List.mem_range]
        have hz1 : z - 1 < z := by omega
        obtain ⟨m, h1, h2, h3⟩ := zero_ok (e := e) (i := r) (env := env) (σ := { σ with mem := m2 }) hr hs
          (l := (List.range o.dc.X ×ˢ List.range y).map fun x => Rcfft2MPI.pred32 (x.1 * (y * z) + (x.2 + 1) * z))
          (fun k hk => by
            obtain ⟨x, hx, rfl⟩ := List.mem_map.1 hk
            obtain ⟨x1, x2⟩ := (hmem x).1 hx
            rw [hp]
            exact rad_lt (hin x2 hz1) x1)
          (by
            refine List.Nodup.map_on ?_ (List.nodup_range.product List.nodup_range)
            intro x hx y hy hxy
            obtain ⟨x1, x2⟩ := (hmem x).1 hx
            obtain ⟨y1, y2⟩ := (hmem y).1 hy
            rw [hp, hp] at hxy
            obtain ⟨c1, c2⟩ := rad_inj (hin x2 hz1) (hin y2 hz1) hxy
            exact Prod.ext c1 (rad_inj hz1 hz1 c2).1)
        refine ⟨m, h1, fun i hi j hj k hk => ?_, h3⟩
        rw [h2]
        refine if_congr ?_ rfl rfl
        rw [flat, List.mem_map]
        constructor
        · rintro ⟨x, hx', h⟩
          obtain ⟨x1, x2⟩ := (hmem x).1 hx'
          rw [hp] at h
          obtain ⟨c1, c2⟩ := rad_inj (hin x2 hz1) (hin hj hk) h
          have := (rad_inj hz1 hk c2).2
          exact ⟨hx.1, by omega, by omega⟩
        · rintro ⟨_, _, h⟩
          refine ⟨(i, j), (hmem (i, j)).2 ⟨hi, hj⟩, ?_⟩
          simp only [hp]
          rw [show z - 1 = k by omega]
      · subst hy0
        refine ⟨m2, ?_, fun i _ j hj => absurd hj (by omega), fun _ _ => rfl⟩
        rw [show (List.range o.dc.X ×ˢ List.range 0) = ([] : List (ℕ × ℕ)) from by simp]
        rfl
    · rw [if_neg hx]
      refine ⟨m2, rfl, fun i _ j _ k _ => ?_, fun _ _ => rfl⟩
      rw [if_neg fun h => hx ⟨h.1, by omega⟩]
  refine ⟨m3, ?_, fun i hi j hj k hk => ?_, fun a ha => by rw [c3 a ha, b3 a ha, a3 a ha]⟩
  · unfold deNyquist
    rw [hyv, hzv]
    show (Prog.bind _ fun _ => Prog.bind _ _).eval e r _ _ = _
    refine Eq.trans (eval_seq (a := ()) (τ := { σ with mem := m1 }) a1) ?_
    exact Eq.trans (eval_seq (a := ()) (τ := { σ with mem := m2 }) b1) c1
  · rw [c2 i hi j hj k hk, b2 i hi j hj k hk, a2 i hi j hj k hk]
    by_cases h1 : o.dr.Z % 2 = 0 ∧ o.dc.yz.y0 + k + 1 = o.dc.Z ∧ k + 1 = z
    · rw [if_pos h1, if_pos (Or.inr (Or.inr h1))]
    · rw [if_neg h1]
      by_cases h2 : o.dr.Y % 2 = 0 ∧ o.dc.xy.y0 + j = 0
      · rw [if_pos h2, if_pos (Or.inr (Or.inl h2))]
      · rw [if_neg h2]
        by_cases h3 : o.dr.X % 2 = 0 ∧ i = 0
        · rw [if_pos h3, if_pos (Or.inl h3)]
        · rw [if_neg h3, if_neg (by tauto)]

end Rcfft3MPI

section
variable {X Y Z Px Py : ℕ} {dr dc : ℕ → Split3} {ip : Bool} {xy yz : ℕ × ℕ} {re cx wxy wyz : ℕ → Loc} {J : (Loc → ℝ) → Loc → ℝ}

/-- `Shift` in a program. -/
theorem rshift3_step {e : Eager} (hX : X % 2 = 0) (hY : Y % 2 = 0) (h : Split33 X Y Z Px Py dr dc) {G : ℕ → ℕ → ℕ → ℝ} {s : St ℝ} {k : ℕ → Prog ℝ Unit}
    (hs : ∀ r < Px * Py, (re r).off + (dr r).xy.x * (dr r).yz.x * rdist3 (dr r).Z ip ≤ (s r).loc.size (re r).buf)
    (hq : Quiet (Px * Py) (fun r => ((gridRc3 X Y Z Px Py r ip xy yz J).shift (some (re r))).bind fun _ => k r) s)
    (hG : HoldsReal3 (Px * Py) dr (rdist3 Z ip) G re fun r => (s r).loc) :
    ∃ t, Steps e s t ∧ Quiet (Px * Py) k t ∧ (∀ r, (t r).loc.size = (s r).loc.size) ∧
      HoldsReal3 (Px * Py) dr (rdist3 Z ip) (fun i j k => Rcfft2MPI.sgn (i + j) * G i j k) re (fun r => (t r).loc) ∧
      FrameW (Px * Py) (fun r => (Region.mk (re r) ((dr r).xy.x * (dr r).yz.x * rdist3 (dr r).Z ip)).has) (fun r => (s r).loc) fun r => (t r).loc := by
  obtain ⟨t, t1, t2, t3, t4⟩ := local_phase (e := e) hq
    (R := fun r m => (∀ a < (dr r).xy.x, ∀ b < (dr r).yz.x, ∀ c < (dr r).Z, m (re r + ((a * (dr r).yz.x + b) * rdist3 Z ip + c)) =
        Rcfft2MPI.sgn ((dr r).xy.x0 + a + ((dr r).yz.x0 + b)) * (s r).loc.mem (re r + ((a * (dr r).yz.x + b) * rdist3 Z ip + c))) ∧
      ∀ a, ¬ (Region.mk (re r) ((dr r).xy.x * (dr r).yz.x * rdist3 (dr r).Z ip)).has a → m a = (s r).loc.mem a)
    (by
      intro r hr
      have hdr : (gridRc3 X Y Z Px Py r ip xy yz J).dr = dr r := (h.dr r hr).symm
      have hrd : (gridRc3 X Y Z Px Py r ip xy yz J).rdist = rdist3 Z ip := rfl
      obtain ⟨m, m1, m2, m3⟩ := Rcfft3MPI.shift_ok (e := e) (i := r) (env := fun j => (s j).loc) (hq.req r hr) (o := gridRc3 X Y Z Px Py r ip xy yz J)
        hX hY (zPlan3_std Z (dr r) ip J).rdist (f := re r) (by rw [hdr, hrd, ← h.hZr r hr]; exact hs r hr)
      rw [hdr, hrd] at m2 m3
      refine ⟨m, m1, m2, ?_⟩
      rw [h.hZr r hr]
      exact m3)
  refine ⟨t, t1, t2, t3, fun r hr i hi j hj k hk => ?_, fun r hr => (t4 r hr).2⟩
  rw [(t4 r hr).1 i hi j hj k hk, hG r hr i hi j hj k hk]

/-- `Normalize` in a program. -/
theorem rnormalize3_step {e : Eager} (h : Split33 X Y Z Px Py dr dc) {G : ℕ → ℕ → ℕ → ℝ} {s : St ℝ} {k : ℕ → Prog ℝ Unit}
    (hs : ∀ r < Px * Py, (re r).off + (dr r).xy.x * (dr r).yz.x * rdist3 (dr r).Z ip ≤ (s r).loc.size (re r).buf)
    (hq : Quiet (Px * Py) (fun r => ((gridRc3 X Y Z Px Py r ip xy yz J).normalize (re r)).bind fun _ => k r) s)
    (hG : HoldsReal3 (Px * Py) dr (rdist3 Z ip) G re fun r => (s r).loc) :
    ∃ t, Steps e s t ∧ Quiet (Px * Py) k t ∧ (∀ r, (t r).loc.size = (s r).loc.size) ∧
      HoldsReal3 (Px * Py) dr (rdist3 Z ip) (fun i j k => G i j k / ((X * Y * Z : ℕ) : ℝ)) re (fun r => (t r).loc) ∧
      FrameW (Px * Py) (fun r => (Region.mk (re r) ((dr r).xy.x * (dr r).yz.x * rdist3 (dr r).Z ip)).has) (fun r => (s r).loc) fun r => (t r).loc := by
  obtain ⟨t, t1, t2, t3, t4⟩ := local_phase (e := e) hq
    (R := fun r m => (∀ k < (dr r).xy.x * (dr r).yz.x * rdist3 Z ip, m (re r + k) = (s r).loc.mem (re r + k) * (1 / ((X * Y * Z : ℕ) : ℝ))) ∧
      ∀ a, ¬ (Region.mk (re r) ((dr r).xy.x * (dr r).yz.x * rdist3 (dr r).Z ip)).has a → m a = (s r).loc.mem a)
    (by
      intro r hr
      have hdr : (gridRc3 X Y Z Px Py r ip xy yz J).dr = dr r := (h.dr r hr).symm
      have hrd : (gridRc3 X Y Z Px Py r ip xy yz J).rdist = rdist3 Z ip := rfl
      obtain ⟨m, m1, m2, m3⟩ := Rcfft3MPI.normalize_ok (e := e) (i := r) (env := fun j => (s j).loc) (hq.req r hr) (o := gridRc3 X Y Z Px Py r ip xy yz J)
        (f := re r) (by rw [hdr, hrd, ← h.hZr r hr]; exact hs r hr)
      rw [hdr, hrd] at m2 m3
      refine ⟨m, m1, fun k hk => ?_, ?_⟩
      · rw [m2 k hk, h.dr r hr]
        rfl
      · rw [h.hZr r hr]
        exact m3)
  refine ⟨t, t1, t2, t3, fun r hr i hi j hj k hk => ?_, fun r hr => (t4 r hr).2⟩
  have hd : Z ≤ rdist3 Z ip := (zPlan3_std Z (dr r) ip J).rdist
  rw [(t4 r hr).1 _ (rad_lt (lt_of_lt_of_le (by rw [← h.hZr r hr]; exact hk) hd) (rad_lt hj hi)), hG r hr i hi j hj k hk, mul_one_div]

/-- `deNyquist` in a program. -/
theorem rdeNyquist3_step {e : Eager} (hX : 0 < X) (hY : 0 < Y) (h : Split33 X Y Z Px Py dr dc) {F : ℕ → ℕ → ℕ → ℂ} {s : St ℝ} {k : ℕ → Prog ℝ Unit}
    (hs : ∀ r < Px * Py, (cx r).off + 2 * (dc r).n ≤ (s r).loc.size (cx r).buf)
    (hno : Z % 2 = 0 → ∀ r < Px * Py, (dc r).yz.y0 = Z / 2 + 1 → 0 < (dc r).yz.y ∨ (dc r).xy.y = 0)
    (hq : Quiet (Px * Py) (fun r => ((gridRc3 X Y Z Px Py r ip xy yz J).deNyquist (cx r)).bind fun _ => k r) s)
    (hG : HoldsSpec3 (Px * Py) dc F cx fun r => (s r).loc) :
    ∃ t, Steps e s t ∧ Quiet (Px * Py) k t ∧ (∀ r, (t r).loc.size = (s r).loc.size) ∧
      HoldsSpec3 (Px * Py) dc (fun kx ky kz => if (X % 2 = 0 ∧ kx = 0) ∨ (Y % 2 = 0 ∧ ky = 0) ∨ (Z % 2 = 0 ∧ kz = Z / 2) then 0 else F kx ky kz) cx
        (fun r => (t r).loc) ∧
      FrameW (Px * Py) (fun r => (Region.mk (cx r) (2 * (dc r).n)).has) (fun r => (s r).loc) fun r => (t r).loc := by
  have hn : ∀ r, (dc r).X * ((dc r).xy.y * (dc r).yz.y) ≤ (dc r).n := fun r => by
    rw [← Nat.mul_assoc]
    exact (Nat.mul_le_mul_right _ (le_max_left _ _)).trans (le_max_left _ _)
  have hpy : ∀ r, r % Py < Py := fun r => Nat.mod_lt _ h.py
  obtain ⟨t, t1, t2, t3, t4⟩ := local_phase (e := e) hq
    (R := fun r m => (∀ i < (dc r).X, ∀ j < (dc r).xy.y, ∀ k < (dc r).yz.y, cget m (cx r + 2 * ((i * (dc r).xy.y + j) * (dc r).yz.y + k)) =
        if (X % 2 = 0 ∧ i = 0) ∨ (Y % 2 = 0 ∧ (dc r).xy.y0 + j = 0) ∨ (Z % 2 = 0 ∧ (dc r).yz.y0 + k + 1 = (dc r).Z ∧ k + 1 = (dc r).yz.y) then 0
        else cget (s r).loc.mem (cx r + 2 * ((i * (dc r).xy.y + j) * (dc r).yz.y + k))) ∧
      ∀ a, ¬ (Region.mk (cx r) (2 * ((dc r).X * ((dc r).xy.y * (dc r).yz.y)))).has a → m a = (s r).loc.mem a)
    (by
      intro r hr
      have hdr : (gridRc3 X Y Z Px Py r ip xy yz J).dr = dr r := (h.dr r hr).symm
      have hdc : (gridRc3 X Y Z Px Py r ip xy yz J).dc = dc r := (h.dc r hr).symm
      have hq' : r / Py < Px := (Nat.div_lt_iff_lt_mul h.py).2 hr
      have e1 : (dr r).X = X := by rw [h.dr r hr]; rfl
      have e2 : (dr r).Y = Y := by rw [h.dr r hr]; rfl
      obtain ⟨m, m1, m2, m3⟩ := Rcfft3MPI.deNyquist_ok (e := e) (r := r) (env := fun j => (s j).loc) (hq.req r hr) (o := gridRc3 X Y Z Px Py r ip xy yz J)
        hX (f := cx r) (by rw [hdc]; exact (Nat.add_le_add_left (Nat.mul_le_mul_left 2 (hn r)) _).trans (hs r hr))
        (by
          intro _ h0
          exact part_first_zero hY h.px h0)
        (by
          rw [hdc, hdr]
          intro hz0 hz1
          rw [h.hZr r hr] at hz0
          rw [h.hZc r hr] at hz1
          by_cases hc : 0 < (dc r).yz.y
          · exact Or.inl hc
          · exact hno hz0 r hr (by omega))
      rw [hdc, hdr, e1, e2, h.hZr r hr] at m2
      rw [hdc] at m3
      exact ⟨m, m1, m2, m3⟩)
  refine ⟨t, t1, t2, t3, fun r hr i hi j hj k hk => ?_, fun r hr a ha => (t4 r hr).2 a fun hh => ha (has_mono (Nat.mul_le_mul_left 2 (hn r)) hh)⟩
  rw [(t4 r hr).1 i hi j hj k hk, hG r hr i hi j hj k hk]
  refine if_congr ?_ rfl rfl
  have hl : (dc r).yz.y0 + k < Z / 2 + 1 := by
    rw [h.dc r hr] at hk ⊢
    exact first_lt h.py (hpy r) hk
  have hl2 : (dc r).yz.y0 + ((dc r).yz.y - 1) < Z / 2 + 1 := by
    rw [h.dc r hr] at hk ⊢
    exact first_lt h.py (hpy r) (Nat.sub_lt (by omega) Nat.one_pos)
  rw [h.hZc r hr]
  refine or_congr Iff.rfl (or_congr Iff.rfl (and_congr Iff.rfl ?_))
  omega

end
end Fftwpp.Net
