import Verif.Proof.Trans5

/-!
# C26: the distributed transpose

`mpitranspose` (mpi/mpitranspose.h) on `P` processes: `localize0` redistributes an `N × M` array of blocks of `L` words, of which each
process holds some rows, so that each process holds some columns; `localize1` goes back.
-/

namespace Fftwpp.Net
variable {V : Type}

/-- Process `r` of `P` holds `part N P r` of `N` rows (or columns), from number `first N P r` on (`localdimension`, C25). -/
def part (N P r : ℕ) : ℕ := (Mpi.localdimension N r P).n.toNat
/-- See `part`. -/
def first (N P r : ℕ) : ℕ := (Mpi.localdimension N r P).start.toNat

/-- Every process holds its rows of the global array `G`, stored contiguously at `buf r`. -/
def HoldsRows (N M L P : ℕ) (G : ℕ → ℕ → ℕ → V) (buf : ℕ → Loc) (σ : ℕ → Local V) : Prop :=
  ∀ r < P, ∀ i < part N P r, ∀ j < M, ∀ l < L, (σ r).mem (buf r + ((i * M + j) * L + l)) = G (first N P r + i) j l

/-- Every process holds its columns of the global array `G`, stored contiguously at `buf r`. -/
def HoldsCols (N M L P : ℕ) (G : ℕ → ℕ → ℕ → V) (buf : ℕ → Loc) (σ : ℕ → Local V) : Prop :=
  ∀ r < P, ∀ i < N, ∀ j < part M P r, ∀ l < L, (σ r).mem (buf r + ((i * part M P r + j) * L + l)) = G i (first M P r + j) l

/-- What the caller provides: `rows r` points to room for the local rows, `cols r` for the local columns, `wrk r` is the work array of
the object; no request is pending and no message is in transit. -/
structure TransposeEnv (N M L P optA alltoall : ℕ) (rows cols wrk : ℕ → Loc) (σ : ℕ → Local V) : Prop where
  rowsSize : ∀ r < P, (rows r).off + part N P r * M * L ≤ (σ r).size (rows r).buf
  colsSize : ∀ r < P, (cols r).off + N * part M P r * L ≤ (σ r).size (cols r).buf
  wrkSize : ∀ r < P, (wrk r).off + part N P r * M * L ≤ (σ r).size (wrk r).buf
  rowswrk : ∀ r < P, (rows r).buf ≠ (wrk r).buf
  colswrk : ∀ r < P, (cols r).buf ≠ (wrk r).buf
  /-- In place or in separate arrays. -/
  same : ∀ r < P, rows r = cols r ∨ (rows r).buf ≠ (cols r).buf
  /-- The compact algorithm only works in place (see `C26_compact_refuted`). -/
  compact : ∀ r < P, (MT.mk' N M L P r optA alltoall).compact = true → rows r = cols r
  req : ∀ r < P, ∀ id, (σ r).req id = none
  bal : ∀ i < P, ∀ j < P, ∀ ctx, ((σ i).sent (j, ctx)).length = (σ j).rcvd (i, ctx)

/-- The end of a run: all processes finished, no message in transit, `data` holds, no buffer was resized, and nothing but
`len r` words at `dst r` and the work array was written. -/
structure TransposeEnd (P : ℕ) (data : (ℕ → Local V) → Prop) (dst wrk : ℕ → Loc) (len wlen : ℕ → ℕ) (σ : ℕ → Local V) (f : St V) : Prop where
  fin : Finished P f
  data : data fun r => (f r).loc
  sizes : ∀ r < P, (f r).loc.size = (σ r).size
  keep : ∀ r < P, ∀ a, ¬ (Region.mk (dst r) (len r)).has a → ¬ (Region.mk (wrk r) (wlen r)).has a → (f r).loc.mem a = (σ r).mem a

namespace Geo
variable {g : Geo}

theorem size1 (h : g.OK) (h1 : g.size = 1) : g.nlast = 0 ∧ g.mlast = 0 ∧ g.nn 0 = g.N ∧ g.mm 0 = g.M ∧ ∀ i, (g.mt i).subblock = false := by
  have a1 := h.nlast
  have a2 := h.mlast
  have e1 : g.nlast = 0 := by omega
  have e2 : g.mlast = 0 := by omega
  refine ⟨e1, e2, ?_, ?_, ?_⟩
  · rw [h.N, e1]; simp [nn, e1]
  · rw [h.M, e2]; simp [mm, e2]
  · intro i
    by_contra hc
    have hs : g.a > 1 ∧ i < g.a * g.b := (sub_iff i).1 (by simpa using hc)
    have h3 := h.ab_size (Or.inl hs.1)
    have : 1 ≤ g.b := by
      rcases Nat.eq_zero_or_pos g.b with h0 | h0
      · rw [h0] at hs; omega
      · exact h0
    have : g.a * 1 ≤ g.a * g.b := Nat.mul_le_mul_left _ this
    omega

theorem at_off {p : Loc} {n : ℕ} {x : ℕ} (hx : x < n) : (Region.mk p n).has (p + x) := region_has.2 ⟨x, hx, rfl⟩

/-- A copy of `n` words. -/
theorem copy_ok {e : Eager} {i : ℕ} {env : ℕ → Local V} {σ : Local V} (hr : ∀ id, σ.req id = none) {src dst : Loc} {n : ℕ}
    (hb : src.buf ≠ dst.buf) (hs : src.off + n ≤ σ.size src.buf) (hd : dst.off + n ≤ σ.size dst.buf) :
    ∃ m, (copy src dst n).eval e i env σ = some ((), { σ with mem := m }) ∧ (∀ x < n, m (dst + x) = σ.mem (src + x)) ∧
      ∀ a, ¬ (Region.mk dst n).has a → m a = σ.mem a := by
  obtain ⟨m, h1, h2, h3⟩ := moves_ok (e := e) (i := i) (env := env) hr (d := dst) (s := src) (l := (List.range n).map fun i => (i, i))
    (by
      rw [List.map_map]
      exact (List.nodup_range.map fun a b hab => hab)) hb.symm
    (by
      intro x hx
      obtain ⟨y, hy, rfl⟩ := List.mem_map.1 hx
      exact inB hd (List.mem_range.1 hy))
    (by
      intro x hx
      obtain ⟨y, hy, rfl⟩ := List.mem_map.1 hx
      exact inB hs (List.mem_range.1 hy))
  refine ⟨m, h1, fun x hx => h2 (x, x) (List.mem_map.2 ⟨x, List.mem_range.2 hx, rfl⟩), fun a ha => h3 a fun x hx he => ha ?_⟩
  obtain ⟨y, hy, rfl⟩ := List.mem_map.1 hx
  exact region_has.2 ⟨y, List.mem_range.1 hy, he⟩

/-- `size = 1`: a copy. -/
theorem one_copy {e : Eager} {P : ℕ} {inp out : ℕ → Loc} {s : St V} {k x : ℕ → Prog V Unit} {n : ℕ} (hx : ∀ i < P, x i = if i < 1 ∧ inp i ≠ out i then
      copy (inp i) (out i) n else .ret ())
    (hq : Quiet P (fun i => (x i).bind fun _ => k i) s) (hsame : ∀ i < 1, inp i = out i ∨ (inp i).buf ≠ (out i).buf)
    (hi : ∀ i < 1, (inp i).off + n ≤ (s i).loc.size (inp i).buf) (ho : ∀ i < 1, (out i).off + n ≤ (s i).loc.size (out i).buf) :
    ∃ t, Steps e s t ∧ Quiet P k t ∧ (∀ i, (t i).loc.size = (s i).loc.size) ∧
      (0 < P → ∀ x < n, (t 0).loc.mem (out 0 + x) = (s 0).loc.mem (inp 0 + x)) ∧
      ∀ i < P, ∀ a, (i < 1 → ¬ (Region.mk (out i) n).has a) → (t i).loc.mem a = (s i).loc.mem a := by
  obtain ⟨t, h1, h2, h3, h4⟩ := local_phase (e := e) hq (R := fun i m => (i < 1 → ∀ x < n, m (out i + x) = (s i).loc.mem (inp i + x)) ∧
      ∀ a, (i < 1 → ¬ (Region.mk (out i) n).has a) → m a = (s i).loc.mem a) (by
    intro i hiP
    rw [hx i hiP]
    split_ifs with hc
    · obtain ⟨m, m1, m2, m3⟩ := copy_ok (e := e) (i := i) (env := fun j => (s j).loc) (hq.req i hiP) ((hsame i hc.1).resolve_left hc.2) (hi i hc.1) (ho i hc.1)
      exact ⟨m, m1, fun _ => m2, fun a ha => m3 a (ha hc.1)⟩
    · refine ⟨(s i).loc.mem, rfl, fun h1 x _ => ?_, fun _ _ => rfl⟩
      have : inp i = out i := by
        by_contra hne
        exact hc ⟨h1, hne⟩
      rw [this])
  exact ⟨t, h1, h2, h3, fun hP => (h4 0 hP).1 (by omega), fun i hi => (h4 i hi).2⟩

theorem localize0_one (h : g.OK) (h1 : g.size = 1) (i : ℕ) (inp out wrk : Loc) :
    ((g.mt i).localize0 inp out wrk : Prog V Unit) = if i < 1 ∧ inp ≠ out then copy inp out (g.nn 0 * g.M * g.L) else .ret () := by
  obtain ⟨_, _, _, _, e5⟩ := size1 h h1
  have hsz : (g.mt i).size = 1 := h1
  unfold MT.localize0 MT.outphase0 MT.outsync0 MT.outsync
  simp only [e5, hsz, true_or, if_true, Bool.false_eq_true, if_false]
  by_cases hi : i < 1
  · have hr : ¬ (g.mt i).rank ≥ 1 := by show ¬ i ≥ 1; omega
    have hi0 : i = 0 := by omega
    simp only [hr, if_false, hi, true_and]
    subst hi0
    show Prog.bind _ (fun _ => Prog.ret ()) = _
    rw [bind_ret]
    rfl
  · have hr : (g.mt i).rank ≥ 1 := by show i ≥ 1; omega
    simp only [hr, if_true, hi, false_and, if_false]
    rfl

theorem localize1_one (h : g.OK) (h1 : g.size = 1) (i : ℕ) (inp out wrk : Loc) :
    ((g.mt i).localize1 inp out wrk : Prog V Unit) = if i < 1 ∧ inp ≠ out then copy inp out (g.N * g.mm 0 * g.L) else .ret () := by
  obtain ⟨_, _, _, _, e5⟩ := size1 h h1
  have hsz : (g.mt i).size = 1 := h1
  unfold MT.localize1 MT.inphase0 MT.insync0 MT.inphase1 MT.insync1 MT.inpost
  simp only [e5, hsz, true_or, if_true, Bool.false_eq_true, if_false]
  by_cases hi : i < 1
  · have hr : ¬ (g.mt i).rank ≥ 1 := by show ¬ i ≥ 1; omega
    have hi0 : i = 0 := by omega
    simp only [hr, if_false, hi, true_and]
    subst hi0
    show Prog.bind _ (fun _ => Prog.ret ()) = _
    rw [bind_ret]
    rfl
  · have hr : (g.mt i).rank ≥ 1 := by show i ≥ 1; omega
    simp only [hr, if_true, hi, false_and, if_false]
    rfl

/-- `localize0` for every number of processes. -/
theorem localize0_all {e : Eager} {P : ℕ} {inp out wrk : ℕ → Loc} {s : St V} {k : ℕ → Prog V Unit} (h : g.OK) (hP : g.size ≤ P)
    (hb : Bufs g inp out wrk (fun i => (s i).loc)) (hinS : ∀ i < g.size, (inp i).off + g.nn i * g.M * g.L ≤ (s i).loc.size (inp i).buf)
    (houtS : ∀ i < g.size, (out i).off + g.N * g.mm i * g.L ≤ (s i).loc.size (out i).buf)
    (hq : Quiet P (fun i => ((g.mt i).localize0 (inp i) (out i) (wrk i)).bind fun _ => k i) s) :
    ∃ t, Steps e s t ∧ Quiet P k t ∧ (∀ i, (t i).loc.size = (s i).loc.size) ∧
      OutData g inp out (fun i => (s i).loc) (fun i => (t i).loc) ∧
      ∀ i < P, ∀ a, (i < g.size → ¬ (Region.mk (out i) (g.N * g.mm i * g.L)).has a ∧ ¬ (Region.mk (wrk i) (g.nn i * g.M * g.L)).has a) →
        (t i).loc.mem a = (s i).loc.mem a := by
  by_cases h1 : g.size = 1
  swap
  · exact localize0_core h h1 hP hb hinS houtS hq
  obtain ⟨e1, e2, e3, e4, e5⟩ := size1 h h1
  rw [h1] at hP
  have el : g.nn 0 * g.M * g.L = g.N * g.mm 0 * g.L := by rw [e3, e4]
  obtain ⟨t, t1, t2, t3, t4, t5⟩ := one_copy (e := e) (n := g.nn 0 * g.M * g.L) (fun i _ => localize0_one h h1 i (inp i) (out i) (wrk i)) hq
    (fun i hi => hb.same i (by omega)) (fun i hi => by
      have := hinS i (by omega)
      rwa [show i = 0 by omega] at this ⊢)
    (fun i hi => by
      have := houtS i (by omega)
      rw [show i = 0 by omega] at this ⊢
      rwa [el])
  refine ⟨t, t1, t2, t3, ?_, ?_⟩
  · intro r hr p hp j hj k hk
    have hr0 : r = 0 := by omega
    have hp0 : p = 0 := by omega
    subst hr0; subst hp0
    rw [e4] at hk ⊢
    have hx : j * (g.M * g.L) + k < g.nn 0 * g.M * g.L := by rw [Nat.mul_assoc]; exact rad_lt hk hj
    have := t4 hP _ hx
    simp only [Nat.zero_mul, Nat.zero_add]
    exact this
  · intro i hi a ha
    refine t5 i hi a fun hi1 => ?_
    have hi0 : i = 0 := by omega
    subst hi0
    rw [el]
    exact (ha (by omega)).1

/-- `localize1` for every number of processes. -/
theorem localize1_all {e : Eager} {P : ℕ} {inp out wrk : ℕ → Loc} {s : St V} {k : ℕ → Prog V Unit} (h : g.OK) (hP : g.size ≤ P)
    (hb : Bufs g inp out wrk (fun i => (s i).loc)) (hinS : ∀ i < g.size, (inp i).off + g.N * g.mm i * g.L ≤ (s i).loc.size (inp i).buf)
    (houtS : ∀ i < g.size, (out i).off + g.nn i * g.M * g.L ≤ (s i).loc.size (out i).buf)
    (hq : Quiet P (fun i => ((g.mt i).localize1 (inp i) (out i) (wrk i)).bind fun _ => k i) s) :
    ∃ t, Steps e s t ∧ Quiet P k t ∧ (∀ i, (t i).loc.size = (s i).loc.size) ∧
      InData g inp out (fun i => (s i).loc) (fun i => (t i).loc) ∧
      ∀ i < P, ∀ a, (i < g.size → ¬ (Region.mk (out i) (g.nn i * g.M * g.L)).has a ∧ ¬ (Region.mk (wrk i) (g.nn i * g.M * g.L)).has a) →
        (t i).loc.mem a = (s i).loc.mem a := by
  by_cases h1 : g.size = 1
  swap
  · exact localize1_core h h1 hP hb hinS houtS hq
  obtain ⟨e1, e2, e3, e4, e5⟩ := size1 h h1
  rw [h1] at hP
  have el : g.N * g.mm 0 * g.L = g.nn 0 * g.M * g.L := by rw [e3, e4]
  obtain ⟨t, t1, t2, t3, t4, t5⟩ := one_copy (e := e) (n := g.N * g.mm 0 * g.L) (fun i _ => localize1_one h h1 i (inp i) (out i) (wrk i)) hq
    (fun i hi => hb.same i (by omega)) (fun i hi => by
      have := hinS i (by omega)
      rwa [show i = 0 by omega] at this ⊢)
    (fun i hi => by
      have := houtS i (by omega)
      rw [show i = 0 by omega] at this ⊢
      rwa [el])
  refine ⟨t, t1, t2, t3, ?_, ?_⟩
  · intro r hr p hp j hj k hk
    have hr0 : r = 0 := by omega
    have hp0 : p = 0 := by omega
    subst hr0; subst hp0
    rw [e4] at hk ⊢
    have hx : j * (g.M * g.L) + k < g.N * g.mm 0 * g.L := by rw [el, Nat.mul_assoc]; exact rad_lt hk hj
    have := t4 hP _ hx
    simp only [Nat.zero_mul, Nat.zero_add]
    exact this
  · intro i hi a ha
    refine t5 i hi a fun hi1 => ?_
    have hi0 : i = 0 := by omega
    subst hi0
    rw [el]
    exact (ha (by omega)).1

end Geo

/-- The geometry seen from the outside. -/
structure Seen (N M L P optA alltoall : ℕ) (g : Geo) : Prop where
  ok : g.OK
  eN : g.N = N
  eM : g.M = M
  eL : g.L = L
  size : g.size ≤ P
  mt : ∀ r < P, MT.mk' N M L P r optA alltoall = g.mt r
  firstN : ∀ r, first N P r = r * g.n0
  firstM : ∀ r, first M P r = r * g.m0
  partN : ∀ r, part N P r = g.nn r
  partM : ∀ r, part M P r = g.mm r

theorem seen {N M L P optA alltoall : ℕ} (hN : 0 < N) (hM : 0 < M) (hP : 0 < P) (ha : 1 ≤ optA) : ∃ g, Seen N M L P optA alltoall g := by
  obtain ⟨g, h1, h2, h3, h4, h5, h6, _, h8⟩ := Geo.mk'_eq (L := L) (alltoall := alltoall) hN hM hP ha
  exact ⟨g, h1, h2, h3, h4, h5, h6, fun r => (h8 r).1, fun r => (h8 r).2.1, fun r => (h8 r).2.2.1, fun r => (h8 r).2.2.2⟩

theorem owner {N P i : ℕ} (hP : 0 < P) (hi : i < N) : ∃ p < P, first N P p ≤ i ∧ i < first N P p + part N P p := (ld_has N P hP).2.1 i hi

theorem Seen.bufs {N M L P optA alltoall : ℕ} {g : Geo} (h : Seen N M L P optA alltoall g) {rows cols wrk : ℕ → Loc} {σ : ℕ → Local V}
    (he : TransposeEnv N M L P optA alltoall rows cols wrk σ) :
    g.Bufs rows cols wrk σ ∧ g.Bufs cols rows wrk σ ∧ (∀ i < g.size, (rows i).off + g.nn i * g.M * g.L ≤ (σ i).size (rows i).buf) ∧
      ∀ i < g.size, (cols i).off + g.N * g.mm i * g.L ≤ (σ i).size (cols i).buf := by
  have hs := h.size
  have hc : ∀ i < g.size, g.compact = true → rows i = cols i := by
    intro i hi hc
    refine he.compact i (by omega) ?_
    rw [h.mt i (by omega)]; exact hc
  refine ⟨⟨?_, fun i hi => he.rowswrk i (by omega), fun i hi => he.colswrk i (by omega), fun i hi => he.same i (by omega), fun h1 i hi => hc i hi h1⟩,
    ⟨?_, fun i hi => he.colswrk i (by omega), fun i hi => he.rowswrk i (by omega), fun i hi => (he.same i (by omega)).imp Eq.symm Ne.symm,
      fun h1 i hi => (hc i hi h1).symm⟩, ?_, ?_⟩
  · intro i hi
    rw [← h.partN, h.eM, h.eL]; exact he.wrkSize i (by omega)
  · intro i hi
    rw [← h.partN, h.eM, h.eL]; exact he.wrkSize i (by omega)
  · intro i hi
    rw [← h.partN, h.eM, h.eL]; exact he.rowsSize i (by omega)
  · intro i hi
    rw [← h.partM, h.eN, h.eL]; exact he.colsSize i (by omega)

theorem Seen.lt_n {N M L P optA alltoall : ℕ} {g : Geo} (h : Seen N M L P optA alltoall g) {r i : ℕ} (hi : i < part N P r) : r < g.size := by
  rw [h.partN] at hi
  unfold Geo.nn at hi
  have := h.ok.nlast
  split_ifs at hi <;> omega

theorem Seen.lt_m {N M L P optA alltoall : ℕ} {g : Geo} (h : Seen N M L P optA alltoall g) {r i : ℕ} (hi : i < part M P r) : r < g.size := by
  rw [h.partM] at hi
  unfold Geo.mm at hi
  have := h.ok.mlast
  split_ifs at hi <;> omega

theorem Seen.cols {N M L P optA alltoall : ℕ} {g : Geo} (h : Seen N M L P optA alltoall g) (hP : 0 < P) {G : ℕ → ℕ → ℕ → V} {rows cols : ℕ → Loc}
    {s t : ℕ → Local V} (hr : HoldsRows N M L P G rows s) (hd : g.OutData rows cols s t) : HoldsCols N M L P G cols t := by
  intro r hrP i hi j hj l hl
  obtain ⟨p, hp, p1, p2⟩ := owner hP hi
  have hps : p < g.size := h.lt_n (i := i - first N P p) (by omega)
  have hrs := h.lt_m hj
  have hj' : j < g.mm r := by rw [← h.partM]; exact hj
  have hM : first M P r + j < M := (ld_has M P hP).1 r hrP (first M P r + j) (Nat.le_add_right _ _) (Nat.add_lt_add_left hj _)
  have e1 := hd r hrs p hps (i - first N P p) (by rw [← h.partN]; omega) (j * L + l) (by rw [h.eL]; exact rad_lt hl hj')
  have e2 := hr p hp (i - first N P p) (by omega) (first M P r + j) hM l hl
  rw [show first N P p + (i - first N P p) = i by omega] at e2
  rw [← e2]
  have ei : i = p * g.n0 + (i - first N P p) := by rw [← h.firstN]; omega
  have a1 : (i * part M P r + j) * L + l = (p * g.n0 + (i - first N P p)) * (g.mm r * g.L) + (j * L + l) := by
    rw [← ei, h.partM, h.eL]; ring
  have a2 : ((i - first N P p) * M + (first M P r + j)) * L + l = (i - first N P p) * (g.M * g.L) + (r * (g.m0 * g.L) + (j * L + l)) := by
    rw [h.firstM, h.eM, h.eL]; ring
  rw [a1, a2]
  exact e1

theorem Seen.rows {N M L P optA alltoall : ℕ} {g : Geo} (h : Seen N M L P optA alltoall g) (hP : 0 < P) {G : ℕ → ℕ → ℕ → V} {rows cols : ℕ → Loc}
    {s t : ℕ → Local V} (hc : HoldsCols N M L P G cols s) (hd : g.InData cols rows s t) : HoldsRows N M L P G rows t := by
  intro r hrP i hi j hj l hl
  obtain ⟨p, hp, p1, p2⟩ := owner hP hj
  have hps : p < g.size := h.lt_m (i := j - first M P p) (by omega)
  have hrs := h.lt_n hi
  have hi' : i < g.nn r := by rw [← h.partN]; exact hi
  have hN : first N P r + i < N := (ld_has N P hP).1 r hrP (first N P r + i) (Nat.le_add_right _ _) (Nat.add_lt_add_left hi _)
  have hjp : j - first M P p < g.mm p := by rw [← h.partM]; omega
  have e1 := hd r hrs p hps i hi' ((j - first M P p) * L + l) (by rw [h.eL]; exact rad_lt hl hjp)
  have e2 := hc p hp (first N P r + i) hN (j - first M P p) (by omega) l hl
  rw [show first M P p + (j - first M P p) = j by omega] at e2
  rw [← e2]
  have ej : j = p * g.m0 + (j - first M P p) := by rw [← h.firstM]; omega
  have a1 : (i * M + j) * L + l = i * (g.M * g.L) + (p * (g.m0 * g.L) + ((j - first M P p) * L + l)) := by
    conv_lhs => rw [ej]
    rw [h.eM, h.eL]; ring
  have a2 : ((first N P r + i) * part M P p + (j - first M P p)) * L + l = (r * g.n0 + i) * (g.mm p * g.L) + ((j - first M P p) * L + l) := by
    rw [h.firstN, h.partM, h.eL]; ring
  rw [a1, a2]
  exact e1

/-- The initial state is quiet. -/
theorem start_quiet {N M L P optA alltoall : ℕ} {rows cols wrk : ℕ → Loc} {σ : ℕ → Local V}
    (he : TransposeEnv N M L P optA alltoall rows cols wrk σ) (prog : ℕ → Prog V Unit) : Quiet P prog (start P prog σ) :=
  ⟨fun i hi => by simp [start, hi], fun i hi => by simp [start, show ¬ i < P by omega], fun i hi id => he.req i hi id,
    fun i hi j hj ctx => he.bal i hi j hj ctx⟩

theorem Quiet.fin {P : ℕ} {t : St V} (h : Quiet P (fun _ => .ret ()) t) : (∀ i, (t i).prog = .ret ()) ∧ Finished P t := by
  refine ⟨fun i => ?_, fun i hi => ⟨h.prog i hi, h.req i hi⟩, h.bal⟩
  by_cases hi : i < P
  · exact h.prog i hi
  · exact h.done i (by omega)

/-- **C26**, `localize0`: for all `N`, `M`, `L`, all process counts, all choices of the algorithm (`optA`, `alltoall`), every global array
`G` distributed by rows, all orders of execution and all choices of the MPI library: every run is finite, and ends with every
process finished, no message in transit and `G` distributed by columns. -/
theorem C26_localize0 (e : Eager) {N M L P optA alltoall : ℕ} (hN : 0 < N) (hM : 0 < M) (hP : 0 < P) (ha : 1 ≤ optA) {G : ℕ → ℕ → ℕ → V}
    {rows cols wrk : ℕ → Loc} {σ : ℕ → Local V} (he : TransposeEnv N M L P optA alltoall rows cols wrk σ) (hG : HoldsRows N M L P G rows σ) :
    AllRuns e (start P (fun r => (MT.mk' N M L P r optA alltoall).localize0 (rows r) (cols r) (wrk r)) σ)
      (TransposeEnd P (HoldsCols N M L P G cols) cols wrk (fun r => N * part M P r * L) (fun r => part N P r * M * L) σ) := by
  obtain ⟨g, hs⟩ := seen (L := L) (alltoall := alltoall) hN hM hP ha
  obtain ⟨b1, _, b3, b4⟩ := hs.bufs he
  have hq := start_quiet he (fun r => (MT.mk' N M L P r optA alltoall).localize0 (rows r) (cols r) (wrk r))
  obtain ⟨t, t1, t2, t3, t4, t5⟩ := Geo.localize0_all (e := e) (k := fun _ => .ret ()) hs.ok hs.size b1 b3 b4
    (⟨fun i hi => by rw [hq.prog i hi, Geo.bind_ret, hs.mt i hi], hq.done, hq.req, hq.bal⟩)
  refine allRuns t1 t2.fin.1 ⟨t2.fin.2, hs.cols hP hG t4, fun r _ => t3 r, fun r hr a ha1 ha2 => t5 r hr a fun _ => ?_⟩
  rw [← hs.partM, ← hs.partN, hs.eN, hs.eM, hs.eL]
  exact ⟨ha1, ha2⟩

/-- **C26**, `localize1`: the way back. -/
theorem C26_localize1 (e : Eager) {N M L P optA alltoall : ℕ} (hN : 0 < N) (hM : 0 < M) (hP : 0 < P) (ha : 1 ≤ optA) {G : ℕ → ℕ → ℕ → V}
    {rows cols wrk : ℕ → Loc} {σ : ℕ → Local V} (he : TransposeEnv N M L P optA alltoall rows cols wrk σ) (hG : HoldsCols N M L P G cols σ) :
    AllRuns e (start P (fun r => (MT.mk' N M L P r optA alltoall).localize1 (cols r) (rows r) (wrk r)) σ)
      (TransposeEnd P (HoldsRows N M L P G rows) rows wrk (fun r => part N P r * M * L) (fun r => part N P r * M * L) σ) := by
  obtain ⟨g, hs⟩ := seen (L := L) (alltoall := alltoall) hN hM hP ha
  obtain ⟨_, b2, b3, b4⟩ := hs.bufs he
  have hq := start_quiet he (fun r => (MT.mk' N M L P r optA alltoall).localize1 (cols r) (rows r) (wrk r))
  obtain ⟨t, t1, t2, t3, t4, t5⟩ := Geo.localize1_all (e := e) (k := fun _ => .ret ()) hs.ok hs.size b2 b4 b3
    (⟨fun i hi => by rw [hq.prog i hi, Geo.bind_ret, hs.mt i hi], hq.done, hq.req, hq.bal⟩)
  refine allRuns t1 t2.fin.1 ⟨t2.fin.2, hs.rows hP hG t4, fun r _ => t3 r, fun r hr a ha1 ha2 => t5 r hr a fun _ => ?_⟩
  rw [← hs.partN, hs.eM, hs.eL]
  exact ⟨ha1, ha2⟩

/-- **C26**: `localize0` followed by `localize1`, without any synchronisation of the processes in between: whatever array was distributed by
rows is back. -/
theorem C26_roundtrip (e : Eager) {N M L P optA alltoall : ℕ} (hN : 0 < N) (hM : 0 < M) (hP : 0 < P) (ha : 1 ≤ optA) {G : ℕ → ℕ → ℕ → V}
    {rows cols wrk : ℕ → Loc} {σ : ℕ → Local V} (he : TransposeEnv N M L P optA alltoall rows cols wrk σ) (hG : HoldsRows N M L P G rows σ) :
    AllRuns e (start P (fun r => do
        (MT.mk' N M L P r optA alltoall).localize0 (rows r) (cols r) (wrk r)
        (MT.mk' N M L P r optA alltoall).localize1 (cols r) (rows r) (wrk r)) σ)
      fun f => Finished P f ∧ HoldsRows N M L P G rows fun r => (f r).loc := by
  obtain ⟨g, hs⟩ := seen (L := L) (alltoall := alltoall) hN hM hP ha
  obtain ⟨b1, b2, b3, b4⟩ := hs.bufs he
  have hq := start_quiet he (fun r => ((MT.mk' N M L P r optA alltoall).localize0 (rows r) (cols r) (wrk r)).bind fun _ =>
        ((MT.mk' N M L P r optA alltoall).localize1 (cols r) (rows r) (wrk r)))
  obtain ⟨t, t1, t2, t3, t4, t5⟩ := Geo.localize0_all (e := e) (k := fun r => ((g.mt r).localize1 (cols r) (rows r) (wrk r)).bind fun _ => .ret ())
    hs.ok hs.size b1 b3 b4
    (⟨fun i hi => by rw [hq.prog i hi, Geo.bind_ret, hs.mt i hi], hq.done, hq.req, hq.bal⟩)
  have sz : ∀ i, (t i).loc.size = (σ i).size := t3
  obtain ⟨u, u1, u2, u3, u4, u5⟩ := Geo.localize1_all (e := e) hs.ok hs.size (s := t)
    ⟨fun i hi => by simp only [sz]; exact b2.wrkSize i hi, b2.inwrk, b2.outwrk, b2.same, b2.compact⟩
    (fun i hi => by rw [sz]; exact b4 i hi) (fun i hi => by rw [sz]; exact b3 i hi) t2
  exact allRuns (t1.trans u1) u2.fin.1 ⟨u2.fin.2, hs.rows hP (hs.cols hP hG t4) u4⟩

/-- The compact algorithm (`options.alltoall=2` with divisible dimensions) rejects separate arrays: the process exits. -/
theorem C26_compact_refuted : ∃ N M L P optA alltoall r, 0 < N ∧ 0 < M ∧ r < P ∧ 1 ≤ optA ∧ ∀ (rows cols wrk : Loc), rows ≠ cols →
    (MT.mk' N M L P r optA alltoall).localize0 rows cols wrk = (Prog.fail : Prog V Unit) := by
  refine ⟨2, 2, 1, 2, 1, 2, 0, by norm_num, by norm_num, by norm_num, le_rfl, fun rows cols wrk hne => ?_⟩
  have h : ∃ t : MT, MT.mk' 2 2 1 2 0 1 2 = t ∧ t.compact = true ∧ t.uniform = true ∧ t.rank < t.size ∧ t.size ≠ 1 ∧ t.n * t.a ≠ 0 ∧ t.b ≠ 0 := by
    refine ⟨_, rfl, ?_⟩
    decide
  obtain ⟨t, h1, h2, h3, h4, h5, h6, h7⟩ := h
  rw [h1]
  unfold MT.localize0 MT.outphase0 transpose
  simp only [h2, h3, h5, h6, h7, if_true, if_false, or_self, show ¬ t.rank ≥ t.size by omega, Ne.symm hne]
  rfl

/-- Concrete states: process `r` has its rows in buffer 0, its columns in buffer 1, the work array in buffer 2. -/
def exTrans (N M L P : ℕ) (G : ℕ → ℕ → ℕ → V) (r : ℕ) : Local V where
  size b := if b = 0 ∨ b = 2 then part N P r * M * L else if b = 1 then N * part M P r * L else 0
  mem a := if a.buf = 0 then G (first N P r + a.off / L / M) (a.off / L % M) (a.off % L)
    else G (a.off / L / part M P r) (first M P r + a.off / L % part M P r) (a.off % L)
  req _ := none
  sent _ := []
  rcvd _ := 0
  nsend := 0

theorem exTrans_env {N M L P optA alltoall : ℕ} (G : ℕ → ℕ → ℕ → V) (hc : ∀ r < P, (MT.mk' N M L P r optA alltoall).compact = false) :
    TransposeEnv N M L P optA alltoall (fun _ => ⟨0, 0⟩) (fun _ => ⟨1, 0⟩) (fun _ => ⟨2, 0⟩) (exTrans N M L P G) where
  rowsSize r _ := by simp [exTrans]
  colsSize r _ := by simp [exTrans]
  wrkSize r _ := by simp [exTrans]
  rowswrk _ _ := by simp
  colswrk _ _ := by simp
  same _ _ := Or.inr (by simp)
  compact r hr h := by rw [hc r hr] at h; cases h
  req _ _ _ := rfl
  bal _ _ _ _ _ := rfl

theorem ex_div {M L i j l : ℕ} (hj : j < M) (hl : l < L) : ((i * M + j) * L + l) / L / M = i ∧ ((i * M + j) * L + l) / L % M = j ∧ ((i * M + j) * L + l) % L = l := by
  have e1 : ((i * M + j) * L + l) / L = i * M + j := by
    rw [mul_comm, Nat.mul_add_div (by omega), Nat.div_eq_of_lt hl, Nat.add_zero]
  have e2 : (i * M + j) / M = i := by
    rw [mul_comm, Nat.mul_add_div (by omega), Nat.div_eq_of_lt hj, Nat.add_zero]
  rw [e1, e2, Nat.mul_add_mod', Nat.mod_eq_of_lt hj, Nat.mul_add_mod', Nat.mod_eq_of_lt hl]
  exact ⟨rfl, rfl, rfl⟩

theorem exTrans_rows {N M L P : ℕ} (G : ℕ → ℕ → ℕ → V) : HoldsRows N M L P G (fun _ => ⟨0, 0⟩) (exTrans N M L P G) := by
  intro r _ i _ j hj l hl
  obtain ⟨e1, e2, e3⟩ := ex_div (i := i) hj hl
  simp only [exTrans, Loc.add_buf, Loc.add_off, if_true, Nat.zero_add, e1, e2, e3]

theorem exTrans_cols {N M L P : ℕ} (G : ℕ → ℕ → ℕ → V) : HoldsCols N M L P G (fun _ => ⟨1, 0⟩) (exTrans N M L P G) := by
  intro r _ i _ j hj l hl
  obtain ⟨e1, e2, e3⟩ := ex_div (i := i) hj hl
  simp only [exTrans, Loc.add_buf, Loc.add_off, Nat.zero_add, e1, e2, e3, show ¬ (1 = 0) by omega, if_false]

/-- In place: rows and columns in buffer 0. -/
def exTransI (N M L P : ℕ) (G : ℕ → ℕ → ℕ → V) (r : ℕ) : Local V :=
  { exTrans N M L P G r with size := fun b => if b = 0 ∨ b = 2 then part N P r * M * L + N * part M P r * L else 0 }

theorem exTransI_env {N M L P optA alltoall : ℕ} (G : ℕ → ℕ → ℕ → V) :
    TransposeEnv N M L P optA alltoall (fun _ => ⟨0, 0⟩) (fun _ => ⟨0, 0⟩) (fun _ => ⟨2, 0⟩) (exTransI N M L P G) where
  rowsSize r _ := by simp [exTransI]
  colsSize r _ := by simp [exTransI]
  wrkSize r _ := by simp [exTransI]
  rowswrk _ _ := by simp
  colswrk _ _ := by simp
  same _ _ := Or.inl rfl
  compact _ _ _ := rfl
  req _ _ _ := rfl
  bal _ _ _ _ _ := rfl

theorem exTransI_rows {N M L P : ℕ} (G : ℕ → ℕ → ℕ → V) : HoldsRows N M L P G (fun _ => ⟨0, 0⟩) (exTransI N M L P G) := exTrans_rows G

/-- Instances: 7 × 5 on 3 processes (unequal blocks); 8 × 9 on 4 processes with `a = 2` (blocked); 4 × 4 on 4 processes (uniform,
blocked); 1 × 3 on 4 processes. -/
example (e : Eager) (G : ℕ → ℕ → ℕ → V) := C26_localize0 e (N := 7) (M := 5) (L := 2) (P := 3) (optA := 1) (alltoall := 1) (by norm_num) (by norm_num)
  (by norm_num) le_rfl (exTrans_env G (by decide)) (exTrans_rows G)
example (e : Eager) (G : ℕ → ℕ → ℕ → V) := C26_localize0 e (N := 8) (M := 9) (L := 1) (P := 5) (optA := 2) (alltoall := 0) (by norm_num) (by norm_num)
  (by norm_num) (by norm_num) (exTrans_env G (by decide)) (exTrans_rows G)
example (e : Eager) (G : ℕ → ℕ → ℕ → V) := C26_localize1 e (N := 4) (M := 4) (L := 3) (P := 4) (optA := 2) (alltoall := 1) (by norm_num) (by norm_num)
  (by norm_num) (by norm_num) (exTrans_env G (by decide)) (exTrans_cols G)
example (e : Eager) (G : ℕ → ℕ → ℕ → V) := C26_roundtrip e (N := 1) (M := 3) (L := 1) (P := 4) (optA := 1) (alltoall := 1) (by norm_num) (by norm_num)
  (by norm_num) le_rfl (exTrans_env G (by decide)) (exTrans_rows G)

example (e : Eager) (G : ℕ → ℕ → ℕ → V) := C26_roundtrip e (N := 8) (M := 4) (L := 1) (P := 4) (optA := 2) (alltoall := 2) (by norm_num) (by norm_num)
  (by norm_num) (by norm_num) (exTransI_env G) (exTransI_rows G)

end Fftwpp.Net
