import Verif.Proof.Gather2
import Verif.Props.Mpi

/-!
# C24: gather reassembles the distributed array
-/

namespace Fftwpp.Net
variable {V α : Type}

theorem Loc.add_add (a : Loc) (i j : ℕ) : a + i + j = a + (i + j) := by
  ext
  · rfl
  · simp [Nat.add_assoc]

theorem rad_inj {Z a j a' j' : ℕ} (hj : j < Z) (hj' : j' < Z) (h : a * Z + j = a' * Z + j') : a = a' ∧ j = j' := by
  have h1 := congrArg (· / Z) h
  have h2 := congrArg (· % Z) h
  simp only [Nat.mul_add_mod', Nat.mod_eq_of_lt hj, Nat.mod_eq_of_lt hj'] at h2
  rw [mul_comm a, mul_comm a'] at h1
  simp only [Nat.mul_add_div (show 0 < Z by omega), Nat.div_eq_of_lt hj, Nat.div_eq_of_lt hj', Nat.add_zero] at h1
  exact ⟨h1, h2⟩

theorem rad_lt {Z a j A : ℕ} (hj : j < Z) (ha : a < A) : a * Z + j < A * Z := by
  have : (a + 1) * Z ≤ A * Z := Nat.mul_le_mul_right _ ha
  rw [Nat.add_mul, Nat.one_mul] at this
  omega

theorem mem_copyfromblockL {c l st : ℕ} {x : ℕ × ℕ} : x ∈ copyfromblockL c l st ↔ ∃ i < c, ∃ j < l, x = (i * st + j, i * l + j) := by
  simp only [copyfromblockL, List.mem_flatMap, List.mem_range, List.mem_map]
  constructor
  · rintro ⟨i, hi, j, hj, rfl⟩; exact ⟨i, hi, j, hj, rfl⟩
  · rintro ⟨i, hi, j, hj, rfl⟩; exact ⟨i, hi, j, hj, rfl⟩

theorem nodup_copyfromblockL {c l st : ℕ} (h : l ≤ st) : ((copyfromblockL c l st).map (·.1)).Nodup := by
  rw [copyfromblockL, List.map_flatMap]
  rw [List.nodup_flatMap]
  refine ⟨fun i _ => ?_, ?_⟩
  · rw [List.map_map]
    refine List.nodup_range.map ?_
    intro a b hab
    simpa using hab
  · refine List.nodup_range.pairwise_of_forall_ne ?_
    intro i _ j _ hij
    simp only [Function.onFun, List.map_map]
    intro x hx hy
    obtain ⟨a, ha, rfl⟩ := List.mem_map.1 hx
    obtain ⟨b, hb, hab⟩ := List.mem_map.1 hy
    simp only [Function.comp, List.mem_range] at *
    exact hij (rad_inj (by omega) (by omega) hab).1.symm

/-- One `copyfromblock`. -/
theorem place_copy {whole : Loc} {a b c l st n : ℕ} (hl : l ≤ st) (hn : a + c * l ≤ n) :
    PlaceSpec (V := V) (fun src => copyfromblock (src + a) (whole + b) c l st) whole
      ((copyfromblockL c l st).map fun x => (b + x.1, a + x.2)) n := by
  intro e i env src σ hbuf hreq hb hsrc
  have hlist : at' (whole + b) (src + a) (copyfromblockL c l st) =
      ((copyfromblockL c l st).map fun x => (b + x.1, a + x.2)).map fun x => (whole + x.1, src + x.2) := by
    simp only [at', List.map_map, Function.comp_def, Loc.add_add]
  have hnd : ((at' (whole + b) (src + a) (copyfromblockL c l st)).map (·.1)).Nodup := by
    simp only [at', List.map_map, Function.comp_def]
    have := (nodup_copyfromblockL (c := c) hl).map (f := fun x => whole + b + x) (by
      intro x y hxy; simpa [Loc.ext_iff] using hxy)
    simpa [List.map_map, Function.comp_def] using this
  have hsb : ∀ x ∈ copyfromblockL c l st, x.2 < c * l := by
    intro x hx
    obtain ⟨i, hi, j, hj, rfl⟩ := mem_copyfromblockL.1 hx
    exact rad_lt hj hi
  refine ⟨moveMem σ.mem (at' (whole + b) (src + a) (copyfromblockL c l st)), ?_, ?_, ?_⟩
  · refine eval_call ?_
    simp only [Op.exec]
    rw [if_pos]
    refine ⟨hnd, ?_, ?_⟩
    · rw [hlist]
      intro x hx y hy heq
      obtain ⟨x', _, rfl⟩ := List.mem_map.1 hx
      obtain ⟨y', _, rfl⟩ := List.mem_map.1 hy
      exact hbuf (by simpa using congrArg Loc.buf heq)
    · rw [hlist]
      intro x hx
      obtain ⟨x', hx', rfl⟩ := List.mem_map.1 hx
      refine ⟨writable_of hreq (hb x' hx'), readable_of hreq (hsrc _ ?_)⟩
      obtain ⟨y, hy, rfl⟩ := List.mem_map.1 hx'
      have := hsb y hy
      simp only; omega
  · intro x hx
    have : (whole + x.1, src + x.2) ∈ at' (whole + b) (src + a) (copyfromblockL c l st) := by
      rw [hlist]; exact List.mem_map.2 ⟨x, hx, rfl⟩
    exact moveMem_mem hnd this
  · intro w hw
    refine moveMem_not fun x hx => ?_
    rw [hlist] at hx
    obtain ⟨x', hx', rfl⟩ := List.mem_map.1 hx
    exact (hw x' hx').symm

/-- A loop of unpacking steps with disjoint destinations. -/
theorem place_loop {whole : Loc} {n : ℕ} {body : ℕ → Loc → Prog V Unit} {pairs : ℕ → List (ℕ × ℕ)} : ∀ {L : List ℕ}, L.Nodup →
    (∀ i ∈ L, PlaceSpec (body i) whole (pairs i) n) → (∀ i ∈ L, ∀ j ∈ L, i ≠ j → ∀ x ∈ pairs i, ∀ y ∈ pairs j, x.1 ≠ y.1) →
    PlaceSpec (fun src => Prog.loop L fun i => body i src) whole (L.flatMap pairs) n := by
  intro L
  induction L with
  | nil =>
    intro _ _ _ e i env src σ _ _ _ _
    exact ⟨σ.mem, rfl, by simp, fun _ _ => rfl⟩
  | cons i t ih =>
    intro hnd hb hd e k env src σ hbuf hreq hw hs
    rw [List.nodup_cons] at hnd
    obtain ⟨m1, h1, h2, h3⟩ := hb i (by simp) e k env src σ hbuf hreq
      (fun x hx => hw x (List.mem_flatMap.2 ⟨i, by simp, hx⟩)) hs
    obtain ⟨m2, k1, k2, k3⟩ := ih hnd.2 (fun j hj => hb j (by simp [hj])) (fun j hj j' hj' => hd j (by simp [hj]) j' (by simp [hj']))
      e k env src { σ with mem := m1 } hbuf hreq
      (fun x hx => by
        obtain ⟨j, hj, hx⟩ := List.mem_flatMap.1 hx
        exact hw x (List.mem_flatMap.2 ⟨j, by simp [hj], hx⟩)) hs
    refine ⟨m2, ?_, ?_, ?_⟩
    · simp only [Prog.loop]
      rw [eval_seq h1]
      exact k1
    · intro x hx
      obtain ⟨j, hj, hx'⟩ := List.mem_flatMap.1 hx
      rcases List.mem_cons.1 hj with rfl | hj
      · rw [k3]
        · exact h2 x hx'
        intro y hy heq
        obtain ⟨j', hj', hy⟩ := List.mem_flatMap.1 hy
        refine hd j (by simp) j' (by simp [hj']) ?_ x hx' y hy (by simpa [Loc.ext_iff] using heq)
        rintro rfl
        exact hnd.1 hj'
      · rw [k2 x (List.mem_flatMap.2 ⟨j, hj, hx'⟩)]
        refine h3 _ fun y _ heq => hbuf ?_
        simpa using congrArg Loc.buf heq
    · intro a ha
      rw [k3 a fun x hx => ?_]
      · exact h3 a fun x hx => ha x (List.mem_flatMap.2 ⟨i, by simp, hx⟩)
      obtain ⟨j, hj, hx⟩ := List.mem_flatMap.1 hx
      exact ha x (List.mem_flatMap.2 ⟨j, by simp [hj], hx⟩)

/-- A rectangular block of the global array. -/
structure Block where
  x : ℕ
  x0 : ℕ
  y : ℕ
  y0 : ℕ
  z : ℕ
  z0 : ℕ

/-- The indices of the block. -/
def Block.has (b : Block) (i j k : ℕ) : Prop := b.x0 ≤ i ∧ i < b.x0 + b.x ∧ b.y0 ≤ j ∧ j < b.y0 + b.y ∧ b.z0 ≤ k ∧ k < b.z0 + b.z

/-- The pairs move the block (stored contiguously) to its place in the `X × Y × Z` array. -/
def BlockPairs (Y Z : ℕ) (b : Block) (pairs : List (ℕ × ℕ)) : Prop :=
  ∀ p, p ∈ pairs ↔ ∃ i < b.x, ∃ j < b.y, ∃ k < b.z, p = (((b.x0 + i) * Y + (b.y0 + j)) * Z + (b.z0 + k), (i * b.y + j) * b.z + k)

/-- The memory at `part` holds the block of the global array `g`. -/
def HoldsBlock (m : Loc → V) (part : Loc) (b : Block) (g : ℕ → ℕ → ℕ → V) : Prop :=
  ∀ i < b.x, ∀ j < b.y, ∀ k < b.z, m (part + ((i * b.y + j) * b.z + k)) = g (b.x0 + i) (b.y0 + j) (b.z0 + k)

/-- The memory at `whole` holds the `X × Y × Z` array `g`. -/
def HoldsWhole (m : Loc → V) (whole : Loc) (X Y Z : ℕ) (g : ℕ → ℕ → ℕ → V) : Prop :=
  ∀ i < X, ∀ j < Y, ∀ k < Z, m (whole + ((i * Y + j) * Z + k)) = g i j k

/-- What is required before a gather: each process owns a block, stored at `part`; rank 0 has room for the whole; no request is
pending and no message in transit; the buffers used internally are not allocated. -/
structure GatherPre (size X Y Z : ℕ) (b : ℕ → Block) (g : ℕ → ℕ → ℕ → ℕ ⊕ α) (part : ℕ → Loc) (whole : Loc)
    (σ : ℕ → Local (ℕ ⊕ α)) : Prop where
  idle : ∀ r < size, Idle (σ r)
  bal : Balanced size σ
  part2 : ∀ r < size, (part r).buf ≠ 2
  whole2 : whole.buf ≠ 2
  whole3 : whole.buf ≠ 3
  apart : (part 0).buf ≠ whole.buf
  partSize : ∀ r < size, (part r).off + (b r).x * (b r).y * (b r).z ≤ (σ r).size (part r).buf
  wholeSize : whole.off + X * Y * Z ≤ (σ 0).size whole.buf
  holds : ∀ r < size, HoldsBlock (σ r).mem (part r) (b r) g

/-- The outcome: all processes have finished, no message is left over, rank 0 holds the whole array, and nothing else changed
(apart from the buffers used internally). -/
structure GatherPost (size X Y Z : ℕ) (g : ℕ → ℕ → ℕ → ℕ ⊕ α) (whole : Loc) (σ : ℕ → Local (ℕ ⊕ α)) (f : St (ℕ ⊕ α)) : Prop where
  fin : Finished size f
  holds : HoldsWhole (f 0).loc.mem whole X Y Z g
  idle : ∀ i < size, Idle (f i).loc
  sizes : ∀ i < size, (f i).loc.size = (σ i).size
  keep : ∀ i < size, i ≠ 0 → ∀ a : Loc, a.buf ≠ 2 → (f i).loc.mem a = (σ i).mem a
  keep0 : ∀ a : Loc, a.buf ≠ 2 → a.buf ≠ 3 → (a.buf = whole.buf → ¬ (whole.off ≤ a.off ∧ a.off < whole.off + X * Y * Z)) →
    (f 0).loc.mem a = (σ 0).mem a

theorem AllRuns.mono {e : Eager} {s : St V} {Q Q' : St V → Prop} (h : AllRuns e s Q) (hQ : ∀ f, Q f → Q' f) : AllRuns e s Q' :=
  ⟨h.1, fun k t h1 h2 => hQ t (h.2 k t h1 h2)⟩

theorem rad3_lt {X Y Z i j k : ℕ} (hi : i < X) (hj : j < Y) (hk : k < Z) : (i * Y + j) * Z + k < X * Y * Z :=
  rad_lt hk (rad_lt hj hi)

/-- The skeleton on blocks that tile the array. -/
theorem gather_blocks {e : Eager} {size X Y Z nd : ℕ} {cnt : List ℕ → ℕ} {pl : List ℕ → Loc → Prog (ℕ ⊕ α) Unit} {H : ℕ → List ℕ}
    {b : ℕ → Block} {g : ℕ → ℕ → ℕ → ℕ ⊕ α} {part : ℕ → Loc} {whole : Loc} {σ : ℕ → Local (ℕ ⊕ α)} {pairs : ℕ → List (ℕ × ℕ)}
    (hsize : 1 ≤ size) (h : GatherPre size X Y Z b g part whole σ) (hnd : ∀ q < size, (H q).length = nd)
    (hcnt : ∀ q < size, cnt (H q) = (b q).x * (b q).y * (b q).z)
    (hpl : ∀ q < size, PlaceSpec (pl (H q)) whole (pairs q) (cnt (H q)))
    (hpairs : ∀ q < size, BlockPairs Y Z (b q) (pairs q))
    (hin : ∀ q < size, ∀ i j k, (b q).has i j k → i < X ∧ j < Y ∧ k < Z)
    (hdis : ∀ q < size, ∀ q' < size, ∀ i j k, (b q).has i j k → (b q').has i j k → q = q')
    (hcov : ∀ i < X, ∀ j < Y, ∀ k < Z, ∃ q < size, (b q).has i j k) :
    AllRuns e (start size (fun r => gatherG nd cnt pl (H r) (part r) size r) σ) (GatherPost size X Y Z g whole σ) := by
  have hlt : ∀ q < size, ∀ p ∈ pairs q, p.1 < X * Y * Z ∧ p.2 < (b q).x * (b q).y * (b q).z := by
    intro q hq p hp
    obtain ⟨i, hi, j, hj, k, hk, rfl⟩ := (hpairs q hq p).1 hp
    obtain ⟨h1, h2, h3⟩ := hin q hq ((b q).x0 + i) ((b q).y0 + j) ((b q).z0 + k) ⟨by omega, by omega, by omega, by omega, by omega, by omega⟩
    exact ⟨rad3_lt h1 h2 h3, rad3_lt hi hj hk⟩
  refine (gatherG_ok (e := e) (pairs := pairs) (whole := whole) hsize hnd h.idle h.bal h.part2 ?_ hpl h.whole2 h.whole3 h.apart ?_ ?_ ?_).mono ?_
  · intro q hq j hj
    rw [hcnt q hq] at hj
    have := h.partSize q hq
    simp only [Local.inBounds, Loc.add_off, Loc.add_buf]
    omega
  · intro q hq x hx
    have := (hlt q hq x hx).1
    have := h.wholeSize
    simp only [Local.inBounds, Loc.add_off, Loc.add_buf]
    omega
  · intro q hq x hx
    rw [hcnt q hq]
    exact (hlt q hq x hx).2
  · intro q hq q' hq' hne x hx y hy heq
    obtain ⟨i, hi, j, hj, k, hk, rfl⟩ := (hpairs q hq x).1 hx
    obtain ⟨i', hi', j', hj', k', hk', rfl⟩ := (hpairs q' hq' y).1 hy
    have hb : (b q).has ((b q).x0 + i) ((b q).y0 + j) ((b q).z0 + k) := ⟨by omega, by omega, by omega, by omega, by omega, by omega⟩
    have hb' : (b q').has ((b q').x0 + i') ((b q').y0 + j') ((b q').z0 + k') := ⟨by omega, by omega, by omega, by omega, by omega, by omega⟩
    obtain ⟨_, h2, h3⟩ := hin q hq _ _ _ hb
    obtain ⟨_, h2', h3'⟩ := hin q' hq' _ _ _ hb'
    obtain ⟨e1, e2⟩ := rad_inj h3 h3' heq
    obtain ⟨e3, e4⟩ := rad_inj h2 h2' e1
    rw [← e2, ← e3, ← e4] at hb'
    exact hne (hdis q hq q' hq' _ _ _ hb hb')
  · intro f hf
    refine ⟨hf.fin, ?_, hf.idle, hf.sizes, hf.keep, ?_⟩
    · intro i hi j hj k hk
      obtain ⟨q, hq, hb⟩ := hcov i hi j hj k hk
      have hb' := hb
      obtain ⟨h1, h2, h3, h4, h5, h6⟩ := hb
      have := hf.data q hq ((((b q).x0 + (i - (b q).x0)) * Y + ((b q).y0 + (j - (b q).y0))) * Z + ((b q).z0 + (k - (b q).z0)),
        ((i - (b q).x0) * (b q).y + (j - (b q).y0)) * (b q).z + (k - (b q).z0))
        ((hpairs q hq _).2 ⟨i - (b q).x0, by omega, j - (b q).y0, by omega, k - (b q).z0, by omega, rfl⟩)
      rw [h.holds q hq _ (by omega) _ (by omega) _ (by omega)] at this
      simp only [show (b q).x0 + (i - (b q).x0) = i by omega, show (b q).y0 + (j - (b q).y0) = j by omega,
        show (b q).z0 + (k - (b q).z0) = k by omega] at this
      exact this
    · intro a h2 h3 hw
      refine hf.keep0 a h2 h3 fun q hq x hx heq => ?_
      have := (hlt q hq x hx).1
      subst heq
      refine hw rfl ⟨by simp, by simp; omega⟩

/-! ### The four routines -/

/-- The block of rank `r` for `localdimension`. -/
theorem ld_has (N size : ℕ) (hs : 0 < size) :
    (∀ r < size, ∀ x : ℕ, (Mpi.localdimension N r size).start.toNat ≤ x →
      x < (Mpi.localdimension N r size).start.toNat + (Mpi.localdimension N r size).n.toNat → x < N) ∧
    (∀ x < N, ∃ r < size, (Mpi.localdimension N r size).start.toNat ≤ x ∧
      x < (Mpi.localdimension N r size).start.toNat + (Mpi.localdimension N r size).n.toNat) ∧
    (∀ r < size, ∀ r' < size, ∀ x : ℕ, (Mpi.localdimension N r size).start.toNat ≤ x →
      x < (Mpi.localdimension N r size).start.toNat + (Mpi.localdimension N r size).n.toNat →
      (Mpi.localdimension N r' size).start.toNat ≤ x →
      x < (Mpi.localdimension N r' size).start.toNat + (Mpi.localdimension N r' size).n.toNat → r = r') ∧
    ∀ r < size, (Mpi.localdimension N r size).n.toNat ≤ N := by
  obtain ⟨h1, h2, h3, h4, _⟩ := Mpi.C23_localdimension N size hs
  refine ⟨?_, ?_, ?_, ?_⟩
  · intro r hr x a b
    have := h3 r hr x (by have := h1 r hr; omega) (by have := h1 r hr; omega)
    omega
  · intro x hx
    obtain ⟨r, ⟨hr, a, b⟩, _⟩ := h2 x (by omega) (by omega)
    exact ⟨r, hr, by have := h1 r hr; omega, by have := h1 r hr; omega⟩
  · intro r hr r' hr' x a b a' b'
    have q := h1 r hr
    have q' := h1 r' hr'
    rcases Nat.lt_trichotomy r r' with h | h | h
    · have := h4 r r' h; omega
    · exact h
    · have := h4 r' r h; omega
  · intro r hr
    have q := h1 r hr
    by_cases hn : (Mpi.localdimension N r size).n = 0
    · omega
    · have := h3 r hr ((Mpi.localdimension N r size).start + (Mpi.localdimension N r size).n - 1) (by omega) (by omega)
      omega

theorem gatherx_eq (part whole : Loc) (d : Split) (Z size rank : ℕ) : gatherx (α := α) part whole d Z size rank =
    gatherG 2 (fun h => Z * h.getD 0 0 * d.Y)
      (fun h src => copyfromblock src (whole + h.getD 1 0 * d.Y * Z) (h.getD 0 0) (d.Y * Z) (d.Y * Z)) [d.x, d.x0] part size rank := by
  unfold gatherx gatherG bodyG senderG
  simp only [Prog.bind_def, loadNats, storeNats, recv, send, Prog.bind_assoc, Prog.ret_bind, List.getD_cons_zero, List.getD_cons_succ]
  rfl

theorem gathery_eq (part whole : Loc) (d : Split) (Z size rank : ℕ) : gathery (α := α) part whole d Z size rank =
    gatherG 2 (fun h => Z * d.X * h.getD 0 0)
      (fun h src => copyfromblock src (whole + h.getD 1 0 * Z) d.X (h.getD 0 0 * Z) (d.Y * Z)) [d.y, d.y0] part size rank := by
  unfold gathery gatherG bodyG senderG
  simp only [Prog.bind_def, loadNats, storeNats, recv, send, Prog.bind_assoc, Prog.ret_bind, List.getD_cons_zero, List.getD_cons_succ]
  rfl

theorem gatheryz_eq (part whole : Loc) (d : Split3) (size rank : ℕ) : gatheryz (α := α) part whole d size rank =
    gatherG 4 (fun h => d.X * h.getD 0 0 * h.getD 1 0)
      (fun h src => .loop (List.range d.X) fun i => copyfromblock (src + i * h.getD 0 0 * h.getD 1 0)
        (whole + (i * d.Y * d.Z + h.getD 2 0 * d.Z + h.getD 3 0)) (h.getD 0 0) (h.getD 1 0) d.Z)
      [d.xy.y, d.yz.y, d.xy.y0, d.yz.y0] part size rank := by
  unfold gatheryz gatherG bodyG senderG
  simp only [Prog.bind_def, loadNats, storeNats, recv, send, Prog.bind_assoc, Prog.ret_bind, List.getD_cons_zero, List.getD_cons_succ]
  rfl

theorem gatherxy_eq (part whole : Loc) (d : Split3) (size rank : ℕ) : gatherxy (α := α) part whole d size rank =
    gatherG 4 (fun h => h.getD 0 0 * h.getD 1 0 * d.Z)
      (fun h src => .loop (List.range (h.getD 0 0)) fun i => copyfromblock (src + i * h.getD 1 0 * d.Z)
        (whole + ((h.getD 2 0 + i) * d.Y * d.Z + h.getD 3 0 * d.Z)) (h.getD 1 0) d.Z d.Z)
      [d.xy.x, d.yz.x, d.xy.x0, d.yz.x0] part size rank := by
  unfold gatherxy gatherG bodyG senderG
  simp only [Prog.bind_def, loadNats, storeNats, recv, send, Prog.bind_assoc, Prog.ret_bind, List.getD_cons_zero, List.getD_cons_succ]
  rfl


/-- The slab of rank `r` when the first dimension is distributed: `x × Y × Z`. -/
def slabX (X Y Z size r : ℕ) : Block :=
  ⟨(Mpi.localdimension X r size).n.toNat, (Mpi.localdimension X r size).start.toNat, Y, 0, Z, 0⟩

/-- The slab of rank `r` when the second dimension is distributed: `X × y × Z`. -/
def slabY (X Y Z size r : ℕ) : Block :=
  ⟨X, 0, (Mpi.localdimension Y r size).n.toNat, (Mpi.localdimension Y r size).start.toNat, Z, 0⟩

/-- **C24**, `gatherx`: for every process count, every `X,Y,Z`, whichever messages the MPI library buffers and in whatever order the
processes run, every run of `gatherx` on all processes is finite and ends with all processes finished, no message left over, and the
whole `X × Y × Z` array on rank 0. -/
theorem C24_gatherx (e : Eager) {size X Y Z : ℕ} (hsize : 1 ≤ size) {g : ℕ → ℕ → ℕ → ℕ ⊕ α} {part : ℕ → Loc} {whole : Loc}
    {σ : ℕ → Local (ℕ ⊕ α)} (h : GatherPre size X Y Z (slabX X Y Z size) g part whole σ) :
    AllRuns e (start size (fun r => gatherx (part r) whole (mkSplit X Y r size) Z size r) σ) (GatherPost size X Y Z g whole σ) := by
  obtain ⟨l1, l2, l3, l4⟩ := ld_has X size (by omega)
  have hfun : (fun r => gatherx (α := α) (part r) whole (mkSplit X Y r size) Z size r) = fun r =>
      gatherG 2 (fun h => Z * h.getD 0 0 * Y)
        (fun h src => copyfromblock src (whole + h.getD 1 0 * Y * Z) (h.getD 0 0) (Y * Z) (Y * Z))
        [(slabX X Y Z size r).x, (slabX X Y Z size r).x0] (part r) size r := by
    funext r
    rw [gatherx_eq]; rfl
  rw [hfun]
  refine gather_blocks (H := fun r => [(slabX X Y Z size r).x, (slabX X Y Z size r).x0])
    (pairs := fun r => (copyfromblockL (slabX X Y Z size r).x (Y * Z) (Y * Z)).map fun p => ((slabX X Y Z size r).x0 * Y * Z + p.1, 0 + p.2))
    hsize h (fun _ _ => rfl) ?_ ?_ ?_ ?_ ?_ ?_
  · intro q _
    simp only [List.getD_cons_zero, slabX]
    ring
  · intro q _
    simp only [List.getD_cons_zero, List.getD_cons_succ]
    exact place_copy (a := 0) le_rfl (by simp only [slabX]; apply le_of_eq; ring)
  · intro q _ p
    simp only [List.mem_map, mem_copyfromblockL]
    constructor
    · rintro ⟨_, ⟨i, hi, j, hj, rfl⟩, rfl⟩
      have hZ : 0 < Z := Nat.pos_of_ne_zero (by rintro rfl; simp at hj)
      refine ⟨i, hi, j / Z, (Nat.div_lt_iff_lt_mul hZ).2 hj, j % Z, Nat.mod_lt _ hZ, ?_⟩
      have := Nat.div_add_mod' j Z
      simp only [slabX, Prod.mk.injEq, Nat.zero_add]
      constructor
      · rw [add_mul, add_assoc _ (j / Z * Z), this]; ring
      · rw [add_mul, add_assoc _ (j / Z * Z), this]; ring
    · rintro ⟨i, hi, j, hj, k, hk, rfl⟩
      refine ⟨_, ⟨i, hi, j * Z + k, rad_lt hk hj, rfl⟩, ?_⟩
      simp only [slabX, Prod.mk.injEq, Nat.zero_add]
      constructor <;> ring
  · rintro q hq i j k ⟨h1, h2, h3, h4, h5, h6⟩
    refine ⟨l1 q hq i h1 h2, ?_, ?_⟩ <;> simp only [slabX] at * <;> omega
  · rintro q hq q' hq' i j k ⟨h1, h2, _⟩ ⟨h1', h2', _⟩
    exact l3 q hq q' hq' i h1 h2 h1' h2'
  · intro i hi j hj k hk
    obtain ⟨r, hr, h1, h2⟩ := l2 i hi
    exact ⟨r, hr, h1, h2, by simp only [slabX]; omega, by simp only [slabX]; omega, by simp only [slabX]; omega, by simp only [slabX]; omega⟩

/-- **C24**, `gathery`: as `C24_gatherx`, the second dimension being distributed. -/
theorem C24_gathery (e : Eager) {size X Y Z : ℕ} (hsize : 1 ≤ size) {g : ℕ → ℕ → ℕ → ℕ ⊕ α} {part : ℕ → Loc} {whole : Loc}
    {σ : ℕ → Local (ℕ ⊕ α)} (h : GatherPre size X Y Z (slabY X Y Z size) g part whole σ) :
    AllRuns e (start size (fun r => gathery (part r) whole (mkSplit X Y r size) Z size r) σ) (GatherPost size X Y Z g whole σ) := by
  obtain ⟨l1, l2, l3, l4⟩ := ld_has Y size (by omega)
  have hfun : (fun r => gathery (α := α) (part r) whole (mkSplit X Y r size) Z size r) = fun r =>
      gatherG 2 (fun h => Z * X * h.getD 0 0)
        (fun h src => copyfromblock src (whole + h.getD 1 0 * Z) X (h.getD 0 0 * Z) (Y * Z))
        [(slabY X Y Z size r).y, (slabY X Y Z size r).y0] (part r) size r := by
    funext r
    rw [gathery_eq]; rfl
  rw [hfun]
  refine gather_blocks (H := fun r => [(slabY X Y Z size r).y, (slabY X Y Z size r).y0])
    (pairs := fun r => (copyfromblockL X ((slabY X Y Z size r).y * Z) (Y * Z)).map fun p => ((slabY X Y Z size r).y0 * Z + p.1, 0 + p.2))
    hsize h (fun _ _ => rfl) ?_ ?_ ?_ ?_ ?_ ?_
  · intro q _
    simp only [List.getD_cons_zero, slabY]
    ring
  · intro q hq
    simp only [List.getD_cons_zero, List.getD_cons_succ]
    exact place_copy (a := 0) (Nat.mul_le_mul_right _ (l4 q hq)) (by simp only [slabY]; apply le_of_eq; ring)
  · intro q _ p
    simp only [List.mem_map, mem_copyfromblockL]
    constructor
    · rintro ⟨_, ⟨i, hi, j, hj, rfl⟩, rfl⟩
      have hZ : 0 < Z := Nat.pos_of_ne_zero (by rintro rfl; simp at hj)
      refine ⟨i, hi, j / Z, (Nat.div_lt_iff_lt_mul hZ).2 hj, j % Z, Nat.mod_lt _ hZ, ?_⟩
      have := Nat.div_add_mod' j Z
      simp only [slabY, Prod.mk.injEq, Nat.zero_add]
      constructor
      · rw [add_mul, add_mul _ (j / Z), add_assoc _ _ (j % Z), add_assoc _ (j / Z * Z), this]; ring
      · rw [add_mul, add_assoc _ (j / Z * Z), this]; ring
    · rintro ⟨i, hi, j, hj, k, hk, rfl⟩
      refine ⟨_, ⟨i, hi, j * Z + k, rad_lt hk hj, rfl⟩, ?_⟩
      simp only [slabY, Prod.mk.injEq, Nat.zero_add]
      constructor <;> ring
  · rintro q hq i j k ⟨h1, h2, h3, h4, h5, h6⟩
    refine ⟨?_, l1 q hq j h3 h4, ?_⟩ <;> simp only [slabY] at * <;> omega
  · rintro q hq q' hq' i j k ⟨_, _, h1, h2, _⟩ ⟨_, _, h1', h2', _⟩
    exact l3 q hq q' hq' j h1 h2 h1' h2'
  · intro i hi j hj k hk
    obtain ⟨r, hr, h1, h2⟩ := l2 j hj
    exact ⟨r, hr, by simp only [slabY]; omega, by simp only [slabY]; omega, h1, h2, by simp only [slabY]; omega, by simp only [slabY]; omega⟩

/-- The local `X × y × z` array described by a `split3` (mpi/mpigroup.h:105-107: `X * xy.y * z`). -/
def pencilYZ (d : Split3) : Block := ⟨d.X, 0, d.xy.y, d.xy.y0, d.yz.y, d.yz.y0⟩

/-- The local `x × y × Z` array described by a `split3` (mpi/mpigroup.h:105: `x * y * Z`). -/
def pencilXY (d : Split3) : Block := ⟨d.xy.x, d.xy.x0, d.yz.x, d.yz.x0, d.Z, 0⟩

/-- The grid of an `MPIgroup` (C39). -/
theorem group_grid {GX GY N : ℕ} {pencil : Bool} (hX : 0 < GX) (hY : 0 < GY) (hN : 0 < N) :
    ∃ Px Py, 0 < Px ∧ 0 < Py ∧ Mpi.groupSize2 GX GY N pencil = Px * Py ∧
      ∀ X Y Z r, r < Px * Py → groupSplit3 X Y Z GX GY N pencil r = mkSplit3 X Y Z (r / Py) Px (r % Py) Py := by
  obtain ⟨h1, _, Px, Py, hsz, _, _, h⟩ := Mpi.C39_group2 (pencil := pencil) hX hY hN
  have hpos : 0 < Px * Py := by omega
  refine ⟨Px, Py, Nat.pos_of_mul_pos_right hpos, Nat.pos_of_mul_pos_left hpos, hsz, ?_⟩
  intro X Y Z r hr
  obtain ⟨a, b, c, d, f, _⟩ := h r (by omega)
  have hq : r / Py = Mpi.splitRank (Mpi.groupSize2 GX GY N pencil) (· % Mpi.groupMajor GX GY N pencil) (· / Mpi.groupMajor GX GY N pencil) r := by
    rw [f, mul_comm, Nat.mul_add_div (by omega), Nat.div_eq_of_lt d, Nat.add_zero]
    rw [mul_comm, ← f]
  have hp : r % Py = Mpi.splitRank (Mpi.groupSize2 GX GY N pencil) (· / Mpi.groupMajor GX GY N pencil) (· % Mpi.groupMajor GX GY N pencil) r := by
    rw [f, Nat.mul_add_mod', Nat.mod_eq_of_lt d, ← f]
  unfold groupSplit3
  simp only [← hq, ← hp, a, b]


theorem grid_uniq {Py q p q' p' r r' : ℕ} (hq : q = r / Py) (hp : p = r % Py) (hq' : q' = r' / Py) (hp' : p' = r' % Py) (h : q = q')
    (h' : p = p') : r = r' := by
  rw [← Nat.div_add_mod r Py, ← Nat.div_add_mod r' Py, ← hq, ← hp, ← hq', ← hp', h, h']

/-- **C24**, `gatheryz`: for every `X,Y,Z` and every `MPIgroup`, with the data distributed over the active processes as
`split3` says, every run is finite and ends properly with the whole array on rank 0. -/
theorem C24_gatheryz (e : Eager) {X Y Z GX GY N : ℕ} {pencil : Bool} (hGX : 0 < GX) (hGY : 0 < GY) (hN : 0 < N)
    {g : ℕ → ℕ → ℕ → ℕ ⊕ α} {part : ℕ → Loc} {whole : Loc} {σ : ℕ → Local (ℕ ⊕ α)}
    (h : GatherPre (Mpi.groupSize2 GX GY N pencil) X Y Z (fun r => pencilYZ (groupSplit3 X Y Z GX GY N pencil r)) g part whole σ) :
    AllRuns e (start (Mpi.groupSize2 GX GY N pencil)
      (fun r => gatheryz (part r) whole (groupSplit3 X Y Z GX GY N pencil r) (Mpi.groupSize2 GX GY N pencil) r) σ)
      (GatherPost (Mpi.groupSize2 GX GY N pencil) X Y Z g whole σ) := by
  obtain ⟨Px, Py, hPx, hPy, hsz, hd⟩ := group_grid (pencil := pencil) hGX hGY hN
  generalize hS : Mpi.groupSize2 GX GY N pencil = size at *
  have hb : ∀ r < size, pencilYZ (groupSplit3 X Y Z GX GY N pencil r) = pencilYZ (mkSplit3 X Y Z (r / Py) Px (r % Py) Py) := by
    intro r hr; rw [hd X Y Z r (by omega)]
  obtain ⟨y1, y2, y3, y4⟩ := ld_has Y Px hPx
  obtain ⟨z1, z2, z3, z4⟩ := ld_has Z Py hPy
  have hrq : ∀ r < size, r / Py < Px := fun r hr => (Nat.div_lt_iff_lt_mul hPy).2 (by omega)
  have hrp : ∀ r, r % Py < Py := fun r => Nat.mod_lt _ hPy
  have hdX : ∀ r, (groupSplit3 X Y Z GX GY N pencil r).X = X ∧ (groupSplit3 X Y Z GX GY N pencil r).Y = Y ∧
      (groupSplit3 X Y Z GX GY N pencil r).Z = Z := fun r => ⟨rfl, rfl, rfl⟩
  generalize hB : (fun r => pencilYZ (groupSplit3 X Y Z GX GY N pencil r)) = b at h
  have hfun : (fun r => gatheryz (α := α) (part r) whole (groupSplit3 X Y Z GX GY N pencil r) size r) = fun r =>
      gatherG 4 (fun h => X * h.getD 0 0 * h.getD 1 0)
        (fun h src => .loop (List.range X) fun i => copyfromblock (src + i * h.getD 0 0 * h.getD 1 0)
          (whole + (i * Y * Z + h.getD 2 0 * Z + h.getD 3 0)) (h.getD 0 0) (h.getD 1 0) Z)
        [(b r).y, (b r).z, (b r).y0, (b r).z0] (part r) size r := by
    funext r
    rw [gatheryz_eq, ← hB]; rfl
  have hb : ∀ r < size, b r = pencilYZ (mkSplit3 X Y Z (r / Py) Px (r % Py) Py) := by
    intro r hr; rw [← hB]; exact hb r hr
  have hZ : ∀ r < size, (b r).z ≤ Z := by intro r hr; rw [hb r hr]; exact z4 _ (hrp r)
  have hzz : ∀ r < size, ∀ k < (b r).z, (b r).z0 + k < Z := by
    intro r hr k hk
    rw [hb r hr] at hk ⊢
    exact z1 (r % Py) (hrp r) _ (Nat.le_add_right _ _) (Nat.add_lt_add_left hk _)
  have hyy : ∀ r < size, ∀ k < (b r).y, (b r).y0 + k < Y := by
    intro r hr k hk
    rw [hb r hr] at hk ⊢
    exact y1 (r / Py) (hrq r hr) _ (Nat.le_add_right _ _) (Nat.add_lt_add_left hk _)
  have hx : ∀ r, (b r).x = X ∧ (b r).x0 = 0 := by intro r; rw [← hB]; exact ⟨rfl, rfl⟩
  rw [hfun]
  refine gather_blocks (H := fun r => [(b r).y, (b r).z, (b r).y0, (b r).z0])
    (pairs := fun r => (List.range X).flatMap fun i => (copyfromblockL (b r).y (b r).z Z).map
      fun p => (i * Y * Z + (b r).y0 * Z + (b r).z0 + p.1, i * (b r).y * (b r).z + p.2))
    (by rw [hsz]; exact Nat.mul_pos hPx hPy) h (fun _ _ => rfl) ?_ ?_ ?_ ?_ ?_ ?_
  · intro q _
    simp only [List.getD_cons_zero, List.getD_cons_succ, (hx q).1]
  · intro q hq
    simp only [List.getD_cons_zero, List.getD_cons_succ]
    refine place_loop (body := fun i src => copyfromblock (src + i * (b q).y * (b q).z)
      (whole + (i * Y * Z + (b q).y0 * Z + (b q).z0)) (b q).y (b q).z Z) List.nodup_range (fun i hi => place_copy (hZ q hq) ?_) ?_
    · have := List.mem_range.1 hi
      have : (i + 1) * ((b q).y * (b q).z) ≤ X * ((b q).y * (b q).z) := Nat.mul_le_mul_right _ this
      rw [mul_assoc, mul_assoc]
      linarith
    · intro i _ i' _ hne x hx x' hx' heq
      obtain ⟨y, hy, rfl⟩ := List.mem_map.1 hx
      obtain ⟨y', hy', rfl⟩ := List.mem_map.1 hx'
      obtain ⟨j, hj, k, hk, rfl⟩ := mem_copyfromblockL.1 hy
      obtain ⟨j', hj', k', hk', rfl⟩ := mem_copyfromblockL.1 hy'
      have e1 : (i * Y + ((b q).y0 + j)) * Z + ((b q).z0 + k) = (i' * Y + ((b q).y0 + j')) * Z + ((b q).z0 + k') := by
        simp only at heq; linarith
      exact hne (rad_inj (hyy q hq j hj) (hyy q hq j' hj') (rad_inj (hzz q hq k hk) (hzz q hq k' hk') e1).1).1
  · intro q _ p
    simp only [List.mem_flatMap, List.mem_range, List.mem_map, mem_copyfromblockL, (hx q).1, (hx q).2]
    constructor
    · rintro ⟨i, hi, _, ⟨j, hj, k, hk, rfl⟩, rfl⟩
      refine ⟨i, hi, j, hj, k, hk, ?_⟩
      simp only [Prod.mk.injEq]
      constructor <;> ring
    · rintro ⟨i, hi, j, hj, k, hk, rfl⟩
      refine ⟨i, hi, _, ⟨j, hj, k, hk, rfl⟩, ?_⟩
      simp only [Prod.mk.injEq]
      constructor <;> ring
  · rintro q hq i j k ⟨h1, h2, h3, h4, h5, h6⟩
    rw [(hx q).1, (hx q).2] at h2
    refine ⟨by omega, ?_, ?_⟩
    · have := hyy q hq (j - (b q).y0) (by omega); omega
    · have := hzz q hq (k - (b q).z0) (by omega); omega
  · rintro q hq q' hq' i j k ⟨_, _, h3, h4, h5, h6⟩ ⟨_, _, h3', h4', h5', h6'⟩
    rw [hb q hq] at h3 h4 h5 h6
    rw [hb q' hq'] at h3' h4' h5' h6'
    exact grid_uniq (Py := Py) rfl rfl rfl rfl (y3 _ (hrq q hq) _ (hrq q' hq') j h3 h4 h3' h4') (z3 _ (hrp q) _ (hrp q') k h5 h6 h5' h6')
  · intro i hi j hj k hk
    obtain ⟨q, hq, a1, a2⟩ := y2 j hj
    obtain ⟨p, hp, a3, a4⟩ := z2 k hk
    have hr : q * Py + p < size := by rw [hsz]; exact rad_lt hp hq
    have e1 : (q * Py + p) / Py = q := by
      rw [mul_comm, Nat.mul_add_div hPy, Nat.div_eq_of_lt hp, Nat.add_zero]
    have e2 : (q * Py + p) % Py = p := by rw [Nat.mul_add_mod', Nat.mod_eq_of_lt hp]
    refine ⟨q * Py + p, hr, ?_, ?_, ?_⟩
    · rw [(hx _).2]; omega
    · rw [(hx _).1, (hx _).2]; omega
    · rw [hb _ hr, e1, e2]; exact ⟨a1, a2, a3, a4⟩

/-- **C24**, `gatherxy`: as `C24_gatheryz`, for the `x × y × Z` distribution. -/
theorem C24_gatherxy (e : Eager) {X Y Z GX GY N : ℕ} {pencil : Bool} (hGX : 0 < GX) (hGY : 0 < GY) (hN : 0 < N)
    {g : ℕ → ℕ → ℕ → ℕ ⊕ α} {part : ℕ → Loc} {whole : Loc} {σ : ℕ → Local (ℕ ⊕ α)}
    (h : GatherPre (Mpi.groupSize2 GX GY N pencil) X Y Z (fun r => pencilXY (groupSplit3 X Y Z GX GY N pencil r)) g part whole σ) :
    AllRuns e (start (Mpi.groupSize2 GX GY N pencil)
      (fun r => gatherxy (part r) whole (groupSplit3 X Y Z GX GY N pencil r) (Mpi.groupSize2 GX GY N pencil) r) σ)
      (GatherPost (Mpi.groupSize2 GX GY N pencil) X Y Z g whole σ) := by
  obtain ⟨Px, Py, hPx, hPy, hsz, hd⟩ := group_grid (pencil := pencil) hGX hGY hN
  generalize hS : Mpi.groupSize2 GX GY N pencil = size at *
  have hb : ∀ r < size, pencilXY (groupSplit3 X Y Z GX GY N pencil r) = pencilXY (mkSplit3 X Y Z (r / Py) Px (r % Py) Py) := by
    intro r hr; rw [hd X Y Z r (by omega)]
  obtain ⟨y1, y2, y3, y4⟩ := ld_has X Px hPx
  obtain ⟨z1, z2, z3, z4⟩ := ld_has Y Py hPy
  have hrq : ∀ r < size, r / Py < Px := fun r hr => (Nat.div_lt_iff_lt_mul hPy).2 (by omega)
  have hrp : ∀ r, r % Py < Py := fun r => Nat.mod_lt _ hPy
  generalize hB : (fun r => pencilXY (groupSplit3 X Y Z GX GY N pencil r)) = b at h
  have hfun : (fun r => gatherxy (α := α) (part r) whole (groupSplit3 X Y Z GX GY N pencil r) size r) = fun r =>
      gatherG 4 (fun h => h.getD 0 0 * h.getD 1 0 * Z)
        (fun h src => .loop (List.range (h.getD 0 0)) fun i => copyfromblock (src + i * h.getD 1 0 * Z)
          (whole + ((h.getD 2 0 + i) * Y * Z + h.getD 3 0 * Z)) (h.getD 1 0) Z Z)
        [(b r).x, (b r).y, (b r).x0, (b r).y0] (part r) size r := by
    funext r
    rw [gatherxy_eq, ← hB]; rfl
  have hb : ∀ r < size, b r = pencilXY (mkSplit3 X Y Z (r / Py) Px (r % Py) Py) := by
    intro r hr; rw [← hB]; exact hb r hr
  have hzz : ∀ r < size, ∀ k < (b r).y, (b r).y0 + k < Y := by
    intro r hr k hk
    rw [hb r hr] at hk ⊢
    exact z1 (r % Py) (hrp r) _ (Nat.le_add_right _ _) (Nat.add_lt_add_left hk _)
  have hyy : ∀ r < size, ∀ k < (b r).x, (b r).x0 + k < X := by
    intro r hr k hk
    rw [hb r hr] at hk ⊢
    exact y1 (r / Py) (hrq r hr) _ (Nat.le_add_right _ _) (Nat.add_lt_add_left hk _)
  have hx : ∀ r, (b r).z = Z ∧ (b r).z0 = 0 := by intro r; rw [← hB]; exact ⟨rfl, rfl⟩
  rw [hfun]
  refine gather_blocks (H := fun r => [(b r).x, (b r).y, (b r).x0, (b r).y0])
    (pairs := fun r => (List.range (b r).x).flatMap fun i => (copyfromblockL (b r).y Z Z).map
      fun p => (((b r).x0 + i) * Y * Z + (b r).y0 * Z + p.1, i * (b r).y * Z + p.2))
    (by rw [hsz]; exact Nat.mul_pos hPx hPy) h (fun _ _ => rfl) ?_ ?_ ?_ ?_ ?_ ?_
  · intro q _
    simp only [List.getD_cons_zero, List.getD_cons_succ, (hx q).1]
  · intro q hq
    simp only [List.getD_cons_zero, List.getD_cons_succ]
    refine place_loop (body := fun i src => copyfromblock (src + i * (b q).y * Z)
      (whole + (((b q).x0 + i) * Y * Z + (b q).y0 * Z)) (b q).y Z Z) List.nodup_range (fun i hi => place_copy le_rfl ?_) ?_
    · have := List.mem_range.1 hi
      have : (i + 1) * ((b q).y * Z) ≤ (b q).x * ((b q).y * Z) := Nat.mul_le_mul_right _ this
      rw [mul_assoc, mul_assoc]
      linarith
    · intro i _ i' _ hne x hx x' hx' heq
      obtain ⟨y, hy, rfl⟩ := List.mem_map.1 hx
      obtain ⟨y', hy', rfl⟩ := List.mem_map.1 hx'
      obtain ⟨j, hj, k, hk, rfl⟩ := mem_copyfromblockL.1 hy
      obtain ⟨j', hj', k', hk', rfl⟩ := mem_copyfromblockL.1 hy'
      have e1 : (((b q).x0 + i) * Y + ((b q).y0 + j)) * Z + k = (((b q).x0 + i') * Y + ((b q).y0 + j')) * Z + k' := by
        simp only at heq; linarith
      have := (rad_inj (hzz q hq j hj) (hzz q hq j' hj') (rad_inj hk hk' e1).1).1
      omega
  · intro q _ p
    simp only [List.mem_flatMap, List.mem_range, List.mem_map, mem_copyfromblockL, (hx q).1, (hx q).2]
    constructor
    · rintro ⟨i, hi, _, ⟨j, hj, k, hk, rfl⟩, rfl⟩
      refine ⟨i, hi, j, hj, k, hk, ?_⟩
      simp only [Prod.mk.injEq]
      constructor <;> ring
    · rintro ⟨i, hi, j, hj, k, hk, rfl⟩
      refine ⟨i, hi, _, ⟨j, hj, k, hk, rfl⟩, ?_⟩
      simp only [Prod.mk.injEq]
      constructor <;> ring
  · rintro q hq i j k ⟨h1, h2, h3, h4, h5, h6⟩
    rw [(hx q).1, (hx q).2] at h6
    refine ⟨?_, ?_, by omega⟩
    · have := hyy q hq (i - (b q).x0) (by omega); omega
    · have := hzz q hq (j - (b q).y0) (by omega); omega
  · rintro q hq q' hq' i j k ⟨h3, h4, h5, h6, _⟩ ⟨h3', h4', h5', h6', _⟩
    rw [hb q hq] at h3 h4 h5 h6
    rw [hb q' hq'] at h3' h4' h5' h6'
    exact grid_uniq (Py := Py) rfl rfl rfl rfl (y3 _ (hrq q hq) _ (hrq q' hq') i h3 h4 h3' h4') (z3 _ (hrp q) _ (hrp q') j h5 h6 h5' h6')
  · intro i hi j hj k hk
    obtain ⟨q, hq, a1, a2⟩ := y2 i hi
    obtain ⟨p, hp, a3, a4⟩ := z2 j hj
    have hr : q * Py + p < size := by rw [hsz]; exact rad_lt hp hq
    have e1 : (q * Py + p) / Py = q := by
      rw [mul_comm, Nat.mul_add_div hPy, Nat.div_eq_of_lt hp, Nat.add_zero]
    have e2 : (q * Py + p) % Py = p := by rw [Nat.mul_add_mod', Nat.mod_eq_of_lt hp]
    refine ⟨q * Py + p, hr, ?_⟩
    have hz := hx (q * Py + p)
    unfold Block.has
    rw [hz.1, hz.2, hb _ hr, e1, e2]
    exact ⟨a1, a2, a3, a4, by omega, by omega⟩

/-- Concrete states for the examples: process `r` has `part` in buffer 0 (`n r` words, holding `v r`) and rank 0 has `whole` in
buffer 1 (`w` words). -/
def exState (n : ℕ → ℕ) (w : ℕ) (v : ℕ → ℕ → ℕ ⊕ α) (d : ℕ ⊕ α) (r : ℕ) : Local (ℕ ⊕ α) where
  size b := if b = 0 then n r else if b = 1 ∧ r = 0 then w else 0
  mem a := if a.buf = 0 then v r a.off else d
  req _ := none
  sent _ := []
  rcvd _ := 0
  nsend := 0

/-- The hypotheses are met for any array and any number of processes: each process stores its block contiguously. -/
theorem exGather {size X Y Z : ℕ} (b : ℕ → Block) (g : ℕ → ℕ → ℕ → ℕ ⊕ α) : GatherPre size X Y Z b g (fun _ => ⟨0, 0⟩) ⟨1, 0⟩
    (exState (fun r => (b r).x * (b r).y * (b r).z) (X * Y * Z)
      (fun r o => g ((b r).x0 + o / (b r).z / (b r).y) ((b r).y0 + o / (b r).z % (b r).y) ((b r).z0 + o % (b r).z)) (g 0 0 0)) where
  idle r _ := ⟨fun _ => rfl, by simp [exState], by simp [exState]⟩
  bal _ _ _ _ _ := rfl
  part2 _ _ := by simp
  whole2 := by simp
  whole3 := by simp
  apart := by simp
  partSize r _ := by simp [exState]
  wholeSize := by simp [exState]
  holds r _ := by
    intro i hi j hj k hk
    simp only [exState, Loc.add_buf, Loc.add_off, if_true, Nat.zero_add]
    have e1 : ((i * (b r).y + j) * (b r).z + k) / (b r).z = i * (b r).y + j := by
      rw [mul_comm, Nat.mul_add_div (by omega), Nat.div_eq_of_lt hk, Nat.add_zero]
    have e2 : (i * (b r).y + j) / (b r).y = i := by
      rw [mul_comm, Nat.mul_add_div (by omega), Nat.div_eq_of_lt hj, Nat.add_zero]
    rw [e1, e2, Nat.mul_add_mod', Nat.mod_eq_of_lt hj, Nat.mul_add_mod', Nat.mod_eq_of_lt hk]

/-- Instances: 3 processes and a 4 × 2 × 3 array (blocks of 2, 2 and 0 rows); a 2 × 2 grid. -/
example (e : Eager) (g : ℕ → ℕ → ℕ → ℕ ⊕ α) := C24_gatherx e (size := 3) (by norm_num) (exGather (X := 4) (Y := 2) (Z := 3) (slabX 4 2 3 3) g)
example (e : Eager) (g : ℕ → ℕ → ℕ → ℕ ⊕ α) := C24_gathery e (size := 3) (by norm_num) (exGather (X := 2) (Y := 5) (Z := 3) (slabY 2 5 3 3) g)
example (e : Eager) (g : ℕ → ℕ → ℕ → ℕ ⊕ α) := C24_gatheryz e (X := 3) (Y := 4) (Z := 5) (GX := 2) (GY := 3) (N := 5) (pencil := true)
  (by norm_num) (by norm_num) (by norm_num) (exGather _ g)
example (e : Eager) (g : ℕ → ℕ → ℕ → ℕ ⊕ α) := C24_gatherxy e (X := 3) (Y := 4) (Z := 5) (GX := 2) (GY := 3) (N := 5) (pencil := true)
  (by norm_num) (by norm_num) (by norm_num) (exGather _ g)

end Fftwpp.Net
