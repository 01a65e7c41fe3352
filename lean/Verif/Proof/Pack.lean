import Verif.Proof.Coll
import Mathlib.Data.List.Sort
import Mathlib.Tactic.Ring

/-!
# Local rearrangements of `mpitranspose`
-/

namespace Fftwpp.Net
variable {V : Type}

theorem nodup_flat {β γ : Type} {l : List ℕ} {f : ℕ → List β} {g : β → γ} (hl : l.Nodup) (h1 : ∀ i ∈ l, ((f i).map g).Nodup)
    (h2 : ∀ i ∈ l, ∀ j ∈ l, i ≠ j → ∀ x ∈ f i, ∀ y ∈ f j, g x ≠ g y) : ((l.flatMap f).map g).Nodup := by
  rw [List.map_flatMap, List.nodup_flatMap]
  refine ⟨h1, ?_⟩
  refine List.Pairwise.imp_of_mem ?_ hl
  intro i j hi hj hne
  rw [Function.onFun, List.disjoint_left]
  intro z hz hz'
  obtain ⟨x, hx, rfl⟩ := List.mem_map.1 hz
  obtain ⟨y, hy, he⟩ := List.mem_map.1 hz'
  exact h2 i hi j hj hne x hx y hy he.symm

/-- A copy between different buffers. -/
theorem moves_ok {e : Eager} {i : ℕ} {env : ℕ → Local V} {σ : Local V} (hr : ∀ id, σ.req id = none) {d s : Loc} {l : List (ℕ × ℕ)}
    (hnd : (l.map (·.1)).Nodup) (hb : d.buf ≠ s.buf) (hd : ∀ x ∈ l, σ.inBounds (d + x.1)) (hs : ∀ x ∈ l, σ.inBounds (s + x.2)) :
    ∃ m, (Prog.call (.moves (at' d s l))).eval e i env σ = some ((), { σ with mem := m }) ∧
      (∀ x ∈ l, m (d + x.1) = σ.mem (s + x.2)) ∧ ∀ a, (∀ x ∈ l, a ≠ d + x.1) → m a = σ.mem a := by
  have hnd' : ((at' d s l).map (·.1)).Nodup := by
    simp only [at', List.map_map]
    have : (fun x : ℕ × ℕ => d + x.1) = (fun j => d + j) ∘ (·.1) := rfl
    rw [show ((fun x : Loc × Loc => x.1) ∘ fun x : ℕ × ℕ => (d + x.1, s + x.2)) = (fun j => d + j) ∘ (fun x : ℕ × ℕ => x.1) from rfl, ← List.map_map]
    refine hnd.map ?_
    intro a b hab
    simpa using congrArg Loc.off hab
  refine ⟨moveMem σ.mem (at' d s l), eval_call ?_, ?_, ?_⟩
  · simp only [Op.exec]
    rw [if_pos]
    refine ⟨hnd', ?_, ?_⟩
    · intro x hx y hy he
      obtain ⟨x', _, rfl⟩ := mem_at'.1 hx
      obtain ⟨y', _, rfl⟩ := mem_at'.1 hy
      exact hb (by simpa using (congrArg Loc.buf he).symm)
    · intro x hx
      obtain ⟨x', hx', rfl⟩ := mem_at'.1 hx
      exact ⟨writable_of hr (hd x' hx'), readable_of hr (hs x' hx')⟩
  · intro x hx
    exact moveMem_mem hnd' (mem_at'.2 ⟨x, hx, rfl⟩)
  · intro a ha
    refine moveMem_not fun x hx he => ?_
    obtain ⟨x', hx', rfl⟩ := mem_at'.1 hx
    exact ha x' hx' he.symm

/-- A rearrangement within a buffer. -/
theorem shuffle_ok {e : Eager} {i : ℕ} {env : ℕ → Local V} {σ : Local V} (hr : ∀ id, σ.req id = none) {d s : Loc} {l : List (ℕ × ℕ)}
    (hnd : (l.map (·.1)).Nodup) (hd : ∀ x ∈ l, σ.inBounds (d + x.1)) (hs : ∀ x ∈ l, σ.inBounds (s + x.2)) :
    ∃ m, (Prog.call (.shuffle (at' d s l))).eval e i env σ = some ((), { σ with mem := m }) ∧
      (∀ x ∈ l, m (d + x.1) = σ.mem (s + x.2)) ∧ ∀ a, (∀ x ∈ l, a ≠ d + x.1) → m a = σ.mem a := by
  have hnd' : ((at' d s l).map (·.1)).Nodup := by
    simp only [at', List.map_map]
    rw [show ((fun x : Loc × Loc => x.1) ∘ fun x : ℕ × ℕ => (d + x.1, s + x.2)) = (fun j => d + j) ∘ (fun x : ℕ × ℕ => x.1) from rfl, ← List.map_map]
    refine hnd.map ?_
    intro a b hab
    simpa using congrArg Loc.off hab
  refine ⟨moveMem σ.mem (at' d s l), eval_call ?_, ?_, ?_⟩
  · simp only [Op.exec]
    rw [if_pos]
    refine ⟨hnd', ?_⟩
    intro x hx
    obtain ⟨x', hx', rfl⟩ := mem_at'.1 hx
    exact ⟨writable_of hr (hd x' hx'), readable_of hr (hs x' hx')⟩
  · intro x hx
    exact moveMem_mem hnd' (mem_at'.2 ⟨x, hx, rfl⟩)
  · intro a ha
    refine moveMem_not fun x hx he => ?_
    obtain ⟨x', hx', rfl⟩ := mem_at'.1 hx
    exact ha x' hx' he.symm

theorem mem_transposeL {rows cols length : ℕ} {x : ℕ × ℕ} : x ∈ transposeL rows cols length ↔
    ∃ r < rows, ∃ c < cols, ∃ k < length, x = ((c * rows + r) * length + k, (r * cols + c) * length + k) := by
  simp [transposeL, eq_comm]

theorem nodup_transposeL (rows cols length : ℕ) : ((transposeL rows cols length).map (·.1)).Nodup := by
  unfold transposeL
  refine nodup_flat List.nodup_range (fun r hr => nodup_flat List.nodup_range (fun c hc => ?_) ?_) ?_
  · rw [List.map_map]
    refine List.nodup_range.map ?_
    intro a b hab
    simpa using hab
  · intro c hc c' hc' hne x hx y hy he
    obtain ⟨k, hk, rfl⟩ := List.mem_map.1 hx
    obtain ⟨k', hk', rfl⟩ := List.mem_map.1 hy
    simp only [List.mem_range] at *
    have h1 := (rad_inj hk hk' he).1
    exact hne (rad_inj hr hr h1).1
  · intro r hr r' hr' hne x hx y hy he
    obtain ⟨c, hc, hx⟩ := List.mem_flatMap.1 hx
    obtain ⟨c', hc', hy⟩ := List.mem_flatMap.1 hy
    obtain ⟨k, hk, rfl⟩ := List.mem_map.1 hx
    obtain ⟨k', hk', rfl⟩ := List.mem_map.1 hy
    simp only [List.mem_range] at *
    have h1 := (rad_inj hk hk' he).1
    exact hne (rad_inj hr hr' h1).2

theorem inB {σ : Local V} {p : Loc} {n j : ℕ} (h : p.off + n ≤ σ.size p.buf) (hj : j < n) : σ.inBounds (p + j) := by
  unfold Local.inBounds
  simp; omega

theorem transpose_ok {e : Eager} {i : ℕ} {env : ℕ → Local V} {σ : Local V} (hr : ∀ id, σ.req id = none) {rows cols length : ℕ} {ip : Bool} {s d : Loc}
    (hip : ip = true → s = d) (hop : ip = false → s.buf ≠ d.buf) (hd : d.off + rows * cols * length ≤ σ.size d.buf)
    (hs : s.off + rows * cols * length ≤ σ.size s.buf) :
    ∃ m, (transpose rows cols length ip s d).eval e i env σ = some ((), { σ with mem := m }) ∧
      (∀ r < rows, ∀ c < cols, ∀ k < length, m (d + ((c * rows + r) * length + k)) = σ.mem (s + ((r * cols + c) * length + k))) ∧
      ∀ a, ¬ (Region.mk d (rows * cols * length)).has a → m a = σ.mem a := by
  unfold transpose
  by_cases h0 : rows = 0 ∨ cols = 0
  · rw [if_pos h0]
    refine ⟨σ.mem, rfl, ?_, fun _ _ => rfl⟩
    intro r hr c hc
    omega
  rw [if_neg h0]
  have hlt1 : ∀ x ∈ transposeL rows cols length, x.1 < rows * cols * length := by
    intro x hx
    obtain ⟨r, hr, c, hc, k, hk, rfl⟩ := mem_transposeL.1 hx
    rw [Nat.mul_comm rows cols]
    exact rad_lt hk (rad_lt hr hc)
  have hlt2 : ∀ x ∈ transposeL rows cols length, x.2 < rows * cols * length := by
    intro x hx
    obtain ⟨r, hr, c, hc, k, hk, rfl⟩ := mem_transposeL.1 hx
    exact rad_lt hk (rad_lt hc hr)
  have key : ∃ m, (if ip = true then if d = s then Prog.call (.shuffle (at' d s (transposeL rows cols length))) else .fail
      else if d = s then .fail else Prog.call (.moves (at' d s (transposeL rows cols length))) : Prog V Unit).eval e i env σ = some ((), { σ with mem := m }) ∧
      (∀ x ∈ transposeL rows cols length, m (d + x.1) = σ.mem (s + x.2)) ∧ ∀ a, (∀ x ∈ transposeL rows cols length, a ≠ d + x.1) → m a = σ.mem a := by
    cases ip with
    | true =>
      rw [if_pos rfl, if_pos (hip rfl).symm]
      exact shuffle_ok hr (nodup_transposeL _ _ _) (fun x hx => inB hd (hlt1 x hx)) (fun x hx => inB hs (hlt2 x hx))
    | false =>
      have hne := hop rfl
      rw [if_neg (by simp), if_neg (fun h => hne (by rw [h]))]
      exact moves_ok hr (nodup_transposeL _ _ _) (Ne.symm hne) (fun x hx => inB hd (hlt1 x hx)) (fun x hx => inB hs (hlt2 x hx))
  obtain ⟨m, h1, h2, h3⟩ := key
  refine ⟨m, h1, ?_, ?_⟩
  · intro r hr c hc k hk
    exact h2 _ (mem_transposeL.2 ⟨r, hr, c, hc, k, hk, rfl⟩)
  · intro a ha
    refine h3 a fun x hx he => ha ?_
    rw [he]
    exact region_has.2 ⟨_, hlt1 x hx, rfl⟩

/-! ### Packing -/

namespace Geo
variable {g : Geo}

theorem mem_packL1 {r : ℕ} {x : ℕ × ℕ} : x ∈ (g.mt r).packL1 ↔ ∃ i < g.nn r, ∃ j < g.a, ∃ v < g.b, ∃ k < g.m0 * g.L,
    x = (g.a * i * (g.m0 * g.L) + j * (g.m0 * g.L) + (v * (g.nn r * g.a * (g.m0 * g.L)) + k),
      g.a * i * (g.b * (g.m0 * g.L)) + i * ((g.M - g.m0 * g.a * g.b) * g.L) + j * (g.b * (g.m0 * g.L)) + (v * (g.m0 * g.L) + k)) := by
  simp only [MT.packL1, mt, List.mem_flatMap, List.mem_map, List.mem_range, mem_copyfromblockL]
  constructor
  · rintro ⟨i, hi, j, hj, y, ⟨v, hv, k, hk, rfl⟩, rfl⟩
    exact ⟨i, hi, j, hj, v, hv, k, hk, rfl⟩
  · rintro ⟨i, hi, j, hj, v, hv, k, hk, rfl⟩
    exact ⟨i, hi, j, hj, _, ⟨v, hv, k, hk, rfl⟩, rfl⟩

theorem packL1_dst (a n B i j v k : ℕ) : a * i * B + j * B + (v * (n * a * B) + k) = ((v * n + i) * a + j) * B + k := by ring

theorem packL1_src (h : g.OK) (hb : g.a > 1) (i j v k : ℕ) :
    g.a * i * (g.b * (g.m0 * g.L)) + i * ((g.M - g.m0 * g.a * g.b) * g.L) + j * (g.b * (g.m0 * g.L)) + (v * (g.m0 * g.L) + k) =
      i * (g.M * g.L) + ((j * g.b + v) * (g.m0 * g.L) + k) := by
  have h1 := h.ab_m (Or.inl hb)
  obtain ⟨x, hx⟩ := Nat.le.dest h1
  have h2 : g.M - g.m0 * g.a * g.b = x := by
    rw [← hx, show g.m0 * g.a * g.b = g.a * g.b * g.m0 by ring]; omega
  rw [h2, ← hx]; ring

/-- Words `j*(M*L)+(Q*(m0*L)+k)` of a row-major local array are distinct. -/
theorem row_inj (h : g.OK) {i Q k i' Q' k' : ℕ} (hk : k < g.mm Q * g.L) (hk' : k' < g.mm Q' * g.L)
    (he : i * (g.M * g.L) + (Q * (g.m0 * g.L) + k) = i' * (g.M * g.L) + (Q' * (g.m0 * g.L) + k')) : i = i' ∧ Q = Q' ∧ k = k' := by
  have hlt : ∀ Q k, k < g.mm Q * g.L → Q * (g.m0 * g.L) + k < g.M * g.L := by
    intro Q k hk
    rcases h.mm_M Q with h0 | h0
    · rw [h0] at hk; omega
    · have := Nat.mul_le_mul_right g.L h0
      rw [Nat.add_mul, Nat.mul_assoc] at this
      omega
  have hle : ∀ Q, g.mm Q * g.L ≤ g.m0 * g.L := fun Q => Nat.mul_le_mul_right _ (h.mm_le Q)
  obtain ⟨h1, h2⟩ := rad_inj (hlt Q k hk) (hlt Q' k' hk') he
  obtain ⟨h3, h4⟩ := rad_inj (lt_of_lt_of_le hk (hle Q)) (lt_of_lt_of_le hk' (hle Q')) h2
  exact ⟨h1, h3, h4⟩

theorem row_lt (h : g.OK) {n i Q k : ℕ} (hi : i < n) (hk : k < g.mm Q * g.L) : i * (g.M * g.L) + (Q * (g.m0 * g.L) + k) < n * g.M * g.L := by
  have hlt : Q * (g.m0 * g.L) + k < g.M * g.L := by
    rcases h.mm_M Q with h0 | h0
    · rw [h0] at hk; omega
    · have := Nat.mul_le_mul_right g.L h0
      rw [Nat.add_mul, Nat.mul_assoc] at this
      omega
  rw [Nat.mul_assoc n]
  exact rad_lt hlt hi

/-- Words `n*L*m0*Q+(i*(mm Q*L)+k)` of a packed array are distinct. -/
theorem pk_inj (h : g.OK) {n i Q k i' Q' k' : ℕ} (hi : i < n) (hi' : i' < n) (hk : k < g.mm Q * g.L) (hk' : k' < g.mm Q' * g.L)
    (he : n * g.L * g.m0 * Q + (i * (g.mm Q * g.L) + k) = n * g.L * g.m0 * Q' + (i' * (g.mm Q' * g.L) + k')) : i = i' ∧ Q = Q' ∧ k = k' := by
  have hlt : ∀ Q i k, i < n → k < g.mm Q * g.L → i * (g.mm Q * g.L) + k < n * g.L * g.m0 := by
    intro Q i k hi hk
    have h1 := rad_lt hk hi
    have h2 : n * (g.mm Q * g.L) ≤ n * (g.m0 * g.L) := Nat.mul_le_mul_left _ (Nat.mul_le_mul_right _ (h.mm_le Q))
    have h3 : n * g.L * g.m0 = n * (g.m0 * g.L) := by ring
    omega
  rw [Nat.mul_comm _ Q, Nat.mul_comm _ Q'] at he
  obtain ⟨h1, h2⟩ := rad_inj (hlt Q i k hi hk) (hlt Q' i' k' hi' hk') he
  subst h1
  obtain ⟨h3, h4⟩ := rad_inj hk hk' h2
  exact ⟨h3, rfl, h4⟩

theorem pk_lt (h : g.OK) {n i Q k : ℕ} (hi : i < n) (hk : k < g.mm Q * g.L) : n * g.L * g.m0 * Q + (i * (g.mm Q * g.L) + k) < n * g.M * g.L := by
  rcases h.mm_M Q with h0 | h0
  · rw [h0] at hk; omega
  · have h1 := rad_lt hk hi
    have h2 : n * (Q * g.m0 + g.mm Q) * g.L ≤ n * g.M * g.L := Nat.mul_le_mul_right _ (Nat.mul_le_mul_left _ h0)
    have h3 : n * (Q * g.m0 + g.mm Q) * g.L = n * g.L * g.m0 * Q + n * (g.mm Q * g.L) := by ring
    omega

/-- Words `((v*n+i)*a+u)*(m0*L)+k` of a block-packed array are distinct. -/
theorem bk_inj {n a B v i u k v' i' u' k' : ℕ} (hi : i < n) (hi' : i' < n) (hu : u < a) (hu' : u' < a) (hk : k < B) (hk' : k' < B)
    (he : ((v * n + i) * a + u) * B + k = ((v' * n + i') * a + u') * B + k') : v = v' ∧ i = i' ∧ u = u' ∧ k = k' := by
  obtain ⟨h1, h2⟩ := rad_inj hk hk' he
  obtain ⟨h3, h4⟩ := rad_inj hu hu' h1
  obtain ⟨h5, h6⟩ := rad_inj hi hi' h3
  exact ⟨h5, h6, h4, h2⟩

theorem bk_lt {n a b B v i u k : ℕ} (hv : v < b) (hi : i < n) (hu : u < a) (hk : k < B) : ((v * n + i) * a + u) * B + k < n * B * (a * b) := by
  have := rad_lt hk (rad_lt hu (rad_lt hi hv))
  rwa [show b * n * a * B = n * B * (a * b) by ring] at this

theorem mm_lt (Q : ℕ) (hQ : Q < g.mlast) : g.mm Q = g.m0 := if_pos hQ
theorem mm_last : g.mm g.mlast = g.mp := by simp [mm]

theorem mem_packL {r : ℕ} {x : ℕ × ℕ} (h : g.OK) : x ∈ (g.mt r).packL ↔ ∃ i < g.nn r, ∃ Q < g.size, ∃ k < g.mm Q * g.L,
    x = (g.nn r * g.L * g.m0 * Q + (i * (g.mm Q * g.L) + k), i * (g.M * g.L) + (Q * (g.m0 * g.L) + k)) := by
  have hM : g.mlast * (g.m0 * g.L) + g.mp * g.L = g.M * g.L := by rw [h.M]; ring
  simp only [MT.packL, mt, List.mem_flatMap, List.mem_append, List.mem_map, List.mem_range, mem_copyfromblockL, hM]
  constructor
  · rintro ⟨i, hi, (⟨y, ⟨Q, hQ, k, hk, rfl⟩, rfl⟩ | ⟨k, hk, rfl⟩)⟩
    · refine ⟨i, hi, Q, by have := h.mlast; omega, k, by rw [mm_lt Q hQ]; exact hk, ?_⟩
      rw [mm_lt Q hQ]
      ext <;> simp <;> ring
    · refine ⟨i, hi, g.mlast, h.mlast, k, by rw [mm_last]; exact hk, ?_⟩
      rw [mm_last]
      ext <;> simp <;> ring
  · rintro ⟨i, hi, Q, hQ, k, hk, rfl⟩
    refine ⟨i, hi, ?_⟩
    rcases Nat.lt_trichotomy Q g.mlast with h1 | h1 | h1
    · left
      rw [mm_lt Q h1] at hk ⊢
      refine ⟨_, ⟨Q, h1, k, hk, rfl⟩, ?_⟩
      ext <;> simp <;> ring
    · right
      subst h1
      rw [mm_last] at hk ⊢
      refine ⟨k, hk, ?_⟩
      ext <;> simp <;> ring
    · rw [show g.mm Q = 0 by unfold mm; rw [if_neg (by omega), if_neg (by omega)]] at hk
      omega

theorem mem_packL2 {r : ℕ} {x : ℕ × ℕ} (h : g.OK) (hb : g.a > 1) : x ∈ (g.mt r).packL2 ↔ ∃ i < g.nn r, ∃ Q, g.a * g.b ≤ Q ∧ Q < g.mlast ∧ ∃ k < g.mm Q * g.L,
    x = (g.nn r * g.L * g.m0 * Q + (i * (g.mm Q * g.L) + k), i * (g.M * g.L) + (Q * (g.m0 * g.L) + k)) := by
  have hM : g.mlast * (g.m0 * g.L) + g.mp * g.L = g.M * g.L := by rw [h.M]; ring
  simp only [MT.packL2, mt, List.mem_flatMap, List.mem_map, List.mem_range, mem_copyfromblockL, hM]
  constructor
  · rintro ⟨i, hi, y, ⟨Q, hQ, k, hk, rfl⟩, rfl⟩
    have hq : g.a * g.b + Q < g.mlast := by omega
    refine ⟨i, hi, g.a * g.b + Q, by omega, hq, k, by rw [mm_lt _ hq]; exact hk, ?_⟩
    rw [mm_lt _ hq]
    ext <;> simp <;> ring
  · rintro ⟨i, hi, Q, h1, h2, k, hk, rfl⟩
    obtain ⟨c, rfl⟩ := Nat.le.dest h1
    rw [mm_lt _ h2] at hk ⊢
    refine ⟨i, hi, _, ⟨c, by omega, k, hk, rfl⟩, ?_⟩
    ext <;> simp <;> ring

theorem mem_packL3 {r : ℕ} {x : ℕ × ℕ} (h : g.OK) : x ∈ (g.mt r).packL3 ↔ ∃ i < g.nn r, ∃ k < g.mm g.mlast * g.L,
    x = (g.nn r * g.L * g.m0 * g.mlast + (i * (g.mm g.mlast * g.L) + k), i * (g.M * g.L) + (g.mlast * (g.m0 * g.L) + k)) := by
  have hM : g.mlast * (g.m0 * g.L) + g.mp * g.L = g.M * g.L := by rw [h.M]; ring
  simp only [MT.packL3, mt, List.mem_flatMap, List.mem_map, List.mem_range, hM, mm_last]
  constructor
  · rintro ⟨i, hi, k, hk, rfl⟩
    refine ⟨i, hi, k, hk, ?_⟩
    ext <;> simp <;> ring
  · rintro ⟨i, hi, k, hk, rfl⟩
    refine ⟨i, hi, k, hk, ?_⟩
    ext <;> simp <;> ring

theorem nodup_shift {l : List (ℕ × ℕ)} (hl : (l.map (·.1)).Nodup) (f : ℕ × ℕ → ℕ × ℕ) (A : ℕ) (hf : ∀ x, (f x).1 = A + x.1) :
    ((l.map f).map (·.1)).Nodup := by
  rw [List.map_map]
  have : ((fun x : ℕ × ℕ => x.1) ∘ f) = (fun y => A + y) ∘ (fun x : ℕ × ℕ => x.1) := by
    funext x; simp [hf]
  rw [this, ← List.map_map]
  refine hl.map ?_
  intro a b hab
  simpa using hab

theorem packL1_nodup (r : ℕ) : ((g.mt r).packL1.map (·.1)).Nodup := by
  unfold MT.packL1
  simp only [mt]
  refine nodup_flat List.nodup_range (fun i hi => nodup_flat List.nodup_range (fun j hj => ?_) ?_) ?_
  · refine nodup_shift (nodup_copyfromblockL ?_) _ (g.a * i * (g.m0 * g.L) + j * (g.m0 * g.L)) (fun x => rfl)
    rw [List.mem_range] at hi hj
    exact Nat.le_mul_of_pos_left _ (Nat.mul_pos (by omega) (by omega))
  · intro j hj j' hj' hne x hx y hy he
    obtain ⟨x', hx', rfl⟩ := List.mem_map.1 hx
    obtain ⟨y', hy', rfl⟩ := List.mem_map.1 hy
    obtain ⟨v, hv, k, hk, rfl⟩ := mem_copyfromblockL.1 hx'
    obtain ⟨v', hv', k', hk', rfl⟩ := mem_copyfromblockL.1 hy'
    simp only [List.mem_range, packL1_dst] at *
    exact hne (bk_inj hi hi hj hj' hk hk' he).2.2.1
  · intro i hi i' hi' hne x hx y hy he
    obtain ⟨j, hj, hx⟩ := List.mem_flatMap.1 hx
    obtain ⟨j', hj', hy⟩ := List.mem_flatMap.1 hy
    obtain ⟨x', hx', rfl⟩ := List.mem_map.1 hx
    obtain ⟨y', hy', rfl⟩ := List.mem_map.1 hy
    obtain ⟨v, hv, k, hk, rfl⟩ := mem_copyfromblockL.1 hx'
    obtain ⟨v', hv', k', hk', rfl⟩ := mem_copyfromblockL.1 hy'
    simp only [List.mem_range, packL1_dst] at *
    exact hne (bk_inj hi hi' hj hj' hk hk' he).2.1

theorem packL2_nodup (h : g.OK) (r : ℕ) : ((g.mt r).packL2.map (·.1)).Nodup := by
  unfold MT.packL2
  simp only [mt]
  refine nodup_flat List.nodup_range (fun i hi => ?_) ?_
  · refine nodup_shift (nodup_copyfromblockL ?_) _ (g.a * g.b * (g.nn r * (g.m0 * g.L)) + i * (g.m0 * g.L)) (fun x => rfl)
    rw [List.mem_range] at hi
    exact Nat.le_mul_of_pos_left _ (by omega)
  · intro i hi i' hi' hne x hx y hy he
    obtain ⟨x', hx', rfl⟩ := List.mem_map.1 hx
    obtain ⟨y', hy', rfl⟩ := List.mem_map.1 hy
    obtain ⟨v, hv, k, hk, rfl⟩ := mem_copyfromblockL.1 hx'
    obtain ⟨v', hv', k', hk', rfl⟩ := mem_copyfromblockL.1 hy'
    simp only [List.mem_range] at *
    have q : g.a * g.b + v < g.mlast := by omega
    have q' : g.a * g.b + v' < g.mlast := by omega
    refine hne (pk_inj h (Q := g.a * g.b + v) (Q' := g.a * g.b + v') hi hi' (by rw [mm_lt _ q]; exact hk) (by rw [mm_lt _ q']; exact hk') ?_).1
    rw [mm_lt _ q, mm_lt _ q']
    calc _ = g.a * g.b * (g.nn r * (g.m0 * g.L)) + i * (g.m0 * g.L) + (v * (g.nn r * (g.m0 * g.L)) + k) := by ring
      _ = g.a * g.b * (g.nn r * (g.m0 * g.L)) + i' * (g.m0 * g.L) + (v' * (g.nn r * (g.m0 * g.L)) + k') := he
      _ = _ := by ring

theorem packL3_nodup (r : ℕ) : ((g.mt r).packL3.map (·.1)).Nodup := by
  unfold MT.packL3
  simp only [mt]
  refine nodup_flat List.nodup_range (fun i hi => ?_) ?_
  · rw [List.map_map]
    refine List.nodup_range.map ?_
    intro a b hab
    simpa using hab
  · intro i hi i' hi' hne x hx y hy he
    obtain ⟨k, hk, rfl⟩ := List.mem_map.1 hx
    obtain ⟨k', hk', rfl⟩ := List.mem_map.1 hy
    simp only [List.mem_range] at *
    refine hne (rad_inj (Z := g.mp * g.L) hk hk' ?_).1
    omega

theorem packL_nodup (h : g.OK) (r : ℕ) : ((g.mt r).packL.map (·.1)).Nodup := by
  have hM : g.mlast * (g.m0 * g.L) + g.mp * g.L = g.M * g.L := by rw [h.M]; ring
  unfold MT.packL
  simp only [mt]
  have key : ∀ i < g.nn r, ∀ x ∈ ((copyfromblockL g.mlast (g.m0 * g.L) (g.nn r * (g.m0 * g.L))).map fun x =>
      (i * (g.m0 * g.L) + x.1, i * (g.mlast * (g.m0 * g.L) + g.mp * g.L) + x.2)) ++
      (List.range (g.mp * g.L)).map (fun k => (g.mlast * (g.nn r * (g.m0 * g.L)) + i * (g.mp * g.L) + k,
        i * (g.mlast * (g.m0 * g.L) + g.mp * g.L) + g.mlast * (g.m0 * g.L) + k)),
      ∃ Q, ∃ k < g.mm Q * g.L, x.1 = g.nn r * g.L * g.m0 * Q + (i * (g.mm Q * g.L) + k) := by
    intro i hi x hx
    rcases List.mem_append.1 hx with hx | hx
    · obtain ⟨x', hx', rfl⟩ := List.mem_map.1 hx
      obtain ⟨v, hv, k, hk, rfl⟩ := mem_copyfromblockL.1 hx'
      refine ⟨v, k, by rw [mm_lt _ hv]; exact hk, ?_⟩
      rw [mm_lt _ hv]
      simp only
      ring
    · obtain ⟨k, hk, rfl⟩ := List.mem_map.1 hx
      rw [List.mem_range] at hk
      refine ⟨g.mlast, k, by rw [mm_last]; exact hk, ?_⟩
      rw [mm_last]
      simp only
      ring
  refine nodup_flat List.nodup_range (fun i hi => ?_) ?_
  · rw [List.mem_range] at hi
    rw [List.map_append, List.nodup_append]
    refine ⟨nodup_shift (nodup_copyfromblockL ?_) _ (i * (g.m0 * g.L)) (fun x => rfl), ?_, ?_⟩
    · exact Nat.le_mul_of_pos_left _ (by omega)
    · rw [List.map_map]
      refine List.nodup_range.map ?_
      intro a b hab
      simpa using hab
    · intro z hz z' hz' he
      obtain ⟨x, hx, rfl⟩ := List.mem_map.1 hz
      obtain ⟨y, hy, rfl⟩ := List.mem_map.1 hz'
      obtain ⟨x', hx', rfl⟩ := List.mem_map.1 hx
      obtain ⟨v, hv, k, hk, rfl⟩ := mem_copyfromblockL.1 hx'
      obtain ⟨k', hk', rfl⟩ := List.mem_map.1 hy
      rw [List.mem_range] at hk'
      have := (pk_inj h (Q := v) (Q' := g.mlast) (k := k) (k' := k') hi hi (by rw [mm_lt _ hv]; exact hk) (by rw [mm_last]; exact hk') (by
        rw [mm_lt _ hv, mm_last]
        simp only at he
        calc _ = i * (g.m0 * g.L) + (v * (g.nn r * (g.m0 * g.L)) + k) := by ring
          _ = _ := he
          _ = _ := by ring)).2.1
      omega
  · intro i hi i' hi' hne x hx y hy he
    rw [List.mem_range] at hi hi'
    obtain ⟨Q, k, hk, e1⟩ := key i hi x hx
    obtain ⟨Q', k', hk', e2⟩ := key i' hi' y hy
    rw [e1, e2] at he
    exact hne (pk_inj h hi hi' hk hk' he).1

/-- Distinct second components. -/
theorem nodup_snd {l : List (ℕ × ℕ)} (h : (l.map (·.1)).Nodup) (hi : ∀ x ∈ l, ∀ y ∈ l, x.2 = y.2 → x = y) : ((swapL l).map (·.1)).Nodup := by
  unfold swapL
  rw [List.map_map]
  exact (List.Nodup.of_map _ h).map_on fun x hx y hy he => hi x hx y hy he

end Geo
end Fftwpp.Net
