import Verif.Proof.Exchange
import Verif.Props.Mpi

/-!
# The block structure of `mpitranspose`
-/

namespace Fftwpp.Net
variable {V : Type}

/-- What the processes have in common. -/
structure Geo where
  N : ℕ
  M : ℕ
  L : ℕ
  size : ℕ
  n0 : ℕ
  nlast : ℕ
  np : ℕ
  m0 : ℕ
  mlast : ℕ
  mp : ℕ
  a : ℕ
  b : ℕ
  uniform : Bool
  compact : Bool
  schedule : Bool

namespace Geo
/-- Rows of process `r`. -/
def nn (g : Geo) (r : ℕ) : ℕ := if r < g.nlast then g.n0 else if r = g.nlast then g.np else 0
/-- Columns of process `r`. -/
def mm (g : Geo) (r : ℕ) : ℕ := if r < g.mlast then g.m0 else if r = g.mlast then g.mp else 0
/-- The number of processes in the blocked exchange. -/
def ab (g : Geo) : ℕ := g.a * g.b

/-- The object of process `r`. -/
def mt (g : Geo) (r : ℕ) : MT :=
  { N := g.N, M := g.M, L := g.L, n := g.nn r, m := g.mm r, rank := r, size := g.size, n0 := g.n0, nlast := g.nlast, np := g.np, m0 := g.m0,
    mlast := g.mlast, mp := g.mp, a := g.a, b := g.b, last := min g.nlast g.mlast, uniform := g.uniform,
    subblock := decide (g.a > 1 ∧ r < g.a * g.b), compact := g.compact, schedule := g.schedule }

/-- Facts about the blocks. -/
structure OK (g : Geo) : Prop where
  n0 : 0 < g.n0
  m0 : 0 < g.m0
  np : 0 < g.np ∧ g.np ≤ g.n0
  mp : 0 < g.mp ∧ g.mp ≤ g.m0
  N : g.N = g.nlast * g.n0 + g.np
  M : g.M = g.mlast * g.m0 + g.mp
  nlast : g.nlast < g.size
  mlast : g.mlast < g.size
  a : 1 ≤ g.a
  blockn : g.a > 1 ∨ g.uniform = true → g.a * g.b ≤ g.nlast + if g.n0 = g.np then 1 else 0
  blockm : g.a > 1 ∨ g.uniform = true → g.a * g.b ≤ g.mlast + if g.m0 = g.mp then 1 else 0
  uniform : g.uniform = true → g.a * g.b = g.size
  compact : g.compact = true → g.uniform = true ∧ g.schedule = false
  sched : g.uniform = false → g.a > 1 → g.schedule = true

theorem OK.nn_eq {g : Geo} (h : g.OK) {r : ℕ} (hb : g.a > 1 ∨ g.uniform = true) (hr : r < g.a * g.b) : g.nn r = g.n0 := by
  have h1 := h.blockn hb
  unfold nn
  split_ifs at h1 ⊢ <;> omega

theorem OK.mm_eq {g : Geo} (h : g.OK) {r : ℕ} (hb : g.a > 1 ∨ g.uniform = true) (hr : r < g.a * g.b) : g.mm r = g.m0 := by
  have h1 := h.blockm hb
  unfold mm
  split_ifs at h1 ⊢ <;> omega

theorem OK.nn_le {g : Geo} (h : g.OK) (r : ℕ) : g.nn r ≤ g.n0 := by
  unfold nn
  have := h.np
  split_ifs <;> omega

theorem OK.mm_le {g : Geo} (h : g.OK) (r : ℕ) : g.mm r ≤ g.m0 := by
  unfold mm
  have := h.mp
  split_ifs <;> omega

/-- Rows of process `r` are the global rows `r*n0+i`. -/
theorem OK.nn_N {g : Geo} (h : g.OK) (r : ℕ) : g.nn r = 0 ∨ r * g.n0 + g.nn r ≤ g.N := by
  rcases Nat.lt_trichotomy r g.nlast with hr | hr | hr
  · right
    have e1 : g.nn r = g.n0 := if_pos hr
    have := h.N
    have h2 : (r + 1) * g.n0 ≤ g.nlast * g.n0 := Nat.mul_le_mul_right _ hr
    rw [Nat.succ_mul] at h2
    omega
  · right
    subst hr
    have e1 : g.nn g.nlast = g.np := by simp [nn]
    have := h.N
    omega
  · left
    unfold nn
    rw [if_neg (by omega), if_neg (by omega)]

theorem OK.mm_M {g : Geo} (h : g.OK) (r : ℕ) : g.mm r = 0 ∨ r * g.m0 + g.mm r ≤ g.M := by
  rcases Nat.lt_trichotomy r g.mlast with hr | hr | hr
  · right
    have e1 : g.mm r = g.m0 := if_pos hr
    have := h.M
    have h2 : (r + 1) * g.m0 ≤ g.mlast * g.m0 := Nat.mul_le_mul_right _ hr
    rw [Nat.succ_mul] at h2
    omega
  · right
    subst hr
    have e1 : g.mm g.mlast = g.mp := by simp [mm]
    have := h.M
    omega
  · left
    unfold mm
    rw [if_neg (by omega), if_neg (by omega)]

theorem OK.ab_n {g : Geo} (h : g.OK) (hb : g.a > 1 ∨ g.uniform = true) : g.a * g.b * g.n0 ≤ g.N := by
  have h1 := h.blockn hb
  have := h.N
  split_ifs at h1 with hc
  · have := Nat.mul_le_mul_right g.n0 h1
    rw [Nat.succ_mul] at this
    omega
  · have := Nat.mul_le_mul_right g.n0 h1
    simp only [Nat.add_zero] at this
    omega

theorem OK.ab_m {g : Geo} (h : g.OK) (hb : g.a > 1 ∨ g.uniform = true) : g.a * g.b * g.m0 ≤ g.M := by
  have h1 := h.blockm hb
  have := h.M
  split_ifs at h1 with hc
  · have := Nat.mul_le_mul_right g.m0 h1
    rw [Nat.succ_mul] at this
    omega
  · have := Nat.mul_le_mul_right g.m0 h1
    simp only [Nat.add_zero] at this
    omega

theorem OK.ab_size {g : Geo} (h : g.OK) (hb : g.a > 1 ∨ g.uniform = true) : g.a * g.b ≤ g.size := by
  have h1 := h.blockn hb
  have := h.nlast
  split_ifs at h1 with hc <;> omega

/-- In the uniform case the dimensions are multiples of the number of processes. -/
theorem OK.uniform_M {g : Geo} (h : g.OK) (hu : g.uniform = true) : g.M = g.a * g.b * g.m0 := by
  have h1 := h.blockm (Or.inr hu)
  have h2 := h.uniform hu
  have h3 := h.mlast
  have := h.M
  split_ifs at h1 with hc
  · have : g.a * g.b = g.mlast + 1 := by omega
    rw [this, Nat.succ_mul]; omega
  · omega

theorem OK.uniform_N {g : Geo} (h : g.OK) (hu : g.uniform = true) : g.N = g.a * g.b * g.n0 := by
  have h1 := h.blockn (Or.inr hu)
  have h2 := h.uniform hu
  have h3 := h.nlast
  have := h.N
  split_ifs at h1 with hc
  · have : g.a * g.b = g.nlast + 1 := by omega
    rw [this, Nat.succ_mul]; omega
  · omega

/-- One dimension of the distribution. -/
theorem dim {N size0 : ℕ} (hN : 0 < N) (hs : 0 < size0) :
    let n0 := (Mpi.localdimension N 0 size0).n.toNat
    let nlast := min (ceilquotient N n0) size0 - 1
    let np := (Mpi.localdimension N nlast size0).n.toNat
    0 < n0 ∧ (0 < np ∧ np ≤ n0) ∧ N = nlast * n0 + np ∧ nlast < size0 ∧
    (∀ r, (Mpi.localdimension N r size0).n.toNat = if r < nlast then n0 else if r = nlast then np else 0) ∧
    ∀ r, (Mpi.localdimension N r size0).start.toNat = r * n0 := by
  intro n0 nlast np
  have e := fun r => Mpi.localdimension_eq N r size0
  have hcq := Mpi.cq_spec (a := N) hs
  have hc0 := Mpi.cq_pos hN hs
  have hn0 : n0 = ceilquotient N size0 := by
    have := (e 0).2
    show (Mpi.localdimension N 0 size0).n.toNat = _
    rw [this]
    have h1 : ceilquotient N size0 ≤ N := hcq.2 N (Nat.le_mul_of_pos_left _ hs)
    simp only [Nat.mul_zero, Nat.sub_zero, Int.toNat_natCast]
    omega
  rw [← hn0] at hcq hc0 e
  have hcl := Mpi.cq_spec (a := N) hc0
  have hcl0 := Mpi.cq_pos hN hc0
  have hle : ceilquotient N n0 ≤ size0 := hcl.2 size0 (by rw [Nat.mul_comm]; exact hcq.1)
  have hnl : nlast + 1 = ceilquotient N n0 := by
    show min (ceilquotient N n0) size0 - 1 + 1 = _
    omega
  rw [← hnl] at hcl
  have hlt : n0 * nlast < N := by
    by_contra hcon
    have := hcl.2 nlast (by omega)
    omega
  have hge := hcl.1
  rw [Nat.mul_succ] at hge
  have hld : ∀ r, (Mpi.localdimension N r size0).n.toNat = min n0 (N - n0 * r) := by
    intro r
    rw [(e r).2]
    exact Int.toNat_natCast _
  have hnp : np = N - n0 * nlast := by
    show (Mpi.localdimension N nlast size0).n.toNat = _
    rw [hld]; omega
  have hcm : nlast * n0 = n0 * nlast := Nat.mul_comm _ _
  refine ⟨hc0, ⟨by omega, by omega⟩, by omega, by omega, ?_, ?_⟩
  · intro r
    rw [hld]
    split_ifs with h1 h2
    · have h2 : n0 * (r + 1) ≤ n0 * nlast := Nat.mul_le_mul_left _ h1
      rw [Nat.mul_succ] at h2
      omega
    · subst h2; omega
    · have h3 : n0 * (nlast + 1) ≤ n0 * r := Nat.mul_le_mul_left _ (by omega)
      rw [Nat.mul_succ] at h3
      omega
  · intro r
    rw [(e r).1, Int.toNat_natCast, Nat.mul_comm]

/-- The objects built by the constructor. -/
theorem mk'_eq {N M L size0 optA alltoall : ℕ} (hN : 0 < N) (hM : 0 < M) (hs : 0 < size0) (ha : 1 ≤ optA) :
    ∃ g : Geo, g.OK ∧ g.N = N ∧ g.M = M ∧ g.L = L ∧ g.size ≤ size0 ∧ (∀ r < size0, MT.mk' N M L size0 r optA alltoall = g.mt r) ∧
      (g.compact = true → alltoall = 2) ∧
      ∀ r, (Mpi.localdimension N r size0).start.toNat = r * g.n0 ∧ (Mpi.localdimension M r size0).start.toNat = r * g.m0 ∧
        (Mpi.localdimension N r size0).n.toNat = g.nn r ∧ (Mpi.localdimension M r size0).n.toNat = g.mm r := by
  obtain ⟨n1, n2, n3, n4, n5, n6⟩ := dim hN hs
  obtain ⟨m1, m2, m3, m4, m5, m6⟩ := dim hM hs
  set n0 := (Mpi.localdimension N 0 size0).n.toNat with hn0
  set nlast := min (ceilquotient N n0) size0 - 1 with hnlast
  set np := (Mpi.localdimension N nlast size0).n.toNat with hnp
  set m0 := (Mpi.localdimension M 0 size0).n.toNat with hm0
  set mlast := min (ceilquotient M m0) size0 - 1 with hmlast
  set mp := (Mpi.localdimension M mlast size0).n.toNat with hmp
  by_cases h1 : size0 = 1
  · refine ⟨{ N, M, L, size := 1, n0, nlast, np, m0, mlast, mp, a := 1, b := 1, uniform := false, compact := false, schedule := false }, ?_, rfl, rfl, rfl,
      by simp only; omega, ?_, ?_, ?_⟩
    · exact ⟨n1, m1, n2, m2, n3, m3, by simp only; omega, by simp only; omega, le_rfl, by simp, by simp, by simp, by simp, by simp⟩
    · intro r _
      unfold MT.mk'
      rw [if_pos h1]
      simp only [mt, nn, mm]
      rw [← n5 r, ← m5 r]
      simp [hn0, hnlast, hnp, hm0, hmlast, hmp]
    · simp
    · intro r; exact ⟨n6 r, m6 r, n5 r, m5 r⟩
  · let Pbar := min (nlast + if n0 = np then 1 else 0) (mlast + if m0 = mp then 1 else 0)
    let size := max (nlast + 1) (mlast + 1)
    let U := divisible size M N
    let b0 := if optA > 1 ∨ U = true then Pbar / optA else Pbar + 1
    let ab : ℕ × ℕ := if b0 = 1 then (1, optA) else (optA, b0)
    have hprod : ab.1 * ab.2 = optA * b0 := by
      simp only [ab]
      split_ifs with h <;> simp [h]
    have hab : ab.1 > 1 ∨ U = true → ab.1 * ab.2 ≤ Pbar := by
      intro h
      rw [hprod]
      have hcond : optA > 1 ∨ U = true := by
        rcases h with h | h
        · left
          simp only [ab] at h
          split_ifs at h with hb
          · simp at h
          · exact h
        · exact Or.inr h
      simp only [b0, if_pos hcond]
      exact Nat.mul_div_le _ _
    let u : Bool := U && decide (ab.1 * ab.2 = size)
    let g : Geo := ⟨N, M, L, size, n0, nlast, np, m0, mlast, mp, ab.1, ab.2, u, u && decide (alltoall = 2),
      decide (alltoall = 0) || (!u && decide (ab.1 > 1))⟩
    refine ⟨g, ?_, rfl, rfl, rfl, by simp only [g, size]; omega, ?_, ?_, ?_⟩
    · refine ⟨n1, m1, n2, m2, n3, m3, by simp only [g, size]; omega, by simp only [g, size]; omega, ?_, ?_, ?_, ?_, ?_, ?_⟩
      · simp only [g, ab]
        split_ifs <;> simp [ha]
      · intro h
        have h' := hab (h.imp id fun h => by
          simp only [g, u, Bool.and_eq_true] at h
          exact h.1)
        exact h'.trans (Nat.min_le_left _ _)
      · intro h
        have h' := hab (h.imp id fun h => by
          simp only [g, u, Bool.and_eq_true] at h
          exact h.1)
        exact h'.trans (Nat.min_le_right _ _)
      · intro h
        simp only [g, u, Bool.and_eq_true, decide_eq_true_eq] at h
        exact h.2
      · intro h
        simp only [g, Bool.and_eq_true, decide_eq_true_eq] at h ⊢
        obtain ⟨h1, h3⟩ := h
        simp [h1, h3]
      · intro h h'
        simp only [g] at h h' ⊢
        rw [h]
        simp [h']
    · intro r _
      unfold MT.mk'
      rw [if_neg h1]
      simp only [mt, nn, mm, g]
      rw [← n5 r, ← m5 r]
    · intro h
      simp only [g, Bool.and_eq_true, decide_eq_true_eq] at h
      exact h.2
    · intro r; exact ⟨n6 r, m6 r, n5 r, m5 r⟩

end Geo
end Fftwpp.Net
