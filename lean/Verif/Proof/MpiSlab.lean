import Verif.Model.MpiConv3
import Verif.Proof.MpiConv6

/-!
# Transposes of slabs on the memories of the sequential model
-/

namespace Fftwpp
open Finset Net

/-- The words of a row held by process `r`: `part H P r` planes of `Z` words. -/
def wd (H Z P r : ℕ) : ℕ := part H P r * Z

/-- The first of them in the whole row. -/
def st (H Z P r : ℕ) : ℕ := first H P r * Z

/-- Room for a transpose in place. -/
def room3 (X Y H Z P r : ℕ) : ℕ := max (X * wd H Z P r) (part X P r * Y)

theorem st_lt {H Z P r c : ℕ} (hP : 0 < P) (hr : r < P) (hc : c < wd H Z P r) : st H Z P r + c < H * Z := by
  unfold wd at hc
  unfold st
  have hZ : 0 < Z := by
    rcases Nat.eq_zero_or_pos Z with rfl | h
    · simp at hc
    · exact h
  have h1 : c / Z < part H P r := Nat.div_lt_of_lt_mul (by rw [Nat.mul_comm]; exact hc)
  have h2 := first_lt hP hr h1
  rw [← Nat.div_add_mod c Z, ← Nat.add_assoc, Nat.mul_comm (first H P r), ← Nat.mul_add, Nat.mul_comm H]
  exact radix_lt (Nat.mod_lt _ hZ) h2

theorem wd_one (H Z : ℕ) : wd H Z 1 0 = H * Z := by unfold wd; rw [part_one]
theorem st_one (H Z : ℕ) : st H Z 1 0 = 0 := by unfold st; rw [first_one, Nat.zero_mul]

namespace Net
variable {e : Eager} {P : ℕ} {g : ℕ → Mem}

/-- Every process holds its planes of the `X` by `H*Z` array `G` at `q r`. -/
def Cols3 (X H Z P : ℕ) (g : ℕ → Mem) (q : ℕ → Ptr) (G : ℕ → ℕ → ℂ) : Prop :=
  ∀ r < P, ∀ i < X, ∀ j < wd H Z P r, (g r).val (q r + (wd H Z P r * i + j)) = G i (st H Z P r + j)

/-- Room for a transpose in place. -/
structure Room3 (X Y H Z P : ℕ) (g : ℕ → Mem) (q wrk : ℕ → Ptr) : Prop where
  q0 : ∀ r < P, 0 ≤ (q r).off
  qs : ∀ r < P, (q r).off + (room3 X Y H Z P r : ℕ) ≤ (g r).size (q r).buf
  w0 : ∀ r < P, 0 ≤ (wrk r).off
  ws : ∀ r < P, (wrk r).off + (part X P r * Y : ℕ) ≤ (g r).size (wrk r).buf
  ne : ∀ r < P, (q r).buf ≠ (wrk r).buf

theorem Room3.size {X Y H Z : ℕ} {g g' : ℕ → Mem} {q wrk : ℕ → Ptr} (h : Room3 X Y H Z P g q wrk) (hs : ∀ r < P, (g' r).size = (g r).size) :
    Room3 X Y H Z P g' q wrk :=
  ⟨h.q0, fun r hr => by rw [hs r hr]; exact h.qs r hr, h.w0, fun r hr => by rw [hs r hr]; exact h.ws r hr, h.ne⟩

theorem Room3.env {X Y H Z optA alltoall : ℕ} (hY : Y = H * Z) {q wrk : ℕ → Ptr} (h : Room3 X Y H Z P g q wrk) {σ : ℕ → Local ℂ}
    (hg : ∀ r < P, mmem (σ r) = g r) (hr : ∀ r < P, ∀ id, (σ r).req id = none) (hb : Balanced P σ) :
    TransposeEnv X H Z P optA alltoall (fun r => (q r).loc) (fun r => (q r).loc) (fun r => (wrk r).loc) σ := by
  have hsz : ∀ r < P, ∀ b, (g r).size b = (σ r).size (2 * b) := fun r hr b => by rw [← hg r hr]; rfl
  have hq : ∀ r < P, (q r).loc.off + room3 X Y H Z P r ≤ (σ r).size (q r).loc.buf := by
    intro r hr
    have h1 := h.qs r hr
    have h0 := h.q0 r hr
    rw [hsz r hr] at h1
    rw [Ptr.loc_of h0]
    simp only
    omega
  refine ⟨fun r hr => ?_, fun r hr => ?_, fun r hr => ?_, fun r hr => ?_, fun r hr => ?_, fun r _ => Or.inl rfl, fun r _ _ => rfl, hr, hb⟩
  · rw [Nat.mul_assoc, ← hY]; exact (Nat.add_le_add_left (le_max_right _ _) _).trans (hq r hr)
  · rw [Nat.mul_assoc]; exact (Nat.add_le_add_left (le_max_left _ _) _).trans (hq r hr)
  · rw [Nat.mul_assoc, ← hY]
    have h1 := h.ws r hr
    have h0 := h.w0 r hr
    rw [hsz r hr] at h1
    rw [Ptr.loc_of h0]
    simp only
    omega
  all_goals
    have := h.ne r hr
    rw [Ptr.loc_of (h.q0 r hr), Ptr.loc_of (h.w0 r hr)]
    simp only
    omega

theorem cols3_to {X H Z : ℕ} {s : St ℂ} {q : ℕ → Ptr} {G : ℕ → ℕ → ℂ} (hg : ∀ r < P, mmem (s r).loc = g r) (hq : ∀ r < P, 0 ≤ (q r).off)
    (h : Cols3 X H Z P g q G) : HoldsCols X H Z P (fun i j l => G i (j * Z + l)) (fun r => (q r).loc) fun r => (s r).loc := by
  intro r hr i hi j hj l hl
  have hlt : j * Z + l < wd H Z P r := by unfold wd; rw [Nat.mul_comm j, Nat.mul_comm (part H P r)]; exact radix_lt hl hj
  have h1 := h r hr i hi (j * Z + l) hlt
  rw [← hg r hr] at h1
  have e1 : ((i * part H P r + j) * Z + l) = wd H Z P r * i + (j * Z + l) := by unfold wd; ring
  have e2 : (first H P r + j) * Z + l = st H Z P r + (j * Z + l) := by unfold st; ring
  beta_reduce
  rw [e1, e2, ← Ptr.loc_add (hq r hr)]
  exact h1

theorem cols3_of {X H Z : ℕ} {s : St ℂ} {q : ℕ → Ptr} {G : ℕ → ℕ → ℂ} (hq : ∀ r < P, 0 ≤ (q r).off)
    (h : HoldsCols X H Z P (fun i j l => G i (j * Z + l)) (fun r => (q r).loc) fun r => (s r).loc) :
    Cols3 X H Z P (fun r => mmem (s r).loc) q G := by
  intro r hr i hi c hc
  have hZ : 0 < Z := by
    rcases Nat.eq_zero_or_pos Z with rfl | h
    · simp [wd] at hc
    · exact h
  have h1 := h r hr i hi (c / Z) (Nat.div_lt_of_lt_mul (by rw [Nat.mul_comm]; exact hc)) (c % Z) (Nat.mod_lt _ hZ)
  have hcz : c / Z * Z + c % Z = c := Nat.div_add_mod' c Z
  have e1 : ((i * part H P r + c / Z) * Z + c % Z) = wd H Z P r * i + c := by
    rw [Nat.add_mul, Nat.add_assoc, hcz]; unfold wd; ring
  have e2 : (first H P r + c / Z) * Z + c % Z = st H Z P r + c := by
    rw [Nat.add_mul, Nat.add_assoc, hcz]; rfl
  beta_reduce at h1
  rw [e1, e2, ← Ptr.loc_add (hq r hr)] at h1
  exact h1

theorem rows3_to {X Y H Z : ℕ} (hY : Y = H * Z) {s : St ℂ} {q : ℕ → Ptr} {G : ℕ → ℕ → ℂ} (hg : ∀ r < P, mmem (s r).loc = g r) (hq : ∀ r < P, 0 ≤ (q r).off)
    (h : Rows X Y P g q G) : HoldsRows X H Z P (fun i j l => G i (j * Z + l)) (fun r => (q r).loc) fun r => (s r).loc := by
  intro r hr i hi j hj l hl
  have hlt : j * Z + l < Y := by rw [hY, Nat.mul_comm j, Nat.mul_comm H]; exact radix_lt hl hj
  have h1 := h r hr i hi (j * Z + l) hlt
  rw [← hg r hr] at h1
  have e1 : ((i * H + j) * Z + l) = Y * i + (j * Z + l) := by rw [hY]; ring
  beta_reduce
  rw [e1, ← Ptr.loc_add (hq r hr)]
  exact h1

theorem rows3_of {X Y H Z : ℕ} (hY : Y = H * Z) {s : St ℂ} {q : ℕ → Ptr} {G : ℕ → ℕ → ℂ} (hq : ∀ r < P, 0 ≤ (q r).off)
    (h : HoldsRows X H Z P (fun i j l => G i (j * Z + l)) (fun r => (q r).loc) fun r => (s r).loc) :
    Rows X Y P (fun r => mmem (s r).loc) q G := by
  intro r hr i hi c hc
  have hZ : 0 < Z := by
    rcases Nat.eq_zero_or_pos Z with rfl | h
    · simp [hY] at hc
    · exact h
  have h1 := h r hr i hi (c / Z) (Nat.div_lt_of_lt_mul (by rw [Nat.mul_comm, ← hY]; exact hc)) (c % Z) (Nat.mod_lt _ hZ)
  have hcz : c / Z * Z + c % Z = c := Nat.div_add_mod' c Z
  have e1 : ((i * H + c / Z) * Z + c % Z) = Y * i + c := by
    rw [Nat.add_mul, Nat.add_assoc, hcz, hY]; ring
  beta_reduce at h1
  rw [e1, hcz, ← Ptr.loc_add (hq r hr)] at h1
  exact h1

theorem NOk.localize13 {X Y H Z optA alltoall : ℕ} (hX : 0 < X) (hH : 0 < H) (hY : Y = H * Z) (hP : 0 < P) (ha : 1 ≤ optA) {q wrk : ℕ → Ptr} {G : ℕ → ℕ → ℂ}
    (hrm : Room3 X Y H Z P g q wrk) (hG : Cols3 X H Z P g q G) :
    NOk e P (fun r => (MT.mk' X H Z P r optA alltoall).localize1 (q r).loc (q r).loc (wrk r).loc) g fun g' =>
      Rows X Y P g' q G ∧ ∀ r < P, (g r).Upd (g' r) (fun p => p.buf = (q r).buf ∨ p.buf = (wrk r).buf) := by
  intro s k hq hg
  obtain ⟨t, t1, t2, t3, t4, t5⟩ := localize1_step (e := e) (optA := optA) (alltoall := alltoall) hX hH hP ha (G := fun i j l => G i (j * Z + l))
    (hrm.env hY (σ := fun r => (s r).loc) hg hq.req hq.bal) hq (cols3_to hg hrm.q0 hG)
  exact ⟨t, t1, t2, t3, fun r => mmem (t r).loc, fun _ _ => rfl, rows3_of hY hrm.q0 t4, upd_of_loc hg t3 t5⟩

theorem NOk.localize03 {X Y H Z optA alltoall : ℕ} (hX : 0 < X) (hH : 0 < H) (hY : Y = H * Z) (hP : 0 < P) (ha : 1 ≤ optA) {q wrk : ℕ → Ptr} {G : ℕ → ℕ → ℂ}
    (hrm : Room3 X Y H Z P g q wrk) (hG : Rows X Y P g q G) :
    NOk e P (fun r => (MT.mk' X H Z P r optA alltoall).localize0 (q r).loc (q r).loc (wrk r).loc) g fun g' =>
      Cols3 X H Z P g' q G ∧ ∀ r < P, (g r).Upd (g' r) (fun p => p.buf = (q r).buf ∨ p.buf = (wrk r).buf) := by
  intro s k hq hg
  obtain ⟨t, t1, t2, t3, t4, t5⟩ := localize0_step (e := e) (optA := optA) (alltoall := alltoall) hX hH hP ha (G := fun i j l => G i (j * Z + l))
    (hrm.env hY (σ := fun r => (s r).loc) hg hq.req hq.bal) hq (rows3_to hY hg hrm.q0 hG)
  exact ⟨t, t1, t2, t3, fun r => mmem (t r).loc, fun _ _ => rfl, cols3_of hrm.q0 t4, upd_of_loc hg t3 t5⟩

end Net
end Fftwpp
