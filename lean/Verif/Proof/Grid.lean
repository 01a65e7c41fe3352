import Verif.Proof.Comm
import Verif.Proof.MpiFft2

/-!
# Transposes on the rows and columns of a grid of processes
-/

namespace Fftwpp.Net
variable {V : Type}

theorem rankOf_lt {world size : ℕ} {f : ℕ → ℕ} {r : ℕ} (h : r < size) : rankOf world size f r = f r := if_pos h

theorem rankOf_ge {world size : ℕ} {f : ℕ → ℕ} {r : ℕ} (h : size ≤ r) : rankOf world size f r = world + r := if_neg (by omega)

theorem rankOf_inj {world size : ℕ} {f : ℕ → ℕ} (hf : ∀ r < size, ∀ r' < size, f r = f r' → r = r') (hw : ∀ r < size, f r < world) :
    Function.Injective (rankOf world size f) := by
  intro a b h
  by_cases ha : a < size
  · by_cases hb : b < size
    · rw [rankOf_lt ha, rankOf_lt hb] at h; exact hf a ha b hb h
    · rw [rankOf_lt ha, rankOf_ge (by omega)] at h
      have := hw a ha
      omega
  · by_cases hb : b < size
    · rw [rankOf_ge (by omega), rankOf_lt hb] at h
      have := hw b hb
      omega
    · rw [rankOf_ge (by omega), rankOf_ge (by omega)] at h; omega

/-- The processes of column `p` of the grid. -/
def colComm (Px Py p : ℕ) : ℕ → ℕ := rankOf (Px * Py) Px fun q => q * Py + p
/-- The processes of row `q` of the grid. -/
def rowComm (Px Py q : ℕ) : ℕ → ℕ := rankOf (Px * Py) Py fun p => q * Py + p

theorem grid_lt {Px Py q p : ℕ} (hq : q < Px) (hp : p < Py) : q * Py + p < Px * Py := rad_lt hp hq

theorem grid_div {Py q p : ℕ} (hp : p < Py) : (q * Py + p) / Py = q := by
  rw [mul_comm, Nat.mul_add_div (by omega), Nat.div_eq_of_lt hp, Nat.add_zero]

theorem grid_mod {Py q p : ℕ} (hp : p < Py) : (q * Py + p) % Py = p := by
  rw [Nat.mul_add_mod', Nat.mod_eq_of_lt hp]

theorem grid_eq (Py r : ℕ) : r / Py * Py + r % Py = r := by rw [mul_comm]; exact Nat.div_add_mod r Py

theorem grid_cols {Px Py : ℕ} (hPy : 0 < Py) : Groups (Px * Py) Py Px (fun p => colComm Px Py (p % Py)) where
  inj p := rankOf_inj (fun r _ r' _ h => Nat.eq_of_mul_eq_mul_right hPy (Nat.add_right_cancel h)) fun r hr => grid_lt hr (Nat.mod_lt _ hPy)
  lt p _ r hr := by simp only [colComm, rankOf_lt hr]; exact grid_lt hr (Nat.mod_lt _ hPy)
  ge p r hr := by simp only [colComm, rankOf_ge hr]; omega
  cover i hi := ⟨i % Py, Nat.mod_lt _ hPy, i / Py, (Nat.div_lt_iff_lt_mul hPy).2 hi, by
    simp only [colComm, rankOf_lt ((Nat.div_lt_iff_lt_mul hPy).2 hi), Nat.mod_mod]; exact grid_eq Py i⟩
  disj p hp r hr p' hp' r' hr' h := by
    simp only [colComm, rankOf_lt hr, rankOf_lt hr', Nat.mod_eq_of_lt hp, Nat.mod_eq_of_lt hp'] at h
    have := congrArg (· / Py) h
    have h2 := congrArg (· % Py) h
    simp only [grid_div hp, grid_div hp', grid_mod hp, grid_mod hp'] at this h2
    exact ⟨h2, this⟩

theorem grid_rows {Px Py : ℕ} (hPx : 0 < Px) (hPy : 0 < Py) : Groups (Px * Py) Px Py (fun q => rowComm Px Py (q % Px)) where
  inj q := rankOf_inj (fun r _ r' _ h => by omega) fun r hr => grid_lt (Nat.mod_lt _ hPx) hr
  lt q _ r hr := by simp only [rowComm, rankOf_lt hr]; exact grid_lt (Nat.mod_lt _ hPx) hr
  ge q r hr := by simp only [rowComm, rankOf_ge hr]; omega
  cover i hi := ⟨i / Py, (Nat.div_lt_iff_lt_mul hPy).2 hi, i % Py, Nat.mod_lt _ hPy, by
    simp only [rowComm, rankOf_lt (Nat.mod_lt i hPy), Nat.mod_eq_of_lt ((Nat.div_lt_iff_lt_mul hPy).2 hi)]; exact grid_eq Py i⟩
  disj p hp r hr p' hp' r' hr' h := by
    simp only [rowComm, rankOf_lt hr, rankOf_lt hr', Nat.mod_eq_of_lt hp, Nat.mod_eq_of_lt hp'] at h
    have := congrArg (· / Py) h
    have h2 := congrArg (· % Py) h
    simp only [grid_div hr, grid_div hr', grid_mod hr, grid_mod hr'] at this h2
    exact ⟨this, h2⟩

/-- Each process `r < Q` holds the part of `G` (third index counted in words, `c` per point) that has `x`, `y` in its local ranges:
`x × y × Z` points, at `buf r` (mpi/mpigroup.h:105). -/
def HoldsXY (Q : ℕ) (d : ℕ → Split3) (c : ℕ) (G : ℕ → ℕ → ℕ → V) (buf : ℕ → Loc) (σ : ℕ → Local V) : Prop :=
  ∀ r < Q, ∀ i < (d r).xy.x, ∀ j < (d r).yz.x, ∀ l < (d r).Z * c,
    (σ r).mem (buf r + ((i * (d r).yz.x + j) * ((d r).Z * c) + l)) = G ((d r).xy.x0 + i) ((d r).yz.x0 + j) l

/-- The same for the ranges of `x` and `z`: `x × Y × z` points (mpi/mpigroup.h:106). -/
def HoldsXZ (Q : ℕ) (d : ℕ → Split3) (c : ℕ) (G : ℕ → ℕ → ℕ → V) (buf : ℕ → Loc) (σ : ℕ → Local V) : Prop :=
  ∀ r < Q, ∀ i < (d r).xy.x, ∀ j < (d r).Y, ∀ l < (d r).yz.y * c,
    (σ r).mem (buf r + ((i * (d r).Y + j) * ((d r).yz.y * c) + l)) = G ((d r).xy.x0 + i) j ((d r).yz.y0 * c + l)

/-- The same for the ranges of `y` and `z`: `X × y × z` points (mpi/mpigroup.h:107). -/
def HoldsYZ (Q : ℕ) (d : ℕ → Split3) (c : ℕ) (G : ℕ → ℕ → ℕ → V) (buf : ℕ → Loc) (σ : ℕ → Local V) : Prop :=
  ∀ r < Q, ∀ i < (d r).X, ∀ j < (d r).xy.y, ∀ l < (d r).yz.y * c,
    (σ r).mem (buf r + ((i * (d r).xy.y + j) * ((d r).yz.y * c) + l)) = G i ((d r).xy.y0 + j) ((d r).yz.y0 * c + l)

/-- mpi/mpigroup.h:139-140: `n=max(xy.n*z,x*n2)` points. -/
def Split3.n (d : Split3) : ℕ := max (max (d.X * d.xy.y) (d.xy.x * d.Y) * d.yz.y) (d.xy.x * max (d.Y * d.yz.y) (d.yz.x * d.Z))

/-- The array and the work array of a transpose in a grid. -/
structure GridBufs (Q : ℕ) (out wrk : ℕ → Loc) (n wn : ℕ → ℕ) (size : ℕ → ℕ → ℕ) : Prop where
  outSize : ∀ r < Q, (out r).off + n r ≤ size r (out r).buf
  wrkSize : ∀ r < Q, (wrk r).off + wn r ≤ size r (wrk r).buf
  outwrk : ∀ r < Q, (out r).buf ≠ (wrk r).buf

/-- Room for both sides of the xy transpose. -/
def Split3.nxy (d : Split3) (c : ℕ) : ℕ := max (d.X * d.xy.y) (d.xy.x * d.Y) * (d.yz.y * c)

theorem txy0_step {e : Eager} {X Y Z Px Py c optA alltoall : ℕ} {d : ℕ → Split3} (hX : 0 < X) (hY : 0 < Y) (hPx : 0 < Px) (hPy : 0 < Py) (ha : 1 ≤ optA)
    (hd : ∀ r < Px * Py, d r = mkSplit3 X Y Z (r / Py) Px (r % Py) Py) {G : ℕ → ℕ → ℕ → V} {out wrk : ℕ → Loc} {s : St V} {k : ℕ → Prog V Unit} {cx : ℕ → ℕ}
    (hcx : Function.Injective cx)
    (hb : GridBufs (Px * Py) out wrk (fun r => (d r).nxy c) (fun r => (d r).xy.x * Y * ((d r).yz.y * c)) fun r => (s r).loc.size)
    (hq : Quiet (Px * Py) (fun r => (((MT.mk' X Y ((d r).yz.y * c) Px (r / Py) optA alltoall).localize0 (out r) (out r) (wrk r)).on (colComm Px Py (r % Py)) cx).bind
      fun _ => k r) s)
    (hG : HoldsXZ (Px * Py) d c G out fun r => (s r).loc) :
    ∃ t, Steps e s t ∧ Quiet (Px * Py) k t ∧ (∀ r, (t r).loc.size = (s r).loc.size) ∧ HoldsYZ (Px * Py) d c G out (fun r => (t r).loc) ∧
      ∀ r < Px * Py, ∀ a, ¬ (Region.mk (out r) ((d r).nxy c)).has a → ¬ (Region.mk (wrk r) ((d r).xy.x * Y * ((d r).yz.y * c))).has a →
        (t r).loc.mem a = (s r).loc.mem a := by
  have dm : ∀ p < Py, ∀ q < Px, d (q * Py + p) = mkSplit3 X Y Z q Px p Py := fun p hp q hq => by
    rw [hd _ (grid_lt hq hp), grid_div hp, grid_mod hp]
  have fe : ∀ p < Py, ∀ q < Px, colComm Px Py (p % Py) q = q * Py + p := fun p hp q hq => by simp only [colComm, rankOf_lt hq, Nat.mod_eq_of_lt hp]
  obtain ⟨t, t1, t2, t3, t4⟩ := groups_step (grid_cols (Px := Px) hPy) hcx (e := e) (k := k) hq
    (x := fun p q => (MT.mk' X Y (part Z Py p * c) Px q optA alltoall).localize0 (out (q * Py + p)) (out (q * Py + p)) (wrk (q * Py + p)))
    (by
      intro p hp q hq
      rw [fe p hp q hq]
      simp only [grid_div hp, grid_mod hp, dm p hp q hq, Nat.mod_eq_of_lt hp]
      rfl)
    (R := fun p m => (∀ q < Px, ∀ i < X, ∀ j < part Y Px q, ∀ l < part Z Py p * c,
        m q (out (q * Py + p) + ((i * part Y Px q + j) * (part Z Py p * c) + l)) = G i (first Y Px q + j) (first Z Py p * c + l)) ∧
      ∀ q < Px, ∀ a, ¬ (Region.mk (out (q * Py + p)) ((d (q * Py + p)).nxy c)).has a →
        ¬ (Region.mk (wrk (q * Py + p)) ((d (q * Py + p)).xy.x * Y * ((d (q * Py + p)).yz.y * c))).has a → m q a = (s (q * Py + p)).loc.mem a)
    (by
      rintro p m m' hmm ⟨h1, h2⟩
      exact ⟨fun q hq => by rw [← hmm q hq]; exact h1 q hq, fun q hq => by rw [← hmm q hq]; exact h2 q hq⟩)
    (by
      intro p hp e' S hS hSs
      have hSs' : ∀ q < Px, (S q).loc.mem = (s (q * Py + p)).loc.mem ∧ (S q).loc.size = (s (q * Py + p)).loc.size := fun q hq => by
        have := hSs q hq
        simp only [fe p hp q hq] at this
        exact this
      have h1 : ∀ q < Px, X * part Y Px q * (part Z Py p * c) ≤ (d (q * Py + p)).nxy c := fun q hq => by
        rw [dm p hp q hq]; exact Nat.mul_le_mul_right _ (le_max_left _ _)
      have h2 : ∀ q < Px, part X Px q * Y * (part Z Py p * c) ≤ (d (q * Py + p)).nxy c := fun q hq => by
        rw [dm p hp q hq]; exact Nat.mul_le_mul_right _ (le_max_right _ _)
      have h3 : ∀ q < Px, part X Px q * Y * (part Z Py p * c) = (d (q * Py + p)).xy.x * Y * ((d (q * Py + p)).yz.y * c) := fun q hq => by
        rw [dm p hp q hq]; rfl
      obtain ⟨T, T1, T2, T3, T4, T5⟩ := localize0_step (e := e') (L := part Z Py p * c) (alltoall := alltoall) hX hY hPx ha
        (G := fun i j l => G i j (first Z Py p * c + l)) (rows := fun q => out (q * Py + p)) (cols := fun q => out (q * Py + p))
        (wrk := fun q => wrk (q * Py + p)) (s := S) (k := fun _ => .ret ())
        { rowsSize := fun q hq => by
            rw [(hSs' q hq).2]
            exact (Nat.add_le_add_left (h2 q hq) _).trans (hb.outSize _ (grid_lt hq hp))
          colsSize := fun q hq => by
            rw [(hSs' q hq).2]
            exact (Nat.add_le_add_left (h1 q hq) _).trans (hb.outSize _ (grid_lt hq hp))
          wrkSize := fun q hq => by
            rw [(hSs' q hq).2, h3 q hq]
            exact hb.wrkSize _ (grid_lt hq hp)
          rowswrk := fun q hq => hb.outwrk _ (grid_lt hq hp)
          colswrk := fun q hq => hb.outwrk _ (grid_lt hq hp)
          same := fun q _ => Or.inl rfl
          compact := fun q _ _ => rfl
          req := hS.req
          bal := hS.bal }
        ⟨fun q hq => by rw [hS.prog q hq, Geo.bind_ret], hS.done, hS.req, hS.bal⟩
        (by
          intro q hq i hi j hj l hl
          have := hG (q * Py + p) (grid_lt hq hp)
          rw [dm p hp q hq] at this
          simp only
          rw [(hSs' q hq).1]
          exact this i hi j hj l hl)
      refine ⟨T, T1, T2, T3, fun q hq i hi j hj l hl => T4 q hq i hi j hj l hl, fun q hq a h4 h5 => ?_⟩
      beta_reduce
      rw [T5 q hq a (fun hh => h4 (has_mono (h1 q hq) hh)) (by rw [h3 q hq]; exact h5), (hSs' q hq).1])
  refine ⟨t, t1, t2, t3, fun r hr i hi j hj l hl => ?_, fun r hr a h1 h2 => ?_⟩
  · have hq' : r / Py < Px := (Nat.div_lt_iff_lt_mul hPy).2 hr
    have hp' : r % Py < Py := Nat.mod_lt _ hPy
    rw [hd r hr] at hi hj hl ⊢
    have := (t4 (r % Py) hp').1 (r / Py) hq' i hi j hj l hl
    beta_reduce at this
    rw [fe _ hp' _ hq', grid_eq] at this
    exact this
  · have hq' : r / Py < Px := (Nat.div_lt_iff_lt_mul hPy).2 hr
    have hp' : r % Py < Py := Nat.mod_lt _ hPy
    have := (t4 (r % Py) hp').2 (r / Py) hq' a
    beta_reduce at this
    rw [fe _ hp' _ hq', grid_eq] at this
    exact this h1 h2

theorem txy1_step {e : Eager} {X Y Z Px Py c optA alltoall : ℕ} {d : ℕ → Split3} (hX : 0 < X) (hY : 0 < Y) (hPx : 0 < Px) (hPy : 0 < Py) (ha : 1 ≤ optA)
    (hd : ∀ r < Px * Py, d r = mkSplit3 X Y Z (r / Py) Px (r % Py) Py) {G : ℕ → ℕ → ℕ → V} {out wrk : ℕ → Loc} {s : St V} {k : ℕ → Prog V Unit} {cx : ℕ → ℕ}
    (hcx : Function.Injective cx)
    (hb : GridBufs (Px * Py) out wrk (fun r => (d r).nxy c) (fun r => (d r).xy.x * Y * ((d r).yz.y * c)) fun r => (s r).loc.size)
    (hq : Quiet (Px * Py) (fun r => (((MT.mk' X Y ((d r).yz.y * c) Px (r / Py) optA alltoall).localize1 (out r) (out r) (wrk r)).on (colComm Px Py (r % Py)) cx).bind
      fun _ => k r) s)
    (hG : HoldsYZ (Px * Py) d c G out fun r => (s r).loc) :
    ∃ t, Steps e s t ∧ Quiet (Px * Py) k t ∧ (∀ r, (t r).loc.size = (s r).loc.size) ∧ HoldsXZ (Px * Py) d c G out (fun r => (t r).loc) ∧
      ∀ r < Px * Py, ∀ a, ¬ (Region.mk (out r) ((d r).nxy c)).has a → ¬ (Region.mk (wrk r) ((d r).xy.x * Y * ((d r).yz.y * c))).has a →
        (t r).loc.mem a = (s r).loc.mem a := by
  have dm : ∀ p < Py, ∀ q < Px, d (q * Py + p) = mkSplit3 X Y Z q Px p Py := fun p hp q hq => by
    rw [hd _ (grid_lt hq hp), grid_div hp, grid_mod hp]
  have fe : ∀ p < Py, ∀ q < Px, colComm Px Py (p % Py) q = q * Py + p := fun p hp q hq => by simp only [colComm, rankOf_lt hq, Nat.mod_eq_of_lt hp]
  obtain ⟨t, t1, t2, t3, t4⟩ := groups_step (grid_cols (Px := Px) hPy) hcx (e := e) (k := k) hq
    (x := fun p q => (MT.mk' X Y (part Z Py p * c) Px q optA alltoall).localize1 (out (q * Py + p)) (out (q * Py + p)) (wrk (q * Py + p)))
    (by
      intro p hp q hq
      rw [fe p hp q hq]
      simp only [grid_div hp, grid_mod hp, dm p hp q hq, Nat.mod_eq_of_lt hp]
      rfl)
    (R := fun p m => (∀ q < Px, ∀ i < part X Px q, ∀ j < Y, ∀ l < part Z Py p * c,
        m q (out (q * Py + p) + ((i * Y + j) * (part Z Py p * c) + l)) = G (first X Px q + i) j (first Z Py p * c + l)) ∧
      ∀ q < Px, ∀ a, ¬ (Region.mk (out (q * Py + p)) ((d (q * Py + p)).nxy c)).has a →
        ¬ (Region.mk (wrk (q * Py + p)) ((d (q * Py + p)).xy.x * Y * ((d (q * Py + p)).yz.y * c))).has a → m q a = (s (q * Py + p)).loc.mem a)
    (by
      rintro p m m' hmm ⟨h1, h2⟩
      exact ⟨fun q hq => by rw [← hmm q hq]; exact h1 q hq, fun q hq => by rw [← hmm q hq]; exact h2 q hq⟩)
    (by
      intro p hp e' S hS hSs
      have hSs' : ∀ q < Px, (S q).loc.mem = (s (q * Py + p)).loc.mem ∧ (S q).loc.size = (s (q * Py + p)).loc.size := fun q hq => by
        have := hSs q hq
        simp only [fe p hp q hq] at this
        exact this
      have h1 : ∀ q < Px, X * part Y Px q * (part Z Py p * c) ≤ (d (q * Py + p)).nxy c := fun q hq => by
        rw [dm p hp q hq]; exact Nat.mul_le_mul_right _ (le_max_left _ _)
      have h2 : ∀ q < Px, part X Px q * Y * (part Z Py p * c) ≤ (d (q * Py + p)).nxy c := fun q hq => by
        rw [dm p hp q hq]; exact Nat.mul_le_mul_right _ (le_max_right _ _)
      have h3 : ∀ q < Px, part X Px q * Y * (part Z Py p * c) = (d (q * Py + p)).xy.x * Y * ((d (q * Py + p)).yz.y * c) := fun q hq => by
        rw [dm p hp q hq]; rfl
      obtain ⟨T, T1, T2, T3, T4, T5⟩ := localize1_step (e := e') (L := part Z Py p * c) (alltoall := alltoall) hX hY hPx ha
        (G := fun i j l => G i j (first Z Py p * c + l)) (rows := fun q => out (q * Py + p)) (cols := fun q => out (q * Py + p))
        (wrk := fun q => wrk (q * Py + p)) (s := S) (k := fun _ => .ret ())
        { rowsSize := fun q hq => by
            rw [(hSs' q hq).2]
            exact (Nat.add_le_add_left (h2 q hq) _).trans (hb.outSize _ (grid_lt hq hp))
          colsSize := fun q hq => by
            rw [(hSs' q hq).2]
            exact (Nat.add_le_add_left (h1 q hq) _).trans (hb.outSize _ (grid_lt hq hp))
          wrkSize := fun q hq => by
            rw [(hSs' q hq).2, h3 q hq]
            exact hb.wrkSize _ (grid_lt hq hp)
          rowswrk := fun q hq => hb.outwrk _ (grid_lt hq hp)
          colswrk := fun q hq => hb.outwrk _ (grid_lt hq hp)
          same := fun q _ => Or.inl rfl
          compact := fun q _ _ => rfl
          req := hS.req
          bal := hS.bal }
        ⟨fun q hq => by rw [hS.prog q hq, Geo.bind_ret], hS.done, hS.req, hS.bal⟩
        (by
          intro q hq i hi j hj l hl
          have := hG (q * Py + p) (grid_lt hq hp)
          rw [dm p hp q hq] at this
          simp only
          rw [(hSs' q hq).1]
          exact this i hi j hj l hl)
      refine ⟨T, T1, T2, T3, fun q hq i hi j hj l hl => T4 q hq i hi j hj l hl, fun q hq a h4 h5 => ?_⟩
      beta_reduce
      rw [T5 q hq a (fun hh => h4 (has_mono (h2 q hq) hh)) (by rw [h3 q hq]; exact h5), (hSs' q hq).1])
  refine ⟨t, t1, t2, t3, fun r hr i hi j hj l hl => ?_, fun r hr a h1 h2 => ?_⟩
  · have hq' : r / Py < Px := (Nat.div_lt_iff_lt_mul hPy).2 hr
    have hp' : r % Py < Py := Nat.mod_lt _ hPy
    rw [hd r hr] at hi hj hl ⊢
    have := (t4 (r % Py) hp').1 (r / Py) hq' i hi j hj l hl
    beta_reduce at this
    rw [fe _ hp' _ hq', grid_eq] at this
    exact this
  · have hq' : r / Py < Px := (Nat.div_lt_iff_lt_mul hPy).2 hr
    have hp' : r % Py < Py := Nat.mod_lt _ hPy
    have := (t4 (r % Py) hp').2 (r / Py) hq' a
    beta_reduce at this
    rw [fe _ hp' _ hq', grid_eq] at this
    exact this h1 h2

/-- Room for both sides of the yz transpose. -/
def Split3.nyz (d : Split3) (c : ℕ) : ℕ := max (d.Y * d.yz.y) (d.yz.x * d.Z) * c

theorem tyz0_step {e : Eager} {X Y Z Px Py c optA alltoall : ℕ} {d : ℕ → Split3} (hY : 0 < Y) (hZ : 0 < Z) (hPx : 0 < Px) (hPy : 0 < Py) (ha : 1 ≤ optA)
    (hd : ∀ r < Px * Py, d r = mkSplit3 X Y Z (r / Py) Px (r % Py) Py) (h1x : ∀ r < Px * Py, (d r).xy.x = 1) {G : ℕ → ℕ → ℕ → V} {out wrk : ℕ → Loc} {s : St V}
    {k : ℕ → Prog V Unit} {cx : ℕ → ℕ} (hcx : Function.Injective cx)
    (hb : GridBufs (Px * Py) out wrk (fun r => (d r).nyz c) (fun r => (d r).yz.x * Z * c) fun r => (s r).loc.size)
    (hq : Quiet (Px * Py) (fun r => (((MT.mk' Y Z c Py (r % Py) optA alltoall).localize0 (out r) (out r) (wrk r)).on (rowComm Px Py (r / Py)) cx).bind
      fun _ => k r) s)
    (hG : HoldsXY (Px * Py) d c G out fun r => (s r).loc) :
    ∃ t, Steps e s t ∧ Quiet (Px * Py) k t ∧ (∀ r, (t r).loc.size = (s r).loc.size) ∧ HoldsXZ (Px * Py) d c G out (fun r => (t r).loc) ∧
      ∀ r < Px * Py, ∀ a, ¬ (Region.mk (out r) ((d r).nyz c)).has a → ¬ (Region.mk (wrk r) ((d r).yz.x * Z * c)).has a →
        (t r).loc.mem a = (s r).loc.mem a := by
  have dm : ∀ q < Px, ∀ p < Py, d (q * Py + p) = mkSplit3 X Y Z q Px p Py := fun q hq p hp => by
    rw [hd _ (grid_lt hq hp), grid_div hp, grid_mod hp]
  have fe : ∀ q < Px, ∀ p < Py, rowComm Px Py (q % Px) p = q * Py + p := fun q hq p hp => by simp only [rowComm, rankOf_lt hp, Nat.mod_eq_of_lt hq]
  obtain ⟨t, t1, t2, t3, t4⟩ := groups_step (grid_rows (Px := Px) hPx hPy) hcx (e := e) (k := k) hq
    (x := fun q p => (MT.mk' Y Z c Py p optA alltoall).localize0 (out (q * Py + p)) (out (q * Py + p)) (wrk (q * Py + p)))
    (by
      intro q hq p hp
      rw [fe q hq p hp]
      simp only [grid_div hp, grid_mod hp, Nat.mod_eq_of_lt hq])
    (R := fun q m => (∀ p < Py, ∀ j < Y, ∀ k < part Z Py p, ∀ l < c, m p (out (q * Py + p) + ((j * part Z Py p + k) * c + l)) = G (first X Px q) j ((first Z Py p + k) * c + l)) ∧
      ∀ p < Py, ∀ a, ¬ (Region.mk (out (q * Py + p)) ((d (q * Py + p)).nyz c)).has a →
        ¬ (Region.mk (wrk (q * Py + p)) ((d (q * Py + p)).yz.x * Z * c)).has a → m p a = (s (q * Py + p)).loc.mem a)
    (by
      rintro q m m' hmm ⟨h1, h2⟩
      exact ⟨fun p hp => by rw [← hmm p hp]; exact h1 p hp, fun p hp => by rw [← hmm p hp]; exact h2 p hp⟩)
    (by
      intro q hq e' S hS hSs
      have hSs' : ∀ p < Py, (S p).loc.mem = (s (q * Py + p)).loc.mem ∧ (S p).loc.size = (s (q * Py + p)).loc.size := fun p hp => by
        have := hSs p hp
        simp only [fe q hq p hp] at this
        exact this
      have h1 : ∀ p < Py, Y * part Z Py p * c ≤ (d (q * Py + p)).nyz c := fun p hp => by
        rw [dm q hq p hp]; exact Nat.mul_le_mul_right _ (le_max_left _ _)
      have h2 : ∀ p < Py, part Y Py p * Z * c ≤ (d (q * Py + p)).nyz c := fun p hp => by
        rw [dm q hq p hp]; exact Nat.mul_le_mul_right _ (le_max_right _ _)
      have h3 : ∀ p < Py, part Y Py p * Z * c = (d (q * Py + p)).yz.x * Z * c := fun p hp => by
        rw [dm q hq p hp]; rfl
      obtain ⟨T, T1, T2, T3, T4, T5⟩ := localize0_step (e := e') (L := c) (alltoall := alltoall) hY hZ hPy ha
        (G := fun j k l => G (first X Px q) j (k * c + l)) (rows := fun p => out (q * Py + p)) (cols := fun p => out (q * Py + p))
        (wrk := fun p => wrk (q * Py + p)) (s := S) (k := fun _ => .ret ())
        { rowsSize := fun p hp => by
            rw [(hSs' p hp).2]
            exact (Nat.add_le_add_left (h2 p hp) _).trans (hb.outSize _ (grid_lt hq hp))
          colsSize := fun p hp => by
            rw [(hSs' p hp).2]
            exact (Nat.add_le_add_left (h1 p hp) _).trans (hb.outSize _ (grid_lt hq hp))
          wrkSize := fun p hp => by
            rw [(hSs' p hp).2, h3 p hp]
            exact hb.wrkSize _ (grid_lt hq hp)
          rowswrk := fun p hp => hb.outwrk _ (grid_lt hq hp)
          colswrk := fun p hp => hb.outwrk _ (grid_lt hq hp)
          same := fun p _ => Or.inl rfl
          compact := fun p _ _ => rfl
          req := hS.req
          bal := hS.bal }
        ⟨fun p hp => by rw [hS.prog p hp, Geo.bind_ret], hS.done, hS.req, hS.bal⟩
        (by
          intro p hp j hj k hk l hl
          have := hG (q * Py + p) (grid_lt hq hp)
          rw [dm q hq p hp] at this
          simp only
          rw [(hSs' p hp).1]
          have h := this 0 (by rw [← dm q hq p hp, h1x _ (grid_lt hq hp)]; exact Nat.one_pos) j hj (k * c + l) (rad_lt hl hk)
          rw [Nat.zero_mul, Nat.zero_add, Nat.add_zero] at h
          rw [show (j * Z + k) * c + l = j * (Z * c) + (k * c + l) by ring]
          exact h)
      refine ⟨T, T1, T2, T3, fun p hp j hj k hk l hl => T4 p hp j hj k hk l hl, fun p hp a h4 h5 => ?_⟩
      beta_reduce
      rw [T5 p hp a (fun hh => h4 (has_mono (h1 p hp) hh)) (by rw [h3 p hp]; exact h5), (hSs' p hp).1])
  refine ⟨t, t1, t2, t3, fun r hr i hi j hj l hl => ?_, fun r hr a h1 h2 => ?_⟩
  · have hq' : r / Py < Px := (Nat.div_lt_iff_lt_mul hPy).2 hr
    have hp' : r % Py < Py := Nat.mod_lt _ hPy
    have hi0 : i = 0 := by rw [h1x r hr] at hi; omega
    subst hi0
    have hc : 0 < c := Nat.pos_of_ne_zero (by rintro rfl; simp at hl)
    rw [hd r hr] at hj hl ⊢
    have := (t4 (r / Py) hq').1 (r % Py) hp' j hj (l / c) ((Nat.div_lt_iff_lt_mul hc).2 hl) (l % c) (Nat.mod_lt _ hc)
    beta_reduce at this
    have he : ∀ a, (a + l / c) * c + l % c = a * c + l := fun a => by rw [Nat.add_mul, Nat.add_assoc, grid_eq]
    rw [fe _ hq' _ hp', grid_eq, he, he] at this
    rw [Nat.zero_mul, Nat.zero_add, Nat.add_zero, ← Nat.mul_assoc]
    exact this
  · have hq' : r / Py < Px := (Nat.div_lt_iff_lt_mul hPy).2 hr
    have hp' : r % Py < Py := Nat.mod_lt _ hPy
    have := (t4 (r / Py) hq').2 (r % Py) hp' a
    beta_reduce at this
    rw [fe _ hq' _ hp', grid_eq] at this
    exact this h1 h2

theorem tyz1_step {e : Eager} {X Y Z Px Py c optA alltoall : ℕ} {d : ℕ → Split3} (hY : 0 < Y) (hZ : 0 < Z) (hPx : 0 < Px) (hPy : 0 < Py) (ha : 1 ≤ optA)
    (hd : ∀ r < Px * Py, d r = mkSplit3 X Y Z (r / Py) Px (r % Py) Py) (h1x : ∀ r < Px * Py, (d r).xy.x = 1) {G : ℕ → ℕ → ℕ → V} {out wrk : ℕ → Loc} {s : St V}
    {k : ℕ → Prog V Unit} {cx : ℕ → ℕ} (hcx : Function.Injective cx)
    (hb : GridBufs (Px * Py) out wrk (fun r => (d r).nyz c) (fun r => (d r).yz.x * Z * c) fun r => (s r).loc.size)
    (hq : Quiet (Px * Py) (fun r => (((MT.mk' Y Z c Py (r % Py) optA alltoall).localize1 (out r) (out r) (wrk r)).on (rowComm Px Py (r / Py)) cx).bind
      fun _ => k r) s)
    (hG : HoldsXZ (Px * Py) d c G out fun r => (s r).loc) :
    ∃ t, Steps e s t ∧ Quiet (Px * Py) k t ∧ (∀ r, (t r).loc.size = (s r).loc.size) ∧ HoldsXY (Px * Py) d c G out (fun r => (t r).loc) ∧
      ∀ r < Px * Py, ∀ a, ¬ (Region.mk (out r) ((d r).nyz c)).has a → ¬ (Region.mk (wrk r) ((d r).yz.x * Z * c)).has a →
        (t r).loc.mem a = (s r).loc.mem a := by
  have dm : ∀ q < Px, ∀ p < Py, d (q * Py + p) = mkSplit3 X Y Z q Px p Py := fun q hq p hp => by
    rw [hd _ (grid_lt hq hp), grid_div hp, grid_mod hp]
  have fe : ∀ q < Px, ∀ p < Py, rowComm Px Py (q % Px) p = q * Py + p := fun q hq p hp => by simp only [rowComm, rankOf_lt hp, Nat.mod_eq_of_lt hq]
  obtain ⟨t, t1, t2, t3, t4⟩ := groups_step (grid_rows (Px := Px) hPx hPy) hcx (e := e) (k := k) hq
    (x := fun q p => (MT.mk' Y Z c Py p optA alltoall).localize1 (out (q * Py + p)) (out (q * Py + p)) (wrk (q * Py + p)))
    (by
      intro q hq p hp
      rw [fe q hq p hp]
      simp only [grid_div hp, grid_mod hp, Nat.mod_eq_of_lt hq])
    (R := fun q m => (∀ p < Py, ∀ j < part Y Py p, ∀ k < Z, ∀ l < c, m p (out (q * Py + p) + ((j * Z + k) * c + l)) = G (first X Px q) (first Y Py p + j) (k * c + l)) ∧
      ∀ p < Py, ∀ a, ¬ (Region.mk (out (q * Py + p)) ((d (q * Py + p)).nyz c)).has a →
        ¬ (Region.mk (wrk (q * Py + p)) ((d (q * Py + p)).yz.x * Z * c)).has a → m p a = (s (q * Py + p)).loc.mem a)
    (by
      rintro q m m' hmm ⟨h1, h2⟩
      exact ⟨fun p hp => by rw [← hmm p hp]; exact h1 p hp, fun p hp => by rw [← hmm p hp]; exact h2 p hp⟩)
    (by
      intro q hq e' S hS hSs
      have hSs' : ∀ p < Py, (S p).loc.mem = (s (q * Py + p)).loc.mem ∧ (S p).loc.size = (s (q * Py + p)).loc.size := fun p hp => by
        have := hSs p hp
        simp only [fe q hq p hp] at this
        exact this
      have h1 : ∀ p < Py, Y * part Z Py p * c ≤ (d (q * Py + p)).nyz c := fun p hp => by
        rw [dm q hq p hp]; exact Nat.mul_le_mul_right _ (le_max_left _ _)
      have h2 : ∀ p < Py, part Y Py p * Z * c ≤ (d (q * Py + p)).nyz c := fun p hp => by
        rw [dm q hq p hp]; exact Nat.mul_le_mul_right _ (le_max_right _ _)
      have h3 : ∀ p < Py, part Y Py p * Z * c = (d (q * Py + p)).yz.x * Z * c := fun p hp => by
        rw [dm q hq p hp]; rfl
      obtain ⟨T, T1, T2, T3, T4, T5⟩ := localize1_step (e := e') (L := c) (alltoall := alltoall) hY hZ hPy ha
        (G := fun j k l => G (first X Px q) j (k * c + l)) (rows := fun p => out (q * Py + p)) (cols := fun p => out (q * Py + p))
        (wrk := fun p => wrk (q * Py + p)) (s := S) (k := fun _ => .ret ())
        { rowsSize := fun p hp => by
            rw [(hSs' p hp).2]
            exact (Nat.add_le_add_left (h2 p hp) _).trans (hb.outSize _ (grid_lt hq hp))
          colsSize := fun p hp => by
            rw [(hSs' p hp).2]
            exact (Nat.add_le_add_left (h1 p hp) _).trans (hb.outSize _ (grid_lt hq hp))
          wrkSize := fun p hp => by
            rw [(hSs' p hp).2, h3 p hp]
            exact hb.wrkSize _ (grid_lt hq hp)
          rowswrk := fun p hp => hb.outwrk _ (grid_lt hq hp)
          colswrk := fun p hp => hb.outwrk _ (grid_lt hq hp)
          same := fun p _ => Or.inl rfl
          compact := fun p _ _ => rfl
          req := hS.req
          bal := hS.bal }
        ⟨fun p hp => by rw [hS.prog p hp, Geo.bind_ret], hS.done, hS.req, hS.bal⟩
        (by
          intro p hp j hj k hk l hl
          have := hG (q * Py + p) (grid_lt hq hp)
          rw [dm q hq p hp] at this
          simp only
          rw [(hSs' p hp).1]
          have h := this 0 (by rw [← dm q hq p hp, h1x _ (grid_lt hq hp)]; exact Nat.one_pos) j hj (k * c + l) (rad_lt hl hk)
          rw [Nat.zero_mul, Nat.zero_add, Nat.add_zero] at h
          rw [show (j * part Z Py p + k) * c + l = j * (part Z Py p * c) + (k * c + l) by ring,
            show (first Z Py p + k) * c + l = first Z Py p * c + (k * c + l) by ring]
          exact h)
      refine ⟨T, T1, T2, T3, fun p hp j hj k hk l hl => T4 p hp j hj k hk l hl, fun p hp a h4 h5 => ?_⟩
      beta_reduce
      rw [T5 p hp a (fun hh => h4 (has_mono (h2 p hp) hh)) (by rw [h3 p hp]; exact h5), (hSs' p hp).1])
  refine ⟨t, t1, t2, t3, fun r hr i hi j hj l hl => ?_, fun r hr a h1 h2 => ?_⟩
  · have hq' : r / Py < Px := (Nat.div_lt_iff_lt_mul hPy).2 hr
    have hp' : r % Py < Py := Nat.mod_lt _ hPy
    have hi0 : i = 0 := by rw [h1x r hr] at hi; omega
    subst hi0
    have hc : 0 < c := Nat.pos_of_ne_zero (by rintro rfl; simp at hl)
    rw [hd r hr] at hj hl ⊢
    have := (t4 (r / Py) hq').1 (r % Py) hp' j hj (l / c) ((Nat.div_lt_iff_lt_mul hc).2 hl) (l % c) (Nat.mod_lt _ hc)
    beta_reduce at this
    have he : ∀ a, (a + l / c) * c + l % c = a * c + l := fun a => by rw [Nat.add_mul, Nat.add_assoc, grid_eq]
    rw [fe _ hq' _ hp', grid_eq, he, grid_eq] at this
    rw [Nat.zero_mul, Nat.zero_add, Nat.add_zero, ← Nat.mul_assoc]
    exact this
  · have hq' : r / Py < Px := (Nat.div_lt_iff_lt_mul hPy).2 hr
    have hp' : r % Py < Py := Nat.mod_lt _ hPy
    have := (t4 (r / Py) hq').2 (r % Py) hp' a
    beta_reduce at this
    rw [fe _ hq' _ hp', grid_eq] at this
    exact this h1 h2

end Fftwpp.Net
