import Verif.Model.MpiConv
import Verif.Proof.MpiFft2
import Verif.Proof.Outer2

/-!
# Phases of a distributed computation on the memories of the sequential model
-/

namespace Fftwpp
open Finset Net

theorem Ptr.loc_ptr (p : Ptr) : p.loc.ptr = p := by
  unfold Ptr.loc Net.Loc.ptr
  split_ifs with h1 h2 h2
  · ext
    · simp
    · simp [h1]
  · simp at h2
  · simp at h2
  · ext
    · simp; omega
    · simp; omega

theorem Ptr.ptr_loc (a : Loc) : a.ptr.loc = a := by
  unfold Ptr.loc Net.Loc.ptr
  by_cases h : a.buf % 2 = 0
  · rw [if_pos h, if_pos (by simp)]
    ext
    · simp; omega
    · simp
  · rw [if_neg h, if_neg (by simp; omega)]
    ext
    · simp; omega
    · simp

theorem Ptr.loc_of {p : Ptr} (h : 0 ≤ p.off) : p.loc = ⟨2 * p.buf, p.off.toNat⟩ := if_pos h

theorem Ptr.loc_add {p : Ptr} (h : 0 ≤ p.off) (n : ℕ) : (p + n).loc = p.loc + n := by
  rw [Ptr.loc_of h, Ptr.loc_of (by simp; omega)]
  ext
  · simp
  · simp; omega

theorem Ptr.loc_buf (p : Ptr) : p.loc.buf / 2 = p.buf := by
  unfold Ptr.loc
  split_ifs
  · simp
  · simp; omega

namespace Net

/-- The memory of a process, as seen by the sequential code. -/
noncomputable abbrev mmem (σ : Local ℂ) : Mem := toMem σ.size σ.mem

/-- From quiet states in which the memories are `g`, the programs `x r`, whatever follows, run to a quiet state whose memories satisfy `Q`. -/
def NOk (e : Eager) (P : ℕ) (x : ℕ → Prog ℂ Unit) (g : ℕ → Mem) (Q : (ℕ → Mem) → Prop) : Prop :=
  ∀ (s : St ℂ) (k : ℕ → Prog ℂ Unit), Quiet P (fun r => (x r).bind fun _ => k r) s → (∀ r < P, mmem (s r).loc = g r) →
    ∃ t, Steps e s t ∧ Quiet P k t ∧ (∀ r, (t r).loc.size = (s r).loc.size) ∧ ∃ g', (∀ r < P, mmem (t r).loc = g' r) ∧ Q g'

variable {e : Eager} {P : ℕ} {x y : ℕ → Prog ℂ Unit} {g : ℕ → Mem} {Q : (ℕ → Mem) → Prop}

theorem NOk.mono {Q' : (ℕ → Mem) → Prop} (h : NOk e P x g Q) (hQ : ∀ g', Q g' → Q' g') : NOk e P x g Q' := by
  intro s k hq hg
  obtain ⟨t, h1, h2, h3, g', h4, h5⟩ := h s k hq hg
  exact ⟨t, h1, h2, h3, g', h4, hQ g' h5⟩

theorem NOk.bind {Q1 : (ℕ → Mem) → Prop} (h1 : NOk e P x g Q1) (h2 : ∀ g', Q1 g' → NOk e P y g' Q) :
    NOk e P (fun r => (x r).bind fun _ => y r) g Q := by
  intro s k hq hg
  obtain ⟨t, a1, a2, a3, g', a4, a5⟩ := h1 s (fun r => (y r).bind fun _ => k r)
    ⟨fun i hi => by rw [hq.prog i hi, Prog.bind_assoc], hq.done, hq.req, hq.bal⟩ hg
  obtain ⟨u, b1, b2, b3, g2, b4, b5⟩ := h2 g' a5 t k a2 a4
  exact ⟨u, a1.trans b1, b2, fun r => by rw [b3, a3], g2, b4, b5⟩

theorem NOk.ret (h : Q g) : NOk e P (fun _ => .ret ()) g Q := by
  intro s k hq hg
  exact ⟨s, Steps.refl _ _, ⟨fun i hi => hq.prog i hi, hq.done, hq.req, hq.bal⟩, fun _ => rfl, g, hg, h⟩

theorem NOk.congr (h : NOk e P x g Q) (hxy : ∀ r < P, y r = x r) : NOk e P y g Q := by
  intro s k hq hg
  exact h s k ⟨fun i hi => by rw [hq.prog i hi, hxy i hi], hq.done, hq.req, hq.bal⟩ hg

/-- A computation of each process. -/
theorem NOk.cmd {c : ℕ → Cmd Unit} {R : ℕ → Mem → Prop} (h : ∀ r < P, (c r).Ok (g r) fun _ m' => m'.size = (g r).size ∧ R r m')
    (hQ : ∀ g', (∀ r < P, R r (g' r)) → Q g') : NOk e P (fun r => runCmd (c r)) g Q := by
  intro s k hq hg
  obtain ⟨t, t1, t2, t3, t4⟩ := local_phase (e := e) hq (R := fun r m => R r (toMem (s r).loc.size m)) (by
    intro r hr
    obtain ⟨_, m', h1, h2, h3⟩ := h r hr
    refine ⟨fun a => m'.val a.ptr, ?_, ?_⟩
    · refine eval_call ?_
      refine (if_pos (hq.req r hr)).trans ?_
      have : (c r) (toMem (s r).loc.size (s r).loc.mem) = .ok ((), m') := by
        rw [show toMem (s r).loc.size (s r).loc.mem = g r from hg r hr]; exact h1
      simp only [this, Option.map_some]
    · have : toMem (s r).loc.size (fun a => m'.val a.ptr) = m' := by
        unfold toMem
        ext p
        · rw [h2, ← hg r hr]; rfl
        · simp only [Ptr.loc_ptr]
      beta_reduce
      rw [this]; exact h3)
  refine ⟨t, t1, t2, t3, fun r => mmem (t r).loc, fun _ _ => rfl, hQ _ fun r hr => ?_⟩
  have := t4 r hr
  rw [show mmem (t r).loc = toMem (s r).loc.size (t r).loc.mem by unfold mmem; rw [t3]]
  exact this

/-- A loop, the same in all processes. -/
theorem NOk.loop {body : ℕ → ℕ → Prog ℂ Unit} (I : List ℕ → (ℕ → Mem) → Prop) {l : List ℕ} (h0 : I [] g)
    (hstep : ∀ l1 i l2 g1, l = l1 ++ i :: l2 → I l1 g1 → NOk e P (fun r => body r i) g1 (I (l1 ++ [i])))
    (hQ : ∀ g', I l g' → Q g') : NOk e P (fun r => Prog.loop l (body r)) g Q := by
  have key : ∀ (l2 l1 : List ℕ) (g1 : ℕ → Mem), l = l1 ++ l2 → I l1 g1 → NOk e P (fun r => Prog.loop l2 (body r)) g1 (I l) := by
    intro l2
    induction l2 with
    | nil => intro l1 g1 hl hI; exact NOk.ret (by rw [hl]; simpa using hI)
    | cons i l2 ih =>
      intro l1 g1 hl hI
      exact NOk.bind (hstep l1 i l2 g1 hl hI) fun g2 h2 => ih (l1 ++ [i]) g2 (by rw [hl]; simp) h2
  exact (key l [] g rfl h0).mono hQ

/-- A loop over `start..stop`. -/
theorem NOk.loopRng {body : ℕ → ℕ → Prog ℂ Unit} {start stop : ℕ} (hss : start ≤ stop) (I : ℕ → (ℕ → Mem) → Prop) (h0 : I start g)
    (hstep : ∀ i g1, start ≤ i → i < stop → I i g1 → NOk e P (fun r => body r i) g1 (I (i + 1)))
    (hQ : ∀ g', I stop g' → Q g') : NOk e P (fun r => Prog.loop (rng start stop) (body r)) g Q := by
  refine NOk.loop (fun l1 g1 => I (start + l1.length) g1) (by simpa using h0) ?_ (fun g' h => hQ g' ?_)
  · intro l1 i l2 g1 hl hI
    have hi : i = start + l1.length ∧ start + l1.length < stop := by
      unfold rng at hl
      have hlen := congrArg List.length hl
      simp at hlen
      have : (List.range' start (stop - start))[l1.length]? = some i := by rw [hl]; simp
      rw [List.getElem?_range' (by omega)] at this
      simp at this
      omega
    obtain ⟨rfl, h2⟩ := hi
    have := hstep _ g1 (by omega) h2 hI
    simpa [Nat.add_assoc] using this
  · have : start + (rng start stop).length = stop := by unfold rng; simp; omega
    rwa [this] at h

/-! ## Transposes -/

/-- Every process holds its columns of the `X` by `Y` array `G` at `q r`. -/
def Cols (X Y P : ℕ) (g : ℕ → Mem) (q : ℕ → Ptr) (G : ℕ → ℕ → ℂ) : Prop :=
  ∀ r < P, ∀ i < X, ∀ j < part Y P r, (g r).val (q r + (part Y P r * i + j)) = G i (first Y P r + j)

/-- Every process holds its rows of the `X` by `Y` array `G` at `q r`. -/
def Rows (X Y P : ℕ) (g : ℕ → Mem) (q : ℕ → Ptr) (G : ℕ → ℕ → ℂ) : Prop :=
  ∀ r < P, ∀ i < part X P r, ∀ j < Y, (g r).val (q r + (Y * i + j)) = G (first X P r + i) j

/-- Room for a transpose in place. -/
structure Room (X Y P : ℕ) (g : ℕ → Mem) (q wrk : ℕ → Ptr) : Prop where
  q0 : ∀ r < P, 0 ≤ (q r).off
  qs : ∀ r < P, (q r).off + (room2 X Y P r : ℕ) ≤ (g r).size (q r).buf
  w0 : ∀ r < P, 0 ≤ (wrk r).off
  ws : ∀ r < P, (wrk r).off + (part X P r * Y : ℕ) ≤ (g r).size (wrk r).buf
  ne : ∀ r < P, (q r).buf ≠ (wrk r).buf

theorem Room.size {X Y : ℕ} {g g' : ℕ → Mem} {q wrk : ℕ → Ptr} (h : Room X Y P g q wrk) (hs : ∀ r < P, (g' r).size = (g r).size) :
    Room X Y P g' q wrk :=
  ⟨h.q0, fun r hr => by rw [hs r hr]; exact h.qs r hr, h.w0, fun r hr => by rw [hs r hr]; exact h.ws r hr, h.ne⟩

theorem Room.env {X Y optA alltoall : ℕ} {q wrk : ℕ → Ptr} (h : Room X Y P g q wrk) {σ : ℕ → Local ℂ} (hg : ∀ r < P, mmem (σ r) = g r)
    (hr : ∀ r < P, ∀ id, (σ r).req id = none) (hb : Balanced P σ) :
    TransposeEnv X Y 1 P optA alltoall (fun r => (q r).loc) (fun r => (q r).loc) (fun r => (wrk r).loc) σ := by
  have hsz : ∀ r < P, ∀ b, (g r).size b = (σ r).size (2 * b) := fun r hr b => by rw [← hg r hr]; rfl
  have hq : ∀ r < P, (q r).loc.off + room2 X Y P r ≤ (σ r).size (q r).loc.buf := by
    intro r hr
    have h1 := h.qs r hr
    have h0 := h.q0 r hr
    rw [hsz r hr] at h1
    rw [Ptr.loc_of h0]
    simp only
    omega
  refine ⟨fun r hr => ?_, fun r hr => ?_, fun r hr => ?_, fun r hr => ?_, fun r hr => ?_, fun r _ => Or.inl rfl, fun r _ _ => rfl, hr, hb⟩
  · rw [Nat.mul_one]; exact (Nat.add_le_add_left (le_max_right _ _) _).trans (hq r hr)
  · rw [Nat.mul_one]; exact (Nat.add_le_add_left (le_max_left _ _) _).trans (hq r hr)
  · rw [Nat.mul_one]
    have h1 := h.ws r hr
    have h0 := h.w0 r hr
    rw [hsz r hr] at h1
    rw [Ptr.loc_of h0]
    simp only
    omega
  all_goals
    have := h.ne r hr
    rw [Ptr.loc_of (h.q0 r hr), Ptr.loc_of (h.w0 r hr)]
    simp only
    omega

theorem upd_of_loc {q wrk : ℕ → Ptr} {s t : St ℂ} (hg : ∀ r < P, mmem (s r).loc = g r)
    (ht : ∀ r, (t r).loc.size = (s r).loc.size) {n n' : ℕ → ℕ}
    (hf : ∀ r < P, ∀ a, ¬ (Region.mk (q r).loc (n r)).has a → ¬ (Region.mk (wrk r).loc (n' r)).has a → (t r).loc.mem a = (s r).loc.mem a) :
    ∀ r < P, (g r).Upd (mmem (t r).loc) (fun p => p.buf = (q r).buf ∨ p.buf = (wrk r).buf) := by
  intro r hr
  rw [← hg r hr]
  refine ⟨?_, ?_⟩
  · show (fun b => (t r).loc.size (2 * b)) = fun b => (s r).loc.size (2 * b)
    rw [ht]
  · intro p hp
    push Not at hp
    refine hf r hr p.loc ?_ ?_
    · intro h
      refine hp.1 ?_
      have h1 : p.loc.buf = (q r).loc.buf := h.1
      rw [← Ptr.loc_buf p, h1, Ptr.loc_buf]
    · intro h
      refine hp.2 ?_
      have h1 : p.loc.buf = (wrk r).loc.buf := h.1
      rw [← Ptr.loc_buf p, h1, Ptr.loc_buf]

theorem NOk.localize1 {X Y optA alltoall : ℕ} (hX : 0 < X) (hY : 0 < Y) (hP : 0 < P) (ha : 1 ≤ optA) {q wrk : ℕ → Ptr} {G : ℕ → ℕ → ℂ}
    (hrm : Room X Y P g q wrk) (hG : Cols X Y P g q G) :
    NOk e P (fun r => (MT.mk' X Y 1 P r optA alltoall).localize1 (q r).loc (q r).loc (wrk r).loc) g fun g' =>
      Rows X Y P g' q G ∧ ∀ r < P, (g r).Upd (g' r) (fun p => p.buf = (q r).buf ∨ p.buf = (wrk r).buf) := by
  intro s k hq hg
  obtain ⟨t, t1, t2, t3, t4, t5⟩ := localize1_step (e := e) (optA := optA) (alltoall := alltoall) hX hY hP ha (G := fun i j _ => G i j)
    (hrm.env (σ := fun r => (s r).loc) hg hq.req hq.bal) hq (by
      intro r hr i hi j hj l hl
      have : l = 0 := by omega
      subst this
      have h1 := hG r hr i hi j hj
      rw [← hg r hr] at h1
      rw [Nat.mul_one, Nat.add_zero, Nat.mul_comm, ← Ptr.loc_add (hrm.q0 r hr)]
      exact h1)
  refine ⟨t, t1, t2, t3, fun r => mmem (t r).loc, fun _ _ => rfl, ?_, upd_of_loc hg t3 t5⟩
  intro r hr i hi j hj
  have := t4 r hr i hi j hj 0 (by omega)
  rw [Nat.mul_one, Nat.add_zero, Nat.mul_comm, ← Ptr.loc_add (hrm.q0 r hr)] at this
  exact this

theorem NOk.localize0 {X Y optA alltoall : ℕ} (hX : 0 < X) (hY : 0 < Y) (hP : 0 < P) (ha : 1 ≤ optA) {q wrk : ℕ → Ptr} {G : ℕ → ℕ → ℂ}
    (hrm : Room X Y P g q wrk) (hG : Rows X Y P g q G) :
    NOk e P (fun r => (MT.mk' X Y 1 P r optA alltoall).localize0 (q r).loc (q r).loc (wrk r).loc) g fun g' =>
      Cols X Y P g' q G ∧ ∀ r < P, (g r).Upd (g' r) (fun p => p.buf = (q r).buf ∨ p.buf = (wrk r).buf) := by
  intro s k hq hg
  obtain ⟨t, t1, t2, t3, t4, t5⟩ := localize0_step (e := e) (optA := optA) (alltoall := alltoall) hX hY hP ha (G := fun i j _ => G i j)
    (hrm.env (σ := fun r => (s r).loc) hg hq.req hq.bal) hq (by
      intro r hr i hi j hj l hl
      have : l = 0 := by omega
      subst this
      have h1 := hG r hr i hi j hj
      rw [← hg r hr] at h1
      rw [Nat.mul_one, Nat.add_zero, Nat.mul_comm, ← Ptr.loc_add (hrm.q0 r hr)]
      exact h1)
  refine ⟨t, t1, t2, t3, fun r => mmem (t r).loc, fun _ _ => rfl, ?_, upd_of_loc hg t3 t5⟩
  intro r hr i hi j hj
  have := t4 r hr i hi j hj 0 (by omega)
  rw [Nat.mul_one, Nat.add_zero, Nat.mul_comm, ← Ptr.loc_add (hrm.q0 r hr)] at this
  exact this

end Net
end Fftwpp
