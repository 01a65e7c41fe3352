import Verif.Proof.MpiSlab

/-!
# Forward and backward transforms and the multiplication in the distributed convolution
-/

namespace Fftwpp
open Finset Net DConv

/-- Common facts about the objects of the processes. -/
structure DConv3 (P X Y H Z optA alltoall : ℕ) (M : ℕ → Conv3MPI) (x0 : ℤ) (pdx : ℕ → Mem → Ptr → Prop) (L N A B : ℕ) (res : List ℕ)
    (ix : ℕ → ℕ → ℕ) : Prop where
  P_pos : 0 < P
  X_pos : 0 < X
  oA : 1 ≤ optA
  YH : Y = H * Z
  y_pos : ∀ r < P, 0 < wd H Z P r
  nout : ∀ r < P, ∀ rx ∈ res, (M r).c.x.fft.noutputs rx = X
  BA : B ≤ A
  sp : ∀ r < P, (M r).c.x.fft.Spec x0 (pdx r)
  L : ∀ r < P, (M r).c.x.fft.L = L
  N : ∀ r < P, (M r).c.x.fft.N = N
  A : ∀ r < P, (M r).c.x.fft.A = A
  B : ∀ r < P, (M r).c.x.fft.B = B
  res : ∀ r < P, (M r).c.x.fft.residues = res
  ix : ∀ r < P, (M r).c.x.fft.index = ix
  C : ∀ r < P, (M r).c.x.fft.C = wd H Z P r
  S : ∀ r < P, (M r).c.x.fft.S = wd H Z P r
  col : ∀ r < P, ∀ c, (M r).c.x.fft.col c = c
  ow : ∀ r < P, (M r).c.x.fft.overwrite = false
  Yv : ∀ r < P, (M r).Y * (M r).z = Y
  yv : ∀ r < P, (M r).y * (M r).z = wd H Z P r
  zv : ∀ r < P, (M r).z = Z
  Sy : ∀ r < P, (M r).c.ffty.S = Z
  ov : ∀ r < P, (M r).overwrite = 0
  T : ∀ r < P, (M r).T = if part H P r < H then some (MT.mk' X H Z P r optA alltoall) else none

/-- The transposes in `forward`. -/
noncomputable def Conv3MPI.tr1 (o : Conv3MPI) (a : ℕ) (q : Ptr) : Prog ℂ Unit :=
  match o.T with
  | none => .ret ()
  | some t => t.localize1 q.loc q.loc (o.wrk a).loc

/-- The transposes in `backward`. -/
noncomputable def Conv3MPI.tr0 (o : Conv3MPI) (a : ℕ) (q : Ptr) : Prog ℂ Unit :=
  match o.T with
  | none => .ret ()
  | some t => t.localize0 q.loc q.loc (o.wrk a).loc

variable {P X Y H Z optA alltoall : ℕ} {M : ℕ → Conv3MPI} {x0 : ℤ} {pdx : ℕ → Mem → Ptr → Prop} {L N A B : ℕ} {res : List ℕ} {ix : ℕ → ℕ → ℕ}
  {e : Eager} {g : ℕ → Mem}

namespace DConv3

theorem p_pos (hd : DConv3 P X Y H Z optA alltoall M x0 pdx L N A B res ix) : ∀ r < P, 0 < part H P r := fun r hr => by
  have := hd.y_pos r hr
  unfold wd at this
  exact Nat.pos_of_mul_pos_right this

theorem H_pos (hd : DConv3 P X Y H Z optA alltoall M x0 pdx L N A B res ix) : 0 < H := by
  have h1 := hd.p_pos 0 hd.P_pos
  have h2 : part H P 0 ≤ H := (ld_has H P hd.P_pos).2.2.2 0 hd.P_pos
  omega

theorem T_one (hd : DConv3 1 X Y H Z optA alltoall M x0 pdx L N A B res ix) : (M 0).T = none := by
  rw [hd.T 0 (by omega), part_one, if_neg (by omega)]

theorem T_some (hd : DConv3 P X Y H Z optA alltoall M x0 pdx L N A B res ix) (hP : 1 < P) {r : ℕ} (hr : r < P) :
    (M r).T = some (MT.mk' X H Z P r optA alltoall) := by
  rw [hd.T r hr, if_pos (part_lt hP hd.p_pos hr)]

/-- Columns to rows. -/
theorem tr1_ok (hd : DConv3 P X Y H Z optA alltoall M x0 pdx L N A B res ix) {a : ℕ} {q : ℕ → Ptr} {G : ℕ → ℕ → ℂ}
    (hrm : Room3 X Y H Z P g q fun r => (M r).wrk a) (hG : Cols3 X H Z P g q G) :
    NOk e P (fun r => (M r).tr1 a (q r)) g fun g' =>
      Rows X Y P g' q G ∧ ∀ r < P, (g r).Upd (g' r) (fun p => p.buf = (q r).buf ∨ p.buf = ((M r).wrk a).buf) := by
  by_cases hP : P = 1
  · subst hP
    refine (NOk.ret (g := g) ?_).congr fun r hr => ?_
    · refine ⟨?_, fun r _ => Mem.Upd.refl _ _⟩
      intro r hr i hi j hj
      obtain rfl : r = 0 := by omega
      have := hG 0 hr i (by rw [part_one] at hi; exact hi) j (by rw [wd_one, ← hd.YH]; exact hj)
      rw [wd_one, st_one, Nat.zero_add, ← hd.YH] at this
      rw [first_one, Nat.zero_add, this]
    · obtain rfl : r = 0 := by omega
      unfold Conv3MPI.tr1
      rw [hd.T_one]
  · have hP1 : 1 < P := by have := hd.P_pos; omega
    refine (NOk.localize13 (optA := optA) (alltoall := alltoall) hd.X_pos hd.H_pos hd.YH hd.P_pos hd.oA hrm hG).congr fun r hr => ?_
    unfold Conv3MPI.tr1
    rw [hd.T_some hP1 hr]

/-- Rows to columns. -/
theorem tr0_ok (hd : DConv3 P X Y H Z optA alltoall M x0 pdx L N A B res ix) {a : ℕ} {q : ℕ → Ptr} {G : ℕ → ℕ → ℂ}
    (hrm : Room3 X Y H Z P g q fun r => (M r).wrk a) (hG : Rows X Y P g q G) :
    NOk e P (fun r => (M r).tr0 a (q r)) g fun g' =>
      Cols3 X H Z P g' q G ∧ ∀ r < P, (g r).Upd (g' r) (fun p => p.buf = (q r).buf ∨ p.buf = ((M r).wrk a).buf) := by
  by_cases hP : P = 1
  · subst hP
    refine (NOk.ret (g := g) ?_).congr fun r hr => ?_
    · refine ⟨?_, fun r _ => Mem.Upd.refl _ _⟩
      intro r hr i hi j hj
      obtain rfl : r = 0 := by omega
      have := hG 0 hr i (by rw [part_one]; exact hi) j (by rw [wd_one, ← hd.YH] at hj; exact hj)
      rw [first_one, Nat.zero_add] at this
      rw [wd_one, st_one, Nat.zero_add, ← hd.YH, this]
    · obtain rfl : r = 0 := by omega
      unfold Conv3MPI.tr0
      rw [hd.T_one]
  · have hP1 : 1 < P := by have := hd.P_pos; omega
    refine (NOk.localize03 (optA := optA) (alltoall := alltoall) hd.X_pos hd.H_pos hd.YH hd.P_pos hd.oA hrm hG).congr fun r hr => ?_
    unfold Conv3MPI.tr0
    rw [hd.T_some hP1 hr]

theorem forward_eq (hd : DConv3 P X Y H Z optA alltoall M x0 pdx L N A B res ix) {r : ℕ} (hr : r < P) (f F : PtrArr) (rx start stop offset : ℕ) :
    (M r).forward f F rx start stop offset = Prog.loop (rng start stop) fun a =>
      (runCmd (fwdAll (M r).c.x.fft (M r).c.x.W f F rx a (a + 1) offset)).bind fun _ => (M r).tr1 a (F.at_ a) := by
  unfold Conv3MPI.forward Conv3MPI.tr1
  rw [hd.ov r hr]
  congr 1
  funext a
  congr 1
  funext _
  cases (M r).T with
  | none => rfl
  | some t => exact Geo.bind_ret _

theorem backward_eq (hd : DConv3 P X Y H Z optA alltoall M x0 pdx L N A B res ix) {r : ℕ} (hr : r < P) (F f : PtrArr) (rx start stop offset : ℕ)
    (W0 : Option Ptr) : (M r).backward F f rx start stop offset W0 = (Prog.loop (rng start stop) fun b => (M r).tr0 b (F.at_ b)).bind fun _ =>
      runCmd (do
        bwdAll (M r).c.x.fft W0 F f rx start stop offset
        if (M r).c.x.W ≠ none ∧ (M r).c.x.W = W0 then (M r).c.x.fft.padCall W0 else pure ()) := by
  unfold Conv3MPI.backward Conv3MPI.tr0
  rw [hd.ov r hr]
  congr 1
  cases (M r).T with
  | none =>
    symm
    generalize rng start stop = l
    induction l with
    | nil => rfl
    | cons i t ih => exact ih
  | some t =>
    show Prog.loop (rng start stop) _ = Prog.loop (rng start stop) _
    congr 1
    funext b
    exact Geo.bind_ret _

/-- What the forward and backward transforms require of the arrays: `F r` the work arrays, `W r` the other one, of process `r`. -/
structure Ctx (P X Y H Z : ℕ) (M : ℕ → Conv3MPI) (A B : ℕ) (g : ℕ → Mem) (F : ℕ → PtrArr) : Prop where
  work : ∀ r < P, (M r).c.x.fft.Work (g r) (F r) (max A B) (M r).c.x.W
  room : ∀ a < max A B, Room3 X Y H Z P g (fun r => (F r).at_ a) fun r => (M r).wrk a
  /-- the work arrays of the transposes are separate -/
  wF : ∀ r < P, ∀ a < max A B, ∀ a' < max A B, ((M r).wrk a).buf ≠ ((F r).at_ a').buf
  wW : ∀ r < P, ∀ a < max A B, ∀ W, (M r).c.x.W = some W → ((M r).wrk a).buf ≠ W.buf

theorem Ctx.size {F : ℕ → PtrArr} {g' : ℕ → Mem} (h : Ctx P X Y H Z M A B g F) (hs : ∀ r < P, (g' r).size = (g r).size) : Ctx P X Y H Z M A B g' F :=
  ⟨fun r hr => (h.work r hr).size (hs r hr), fun a ha => (h.room a ha).size hs, h.wF, h.wW⟩

/-- The data of the processes: columns of the global arrays `D a`. -/
def Holds (P H Z L : ℕ) (g : ℕ → Mem) (f : ℕ → PtrArr) (off : ℕ → ℕ) (D : ℕ → ℕ → ℕ → ℂ) (a : ℕ) : Prop :=
  ∀ r < P, ∀ j < L, ∀ c < wd H Z P r, (g r).val ((f r).at_ a + off r + (wd H Z P r * j + c)) = D a j (st H Z P r + c)

/-- `forward` of one array. -/
theorem fwd1_ok (hd : DConv3 P X Y H Z optA alltoall M x0 pdx L N A B res ix) {F f : ℕ → PtrArr} {off : ℕ → ℕ} (hc : Ctx P X Y H Z M A B g F)
    (hdat : ∀ r < P, (M r).c.x.fft.Dat (g r) (f r) (off r) A (F r) (max A B) (M r).c.x.W)
    (hp : ∀ r < P, FftBase.Pd (pdx r) (M r).c.x.W (g r)) {rx a : ℕ} (hrx : rx ∈ res) (ha : a < A) {D : ℕ → ℕ → ℕ → ℂ}
    (hD : Holds P H Z L g f off D a) :
    NOk e P (fun r => (runCmd (fwdAll (M r).c.x.fft (M r).c.x.W (f r) (F r) rx a (a + 1) (off r))).bind fun _ => (M r).tr1 a ((F r).at_ a)) g
      fun g' => Rows X Y P g' (fun r => (F r).at_ a) (fun i c => hatD L N x0 D (ix rx i) a c) ∧
        (∀ r < P, FftBase.Pd (pdx r) (M r).c.x.W (g' r)) ∧
        ∀ r < P, (g r).Upd (g' r) (fun p => p.buf = ((F r).at_ a).buf ∨ p.buf = ((M r).wrk a).buf ∨ (M r).c.x.fft.InW (M r).c.x.W p) := by
  have haK : a < max A B := lt_of_lt_of_le ha (le_max_left _ _)
  refine NOk.bind (NOk.cmd (R := fun r m' => (g r).Upd m' (fun p => p.buf = ((F r).at_ a).buf ∨ (M r).c.x.fft.InW (M r).c.x.W p) ∧
      FftBase.Pd (pdx r) (M r).c.x.W m' ∧ ∀ i < X, ∀ c < wd H Z P r, m'.val ((F r).at_ a + (wd H Z P r * i + c)) =
        hatD L N x0 D (ix rx i) a (st H Z P r + c)) ?_ (Q := fun g' => ∀ r < P, (g r).Upd (g' r) (fun p => p.buf = ((F r).at_ a).buf ∨ (M r).c.x.fft.InW (M r).c.x.W p) ∧
      FftBase.Pd (pdx r) (M r).c.x.W (g' r) ∧ ∀ i < X, ∀ c < wd H Z P r, (g' r).val ((F r).at_ a + (wd H Z P r * i + c)) =
        hatD L N x0 D (ix rx i) a (st H Z P r + c)) fun g' h => h) ?_
  · intro r hr
    refine (FftBase.fwdAll_ok (hd.sp r hr) (hd.ow r hr) (hc.work r hr) (hdat r hr) (hp r hr) (by rw [hd.res r hr]; exact hrx)
      (Nat.le_succ a) ha haK).mono ?_
    rintro _ m' ⟨u, p', v⟩
    refine ⟨u.size, u.mono ?_, p', ?_⟩
    · rintro p (⟨a', h1, h2, h3⟩ | h3)
      · obtain rfl : a' = a := by omega
        exact Or.inl (FftBase.inArr_buf h3)
      · exact Or.inr h3
    · intro i hi c hcc
      have := v a le_rfl (Nat.lt_succ_self a) i (by rw [hd.nout r hr rx hrx]; exact hi) c (by rw [hd.C r hr]; exact hcc)
      rw [hd.S r hr, hd.col r hr, hd.ix r hr] at this
      rw [this]
      unfold FftBase.dft hatD
      rw [hd.L r hr, hd.N r hr]
      refine sum_congr rfl fun j hj => ?_
      beta_reduce
      rw [hD r hr j (mem_range.1 hj) c hcc]
  · intro g1 h1
    have hs1 : ∀ r < P, (g1 r).size = (g r).size := fun r hr => (h1 r hr).1.size
    refine (hd.tr1_ok ((hc.room a haK).size hs1) (G := fun i c => hatD L N x0 D (ix rx i) a c) ?_).mono ?_
    · intro r hr i hi j hj
      exact (h1 r hr).2.2 i hi j hj
    · rintro g2 ⟨h2, u2⟩
      refine ⟨h2, fun r hr => ?_, fun r hr => ?_⟩
      · intro W hW
        refine (hd.sp r hr).pad_frame ?_ ((h1 r hr).2.1 W hW)
        intro i _
        refine (u2 r hr).frame _ ?_
        rintro (h3 | h3)
        · exact (hc.work r hr).W_buf W hW a haK (by simpa using h3)
        · exact hc.wW r hr a haK W hW (by simpa using h3.symm)
      · refine ((h1 r hr).1).trans (u2 r hr) ?_ ?_
        · rintro p (h3 | h3)
          · exact Or.inl h3
          · exact Or.inr (Or.inr h3)
        · rintro p (h3 | h3)
          · exact Or.inl h3
          · exact Or.inr (Or.inl h3)

/-- `forward` of the arrays `start..stop`. -/
theorem fwd_ok (hd : DConv3 P X Y H Z optA alltoall M x0 pdx L N A B res ix) {F f : ℕ → PtrArr} {off : ℕ → ℕ} (hc : Ctx P X Y H Z M A B g F)
    (hdat : ∀ r < P, (M r).c.x.fft.Dat (g r) (f r) (off r) A (F r) (max A B) (M r).c.x.W)
    (hwf : ∀ r < P, ∀ a < max A B, ∀ a' < A, ((M r).wrk a).buf ≠ ((f r).at_ a').buf)
    (hp : ∀ r < P, FftBase.Pd (pdx r) (M r).c.x.W (g r)) {rx start stop : ℕ} (hrx : rx ∈ res) (hss : start ≤ stop) (hsA : stop ≤ A)
    {D : ℕ → ℕ → ℕ → ℂ} (hD : ∀ a, start ≤ a → a < stop → Holds P H Z L g f off D a) :
    NOk e P (fun r => (M r).forward (f r) (F r) rx start stop (off r)) g fun g' =>
      (∀ a, start ≤ a → a < stop → Rows X Y P g' (fun r => (F r).at_ a) fun i c => hatD L N x0 D (ix rx i) a c) ∧
      (∀ r < P, FftBase.Pd (pdx r) (M r).c.x.W (g' r)) ∧
      ∀ r < P, (g r).Upd (g' r) (fun p => (∃ a, start ≤ a ∧ a < stop ∧ (p.buf = ((F r).at_ a).buf ∨ p.buf = ((M r).wrk a).buf)) ∨
        (M r).c.x.fft.InW (M r).c.x.W p) := by
  refine NOk.congr ?_ fun r hr => hd.forward_eq hr _ _ _ _ _ _
  refine NOk.loopRng hss (fun s g' =>
      (∀ a, start ≤ a → a < s → Rows X Y P g' (fun r => (F r).at_ a) fun i c => hatD L N x0 D (ix rx i) a c) ∧
      (∀ r < P, FftBase.Pd (pdx r) (M r).c.x.W (g' r)) ∧
      ∀ r < P, (g r).Upd (g' r) (fun p => (∃ a, start ≤ a ∧ a < s ∧ (p.buf = ((F r).at_ a).buf ∨ p.buf = ((M r).wrk a).buf)) ∨
        (M r).c.x.fft.InW (M r).c.x.W p))
    ⟨fun a h1 h2 => absurd h1 (by omega), hp, fun r _ => Mem.Upd.refl _ _⟩ ?_ (fun _ h => h)
  rintro s g1 h1 h2 ⟨e1, p1, u1⟩
  have hs1 : ∀ r < P, (g1 r).size = (g r).size := fun r hr => (u1 r hr).size
  have hsA' : s < A := by omega
  refine (hd.fwd1_ok (hc.size hs1) (fun r hr => (hdat r hr).size (hs1 r hr)) p1 hrx hsA' (D := D) ?_).mono ?_
  · intro r hr j hj c hcc
    rw [(u1 r hr).frame, hD s h1 h2 r hr j hj c hcc]
    rintro (⟨a, ha1, ha2, h3 | h3⟩ | ⟨W, hW, h3⟩)
    · exact (hdat r hr).fF s hsA' a (lt_of_lt_of_le (by omega) (le_max_left _ _)) (by simpa using h3)
    · exact hwf r hr a (lt_of_lt_of_le (by omega) (le_max_left _ _)) s hsA' (by simpa using h3.symm)
    · exact (hdat r hr).fW s hsA' W hW (by simpa using (FftBase.inArr_buf h3).symm)
  · rintro g2 ⟨e2, p2, u2⟩
    refine ⟨?_, p2, fun r hr => (u1 r hr).trans (u2 r hr) ?_ ?_⟩
    · intro a ha1 ha2
      by_cases has : a = s
      · subst has; exact e2
      · intro r hr i hi j hj
        have haA : a < max A B := lt_of_lt_of_le (by omega) (le_max_left _ _)
        have hsM : s < max A B := lt_of_lt_of_le hsA' (le_max_left _ _)
        rw [(u2 r hr).frame, e1 a ha1 (by omega) r hr i hi j hj]
        rintro (h3 | h3 | ⟨W, hW, h3⟩)
        · exact (hc.work r hr).sep a haA s hsM has (by simpa using h3)
        · exact hc.wF r hr s hsM a haA (by simpa using h3.symm)
        · exact (hc.work r hr).W_buf W hW a haA (by simpa using (FftBase.inArr_buf h3).symm)
    · rintro p (⟨a, ha1, ha2, h3⟩ | h3)
      · exact Or.inl ⟨a, ha1, by omega, h3⟩
      · exact Or.inr h3
    · rintro p (h3 | h3 | h3)
      · exact Or.inl ⟨s, h1, by omega, Or.inl h3⟩
      · exact Or.inl ⟨s, h1, by omega, Or.inr h3⟩
      · exact Or.inr h3

end DConv3
end Fftwpp
