import Verif.Proof.RInn9

/-! Backward inner transforms of real data (`p>2`): the residue `0`. -/

namespace Fftwpp
open Finset
local notation "conj" => starRingEnd ℂ

namespace Re
variable {o : Re} {f F U W : Ptr} {mem : Mem} {r : ℕ} {W? : Option Ptr} {Q : Unit → Mem → Prop}

/-- The values of a column of the block. -/
noncomputable def zY (o : Re) (mem : Mem) (F : Ptr) (c i : ℕ) : ℂ := mem.val (F + (o.S * i + c))

section
variable (w' : o.WF) (hp : 2 < o.p)
include w' hp

theorem zH_lt (hqe : o.q % 2 = 0) (Y : ℕ → ℂ) (p2 s : ℕ) :
    conj (w o.M (s * ((o.q / 2 : ℕ) : ℤ))) * ∑ l ∈ range o.h, Y (o.m * p2 + l) * w o.h (-1 * l * s) = o.zH Y p2 s := by
  have hq := w'.q_ne hp
  have hq0 := w'.q_pos
  have hmh := w'.m_h hq hqe
  have hM : o.M = o.h * (2 * o.q) := by rw [w'.M_eq, hmh]; ring
  unfold zH
  rw [mul_sum]
  refine sum_congr rfl fun l _ => ?_
  rw [w_conj, ← w_base o.h (2 * o.q) (by omega), ← hM, mul_left_comm, ← w_add]
  congr 2
  generalize ((o.q / 2 : ℕ) : ℤ) = a
  push_cast; ring

theorem zH_ge (hqe : o.q % 2 = 0) (Y : ℕ → ℂ) (p2 s : ℕ) : o.zH Y p2 (s + o.h) = -Complex.I * o.zH Y p2 s := by
  have hq := w'.q_ne hp
  have hq0 := w'.q_pos
  have hmh := w'.m_h hq hqe
  have hh := w'.h_pos hq hqe
  have hI : w o.M (-((o.h : ℤ) * ((o.q / 2 : ℕ) : ℤ))) = -Complex.I := by
    have hM : o.M = 4 * (o.h * (o.q / 2)) := by
      rw [w'.M_eq, hmh]
      obtain ⟨k, hk⟩ : ∃ k, o.q = 2 * k := ⟨o.q / 2, by omega⟩
      rw [hk, Nat.mul_div_cancel_left _ (by omega : 0 < 2)]; ring
    have h0 : o.h * (o.q / 2) ≠ 0 := by
      have := Nat.mul_pos hh (show 0 < o.q / 2 by omega)
      omega
    have := w_base 4 (o.h * (o.q / 2)) h0 (-1)
    rw [hM, show -((o.h : ℤ) * ((o.q / 2 : ℕ) : ℤ)) = ((o.h * (o.q / 2) : ℕ) : ℤ) * (-1) by rw [Nat.cast_mul]; ring, this, ← w_conj, w_four_one,
      Complex.conj_I]
  unfold zH
  rw [mul_sum]
  refine sum_congr rfl fun l _ => ?_
  rw [← hI, mul_left_comm, ← w_add]
  congr 1
  apply w_congr
  rw [w'.M_eq, hmh]
  generalize o.q / 2 = q2
  exact ⟨-l, by push_cast; ring⟩

/-- The inverse transforms of the rows and the twiddle factors. -/
theorem zBack_ok {body : ℕ × ℕ × ℕ → Body Unit} {p2 : ℕ} (hc2 : ceilquotient o.p 2 = p2)
    (hb : ∀ t s c, 1 ≤ t → t < p2 → 1 ≤ s → s < o.m → c < o.C → ∀ m1 : Mem, m1.size = mem.size →
      (body (t, s, c)).Scales m1 (W + (o.C * (o.m * t + s) + c)) (w o.M ((s : ℤ) * (o.n * (t : ℤ)))))
    (pre : o.Pre0 mem f F W)
    (hQ : ∀ m', mem.Upd m' (Rws o.C o.C W (o.m * p2)) →
      (∀ t < p2, ∀ s < o.m, ∀ c < o.C, m'.val (W + (o.C * (o.m * t + s) + c)) = o.zR (o.zY mem F c) t s) → Q () m') :
    ((if o.S = 1 then o.ifftmp2.exec F W else seqLoop (rng 0 p2) fun t => o.ifftmr0.exec (F + o.Sm * t) (W + o.Cm * t)) >>= fun _ =>
      par (rng3 1 p2 1 o.m 0 o.C) body).Ok mem Q := by
  have hm := w'.m_pos
  have hq0 := w'.q_pos
  have hp2' : p2 = (o.p + 1) / 2 := by rw [← hc2, ceil2]
  have hrW : o.m * p2 ≤ o.m * (o.p / 2 + 1) := Nat.mul_le_mul_left _ (by omega)
  have vF := validW_of w' pre.vF (le_trans hrW (w'.rows_big hp))
  simp only [w'.Cm_eq, w'.Sm_eq]
  refine Cmd.Ok.bind (zRows_ok w' hp (fun hS => by rw [(w'.fftmp2_eq hp hS).2, hc2]) (fun hS => (w'.fftmr0_eq hp (by have := w'.S_pos; omega)).2) (Or.inr ⟨rfl, rfl⟩)
    pre.sep.swap (fun j hj c hc => vF.get rfl hj hc) (fun j hj c hc => vC w' hp pre.vW (by omega) hc) ?_)
  intro m1 u1 e1
  refine twid_ok (U := W) (Z := fun t s => w o.M ((s : ℤ) * (o.n * (t : ℤ)))) le_rfl
    (fun t s c h1 ht hs hs' hc => hb t s c h1 ht hs hs' hc m1 u1.size) (fun t => by simp) (fun t ht s => by
      obtain rfl : t = 0 := by omega
      simp) ?_
  intro m2 u2 e2 _
  refine hQ m2 (u1.trans u2 (fun _ h => h) (fun _ h => h)) ?_
  intro t ht s hs c hc
  rw [e2 t ht s hs c hc, e1 t ht s hs c hc, sum_mul]
  unfold zR zY
  refine sum_congr rfl fun l _ => ?_
  rw [mul_assoc]
  congr 1
  rw [← w_base o.m o.q (by omega), ← w'.M_eq, ← w_add]
  congr 1; ring

/-- The last row. -/
theorem zLast_ok {p2 : ℕ} (hev : o.p = 2 * p2) (pre : o.Pre0 mem f F W)
    (hQ : ∀ m', mem.Upd m' (fun p => ∃ s c, s < o.m ∧ c < o.C ∧ p = W + (o.C * (o.m * p2 + s) + c)) →
      (∀ s < o.m, ∀ c < o.C, m'.val (W + (o.C * (o.m * p2 + s) + c)) = ((2 * (o.zH (o.zY mem F c) p2 s).re : ℝ) : ℂ)) → Q () m') :
    (o.iffthp.exec (F + p2 * o.Sm) (W + p2 * o.Cm) >>= fun _ => o.zUnpack W).Ok mem Q := by
  have hq := w'.q_ne hp
  obtain ⟨hqe, hq2⟩ := w'.q_half hp (by omega)
  have hmh := w'.m_h hq hqe
  have hpn : o.p / 2 = p2 := by omega
  have hrow1 : o.m * (o.p / 2 + 1) = o.m * p2 + o.m := by rw [hpn, Nat.mul_succ]
  have hadr : ∀ X i c : ℕ, p2 * (X * o.m) + (X * i + c) = X * (o.m * p2 + i) + c := fun X i c => by ring
  simp only [w'.Cm_eq, w'.Sm_eq]
  rw [(w'.ffthp_eq hp hqe).2]
  refine Cmd.Ok.bind (sexec_cols w'.C_le_S le_rfl ?_ ?_ ?_ ?_)
  · rcases (pre.sep.shift w' hp (A := p2 * (o.C * o.m)) (B := p2 * (o.S * o.m)) (fun h => by rw [h])).plan w' hp with ⟨h1, h2, h3⟩ | ⟨h1, h2⟩
    · exact Or.inl ⟨h1, h2.symm, h3.symm⟩
    · exact Or.inr ⟨h1, h2.symm⟩
  · intro i hi c hc
    rw [Ptr.add_add, hadr]
    exact (validW_of w' pre.vF (w'.rows_big hp)).get rfl (by omega) hc
  · intro i hi c hc
    rw [Ptr.add_add, hadr]
    exact vC w' hp pre.vW (by omega) hc
  intro m1 u1 e1
  simp only [Ptr.add_add, hadr] at u1 e1
  refine zUnpack_ok w' hp hev (fun i hi => Mem.valid_of_size u1.size (pre.vW i hi)) ?_
  intro m2 u2 e2
  refine hQ m2 (u1.trans u2 ?_ (fun _ h => h)) ?_
  · rintro p ⟨i, hi, c, hc, rfl⟩; exact ⟨i, c, by omega, hc, rfl⟩
  have hH : ∀ s < o.h, ∀ c < o.C, 2 * conj (w o.M (s * ((o.q / 2 : ℕ) : ℤ))) * m1.val (W + (o.C * (o.m * p2 + s) + c)) = 2 * o.zH (o.zY mem F c) p2 s := by
    intro s hs c hc
    rw [e1 s hs c hc, ← zH_lt w' hp hqe, mul_assoc]
    rfl
  intro s hs c hc
  by_cases h : s < o.h
  · rw [(e2 s c h hc).1, hH s h c hc]
    congr 1
    simp
  · obtain ⟨s', rfl⟩ : ∃ s', s = s' + o.h := ⟨s - o.h, by omega⟩
    rw [(e2 s' c (by omega) hc).2, hH s' (by omega) c hc, zH_ge w' hp hqe]
    congr 1
    simp

/-- The complex to real transforms and the copy. -/
theorem zC2r_ok (hfW : f.buf ≠ W.buf) (vf : o.ValidF mem f) (vW : mem.block W o.outputSize)
    (hQ : ∀ m', mem.DUpd m' (fun y => o.Dat f y ∨ InArr W o.outputSize (wordOf y)) →
      (∀ s < o.m, ∀ c < o.C, RPlan.realSpec o.p (fun t => mem.val (W + (o.C * (o.m * t + s) + c))) → ∀ u, s + o.m * u < o.L →
        m'.cell (dptr f + (o.S * (s + o.m * u) + c)) = (∑ t ∈ range o.p, RPlan.full o.p (fun t => mem.val (W + (o.C * (o.m * t + s) + c))) t * w o.p (t * u)).re) → Q () m') :
    (o.crfftp.c2r W W >>= fun _ => o.zCopy f W).Ok mem Q := by
  have hm := w'.m_pos
  obtain ⟨_, J, _, hpl⟩ := w'.rcp hp
  rw [hpl]
  have hadr : ∀ i k, o.C * o.m * i + k = o.C * (o.m * i + k / o.C) + k % o.C := fun i k => by
    have := Nat.div_add_mod k o.C
    calc o.C * o.m * i + k = o.C * o.m * i + (o.C * (k / o.C) + k % o.C) := by rw [this]
      _ = _ := by ring
  have hdiv : ∀ k < o.C * o.m, k / o.C < o.m := fun c hc => Nat.div_lt_of_lt_mul hc
  have hmod : ∀ k, k % o.C < o.C := fun c => Nat.mod_lt _ w'.C_pos
  refine Cmd.Ok.bind (RPlan.c2r_cols le_rfl (Or.inl ⟨rfl, rfl⟩) ?_ ?_ ?_)
  · intro i hi k hk
    rw [hadr]
    exact vC w' hp vW (radix_lt (hdiv k hk) hi) (hmod k)
  · intro i hi k hk
    rw [hadr, Mem.split_valid, RPlan.wordOf_add]
    exact vW _ (dC w' hp (radix_lt (hdiv k hk) hi) (hmod k))
  intro m1 u1 e1
  have u1' : mem.Upd m1 (InArr W o.outputSize) := u1.mono (by
    rintro p (⟨i, hi, k, hk, rfl⟩ | ⟨i, hi, k, hk, rfl⟩)
    · rw [hadr]; exact inC w' hp (radix_lt (hdiv k hk) hi) (hmod k)
    · rw [hadr, RPlan.wordOf_add]; exact ⟨_, dC w' hp (radix_lt (hdiv k hk) hi) (hmod k), rfl⟩)
  refine zCopy_ok w' hp hfW (fun j hj c hc => vf.get u1.size hj hc) (fun i hi => Mem.valid_of_size u1.size (vW i hi)) ?_
  intro m2 u2 e2
  refine hQ m2 (u1'.cells.trans u2 (fun _ h => Or.inr h) (fun _ h => Or.inl h)) ?_
  intro s hs c hc hreal u hu
  have hup : u < o.p := by
    have := w'.p_ub
    by_contra h
    have := Nat.mul_le_mul_left o.m (Nat.le_of_not_lt h)
    omega
  have h := e1 (o.C * s + c) (radix_lt hc hs)
  have hadr2 : ∀ t, o.C * o.m * t + (o.C * s + c) = o.C * (o.m * t + s) + c := fun t => by ring
  simp only [hadr2] at h
  rw [e2 _ hu c hc, Nat.add_comm s]
  exact h hreal u hup

/-- The residue `0`, in a form common to the two variants. -/
theorem bwdB_zero {body : ℕ × ℕ × ℕ → Body Unit} {p2 : ℕ} (hc2 : ceilquotient o.p 2 = p2)
    (hb : ∀ t s c, 1 ≤ t → t < p2 → 1 ≤ s → s < o.m → c < o.C → ∀ m1 : Mem, m1.size = mem.size →
      (body (t, s, c)).Scales m1 (W + (o.C * (o.m * t + s) + c)) (w o.M ((s : ℤ) * (o.n * (t : ℤ)))))
    (pre : o.Pre0 mem f F W) (hQ : ∀ m', o.BwPost mem m' f F W 0 → Q () m') :
    (((if o.S = 1 then o.ifftmp2.exec F W else seqLoop (rng 0 p2) fun t => o.ifftmr0.exec (F + o.Sm * t) (W + o.Cm * t)) >>= fun _ =>
      par (rng3 1 p2 1 o.m 0 o.C) body) >>= fun _ =>
      (if o.p = 2 * p2 then o.iffthp.exec (F + p2 * o.Sm) (W + p2 * o.Cm) >>= fun _ => o.zUnpack W else pure ()) >>= fun _ =>
      (o.crfftp.c2r W W >>= fun _ => o.zCopy f W)).Ok mem Q := by
  have hm := w'.m_pos
  have hCS := w'.C_le_S
  have hp2' : p2 = (o.p + 1) / 2 := by rw [← hc2, ceil2]
  have hrW : o.m * p2 ≤ o.m * (o.p / 2 + 1) := Nat.mul_le_mul_left _ (by omega)
  refine Cmd.Ok.bind (zBack_ok w' hp hc2 hb pre ?_)
  intro m1 u1 e1
  have u1' : mem.Upd m1 (InArr W o.outputSize) := u1.mono (by
    rintro p ⟨j, hj, c, hc, rfl⟩; exact inC w' hp (by omega) hc)
  -- the end of the routine
  have fin : ∀ m2 : Mem, mem.Upd m2 (InArr W o.outputSize) → (∀ t < p2, ∀ s < o.m, ∀ c < o.C, m2.val (W + (o.C * (o.m * t + s) + c)) = o.zR (o.zY mem F c) t s) →
      (o.p % 2 = 0 → ∀ s < o.m, ∀ c < o.C, m2.val (W + (o.C * (o.m * (o.p / 2) + s) + c)) = ((2 * (o.zH (o.zY mem F c) (o.p / 2) s).re : ℝ) : ℂ)) →
      (o.crfftp.c2r W W >>= fun _ => o.zCopy f W).Ok m2 Q := by
    intro m2 u2 h1 h2
    refine zC2r_ok w' hp pre.fW (fun j hj c hc => pre.vf.get u2.size hj hc)
      (fun i hi => Mem.valid_of_size u2.size (pre.vW i hi)) ?_
    intro m3 u3 e3
    refine hQ m3 ⟨u2.cells.trans u3 (fun _ h => Or.inr (Or.inr h)) (fun _ h => h.imp id Or.inr), ?_⟩
    intro c hc hcons j hj
    have hs : j % o.m < o.m := Nat.mod_lt _ hm
    have hj' : j = j % o.m + o.m * (j / o.m) := (Nat.mod_add_div j o.m).symm
    have hz := zero_sum w' hp (Y := o.zY mem F c) (V := fun t => m2.val (W + (o.C * (o.m * t + j % o.m) + c))) hcons (s := j % o.m) (j / o.m)
      (fun t ht => h1 t (by omega) _ hs c hc) (fun he => h2 he _ hs c hc)
    have h := e3 (j % o.m) hs c hc hz.1 (j / o.m) (by rwa [← hj'])
    rw [← hj', hz.2, ← hj'] at h
    rw [if_pos rfl, zero_add, h]
    rfl
  by_cases hev : o.p = 2 * p2
  · rw [if_pos hev]
    have hpn : o.p / 2 = p2 := by omega
    have hrow1 : o.m * (o.p / 2 + 1) = o.m * p2 + o.m := by rw [hpn, Nat.mul_succ]
    refine Cmd.Ok.bind (zLast_ok w' hp hev ⟨pre.fF, pre.fW, pre.sep, fun j hj c hc => pre.vf.get u1.size hj hc,
      fun i hi => Mem.valid_of_size u1.size (pre.vF i hi), fun i hi => Mem.valid_of_size u1.size (pre.vW i hi)⟩ ?_)
    intro m2 u2 e2
    have hY : ∀ c < o.C, ∀ s, o.zH (o.zY m1 F c) p2 s = o.zH (o.zY mem F c) p2 s := by
      intro c hc s
      unfold zH zY
      refine sum_congr rfl fun l _ => ?_
      rw [u1.frame]
      rintro ⟨j, hj, c', hc', h⟩
      rcases pre.sep with ⟨_, h2, h3⟩ | ⟨_, h3⟩
      · rw [h3, ← h2, Ptr.add_inj] at h
        have := radix_inj hc hc' h
        omega
      · exact h3 (by simpa using (congrArg Ptr.buf h).symm)
    refine fin m2 (u1'.trans u2 (fun _ h => h) ?_) ?_ ?_
    · rintro p ⟨s, c, hs, hc, rfl⟩; exact inC w' hp (by omega) hc
    · intro t ht s hs c hc
      rw [u2.frame, e1 t ht s hs c hc]
      rintro ⟨s', c', hs', hc', h⟩
      rw [Ptr.add_inj] at h
      have h1 := radix_inj hc hc' h
      have h2 := radix_lt hs ht
      omega
    · intro _ s hs c hc
      rw [hpn, e2 s hs c hc, hY c hc]
  · rw [if_neg hev]
    exact Cmd.Ok.bind ⟨(), m1, rfl, fin m1 u1' e1 (fun h => by omega)⟩

end
end Re
end Fftwpp
