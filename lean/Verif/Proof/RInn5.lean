import Verif.Proof.RInn4

/-! The forward inner transforms of real data (`p>2`) in the common forms. -/

namespace Fftwpp
open Finset

section
variable {m : Mem} {p : Ptr} {z z' : ℂ} {t : Table} {i : ℕ} {g : ℂ → ℂ}

theorem Scales.get_load (hi : t.lo ≤ i ∧ i < t.hi) (hv : m.valid p) (hz : g (t.val i) = z) :
    (do
      let z ← t.get i
      let v ← load p
      store p (v * g z) : Body Unit).Scales m p z := by
  subst hz
  refine ⟨⟨hi, hv, hv, trivial⟩, rfl, ?_⟩
  intro x hx
  simpa [load, store, Table.get, Body.bind_eq, Body.bind, Body.rds] using hx

theorem Scales.load_get (hi : t.lo ≤ i ∧ i < t.hi) (hv : m.valid p) (hz : g (t.val i) = z) :
    (do
      let v ← load p
      let z ← t.get i
      store p (v * g z) : Body Unit).Scales m p z := by
  subst hz
  refine ⟨⟨hv, hi, hv, trivial⟩, rfl, ?_⟩
  intro x hx
  simpa [load, store, Table.get, Body.bind_eq, Body.bind, Body.rds] using hx
end

theorem parD_run (body : ℕ → Body Unit) : parD (rng 0 1) body = runD (body 0) := by
  rw [parD_first, parD_one, runD_eq]

namespace Re
variable {o : Re} {f F U W : Ptr} {mem : Mem} {r : ℕ} {W? : Option Ptr} {Q : Unit → Mem → Prop}
local notation "conj" => starRingEnd ℂ

/-! ### Equalities -/

theorem oneMany_eq : o.forwardInnerManyOne f F W r = ((o.iFill f W r >>= fun _ => o.fftpMany o.fftp W >>= fun _ => par (rng3 0 o.p 1 o.m 0 o.C) fun (t, s, c) => do
    let zeta ← o.Zetaqm.get (o.m * (o.n * t + r) + s)
    let v ← load (W + o.Sm * t + o.S * s + c)
    store (W + o.Sm * t + o.S * s + c) (v * id zeta)) >>= fun _ => seqLoop (rng 0 o.p) fun t => o.fftm.exec (W + o.Sm * t) (F + o.Sm * t)) := by
  unfold forwardInnerManyOne iFill
  simp only [Cmd.bind_bind, id]

theorem one_eq (hS : o.S = 1) (hC : o.C = 1) (hSm : o.Sm = o.m) : o.forwardInnerOne f U r =
    (o.iFill f U r >>= fun _ => o.fftpMany o.fftp U >>= fun _ => par (rng3 0 o.p 1 o.m 0 o.C) fun (t, s, c) => do
      let v ← load (U + o.Sm * t + o.S * s + c)
      let z ← o.Zetaqm.get (o.m * (o.n * t + r) + s)
      store (U + o.Sm * t + o.S * s + c) (v * id z)) := by
  unfold forwardInnerOne iFill fftpMany
  simp only [Cmd.bind_bind, id, hS, hC, hSm, parD_one, parD_one3, par_one3, Nat.one_mul, Ptr.add_zero, if_true]

theorem halfMany_eq : o.forwardInnerManyHalf f F W r = (o.iFillH f W r >>= fun _ => o.fftpMany o.fftp2 W >>= fun _ =>
    (par (rng3 0 (ceilquotient o.p 2) 1 o.m 0 o.C) fun (t, s, c) => do
      let zeta ← o.Zetaqm.get (o.m * (2 * o.n * t + r) + s)
      let v ← load (W + o.Sm * t + o.S * s + c)
      store (W + o.Sm * t + o.S * s + c) (v * id zeta)) >>= fun _ => seqLoop (rng 0 (ceilquotient o.p 2)) fun t => o.fftm.exec (W + o.Sm * t) (F + o.Sm * t)) := by
  unfold forwardInnerManyHalf iFillH
  simp only [Cmd.bind_bind, id]

theorem half_eq (hS : o.S = 1) (hC : o.C = 1) (hSm : o.Sm = o.m) : o.forwardInnerHalf f F W r =
    (o.iFillH f W r >>= fun _ => o.fftpMany o.fftp2 W >>= fun _ => (par (rng3 0 (ceilquotient o.p 2) 1 o.m 0 o.C) fun (t, s, c) => do
      let v ← load (W + o.Sm * t + o.S * s + c)
      let z ← o.Zetaqm.get (o.m * (2 * o.n * t + r) + s)
      store (W + o.Sm * t + o.S * s + c) (v * id z)) >>= fun _ => o.fftmp2.exec W F) := by
  unfold forwardInnerHalf iFillH fftpMany
  simp only [Cmd.bind_bind, id, hS, hC, hSm, parD_one, parD_one3, par_one3, Nat.one_mul, Ptr.add_zero, if_true]

theorem zeroMany_eq : o.forwardInnerManyZero f F W = ((o.zFill f W >>= fun _ => o.rcfftp.r2c W W) >>= fun _ =>
    (par (rng3 1 (ceilquotient o.p 2) 1 o.m 0 o.C) fun (t, s, c) => do
      let z ← o.Zetaqm.get (o.m * (o.n * t) + s)
      let v ← load (W + o.Cm * t + o.C * s + c)
      store (W + o.Cm * t + o.C * s + c) (v * conj z)) >>= fun _ =>
    (seqLoop (rng 0 (ceilquotient o.p 2)) fun t => o.fftmr0.exec (W + o.Cm * t) (F + o.Sm * t)) >>= fun _ =>
    if o.p = 2 * ceilquotient o.p 2 then o.zPack W >>= fun _ => o.ffthp.exec (W + ceilquotient o.p 2 * o.Cm) (F + ceilquotient o.p 2 * o.Sm)
      else pure ()) := by
  unfold forwardInnerManyZero zFill zPack
  simp only [Cmd.bind_bind]

theorem zero_eq (hS : o.S = 1) (hC : o.C = 1) (hSm : o.Sm = o.m) (hCm : o.Cm = o.m) : o.forwardInnerZero f F W =
    ((o.zFill f W >>= fun _ => o.rcfftp.r2c W W) >>= fun _ =>
    (par (rng3 1 (ceilquotient o.p 2) 1 o.m 0 o.C) fun (t, s, c) => do
      let v ← load (W + o.Cm * t + o.C * s + c)
      let z ← o.Zetaqm.get (o.m * (o.n * t) + s)
      store (W + o.Cm * t + o.C * s + c) (v * conj z)) >>= fun _ =>
    o.fftmp2.exec W F >>= fun _ =>
    if o.p = 2 * ceilquotient o.p 2 then o.zPack W >>= fun _ => o.ffthp.exec (W + ceilquotient o.p 2 * o.Cm) (F + ceilquotient o.p 2 * o.Sm)
      else pure ()) := by
  unfold forwardInnerZero zFill zPack
  simp only [Cmd.bind_bind, hS, hC, hSm, hCm, parD_run, parD_one, parD_one3, par_one3, Nat.one_mul, Nat.mul_one, Nat.mul_zero, Ptr.add_zero]

/-! ### The calls -/
section
variable (w' : o.WF) (hp : 2 < o.p)
include w' hp

theorem n2_lt (hr : 2 * r ≤ o.n) : r < ceilquotient o.n 2 ↔ 2 * r < o.n := by rw [ceil2]; omega

theorem Args.preB (a : o.Args mem f F W?) (hr : r ≠ 0) : o.Pre mem f F (o.workMany F r W?) := by
  obtain ⟨h1, h2, h3⟩ := a.work r
  refine ⟨a.fF, h1, ?_, a.vf w', a.bF, h2⟩
  rcases h3 with ⟨hi, _, h4⟩ | ⟨_, h4, _⟩ | ⟨hi, _, h4⟩
  · exact Or.inl ⟨hi, h4⟩
  · exact absurd h4 hr
  · exact Or.inr ⟨hi, h4⟩

theorem Args.preB0 (a : o.Args mem f F W?) : o.Pre0 mem f F (o.workMany F 0 W?) := by
  obtain ⟨h1, h2, h3⟩ := a.work 0
  refine ⟨a.fF, h1, ?_, a.vf w', a.bF, h2⟩
  have hV := w'.V_eq
  have hCS := w'.C_le_S
  have hC := w'.C_pos
  rcases h3 with ⟨hi, h5, h4⟩ | ⟨hi, _, h5, h4⟩ | ⟨hi, _, h4⟩
  · refine Or.inl ⟨hi, ?_, h4⟩
    have hn : o.V = none := h5.resolve_left (by simp)
    rw [hn] at hV
    simp only [Option.isSome_none] at hV
    have := of_decide_eq_false hV.symm
    by_contra hne
    exact this ⟨hp, by omega, hi, by omega⟩
  · refine Or.inr ⟨Or.inr ?_, h4⟩
    rw [Option.isSome_iff_ne_none.2 h5] at hV
    exact (of_decide_eq_true hV.symm).2.2.2
  · exact Or.inr ⟨Or.inl hi, h4⟩

theorem work_S1 (a : o.Args mem f F W?) (hS : o.S = 1) (r : ℕ) : W?.getD F = o.workMany F r W? := by
  have hV := w'.V_eq
  rw [decide_eq_false (by omega)] at hV
  unfold workMany
  rw [show o.V = none by simpa using hV]; simp

theorem ord_plan {sgn : ℤ} {pl pl0 : Plan} (h1 : o.S = 1 → 2 < o.n → pl = ⟨o.m, sgn, o.D * o.P, 1, o.m, o.inplace⟩)
    (h0 : o.D0 ≠ o.D → pl0 = ⟨o.m, sgn, o.D0 * o.P, 1, o.m, o.inplace⟩) (hS : o.S = 1) (hn : 2 < o.n) :
    (if r = 1 ∧ o.D0 ≠ o.D then pl0 else pl) = ⟨o.m, sgn, o.p * o.nd r, 1, o.m, o.inplace⟩ := by
  unfold nd
  by_cases h : r = 1 ∧ o.D0 ≠ o.D
  · rw [if_pos h, if_pos h, h0 h.2, P_big w' hp, Nat.mul_comm]
  · rw [if_neg h, if_neg h, h1 hS hn, P_big w' hp, Nat.mul_comm]

theorem visit_le (hv : o.Visit r) : 2 * r ≤ o.n := by
  rcases hv with h | h | h
  · omega
  · omega
  · have := (w'.nd_leB hp r).1
    omega

theorem forward_big (a : o.Args mem f F W?) (hv : o.Visit r) :
    (o.forward f F r W?).Ok mem (fun _ m' => o.FPost mem m' f F (o.workMany F r W?) r) := by
  have hm := w'.m_pos
  have hn := w'.n_pos
  have hq := w'.q_ne hp
  have hr2 := visit_le w' hp hv
  have hroute := w'.route_eq
  rw [if_neg hq, if_neg (by omega), if_neg (by omega)] at hroute
  have adrS : ∀ t s c, o.Sm * t + o.S * s + c = o.S * (o.m * t + s) + c := fun t s c => by rw [w'.Sm_eq]; ring
  have adrC : ∀ t s c, o.Cm * t + o.C * s + c = o.C * (o.m * t + s) + c := fun t s c => by rw [w'.Cm_eq]; ring
  have hp2 : ceilquotient o.p 2 ≤ o.p / 2 + 1 := by rw [ceil2]; omega
  have hrW : o.m * ceilquotient o.p 2 ≤ o.m * (o.p / 2 + 1) := Nat.mul_le_mul_left _ hp2
  -- twiddle factors for `r=0`
  have zz : ∀ t s, 1 ≤ t → t < ceilquotient o.p 2 → 1 ≤ s → s < o.m → (o.Zetaqm.lo ≤ o.m * (o.n * t) + s ∧ o.m * (o.n * t) + s < o.Zetaqm.hi) ∧
      conj (o.Zetaqm.val (o.m * (o.n * t) + s)) = w o.M ((s : ℤ) * (o.n * (-(t : ℤ)))) := by
    intro t s h1 h2 h3 h4
    have := nt_lt w' hp (t := t) (r := 0) (by omega) hn
    refine ⟨w'.zq_bd hq (Nat.mul_pos hn (by omega)) this h4, ?_⟩
    rw [w'.zq_val hq h4, w_conj]
    congr 1; push_cast; ring
  -- twiddle factors for `2r=n`
  have zh : 0 < r → 2 * r = o.n → ∀ t s, t < ceilquotient o.p 2 → 1 ≤ s → s < o.m →
      (o.Zetaqm.lo ≤ o.m * (2 * o.n * t + r) + s ∧ o.m * (2 * o.n * t + r) + s < o.Zetaqm.hi) ∧
      id (o.Zetaqm.val (o.m * (2 * o.n * t + r) + s)) = w o.M ((s : ℤ) * ((2 * o.n * t + r : ℕ) : ℤ)) := by
    intro h0 h1 t s h2 h3 h4
    have hpe := half_even w' hp h0 h1
    have := nt_lt w' hp (t := 2 * t) (r := r) (by omega) (by omega)
    refine ⟨w'.zq_bd hq (by omega) ?_ h4, w'.zq_val hq h4⟩
    rwa [show 2 * o.n * t = o.n * (2 * t) by ring]
  have zo : ∀ t s k, 0 < k → 2 * k < o.n → t < o.p → 1 ≤ s → s < o.m → (o.Zetaqm.lo ≤ o.m * (o.n * t + k) + s ∧ o.m * (o.n * t + k) + s < o.Zetaqm.hi) ∧
      id (o.Zetaqm.val (o.m * (o.n * t + k) + s)) = w o.M ((s : ℤ) * ((o.n * t + k : ℕ) : ℤ)) := fun t s k h0 h1 h2 h3 h4 =>
    zqm_row w' hp h3 h4 (by omega) (nt_lt w' hp h2 (by omega))
  unfold forward
  rw [hroute]
  by_cases hS : o.S = 1
  · have hC := w'.C_one hS
    have hSm : o.Sm = o.m := by rw [w'.Sm_eq, hS, Nat.one_mul]
    have hCm : o.Cm = o.m := by rw [w'.Cm_eq, hC, Nat.one_mul]
    simp only [if_pos hS]
    unfold forwardInner
    rw [work_S1 w' hp a hS r]
    simp only
    by_cases h0 : r = 0
    · subst h0
      have pre := a.preB0 w' hp
      rw [if_pos rfl, zero_eq hS hC hSm hCm]
      have key := fwdB_zero w' hp rfl (body := fun (t, s, c) => do
        let v ← load (o.workMany F 0 W? + o.Cm * t + o.C * s + c)
        let z ← o.Zetaqm.get (o.m * (o.n * t) + s)
        store (o.workMany F 0 W? + o.Cm * t + o.C * s + c) (v * conj z)) ?_ pre (Q := fun _ m' => o.FPost mem m' f F (o.workMany F 0 W?) 0) (fun _ h => h)
      · rw [if_pos hS] at key; exact key
      · intro t s c h1 h2 h3 h4 hc m1 hsz
        simp only [Ptr.add_add, adrC]
        exact Scales.load_get (zz t s h1 h2 h3 h4).1 (Mem.valid_of_size hsz (vC w' hp pre.vW (lt_of_lt_of_le (radix_lt h4 h2) hrW) hc)) (zz t s h1 h2 h3 h4).2
    rw [if_neg h0]
    have pre := a.preB w' hp h0
    by_cases hlt : 2 * r < o.n
    · rw [if_pos ((n2_lt w' hp hr2).2 hlt)]
      have key := fwdB_ord w' hp (F := F) (row := fun U k => o.forwardInnerOne f U k) (pl := if r = 1 ∧ o.D0 ≠ o.D then o.fftm0 else o.fftm) ?_
        (Or.inl ⟨hS, ord_plan w' hp (fun h h' => (w'.fftm_S1 hq h h').1) (fun h => (w'.fftm0_eq hq h).1) hS (by omega)⟩) pre hv (by omega) hlt
        (Q := fun _ m' => o.FPost mem m' f F (o.workMany F r W?) r) (fun _ h => h)
      · rw [if_pos hS] at key; exact key
      · intro U k m0 hk hkn hfU vf vU
        rw [one_eq hS hC hSm]
        refine iRow_ok w' hp hk hkn hfU vf vU ?_ (fun m' u e => ⟨u, e⟩)
        intro t s c h1 h2 h3 hc m1 hsz
        simp only [Ptr.add_add, adrS]
        exact Scales.load_get (zo t s k hk hkn h1 h2 h3).1 (vU.get hsz (radix_lt h3 h1) hc) (zo t s k hk hkn h1 h2 h3).2
    · have h2 : 2 * r = o.n := by omega
      rw [if_neg (fun h => hlt ((n2_lt w' hp hr2).1 h)), half_eq hS hC hSm]
      have hpe := half_even w' hp (by omega) h2
      have key := fwdB_half w' hp hpe (F := F) (body := fun (t, s, c) => do
        let v ← load (o.workMany F r W? + o.Sm * t + o.S * s + c)
        let z ← o.Zetaqm.get (o.m * (2 * o.n * t + r) + s)
        store (o.workMany F r W? + o.Sm * t + o.S * s + c) (v * id z)) ?_ (Or.inl ⟨hS, (w'.fftmp2_eq hp hS).1⟩) pre (by omega) h2
        (Q := fun _ m' => o.FPost mem m' f F (o.workMany F r W?) r) (fun _ h => h)
      · rw [if_pos hS] at key; exact key
      · intro t s c h1 h3 h4 hc m1 hsz
        simp only [Ptr.add_add, adrS]
        exact Scales.load_get (zh (by omega) h2 t s h1 h3 h4).1 ((validW_of w' pre.vW (half_rows w' hp hpe)).get hsz (radix_lt h4 h1) hc)
          (zh (by omega) h2 t s h1 h3 h4).2
  · simp only [if_neg hS]
    unfold forwardInnerMany
    simp only
    by_cases h0 : r = 0
    · subst h0
      have pre := a.preB0 w' hp
      rw [if_pos rfl, zeroMany_eq]
      have key := fwdB_zero w' hp rfl (body := fun (t, s, c) => do
        let z ← o.Zetaqm.get (o.m * (o.n * t) + s)
        let v ← load (o.workMany F 0 W? + o.Cm * t + o.C * s + c)
        store (o.workMany F 0 W? + o.Cm * t + o.C * s + c) (v * conj z)) ?_ pre (Q := fun _ m' => o.FPost mem m' f F (o.workMany F 0 W?) 0) (fun _ h => h)
      · rw [if_neg hS] at key; exact key
      · intro t s c h1 h2 h3 h4 hc m1 hsz
        simp only [Ptr.add_add, adrC]
        exact Scales.get_load (zz t s h1 h2 h3 h4).1 (Mem.valid_of_size hsz (vC w' hp pre.vW (lt_of_lt_of_le (radix_lt h4 h2) hrW) hc)) (zz t s h1 h2 h3 h4).2
    rw [if_neg h0]
    have pre := a.preB w' hp h0
    by_cases hlt : 2 * r < o.n
    · rw [if_pos ((n2_lt w' hp hr2).2 hlt), oneMany_eq]
      have hnd : o.nd r = 1 := (w'.nd_SB hp r).resolve_left hS
      have key := fwdB_ord w' hp (F := F) (W := o.workMany F r W?) (row := fun U k => (o.iFill f U k >>= fun _ => o.fftpMany o.fftp U >>= fun _ => par (rng3 0 o.p 1 o.m 0 o.C) fun (t, s, c) => do
          let zeta ← o.Zetaqm.get (o.m * (o.n * t + k) + s)
          let v ← load (U + o.Sm * t + o.S * s + c)
          store (U + o.Sm * t + o.S * s + c) (v * id zeta))) (pl := o.fftm) ?_
        (Or.inr ⟨hS, (w'.fftm_many hq hS (by omega)).1⟩) pre hv (by omega) hlt
        (Q := fun _ m' => o.FPost mem m' f F (o.workMany F r W?) r) (fun _ h => h)
      · rw [if_neg hS, hnd, seqLoop_zero_one, Nat.mul_one] at key
        simp only [Nat.mul_zero, Ptr.add_zero, Nat.add_zero] at key
        exact key
      · intro U k m0 hk hkn hfU vf vU
        refine iRow_ok w' hp hk hkn hfU vf vU ?_ (fun m' u e => ⟨u, e⟩)
        intro t s c h1 h2 h3 hc m1 hsz
        simp only [Ptr.add_add, adrS]
        exact Scales.get_load (zo t s k hk hkn h1 h2 h3).1 (vU.get hsz (radix_lt h3 h1) hc) (zo t s k hk hkn h1 h2 h3).2
    · have h2 : 2 * r = o.n := by omega
      rw [if_neg (fun h => hlt ((n2_lt w' hp hr2).1 h)), halfMany_eq]
      have hpe := half_even w' hp (by omega) h2
      have key := fwdB_half w' hp hpe (F := F) (body := fun (t, s, c) => do
        let zeta ← o.Zetaqm.get (o.m * (2 * o.n * t + r) + s)
        let v ← load (o.workMany F r W? + o.Sm * t + o.S * s + c)
        store (o.workMany F r W? + o.Sm * t + o.S * s + c) (v * id zeta)) ?_ (Or.inr ⟨hS, (w'.fftm_even hq hS (by omega)).1⟩) pre (by omega) h2
        (Q := fun _ m' => o.FPost mem m' f F (o.workMany F r W?) r) (fun _ h => h)
      · rw [if_neg hS] at key; exact key
      · intro t s c h1 h3 h4 hc m1 hsz
        simp only [Ptr.add_add, adrS]
        exact Scales.get_load (zh (by omega) h2 t s h1 h3 h4).1 ((validW_of w' pre.vW (half_rows w' hp hpe)).get hsz (radix_lt h4 h1) hc)
          (zh (by omega) h2 t s h1 h3 h4).2

end
end Re
end Fftwpp
