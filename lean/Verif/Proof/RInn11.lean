import Verif.Proof.RInn10
import Verif.Proof.RInn5

/-! The backward inner transforms of real data (`p>2`) in the common forms. -/

namespace Fftwpp
open Finset

namespace Re
variable {o : Re} {f F U W : Ptr} {mem : Mem} {r : ℕ} {W? : Option Ptr} {Q : Unit → Mem → Prop}
local notation "conj" => starRingEnd ℂ

/-! ### Equalities -/

theorem boneMany_eq : o.backwardInnerManyOne F f W r = ((seqLoop (rng 0 o.p) fun t => o.ifftm.exec (F + o.Sm * t) (W + o.Sm * t)) >>= fun _ =>
    (par (rng3 0 o.p 1 o.m 0 o.C) fun (t, s, c) => do
    let zeta ← o.Zetaqm.get (o.m * (o.n * t + r) + s)
    let v ← load (W + o.Sm * t + o.S * s + c)
    store (W + o.Sm * t + o.S * s + c) (v * conj zeta)) >>= fun _ => o.fftpMany o.ifftp W >>= fun _ => o.iInc f W r) := by
  unfold backwardInnerManyOne iInc
  rfl

theorem bone_eq (hS : o.S = 1) (hC : o.C = 1) (hSm : o.Sm = o.m) : o.backwardInnerOne U f r =
    ((par (rng3 0 o.p 1 o.m 0 o.C) fun (t, s, c) => do
      let v ← load (U + o.Sm * t + o.S * s + c)
      let z ← o.Zetaqm.get (o.m * (o.n * t + r) + s)
      store (U + o.Sm * t + o.S * s + c) (v * conj z)) >>= fun _ => o.fftpMany o.ifftp U >>= fun _ => o.iInc f U r) := by
  unfold backwardInnerOne iInc fftpMany
  simp only [Cmd.bind_bind, hS, hC, hSm, parD_one, parD_one3, par_one3, Nat.one_mul, Ptr.add_zero, if_true]

theorem bhalfMany_eq : o.backwardInnerManyHalf F f W r = ((seqLoop (rng 0 (ceilquotient o.p 2)) fun t => o.ifftm.exec (F + o.Sm * t) (W + o.Sm * t)) >>= fun _ =>
    (par (rng3 0 (ceilquotient o.p 2) 1 o.m 0 o.C) fun (t, s, c) => do
      let zeta ← o.Zetaqm.get (o.m * (2 * o.n * t + r) + s)
      let v ← load (W + o.Sm * t + o.S * s + c)
      store (W + o.Sm * t + o.S * s + c) (v * conj zeta)) >>= fun _ => o.fftpMany o.ifftp2 W >>= fun _ => o.iIncH f W r) := by
  unfold backwardInnerManyHalf iIncH
  rfl

theorem bhalf_eq (hS : o.S = 1) (hC : o.C = 1) (hSm : o.Sm = o.m) : o.backwardInnerHalf F f W r =
    (o.ifftmp2.exec F W >>= fun _ => (par (rng3 0 (ceilquotient o.p 2) 1 o.m 0 o.C) fun (t, s, c) => do
      let v ← load (W + o.Sm * t + o.S * s + c)
      let z ← o.Zetaqm.get (o.m * (2 * o.n * t + r) + s)
      store (W + o.Sm * t + o.S * s + c) (v * conj z)) >>= fun _ => o.fftpMany o.ifftp2 W >>= fun _ => o.iIncH f W r) := by
  unfold backwardInnerHalf iIncH fftpMany
  simp only [Cmd.bind_bind, hS, hC, hSm, parD_one, parD_one3, par_one3, Nat.one_mul, Ptr.add_zero, if_true]

theorem bzeroMany_eq : o.backwardInnerManyZero F f W = (((seqLoop (rng 0 (ceilquotient o.p 2)) fun t => o.ifftmr0.exec (F + o.Sm * t) (W + o.Cm * t)) >>= fun _ =>
    (par (rng3 1 (ceilquotient o.p 2) 1 o.m 0 o.C) fun (t, s, c) => do
      let z ← o.Zetaqm.get (o.m * (o.n * t) + s)
      let v ← load (W + o.Cm * t + o.C * s + c)
      store (W + o.Cm * t + o.C * s + c) (v * id z))) >>= fun _ =>
    (if o.p = 2 * ceilquotient o.p 2 then o.iffthp.exec (F + ceilquotient o.p 2 * o.Sm) (W + ceilquotient o.p 2 * o.Cm) >>= fun _ => o.zUnpack W
      else pure ()) >>= fun _ => o.crfftp.c2r W W >>= fun _ => o.zCopy f W) := by
  unfold backwardInnerManyZero zCopy zUnpack
  simp only [Cmd.bind_bind, id]

theorem bzero_eq (hS : o.S = 1) (hC : o.C = 1) (hSm : o.Sm = o.m) (hCm : o.Cm = o.m) : o.backwardInnerZero F f W =
    ((o.ifftmp2.exec F W >>= fun _ =>
    (par (rng3 1 (ceilquotient o.p 2) 1 o.m 0 o.C) fun (t, s, c) => do
      let v ← load (W + o.Cm * t + o.C * s + c)
      let z ← o.Zetaqm.get (o.m * (o.n * t) + s)
      store (W + o.Cm * t + o.C * s + c) (v * id z))) >>= fun _ =>
    (if o.p = 2 * ceilquotient o.p 2 then o.iffthp.exec (F + ceilquotient o.p 2 * o.Sm) (W + ceilquotient o.p 2 * o.Cm) >>= fun _ => o.zUnpack W
      else pure ()) >>= fun _ => o.crfftp.c2r W W >>= fun _ => o.zCopy f W) := by
  unfold backwardInnerZero zCopy zUnpack
  simp only [Cmd.bind_bind, id, hS, hC, hSm, hCm, par_run, par_one2, parD_run, parD_one, parD_one3, par_one3, Nat.one_mul, Nat.mul_one, Nat.mul_zero, Ptr.add_zero]

/-! ### The calls -/
section
variable (w' : o.WF) (hp : 2 < o.p)
include w' hp

theorem backward_big (a : o.Args mem f F W?) (hv : o.Visit r) :
    (o.backward F f r W?).Ok mem (fun _ m' => o.BwPost mem m' f F (o.workMany F r W?) r) := by
  have hm := w'.m_pos
  have hn := w'.n_pos
  have hq := w'.q_ne hp
  have hr2 := visit_le w' hp hv
  have hroute := w'.route_eq
  rw [if_neg hq, if_neg (by omega), if_neg (by omega)] at hroute
  have adrS : ∀ t s c, o.Sm * t + o.S * s + c = o.S * (o.m * t + s) + c := fun t s c => by rw [w'.Sm_eq]; ring
  have adrC : ∀ t s c, o.Cm * t + o.C * s + c = o.C * (o.m * t + s) + c := fun t s c => by rw [w'.Cm_eq]; ring
  have hp2 : ceilquotient o.p 2 ≤ o.p / 2 + 1 := by rw [ceil2]; omega
  have hrW : o.m * ceilquotient o.p 2 ≤ o.m * (o.p / 2 + 1) := Nat.mul_le_mul_left _ hp2
  -- twiddle factors for `r=0`
  have zz : ∀ t s, 1 ≤ t → t < ceilquotient o.p 2 → 1 ≤ s → s < o.m → (o.Zetaqm.lo ≤ o.m * (o.n * t) + s ∧ o.m * (o.n * t) + s < o.Zetaqm.hi) ∧
      id (o.Zetaqm.val (o.m * (o.n * t) + s)) = w o.M ((s : ℤ) * (o.n * (t : ℤ))) := by
    intro t s h1 h2 h3 h4
    have := nt_lt w' hp (t := t) (r := 0) (by omega) hn
    refine ⟨w'.zq_bd hq (Nat.mul_pos hn (by omega)) this h4, ?_⟩
    rw [w'.zq_val hq h4, id]
    congr 1
  -- twiddle factors for `2r=n`
  have zh : 0 < r → 2 * r = o.n → ∀ t s, t < ceilquotient o.p 2 → 1 ≤ s → s < o.m →
      (o.Zetaqm.lo ≤ o.m * (2 * o.n * t + r) + s ∧ o.m * (2 * o.n * t + r) + s < o.Zetaqm.hi) ∧
      conj (o.Zetaqm.val (o.m * (2 * o.n * t + r) + s)) = conj (w o.M ((s : ℤ) * ((2 * o.n * t + r : ℕ) : ℤ))) := by
    intro h0 h1 t s h2 h3 h4
    have hpe := half_even w' hp h0 h1
    have := nt_lt w' hp (t := 2 * t) (r := r) (by omega) (by omega)
    refine ⟨w'.zq_bd hq (by omega) ?_ h4, by rw [w'.zq_val hq h4]⟩
    rwa [show 2 * o.n * t = o.n * (2 * t) by ring]
  have zo : ∀ t s k, 0 < k → 2 * k < o.n → t < o.p → 1 ≤ s → s < o.m → (o.Zetaqm.lo ≤ o.m * (o.n * t + k) + s ∧ o.m * (o.n * t + k) + s < o.Zetaqm.hi) ∧
      conj (o.Zetaqm.val (o.m * (o.n * t + k) + s)) = conj (w o.M ((s : ℤ) * ((o.n * t + k : ℕ) : ℤ))) := fun t s k h0 h1 h2 h3 h4 => by
    have h := zqm_row w' hp h3 h4 (by omega) (nt_lt w' hp h2 (show k < o.n by omega))
    exact ⟨h.1, congrArg conj h.2⟩
  unfold backward
  rw [hroute]
  by_cases hS : o.S = 1
  · have hC := w'.C_one hS
    have hSm : o.Sm = o.m := by rw [w'.Sm_eq, hS, Nat.one_mul]
    have hCm : o.Cm = o.m := by rw [w'.Cm_eq, hC, Nat.one_mul]
    simp only [if_pos hS]
    unfold backwardInner
    rw [work_S1 w' hp a hS r]
    simp only
    by_cases h0 : r = 0
    · subst h0
      have pre := a.preB0 w' hp
      rw [if_pos rfl, bzero_eq hS hC hSm hCm]
      have key := bwdB_zero w' hp rfl (body := fun (t, s, c) => do
        let v ← load (o.workMany F 0 W? + o.Cm * t + o.C * s + c)
        let z ← o.Zetaqm.get (o.m * (o.n * t) + s)
        store (o.workMany F 0 W? + o.Cm * t + o.C * s + c) (v * id z)) ?_ pre (Q := fun _ m' => o.BwPost mem m' f F (o.workMany F 0 W?) 0) (fun _ h => h)
      · rw [if_pos hS] at key; exact key
      · intro t s c h1 h2 h3 h4 hc m1 hsz
        simp only [Ptr.add_add, adrC]
        exact Scales.load_get (zz t s h1 h2 h3 h4).1 (Mem.valid_of_size hsz (vC w' hp pre.vW (lt_of_lt_of_le (radix_lt h4 h2) hrW) hc)) (zz t s h1 h2 h3 h4).2
    rw [if_neg h0]
    have pre := a.preB w' hp h0
    by_cases hlt : 2 * r < o.n
    · rw [if_pos ((n2_lt w' hp hr2).2 hlt)]
      have key := bwdB_ord w' hp (F := F) (row := fun U k => o.backwardInnerOne U f k) (pl := if r = 1 ∧ o.D0 ≠ o.D then o.ifftm0 else o.ifftm) ?_
        (Or.inl ⟨hS, ord_plan w' hp (fun h h' => (w'.fftm_S1 hq h h').2) (fun h => (w'.fftm0_eq hq h).2) hS (by omega)⟩) pre hv (by omega) hlt
        (Q := fun _ m' => o.BwPost mem m' f F (o.workMany F r W?) r) (fun _ h => h)
      · rw [if_pos hS] at key; exact key
      · intro U k m0 hk hkn hfU vf vU
        rw [bone_eq hS hC hSm]
        refine iRowB_ok w' hp hk hkn hfU vf vU ?_ (fun m' u e => ⟨u, e⟩)
        intro t s c h1 h2 h3 hc m1 hsz
        simp only [Ptr.add_add, adrS]
        exact Scales.load_get (zo t s k hk hkn h1 h2 h3).1 (vU.get hsz (radix_lt h3 h1) hc) (zo t s k hk hkn h1 h2 h3).2
    · have h2 : 2 * r = o.n := by omega
      rw [if_neg (fun h => hlt ((n2_lt w' hp hr2).1 h)), bhalf_eq hS hC hSm]
      have hpe := half_even w' hp (by omega) h2
      have key := bwdB_half w' hp hpe (F := F) (body := fun (t, s, c) => do
        let v ← load (o.workMany F r W? + o.Sm * t + o.S * s + c)
        let z ← o.Zetaqm.get (o.m * (2 * o.n * t + r) + s)
        store (o.workMany F r W? + o.Sm * t + o.S * s + c) (v * conj z)) ?_ (Or.inl ⟨hS, (w'.fftmp2_eq hp hS).2⟩) pre (by omega) h2
        (Q := fun _ m' => o.BwPost mem m' f F (o.workMany F r W?) r) (fun _ h => h)
      · rw [if_pos hS] at key; exact key
      · intro t s c h1 h3 h4 hc m1 hsz
        simp only [Ptr.add_add, adrS]
        exact Scales.load_get (zh (by omega) h2 t s h1 h3 h4).1 ((validW_of w' pre.vW (half_rows w' hp hpe)).get hsz (radix_lt h4 h1) hc)
          (zh (by omega) h2 t s h1 h3 h4).2
  · simp only [if_neg hS]
    unfold backwardInnerMany
    simp only
    by_cases h0 : r = 0
    · subst h0
      have pre := a.preB0 w' hp
      rw [if_pos rfl, bzeroMany_eq]
      have key := bwdB_zero w' hp rfl (body := fun (t, s, c) => do
        let z ← o.Zetaqm.get (o.m * (o.n * t) + s)
        let v ← load (o.workMany F 0 W? + o.Cm * t + o.C * s + c)
        store (o.workMany F 0 W? + o.Cm * t + o.C * s + c) (v * id z)) ?_ pre (Q := fun _ m' => o.BwPost mem m' f F (o.workMany F 0 W?) 0) (fun _ h => h)
      · rw [if_neg hS] at key; exact key
      · intro t s c h1 h2 h3 h4 hc m1 hsz
        simp only [Ptr.add_add, adrC]
        exact Scales.get_load (zz t s h1 h2 h3 h4).1 (Mem.valid_of_size hsz (vC w' hp pre.vW (lt_of_lt_of_le (radix_lt h4 h2) hrW) hc)) (zz t s h1 h2 h3 h4).2
    rw [if_neg h0]
    have pre := a.preB w' hp h0
    by_cases hlt : 2 * r < o.n
    · rw [if_pos ((n2_lt w' hp hr2).2 hlt), boneMany_eq]
      have hnd : o.nd r = 1 := (w'.nd_SB hp r).resolve_left hS
      have key := bwdB_ord w' hp (F := F) (W := o.workMany F r W?) (row := fun U k => ((par (rng3 0 o.p 1 o.m 0 o.C) fun (t, s, c) => do
          let zeta ← o.Zetaqm.get (o.m * (o.n * t + k) + s)
          let v ← load (U + o.Sm * t + o.S * s + c)
          store (U + o.Sm * t + o.S * s + c) (v * conj zeta)) >>= fun _ => o.fftpMany o.ifftp U >>= fun _ => o.iInc f U k)) (pl := o.ifftm) ?_
        (Or.inr ⟨hS, (w'.fftm_many hq hS (by omega)).2⟩) pre hv (by omega) hlt
        (Q := fun _ m' => o.BwPost mem m' f F (o.workMany F r W?) r) (fun _ h => h)
      · rw [if_neg hS, hnd, seqLoop_zero_one, Nat.mul_one] at key
        simp only [Nat.mul_zero, Ptr.add_zero, Nat.add_zero] at key
        exact key
      · intro U k m0 hk hkn hfU vf vU
        refine iRowB_ok w' hp hk hkn hfU vf vU ?_ (fun m' u e => ⟨u, e⟩)
        intro t s c h1 h2 h3 hc m1 hsz
        simp only [Ptr.add_add, adrS]
        exact Scales.get_load (zo t s k hk hkn h1 h2 h3).1 (vU.get hsz (radix_lt h3 h1) hc) (zo t s k hk hkn h1 h2 h3).2
    · have h2 : 2 * r = o.n := by omega
      rw [if_neg (fun h => hlt ((n2_lt w' hp hr2).1 h)), bhalfMany_eq]
      have hpe := half_even w' hp (by omega) h2
      have key := bwdB_half w' hp hpe (F := F) (body := fun (t, s, c) => do
        let zeta ← o.Zetaqm.get (o.m * (2 * o.n * t + r) + s)
        let v ← load (o.workMany F r W? + o.Sm * t + o.S * s + c)
        store (o.workMany F r W? + o.Sm * t + o.S * s + c) (v * conj zeta)) ?_ (Or.inr ⟨hS, (w'.fftm_even hq hS (by omega)).2⟩) pre (by omega) h2
        (Q := fun _ m' => o.BwPost mem m' f F (o.workMany F r W?) r) (fun _ h => h)
      · rw [if_neg hS] at key; exact key
      · intro t s c h1 h3 h4 hc m1 hsz
        simp only [Ptr.add_add, adrS]
        exact Scales.get_load (zh (by omega) h2 t s h1 h3 h4).1 ((validW_of w' pre.vW (half_rows w' hp hpe)).get hsz (radix_lt h4 h1) hc)
          (zh (by omega) h2 t s h1 h3 h4).2

end
end Re
end Fftwpp
