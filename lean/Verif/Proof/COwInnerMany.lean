import Verif.Proof.COwInner2

/-! The centered routines that overwrite their input, `p>2`, many copies. -/

namespace Fftwpp
namespace Cent
open Finset ComplexConjugate
open Fft (seqLoop_rng)
variable {o : Cent}
section
variable {f F : Ptr} {mem : Mem}

theorem Ow.znm (h : o.Ow) {t s : ℕ} (ht : 0 < t) : o.n * o.m * t + s = o.m * (o.n * t) + s ∧ o.n * o.m * t + o.m + s = o.m * (o.n * t + 1) + s ∧
    o.n * o.m * t - o.m + s = o.m * (o.n * t - 1) + s := by
  refine ⟨by ring, by ring, ?_⟩
  rw [Nat.mul_sub, Nat.mul_one]; congr 2; ring

theorem forwardInnerManyAll_ok (h : o.Ow) (hp : 2 < o.p) (hS : o.S ≠ 1) (pre : o.OwPre mem f F) :
    (o.forwardInnerManyAll f F).Ok mem (fun _ m' => o.OwFwd mem m' f F) := by
  obtain ⟨h1, h2, h3, h4, h5, h6, h7, h8, h9⟩ := h.facts
  have hP := h.wf.P_pos
  have hSm := h.wf.Sm_eq
  have hC0 := h.wf.C_pos
  have z1 : o.p / 2 = o.P := by omega
  unfold forwardInnerManyAll
  simp only [z1]
  refine Cmd.Ok.bind ((Fills.start (T := o.GT (o.xA mem f) sA) (h.inj pre.fF)).parz (fun x : ℕ × ℕ => (0, x.1, x.2)) (rng2_nodup _ _ _ _) ?_ (fun _ _ _ h => h) ?_ ?_)
  · intro i _ j _ e; simp only [Prod.mk.injEq, true_and] at e; exact Prod.ext e.1 e.2
  · rintro ⟨s, c⟩ hs m' sm
    simp only [mem_rng2] at hs
    exact wrG0 h hp sm pre hP hs.1.2 hs.2.2 (by dfe hSm) (by dfe hSm) (by dfe hSm) rfl
  intro m1 f1
  refine Cmd.Ok.bind (f1.parz (fun x : ℕ × ℕ × ℕ => x) (rng3_nodup _ _ _ _ _ _) ?_ ?_ ?_ ?_)
  · intro i _ j _ e; exact e
  · rintro ⟨u, s, c⟩ hs d hd
    simp only [mem_rng3, mem_rng2, Prod.mk.injEq, false_or] at hs hd
    obtain ⟨i, hi, e⟩ := hd; omega
  · rintro ⟨t, s, c⟩ hs m' sm
    simp only [mem_rng3] at hs
    exact wrG1 h hp sm pre hs.1.2 hs.2.1.2 hs.2.2.2 (by dfe hSm) (by dfe hSm) (by dfe hSm) hs.1.1
  intro m2 f2
  have f2' := f2.congr (done' := fun _ => True) (by
    rintro ⟨d, t, s, c⟩ hk
    have h0 := hk.2.2.2
    have h1 := hk.2.1
    have h2 := hk.2.2.1
    simp only at h0 h1 h2
    simp only [mem_rng3, mem_rng2, Prod.mk.injEq, false_or, iff_true]
    by_cases ht : t = 0
    · exact Or.inl ⟨(s, c), ⟨⟨by omega, h2⟩, by simp only; omega⟩, ht, rfl, rfl⟩
    · exact Or.inr ⟨(t, s, c), ⟨⟨by simp only; omega, h1⟩, ⟨by simp only; omega, h2⟩, by simp only; omega⟩, rfl⟩)
  refine Cmd.Ok.bind (fftp3M h (h.wf.plF hp) (pre.size f2.size) fun m3 f3 => ?_)
  have pre3 : o.OwPre m3 f F := pre.size (f3.size.trans f2.size)
  refine Cmd.Ok.bind ((Fills.start (T := o.ZT m3 (o.VA f F) sA) (h.inj pre.fF)).parD (fun x : ℕ × ℕ => (0, x.1, x.2)) (rng2_nodup _ _ _ _) ?_ [1, 2] (by simp) ?_ ?_ ?_ ?_ ?_)
  · intro i _ j _ e; simp only [Prod.mk.injEq, true_and] at e; exact Prod.ext e.1 e.2
  · rintro ⟨s, c⟩ hs d hd
    simp only [mem_rng2] at hs
    exact (R3 hP hs.1.2 hs.2.2 d).2 (by simp at hd; omega)
  · rintro ⟨s, c⟩ hs
    simp only [mem_rng2] at hs
    exact (wrZ0 h hp pre3 hP hs.1.2 hs.2.2 rfl (by dfe hSm) (by dfe hSm) rfl rfl (fun _ => rfl) (by rw [Nat.mul_one]) rfl).1
  · rintro ⟨s, c⟩ hs
    simp only [mem_rng2] at hs
    exact (wrZ0 h hp pre3 hP hs.1.2 hs.2.2 rfl (by dfe hSm) (by dfe hSm) rfl rfl (fun _ => rfl) (by rw [Nat.mul_one]) rfl).2.1
  · rintro ⟨s, c⟩ hs
    simp only [mem_rng2] at hs
    exact (wrZ0 h hp pre3 hP hs.1.2 hs.2.2 rfl (by dfe hSm) (by dfe hSm) rfl rfl (fun _ => rfl) (by rw [Nat.mul_one]) rfl).2.2
  intro m4 f4
  refine Cmd.Ok.bind (f4.parz (fun x : ℕ × ℕ × ℕ => x) (rng3_nodup _ _ _ _ _ _) ?_ ?_ ?_ ?_)
  · intro i _ j _ e; exact e
  · rintro ⟨u, s, c⟩ hs d hd
    simp only [mem_rng3, mem_rng2, Prod.mk.injEq, false_or] at hs hd
    obtain ⟨i, hi, e⟩ := hd; omega
  · rintro ⟨t, s, c⟩ hs m' sm
    simp only [mem_rng3] at hs
    obtain ⟨y1, y2, y3⟩ := h.znm (s := s) hs.1.1
    exact wrZ h hp sm pre3 hs.1.2 hs.2.1.2 hs.2.2.2 (by dfe hSm) (by dfe hSm) (by dfe hSm) hs.1.1 y1 y2 y3
  intro m5 f5
  have st := stages h.wf f2' f3 (fun _ _ => trivial) f5 (by
    rintro ⟨d, u, s, c⟩ hk hd
    by_contra hne
    have h0 := hk.2.2.2
    have h1 := hk.2.1
    have h2 := hk.2.2.1
    have h3 := hk.1
    simp only at h0 h1 h2 h3
    simp only [not_or] at hne
    by_cases hu : u = 0
    · subst hu
      have hd0 : d ≠ 0 := fun e => hne.2 ⟨rfl, by rw [e]; rfl⟩
      exact hd (Or.inl (Or.inr ⟨(s, c), mem_rng2.2 ⟨⟨by simp only; omega, h2⟩, by simp only; omega⟩, by simp only [List.mem_cons, List.mem_singleton]; omega, rfl⟩))
    · exact hd (Or.inr ⟨(u, s, c), mem_rng3.2 ⟨⟨by simp only; omega, h1⟩, ⟨by simp only; omega, h2⟩, by simp only; omega⟩, rfl⟩))
  exact rows3M_ok h (h.wf.fftm_many hS).1 (pre.size st.size) fun m6 f6 => ow_out h st f6

theorem backwardInnerManyAll_ok (h : o.Ow) (hp : 2 < o.p) (hS : o.S ≠ 1) (pre : o.OwPre mem f F) :
    (o.backwardInnerManyAll F f).Ok mem (fun _ m' => o.OwBwd mem m' f F) := by
  obtain ⟨h1, h2, h3, h4, h5, h6, h7, h8, h9⟩ := h.facts
  have hP := h.wf.P_pos
  have hSm := h.wf.Sm_eq
  have hC0 := h.wf.C_pos
  have z1 : o.p / 2 = o.P := by omega
  unfold backwardInnerManyAll
  simp only [z1]
  refine Cmd.Ok.bind (rows3M_ok h (h.wf.fftm_many hS).2 pre fun m0 f0 => ?_)
  have pre3 : o.OwPre m0 f F := pre.size f0.size
  refine Cmd.Ok.bind ((Fills.start (T := o.BT m0 (o.VA f F) sA) (h.inj pre.fF)).parD (fun x : ℕ × ℕ => (0, x.1, x.2)) (rng2_nodup _ _ _ _) ?_ [1, 2] (by simp) ?_ ?_ ?_ ?_ ?_)
  · intro i _ j _ e; simp only [Prod.mk.injEq, true_and] at e; exact Prod.ext e.1 e.2
  · rintro ⟨s, c⟩ hs d hd
    simp only [mem_rng2] at hs
    exact (R3 hP hs.1.2 hs.2.2 d).2 (by simp at hd; omega)
  · rintro ⟨s, c⟩ hs
    simp only [mem_rng2] at hs
    exact (wrB0 h hp pre3 hP hs.1.2 hs.2.2 rfl (by dfe hSm) (by dfe hSm) rfl rfl (fun _ => rfl) (by rw [Nat.mul_one]) rfl).1
  · rintro ⟨s, c⟩ hs
    simp only [mem_rng2] at hs
    exact (wrB0 h hp pre3 hP hs.1.2 hs.2.2 rfl (by dfe hSm) (by dfe hSm) rfl rfl (fun _ => rfl) (by rw [Nat.mul_one]) rfl).2.1
  · rintro ⟨s, c⟩ hs
    simp only [mem_rng2] at hs
    exact (wrB0 h hp pre3 hP hs.1.2 hs.2.2 rfl (by dfe hSm) (by dfe hSm) rfl rfl (fun _ => rfl) (by rw [Nat.mul_one]) rfl).2.2
  intro m4 f4
  refine Cmd.Ok.bind (f4.parz (fun x : ℕ × ℕ × ℕ => x) (rng3_nodup _ _ _ _ _ _) ?_ ?_ ?_ ?_)
  · intro i _ j _ e; exact e
  · rintro ⟨u, s, c⟩ hs d hd
    simp only [mem_rng3, mem_rng2, Prod.mk.injEq, false_or] at hs hd
    obtain ⟨i, hi, e⟩ := hd; omega
  · rintro ⟨t, s, c⟩ hs m' sm
    simp only [mem_rng3] at hs
    obtain ⟨y1, y2, y3⟩ := h.znm (s := s) hs.1.1
    exact wrB h hp sm pre3 hs.1.2 hs.2.1.2 hs.2.2.2 (by dfe hSm) (by dfe hSm) (by dfe hSm) hs.1.1 y1 y2 y3
  intro m5 f5
  refine Cmd.Ok.bind (fftp3M h (h.wf.plB hp) (pre3.size f5.size) fun m6 f6 => ?_)
  have pre6 : o.OwPre m6 f F := pre3.size (f6.size.trans f5.size)
  refine Cmd.Ok.bind ((Fills.start (T := o.DT m6 3 (o.VA f F) sA (fun _ _ => 0)) (h.wf.dD_inj hp f)).parz (fun x : ℕ × ℕ => (0, x.1, x.2)) (rng2_nodup _ _ _ _) ?_ (fun _ _ _ h => h) ?_ ?_)
  · intro i _ j _ e; simp only [Prod.mk.injEq, true_and] at e; exact Prod.ext e.1 e.2
  · rintro ⟨s, c⟩ hs m' sm
    simp only [mem_rng2] at hs
    exact wrD0 h hp pre6 hP hs.1.2 hs.2.2 (by dfe hSm) (by dfe hSm) (by dfe hSm) sm rfl
  intro m7 f7
  refine f7.parz (fun x : ℕ × ℕ × ℕ => x) (rng3_nodup _ _ _ _ _ _) ?_ ?_ ?_ ?_
  · intro i _ j _ e; exact e
  · rintro ⟨u, s, c⟩ hs d hd
    simp only [mem_rng3, mem_rng2, Prod.mk.injEq, false_or] at hs hd
    obtain ⟨i, hi, e⟩ := hd; omega
  · rintro ⟨t, s, c⟩ hs m' sm
    simp only [mem_rng3] at hs
    exact wrD1 h hp pre6 hs.1.2 hs.2.1.2 hs.2.2.2 (by dfe hSm) (by dfe hSm) (by dfe hSm) sm hs.1.1
  intro m8 f8
  refine ow_back h f0 (back_stages h.wf hp f5 ?_ f6 (fun _ _ => trivial) (f8.congr ?_))
  · rintro ⟨d, u, s, c⟩ hk hd
    by_contra hne
    have h0 := hk.2.2.2
    have h1 := hk.2.1
    have h2 := hk.2.2.1
    have h3 := hk.1
    simp only at h0 h1 h2 h3
    simp only [not_or] at hne
    by_cases hu : u = 0
    · subst hu
      have hd0 : d ≠ 0 := fun e => hne.2 ⟨rfl, by rw [e]; rfl⟩
      exact hd (Or.inl (Or.inr ⟨(s, c), mem_rng2.2 ⟨⟨by simp only; omega, h2⟩, by simp only; omega⟩, by simp only [List.mem_cons, List.mem_singleton]; omega, rfl⟩))
    · exact hd (Or.inr ⟨(u, s, c), mem_rng3.2 ⟨⟨by simp only; omega, h1⟩, ⟨by simp only; omega, h2⟩, by simp only; omega⟩, rfl⟩)
  · rintro ⟨d, t, s, c⟩ ⟨_, h1, h2, h3⟩
    simp only at h1 h2 h3
    simp only [mem_rng3, mem_rng2, Prod.mk.injEq, false_or, iff_true]
    by_cases ht : t = 0
    · exact Or.inl ⟨(s, c), ⟨⟨by omega, h2⟩, by simp only; omega⟩, ht, rfl, rfl⟩
    · exact Or.inr ⟨(t, s, c), ⟨⟨by simp only; omega, h1⟩, ⟨by simp only; omega, h2⟩, by simp only; omega⟩, rfl⟩

end
end Cent
end Fftwpp
