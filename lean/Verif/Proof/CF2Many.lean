import Verif.Proof.CF2

/-! `fftPadCentered::forward2Many`. -/

namespace Fftwpp
namespace Cent
open Finset ComplexConjugate
variable {o : Cent}

theorem WF.rowsM (h : o.WF) (hS : o.S ≠ 1) (hp : o.p = 2) (r : ℕ) : o.rows r = 1 := by
  rw [h.rows2 hp]
  have h1 := h.D_one hS
  have h2 := h.D0_eq_one h1
  unfold blks; split_ifs <;> omega

theorem WF.sigM (h : o.WF) (hD : o.D = 1) {r : ℕ} (hv : o.Visit r) : o.sig r 0 = r ∧ r < o.n := by
  rcases Nat.eq_zero_or_pos r with h0 | h0
  · subst h0
    have := h.block0_odd (Or.inl hD)
    exact ⟨this.2.1, h.n_pos⟩
  · obtain ⟨b1, b2, b3⟩ := h.block_pos hv h0
    have hb : o.blks r = 1 := by unfold blks; rw [if_neg (by omega), hD]
    have := b3 0 (by omega)
    rw [if_pos hD] at this
    refine ⟨this, ?_⟩
    have : 0 < o.dr := by have := h.shw.dr_pos; rwa [h.sh_fields.2.2.2.2.2.2.2.1] at this
    omega

theorem forward2Many_ok (h : o.WF) (hp : o.p = 2) (hq : o.q ≠ 1) (hS : o.S ≠ 1) {f F W : Ptr} {mem : Mem} {r : ℕ}
    {W? : Option Ptr} (hW : W?.getD F = W) (pre : o.Pre mem f F W) (hv : o.Visit r) :
    (o.forward2Many f F r W?).Ok mem (fun _ m' => o.FwdPost mem m' f F W r) := by
  obtain ⟨hH, g1, g2, g3, g4, g5, g6, g7⟩ := h.geo2 hp
  have hP := h.P_one hp
  have hD := h.D_one hS
  have hqn := h.q_n2 hp
  have hb := pre.fW
  have hCS := h.C_le_S
  obtain ⟨hsig, hrn⟩ := h.sigM hD hv
  have hres : o.res r 0 = r := by rw [h.res2 hp, hsig]
  have hdB : ∀ k : ℕ × ℕ, (W + (o.S * k.1 + k.2)).buf = W.buf := fun _ => rfl
  have hinj : ∀ k k' : ℕ × ℕ, (k.1 < o.m ∧ k.2 < o.C) → (k'.1 < o.m ∧ k'.2 < o.C) → W + (o.S * k.1 + k.2) = W + (o.S * k'.1 + k'.2) → k = k' := by
    rintro ⟨a, b⟩ ⟨a', b'⟩ h1 h2 h3
    rw [Ptr.add_inj] at h3
    simp only at h1 h2 h3
    obtain ⟨e1, e2⟩ := radix_inj (by omega) (by omega) h3
    rw [e1, e2]
  have hstart : Fills mem mem (fun k : ℕ × ℕ => k.1 < o.m ∧ k.2 < o.C) (fun k => W + (o.S * k.1 + k.2))
      (fun k => fillc o.M o.L o.m 1 o.H (fun j => mem.val (f + (o.S * j + k.2))) (o.res r 0) k.1) (fun _ => False) := Fills.start hinj
  rw [hres] at hstart
  have hfv : ∀ {m' T D}, Fills mem m' (fun k : ℕ × ℕ => k.1 < o.m ∧ k.2 < o.C) (fun k => W + (o.S * k.1 + k.2)) T D →
      ∀ j : ℕ, m'.val (f + j) = mem.val (f + j) := fun hm j => hm.val_buf hdB hb
  have hmD : o.m * (o.P * o.D) = o.m := by rw [hP, hD]; simp
  have hWv : ∀ {m' T D}, Fills mem m' (fun k : ℕ × ℕ => k.1 < o.m ∧ k.2 < o.C) (fun k => W + (o.S * k.1 + k.2)) T D →
      ∀ s < o.m, ∀ c < o.C, m'.valid (W + (o.S * s + c)) := fun hm s hs c hc => hm.valid (pre.vW s (by omega) c hc)
  have hsub : ∀ s c : ℕ, o.m - o.H ≤ s → f - o.S * (o.m - o.H) + (o.S * s + c) = f + (o.S * (s - (o.m - o.H)) + c) := fun s c hs => by
    have h1 : o.S * (o.m - o.H) ≤ o.S * s := Nat.mul_le_mul_left _ hs
    rw [Ptr.sub_add (by omega), Nat.mul_sub o.S s]
    congr 1; omega
  have hfH : ∀ s c : ℕ, f + (o.S * o.H + o.S * s + c) = f + (o.S * (o.H + s) + c) := fun s c => by rw [Nat.mul_add]
  have hz : ∀ s, s ≤ o.m → (o.m + 1) * r + o.m - s = (o.m + 1) * r + (o.m - s) := fun s hs => Nat.add_sub_assoc hs _
  have hend : ∀ {m3 : Mem} {D : ℕ × ℕ → Prop}, Fills mem m3 (fun k : ℕ × ℕ => k.1 < o.m ∧ k.2 < o.C) (fun k => W + (o.S * k.1 + k.2))
      (fun k => fillc o.M o.L o.m 1 o.H (fun j => mem.val (f + (o.S * j + k.2))) r k.1)
      (fun x => ((D x ∨ ∃ i ∈ rng2 0 (o.m - o.H) 0 o.C, x = i) ∨ ∃ i ∈ rng2 (o.m - o.H) (o.L - o.H) 0 o.C, x = i) ∨
        ∃ i ∈ rng2 (o.L - o.H) o.m 0 o.C, x = i) → (o.fftm.exec W F).Ok m3 (fun _ m' => o.FwdPost mem m' f F W r) := by
    intro m3 D h3
    rw [← hres] at h3
    refine finish_cols h hS hP (h.rowsM hS hp r) pre h3 ?_
    rintro ⟨s, c⟩ ⟨hs, hc⟩
    simp only at hs hc
    simp only [mem_rng2, Prod.exists, Prod.mk.injEq]
    obtain h0 | h0 | h0 : s < o.m - o.H ∨ (o.m - o.H ≤ s ∧ s < o.L - o.H) ∨ o.L - o.H ≤ s := by omega
    · exact Or.inl (Or.inl (Or.inr ⟨s, c, by omega, rfl, rfl⟩))
    · exact Or.inl (Or.inr ⟨s, c, by omega, rfl, rfl⟩)
    · exact Or.inr ⟨s, c, by omega, rfl, rfl⟩
  unfold forward2Many
  simp only [hW, ← hH]
  by_cases hr : r = 0
  · subst hr
    rw [if_pos rfl]
    refine Cmd.Ok.bind (hstart.par1f hdB id (rng2_nodup _ _ _ _) ?_ ?_ ?_ ?_ ?_ ?_)
    · rintro ⟨s, c⟩ hs; rw [mem_rng2] at hs; simp only [id]; omega
    · intro i _ j _ e; exact e
    · rintro ⟨s, c⟩ hs
      rw [mem_rng2] at hs
      body_simp
      rw [hfH]
      exact ⟨pre.vf _ (by omega) _ (by omega), hWv hstart s (by omega) c (by omega)⟩
    · rintro ⟨s, c⟩ hs
      rw [mem_rng2] at hs
      body_simp
      simp only [id]
      rw [hfH, fillc_lo _ _ (by omega) (by omega)]; simp
    · rintro ⟨s, c⟩ hs; body_simp; simp [hb]
    intro m1 h1
    refine Cmd.Ok.bind (h1.par1f hdB id (rng2_nodup _ _ _ _) ?_ ?_ ?_ ?_ ?_ ?_)
    · rintro ⟨s, c⟩ hs; rw [mem_rng2] at hs; simp only [id]; omega
    · intro i _ j _ e; exact e
    · rintro ⟨s, c⟩ hs
      rw [mem_rng2] at hs
      body_simp
      rw [hfH, hsub _ _ hs.1.1]
      exact ⟨h1.valid (pre.vf _ (by omega) _ (by omega)), h1.valid (pre.vf _ (by omega) _ (by omega)), hWv h1 s (by omega) c (by omega)⟩
    · rintro ⟨s, c⟩ hs
      rw [mem_rng2] at hs
      body_simp
      simp only [id]
      rw [hfH, hsub _ _ hs.1.1, fillc_mid _ _ (by omega) (by omega), hfv h1, hfv h1]; simp
    · rintro ⟨s, c⟩ hs; body_simp; simp [hb]
    intro m2 h2
    refine Cmd.Ok.bind (h2.par1f hdB id (rng2_nodup _ _ _ _) ?_ ?_ ?_ ?_ ?_ ?_)
    · rintro ⟨s, c⟩ hs; rw [mem_rng2] at hs; simp only [id]; omega
    · intro i _ j _ e; exact e
    · rintro ⟨s, c⟩ hs
      rw [mem_rng2] at hs
      body_simp
      rw [hsub _ _ (by omega)]
      exact ⟨h2.valid (pre.vf _ (by omega) _ (by omega)), hWv h2 s (by omega) c (by omega)⟩
    · rintro ⟨s, c⟩ hs
      rw [mem_rng2] at hs
      body_simp
      simp only [id]
      rw [hsub _ _ (by omega), fillc_hi _ _ (by omega) (by omega), hfv h2]; simp
    · rintro ⟨s, c⟩ hs; body_simp; simp [hb]
    intro m3 h3
    exact hend h3
  · rw [if_neg hr]
    refine Cmd.Ok.bind (hstart.par1f hdB id (rng2_nodup _ _ _ _) ?_ ?_ ?_ ?_ ?_ ?_)
    · rintro ⟨s, c⟩ hs; rw [mem_rng2] at hs; simp only [id]; omega
    · intro i _ j _ e; exact e
    · rintro ⟨s, c⟩ hs
      rw [mem_rng2] at hs
      body_simp
      rw [hfH]
      exact ⟨h.zc_bd hp (by omega) (by omega) (by omega), pre.vf _ (by omega) _ (by omega), hWv hstart s (by omega) c (by omega)⟩
    · rintro ⟨s, c⟩ hs
      rw [mem_rng2] at hs
      body_simp
      simp only [id]
      rw [hfH, fillc_lo _ _ (by omega) (by omega), C30_zmult_xy, h.zc_val hp hq (by omega), mul_comm (w _ _)]
    · rintro ⟨s, c⟩ hs; body_simp; simp [hb]
    intro m1 h1
    refine Cmd.Ok.bind (h1.par1f hdB id (rng2_nodup _ _ _ _) ?_ ?_ ?_ ?_ ?_ ?_)
    · rintro ⟨s, c⟩ hs; rw [mem_rng2] at hs; simp only [id]; omega
    · intro i _ j _ e; exact e
    · rintro ⟨s, c⟩ hs
      rw [mem_rng2] at hs
      body_simp
      rw [hfH, hsub _ _ hs.1.1, hz s (by omega)]
      exact ⟨h.zc_bd hp (by omega) (by omega) (by omega), h.zc_bd hp (by omega) (by omega) (by omega), h1.valid (pre.vf _ (by omega) _ (by omega)), h1.valid (pre.vf _ (by omega) _ (by omega)), hWv h1 s (by omega) c (by omega)⟩
    · rintro ⟨s, c⟩ hs
      rw [mem_rng2] at hs
      body_simp
      simp only [id]
      rw [hfH, hsub _ _ hs.1.1, hz s (by omega), fillc_mid _ _ (by omega) (by omega), hfv h1, hfv h1, C30_zmult_xy, C30_zmult_xy_conj,
        h.zc_val hp hq (by omega), h.zc_val hp hq (by omega), wneg (by omega), mul_comm (w _ ((_ - _) * _)), mul_comm (w _ (s * _))]
    · rintro ⟨s, c⟩ hs; body_simp; simp [hb]
    intro m2 h2
    refine Cmd.Ok.bind (h2.par1f hdB id (rng2_nodup _ _ _ _) ?_ ?_ ?_ ?_ ?_ ?_)
    · rintro ⟨s, c⟩ hs; rw [mem_rng2] at hs; simp only [id]; omega
    · intro i _ j _ e; exact e
    · rintro ⟨s, c⟩ hs
      rw [mem_rng2] at hs
      body_simp
      rw [hsub _ _ (by omega), hz s (by omega)]
      exact ⟨h.zc_bd hp (by omega) (by omega) (by omega), h2.valid (pre.vf _ (by omega) _ (by omega)), hWv h2 s (by omega) c (by omega)⟩
    · rintro ⟨s, c⟩ hs
      rw [mem_rng2] at hs
      body_simp
      simp only [id]
      rw [hsub _ _ (by omega), hz s (by omega), fillc_hi _ _ (by omega) (by omega), hfv h2, C30_zmult_xy_conj,
        h.zc_val hp hq (by omega), wneg (by omega), mul_comm (w _ _)]
    · rintro ⟨s, c⟩ hs; body_simp; simp [hb]
    intro m3 h3
    exact hend h3

end Cent
end Fftwpp
