import Verif.Proof.CWF

/-! The outputs of the blocks of a centered transform are in bijection with the frequencies. -/

namespace Fftwpp
open Finset
namespace Cent
variable {o : Cent}

theorem WF.res_inj (h : o.WF) {r r' k k' : ℕ} (hv : o.Visit r) (hv' : o.Visit r') (hk : k < o.rows r) (hk' : k' < o.rows r')
    (hd : (o.q : ℤ) ∣ o.res r k - o.res r' k') : r = r' ∧ k = k' := by
  have hP := h.P_pos
  have hqz : (o.q : ℤ) = o.n * o.P := by rw [h.q_eq]; push_cast; ring
  have hn : (o.n : ℤ) ∣ o.q := ⟨o.P, hqz⟩
  have h1 : (o.n : ℤ) ∣ o.sig r (k / o.P) - o.sig r' (k' / o.P) := by
    have := dvd_sub (hn.trans hd) (dvd_mul_right (o.n : ℤ) ((k % o.P : ℕ) - (k' % o.P : ℕ)))
    unfold res at this
    rwa [show o.n * ((k % o.P : ℕ) : ℤ) + o.sig r (k / o.P) - (o.n * ((k' % o.P : ℕ) : ℤ) + o.sig r' (k' / o.P)) -
      o.n * (((k % o.P : ℕ) : ℤ) - (k' % o.P : ℕ)) = o.sig r (k / o.P) - o.sig r' (k' / o.P) by ring] at this
  obtain ⟨e1, e2⟩ := h.sig_inj hv hv' (Nat.div_lt_of_lt_mul hk) (Nat.div_lt_of_lt_mul hk') h1
  subst e1
  refine ⟨rfl, ?_⟩
  unfold res at hd
  rw [e2, hqz, show o.n * ((k % o.P : ℕ) : ℤ) + o.sig r (k' / o.P) - (o.n * ((k' % o.P : ℕ) : ℤ) + o.sig r (k' / o.P)) =
      o.n * (((k % o.P : ℕ) : ℤ) - (k' % o.P : ℕ)) by ring] at hd
  have h8 : (o.P : ℤ) ∣ (k % o.P : ℕ) - (k' % o.P : ℕ) :=
    Int.dvd_of_mul_dvd_mul_left (by have := h.n_pos; omega) hd
  have a1 := Nat.mod_lt k hP
  have a2 := Nat.mod_lt k' hP
  have h9 : k % o.P = k' % o.P := by
    have := Int.eq_zero_of_abs_lt_dvd h8 (by rw [abs_lt]; constructor <;> omega)
    omega
  rw [← Nat.div_add_mod k o.P, ← Nat.div_add_mod k' o.P, e2, h9]

/-- Total number of outputs. -/
theorem WF.sum_noutputs (h : o.WF) : ∑ r ∈ o.starts.toFinset, o.noutputs r = o.M := by
  rw [List.sum_toFinset _ h.starts_nodup]
  obtain ⟨t, h1, h2, h3⟩ := h.shw.starts_eq
  have hi := h.shw.inc0_pos
  obtain ⟨_, _, _, f4, f5, f6, f7, f8, f9⟩ := h.sh_fields
  rw [f4, f6, f5] at h1
  rw [h.sh_starts, h.sh_inc, f8] at h3
  rw [h.sh_inc] at hi
  rw [h3, List.map_cons, List.sum_cons, List.map_map]
  have : (List.range t).map (o.noutputs ∘ fun k => o.increment 0 + k * o.dr) = (List.range t).map fun _ => o.l * o.D := by
    apply List.map_congr_left
    intro k _
    unfold Fft.noutputs Fft.blocksize
    simp only [Function.comp]
    rw [if_neg (by omega)]
  rw [this]
  unfold Fft.noutputs Fft.blocksize
  simp only [if_true, List.map_const', List.sum_replicate, List.length_range, smul_eq_mul]
  rw [h.M_eq, h.q_eq, h1, h.l_eq]; ring

theorem WF.index_inj (h : o.WF) {r r' i i' : ℕ} (hv : o.Visit r) (hv' : o.Visit r') (hi : i < o.noutputs r)
    (hi' : i' < o.noutputs r') (he : o.index r i = o.index r' i') : r = r' ∧ i = i' := by
  obtain ⟨h1, _⟩ := h.index_res hv hi
  obtain ⟨h2, _⟩ := h.index_res hv' hi'
  rw [he] at h1
  have h3 := dvd_sub h2 h1
  have hMq : (o.q : ℤ) ∣ o.M := ⟨o.m, by rw [h.M_eq]; push_cast; ring⟩
  rw [h.noutputs_eq] at hi hi'
  have hk : i / o.m < o.rows r := Nat.div_lt_of_lt_mul hi
  have hk' : i' / o.m < o.rows r' := Nat.div_lt_of_lt_mul hi'
  have h4 : (o.q : ℤ) ∣ o.res r (i / o.m) - o.res r' (i' / o.m) := by
    have h5 : (o.q : ℤ) ∣ (o.q : ℤ) * ((i % o.m : ℕ) - (i' % o.m : ℕ)) := dvd_mul_right _ _
    have h6 := dvd_sub (hMq.trans h3) h5
    rwa [show (o.index r' i' : ℤ) - (o.q * (i' % o.m : ℕ) + o.res r' (i' / o.m)) -
      ((o.index r' i' : ℤ) - (o.q * (i % o.m : ℕ) + o.res r (i / o.m))) - (o.q : ℤ) * ((i % o.m : ℕ) - (i' % o.m : ℕ)) =
      o.res r (i / o.m) - o.res r' (i' / o.m) by ring] at h6
  obtain ⟨e1, e2⟩ := h.res_inj hv hv' hk hk' h4
  refine ⟨e1, ?_⟩
  subst e1
  rw [e2] at h3
  have h7 : (o.M : ℤ) ∣ o.q * ((i % o.m : ℕ) - (i' % o.m : ℕ)) := by
    rwa [show (o.index r i' : ℤ) - (o.q * (i' % o.m : ℕ) + o.res r (i' / o.m)) -
      ((o.index r i' : ℤ) - (o.q * (i % o.m : ℕ) + o.res r (i' / o.m))) = (o.q : ℤ) * ((i % o.m : ℕ) - (i' % o.m : ℕ)) by ring] at h3
  rw [show (o.M : ℤ) = o.q * o.m by rw [h.M_eq]; push_cast; ring] at h7
  have h8 : (o.m : ℤ) ∣ (i % o.m : ℕ) - (i' % o.m : ℕ) :=
    Int.dvd_of_mul_dvd_mul_left (by have := h.q_pos; omega) h7
  have hm := h.m_pos
  have a1 := Nat.mod_lt i hm
  have a2 := Nat.mod_lt i' hm
  have h9 : i % o.m = i' % o.m := by
    have := Int.eq_zero_of_abs_lt_dvd h8 (by rw [abs_lt]; constructor <;> omega)
    omega
  have b1 := Nat.div_add_mod i o.m
  have b2 := Nat.div_add_mod i' o.m
  rw [← b1, ← b2, e2, h9]

/-- The outputs of all blocks. -/
noncomputable def outs (o : Cent) : Finset (Σ _ : ℕ, ℕ) := o.starts.toFinset.sigma fun r => range (o.noutputs r)

theorem WF.index_image (h : o.WF) : o.outs.image (fun x => o.index x.1 x.2) = range o.M := by
  have hmem : ∀ x ∈ o.outs, o.Visit x.1 ∧ x.2 < o.noutputs x.1 := by
    intro x hx
    unfold outs at hx
    rw [mem_sigma, List.mem_toFinset, mem_range, h.mem_starts] at hx
    exact hx
  apply Finset.eq_of_subset_of_card_le
  · intro e he
    rw [mem_image] at he
    obtain ⟨x, hx, rfl⟩ := he
    rw [mem_range]
    exact (h.index_res (hmem x hx).1 (hmem x hx).2).2
  · rw [card_image_of_injOn]
    · unfold outs
      rw [card_sigma, card_range]
      simp only [card_range]
      rw [h.sum_noutputs]
    · intro x hx y hy hxy
      obtain ⟨e1, e2⟩ := h.index_inj (hmem x hx).1 (hmem y hy).1 (hmem x hx).2 (hmem y hy).2 hxy
      cases x; cases y; simp_all

theorem WF.index_surj (h : o.WF) {e : ℕ} (he : e < o.M) : ∃ r i, o.Visit r ∧ i < o.noutputs r ∧ o.index r i = e := by
  have : e ∈ o.outs.image (fun x => o.index x.1 x.2) := by rw [h.index_image]; exact mem_range.2 he
  rw [mem_image] at this
  obtain ⟨⟨r, i⟩, hx, rfl⟩ := this
  unfold outs at hx
  rw [mem_sigma, List.mem_toFinset, mem_range, h.mem_starts] at hx
  exact ⟨r, i, hx.1, hx.2, rfl⟩

/-- A sum over all blocks is a sum over all frequencies. -/
theorem WF.sum_blocks {β : Type*} [AddCommMonoid β] (h : o.WF) (g : ℕ → β) :
    (o.starts.map fun r => ∑ i ∈ range (o.noutputs r), g (o.index r i)).sum = ∑ e ∈ range o.M, g e := by
  rw [← List.sum_toFinset _ h.starts_nodup, ← h.index_image, sum_image]
  · unfold outs
    rw [sum_sigma]
  · intro x hx y hy hxy
    unfold outs at hx hy
    simp only [mem_coe, mem_sigma, List.mem_toFinset, mem_range, h.mem_starts] at hx hy
    obtain ⟨e1, e2⟩ := h.index_inj hx.1 hy.1 hx.2 hy.2 hxy
    cases x; cases y; simp_all

end Cent
end Fftwpp
