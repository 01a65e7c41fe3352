import Verif.Proof.RBlock

/-! The postconditions of the transforms of real data in terms of the outputs and their frequencies. -/

namespace Fftwpp
open Finset
local notation "conj" => starRingEnd ℂ

theorem half_weights {m : ℕ} {g : ℤ → ℝ} (hm : 0 < m) (hf : EvenPer m g) :
    ∑ i ∈ range (m / 2 + 1), (if i = 0 ∨ 2 * i = m then (1 : ℝ) else 2) * g i = ∑ l ∈ range m, g l := by
  rw [even_total hm hf]
  have h2 : ∀ i, i ∈ range ((m - 1) / 2) → (if i + 1 = 0 ∨ 2 * (i + 1) = m then (1 : ℝ) else 2) * g ((i + 1 : ℕ) : ℤ) = 2 * g ((i : ℤ) + 1) := by
    intro i hi
    have := mem_range.1 hi
    rw [if_neg (by omega)]; push_cast; rfl
  split_ifs with h3
  · rw [show m / 2 + 1 = (m - 1) / 2 + 1 + 1 by omega, sum_range_succ, sum_range_succ', sum_congr rfl h2, ← mul_sum,
      show (m - 1) / 2 + 1 = m / 2 by omega, if_pos (by omega), if_pos (by omega)]
    simp only [Nat.cast_zero, one_mul]
    ring
  · rw [show m / 2 + 1 = (m - 1) / 2 + 1 by omega, sum_range_succ', sum_congr rfl h2, ← mul_sum, if_pos (by omega)]
    simp only [Nat.cast_zero, one_mul]
    ring

theorem full_neg {m : ℕ} {Y : ℕ → ℂ} (h : RPlan.realSpec m Y) {s : ℕ} (h0 : 0 < s) (hs : s < m) :
    RPlan.full m Y (m - s) = conj (RPlan.full m Y s) := by
  unfold RPlan.full
  split_ifs with h1 h2 h2
  · have e1 : s = m / 2 := by omega
    have e2 : m - s = m / 2 := by omega
    have e3 : m % 2 = 0 := by omega
    rw [e2, e1]
    exact (Complex.conj_eq_iff_im.2 (h.2 e3)).symm
  · rw [Complex.conj_conj]
  · rw [show m - (m - s) = s by omega]
  · omega

/-- The term of the inverse transform at frequency `k`, from the half spectrum. -/
noncomputable def specTerm (m : ℕ) (Y : ℕ → ℂ) (j : ℕ) (k : ℤ) : ℝ :=
  (RPlan.full m Y (k % m).toNat * w m (((k % m).toNat : ℤ) * j)).re

theorem specTerm_lt {m : ℕ} {Y : ℕ → ℂ} {j i : ℕ} (hi : i < m) : specTerm m Y j i = (RPlan.full m Y i * w m ((i : ℤ) * j)).re := by
  unfold specTerm
  have : (((i : ℤ) % m)).toNat = i := by rw [Int.emod_eq_of_lt (by omega) (by omega)]; simp
  rw [this]

theorem specTerm_EvenPer {m : ℕ} {Y : ℕ → ℂ} (hm : 0 < m) (h : RPlan.realSpec m Y) (j : ℕ) : EvenPer m (specTerm m Y j) := by
  refine ⟨fun k => ?_, fun k => ?_⟩
  · unfold specTerm; rw [Int.add_emod_right]
  · have hm' : (0 : ℤ) < m := by omega
    obtain ⟨s, hs⟩ : ∃ s : ℕ, k % m = s := ⟨(k % m).toNat, by have := Int.emod_nonneg k hm'.ne'; omega⟩
    have hsm : s < m := by have := Int.emod_lt_of_pos k hm'; omega
    have e1 : k = m * (k / m) + s := by rw [← hs]; exact (Int.mul_ediv_add_emod k m).symm
    unfold specTerm
    by_cases h0 : s = 0
    · have : (-k) % m = 0 := by
        apply Int.emod_eq_zero_of_dvd; rw [e1, h0]; exact ⟨-(k / m), by push_cast; ring⟩
      rw [this, hs, h0]; rfl
    · have : (-k) % m = ((m - s : ℕ) : ℤ) := by
        have : -k = ((m - s : ℕ) : ℤ) + m * (-(k / m) - 1) := by
          rw [Nat.cast_sub hsm.le, mul_sub, mul_neg, mul_one]
          linarith
        rw [this, Int.add_mul_emod_self_left, Int.emod_eq_of_lt (by omega) (by omega)]
      rw [this, hs, Int.toNat_natCast, Int.toNat_natCast, full_neg h (by omega) hsm]
      have e2 : w m (((m - s : ℕ) : ℤ) * j) = conj (w m ((s : ℤ) * j)) := by
        rw [w_conj]
        apply w_congr
        rw [Nat.cast_sub hsm.le]
        exact ⟨j, by ring⟩
      rw [e2, ← map_mul, Complex.conj_re]

namespace Re
variable {o : Re} {f F W : Ptr} {mem m' : Mem} {r : ℕ}

/-- Words a call may write. -/
def Tch (o : Re) (F W : Ptr) (p : Ptr) : Prop := InArr F o.outputSize p ∨ InArr W o.outputSize p

/-- Postcondition of `forward`, output by output. -/
structure FPost (o : Re) (mem m' : Mem) (f F W : Ptr) (r : ℕ) : Prop where
  upd : mem.Upd m' (o.Tch F W)
  out : ∀ i < o.noutputs r, ∀ c < o.C, m'.val (F + (o.S * i + c)) = paddedDFT o.M o.L (o.X mem f c) (o.freq r i)
  pad : o.Padded m' W

/-- Postcondition of `backward`. -/
structure BwPost (o : Re) (mem m' : Mem) (f F W : Ptr) (r : ℕ) : Prop where
  upd : mem.DUpd m' (fun y => o.Dat f y ∨ o.Tch F W (wordOf y))
  out : ∀ c < o.C, o.Consistent r (fun i => mem.val (F + (o.S * i + c))) → ∀ j < o.L, m'.cell (dptr f + (o.S * j + c)) =
    (if r = 0 then 0 else mem.cell (dptr f + (o.S * j + c))) +
      ∑ i ∈ range (o.noutputs r), o.weight r i * (mem.val (F + (o.S * i + c)) * w o.M (-((j : ℤ) * o.freq r i))).re

theorem WF.q_of_r (w' : o.WF) (hr : 0 < r) (h : 2 * r ≤ o.n) : o.q ≠ 1 := by
  intro hq
  have := (w'.q_one_n hq).1
  omega

theorem weight_ord (w' : o.WF) (hv : o.Visit r) (hr : 0 < r) (h2 : 2 * r < o.n) {i : ℕ} (hi : i < o.noutputs r) : o.weight r i = 2 := by
  have hq := w'.q_of_r hr h2.le
  unfold weight
  rw [if_neg]
  rintro ⟨i', hi', h'⟩
  rw [w'.noutputs_ord hq hr h2] at hi hi'
  exact not_opp_ord w' hq hv hr h2 hi hi' h'

theorem weight_half (w' : o.WF) (hr : 0 < r) (h2 : 2 * r = o.n) (i : ℕ) : o.weight r i = 2 := by
  unfold weight
  rw [if_neg]
  rintro ⟨i', hi', h'⟩
  exact not_opp_half w' (w'.q_of_r hr h2.le) hr h2 _ _ h'

section le2
variable (w' : o.WF) (hp : o.p ≤ 2)
include w' hp

theorem freq_ord_le2 (hr : 0 < r) (h2 : 2 * r < o.n) {d l : ℕ} (hl : l < o.m) : o.freq r (l + o.m * d) = o.q * l + (r + d) := by
  unfold freq
  have hm := w'.m_pos
  rw [if_neg (by omega), if_neg (by omega), if_pos hp, Nat.mul_one, Nat.add_mul_mod_self_left, Nat.mod_eq_of_lt hl, Nat.add_mul_div_left _ _ hm,
    Nat.div_eq_of_lt hl]
  push_cast; ring

theorem freq_half_le2 (hr : 0 < r) (h2 : 2 * r = o.n) (i : ℕ) : o.freq r i = 2 * o.q * i + r := by
  unfold freq
  rw [if_neg (by omega), if_pos h2, if_pos hp]

theorem FwdPost.idx (hv : o.Visit r) (h : o.FwdPost mem m' f F W r) : o.FPost mem m' f F W r := by
  refine ⟨h.upd, ?_, h.pad⟩
  have hqn := w'.q_n hp
  have hm := w'.m_pos
  intro i hi c hc
  by_cases h0 : r = 0
  · subst h0
    rw [noutputs0_le2 hp] at hi
    rw [h.out.1 rfl i hi c hc]
    unfold freq
    rw [if_pos rfl, if_pos hp]
  · by_cases h2 : 2 * r < o.n
    · have hq := w'.q_of_r (by omega) h2.le
      rw [w'.noutputs_ord hq (by omega) h2, w'.P_one hp w'.p_pos, Nat.mul_one] at hi
      have e : i = o.m * (i / o.m) + i % o.m := (Nat.div_add_mod i o.m).symm
      have hl := Nat.mod_lt i hm
      have hd : i / o.m < o.nd r := Nat.div_lt_of_lt_mul hi
      rw [e, h.out.2.1 (by omega) (by omega) _ hd _ hl c hc, Nat.add_comm, freq_ord_le2 w' hp (by omega) h2 hl]
    · have h2' : 2 * r = o.n := by rcases hv with h | h | h <;> omega
      rw [noutputs_half (by omega) h2', if_neg (by omega)] at hi
      rw [h.out.2.2 (by omega) (by omega) i hi c hc, freq_half_le2 w' hp (by omega) h2']

theorem BwdPost.idx (hv : o.Visit r) (h : o.BwdPost mem m' f F W r) : o.BwPost mem m' f F W r := by
  refine ⟨h.upd, ?_⟩
  have hqn := w'.q_n hp
  have hm := w'.m_pos
  intro c hc hcons j hj
  by_cases h0 : r = 0
  · subst h0
    have he := w'.e_eq
    have hcons' : ∀ i < o.e, ∀ i' < o.e, _ := fun i hi i' hi' => hcons i (by rwa [noutputs0_le2 hp]) i' (by rwa [noutputs0_le2 hp])
    have hreal : RPlan.realSpec o.m (fun k => mem.val (F + (o.S * k + c))) := by
      refine ⟨?_, fun h2 => ?_⟩
      · exact Complex.conj_eq_iff_im.1 (hcons' 0 (by omega) 0 (by omega) ((opp0_le2 w' hp (by omega) (by omega)).2 (Or.inl ⟨rfl, rfl⟩))).symm
      · exact Complex.conj_eq_iff_im.1 (hcons' (o.m / 2) (by omega) (o.m / 2) (by omega)
          ((opp0_le2 w' hp (by omega) (by omega)).2 (Or.inr ⟨by omega, rfl⟩))).symm
    rw [h.out.1 rfl c hc hreal j hj, if_pos rfl, zero_add, Complex.re_sum]
    have e1 : ∀ k ∈ range o.m, (RPlan.full o.m (fun k => mem.val (F + (o.S * k + c))) k * w o.m (k * j)).re =
        specTerm o.m (fun k => mem.val (F + (o.S * k + c))) j k := fun k hk => (specTerm_lt (mem_range.1 hk)).symm
    rw [sum_congr rfl e1, ← half_weights hm (specTerm_EvenPer hm hreal j), noutputs0_le2 hp, he]
    refine sum_congr rfl fun i hi => ?_
    have hi' := mem_range.1 hi
    rw [weight0_le2 w' hp (by omega), show (if i = 0 ∨ 2 * i = o.m then (1 : ℝ) else 2) = if i = 0 ∨ 2 * i = o.m then (1 : ℝ) else 2 from rfl]
    congr 1
    by_cases him : i < o.m
    · rw [specTerm_lt him]
      unfold RPlan.full freq
      rw [if_pos hi', if_pos rfl, if_pos hp, w'.M_eq, show -((j : ℤ) * -((o.q : ℤ) * i)) = o.q * ((i : ℤ) * j) by ring,
        w_base _ _ (by have := w'.q_pos; omega)]
    · exfalso; omega
  · rw [if_neg h0]
    by_cases h2 : 2 * r < o.n
    · have hq := w'.q_of_r (by omega) h2.le
      rw [h.out.2.1 (by omega) (by omega) j hj c hc]
      congr 1
      have e1 : ∀ i ∈ range (o.noutputs r), o.weight r i * (mem.val (F + (o.S * i + c)) * w o.M (-((j : ℤ) * o.freq r i))).re =
          2 * (mem.val (F + (o.S * i + c)) * w o.M (-((j : ℤ) * o.freq r i))).re := fun i hi => by
        rw [weight_ord w' hv (by omega) h2 (mem_range.1 hi)]
      rw [sum_congr rfl e1, ← mul_sum, w'.noutputs_ord hq (by omega) h2, w'.P_one hp w'.p_pos, Nat.mul_one, sum_splitR, Complex.re_sum]
      congr 1
      conv_rhs => rw [sum_comm]
      refine sum_congr rfl fun d _ => ?_
      rw [Complex.re_sum]
      refine sum_congr rfl fun l hl => ?_
      rw [freq_ord_le2 w' hp (by omega) h2 (mem_range.1 hl), Nat.add_comm l]
    · have h2' : 2 * r = o.n := by rcases hv with h | h | h <;> omega
      rw [h.out.2.2 (by omega) (by omega) j hj c hc]
      congr 1
      rw [noutputs_half (by omega) h2', if_neg (by omega), Complex.re_sum, mul_sum]
      refine sum_congr rfl fun i _ => ?_
      rw [weight_half w' (by omega) h2', freq_half_le2 w' hp (by omega) h2']

end le2

theorem padW_ok (w' : o.WF) {W : Ptr} (hv : mem.block W o.outputSize) :
    (o.padW (some W)).Ok mem (fun _ m' => mem.Upd m' (InArr W o.outputSize) ∧ o.Padded m' W) := by
  unfold padW
  simp only
  rw [w'.pad_eq]
  by_cases hx : o.q ≠ 1 ∧ o.p = 1 ∧ o.inplace = false ∧ o.L < o.m
  · rw [if_pos hx]
    obtain ⟨hq, hp, hi, hLm⟩ := hx
    have hpm : (if o.q = 2 then o.m / 2 else o.m) = o.pm := rfl
    have hC := w'.C_pos
    have hCS := w'.C_le_S
    have hsz : ∀ d < o.D, ∀ s < o.pm, ∀ c < o.C, o.S * (o.pm * d + s) + c < o.outputSize := by
      intro d hd s hs c hc
      have hqn := w'.q_n (by omega)
      by_cases h2 : o.q = 2
      · have hD := w'.pm_D (by omega) h2
        have he := w'.e_eq
        have : d = 0 := by omega
        subst this
        unfold outputSize
        rw [if_pos (by omega), if_neg (by omega), Nat.mul_comm o.e]
        unfold pm at hs ⊢
        rw [if_pos h2] at hs ⊢
        exact radix_lt (by omega) (by omega)
      · unfold outputSize
        rw [if_neg (by omega), w'.b_eq, w'.l_eq, if_neg hq, w'.P_one (by omega) w'.p_pos, Nat.mul_one, Nat.mul_assoc]
        unfold pm at hs ⊢
        rw [if_neg h2] at hs ⊢
        exact radix_lt (by omega) (radix_lt hs hd)
    by_cases hS : o.S = 1
    · rw [if_pos hS]
      simp only
      unfold padSingle
      simp only [hp, Nat.mul_one, hpm]
      have hC1 := w'.C_one hS
      have hsz' : ∀ d < o.D, ∀ s < o.pm, o.pm * d + s < o.outputSize := fun d hd s hs => by
        have := hsz d hd s hs 0 hC; rwa [hS, Nat.one_mul, Nat.add_zero] at this
      refine Fft.seqLoop_rng (fun d m1 => mem.Upd m1 (InArr W o.outputSize) ∧ ∀ t < d, ∀ s < o.pm, o.L ≤ s →
        m1.val (W + (o.pm * t + s)) = 0) ⟨Mem.Upd.refl _ _, by omega⟩ ?_ ?_
      · rintro d m1 hd ⟨u1, e1⟩
        refine Fft.zeroRow_ok ?_ ?_
        · intro s _ hs; rw [Ptr.add_add]; exact Mem.valid_of_size u1.size (hv _ (hsz' d hd s hs))
        intro m2 u2 e2
        refine ⟨u1.trans u2 (fun _ hp => hp) ?_, ?_⟩
        · rintro p ⟨s, _, hs, rfl⟩
          exact ⟨o.pm * d + s, hsz' d hd s hs, by rw [Ptr.add_add]⟩
        · intro t ht s hs hLs
          rcases Nat.lt_succ_iff_lt_or_eq.1 ht with h1 | rfl
          · rw [u2.frame, e1 t h1 s hs hLs]
            rintro ⟨s', _, hs', h3⟩
            rw [Ptr.add_add, Ptr.add_inj] at h3
            have := radix_inj hs hs' h3
            omega
          · have := e2 s hLs hs
            rwa [Ptr.add_add] at this
      · rintro m1 ⟨u1, e1⟩
        refine ⟨u1, ?_⟩
        intro _ _ _ t ht s hs hLs c hc
        obtain rfl : c = 0 := by omega
        rw [hS, Nat.one_mul, Nat.add_zero]
        exact e1 t ht s hs hLs
    · rw [if_neg hS]
      simp only
      unfold padMany
      simp only [hp, Nat.mul_one, hpm]
      have hD : o.D = 1 := by rcases w'.D_valid hq with h | h; exact h; exact absurd h.1 hS
      have hsz' : ∀ s < o.pm, ∀ c < o.C, o.S * s + c < o.outputSize := fun s hs c hc => by
        have := hsz 0 (by omega) s hs c hc; rwa [Nat.mul_zero, Nat.zero_add] at this
      refine Fft.zeroCols_ok hCS (fun s c _ h2 h3 => hv _ (hsz' s h2 c h3)) ?_
      intro m1 u1 e1
      refine ⟨u1.mono ?_, ?_⟩
      · rintro p ⟨s, c, _, h1, _, h2, rfl⟩
        exact ⟨_, hsz' s h1 c h2, rfl⟩
      · intro _ _ _ t ht s hs hLs c hc
        obtain rfl : t = 0 := by omega
        rw [Nat.mul_zero, Nat.zero_add]
        exact e1 s c hLs hs (by omega) hc
  · rw [if_neg hx]
    simp only
    refine Cmd.Ok.pure ⟨Mem.Upd.refl _ _, ?_⟩
    intro hi hq hp1 t ht s hs hLs
    exfalso
    refine hx ⟨hq, hp1, hi, ?_⟩
    have : o.pm ≤ o.m := by unfold pm; split_ifs <;> omega
    omega

end Re
end Fftwpp
