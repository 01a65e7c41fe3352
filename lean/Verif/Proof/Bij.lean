import Verif.Proof.Resid
import Mathlib.Data.Finset.Sigma
import Mathlib.Algebra.BigOperators.Group.Finset.Basic
import Mathlib.Algebra.BigOperators.Group.Finset.Sigma
import Mathlib.Analysis.SpecialFunctions.Complex.Circle

/-! The residue loop visits each residue once; the index function is a bijection. -/

namespace Fftwpp
namespace Fft
open Finset
variable {o : Fft}

theorem WF.visit_sep (h : o.WF) {r r' : ℕ} (hv : o.Visit r) (hv' : o.Visit r') (hlt : r < r') :
    r + o.increment r ≤ r' := by
  rcases hv' with h' | ⟨⟨k', hk'⟩, _⟩
  · omega
  rcases hv with rfl | ⟨⟨k, hk⟩, _⟩
  · rw [Nat.zero_add, hk']; omega
  · have h0 : 0 < r := by have := h.inc0_pos; omega
    rw [inc_pos h0]
    have : k < k' := by
      by_contra hge
      have : k' * o.dr ≤ k * o.dr := Nat.mul_le_mul_right _ (by omega)
      omega
    have : (k + 1) * o.dr ≤ k' * o.dr := Nat.mul_le_mul_right _ this
    have e : (k + 1) * o.dr = k * o.dr + o.dr := by ring
    omega

theorem WF.D_even (h : o.WF) (hc : o.conj = true) {r : ℕ} (hv : o.Visit r) (hr : 0 < r) : o.D % 2 = 0 := by
  rcases h.D_conj hc with ⟨h1, h2⟩ | h1
  · have h3 := inc0_conj hc
    have h4 := h.R_conj hc
    rcases hv with hv | ⟨⟨k, hk⟩, hlt⟩
    · omega
    · rw [h3, h1] at hk
      have := Nat.zero_le (k * o.dr)
      omega
  · exact h1

/-- Distinct rows of the whole computation have distinct residues modulo `q`. -/
theorem WF.res_inj (h : o.WF) {r r' k k' : ℕ} (hv : o.Visit r) (hv' : o.Visit r') (hk : k < o.rows r)
    (hk' : k' < o.rows r') (hd : (o.q : ℤ) ∣ o.res r k - o.res r' k') : r = r' ∧ k = k' := by
  have hqp := h.q_pos
  rcases hc : o.conj
  · -- residues n*(k%P) + (r + k/P)
    have hPp := h.P_pos
    have hb : ∀ {r k}, o.Visit r → k < o.rows r → k % o.P < o.P ∧ r + k / o.P < o.n ∧ k / o.P < o.increment r ∧
        o.n * (k % o.P) + (r + k / o.P) < o.q := by
      intro r k hv hk
      have hu : k % o.P < o.P := Nat.mod_lt _ hPp
      have hd : k / o.P < if r = 0 then o.D0 else o.D := Nat.div_lt_of_lt_mul hk
      have hrn : r + k / o.P < o.n := by
        obtain ⟨t, ht⟩ := h.n_D0
        rcases Nat.eq_zero_or_pos r with h0 | h0
        · rw [if_pos h0] at hd
          have : 0 ≤ t * o.D := Nat.zero_le _
          omega
        · have h1 := h.visit_bound hv h0
          rw [h.R_nconj hc, h.dr_nconj hc] at h1
          rw [if_neg (by omega)] at hd
          omega
      refine ⟨hu, hrn, ?_, ?_⟩
      · rcases Nat.eq_zero_or_pos r with h0 | h0
        · subst h0; rw [inc0_nconj hc]; rwa [if_pos rfl] at hd
        · rw [inc_pos h0, h.dr_nconj hc]; rwa [if_neg (by omega)] at hd
      · have : o.n * (k % o.P + 1) ≤ o.n * o.P := Nat.mul_le_mul_left _ hu
        rw [Nat.mul_succ] at this
        have h3 : o.q = o.n * o.P := by rw [h.q_eq, Nat.mul_comm]
        omega
    obtain ⟨a1, a2, a3, a4⟩ := hb hv hk
    obtain ⟨b1, b2, b3, b4⟩ := hb hv' hk'
    unfold res at hd
    rw [hc] at hd
    simp only [Bool.false_eq_true, if_false] at hd
    have heq : o.n * (k % o.P) + (r + k / o.P) = o.n * (k' % o.P) + (r' + k' / o.P) := by
      obtain ⟨c, hcd⟩ := hd
      have : c = 0 := by
        by_contra hne
        have h1 : (o.q : ℤ) ≤ |(o.q : ℤ) * c| := by
          rw [abs_mul]
          have : 1 ≤ |c| := Int.one_le_abs hne
          have h2 : |(o.q : ℤ)| = o.q := abs_of_nonneg (by positivity)
          rw [h2]; nlinarith
        rw [← hcd] at h1
        have h3 : |((o.n * (k % o.P) + (r + k / o.P) : ℕ) : ℤ) - ((o.n * (k' % o.P) + (r' + k' / o.P) : ℕ) : ℤ)| < o.q := by
          generalize o.n * (k % o.P) + (r + k / o.P) = x at a4 ⊢
          generalize o.n * (k' % o.P) + (r' + k' / o.P) = y at b4 ⊢
          rw [abs_lt]; constructor <;> omega
        omega
      subst this
      omega
    have e1 : k % o.P = k' % o.P ∧ r + k / o.P = r' + k' / o.P := by
      have := congrArg (· / o.n) heq
      simp only [Nat.mul_add_div h.n_pos, Nat.div_eq_of_lt a2, Nat.div_eq_of_lt b2] at this
      constructor
      · omega
      · rw [show k % o.P = k' % o.P by omega] at heq; omega
    have er : r = r' := by
      have e12 := e1.2
      generalize k / o.P = x at e12 a3
      generalize k' / o.P = y at e12 b3
      by_contra hne
      rcases Nat.lt_or_gt_of_ne hne with h1 | h1
      · have := h.visit_sep hv hv' h1; omega
      · have := h.visit_sep hv' hv h1; omega
    refine ⟨er, ?_⟩
    subst er
    have h1 := Nat.div_add_mod k o.P
    have h2 := Nat.div_add_mod k' o.P
    rw [← h1, ← h2, e1.1, show k / o.P = k' / o.P by omega]
  · obtain ⟨hD1, hp⟩ := h.conj_iff.1 hc
    have hP := h.P_one hp
    have hqn := h.q_n hp
    have hpar := h.D0_parity hc
    obtain ⟨t, ht⟩ := h.n_D0
    have hD0n : o.D0 ≤ o.n := by have : 0 ≤ t * o.D := Nat.zero_le _; omega
    have hD0p := h.D0_pos
    have hn2 : 2 ≤ o.n := by have := h.D_valid; omega
    have hR := h.R_conj hc
    have hdr := h.dr_conj hc
    have hi0 := inc0_conj hc
    -- description of the residue of a row
    have hb : ∀ {r k}, o.Visit r → k < o.rows r →
        (r = 0 ∧ k = 1 ∧ o.q % 2 = 0 ∧ (o.res r k = -((o.q / 2 : ℕ) : ℤ) ∨ o.res r k = ((o.q / 2 : ℕ) : ℤ))) ∨
        ∃ a : ℕ, 2 * a < o.q ∧ r ≤ a ∧ a < r + o.increment r ∧
          ((o.res r k = a ∧ k = if r = 0 then (if o.q % 2 = 1 then 2 * a - 1 else 2 * a) else 2 * (a - r)) ∨
            (o.res r k = -(a : ℤ) ∧ (0 < a ∨ k = 0) ∧ k = if r = 0 then (if o.q % 2 = 1 then 2 * a else 2 * a + 1) else 2 * (a - r) + 1)) := by
      intro r k hv hk
      unfold rows at hk
      rw [hP, Nat.one_mul] at hk
      unfold res
      rw [hc, if_pos rfl]
      rcases Nat.eq_zero_or_pos r with h0 | h0
      · subst h0
        rw [if_pos rfl] at hk
        rw [hi0]
        by_cases hodd : o.q % 2 = 1
        · right
          by_cases hk1 : k % 2 = 1
          · refine ⟨(k + 1) / 2, by omega, by omega, by omega, Or.inl ⟨by simp [hodd, hk1], by simp [hodd]; omega⟩⟩
          · refine ⟨k / 2, by omega, by omega, by omega, Or.inr ⟨by simp [hodd, hk1], by omega, by simp [hodd]; omega⟩⟩
        · by_cases hk1 : k = 1
          · left
            subst hk1
            refine ⟨rfl, rfl, by omega, ?_⟩
            by_cases hp2 : o.p = 2
            · left; simp [hodd, hp2]
            · right; simp [hodd, hp2]
          · right
            by_cases hk2 : k % 2 = 0
            · refine ⟨k / 2, by omega, by omega, by omega, Or.inl ⟨by simp [hodd, hk1, hk2], by simp [hodd]; omega⟩⟩
            · refine ⟨k / 2, by omega, by omega, by omega, Or.inr ⟨by simp [hodd, hk1, hk2], by omega, by simp [hodd]; omega⟩⟩
      · right
        have h00 : ¬ r = 0 := by omega
        rw [if_neg h00] at hk
        have hev := h.D_even hc hv h0
        have hvb := h.visit_bound hv h0
        rw [inc_pos h0]
        refine ⟨r + k / 2, by omega, by omega, by omega, ?_⟩
        by_cases hk2 : k % 2 = 0
        · left; exact ⟨by simp [h00, hk2], by simp [h00]; omega⟩
        · right; exact ⟨by simp [h00, hk2], by omega, by simp [h00]; omega⟩
    have hsmall : ∀ x : ℤ, (o.q : ℤ) ∣ x → |x| < o.q → x = 0 := by
      rintro x ⟨c, rfl⟩ hx
      rw [abs_mul, abs_of_nonneg (by positivity : (0 : ℤ) ≤ o.q)] at hx
      have : |c| < 1 := by
        by_contra hge
        have : (o.q : ℤ) * 1 ≤ o.q * |c| := by
          apply mul_le_mul_of_nonneg_left <;> omega
        omega
      have : c = 0 := by
        have := Int.abs_lt_one_iff.1 this
        exact this
      rw [this, mul_zero]
    have hb1 := hb hv hk
    have hb2 := hb hv' hk'
    have hzero : o.res r k - o.res r' k' = 0 ∨ (r = 0 ∧ k = 1 ∧ r' = 0 ∧ k' = 1) := by
      rcases hb1 with ⟨h1, h2, h3, h4⟩ | ⟨a, h1, h2, h3, h4⟩
      · rcases hb2 with ⟨g1, g2, g3, g4⟩ | ⟨b, g1, g2, g3, g4⟩
        · right; exact ⟨h1, h2, g1, g2⟩
        · left
          apply hsmall _ hd
          rw [abs_lt]
          rcases h4 with h4 | h4 <;> rcases g4 with g4 | g4 <;> rw [h4, g4.1] <;> constructor <;> omega
      · rcases hb2 with ⟨g1, g2, g3, g4⟩ | ⟨b, g1, g2, g3, g4⟩
        · left
          apply hsmall _ hd
          rw [abs_lt]
          rcases h4 with h4 | h4 <;> rcases g4 with g4 | g4 <;> rw [h4.1, g4] <;> constructor <;> omega
        · left
          apply hsmall _ hd
          rw [abs_lt]
          rcases h4 with h4 | h4 <;> rcases g4 with g4 | g4 <;> rw [h4.1, g4.1] <;> constructor <;> omega
    rcases hzero with hz | ⟨rfl, rfl, rfl, rfl⟩
    swap
    · exact ⟨rfl, rfl⟩
    have hsep1 := fun hlt => h.visit_sep hv hv' hlt
    have hsep2 := fun hlt => h.visit_sep hv' hv hlt
    rcases hb1 with ⟨h1, h2, h3, h4⟩ | ⟨a, h1, h2, h3, h4⟩
    · rcases hb2 with ⟨g1, g2, g3, g4⟩ | ⟨b, g1, g2, g3, g4⟩
      · omega
      · exfalso
        rcases h4 with h4 | h4 <;> rcases g4 with g4 | g4 <;> rw [h4, g4.1] at hz <;> omega
    · rcases hb2 with ⟨g1, g2, g3, g4⟩ | ⟨b, g1, g2, g3, g4⟩
      · exfalso
        rcases h4 with h4 | h4 <;> rcases g4 with g4 | g4 <;> rw [h4.1, g4] at hz <;> omega
      · have hab : a = b := by
          rcases h4 with h4 | h4 <;> rcases g4 with g4 | g4 <;> rw [h4.1, g4.1] at hz <;> omega
        subst hab
        have hr : r = r' := by
          rcases Nat.lt_trichotomy r r' with h5 | h5 | h5
          · have := hsep1 h5; omega
          · exact h5
          · have := hsep2 h5; omega
        subst hr
        refine ⟨rfl, ?_⟩
        rcases h4 with ⟨e1, e2⟩ | ⟨e1, e2, e3⟩ <;> rcases g4 with ⟨f1, f2⟩ | ⟨f1, f2, f3⟩
        · rw [e2, f2]
        · rw [e1, f1] at hz
          have : a = 0 := by omega
          subst this
          split_ifs at e2 f3 <;> omega
        · rw [e1, f1] at hz
          have : a = 0 := by omega
          subst this
          split_ifs at e3 f2 <;> omega
        · rw [e3, f3]

/-- The explicit list of the visited block starts. -/
theorem WF.visited_eq (h : o.WF) : ∃ t, o.n = o.D0 + t * o.D ∧ o.R = o.increment 0 + t * o.dr ∧
    ∀ fuel, t < fuel → o.visited fuel 0 = 0 :: (List.range t).map (fun k => o.increment 0 + k * o.dr) := by
  obtain ⟨t, h1, h2⟩ := h.R_blocks
  refine ⟨t, h1, h2, ?_⟩
  have hi := h.inc0_pos
  have hdr := h.dr_pos
  have key : ∀ j fuel, j ≤ t → j ≤ fuel →
      o.visited fuel (o.increment 0 + (t - j) * o.dr) =
        (List.range' (t - j) j).map (fun k => o.increment 0 + k * o.dr) := by
    intro j
    induction j with
    | zero =>
      intro fuel _ _
      cases fuel with
      | zero => simp [visited]
      | succ fuel =>
        unfold visited
        rw [if_neg (by rw [h2, Nat.sub_zero]; omega)]
        simp
    | succ j ih =>
      intro fuel hj hf
      obtain ⟨fuel, rfl⟩ : ∃ g, fuel = g + 1 := ⟨fuel - 1, by omega⟩
      unfold visited
      have hlt : (t - (j + 1)) * o.dr < t * o.dr := Nat.mul_lt_mul_of_pos_right (by omega) hdr
      rw [if_pos (by rw [h2]; omega), inc_pos (r := o.increment 0 + (t - (j + 1)) * o.dr) (by omega), List.range'_succ, List.map_cons,
        show o.increment 0 + (t - (j + 1)) * o.dr + o.dr = o.increment 0 + (t - j) * o.dr by
          rw [show t - j = (t - (j + 1)) + 1 by omega]; ring,
        ih fuel (by omega) (by omega), show t - (j + 1) + 1 = t - j by omega]
  intro fuel hf
  obtain ⟨fuel, rfl⟩ : ∃ g, fuel = g + 1 := ⟨fuel - 1, by omega⟩
  unfold visited
  have hR : 0 < o.R := by rw [h2]; omega
  rw [if_pos hR, Nat.zero_add]
  congr 1
  have := key t fuel le_rfl (by omega)
  simp only [Nat.sub_self, Nat.zero_mul, Nat.add_zero] at this
  rw [this, List.range_eq_range']

/-- The block starts visited by the residue loop. -/
noncomputable def starts (o : Fft) : List ℕ := o.visited (o.R + 1) 0

theorem WF.starts_eq (h : o.WF) : ∃ t, o.n = o.D0 + t * o.D ∧ o.R = o.increment 0 + t * o.dr ∧
    o.starts = 0 :: (List.range t).map (fun k => o.increment 0 + k * o.dr) := by
  obtain ⟨t, h1, h2, h3⟩ := h.visited_eq
  refine ⟨t, h1, h2, h3 _ ?_⟩
  have : t * 1 ≤ t * o.dr := Nat.mul_le_mul_left _ h.dr_pos
  omega

theorem WF.mem_starts (h : o.WF) {r : ℕ} : r ∈ o.starts ↔ o.Visit r := by
  obtain ⟨t, h1, h2, h3⟩ := h.starts_eq
  rw [h3]
  unfold Visit
  have hdr := h.dr_pos
  simp only [List.mem_cons, List.mem_map, List.mem_range]
  constructor
  · rintro (rfl | ⟨k, hk, rfl⟩)
    · exact Or.inl rfl
    · refine Or.inr ⟨⟨k, rfl⟩, ?_⟩
      have : k * o.dr < t * o.dr := Nat.mul_lt_mul_of_pos_right hk hdr
      omega
  · rintro (rfl | ⟨⟨k, rfl⟩, hlt⟩)
    · exact Or.inl rfl
    · refine Or.inr ⟨k, ?_, rfl⟩
      by_contra hge
      have : t * o.dr ≤ k * o.dr := Nat.mul_le_mul_right _ (by omega)
      omega

theorem WF.starts_nodup (h : o.WF) : o.starts.Nodup := by
  obtain ⟨t, h1, h2, h3⟩ := h.starts_eq
  rw [h3, List.nodup_cons]
  have hdr := h.dr_pos
  have hi := h.inc0_pos
  refine ⟨?_, List.Nodup.map ?_ List.nodup_range⟩
  · simp only [List.mem_map, not_exists, not_and]
    intro k _; omega
  · intro a b hab
    simp only at hab
    exact Nat.eq_of_mul_eq_mul_right hdr (by omega)

/-- Total number of outputs. -/
theorem WF.sum_noutputs (h : o.WF) : ∑ r ∈ o.starts.toFinset, o.noutputs r = o.M := by
  rw [List.sum_toFinset _ h.starts_nodup]
  obtain ⟨t, h1, h2, h3⟩ := h.starts_eq
  rw [h3, List.map_cons, List.sum_cons, List.map_map]
  have hi := h.inc0_pos
  have : (List.range t).map (o.noutputs ∘ fun k => o.increment 0 + k * o.dr) = (List.range t).map fun _ => o.l * o.D := by
    apply List.map_congr_left
    intro k _
    unfold noutputs blocksize
    simp only [Function.comp]
    rw [if_neg (by omega)]
  rw [this]
  unfold noutputs blocksize
  simp only [if_true, List.map_const', List.sum_replicate, List.length_range, smul_eq_mul]
  rw [h.M_eq, h.q_eq, h1, h.l_eq]; ring

theorem WF.index_inj (h : o.WF) {r r' i i' : ℕ} (hv : o.Visit r) (hv' : o.Visit r') (hi : i < o.noutputs r)
    (hi' : i' < o.noutputs r') (he : o.index r i = o.index r' i') : r = r' ∧ i = i' := by
  obtain ⟨h1, _⟩ := h.index_res hv hi
  obtain ⟨h2, _⟩ := h.index_res hv' hi'
  rw [he] at h1
  have h3 := dvd_sub h2 h1
  have hMq : (o.q : ℤ) ∣ o.M := ⟨o.m, by rw [h.M_eq]; push_cast; ring⟩
  rw [h.noutputs_eq] at hi hi'
  have hk : i / o.m < o.rows r := Nat.div_lt_of_lt_mul hi
  have hk' : i' / o.m < o.rows r' := Nat.div_lt_of_lt_mul hi'
  have h4 : (o.q : ℤ) ∣ o.res r (i / o.m) - o.res r' (i' / o.m) := by
    have h5 : (o.q : ℤ) ∣ (o.q : ℤ) * ((i % o.m : ℕ) - (i' % o.m : ℕ)) := dvd_mul_right _ _
    have h6 := dvd_sub (hMq.trans h3) h5
    rwa [show (o.index r' i' : ℤ) - (o.q * (i' % o.m : ℕ) + o.res r' (i' / o.m)) -
      ((o.index r' i' : ℤ) - (o.q * (i % o.m : ℕ) + o.res r (i / o.m))) - (o.q : ℤ) * ((i % o.m : ℕ) - (i' % o.m : ℕ)) =
      o.res r (i / o.m) - o.res r' (i' / o.m) by ring] at h6
  obtain ⟨e1, e2⟩ := h.res_inj hv hv' hk hk' h4
  refine ⟨e1, ?_⟩
  subst e1
  rw [e2] at h3
  have h7 : (o.M : ℤ) ∣ o.q * ((i % o.m : ℕ) - (i' % o.m : ℕ)) := by
    rwa [show (o.index r i' : ℤ) - (o.q * (i' % o.m : ℕ) + o.res r (i' / o.m)) -
      ((o.index r i' : ℤ) - (o.q * (i % o.m : ℕ) + o.res r (i' / o.m))) = (o.q : ℤ) * ((i % o.m : ℕ) - (i' % o.m : ℕ)) by ring] at h3
  rw [show (o.M : ℤ) = o.q * o.m by rw [h.M_eq]; push_cast; ring] at h7
  have h8 : (o.m : ℤ) ∣ (i % o.m : ℕ) - (i' % o.m : ℕ) :=
    Int.dvd_of_mul_dvd_mul_left (by have := h.q_pos; omega) h7
  have hm := h.m_pos
  have a1 := Nat.mod_lt i hm
  have a2 := Nat.mod_lt i' hm
  have h9 : i % o.m = i' % o.m := by
    have := Int.eq_zero_of_abs_lt_dvd h8 (by rw [abs_lt]; constructor <;> omega)
    omega
  have b1 := Nat.div_add_mod i o.m
  have b2 := Nat.div_add_mod i' o.m
  rw [← b1, ← b2, e2, h9]

/-- The outputs of all blocks. -/
noncomputable def outs (o : Fft) : Finset (Σ _ : ℕ, ℕ) := o.starts.toFinset.sigma fun r => range (o.noutputs r)

theorem WF.index_image (h : o.WF) : o.outs.image (fun x => o.index x.1 x.2) = range o.M := by
  have hmem : ∀ x ∈ o.outs, o.Visit x.1 ∧ x.2 < o.noutputs x.1 := by
    intro x hx
    unfold outs at hx
    rw [mem_sigma, List.mem_toFinset, mem_range, h.mem_starts] at hx
    exact hx
  apply Finset.eq_of_subset_of_card_le
  · intro e he
    rw [mem_image] at he
    obtain ⟨x, hx, rfl⟩ := he
    rw [mem_range]
    exact (h.index_res (hmem x hx).1 (hmem x hx).2).2
  · rw [card_image_of_injOn]
    · unfold outs
      rw [card_sigma, card_range]
      simp only [card_range]
      rw [h.sum_noutputs]
    · intro x hx y hy hxy
      obtain ⟨e1, e2⟩ := h.index_inj (hmem x hx).1 (hmem y hy).1 (hmem x hx).2 (hmem y hy).2 hxy
      cases x; cases y; simp_all

theorem WF.index_surj (h : o.WF) {e : ℕ} (he : e < o.M) : ∃ r i, o.Visit r ∧ i < o.noutputs r ∧ o.index r i = e := by
  have : e ∈ o.outs.image (fun x => o.index x.1 x.2) := by rw [h.index_image]; exact mem_range.2 he
  rw [mem_image] at this
  obtain ⟨⟨r, i⟩, hx, rfl⟩ := this
  unfold outs at hx
  rw [mem_sigma, List.mem_toFinset, mem_range, h.mem_starts] at hx
  exact ⟨r, i, hx.1, hx.2, rfl⟩

/-- A sum over all blocks is a sum over all frequencies. -/
theorem WF.sum_blocks {β : Type*} [AddCommMonoid β] (h : o.WF) (g : ℕ → β) :
    (o.starts.map fun r => ∑ i ∈ range (o.noutputs r), g (o.index r i)).sum = ∑ e ∈ range o.M, g e := by
  rw [← List.sum_toFinset _ h.starts_nodup, ← h.index_image, sum_image]
  · unfold outs
    rw [sum_sigma]
  · intro x hx y hy hxy
    unfold outs at hx hy
    simp only [mem_coe, mem_sigma, List.mem_toFinset, mem_range, h.mem_starts] at hx hy
    obtain ⟨e1, e2⟩ := h.index_inj hx.1 hy.1 hx.2 hy.2 hxy
    cases x; cases y; simp_all

end Fft
end Fftwpp
