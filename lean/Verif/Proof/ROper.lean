import Verif.Proof.RView
import Verif.Proof.Conv

/-! Multiplication of the transforms of real data. -/

namespace Fftwpp
open Finset
namespace Re
variable {o : Re}

/-- The blocks on which the multiplier is called. -/
theorem WF.blocks (w' : o.WF) (hS : o.S = 1) {r : ℕ} (hv : o.Visit r) : ∃ K, 0 < K ∧ o.noutputs r = o.blocksize r * K ∧
    (K = 1 ∨ o.b = o.blocksize r) ∧ ceilquotient (o.noutputs r) o.b = K ∧ (o.q = 1 → K = 1) := by
  have hb : o.b = o.l := by rw [w'.b_eq, hS, Nat.one_mul]
  have hm := w'.m_pos
  have one : ∀ n, 0 < n → n ≤ o.b → ceilquotient n o.b = 1 := by
    intro n h1 h2
    unfold ceilquotient
    rw [Nat.div_eq_of_lt_le] <;> omega
  have hp0 := w'.p_pos
  have he := w'.e_eq
  have hl := w'.l_eq
  have big : 2 < o.p → o.l = o.m * o.p := by
    intro hp
    rw [hl, if_neg (w'.q_ne hp)]
    congr 1
    unfold P; rw [if_neg (by omega)]
  rcases Nat.eq_zero_or_pos r with rfl | hr
  · refine ⟨1, by omega, ?_, Or.inl rfl, one _ ?_ ?_, fun _ => rfl⟩
    · unfold noutputs blocksize; simp
    · rcases Nat.lt_or_ge 2 o.p with hp | hp
      · rw [noutputs0_big w' hp]
        have : 0 < o.m * ((o.p + 1) / 2) := Nat.mul_pos hm (by omega)
        omega
      · rw [noutputs0_le2 hp, he]; omega
    · rw [hb]
      rcases Nat.lt_or_ge 2 o.p with hp | hp
      · rw [noutputs0_big w' hp, big hp]
        have h2 : o.m * ((o.p + 1) / 2 + 1) ≤ o.m * (o.p + if o.p % 2 = 0 then 0 else 1) := by
          refine Nat.mul_le_mul_left _ ?_
          split_ifs <;> omega
        unfold h
        split_ifs at h2 ⊢ with h3
        · rw [Nat.mul_succ] at h2; simp only [Nat.add_zero] at h2; omega
        · rw [Nat.mul_succ, Nat.mul_add] at h2; omega
      · rw [noutputs0_le2 hp]
        by_cases hq : o.q = 1
        · rw [hl, if_pos hq]
        · rw [hl, if_neg hq, w'.P_one hp hp0]; omega
  · rcases hv with rfl | h2 | ⟨_, h2, _⟩
    · omega
    · have hq := w'.q_of_r hr h2.le
      refine ⟨1, by omega, ?_, Or.inl rfl, one _ ?_ ?_, fun _ => rfl⟩
      · unfold noutputs; rw [if_neg (by omega), if_pos h2]
      · rw [noutputs_half hr h2]
        split_ifs with hp
        · exact Nat.mul_pos (by omega) hm
        · refine w'.h_pos hq ?_
          have := w'.q_n (by omega); omega
      · rw [noutputs_half hr h2, hb]
        split_ifs with hp
        · rw [big hp, Nat.mul_comm]; exact Nat.mul_le_mul_left _ (by omega)
        · rw [hl, if_neg hq, w'.P_one (by omega) hp0]; unfold h; omega
    · have hq := w'.q_of_r hr h2.le
      have hbs : o.blocksize r = o.l := by unfold blocksize; rw [if_neg (by omega), if_neg (by omega)]
      have hn := w'.noutputs_ord hq hr h2
      have hlP : o.l = o.m * o.P := by rw [hl, if_neg hq]
      have hl0 : 0 < o.l := by
        have : 0 < o.P := by unfold P; split_ifs <;> omega
        rw [hlP]; exact Nat.mul_pos hm this
      have hnd : 0 < o.nd r := by
        have := (w'.D0_facts hq).1; have := w'.D_pos
        unfold nd; split_ifs <;> omega
      refine ⟨o.nd r, hnd, by rw [hn, hbs, hlP], Or.inr (by rw [hb, hbs]), ?_, fun h => absurd h hq⟩
      rw [hn, ← hlP, hb, FftBase.ceilquotient_mul hl0]

/-- The operation on the transforms. -/
def opΦ (φ : ℕ → (ℕ → ℂ) → ℂ) (_r _i b : ℕ) (X : ℕ → ℕ → ℂ) (c : ℕ) : ℂ := φ b (fun a => X a c)

theorem ops (w' : o.WF) (hS : o.S = 1) (hC : o.C = 1) (hBA : o.q = 1 ∨ o.B ≤ o.A) {c : Conv} (hc : c.fft = o.base) {φ : ℕ → (ℕ → ℂ) → ℂ}
    (hm : MultSpec o.A o.B o.index c.mult (fun _ => φ)) (idx : List ℕ) : o.view.Ops c (opΦ φ) (fun _ _ _ => True) idx := by
  have hcongr : ∀ r i b X Y, (∀ a < o.A, ∀ c < o.C, X a c = Y a c) → ∀ c < o.C, opΦ φ r i b X c = opΦ φ r i b Y c := by
    intro r i b X Y hXY c hc
    exact hm.congr [] _ _ _ fun a ha => hXY a ha c hc
  -- state after the first `k` outputs
  let I : Mem → PtrArr → ℕ → Mem → Prop := fun m F k m1 =>
    m.Upd m1 (fun p => ∃ a < max o.A o.B, InArr (F.at_ a) o.outputSize p) ∧
    (∀ b < o.B, ∀ i < k, m1.val (F.at_ b + i) = φ b (fun a => m.val (F.at_ a + i))) ∧
    ∀ a < max o.A o.B, ∀ i : ℕ, k ≤ i → m1.val (F.at_ a + i) = m.val (F.at_ a + i)
  have step : ∀ (m : Mem) (F : PtrArr), (∀ a < max o.A o.B, m.block (F.at_ a) o.outputSize) →
      (∀ a < max o.A o.B, ∀ a' < max o.A o.B, a ≠ a' → (F.at_ a).buf ≠ (F.at_ a').buf) →
      ∀ k n (m1 : Mem) (G : PtrArr) r off, k + n ≤ o.outputSize → max o.A o.B ≤ G.n → (∀ a, G.at_ a = F.at_ a + k) →
      I m F k m1 → (c.mult G n idx r off).Ok m1 (fun _ m' => I m F (k + n) m') := by
    rintro m F hb hsep k n m1 G r off hk hGn hG ⟨u1, e1, s1⟩
    have hGi : ∀ a i, G.at_ a + i = F.at_ a + (k + i) := by
      intro a i; rw [hG]; ext <;> simp; ring
    refine (hm.ok hGn ?_ ?_).mono ?_
    · intro a ha i hi
      rw [hGi]
      exact Mem.valid_of_size u1.size (hb a ha _ (by omega))
    · intro a ha a' ha' hne
      rw [hG, hG]; simpa using hsep a ha a' ha' hne
    rintro _ m2 ⟨u2, e2⟩
    have hout2 : ∀ a < max o.A o.B, ∀ i : ℕ, (i < k ∨ k + n ≤ i) → m2.val (F.at_ a + i) = m1.val (F.at_ a + i) := by
      intro a ha i hi
      refine u2.frame _ ?_
      rintro ⟨a', ha', j, hj, e⟩
      rw [hGi] at e
      have hbuf : (F.at_ a).buf = (F.at_ a').buf := by simpa using congrArg Ptr.buf e
      by_cases haa : a = a'
      · subst haa
        have : ((F.at_ a).off + (i : ℤ)) = (F.at_ a).off + ((k + j : ℕ) : ℤ) := by simpa using congrArg Ptr.off e
        omega
      · exact hsep a ha a' ha' haa hbuf
    refine ⟨u1.trans u2 (fun _ h => h) ?_, ?_, ?_⟩
    · rintro p ⟨a, ha, i, hi, rfl⟩
      exact ⟨a, ha, k + i, by omega, hGi a i⟩
    · intro b hb' i hi
      by_cases hid : i < k
      · rw [hout2 b (lt_of_lt_of_le hb' (le_max_right _ _)) i (Or.inl hid), e1 b hb' i hid]
      · obtain ⟨j, rfl⟩ : ∃ j, i = k + j := ⟨i - k, by omega⟩
        rw [← hGi, e2 b hb' j (by omega)]
        refine hm.congr [] _ _ _ fun a ha => ?_
        rw [hGi]
        exact s1 a (lt_of_lt_of_le ha (le_max_left _ _)) _ (by omega)
    · intro a ha i hi
      rw [hout2 a ha i (Or.inr hi)]
      exact s1 a ha i (by omega)
  have hI0 : ∀ m F, I m F 0 m := fun m F => ⟨Mem.Upd.refl _ _, fun b _ i hi => by omega, fun _ _ _ _ => rfl⟩
  have hsz : ∀ {r}, o.Visit r → o.noutputs r ≤ o.outputSize := by
    intro r hv
    rw [w'.outputSize_eq, hS, Nat.one_mul]; exact w'.noutputs_rows hv
  have fin : ∀ {m m' : Mem} {F : PtrArr} {r : ℕ}, I m F (o.noutputs r) m' → True ∧
      m.Upd m' (fun p => False ∨ ∃ a < max o.A o.B, InArr (F.at_ a) o.outputSize p) ∧
      ((∀ i < o.view.cnt r, True) → ∀ b < o.B, ∀ i < o.view.cnt r, ∀ c < o.C, o.view.X m' (F.at_ b) r i c =
        opΦ φ r i b (fun a c => o.view.X m (F.at_ a) r i c) c) := by
    rintro m m' F r ⟨u, e, _⟩
    refine ⟨trivial, u.mono fun p hp => Or.inr hp, ?_⟩
    intro _ b hb i hi c hc
    obtain rfl : c = 0 := by omega
    have := e b hb i hi
    show m'.val (F.at_ b + (o.S * i + 0)) = φ b (fun a => m.val (F.at_ a + (o.S * i + 0)))
    simpa [hS] using this
  constructor
  · intro hq
    rw [hc] at hq ⊢
    have hq : o.q = 1 := hq
    refine ⟨hcongr, fun _ _ _ _ _ _ => trivial, fun _ _ _ => trivial, ?_⟩
    intro m F r hr _ hn hb hsep _
    have hr0 : r = 0 := by
      have h1 : r ∈ o.visited o.R 0 := hr
      rcases w'.visit h1 with h | h | ⟨_, h, _⟩
      · exact h
      · have := (w'.q_one_n hq).1; omega
      · have := (w'.q_one_n hq).1; omega
    subst hr0
    have h0 : o.noutputs 0 = o.blocksize 0 := by unfold noutputs blocksize; simp
    have hs0 := hsz (r := 0) (Or.inl rfl)
    refine (step m F hb hsep 0 (o.blocksize 0) m F 0 0 (by omega) hn (fun a => by rw [Conv.Ptr.add0]) (hI0 m F)).mono ?_
    rintro _ m' hI
    rw [Nat.zero_add, ← h0] at hI
    exact fin hI
  · intro hq
    rw [hc] at hq ⊢
    have hq : o.q ≠ 1 := hq
    have hBA := hBA.resolve_left hq
    refine ⟨hcongr, fun _ _ _ _ _ _ => trivial, fun _ _ _ => trivial, ?_⟩
    intro m F r hr _ hn hb hsep _
    have hv := w'.visit (show r ∈ o.visited o.R 0 from hr)
    obtain ⟨K, hK, hno, hKb, hceil, _⟩ := w'.blocks hS hv
    have hs0 := hsz hv
    unfold Conv.operate
    rw [hc]
    show (c.mult F (o.blocksize r) idx r 0 >>= fun _ => seqLoop (rng 1 (ceilquotient (o.S * o.noutputs r) o.b)) fun d =>
      c.mult ⟨o.A, fun a => F.at_ a + o.b * d⟩ (o.blocksize r) idx r (o.S * o.noutputs 0 * d)).Ok m _
    rw [hS, Nat.one_mul, hceil]
    have hle : o.blocksize r ≤ o.outputSize := by
      rw [hno] at hs0
      exact le_trans (Nat.le_mul_of_pos_right _ hK) hs0
    refine Cmd.Ok.bind ((step m F hb hsep 0 (o.blocksize r) m F r 0 (by omega) hn (fun a => by rw [Conv.Ptr.add0]) (hI0 m F)).mono ?_)
    rintro _ m1 hI1
    refine seqLoop_rngab hK (fun d m2 => I m F (o.blocksize r * d) m2) (by rw [Nat.mul_one]; simpa using hI1) ?_ ?_
    · intro d m2 h1 h2 hI2
      have hb' : o.b = o.blocksize r := by
        rcases hKb with h | h
        · omega
        · exact h
      rw [hb', Nat.mul_succ]
      refine step m F hb hsep _ _ m2 _ r _ ?_ ?_ (fun a => rfl) hI2
      · rw [hno] at hs0
        refine le_trans ?_ hs0
        rw [← Nat.mul_succ]; exact Nat.mul_le_mul_left _ h2
      · simp [hBA]
    · intro m2 hI2
      rw [← hno] at hI2
      exact fin hI2

end Re
end Fftwpp
