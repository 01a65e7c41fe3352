import Verif.Props.Transform

/-! # C18: stride gaps -/

namespace Fftwpp
open Finset
namespace Fft
variable {o : Fft}

/-- **C18**: with stride `S > C`, the words `f[S*j+c]`, `C ≤ c < S`, between the `C` interleaved copies are neither modified by
`forward` or `backward` nor influence the results.  Take two runs, from memories `mem1`, `mem2` that agree on the data words
`S*j+c`, `c < C`, of the arguments, but are otherwise arbitrary (in particular in the gaps and in the work arrays).  Then the
results (`c < C`) agree, and in each run the gaps of `f` are unchanged. -/
theorem C18_gaps {L M : ℕ} {app : App} {C S0 m D : ℕ} {inplace : Bool} (hC : 0 < C)
    (hnew : Fft.new L M app C S0 m D inplace = .ok o) (how : o.overwrite = false)
    {mem1 mem2 : Mem} {f F : Ptr} {W? : Option Ptr} (a1 : o.Args mem1 f F W?) (a2 : o.Args mem2 f F W?)
    (hf : ∀ j < L, ∀ c < C, mem1.val (f + (o.S * j + c)) = mem2.val (f + (o.S * j + c))) {r : ℕ} (hr : r ∈ o.visited o.nloops 0) :
    (∃ m1 m2, (do o.padW W?; o.forward f F r W? : Cmd Unit) mem1 = .ok ((), m1) ∧
      (do o.padW W?; o.forward f F r W? : Cmd Unit) mem2 = .ok ((), m2) ∧
      (∀ i < o.noutputs r, ∀ c < C, m1.val (F + (o.S * i + c)) = m2.val (F + (o.S * i + c))) ∧
      (∀ j c, C ≤ c → c < o.S → m1.val (f + (o.S * j + c)) = mem1.val (f + (o.S * j + c)))) ∧
    ((∀ i < o.noutputs r, ∀ c < C, mem1.val (F + (o.S * i + c)) = mem2.val (F + (o.S * i + c))) →
      ∃ m1 m2, o.backward F f r W? mem1 = .ok ((), m1) ∧ o.backward F f r W? mem2 = .ok ((), m2) ∧
      (∀ j < L, ∀ c < C, m1.val (f + (o.S * j + c)) = m2.val (f + (o.S * j + c))) ∧
      (∀ j c, C ≤ c → c < o.S → m1.val (f + (o.S * j + c)) = mem1.val (f + (o.S * j + c)))) := by
  constructor
  · obtain ⟨_, m1, e1, v1, _, g1, _⟩ := C08_forward hC hnew how a1 (history := []) (by simp) hr
    obtain ⟨_, m2, e2, v2, _, _, _⟩ := C08_forward hC hnew how a2 (history := []) (by simp) hr
    refine ⟨m1, m2, e1, e2, ?_, fun j c _ _ => g1 _⟩
    intro i hi c hc
    rw [v1 i hi c hc, v2 i hi c hc]
    exact paddedDFT_ext fun j hj => hf j hj c hc
  · intro hF
    obtain ⟨_, m1, e1, v1, g1, _⟩ := C09_backward_block hC hnew how a1 hr
    obtain ⟨_, m2, e2, v2, _, _⟩ := C09_backward_block hC hnew how a2 hr
    refine ⟨m1, m2, e1, e2, ?_, ?_⟩
    · intro j hj c hc
      rw [v1 j hj c hc, v2 j hj c hc, hf j hj c hc]
      congr 1
      refine sum_congr rfl fun i hi => ?_
      rw [hF i (mem_range.1 hi) c hc]
    · intro j c hc hcS
      refine g1 _ (args_f_touch a1) ?_
      intro j' hj' c' hc' he
      rw [Ptr.add_inj] at he
      have := (radix_inj hcS (by omega) he).2
      omega

/-- The hypotheses are met with two copies and stride 3, and memories that differ in the gaps. -/
example : ∃ (o : Fft) (mem2 : Mem), Fft.new 5 9 ⟨2, 1, true⟩ 2 3 4 1 false = .ok o ∧ o.overwrite = false ∧ 1 ∈ o.visited o.nloops 0 ∧
    o.Args (exMem 100) ⟨0, 0⟩ ⟨1, 0⟩ (some ⟨2, 0⟩) ∧ o.Args mem2 ⟨0, 0⟩ ⟨1, 0⟩ (some ⟨2, 0⟩) ∧
    (∀ j < 5, ∀ c < 2, (exMem 100).val ((⟨0, 0⟩ : Ptr) + (o.S * j + c)) = mem2.val ((⟨0, 0⟩ : Ptr) + (o.S * j + c))) ∧
    mem2.val ((⟨0, 0⟩ : Ptr) + 2) ≠ (exMem 100).val ((⟨0, 0⟩ : Ptr) + 2) := by
  have hb : ∀ k n, n ≤ 100 → (exMem 100).block ⟨k, 0⟩ n := by
    intro k n hn i hi
    constructor
    · show (0 : ℤ) ≤ 0 + i
      omega
    · show (0 : ℤ) + i < (100 : ℕ)
      omega
  have hb2 : ∀ v k n, n ≤ 100 → ((exMem 100).set ((⟨0, 0⟩ : Ptr) + 2) v).block ⟨k, 0⟩ n := fun v k n hn => hb k n hn
  refine ⟨_, (exMem 100).set ((⟨0, 0⟩ : Ptr) + 2) ((exMem 100).val ((⟨0, 0⟩ : Ptr) + 2) + 1), rfl, rfl, by decide, ?_, ?_, ?_, ?_⟩
  · exact ⟨by simp, hb _ _ (by decide), hb _ _ (by decide), ⟨_, rfl, by simp, by simp, hb _ _ (by decide)⟩⟩
  · exact ⟨by simp, hb2 _ _ _ (by decide), hb2 _ _ _ (by decide), ⟨_, rfl, by simp, by simp, hb2 _ _ _ (by decide)⟩⟩
  · have key : ∀ (S j c : ℕ), S = 3 → c < 2 → (exMem 100).val ((⟨0, 0⟩ : Ptr) + (S * j + c)) =
        ((exMem 100).set ((⟨0, 0⟩ : Ptr) + 2) ((exMem 100).val ((⟨0, 0⟩ : Ptr) + 2) + 1)).val ((⟨0, 0⟩ : Ptr) + (S * j + c)) := by
      intro S j c hS hc
      subst hS
      rw [Mem.set_val, if_neg]
      rw [Ptr.add_inj]
      omega
    intro j _ c hc
    exact key _ j c rfl hc
  · rw [Mem.set_val, if_pos rfl]
    simp

end Fft
end Fftwpp
