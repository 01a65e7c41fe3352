import Verif.Model.RealDriver
import Verif.Props.Real
import Verif.Proof.AConv
import Verif.Proof.HIface

/-! The transforms of real data as transforms for the drivers. -/

namespace Fftwpp
open Finset
namespace Re
variable {o : Re}

/-- How the class for real data uses its arrays: data are doubles, transforms are complex. -/
noncomputable def view (o : Re) : View where
  x := fun m f j c => (m.dbl f (o.S * j + c) : ℂ)
  X := fun m F _ i c => m.val (F + (o.S * i + c))
  D := fun f p => InArr f ((o.S * o.L + 1) / 2) p
  cnt := o.noutputs
  T := fun r i x => paddedDFT o.M o.L x (o.freq r i)
  K := fun r j X => ((∑ i ∈ range (o.noutputs r), o.weight r i * (X i * w o.M (-((j : ℤ) * o.freq r i))).re : ℝ) : ℂ)
  dom := fun _ => True
  kdom := fun r Y => o.Consistent r Y

theorem WF.noutputs_rows (w' : o.WF) {r : ℕ} (hv : o.Visit r) : o.noutputs r ≤ o.nrows := by
  rcases Nat.eq_zero_or_pos r with rfl | hr
  · rcases Nat.lt_or_ge 2 o.p with hp | hp
    · rw [noutputs0_big w' hp]
      refine le_trans ?_ (w'.rows_big hp)
      have he := w'.e_eq
      unfold h
      split_ifs with h2
      · have : (o.p + 1) / 2 = o.p / 2 := by omega
        rw [this, Nat.mul_succ]; omega
      · have : (o.p + 1) / 2 = o.p / 2 + 1 := by omega
        rw [this]; omega
    · rw [noutputs0_le2 hp]; exact w'.e_le hp
  · rcases hv with rfl | h2 | ⟨_, h2, _⟩
    · omega
    · rw [noutputs_half hr h2]
      split_ifs with hp
      · refine le_trans ?_ (w'.rows_big hp)
        rw [Nat.mul_comm]; exact Nat.mul_le_mul_left _ (by omega)
      · exact w'.h_le (by omega)
    · have hq := w'.q_of_r hr h2.le
      rw [w'.noutputs_ord hq hr h2]
      rcases Nat.lt_or_ge 2 o.p with hp | hp
      · have : o.P = o.p := by unfold P; rw [if_neg (by omega)]
        rw [this, Nat.mul_assoc]; exact w'.ord_rows hp (by omega) r
      · rw [w'.P_one hp w'.p_pos, Nat.mul_one]; exact w'.rows_le hp (by omega) r

theorem WF.pad_word (w' : o.WF) (hq : o.q ≠ 1) (hp : o.p = 1) {d s c : ℕ} (hd : d < o.D) (hs : s < o.pm) (hc : c < o.C) :
    o.S * (o.pm * d + s) + c < o.outputSize := by
  have hC := w'.C_pos
  have hCS := w'.C_le_S
  have hqn := w'.q_n (by omega)
  by_cases h2 : o.q = 2
  · have hD := w'.pm_D (by omega) h2
    have he := w'.e_eq
    have : d = 0 := by omega
    subst this
    unfold outputSize
    rw [if_pos (by omega), if_neg (by omega), Nat.mul_comm o.e]
    unfold pm at hs ⊢
    rw [if_pos h2] at hs ⊢
    exact radix_lt (by omega) (by omega)
  · unfold outputSize
    rw [if_neg (by omega), w'.b_eq, w'.l_eq, if_neg hq, w'.P_one (by omega) w'.p_pos, Nat.mul_one, Nat.mul_assoc]
    unfold pm at hs ⊢
    rw [if_neg h2] at hs ⊢
    exact radix_lt (by omega) (radix_lt hs hd)

theorem view_args (hV : o.V = none) {mem : Mem} {f F : Ptr} {W? : Option Ptr} (a : o.view.Args o.base mem f F W?) : o.Args mem f F W? :=
  ⟨a.fF, fun i hi => a.bf _ ⟨i, hi, rfl⟩, a.bF, a.bW, fun V h => by rw [hV] at h; simp at h⟩

theorem touch_words (hV : o.V = none) {mem : Mem} {f F : Ptr} {W? : Option Ptr} (a : o.Args mem f F W?) {p : Ptr} (h : o.TouchFW F W? p) :
    InArr F o.outputSize p ∨ View.InW o.base W? p := by
  obtain ⟨i, hi, h | ⟨W, hW, h⟩ | ⟨V, hV', _⟩⟩ := h
  · exact Or.inl ⟨i, hi, h⟩
  · refine Or.inr ⟨W, hW, i, ?_, h⟩
    show i < o.workSizeW
    have := a.bW
    unfold workSizeW
    split_ifs at this ⊢ with hin
    · rw [this] at hW; simp at hW
    · exact hi
  · rw [hV] at hV'; simp at hV'

theorem X_word (w' : o.WF) {r i c : ℕ} (hv : o.Visit r) (hi : i < o.noutputs r) (hc : c < o.C) : o.S * i + c < o.outputSize := by
  rw [w'.outputSize_eq]
  have := w'.C_le_S
  exact radix_lt (by omega) (lt_of_lt_of_le hi (w'.noutputs_rows hv))

theorem view_spec (w' : o.WF) (hV : o.V = none) : o.view.Spec o.base o.Padded where
  D_buf := fun h => FftBase.inArr_buf h
  x_congr := by
    intro m m' f hv j hj c hc
    show ((m'.dbl _ _ : ℝ) : ℂ) = (m.dbl _ _ : ℝ)
    congr 1
    refine Mem.dbl_congr (hv _ ⟨_, ?_, rfl⟩)
    have hc : c < o.C := hc
    have hj : j < o.L := hj
    have := w'.C_le_S
    have := radix_lt (by omega : c < o.S) hj
    omega
  X_congr := by
    intro m m' F r hr hv i hi c hc
    exact hv _ (X_word w' (w'.visit hr) hi hc)
  T_congr := by
    intro r i x y hxy
    show paddedDFT _ _ _ _ = paddedDFT _ _ _ _
    unfold paddedDFT
    exact sum_congr rfl fun j hj => by rw [hxy j (mem_range.1 hj)]
  K_congr := by
    intro r j X Y hXY
    show ((∑ i ∈ range (o.noutputs r), _ : ℝ) : ℂ) = ((∑ i ∈ range (o.noutputs r), _ : ℝ) : ℂ)
    congr 1
    exact sum_congr rfl fun i hi => by rw [hXY i (mem_range.1 hi)]
  dom_congr := fun _ h => h
  kdom_congr := by
    intro r X Y hXY hX i hi i' hi' hop
    rw [← hXY i hi, ← hXY i' hi']
    exact hX i hi i' hi' hop
  res0 := by
    obtain ⟨l, h1, h2⟩ := w'.visited_zero
    exact ⟨l, h1, fun h => h2 0 h rfl⟩
  nl := rfl
  pad_in := by
    intro hi m p hi'
    have hi : o.inplace = true := hi
    rw [hi] at hi'; simp at hi'
  pad_frame := by
    intro m m' W hv hp hi hq hp1 d hd s hs hL c hc
    have := w'.pad_word hq hp1 hd hs hc
    rw [hv _ (by
      show _ < o.workSizeW
      unfold workSizeW; rw [hi]; simpa using this)]
    exact hp hi hq hp1 d hd s hs hL c hc
  pad_none := by
    intro hn m p hi hq hp1 d hd s hs hL c hc
    exfalso
    have hn : o.pad = .none := by simpa using (show decide (o.pad = .none) = true from hn)
    rw [w'.pad_eq] at hn
    have hm : ¬ o.L < o.m := by
      intro hm
      rw [if_pos ⟨hq, hp1, hi, hm⟩] at hn
      split_ifs at hn
    have : o.pm ≤ o.m := by unfold pm; split_ifs <;> omega
    omega
  padNone_in := by
    intro hi
    show decide (o.pad = .none) = true
    have hi : o.inplace = true := hi
    rw [w'.pad_eq, hi]; simp
  pad_q1 := by
    intro hq m p _ hq'
    exact absurd hq hq'
  padOk := by
    intro m W hi hb
    have hi : o.inplace = false := hi
    have hb : m.block W o.workSizeW := hb
    have hws : o.workSizeW = o.outputSize := by unfold workSizeW; rw [hi]; simp
    show (o.padW (some W)).Ok m fun _ m' => m.Upd m' (InArr W o.workSizeW) ∧ _
    rw [hws] at hb ⊢
    exact padW_ok w' hb
  fwd := by
    intro m f F W? r hr a hp
    have a' := view_args hV a
    refine (forward_all w' a' hp (w'.visit hr)).mono ?_
    rintro _ m' post
    refine ⟨post.upd.mono fun p hp => touch_words hV a' (tch_touch hp), post.pad.unwork a'.W_some, ?_⟩
    intro c hc _ i hi
    show m'.val _ = paddedDFT _ _ _ _
    rw [post.out i hi c hc, X_eq]
    rfl
  bwd := by
    intro m f F W? r hr a
    have a' := view_args hV a
    refine (backward_all w' a' (w'.visit hr)).mono ?_
    rintro _ m' post
    refine ⟨post.upd.words ?_, ?_⟩
    · rintro x (⟨j, hj, c, hc, rfl⟩ | h)
      · refine Or.inl ⟨_, ?_, RPlan.wordOf_add _ _⟩
        have := w'.C_le_S
        have := radix_lt (by omega : c < o.S) hj
        omega
      · exact Or.inr (touch_words hV a' (tch_touch h))
    · intro j hj c hc hk
      have := post.out c hc hk j hj
      show ((m'.dbl _ _ : ℝ) : ℂ) = (if r = 0 then 0 else ((m.dbl _ _ : ℝ) : ℂ)) + _
      rw [Mem.dbl_cell, Mem.dbl_cell, this]
      split_ifs
      · simp [view]
      · simp [view]

theorem new_ow {L M : ℕ} {app : App} {C S0 m D : ℕ} {inplace : Bool} {J : Junk} {Vp : Ptr}
    (h : Re.new L M app C S0 m D inplace J Vp = .ok o) : o.overwrite = false ∧ o.A = app.A ∧ o.B = app.B ∧ o.S = (if S0 = 0 then C else S0) ∧
      M ≤ m * o.q := by
  unfold Re.new at h
  revert h
  generalize parameters L M m false = t
  obtain ⟨p, n, q⟩ := t
  simp only
  intro h
  rw [Nat.mul_comm]
  split_ifs at h with h1 h2 h3 h4 h5 h6 h7
  all_goals first
    | (simp only [Except.ok.injEq] at h; subst h; exact ⟨rfl, rfl, rfl, by simp_all [newExplicit, newHybrid], not_lt.1 (by assumption)⟩)

theorem view_single (w' : o.WF) (hC : o.C = 1) (how : o.overwrite = false) : View.Single o.base where
  C := hC
  q1 := by
    intro hq
    have hq : o.q = 1 := hq
    have hn := (w'.q_one_n hq).1
    have hR := w'.R_eq
    rw [hn] at hR
    show o.visited o.R 0 = [0]
    rw [hR, show ceilquotient (1 + 1) 2 = 0 + 1 by decide, visited]
    rw [hR, if_pos (by decide)]
    rfl
  ow := how

theorem view_L2 (w' : o.WF) (hdvd : o.q ≠ 1 → o.nloops = 2 → o.B < o.A → (o.A - o.B) ∣ o.B) : View.L2 o.base := by
  intro hq hl
  have hl' : o.nloops = 2 ∧ o.B < o.A ∧ o.overwrite = false := by
    have : o.loop2 = true := hl
    simpa [loop2] using this
  refine ⟨hl'.2.1, hdvd hq hl'.1 hl'.2.1, ?_⟩
  show o.visited o.R 0 = [0, o.increment 0]
  have hn := hl'.1
  unfold nloops at hn
  have hR : o.R = (o.n + 2) / 2 := by rw [w'.R_eq]; unfold ceilquotient; omega
  obtain ⟨R', h⟩ : ∃ R', o.R = R' + 1 := ⟨o.R - 1, by omega⟩
  have e1 : o.visited o.R 0 = 0 :: o.visited R' (0 + o.increment 0) := by
    conv_lhs => rw [h]
    rw [visited, if_pos (by omega)]
  rw [e1, Nat.zero_add] at hn ⊢
  cases R' with
  | zero => simp [visited] at hn
  | succ R' =>
    rw [visited] at hn ⊢
    split_ifs at hn ⊢ with h3
    · simp only [List.length_cons] at hn
      have : o.visited R' (o.increment 0 + o.increment (o.increment 0)) = [] := by
        rw [← List.length_eq_zero_iff]; omega
      rw [this]
    · simp at hn

end Re
end Fftwpp
