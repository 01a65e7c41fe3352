import Verif.Proof.RDisp
import Verif.Proof.RInn11

/-! # C38: transforms of real data -/

namespace Fftwpp
open Finset
local notation "conj" => starRingEnd ℂ

namespace Re
variable {o : Re} {f F : Ptr} {W? : Option Ptr} {mem m' : Mem} {r : ℕ}

theorem new_fields {L M : ℕ} {app : App} {C S0 m D : ℕ} {inplace : Bool} {J : Junk} {Vp : Ptr}
    (h : Re.new L M app C S0 m D inplace J Vp = .ok o) : o.L = L ∧ o.m = m ∧ o.C = C := by
  unfold Re.new at h
  simp only at h
  split_ifs at h <;> first
    | (simp only [Except.ok.injEq] at h; subst h; exact ⟨rfl, rfl, rfl⟩)

theorem visited_ge : ∀ fuel r0, ∀ r ∈ o.visited fuel r0, r0 ≤ r := by
  intro fuel
  induction fuel with
  | zero => intro r0 r hr; simp [visited] at hr
  | succ fuel ih =>
    intro r0 r hr
    rw [visited] at hr
    split_ifs at hr
    · rcases List.mem_cons.1 hr with rfl | h
      · exact le_rfl
      · have := ih _ r h; omega
    · simp at hr

theorem WF.visited_zero (w' : o.WF) : ∃ l, o.visited o.R 0 = 0 :: l ∧ ∀ r ∈ l, r ≠ 0 := by
  have hR : o.R = (o.n + 2) / 2 := by rw [w'.R_eq]; unfold ceilquotient; omega
  obtain ⟨R', h⟩ : ∃ R', o.R = R' + 1 := ⟨o.R - 1, by omega⟩
  refine ⟨o.visited R' (0 + o.increment 0), ?_, fun r hr => ?_⟩
  · rw [h, visited, if_pos (by omega)]
  · have := visited_ge _ _ r hr
    have : o.increment 0 = 1 := by unfold increment; simp
    omega

theorem WF.visit (w' : o.WF) (hr : r ∈ o.visited o.R 0) : o.Visit r := w'.visited_visit _ _ (Or.inl rfl) r hr

theorem paddedDFT_real {N L : ℕ} (x : ℕ → ℝ) (k : ℤ) : paddedDFT N L (fun j => (x j : ℂ)) (-k) = conj (paddedDFT N L (fun j => (x j : ℂ)) k) := by
  unfold paddedDFT
  rw [map_sum]
  refine sum_congr rfl fun j _ => ?_
  rw [map_mul, w_conj, Complex.conj_ofReal, mul_neg]

theorem paddedDFT_consistent (w' : o.WF) (x : ℕ → ℝ) : o.Consistent r (fun i => paddedDFT o.M o.L (fun j => (x j : ℂ)) (o.freq r i)) := by
  intro i _ i' _ hop
  rw [← paddedDFT_real]
  unfold paddedDFT
  refine sum_congr rfl fun j _ => ?_
  congr 1
  apply w_congr
  unfold Opposite at hop
  rw [← w'.M_eq] at hop
  obtain ⟨t, ht⟩ := hop
  refine ⟨(j : ℤ) * t, ?_⟩
  rw [mul_left_comm, ← ht]; ring

theorem X_eq (c : ℕ) : o.X mem f c = fun j => (mem.dbl f (o.S * j + c) : ℂ) := by
  funext j; unfold X; rw [Mem.dbl_cell]

/-- Whatever was done to `F`, `W` and the private array does not change the data. -/
theorem dbl_frame (a : o.Args mem f F W?) {m1 m2 : Mem} (u : m1.Upd m2 (o.TouchFW F W?)) (k : ℕ) : m2.dbl f k = m1.dbl f k := by
  rw [Mem.dbl_cell, Mem.dbl_cell]
  refine u.cells.frame _ fun h => touch_buf a h ?_
  simp [wordOf, dptr]

/-- Every frequency, or the opposite one, is computed by some call: the union of the blocks is a nonredundant half of the spectrum.  Together with
`C38_count` this says that no frequency is computed more often than needed. -/
theorem C38_frequencies {L M : ℕ} {app : App} {C S0 m D : ℕ} {inplace : Bool} {J : Junk} {Vp : Ptr} (hC : 0 < C) (hD : 0 < D)
    (hnew : Re.new L M app C S0 m D inplace J Vp = .ok o) (k : ℤ) :
    ∃ r ∈ o.visited o.R 0, ∃ i < o.noutputs r, ((m * o.q : ℕ) : ℤ) ∣ o.freq r i - k ∨ ((m * o.q : ℕ) : ℤ) ∣ o.freq r i + k := by
  have w' := WF.of_new hC hD hnew
  obtain ⟨hL, hm, hCC⟩ := new_fields hnew
  have hM : m * o.q = o.M := by rw [w'.M_eq, hm]
  rw [hM]
  have hM0 : 0 < o.M := by have := w'.L_pos; have := w'.L_le_M; omega
  classical
  let g : ℤ → ℝ := fun x => if (o.M : ℤ) ∣ x - k ∨ (o.M : ℤ) ∣ x + k then 1 else 0
  have hg : EvenPer o.M g := by
    refine ⟨fun x => ?_, fun x => ?_⟩
    · have : ((o.M : ℤ) ∣ x + o.M - k ∨ (o.M : ℤ) ∣ x + o.M + k) ↔ ((o.M : ℤ) ∣ x - k ∨ (o.M : ℤ) ∣ x + k) := by
        rw [show x + o.M - k = (x - k) + o.M by ring, show x + o.M + k = (x + k) + o.M by ring]
        simp
      show (if _ then (1 : ℝ) else 0) = if _ then 1 else 0
      simp only [this]
    · have : ((o.M : ℤ) ∣ -x - k ∨ (o.M : ℤ) ∣ -x + k) ↔ ((o.M : ℤ) ∣ x - k ∨ (o.M : ℤ) ∣ x + k) := by
        rw [show -x - k = -(x + k) by ring, show -x + k = -(x - k) by ring, Int.dvd_neg, Int.dvd_neg, or_comm]
      show (if _ then (1 : ℝ) else 0) = if _ then 1 else 0
      simp only [this]
  have hs := w'.sum_blocks hg
  have hpos : 0 < ∑ x ∈ range o.M, g x := by
    refine sum_pos' (fun x _ => ?_) ⟨(k % o.M).toNat, ?_, ?_⟩
    · show 0 ≤ if _ then (1 : ℝ) else 0
      split_ifs <;> norm_num
    · have := Int.emod_lt_of_pos k (by omega : (0 : ℤ) < o.M)
      have := Int.emod_nonneg k (by omega : (o.M : ℤ) ≠ 0)
      rw [mem_range]; omega
    · have := Int.emod_nonneg k (by omega : (o.M : ℤ) ≠ 0)
      show 0 < if _ then (1 : ℝ) else 0
      rw [if_pos]
      · norm_num
      · left
        rw [Int.toNat_of_nonneg this]
        exact ⟨-(k / o.M), by have := Int.mul_ediv_add_emod k o.M; rw [mul_neg]; linarith⟩
  by_contra hne
  push Not at hne
  rw [← hs] at hpos
  refine absurd hpos (not_lt.2 (le_of_eq ?_))
  refine List.sum_eq_zero fun y hy => ?_
  obtain ⟨r, hr, rfl⟩ := List.mem_map.1 hy
  refine sum_eq_zero fun i hi => ?_
  have := hne r hr i (mem_range.1 hi)
  show _ * (if _ then (1 : ℝ) else 0) = 0
  rw [if_neg (by rintro (h | h); exact this.1 h; exact this.2 h), mul_zero]

/-- The outputs, counted with the number of frequencies they stand for, are as many as the frequencies. -/
theorem C38_count {L M : ℕ} {app : App} {C S0 m D : ℕ} {inplace : Bool} {J : Junk} {Vp : Ptr} (hC : 0 < C) (hD : 0 < D)
    (hnew : Re.new L M app C S0 m D inplace J Vp = .ok o) :
    ((o.visited o.R 0).map fun r => ∑ i ∈ range (o.noutputs r), o.weight r i).sum = (m * o.q : ℕ) := by
  have w' := WF.of_new hC hD hnew
  obtain ⟨hL, hm, hCC⟩ := new_fields hnew
  have := w'.sum_blocks (g := fun _ => 1) ⟨fun _ => rfl, fun _ => rfl⟩
  simp only [mul_one] at this
  rw [this]
  simp [w'.M_eq, hm]

theorem forward_all (w' : o.WF) (a : o.Args mem f F W?) (hpad : o.Padded mem (W?.getD F)) (hv : o.Visit r) :
    (o.forward f F r W?).Ok mem (fun _ m' => o.FPost mem m' f F (o.workMany F r W?) r) := by
  rcases Nat.lt_or_ge 2 o.p with hp | hp
  · exact forward_big w' hp a hv
  · exact forward_le2 w' hp a hpad hv

theorem backward_all (w' : o.WF) (a : o.Args mem f F W?) (hv : o.Visit r) :
    (o.backward F f r W?).Ok mem (fun _ m' => o.BwPost mem m' f F (o.workMany F r W?) r) := by
  rcases Nat.lt_or_ge 2 o.p with hp | hp
  · exact backward_big w' hp a hv
  · exact backward_le2 w' hp a hv

/-- **C38**, forward.  For every constructed transform of real data, every input, every initial contents of `F` and `W`: after `pad(W)` and any
sequence of earlier `forward` calls, `forward(f,F,r,W)` runs to completion without out-of-bounds access or data race and leaves in `F[S*i+c]`,
`i < noutputs(r)`, `c < C`, the DFT of length `N=m*q` of copy `c` of the doubles `f`, zero padded, at frequency `freq r i`.  Only words of `F`, `W` and the private work
array are modified; in particular `f` is not. -/
theorem C38_forward {L M : ℕ} {app : App} {C S0 m D : ℕ} {inplace : Bool} {J : Junk} {Vp : Ptr} (hC : 0 < C) (hD : 0 < D)
    (hnew : Re.new L M app C S0 m D inplace J Vp = .ok o) (a : o.Args mem f F W?)
    {history : List ℕ} (hh : ∀ r ∈ history, r ∈ o.visited o.R 0) (hr : r ∈ o.visited o.R 0) :
    (do o.padW W?
        seqLoop history fun r => o.forward f F r W?
        o.forward f F r W? : Cmd Unit).Ok mem fun _ m' =>
      (∀ i < o.noutputs r, ∀ c < C, m'.val (F + (o.S * i + c)) =
        paddedDFT (m * o.q) L (fun j => (mem.dbl f (o.S * j + c) : ℂ)) (o.freq r i)) ∧
      (∀ p, ¬ o.TouchFW F W? p → m'.val p = mem.val p) ∧ (∀ j, m'.val (f + (j : ℕ)) = mem.val (f + j)) ∧ m'.size = mem.size := by
  have w' := WF.of_new hC hD hnew
  obtain ⟨hL, hm, hCC⟩ := new_fields hnew
  have hM : m * o.q = o.M := by rw [w'.M_eq, hm]
  refine Cmd.Ok.bind ((pad_ok w' a).mono ?_)
  rintro _ m1 ⟨u1, p1⟩
  refine Cmd.Ok.bind (seqLoop_list (fun _ m2 => mem.Upd m2 (o.TouchFW F W?) ∧ o.Padded m2 (W?.getD F)) ⟨u1, p1⟩ ?_ ?_)
  · rintro _ r' m2 hr' ⟨u2, p2⟩
    refine (forward_all w' (a.size u2.size) p2 (w'.visit (hh r' hr'))).mono ?_
    rintro _ m3 post
    exact ⟨u2.trans post.upd (fun _ h => h) (fun p hp => tch_touch hp), post.pad.unwork a.W_some⟩
  · rintro m2 ⟨u2, p2⟩
    refine (forward_all w' (a.size u2.size) p2 (w'.visit hr)).mono ?_
    rintro _ m3 post
    have u3 : mem.Upd m3 (o.TouchFW F W?) := u2.trans post.upd (fun _ h => h) (fun p hp => tch_touch hp)
    refine ⟨?_, u3.frame, fun j => u3.frame _ fun h => touch_buf a h (by simp), u3.size⟩
    intro i hi c hc
    rw [post.out i hi c (by omega), hM, ← hL, X_eq]
    simp only [dbl_frame a u2]

/-- **C38**, backward, one call: for blocks that could be those of real data (values at opposite frequencies conjugate), `backward(F,f,r,W)` runs to
completion without out-of-bounds access or data race and sets (`r=0`) or increments (`r>0`) the double `f[S*j+c]` by the contribution
`Σ_i weight(r,i) Re(F[S*i+c] exp(-2πi j freq(r,i)/N))` of the block.  Apart from these doubles only words of `F`, `W` and the private work array
change. -/
theorem C38_backward_block {L M : ℕ} {app : App} {C S0 m D : ℕ} {inplace : Bool} {J : Junk} {Vp : Ptr} (hC : 0 < C) (hD : 0 < D)
    (hnew : Re.new L M app C S0 m D inplace J Vp = .ok o) (a : o.Args mem f F W?) (hr : r ∈ o.visited o.R 0) :
    (o.backward F f r W?).Ok mem fun _ m' =>
      (∀ c < C, o.Consistent r (fun i => mem.val (F + (o.S * i + c))) → ∀ j < L, m'.dbl f (o.S * j + c) =
        (if r = 0 then 0 else mem.dbl f (o.S * j + c)) +
        ∑ i ∈ range (o.noutputs r), o.weight r i * (mem.val (F + (o.S * i + c)) * w (m * o.q) (-((j : ℤ) * o.freq r i))).re) ∧
      (∀ p, ¬ o.TouchFW F W? p → (∀ j < L, ∀ c < C, p ≠ f + ((o.S * j + c) / 2 : ℕ)) → m'.val p = mem.val p) ∧
      (∀ k, (∀ j < L, ∀ c < C, k ≠ o.S * j + c) → m'.dbl f k = mem.dbl f k) ∧ m'.size = mem.size := by
  have w' := WF.of_new hC hD hnew
  obtain ⟨hL, hm, hCC⟩ := new_fields hnew
  have hM : m * o.q = o.M := by rw [w'.M_eq, hm]
  refine (backward_all w' a (w'.visit hr)).mono ?_
  rintro _ m' post
  refine ⟨?_, ?_, ?_, post.upd.size⟩
  · intro c hc hcons j hj
    rw [Mem.dbl_cell, Mem.dbl_cell, post.out c (by omega) hcons j (by omega), hM]
  · intro p hp' hpf
    refine (post.upd.words (Q := fun p => o.TouchFW F W? p ∨ ∃ j < L, ∃ c < C, p = f + ((o.S * j + c) / 2 : ℕ)) ?_).frame p ?_
    · rintro x (⟨j, hj, c, hc, rfl⟩ | h)
      · exact Or.inr ⟨j, by omega, c, by omega, RPlan.wordOf_add _ _⟩
      · exact Or.inl (tch_touch h)
    · rintro (h | ⟨j, hj, c, hc, h⟩)
      · exact hp' h
      · exact hpf j hj c hc h
  · intro k hk
    rw [Mem.dbl_cell, Mem.dbl_cell]
    refine post.upd.frame _ ?_
    rintro (⟨j, hj, c, hc, h⟩ | h)
    · exact hk j (by omega) c (by omega) (Ptr.add_inj.1 h)
    · exact touch_buf a (tch_touch h) (by simp [wordOf, dptr])

/-- **C38**, round trip: the loop over all residue blocks of `pad(W)`, `forward(f,F,r,W)`, `backward(F,g,r,W)` runs to completion and leaves
`g[S*j+c] = N f[S*j+c]` for all `j < L`, `c < C`, whatever was in `g`, `F` and `W`; `f` is unchanged. -/
theorem C38_roundtrip {L M : ℕ} {app : App} {C S0 m D : ℕ} {inplace : Bool} {J : Junk} {Vp : Ptr} (hC : 0 < C) (hD : 0 < D)
    (hnew : Re.new L M app C S0 m D inplace J Vp = .ok o) {g : Ptr} (a : o.Args mem f F W?) (b : o.Args mem g F W?)
    (hfg : f.buf ≠ g.buf) :
    (seqLoop (o.visited o.R 0) fun r => do
        o.padW W?
        o.forward f F r W?
        o.backward F g r W?).Ok mem fun _ m' =>
      (∀ j < L, ∀ c < C, m'.dbl g (o.S * j + c) = (m * o.q : ℕ) * mem.dbl f (o.S * j + c)) ∧
      (∀ j, m'.val (f + (j : ℕ)) = mem.val (f + j)) := by
  have w' := WF.of_new hC hD hnew
  obtain ⟨hL, hm, hCC⟩ := new_fields hnew
  have hM : m * o.q = o.M := by rw [w'.M_eq, hm]
  have hM0 : o.M ≠ 0 := by have := w'.L_pos; have := w'.L_le_M; omega
  let x : ℕ → ℕ → ℝ := fun c j => mem.dbl f (o.S * j + c)
  let T : Ptr → Prop := fun p => o.TouchFW F W? p ∨ p.buf = g.buf
  have hfT : ∀ {p : Ptr}, p.buf = f.buf → ¬ T p := by
    rintro p hpf (h1 | h1)
    · exact touch_buf a h1 hpf
    · exact hfg (hpf.symm.trans h1)
  let G : ℕ → ℕ → ℤ → ℝ := fun c j k => (paddedDFT o.M o.L (fun j => (x c j : ℂ)) k * w o.M (-((j : ℤ) * k))).re
  let I : List ℕ → Mem → Prop := fun done m1 => mem.Upd m1 T ∧ (done ≠ [] → ∀ j < o.L, ∀ c < o.C,
      m1.dbl g (o.S * j + c) = (done.map fun r => ∑ i ∈ range (o.noutputs r), o.weight r i * G c j (o.freq r i)).sum)
  have step : ∀ (done : List ℕ) r m1, r ∈ o.visited o.R 0 → (done = [] → r = 0) → (done ≠ [] → r ≠ 0) → I done m1 →
      (do o.padW W?
          o.forward f F r W?
          o.backward F g r W? : Cmd Unit).Ok m1 (fun _ m' => I (done ++ [r]) m') := by
    rintro done r m1 hr hd0 hd1 ⟨u1, e1⟩
    have hv := w'.visit hr
    refine Cmd.Ok.bind ((pad_ok w' (a.size u1.size)).mono ?_)
    rintro _ m2 ⟨u2, p2⟩
    have hs2 := u2.size.trans u1.size
    refine Cmd.Ok.bind ((forward_all w' (a.size hs2) p2 hv).mono ?_)
    rintro _ m3 post3
    have hs3 := post3.upd.size.trans hs2
    refine (backward_all w' (b.size hs3) hv).mono ?_
    rintro _ m4 post4
    have t13 : m1.Upd m3 (o.TouchFW F W?) := u2.trans post3.upd (fun _ h => h) (fun p hp => tch_touch hp)
    have t34 : m3.Upd m4 T := post4.upd.words (by
      rintro y (hy | hy)
      · exact Or.inr (by have := hy.buf; simpa [wordOf] using this)
      · exact Or.inl (tch_touch hy))
    refine ⟨u1.trans (t13.trans t34 (fun p hp => Or.inl hp) (fun _ h => h)) (fun _ h => h) (fun _ h => h), ?_⟩
    intro _ j hj c hc
    have hX : o.X m2 f c = fun j => (x c j : ℂ) := by
      rw [X_eq]; funext j'
      rw [dbl_frame a u2]
      congr 1
      rw [Mem.dbl_cell]
      show _ = mem.dbl f _
      rw [Mem.dbl_cell]
      exact u1.cells.frame _ (hfT (by simp [wordOf, dptr]))
    have hx : ∀ i < o.noutputs r, m3.val (F + (o.S * i + c)) = paddedDFT o.M o.L (fun j => (x c j : ℂ)) (o.freq r i) := by
      intro i hi
      rw [post3.out i hi c hc, hX]
    have hcons : o.Consistent r (fun i => m3.val (F + (o.S * i + c))) := by
      intro i hi i' hi' hop
      show m3.val _ = conj (m3.val _)
      rw [hx i hi, hx i' hi']
      exact paddedDFT_consistent w' (x c) i hi i' hi' hop
    rw [Mem.dbl_cell, post4.out c hc hcons j hj, List.map_append, List.sum_append]
    congr 1
    · by_cases hr0 : r = 0
      · rw [if_pos hr0]
        have : done = [] := by
          by_contra hne
          exact hd1 hne hr0
        rw [this]; simp
      · rw [if_neg hr0, ← Mem.dbl_cell, dbl_frame b t13]
        exact e1 (fun hd => hr0 (hd0 hd)) j hj c hc
    · simp only [List.map_cons, List.map_nil, List.sum_cons, List.sum_nil, add_zero]
      refine sum_congr rfl fun i hi => ?_
      rw [hx i (mem_range.1 hi)]
  obtain ⟨l, hl, hl0⟩ := w'.visited_zero
  have h0s : (0 : ℕ) ∈ o.visited o.R 0 := by rw [hl]; simp
  obtain ⟨_, m1, hm1, hI1⟩ := step [] 0 mem h0s (fun _ => rfl) (fun h => absurd rfl h) ⟨Mem.Upd.refl _ _, fun h => absurd rfl h⟩
  have hrest : (seqLoop l fun r => (do
        o.padW W?
        o.forward f F r W?
        o.backward F g r W?)).Ok m1 (fun _ m' => I ([0] ++ l) m') := by
    refine seqLoop_list (fun done m' => I ([0] ++ done) m') hI1 ?_ (fun _ h => h)
    intro l1 r m2 hr hI2
    have := step ([0] ++ l1) r m2 (by rw [hl]; exact List.mem_cons_of_mem _ hr) (fun hne => by simp at hne)
      (fun _ => hl0 r hr) hI2
    rwa [List.append_assoc] at this
  obtain ⟨_, m2, hm2, hI2⟩ := hrest
  refine ⟨(), m2, ?_, ?_, ?_⟩
  · rw [hl]; simp only [seqLoop, hm1]; exact hm2
  · intro j hj c hc
    rw [hI2.2 (by simp) j (by omega) c (by omega), show [0] ++ l = o.visited o.R 0 from hl.symm, w'.sum_blocks (g := G c j) ?_]
    · have hinv := dft_inversion hM0 w'.L_le_M (fun j => (x c j : ℂ)) (by omega : j < o.L)
      have := congrArg Complex.re hinv
      rw [Complex.re_sum] at this
      rw [hM]
      refine this.trans ?_
      rw [← Complex.ofReal_natCast, ← Complex.ofReal_mul, Complex.ofReal_re]
    · refine ⟨fun k => ?_, fun k => ?_⟩
      · show (_ * _ : ℂ).re = (_ * _ : ℂ).re
        congr 2
        · unfold paddedDFT
          refine sum_congr rfl fun j _ => ?_
          congr 1
          exact w_congr ⟨j, by ring⟩
        · exact w_congr ⟨-j, by ring⟩
      · show (_ * _ : ℂ).re = (_ * _ : ℂ).re
        rw [paddedDFT_real, show -((j : ℤ) * -k) = -(-((j : ℤ) * k)) by ring, ← w_conj, ← map_mul, Complex.conj_re]
  · intro j
    exact hI2.1.frame _ (hfT (by simp))

/-- The hypotheses are met by concrete cases: `p=1` with `D=2`, `p=2` with three copies at stride 4 and an even number of residues (so that `2*r=n` occurs),
explicit padding, `p=3` with a single copy, and `p=4` in place with a private work array (three copies at stride 4) and `2*r=n`. -/
example (J : Junk) (Vp : Ptr) : (∃ o, Re.new 4 20 ⟨2, 1, true⟩ 1 1 4 2 false J Vp = .ok o ∧ o.p = 1 ∧ 1 ∈ o.visited o.R 0 ∧
      o.Args (Fft.exMem 100) ⟨0, 0⟩ ⟨1, 0⟩ (some ⟨2, 0⟩) ∧ o.Args (Fft.exMem 100) ⟨3, 0⟩ ⟨1, 0⟩ (some ⟨2, 0⟩)) ∧
    (∃ o, Re.new 7 16 ⟨2, 1, true⟩ 3 4 4 1 true J Vp = .ok o ∧ o.p = 2 ∧ o.n = 4 ∧ 2 ∈ o.visited o.R 0 ∧
      o.Args (Fft.exMem 100) ⟨0, 0⟩ ⟨1, 0⟩ none) ∧
    (∃ o, Re.new 5 7 ⟨2, 1, true⟩ 2 2 7 1 true J Vp = .ok o ∧ o.q = 1 ∧ 0 ∈ o.visited o.R 0 ∧
      o.Args (Fft.exMem 100) ⟨0, 0⟩ ⟨1, 0⟩ none) ∧
    (∃ o, Re.new 10 36 ⟨2, 1, true⟩ 1 1 4 1 false J Vp = .ok o ∧ o.p = 3 ∧ 0 ∈ o.visited o.R 0 ∧ 1 ∈ o.visited o.R 0 ∧
      o.Args (Fft.exMem 100) ⟨0, 0⟩ ⟨1, 0⟩ (some ⟨2, 0⟩)) ∧
    (∃ o, Re.new 14 32 ⟨2, 1, true⟩ 3 4 4 1 true J ⟨4, 0⟩ = .ok o ∧ o.p = 4 ∧ o.n = 2 ∧ o.V = some ⟨4, 0⟩ ∧ 0 ∈ o.visited o.R 0 ∧ 1 ∈ o.visited o.R 0 ∧
      o.Args (Fft.exMem 100) ⟨0, 0⟩ ⟨1, 0⟩ none) := by
  have hb : ∀ k n, n ≤ 100 → (Fft.exMem 100).block ⟨k, 0⟩ n := by
    intro k n hn i hi
    constructor
    · show (0 : ℤ) ≤ 0 + i
      omega
    · show (0 : ℤ) + i < (100 : ℕ)
      omega
  refine ⟨⟨_, rfl, rfl, ?_, ?_, ?_⟩, ⟨_, rfl, rfl, rfl, ?_, ?_⟩, ⟨_, rfl, rfl, ?_, ?_⟩, ⟨_, rfl, rfl, ?_, ?_, ?_⟩, ⟨_, rfl, rfl, rfl, ?_, ?_, ?_, ?_⟩⟩
  · simp [visited, newHybrid, increment, ceilquotient]
  · refine ⟨by simp, hb _ _ ?_, hb _ _ ?_, ⟨_, rfl, by simp, by simp, hb _ _ ?_⟩, ?_⟩ <;> simp [newHybrid, outputSize, workSizeW, ceilquotient]
  · refine ⟨by simp, hb _ _ ?_, hb _ _ ?_, ⟨_, rfl, by simp, by simp, hb _ _ ?_⟩, ?_⟩ <;> simp [newHybrid, outputSize, workSizeW, ceilquotient]
  · simp [visited, newHybrid, increment, ceilquotient]
  · refine ⟨by simp, hb _ _ ?_, hb _ _ ?_, rfl, ?_⟩ <;> simp [newHybrid, outputSize, workSizeW, ceilquotient]
  · simp [visited, newExplicit]
  · refine ⟨by simp, hb _ _ ?_, hb _ _ ?_, rfl, ?_⟩ <;> simp [newExplicit, outputSize, workSizeW, ceilquotient]
  · simp [visited, newHybrid, increment, ceilquotient]
  · simp [visited, newHybrid, increment, ceilquotient]
  · refine ⟨by simp, hb _ _ ?_, hb _ _ ?_, ⟨_, rfl, by simp, by simp, hb _ _ ?_⟩, ?_⟩ <;> simp [newHybrid, outputSize, workSizeW, ceilquotient]
  · simp [newHybrid, ceilquotient]
  · simp [visited, newHybrid, increment, ceilquotient]
  · simp [visited, newHybrid, increment, ceilquotient]
  · refine ⟨by simp, hb _ _ ?_, hb _ _ ?_, rfl, ?_⟩
    · simp [newHybrid, outputSize, workSizeW, ceilquotient]
    · simp [newHybrid, outputSize, workSizeW, ceilquotient]
    · simp [newHybrid, outputSize, workSizeW, ceilquotient]
      exact hb _ _ (by omega)

end Re
end Fftwpp
