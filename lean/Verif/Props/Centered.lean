import Verif.Proof.CSpec2
import Verif.Proof.ConvMathC

/-! # C36: transforms of the centered class -/

namespace Fftwpp
open Finset

/-- What the constructor stores. -/
theorem Cent.new_fields {L M : ℕ} {app : App} {C S0 m D : ℕ} {inplace : Bool} {o : Cent}
    (h : Cent.new L M app C S0 m D inplace = .ok o) :
    o.L = L ∧ o.m = m ∧ o.C = C ∧ o.S = (if S0 = 0 then C else S0) ∧ (o.p, o.n, o.q) = parameters L M m true ∧
    o.inplace = inplace ∧ o.A = app.A ∧ o.B = app.B ∧ o.D = (if o.q = 1 then 1 else D) ∧ L ≤ M ∧ 0 < L ∧ 0 < m := by
  unfold Cent.new at h
  generalize hpar : parameters L M m true = x at h ⊢
  obtain ⟨p, n, q⟩ := x
  simp only at h ⊢
  generalize (if S0 = 0 then C else S0) = S at h ⊢
  split_ifs at h with h1 h2 h3 h4 h5 h6 h7
  · simp only [Except.ok.injEq] at h
    subst h
    simp [Cent.newExplicit, h6]; omega
  · simp only [Except.ok.injEq] at h
    subst h
    simp [Cent.newHybrid, h6]; omega

namespace Cent
variable {o : Cent}

theorem WF.visited_starts (h : o.WF) : o.visited o.nloops 0 = o.starts := by
  have hn : o.nloops = o.sh.nloops := by
    show o.starts.length = o.sh.starts.length
    rw [h.sh_starts]
  rw [hn, ← h.sh_visited, h.shw.visited_starts, h.sh_starts]

/-- The documented arguments meet the requirements of the interface. -/
theorem WF.args (h : o.WF) {mem : Mem} {f F : Ptr} {W? : Option Ptr} (a : o.toFft.Args mem f F W?) : o.base.Args mem f F W? := by
  have hCS := h.C_le_S
  refine ⟨a.fF, ?_, ?_, ?_⟩
  · rintro p ⟨j, hj, c, hc, rfl⟩
    have hc' : c < o.C := hc
    exact a.bf _ (radix_lt (show c < o.S by omega) hj)
  · intro p hp
    obtain ⟨i, hi, rfl⟩ := hp.inArr (fun c hc => lt_of_lt_of_le hc hCS)
    exact a.bF i hi
  · have hW := a.bW
    show if o.inplace = true then _ else _
    unfold Fft.workSizeW at hW
    split_ifs at hW ⊢ with hi
    · exact hW
    · exact hW

/-- The words `forward` may write: the words `S*i+c`, `c < C`, of `F`, and words of `W`. -/
def TouchFW (o : Cent) (F : Ptr) (W? : Option Ptr) (p : Ptr) : Prop :=
  (∃ i c, c < o.C ∧ o.S * i + c < o.outputSize ∧ p = F + (o.S * i + c)) ∨ ∃ W, W? = some W ∧ ∃ i < o.outputSize, p = W + (i : ℕ)

theorem WF.touch (h : o.WF) {F : Ptr} {W? : Option Ptr} {p : Ptr} (hp : o.base.Touch F W? p) : o.TouchFW F W? p := by
  rcases hp with ⟨i, hi, c, hc, rfl⟩ | ⟨W, hW, hp⟩
  · refine Or.inl ⟨i, c, hc, ?_, rfl⟩
    have hi' : o.S * (i + 1) ≤ o.outputSize := hi
    have hc' : c < o.C := hc
    have := h.C_le_S
    rw [Nat.mul_succ] at hi'
    omega
  · exact Or.inr ⟨W, hW, hp⟩

theorem touch_f {mem : Mem} {f F : Ptr} {W? : Option Ptr} (a : o.toFft.Args mem f F W?) {j : ℕ} : ¬ o.TouchFW F W? (f + j) := by
  rintro (⟨i, c, _, _, h3⟩ | ⟨W, h3, i, _, h4⟩)
  · exact a.fF (by simpa using congrArg Ptr.buf h3)
  · have hW := a.bW
    split_ifs at hW
    · rw [hW] at h3; simp at h3
    · obtain ⟨W', h5, _, h6, _⟩ := hW
      rw [h3] at h5
      simp only [Option.some.injEq] at h5
      subst h5
      exact h6 (by simpa using (congrArg Ptr.buf h4).symm)

/-- **C36**, forward transform.  For every constructed centered transform that does not overwrite its input, every input and every initial
contents of `F` and `W` (in particular after any earlier calls), `forward(f,F,r,W)` runs to completion without out-of-bounds access or data
race and leaves in `F[S*i+c]`, `i < noutputs(r)`, `c < C`, the DFT of length `N=m*q` of copy `c` of `f`, where element `j` stands for
position `j-⌊L/2⌋`, at frequency `index(r,i)`.  Only the words `S*i+c`, `c < C`, of `F` and words of `W` are changed. -/
theorem C36_forward {L M : ℕ} {app : App} {C S0 m D : ℕ} {inplace : Bool} (hC : 0 < C)
    (hnew : Cent.new L M app C S0 m D inplace = .ok o) (how : o.overwrite = false)
    {mem : Mem} {f F : Ptr} {W? : Option Ptr} (a : o.toFft.Args mem f F W?) {r : ℕ} (hr : r ∈ o.visited o.nloops 0) :
    (o.forward f F r W?).Ok mem fun _ m' =>
      (∀ i < o.noutputs r, ∀ c < C, m'.val (F + (o.S * i + c)) =
        cdft (m * o.q) L (L / 2) (fun j => mem.val (f + (o.S * j + c))) (o.index r i)) ∧
      (∀ p, ¬ o.TouchFW F W? p → m'.val p = mem.val p) ∧ (∀ j, m'.val (f + (j : ℕ)) = mem.val (f + j)) ∧ m'.size = mem.size := by
  have h := Cent.WF.of_new hC hnew
  obtain ⟨hL, hm, hCC, _⟩ := Cent.new_fields hnew
  subst hL hm hCC
  rw [h.visited_starts] at hr
  refine (h.base_spec.fwd how hr (h.args a) trivial).mono ?_
  rintro _ m' ⟨u, _, e⟩
  rw [← h.M_eq]
  refine ⟨e, fun p hp => u.frame p fun hp' => hp (h.touch hp'), fun j => u.frame _ fun hp' => touch_f a (h.touch hp'), u.size⟩

/-- **C36**, one call of `backward`: it sets (`r=0`) or increments (`r>0`) `f[S*j+c]` by the contribution
`Σ_i F[S*i+c] exp(-2πi (j-⌊L/2⌋) index(r,i)/N)` of block `r`. -/
theorem C36_backward_block {L M : ℕ} {app : App} {C S0 m D : ℕ} {inplace : Bool} (hC : 0 < C)
    (hnew : Cent.new L M app C S0 m D inplace = .ok o) (how : o.overwrite = false)
    {mem : Mem} {f F : Ptr} {W? : Option Ptr} (a : o.toFft.Args mem f F W?) {r : ℕ} (hr : r ∈ o.visited o.nloops 0) :
    (o.backward F f r W?).Ok mem fun _ m' =>
      (∀ j < L, ∀ c < C, m'.val (f + (o.S * j + c)) = (if r = 0 then 0 else mem.val (f + (o.S * j + c))) +
        ∑ i ∈ range (o.noutputs r), mem.val (F + (o.S * i + c)) * w (m * o.q) (-(((j : ℤ) - (L / 2 : ℕ)) * (o.index r i : ℤ)))) ∧
      (∀ p, ¬ o.TouchFW F W? p → (∀ j < L, ∀ c < C, p ≠ f + (o.S * j + c)) → m'.val p = mem.val p) ∧ m'.size = mem.size := by
  have h := Cent.WF.of_new hC hnew
  obtain ⟨hL, hm, hCC, _⟩ := Cent.new_fields hnew
  subst hL hm hCC
  rw [h.visited_starts] at hr
  refine (h.base_spec.bwd how hr (h.args a)).mono ?_
  rintro _ m' ⟨u, e⟩
  rw [← h.M_eq]
  refine ⟨e, fun p hp hpf => u.frame p ?_, u.size⟩
  rintro (⟨j, hj, c, hc, rfl⟩ | hp')
  · exact hpf j hj c hc rfl
  · exact hp (h.touch hp')

/-- **C36**, round trip: the loop over all residue blocks of `forward(f,F,r,W)`, `backward(F,h,r,W)` runs to completion and leaves
`h[S*j+c] = N f[S*j+c]`, whatever was in `h`, `F` and `W`; `f` is unchanged. -/
theorem C36_roundtrip {L M : ℕ} {app : App} {C S0 m D : ℕ} {inplace : Bool} (hC : 0 < C)
    (hnew : Cent.new L M app C S0 m D inplace = .ok o) (how : o.overwrite = false)
    {mem : Mem} {f h F : Ptr} {W? : Option Ptr} (a : o.toFft.Args mem f F W?) (b : o.toFft.Args mem h F W?) (hfh : f.buf ≠ h.buf) :
    (seqLoop (o.visited o.nloops 0) fun r => do
        o.forward f F r W?
        o.backward F h r W?).Ok mem fun _ m' =>
      (∀ j < L, ∀ c < C, m'.val (h + (o.S * j + c)) = (m * o.q : ℕ) * mem.val (f + (o.S * j + c))) ∧
      (∀ j, m'.val (f + (j : ℕ)) = mem.val (f + j)) := by
  have hwf := Cent.WF.of_new hC hnew
  have hM0 : o.M ≠ 0 := by have := hwf.M_pos; omega
  have hvs := hwf.visited_starts
  obtain ⟨rest, hst, hn0⟩ := hwf.base_spec.res0
  have hst : o.starts = 0 :: rest := hst
  let X : ℕ → ℕ → ℂ := fun c j => mem.val (f + (o.S * j + c))
  let T : Ptr → Prop := fun p => o.TouchFW F W? p ∨ ∃ j < L, ∃ c < C, p = h + (o.S * j + c)
  have hfT : ∀ j : ℕ, ¬ T (f + j) := by
    rintro j (h1 | ⟨_, _, _, _, h1⟩)
    · exact touch_f a h1
    · exact hfh (by simpa using congrArg Ptr.buf h1)
  let I : List ℕ → Mem → Prop := fun done m1 => mem.Upd m1 T ∧ (done ≠ [] → ∀ j < L, ∀ c < C,
      m1.val (h + (o.S * j + c)) = (done.map fun r => ∑ i ∈ range (o.noutputs r),
        cdft (m * o.q) L (L / 2) (X c) (o.index r i) * w (m * o.q) (-(((j : ℤ) - (L / 2 : ℕ)) * (o.index r i : ℤ)))).sum)
  have step : ∀ (done : List ℕ) r m1, r ∈ o.starts → (done = [] → r = 0) → (done ≠ [] → r ≠ 0) → I done m1 →
      (do o.forward f F r W?
          o.backward F h r W? : Cmd Unit).Ok m1 (fun _ m' => I (done ++ [r]) m') := by
    rintro done r m1 hr hd0 hd1 ⟨u1, e1⟩
    rw [← hvs] at hr
    refine Cmd.Ok.bind ((C36_forward hC hnew how (a.size u1.size) hr).mono ?_)
    rintro _ m2 ⟨e2, fr2, ff2, s2⟩
    refine (C36_backward_block hC hnew how (b.size (s2.trans u1.size)) hr).mono ?_
    rintro _ m3 ⟨e3, fr3, s3⟩
    have u13 : m1.Upd m3 T := by
      refine ⟨s3.trans s2, fun p hp => ?_⟩
      rw [fr3 p (fun hp' => hp (Or.inl hp')) (fun j hj c hc he => hp (Or.inr ⟨j, hj, c, hc, he⟩)), fr2 p (fun hp' => hp (Or.inl hp'))]
    refine ⟨u1.trans u13 (fun _ h => h) (fun _ h => h), ?_⟩
    intro _ j hj c hc
    rw [e3 j hj c hc, List.map_append, List.sum_append]
    have hx : ∀ i < o.noutputs r, m2.val (F + (o.S * i + c)) = cdft (m * o.q) L (L / 2) (X c) (o.index r i) := by
      intro i hi
      rw [e2 i hi c hc]
      unfold cdft
      refine sum_congr rfl fun j' _ => ?_
      show m1.val _ * _ = mem.val _ * _
      rw [u1.frame _ (hfT _)]
    congr 1
    · by_cases hr0 : r = 0
      · rw [if_pos hr0]
        have : done = [] := by
          by_contra hne
          exact hd1 hne hr0
        rw [this]; simp
      · rw [if_neg hr0, fr2 _ (touch_f b)]
        exact e1 (fun hd => hr0 (hd0 hd)) j hj c hc
    · simp only [List.map_cons, List.map_nil, List.sum_cons, List.sum_nil, add_zero]
      refine sum_congr rfl fun i hi => ?_
      rw [hx i (mem_range.1 hi)]
  rw [hvs, hst]
  obtain ⟨_, m1, hm1, hI1⟩ := step [] 0 mem (by rw [hst]; simp) (fun _ => rfl) (fun h => absurd rfl h)
    ⟨Mem.Upd.refl _ _, fun h => absurd rfl h⟩
  have hrest : (seqLoop rest fun r => (do
        o.forward f F r W?
        o.backward F h r W?)).Ok m1 (fun _ m' => I ([0] ++ rest) m') := by
    refine seqLoop_list (fun done m' => I ([0] ++ done) m') hI1 ?_ (fun _ h => h)
    intro l1 r m2 hr hI2
    have := step ([0] ++ l1) r m2 (by rw [hst]; exact List.mem_cons_of_mem _ hr) (fun hne => by simp at hne)
      (fun _ h0 => hn0 (h0 ▸ hr)) hI2
    rwa [List.append_assoc] at this
  obtain ⟨_, m2, hm2, hI2⟩ := hrest
  refine ⟨(), m2, ?_, ?_, fun j => hI2.1.frame _ (hfT j)⟩
  · simp only [seqLoop, hm1]; exact hm2
  · intro j hj c hc
    obtain ⟨hL, hm, hCC, _⟩ := Cent.new_fields hnew
    have hM : m * o.q = o.M := by rw [hwf.M_eq, hm]
    rw [hI2.2 (by simp) j hj c hc, show [0] ++ rest = o.starts from hst.symm,
      hwf.sum_blocks (fun e => cdft (m * o.q) L (L / 2) (X c) e * w (m * o.q) (-(((j : ℤ) - (L / 2 : ℕ)) * e))), hM,
      cdft_inversion hM0 (by rw [← hL]; exact hwf.L_le_M) _ hj]

/-- **C36**, forward transform, overwriting its input (then `p` is even, `q=3p/2`, `L=p m`).  With `l=m p/2`: `forward` runs to completion
and leaves in `f[S*(l*r+i)+c]`, `r < 2`, `i < l`, the centered DFT at the frequency `q*(i mod m)+3⌊i/m⌋+r`, and in `F[S*i+c]` that at
the frequency `q*(i mod m)+3⌊i/m⌋-1`.  Nothing else is changed. -/
theorem C36_ow_forward {L M : ℕ} {app : App} {C S0 m D : ℕ} {inplace : Bool} (hC : 0 < C)
    (hnew : Cent.new L M app C S0 m D inplace = .ok o) (how : o.overwrite = true)
    {mem : Mem} {f F : Ptr} (hfF : f.buf ≠ F.buf) (bf : mem.block f (o.S * L)) (bF : mem.block F o.outputSize) (r0 : ℕ) (W? : Option Ptr) :
    L = 2 * o.l ∧ m * o.q = 3 * o.l ∧
    (o.forward f F r0 W?).Ok mem fun _ m' =>
      (∀ r < (2 : ℕ), ∀ i < o.l, ∀ c < C, m'.val (f + (o.S * (o.l * r + i) + c)) =
        cdft (m * o.q) L (L / 2) (fun j => mem.val (f + (o.S * j + c))) ((o.q : ℤ) * (i % m : ℕ) + 3 * (i / m : ℕ) + (r : ℤ))) ∧
      (∀ i < o.l, ∀ c < C, m'.val (F + (o.S * i + c)) =
        cdft (m * o.q) L (L / 2) (fun j => mem.val (f + (o.S * j + c))) ((o.q : ℤ) * (i % m : ℕ) + 3 * (i / m : ℕ) - 1)) ∧
      (∀ p, (∀ j < L, ∀ c < C, p ≠ f + (o.S * j + c)) → (∀ i < o.l, ∀ c < C, p ≠ F + (o.S * i + c)) → m'.val p = mem.val p) ∧
      m'.size = mem.size := by
  have h : o.Ow := ⟨Cent.WF.of_new hC hnew, how⟩
  obtain ⟨hL, hm, hCC, _⟩ := Cent.new_fields hnew
  subst hL hm hCC
  obtain ⟨h1, h2, h3, h4, h5, h6, h7, h8, h9⟩ := h.facts
  have hl : o.l = o.m * o.P := h.wf.l_eq
  have hn : o.base.n - 1 = 2 := by show o.n - 1 = 2; rw [h4]
  refine ⟨by rw [h3, hl], by rw [h9, hl]; ring, ?_⟩
  rw [← h.wf.M_eq]
  have hcs := h.wf.C_le_S
  refine (h.spec.fwd r0 W? hfF ?_ ?_).mono ?_
  · rintro p ⟨j, hj, c, hc, rfl⟩
    have hc' : c < o.C := hc
    exact bf _ (radix_lt (show c < o.S by omega) hj)
  · intro p hp
    obtain ⟨i, hi, rfl⟩ := hp.inArr h.spec.col_lt
    exact bF i hi
  rintro _ m' ⟨u, ef, eF⟩
  rw [hn] at ef eF
  refine ⟨?_, ?_, ?_, u.size⟩
  · intro r hr i hi c hc
    refine (ef r hr i hi c hc).trans ?_
    have hd := owFreq_dvd h (show r < 3 by omega) i
    refine (cdft_congr (N := o.M) (L := o.L) (H := o.H) hd).symm.trans ?_
    have e : sA r = r := by
      obtain rfl | rfl : r = 0 ∨ r = 1 := by omega
      all_goals simp [sA]
    rw [e, h4]
    congr 1; push_cast; ring
  · intro i hi c hc
    refine (eF i hi c hc).trans ?_
    have hd := owFreq_dvd h (show 2 < 3 by omega) i
    refine (cdft_congr (N := o.M) (L := o.L) (H := o.H) hd).symm.trans ?_
    rw [h4, show sA 2 = -1 from rfl]
    congr 1; push_cast; ring
  · intro p g1 g2
    refine u.frame p ?_
    rintro (⟨j, hj, c, hc, rfl⟩ | ⟨i, hi, c, hc, rfl⟩)
    · exact g1 j hj c hc rfl
    · refine g2 i ?_ c hc rfl
      have e1 : o.base.outputSize = o.S * o.l := h.spec.out
      have hi' : o.S * (i + 1) ≤ o.S * o.l := le_of_le_of_eq hi e1
      exact Nat.le_of_mul_le_mul_left hi' (by have := h.wf.C_pos; omega)

/-- **C36**, overwriting, round trip: `forward(f,F,0)` and then `backward(F,f,0)` multiply `f[S*j+c]` by `normalization()`. -/
theorem C36_ow_roundtrip {L M : ℕ} {app : App} {C S0 m D : ℕ} {inplace : Bool} (hC : 0 < C)
    (hnew : Cent.new L M app C S0 m D inplace = .ok o) (how : o.overwrite = true)
    {mem : Mem} {f F : Ptr} (hfF : f.buf ≠ F.buf) (bf : mem.block f (o.S * L)) (bF : mem.block F o.outputSize) (W? : Option Ptr) :
    (do o.forward f F 0 W?
        o.backward F f 0 W? : Cmd Unit).Ok mem fun _ m' =>
      ∀ j < L, ∀ c < C, m'.val (f + (o.S * j + c)) = (m * o.q : ℕ) * mem.val (f + (o.S * j + c)) := by
  have h : o.Ow := ⟨Cent.WF.of_new hC hnew, how⟩
  obtain ⟨hL, hm, hCC, _⟩ := Cent.new_fields hnew
  subst hL hm hCC
  have hcs := h.wf.C_le_S
  have hF : ∀ {m1 : Mem}, m1.size = mem.size → (∀ p, o.base.Data f p → m1.valid p) ∧ (∀ p, o.base.Cols F p → m1.valid p) := by
    intro m1 hs
    constructor
    · rintro p ⟨j, hj, c, hc, rfl⟩
      have hc' : c < o.C := hc
      exact Mem.valid_of_size hs (bf _ (radix_lt (show c < o.S by omega) hj))
    · intro p hp
      obtain ⟨i, hi, rfl⟩ := hp.inArr h.spec.col_lt
      exact Mem.valid_of_size hs (bF i hi)
  refine Cmd.Ok.bind ((h.spec.fwd 0 W? hfF (hF rfl).1 (hF rfl).2).mono ?_)
  rintro _ m1 ⟨u1, ef, eF⟩
  refine (h.spec.bwd 0 W? hfF (hF u1.size).1 (hF u1.size).2).mono ?_
  rintro _ m2 ⟨u2, e2⟩ j hj c hc
  refine (e2 j hj c hc).trans ?_
  rw [← h.wf.M_eq, ← cdft_inversion (x0 := o.H) (by have := h.wf.M_pos; omega : o.M ≠ 0) h.wf.L_le_M (fun j => mem.val (f + (o.S * j + c))) hj]
  refine Eq.trans ?_ (h.spec.sum (fun e => cdft o.M o.L o.H (fun j => mem.val (f + (o.S * j + c))) e * w o.M (-(((j : ℤ) - o.H) * e))))
  congr 1
  · refine sum_congr rfl fun r hr => sum_congr rfl fun i hi => ?_
    rw [ef r (mem_range.1 hr) i (mem_range.1 hi) c hc]; rfl
  · refine sum_congr rfl fun i hi => ?_
    rw [eF i (mem_range.1 hi) c hc]; rfl

/-- The hypotheses are met by concrete cases, with `p=2`, `p=4`, explicit padding of odd size, and the overwriting `p=2` and `p=4`. -/
example : (∃ o, Cent.new 5 9 ⟨2, 1, true⟩ 1 1 4 1 false = .ok o ∧ o.overwrite = false ∧ o.p = 2 ∧ 1 ∈ o.visited o.nloops 0 ∧
      o.toFft.Args (Fft.exMem 100) ⟨0, 0⟩ ⟨1, 0⟩ (some ⟨2, 0⟩) ∧ o.toFft.Args (Fft.exMem 100) ⟨3, 0⟩ ⟨1, 0⟩ (some ⟨2, 0⟩)) ∧
    (∃ o, Cent.new 7 12 ⟨2, 1, true⟩ 2 3 2 1 true = .ok o ∧ o.overwrite = false ∧ o.p = 4 ∧ 1 ∈ o.visited o.nloops 0 ∧
      o.toFft.Args (Fft.exMem 100) ⟨0, 0⟩ ⟨1, 0⟩ none) ∧
    (∃ o, Cent.new 5 7 ⟨2, 1, true⟩ 1 1 7 1 true = .ok o ∧ o.overwrite = false ∧ o.fast = false ∧ 0 ∈ o.visited o.nloops 0 ∧
      o.toFft.Args (Fft.exMem 100) ⟨0, 0⟩ ⟨1, 0⟩ none) := by
  have hb : ∀ k n, n ≤ 100 → (Fft.exMem 100).block ⟨k, 0⟩ n := by
    intro k n hn i hi
    constructor
    · show (0 : ℤ) ≤ 0 + i
      omega
    · show (0 : ℤ) + i < (100 : ℕ)
      omega
  refine ⟨⟨_, rfl, rfl, rfl, by decide, ?_, ?_⟩, ⟨_, rfl, rfl, rfl, by decide, ?_⟩, ⟨_, rfl, rfl, rfl, by decide, ?_⟩⟩
  · exact ⟨by simp, hb _ _ (by decide), hb _ _ (by decide), ⟨_, rfl, by simp, by simp, hb _ _ (by decide)⟩⟩
  · exact ⟨by simp, hb _ _ (by decide), hb _ _ (by decide), ⟨_, rfl, by simp, by simp, hb _ _ (by decide)⟩⟩
  · exact ⟨by simp, hb _ _ (by decide), hb _ _ (by decide), rfl⟩
  · exact ⟨by simp, hb _ _ (by decide), hb _ _ (by decide), rfl⟩
example : (∃ o, Cent.new 4 6 ⟨2, 1, true⟩ 1 1 2 1 true = .ok o ∧ o.overwrite = true ∧ o.p = 2 ∧ o.outputSize ≤ 100) ∧
    (∃ o, Cent.new 8 12 ⟨2, 1, true⟩ 2 3 2 1 true = .ok o ∧ o.overwrite = true ∧ o.p = 4 ∧ o.outputSize ≤ 100) :=
  ⟨⟨_, rfl, by decide, rfl, by decide⟩, ⟨_, rfl, by decide, rfl, by decide⟩⟩

end Cent
end Fftwpp
